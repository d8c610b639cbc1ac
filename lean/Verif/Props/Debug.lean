import Verif.Proofs.DebugRun
import Verif.Props.SpinFlip

/-!
# C74: the checks of the debug build

Statements are in terms of `UndoesInsertions`, `ReturnsInserted`, `RanksOK` (`Verif.Spec.Debug`), `Abs`, `AllAdmissible`,
`GoodStart` (`Verif.Spec.Machine`) and `weight`, `detAll`, `rowsOf` (`Verif.Spec.Config`).
-/

set_option linter.all false

namespace CTInt

variable {K : Type} [RCLike K] [DecidableEq K]
variable {c : Ctx K}

/-- C74: a debug build run on calls that respect the rules, and whose trials restore only fields of vertices inserted in
    the same batch, never aborts and computes exactly what the release build computes. -/
theorem C74_debug_equals_release_partial (ht : TblOK c.NI c.nf c.tbl) {vs : List Vert}
    (hs : GoodStart c.NI c.nf c.G0 c.tbl vs) {calls : List Call}
    (ha : AllAdmissible c.NI c.nf c.G0 c.tbl (Abs.init vs) calls)
    (hu : UndoesInsertions c.NI c.tbl (Abs.init vs) calls) (J : ℕ → ℕ → ℕ → ℕ → ℕ → K) :
    ∃ s0 s, Sub.create c vs = .ok s0 ∧ s0.runD c J calls = .ok s ∧ s0.run c J calls = .ok s ∧
      s.verts = ((Abs.init vs).run calls).cfg ∧
      (((Abs.init vs).run calls).isOpen = false → ∃ M, s.computeMD c = .ok M ∧ s.computeM c = .ok M) := by
  obtain ⟨s0, e0, h0⟩ := create_means ht hs
  obtain ⟨s, e, h⟩ := run_spec ht h0 ha J
  refine ⟨s0, s, e0, by rw [runD_eq ht h0 ha hu J, e], e, h.cfg, fun ho => ?_⟩
  obtain ⟨M, eM, _⟩ := computeM_spec ht (h.cl ho)
  exact ⟨M, by rw [computeMD_eq ht (h.cl ho), eM], eM⟩

/-- C74: on a trial that respects the rules the assertions hold exactly when it restores only fields of vertices
    inserted in the same batch; the release build treats all of them. -/
theorem C74_debug_trial (ht : TblOK c.NI c.nf c.tbl) {vs : List Vert} (hs : GoodStart c.NI c.nf c.G0 c.tbl vs)
    {calls : List Call} (ha : AllAdmissible c.NI c.nf c.G0 c.tbl (Abs.init vs) calls) {a : Abs}
    (hA : a = (Abs.init vs).run calls) {pos : List ℕ} {spins : List ℤ} {acc : Bool}
    (hc : Admissible c.NI c.nf c.G0 c.tbl a (.flip pos spins acc)) (J : ℕ → ℕ → ℕ → ℕ → ℕ → K) :
    ∃ s0 s z, Sub.create c vs = .ok s0 ∧ s0.run c J calls = .ok s ∧ s.trySpinFlip c pos spins = .ok z ∧
      (ReturnsInserted c.NI c.tbl a.base a.cfg (pos.zip spins) → s.trySpinFlipD c pos spins = .ok z) ∧
      (¬ ReturnsInserted c.NI c.tbl a.base a.cfg (pos.zip spins) → s.trySpinFlipD c pos spins = .ub) := by
  subst hA
  obtain ⟨s0, e0, h0⟩ := create_means ht hs
  obtain ⟨s, e, h⟩ := run_spec ht h0 ha J
  obtain ⟨h1, h2, h3, h4⟩ := hc
  obtain ⟨hb, hI⟩ := h.op h1
  rw [← h.cfg] at h2
  have h3' : ∀ fl < c.nf, FlavorTrial c.NI c.tbl s.verts0 s.verts (pos.zip spins) acc fl := by
    intro fl hfl
    have := h3 fl hfl
    rw [← h.cfg, ← hb] at this
    exact this
  obtain ⟨s1, p0, e1, _⟩ := trySpinFlip_spec ht hI h2.trialOK h3' (J 0 0)
  refine ⟨s0, s, _, e0, e, e1, fun hr => ?_, fun hr => ?_⟩
  · rw [← h.cfg, ← hb] at hr
    rw [trySpinFlipD_eq ht hI h2.trialOK hr, e1]
  · rw [← h.cfg, ← hb] at hr
    exact trySpinFlipD_ub ht hI h2.trialOK hr e1

/-- C74: on every object reached by calls that respect the rules `sanity_check` returns true.  During a batch it changes
    nothing; between batches it replaces the object by its recomputation, which has the same vertices, the same sign and the
    inverse matrices the measurement needs. -/
theorem C74_check_accepts (ht : TblOK c.NI c.nf c.tbl) {vs : List Vert} (hs : GoodStart c.NI c.nf c.G0 c.tbl vs)
    {calls : List Call} (ha : AllAdmissible c.NI c.nf c.G0 c.tbl (Abs.init vs) calls) {a : Abs}
    (hA : a = (Abs.init vs).run calls) (hr : RanksOK c.tbl a.cfg) (J : ℕ → ℕ → ℕ → ℕ → ℕ → K) :
    ∃ s0 s s', Sub.create c vs = .ok s0 ∧ s0.run c J calls = .ok s ∧ s.sanityCheck c = .ok (s', true) ∧
      (a.isOpen = true → s' = s) ∧
      (a.isOpen = false → s.recompute c = .ok s' ∧ s'.verts = s.verts ∧ s'.sign = s.sign ∧
        ∃ M, s'.computeM c = .ok M ∧ ∀ fl < c.nf, ∃ l : List (OpRow K), l.Perm (rowsOf c.NI c.tbl a.cfg fl) ∧
          IsInvOf (M fl) l.length (rowG c.G0 l)) := by
  subst hA
  obtain ⟨s0, e0, h0⟩ := create_means ht hs
  obtain ⟨s, e, h⟩ := run_spec ht h0 ha J
  cases ho : ((Abs.init vs).run calls).isOpen with
  | true =>
    exact ⟨s0, s, s, e0, e, sanity_try (h.op ho).2, fun _ => rfl, fun e => by cases e⟩
  | false =>
    have hR := h.cl ho
    obtain ⟨s', e1, e2, q1, q2, q3⟩ := sanity_ready ht hR (by rw [h.cfg]; exact hr)
    refine ⟨s0, s, s', e0, e, e1, fun e => Bool.noConfusion e, fun _ => ⟨e2, q2, by rw [q1.sgn, hR.sgn, q2], ?_⟩⟩
    obtain ⟨M, eM, hM⟩ := computeM_spec ht q1
    exact ⟨M, eM, fun fl hfl => ⟨(s'.invA fl).rowList, by rw [← h.cfg, ← q2]; exact q1.rows fl hfl, hM fl hfl⟩⟩

/-- An object between batches: no batch open, usable interacting vertices with distinct numbers, empty Γ⁻¹, and the type
    recorded for an operator is that of the vertex with the recorded number.  Nothing is said on the operators listed, on
    A⁻¹ and on the signs. -/
structure BetweenBatches (c : Ctx K) (s : Sub K) : Prop where
  idle : s.trying = false
  int : ∀ v ∈ s.verts, v.nonInt = false
  uids : (s.verts.map Vert.uid).Nodup
  uidle : ∀ v ∈ s.verts, v.uid ≤ s.uid
  ok : ∀ v ∈ s.verts, VertOK c.tbl v
  ranks : RanksOK c.tbl s.verts
  gamr : ∀ fl < c.nf, (s.gam fl).mat.rows = 0
  gamc : ∀ fl < c.nf, (s.gam fl).mat.cols = 0
  gami : ∀ fl < c.nf, (s.gam fl).info = []
  types : ∀ fl < c.nf, ∀ i < (s.invA fl).cr.length, ∀ v ∈ s.verts, ((s.invA fl).vi.getD i default).uid = v.uid →
    ((s.invA fl).vi.getD i default).type = v.type

/-- What the object lists for flavor `fl` are the operator pairs of its vertices, in some order, and the stored A⁻¹ has
    that size. -/
def ListsRight (c : Ctx K) (s : Sub K) (fl : ℕ) : Prop :=
  (s.invA fl).an.length = (s.invA fl).cr.length ∧ (s.invA fl).al.length = (s.invA fl).cr.length ∧
  (s.invA fl).vi.length = (s.invA fl).cr.length ∧ (s.invA fl).mat.rows = (s.invA fl).cr.length ∧
  (s.invA fl).mat.cols = (s.invA fl).cr.length ∧
  (((List.range (s.invA fl).cr.length).map fun i => (⟨(s.invA fl).cr.getD i default, (s.invA fl).an.getD i default,
    (s.invA fl).al.getD i 0, (s.invA fl).vi.getD i default⟩ : OpRow K)).Perm (rowsOf c.NI c.tbl s.verts fl))

theorem myEqual_iff {x y : K} {eps : ℝ} (hy : ‖y‖ = 1) :
    myEqual x y eps = true ↔ ‖x - y‖ < eps * max ‖x‖ 1 := by
  unfold myEqual
  have h0 : y ≠ 0 := by rw [← norm_ne_zero_iff, hy]; exact one_ne_zero
  have hp : 0 < max ‖x‖ 1 := lt_max_of_lt_right one_pos
  simp only [decide_eq_true_eq, hy]
  rw [div_lt_iff₀ hp]
  exact ⟨And.right, fun h => ⟨Or.inr h0, h⟩⟩

/-- C74: for an object between batches the check passes if and only if all operator lists are right, the weight of the
    configuration is not zero and both stored signs are right up to a relative error of 1E-5. -/
theorem C74_check_iff (ht : TblOK c.NI c.nf c.tbl) {s : Sub K} (hb : BetweenBatches c s) :
    (∃ s', s.sanityCheck c = .ok (s', true)) ↔
      (∀ fl < c.nf, ListsRight c s fl) ∧ weight c.NI c.nf c.G0 c.tbl s.verts ≠ 0 ∧
      ‖s.sign - mysign (weight c.NI c.nf c.G0 c.tbl s.verts)‖ < 1E-5 * max ‖s.sign‖ 1 ∧
      ‖s.signDetA - mysign (detAll c.NI c.nf c.G0 c.tbl s.verts)‖ < 1E-5 * max ‖s.signDetA‖ 1 := by
  constructor
  · rintro ⟨s', h⟩
    obtain ⟨hL, hw, h1, h2, _⟩ := sanity_inv ht hb.idle hb.int hb.uids hb.uidle hb.ok hb.ranks hb.gamr hb.gamc hb.gami
      hb.types h
    refine ⟨fun fl hfl => ⟨(hL.al fl hfl).an, (hL.al fl hfl).al, (hL.al fl hfl).vi, hL.matr fl hfl, hL.matc fl hfl,
      hL.rows fl hfl⟩, hw, ?_, ?_⟩
    · exact (myEqual_iff (norm_mysign hw)).mp h1
    · exact (myEqual_iff (norm_mysign ((detAll_ne_of_weight ht hb.ok).mpr hw))).mp h2
  · rintro ⟨hL, hw, h1, h2⟩
    have hL' : Listed c s := ⟨hb.idle, hb.int, hb.uids, hb.uidle, hb.ok,
      fun fl hfl => ⟨rfl, (hL fl hfl).1, (hL fl hfl).2.1, (hL fl hfl).2.2.1⟩, fun fl hfl => (hL fl hfl).2.2.2.1,
      fun fl hfl => (hL fl hfl).2.2.2.2.1, fun fl hfl => (hL fl hfl).2.2.2.2.2, hb.gamr, hb.gamc, hb.gami⟩
    obtain ⟨s', e, _⟩ := sanity_listed ht hL' hb.ranks hw ((myEqual_iff (norm_mysign hw)).mpr h1)
      ((myEqual_iff (norm_mysign ((detAll_ne_of_weight ht hb.ok).mpr hw))).mpr h2)
    exact ⟨s', e⟩

/-- C74: with real weights a stored sign of 1 or -1 that passes is the sign of the weight. -/
theorem C74_sign_exact {c : Ctx ℝ} (ht : TblOK c.NI c.nf c.tbl) {s s' : Sub ℝ} (hb : BetweenBatches c s)
    (hs : s.sign = 1 ∨ s.sign = -1) (h : s.sanityCheck c = .ok (s', true)) :
    0 < s.sign * weight c.NI c.nf c.G0 c.tbl s.verts := by
  obtain ⟨_, hw, h1, _⟩ := (C74_check_iff ht hb).mp ⟨s', h⟩
  set w := weight c.NI c.nf c.G0 c.tbl s.verts with hwd
  have hm : mysign w = w / |w| := rfl
  have e1 : ‖s.sign‖ = 1 := by rcases hs with e | e <;> rw [e] <;> simp
  rw [e1, max_self, hm, Real.norm_eq_abs] at h1
  rcases lt_or_gt_of_ne hw with hn | hp
  · rw [abs_of_neg hn, div_neg, div_self hw] at h1
    rcases hs with e | e
    · rw [e] at h1; norm_num at h1
    · rw [e]; linarith
  · rw [abs_of_pos hp, div_self hw] at h1
    rcases hs with e | e
    · rw [e]; linarith
    · rw [e] at h1; norm_num at h1

/-- The object with other matrices stored as A⁻¹. -/
def withInverses (s : Sub K) (X : ℕ → DMat K) : Sub K :=
  { s with invA := fun fl => { s.invA fl with mat := X fl } }

/-- C74: the check that is announced as "check A^{-1}" does not look at the entries of A⁻¹: put any matrices of the right
    size into an object reached by calls that respect the rules, and the check still returns true.  What it leaves behind
    has the right matrices. -/
theorem C74_check_blind (ht : TblOK c.NI c.nf c.tbl) {vs : List Vert} (hs : GoodStart c.NI c.nf c.G0 c.tbl vs)
    {calls : List Call} (ha : AllAdmissible c.NI c.nf c.G0 c.tbl (Abs.init vs) calls) {a : Abs}
    (hA : a = (Abs.init vs).run calls) (ho : a.isOpen = false) (hr : RanksOK c.tbl a.cfg)
    (J : ℕ → ℕ → ℕ → ℕ → ℕ → K) :
    ∃ s0 s, Sub.create c vs = .ok s0 ∧ s0.run c J calls = .ok s ∧
      ∀ X : ℕ → DMat K, (∀ fl < c.nf, (X fl).rows = (s.invA fl).mat.rows ∧ (X fl).cols = (s.invA fl).mat.cols) →
        ∃ s' M, (withInverses s X).sanityCheck c = .ok (s', true) ∧ s'.verts = a.cfg ∧ s'.computeM c = .ok M ∧
          ∀ fl < c.nf, ∃ l : List (OpRow K), l.Perm (rowsOf c.NI c.tbl a.cfg fl) ∧ IsInvOf (M fl) l.length (rowG c.G0 l) := by
  subst hA
  obtain ⟨s0, e0, h0⟩ := create_means ht hs
  obtain ⟨s, e, h⟩ := run_spec ht h0 ha J
  have hR := h.cl ho
  have hw := ready_weight_ne_zero ht hR
  refine ⟨s0, s, e0, e, fun X hX => ?_⟩
  have hL : Listed c (withInverses s X) := ⟨hR.idle, hR.int, hR.uids, hR.uidle, hR.ok,
    fun fl hfl => ⟨rfl, (hR.al fl hfl).an, (hR.al fl hfl).al, (hR.al fl hfl).vi⟩,
    fun fl hfl => (hX fl hfl).1.trans (hR.inv fl hfl).1, fun fl hfl => (hX fl hfl).2.trans (hR.inv fl hfl).2.1, hR.rows,
    hR.gamr, hR.gamc, hR.gami⟩
  obtain ⟨s', e1, e2, q1, q2, q3⟩ := sanity_listed ht hL (by show RanksOK c.tbl s.verts; rw [h.cfg]; exact hr) hw
    (by
      show myEqual s.sign _ _ = _
      rw [hR.sgn]; exact myEqual_self (mysign_ne_zero hw) (by norm_num))
    (by
      show myEqual s.signDetA _ _ = _
      rw [hR.sgnA]; exact myEqual_self (mysign_ne_zero ((detAll_ne_of_weight ht hR.ok).mpr hw)) (by norm_num))
  obtain ⟨M, eM, hM⟩ := computeM_spec ht q1
  have q2 : s'.verts = s.verts := q2
  exact ⟨s', M, e1, by rw [q2, h.cfg], eM, fun fl hfl => ⟨(s'.invA fl).rowList, by
    rw [← h.cfg, ← q2]; exact q1.rows fl hfl, hM fl hfl⟩⟩

/-- The object with other matrices stored as Γ⁻¹. -/
def withGammas (s : Sub K) (X : ℕ → DMat K) : Sub K :=
  { s with gam := fun fl => { s.gam fl with mat := X fl } }

theorem foldl_flag_ok {f : ℕ → Res Bool} {nf : ℕ}
    (h : Res.foldl (fun b fl => if b then f fl else pure false) true (List.range nf) = .ok true) : ∀ fl < nf, f fl ≠ .ub := by
  induction nf with
  | zero => intro fl hfl; omega
  | succ n ih =>
    rw [List.range_succ, Res.foldl_append, Res.bind_eq_ok] at h
    obtain ⟨b, e1, e2⟩ := h
    rw [Res.foldl_cons] at e2
    cases b with
    | false => simp at e2
    | true =>
      intro fl hfl hu
      rcases Nat.lt_succ_iff_lt_or_eq.mp hfl with h | rfl
      · exact ih e1 fl h hu
      · simp [hu] at e2

/-- C74: during a batch the check looks at Γ⁻¹ only.  Put any matrices of the right size into an object reached by calls that
    respect the rules: the check returns true if and only if for every flavour the mean over all entries of the squared
    difference to the right matrix is below 1E-5. -/
theorem C74_check_batch (ht : TblOK c.NI c.nf c.tbl) {vs : List Vert} (hs : GoodStart c.NI c.nf c.G0 c.tbl vs)
    {calls : List Call} (ha : AllAdmissible c.NI c.nf c.G0 c.tbl (Abs.init vs) calls) {a : Abs}
    (hA : a = (Abs.init vs).run calls) (ho : a.isOpen = true) (J : ℕ → ℕ → ℕ → ℕ → ℕ → K) :
    ∃ s0 s, Sub.create c vs = .ok s0 ∧ s0.run c J calls = .ok s ∧
      ∀ X : ℕ → DMat K, (∀ fl, (X fl).rows = (s.gam fl).mat.rows ∧ (X fl).cols = (s.gam fl).mat.cols) →
        ((withGammas s X).sanityCheck c = .ok (withGammas s X, true) ↔ ∀ fl < c.nf, (s.gam fl).mat.rows = 0 ∨
          (∑ i ∈ Finset.range (s.gam fl).mat.rows, ∑ j ∈ Finset.range (s.gam fl).mat.rows,
            ‖(X fl).val i j - (s.gam fl).mat.val i j‖ ^ 2) / ((s.gam fl).mat.rows : ℝ) ^ 2 < 1E-5) := by
  classical
  subst hA
  obtain ⟨s0, e0, h0⟩ := create_means ht hs
  obtain ⟨s, e, h⟩ := run_spec ht h0 ha J
  have hT := (h.op ho).2
  refine ⟨s0, s, e0, e, fun X hX => ?_⟩
  have key : (withGammas s X).checkGamma c = .ok true ↔ ∀ fl < c.nf, (s.gam fl).mat.rows = 0 ∨
      (∑ i ∈ Finset.range (s.gam fl).mat.rows, ∑ j ∈ Finset.range (s.gam fl).mat.rows,
        ‖(X fl).val i j - (s.gam fl).mat.val i j‖ ^ 2) / ((s.gam fl).mat.rows : ℝ) ^ 2 < 1E-5 := by
    have hf : ∀ fl < c.nf, _ := fun fl hfl => gammaCheck_with (hT.flav fl hfl) (hX fl)
    constructor
    · intro hc fl hfl
      by_contra hn
      have hu := hf fl hfl
      rw [if_neg hn] at hu
      exact absurd hu (foldl_flag_ok hc fl hfl)
    · intro hp
      refine foldl_const_true fun fl hfl => ?_
      have hu := hf fl hfl
      rw [if_pos (hp fl hfl)] at hu
      exact hu
  rw [← key]
  unfold Sub.sanityCheck
  constructor
  · intro hc
    rw [Res.bind_eq_ok] at hc
    obtain ⟨b, e1, e2⟩ := hc
    cases b with
    | true => exact e1
    | false => simp [withGammas, hT.trying] at e2
  · intro hc
    rw [hc, Res.bind_ok]
    simp [withGammas, hT.trying]

/-! ### Concrete cases -/

theorem ex_undoes : UndoesInsertions exCtx.NI exCtx.tbl (Abs.init []) exCalls := by
  refine ⟨trivial, ?_, ?_, trivial, trivial, trivial⟩
  · intro x hx r hr h1 h2; exact absurd rfl h1
  · intro x hx r hr h1 h2; exact absurd rfl h1

theorem ex_ranks : RanksOK exCtx.tbl ((Abs.init []).run exCalls).cfg := by
  intro v hv
  have hv : v ∈ [(⟨0, 0, 2, 1, true, false, 1⟩ : Vert)] := hv
  rw [List.mem_singleton] at hv
  subst hv
  rfl

/-- A history with a rejected and an accepted trial. -/
example : ∃ s0 s, Sub.create exCtx [] = .ok s0 ∧ s0.runD exCtx (fun _ _ _ _ _ => 0) exCalls = .ok s ∧
    s.verts = [⟨0, 0, 2, 1, true, false, 1⟩] := by
  obtain ⟨s0, s, h1, h2, h3, h4, _⟩ := C74_debug_equals_release_partial ex_tbl (empty_goodStart exCtx) ex_admissible ex_undoes
    (fun _ _ _ _ _ => 0)
  exact ⟨s0, s, h1, h2, h4⟩

/-- A trial that undoes an insertion of the same batch does restore a field, and satisfies `ReturnsInserted`. -/
example : ReturnsInserted exCtx.NI exCtx.tbl [⟨0, 0, 2, 1, true, true, 1⟩] [⟨0, 0, 2, 1, true, false, 1⟩] [(0, -1)] ∧
    fieldOf exCtx.NI exCtx.tbl ⟨0, 0, 2, 1, true, false, 1⟩ 0 ≠ fieldOf exCtx.NI exCtx.tbl ⟨0, 0, 2, 1, true, true, 1⟩ 0 := by
  constructor
  · intro x hx r hr h1 h2
    rw [List.mem_singleton] at hx
    subst hx
    rfl
  · show (if (0 : ℕ) = 0 then (2 : ℝ) else -1) ≠ 100
    norm_num

example : ∃ s0 s s', Sub.create exCtx [] = .ok s0 ∧ s0.run exCtx (fun _ _ _ _ _ => 0) exCalls = .ok s ∧
    s.sanityCheck exCtx = .ok (s', true) ∧ s'.sign = s.sign := by
  obtain ⟨s0, s, s', h1, h2, h3, _, h4⟩ := C74_check_accepts ex_tbl (empty_goodStart exCtx) ex_admissible rfl ex_ranks
    (fun _ _ _ _ _ => 0)
  exact ⟨s0, s, s', h1, h2, h3, (h4 rfl).2.2.1⟩

/-- What is stored as Γ⁻¹, with the first entry for flavour `fl` off by the size of the matrix. -/
noncomputable def spoiled (s : Sub ℝ) (fl f : ℕ) : DMat ℝ :=
  ⟨(s.gam f).mat.rows, (s.gam f).mat.cols, fun i j =>
    (s.gam f).mat.val i j + if f = fl ∧ i = 0 ∧ j = 0 then ((s.gam f).mat.rows : ℝ) else 0⟩

/-- A batch with an accepted insertion is open: what is stored passes, the spoiled matrices do not. -/
example : ∃ s0 s : Sub ℝ, Sub.create exCtx [] = .ok s0 ∧ s0.run exCtx (fun _ _ _ _ _ => 0) (exCalls.take 3) = .ok s ∧
    s.sanityCheck exCtx = .ok (s, true) ∧ ∀ fl < 2, 0 < (s.gam fl).mat.rows →
      (withGammas s (spoiled s fl)).sanityCheck exCtx ≠ .ok (withGammas s (spoiled s fl), true) := by
  have ha : AllAdmissible exCtx.NI exCtx.nf exCtx.G0 exCtx.tbl (Abs.init []) (exCalls.take 3) :=
    ⟨ex_admissible.1, ex_admissible.2.1, ex_admissible.2.2.1, trivial⟩
  obtain ⟨s0, s, h1, h2, h3⟩ := C74_check_batch ex_tbl (empty_goodStart exCtx) ha rfl rfl (fun _ _ _ _ _ => 0)
  refine ⟨s0, s, h1, h2, ?_, fun fl hfl hp hx => ?_⟩
  · exact (h3 (fun fl => (s.gam fl).mat) fun _ => ⟨rfl, rfl⟩).mpr fun fl _ => Or.inr (by simp; norm_num)
  · rcases (h3 (spoiled s fl) fun _ => ⟨rfl, rfl⟩).mp hx fl hfl with h | h
    · omega
    · have hn : (0 : ℝ) < ((s.gam fl).mat.rows : ℝ) := by exact_mod_cast hp
      rw [div_lt_iff₀ (by positivity)] at h
      have h0 := Finset.mem_range.mpr hp
      have h1 := Finset.single_le_sum (f := fun i => ∑ j ∈ Finset.range (s.gam fl).mat.rows,
        ‖(spoiled s fl fl).val i j - (s.gam fl).mat.val i j‖ ^ 2) (fun i _ => Finset.sum_nonneg fun j _ => by positivity) h0
      have h2 := Finset.single_le_sum (f := fun j => ‖(spoiled s fl fl).val 0 j - (s.gam fl).mat.val 0 j‖ ^ 2)
        (fun i _ => by positivity) h0
      have h3 : ‖(spoiled s fl fl).val 0 0 - (s.gam fl).mat.val 0 0‖ ^ 2 = ((s.gam fl).mat.rows : ℝ) ^ 2 := by
        simp [spoiled]
      have h2' := h2.trans h1
      simp only [h3] at h2'
      have h4 := lt_of_le_of_lt h2' h
      have := pow_pos hn 2
      norm_num at h4
      linarith

/-- With zeros stored as A⁻¹ the measured matrices are zero, and the check passes. -/
example : ∃ s : Sub ℝ, ∃ X : ℕ → DMat ℝ, (∃ M, (withInverses s X).computeM exCtx = .ok M ∧ (M 0).rows = 1 ∧ (M 0).val 0 0 = 0) ∧
    ∃ s' M, (withInverses s X).sanityCheck exCtx = .ok (s', true) ∧ s'.computeM exCtx = .ok M ∧ (M 0).val 0 0 ≠ 0 := by
  obtain ⟨s0, s, h1, h2, h3⟩ := C74_check_blind ex_tbl (empty_goodStart exCtx) ex_admissible rfl rfl ex_ranks
    (fun _ _ _ _ _ => 0)
  obtain ⟨s0', e0, m0⟩ := create_means ex_tbl (empty_goodStart exCtx)
  obtain ⟨s2, e, h⟩ := run_spec ex_tbl m0 ex_admissible (fun _ _ _ _ _ => 0)
  rw [h1] at e0
  cases e0
  rw [h2] at e
  cases e
  have hR := h.cl rfl
  have hv : s.verts = [⟨0, 0, 2, 1, true, false, 1⟩] := h.cfg
  have hlen : (s.invA 0).cr.length = 1 := by
    have := (hR.rows 0 (by decide)).length_eq
    rw [rowList_length] at this
    rw [this, hv]
    have ht : termOf exCtx.tbl ⟨0, 0, 2, 1, true, false, 1⟩ = exTerm := rfl
    simp [rowsOf, rowsV, ht, exTerm, flavorOf, List.range_succ, List.filter_cons]
  refine ⟨s, fun fl => ⟨(s.invA fl).mat.rows, (s.invA fl).mat.cols, fun _ _ => 0⟩, ?_, ?_⟩
  · have hf : ∀ fl < exCtx.nf, ∃ M, ((withInverses s fun fl => ⟨(s.invA fl).mat.rows, (s.invA fl).mat.cols, fun _ _ => 0⟩).invA
        fl).computeM exCtx.NI = .ok M ∧ (M.rows = (s.invA fl).cr.length ∧ M.val 0 0 = 0) := by
      intro fl hfl
      unfold InvA.computeM withInverses
      simp only []
      rw [Res.assert_true ⟨by rw [(hR.inv fl hfl).1, (hR.inv fl hfl).2.1], by rw [(hR.inv fl hfl).2.1],
        by rw [(hR.inv fl hfl).2.1, (hR.al fl hfl).al]⟩, Res.bind_ok]
      exact ⟨_, rfl, (hR.inv fl hfl).2.1, mul_zero _⟩
    obtain ⟨y, e, p, _⟩ := forFlavors_spec (nf := exCtx.nf) (f := fun fl (_ : DMat ℝ) => ((withInverses s fun fl =>
      ⟨(s.invA fl).mat.rows, (s.invA fl).mat.cols, fun _ _ => 0⟩).invA fl).computeM exCtx.NI)
      (x := fun _ => ⟨0, 0, fun _ _ => 0⟩) (P := fun fl M => M.rows = (s.invA fl).cr.length ∧ M.val 0 0 = 0) hf
    exact ⟨y, e, by rw [(p 0 (by decide)).1, hlen], (p 0 (by decide)).2⟩
  · obtain ⟨s', M, e1, e2, e3, e4⟩ := h3 (fun fl => ⟨(s.invA fl).mat.rows, (s.invA fl).mat.cols, fun _ _ => 0⟩)
      fun fl _ => ⟨rfl, rfl⟩
    refine ⟨s', M, e1, e3, ?_⟩
    obtain ⟨l, hl, hi⟩ := e4 0 (by decide)
    have hl1 : l.length = 1 := by
      rw [hl.length_eq]
      have := (hR.rows 0 (by decide)).length_eq
      rw [rowList_length, hlen] at this
      rw [← h.cfg]; exact this.symm
    rw [hl1] at hi
    intro hz
    have := congrFun (congrFun hi.2.2 0) 0
    rw [Matrix.mul_apply, Fin.sum_univ_one, toM_apply] at this
    simp only [Fin.val_zero, hz, zero_mul, Matrix.one_apply_eq] at this
    exact zero_ne_one this

/-- C74, code violation: the release build flips a vertex of the batch start to its other state and back; in the debug
    build the trial that brings it back aborts. -/
theorem C74_debug_aborts : ∃ (s0 s : Sub ℝ) (z : Sub ℝ × ℝ × ℝ × ℝ),
    Sub.create exCtx1 [exVertAt 0 (1 / 4) 1] = .ok s0 ∧
    s0.run exCtx1 (fun _ _ _ _ _ => 0) [.start [], .flip [0] [1] true] = .ok s ∧
    s.trySpinFlip exCtx1 [0] [0] = .ok z ∧ s.trySpinFlipD exCtx1 [0] [0] = .ub ∧
    z.2.1 * z.2.2.1 * z.2.2.2 = weight exCtx1.NI exCtx1.nf exCtx1.G0 exCtx1.tbl [exVertAt 0 (1 / 4) 1] /
      weight exCtx1.NI exCtx1.nf exCtx1.G0 exCtx1.tbl [exVertAt 1 (1 / 4) 1] := by
  have ht : ∀ v : Vert, v.type = 0 → termOf exCtx1.tbl v = exTerm1 := by
    intro v h; unfold termOf; rw [h]; rfl
  have hs : GoodStart exCtx1.NI exCtx1.nf exCtx1.G0 exCtx1.tbl [exVertAt 0 (1 / 4) 1] := by
    refine ⟨by simp [exVertAt], ?_, ?_⟩
    · intro v hv
      rw [List.mem_singleton] at hv
      subst hv
      refine ⟨Nat.zero_lt_one, fun _ => ?_⟩
      show (0 : ℤ) ≤ 0 ∧ (0 : ℤ) < ((2 : ℕ) : ℤ)
      omega
    · show weight _ _ _ _ [exVertAt 0 (1 / 4) 1] ≠ 0
      rw [ex_weight1 rfl rfl rfl]; norm_num
  have ha : AllAdmissible exCtx1.NI exCtx1.nf exCtx1.G0 exCtx1.tbl (Abs.init [exVertAt 0 (1 / 4) 1])
      [.start [], .flip [0] [1] true] := by
    refine ⟨⟨rfl, by simp⟩, ⟨rfl, ⟨rfl, by simp, ?_, ?_⟩, ?_, ?_⟩, trivial⟩
    · intro p hp; simp only [List.mem_singleton] at hp; subst hp; show 0 < 1; omega
    · intro x hx
      simp only [List.zip_cons_cons, List.zip_nil_right, List.mem_singleton] at hx
      subst hx
      right
      rw [ht _ rfl]
      exact ⟨by decide, by decide⟩
    · intro fl _
      left
      intro x _ r _ _
      exact Or.inl rfl
    · intro _
      show weight exCtx1.NI exCtx1.nf exCtx1.G0 exCtx1.tbl [exVertAt 1 (1 / 4) 1] ≠ 0
      rw [ex_weight1' rfl rfl rfl]; norm_num
  have hwf : WellFormed exCtx1.tbl [exVertAt 1 (1 / 4) 1] [0] [0] := by
    refine ⟨rfl, by simp, ?_, ?_⟩
    · intro p hp; simp only [List.mem_singleton] at hp; subst hp; show 0 < 1; omega
    · intro x hx
      simp only [List.zip_cons_cons, List.zip_nil_right, List.mem_singleton] at hx
      subst hx
      right
      rw [ht _ rfl]
      exact ⟨by decide, by decide⟩
  have hret : ∀ fl < exCtx1.nf, OnlyReturns exCtx1.NI exCtx1.tbl [exVertAt 0 (1 / 4) 1] [exVertAt 1 (1 / 4) 1] [(0, 0)] fl := by
    intro fl _ x hx r _ _
    rw [List.mem_singleton] at hx
    subst hx
    exact Or.inl rfl
  have hadm : Admissible exCtx1.NI exCtx1.nf exCtx1.G0 exCtx1.tbl
      ((Abs.init [exVertAt 0 (1 / 4) 1]).run [.start [], .flip [0] [1] true]) (.flip [0] [0] true) := by
    refine ⟨rfl, hwf, fun fl hfl => Or.inr (Or.inl (hret fl hfl)), fun _ => ?_⟩
    show weight exCtx1.NI exCtx1.nf exCtx1.G0 exCtx1.tbl [exVertAt 0 (1 / 4) 1] ≠ 0
    rw [ex_weight1 rfl rfl rfl]; norm_num
  obtain ⟨s0, s, z, e0, e, e1, _, e3⟩ := C74_debug_trial ex_tbl1 hs ha rfl hadm (fun _ _ _ _ _ => 0)
  refine ⟨s0, s, z, e0, e, e1, e3 ?_, ?_⟩
  · intro hr
    have := hr (0, 0) (by simp) 0 (by show 0 < 2; omega) (by
      show (if (1 : ℕ) = 0 then (2 : ℝ) else -1) ≠ if (0 : ℕ) = 0 then 2 else -1
      norm_num) rfl
    have h2 : (if (0 : ℕ) = 0 then (2 : ℝ) else -1) = 100 := this
    norm_num at h2
  · obtain ⟨s0', s', t, p, f, u, f0, f1, f2, _, f4⟩ := C05_trial_weight_ratio_partial ex_tbl1 hs ha rfl rfl hwf
      (fun fl hfl => Or.inr (Or.inl (hret fl hfl))) (fun fl hfl => Or.inr (Or.inl (hret fl hfl))) (fun _ _ _ _ _ => 0)
    rw [e0] at f0
    cases f0
    rw [e] at f1
    cases f1
    rw [e1] at f2
    cases f2
    exact f4

end CTInt
