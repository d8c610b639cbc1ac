import Verif.Proofs.FlipBalance
import Verif.Props.Manager

/-!
# C63: spin-flip updates leave the distribution of the auxiliary fields unchanged
-/

set_option linter.all false

namespace CTInt

open MeasureTheory Set

variable {K : Type} [RCLike K] [DecidableEq K]
variable {c : Ctx K}

/-- An object the program can have between two updates: created from a usable configuration and then changed by any
    updates, with any random numbers. -/
def ReachedBy (m : Mgr) (c : Ctx K) (s : Sub K) : Prop :=
  ∃ (vs : List Vert) (s0 : Sub K) (st : AccStat) (p : ℕ) (J : ℕ → ℕ → ℕ → ℕ → ℕ → ℕ → K) (u : ℕ → ℝ) (fuel : ℕ) (l : List Upd)
    (y : Walker K), GoodStart c.NI c.nf c.G0 c.tbl vs ∧ (∀ k, 0 ≤ u k ∧ u k < 1) ∧ Sub.create c vs = .ok s0 ∧
    (⟨s0, st, p⟩ : Walker K).run m c J u fuel l = .ok y ∧ y.s = s

theorem ReachedBy.means (ht : TblOK c.NI c.nf c.tbl) (hf : FullTerms c) {beta : ℝ} {kIns maxOrder : ℕ} {sz : ℝ}
    {m : Mgr} (hm : m = Mgr.create beta kIns maxOrder sz c.tbl) {s : Sub K} (h : ReachedBy m c s) :
    ∃ a, Means c s a ∧ a.isOpen = false := by
  obtain ⟨vs, s0, st, p, J, u, fuel, l, y, hs, hu, e0, e1, rfl⟩ := h
  obtain ⟨s1, e2, m0⟩ := create_means ht hs
  rw [e0] at e2
  injection e2 with e2
  subst e2
  have := (run_total ht hf hm hu (x := ⟨s0, st, p⟩) ⟨_, m0, rfl⟩ J l).good fuel
  rw [e1] at this
  exact this

/-! ## Runs of spin-flip updates -/

/-- The mean of `F` after an update. -/
noncomputable def flipBatch (c : Ctx K) (m : Mgr) : Upd → (List Vert → ENNReal) → List Vert → ENNReal
  | .spinFlip, F => fun x => pickMean x.length (fun L => flipOps c L F x) [] (min (2 * m.kIns) x.length)
  | .insRem, F | .shift, F | .recompute, F => F

/-- The mean of `F` after several updates. -/
noncomputable def flipRun (c : Ctx K) (m : Mgr) : List Upd → (List Vert → ENNReal) → List Vert → ENNReal
  | [], F => F
  | b :: l, F => flipBatch c m b (flipRun c m l F)

/-- Counting positions from `q` on. -/
def Run.shiftW (q : ℕ) : Run (Walker K) → Run (Walker K)
  | .ok y => .ok ⟨y.s, y.stat, q + y.p⟩
  | .throw e => .throw e
  | .ub => .ub
  | .more => .more

theorem doSpinFlip_shift (m : Mgr) (J : ℕ → ℕ → ℕ → ℕ → ℕ → K) (u : ℕ → ℝ) (fuel : ℕ) (s : Sub K) (q p : ℕ) :
    m.doSpinFlip c J u fuel s (q + p) = (m.doSpinFlip c J (dropS q u) fuel s p).shift3 q := by
  unfold Mgr.doSpinFlip pickNumbers
  simp only [pickLoop_shift]
  refine Run.shift_bind3 q _ fun L p => ?_
  refine Run.bind_shift3 q _ fun s1 => ?_
  simp only [spinFlipLoop_shift J u fuel L s1 1 q p]
  refine Run.shift3_bind q _ fun s2 w p => ?_
  exact Run.bind_shift3 q _ fun s3 => rfl

theorem Run.shift3_bindW {α : Type} (q : ℕ) (x : Run (Sub K × α × ℕ)) {f g : Sub K × α × ℕ → Run (Walker K)}
    (h : ∀ y w p, f (y, w, q + p) = Run.shiftW q (g (y, w, p))) : (x.shift3 q >>= f) = Run.shiftW q (x >>= g) := by
  cases x with
  | ok z => obtain ⟨y, w, p⟩ := z; exact h y w p
  | throw e => rfl
  | ub => rfl
  | more => rfl

theorem Run.shiftW_bind (q : ℕ) (x : Run (Walker K)) {f g : Walker K → Run (Walker K)}
    (h : ∀ y, f ⟨y.s, y.stat, q + y.p⟩ = Run.shiftW q (g y)) : (Run.shiftW q x >>= f) = Run.shiftW q (x >>= g) := by
  cases x with
  | ok z => exact h z
  | throw e => rfl
  | ub => rfl
  | more => rfl

/-- Only spin flips and recomputations. -/
def OnlyFlips (l : List Upd) : Prop := ∀ a ∈ l, a = .spinFlip ∨ a = .recompute

theorem run_shift {l : List Upd} (hl : OnlyFlips l) (m : Mgr) (J : ℕ → ℕ → ℕ → ℕ → ℕ → ℕ → K) (u : ℕ → ℝ) (fuel : ℕ)
    (x : Walker K) (q : ℕ) :
    (⟨x.s, x.stat, q + x.p⟩ : Walker K).run m c J u fuel l = Run.shiftW q (x.run m c J (dropS q u) fuel l) := by
  induction l generalizing x with
  | nil => rfl
  | cons b l ih =>
    unfold Walker.run
    have hstep : (⟨x.s, x.stat, q + x.p⟩ : Walker K).step m c (J l.length) u fuel b =
        Run.shiftW q (x.step m c (J l.length) (dropS q u) fuel b) := by
      rcases hl b (by simp) with rfl | rfl
      · unfold Walker.step
        simp only []
        rw [doSpinFlip_shift]
        exact Run.shift3_bindW q _ fun s w p => rfl
      · unfold Walker.step
        simp only []
        cases x.s.recompute c <;> rfl
    rw [hstep]
    exact Run.shiftW_bind q _ fun y => ih (fun a ha => hl a (by simp [ha])) y

/-- The event that the run of the updates ends with a configuration in `Y`. -/
def RunEnds (m : Mgr) (c : Ctx K) (J : ℕ → ℕ → ℕ → ℕ → ℕ → ℕ → K) (l : List Upd) (st : AccStat) (Y : Set (List Vert)) (s : Sub K) (p : ℕ)
    (u : ℕ → ℝ) : Prop :=
  ∃ y, Returns (fun fuel => (⟨s, st, p⟩ : Walker K).run m c J u fuel l) y ∧ y.s.verts ∈ Y

theorem runEnds_shift {l : List Upd} (hl : OnlyFlips l) (m : Mgr) (J : ℕ → ℕ → ℕ → ℕ → ℕ → ℕ → K) (st : AccStat) (Y : Set (List Vert))
    (s : Sub K) (q p : ℕ) (u : ℕ → ℝ) : RunEnds m c J l st Y s (q + p) u ↔ RunEnds m c J l st Y s p (dropS q u) := by
  have key := fun fuel => run_shift (c := c) hl m J u fuel (⟨s, st, p⟩ : Walker K) q
  simp only [] at key
  unfold RunEnds
  simp only [key]
  constructor
  · rintro ⟨y, ⟨F, hF⟩, hY⟩
    have h0 := hF F le_rfl
    simp only at h0
    have hp : ∃ p', y.p = q + p' := by
      cases e : (⟨s, st, p⟩ : Walker K).run m c J (dropS q u) F l with
      | ok z => rw [e] at h0; injection h0 with h0; exact ⟨z.p, by rw [← h0]⟩
      | throw _ => rw [e] at h0; cases h0
      | ub => rw [e] at h0; cases h0
      | more => rw [e] at h0; cases h0
    obtain ⟨p', hp'⟩ := hp
    refine ⟨⟨y.s, y.stat, p'⟩, ⟨F, fun n hn => ?_⟩, hY⟩
    have h1 := hF n hn
    simp only at h1
    cases e : (⟨s, st, p⟩ : Walker K).run m c J (dropS q u) n l with
    | ok z =>
      rw [e] at h1
      injection h1 with h1
      obtain ⟨z1, z2, z3⟩ := z
      rw [← h1] at hp'
      simp only at hp'
      have : z3 = p' := by omega
      subst this
      rw [← h1]
      exact e
    | throw _ => rw [e] at h1; cases h1
    | ub => rw [e] at h1; cases h1
    | more => rw [e] at h1; cases h1
  · rintro ⟨y, ⟨F, hF⟩, hY⟩
    exact ⟨⟨y.s, y.stat, q + y.p⟩, ⟨F, fun n hn => by have h1 := hF n hn; simp only at h1 ⊢; rw [h1]; rfl⟩, hY⟩

open Classical in
theorem run_law (ht : TblOK c.NI c.nf c.tbl) (hf : FullTerms c) (m : Mgr) (J : ℕ → ℕ → ℕ → ℕ → ℕ → ℕ → K)
    {l : List Upd} (hl : OnlyFlips l) (st : AccStat) (Y : Set (List Vert)) {s : Sub K} {x : List Vert} (h : Idle c s x) :
    streams {u | RunEnds m c J l st Y s 0 u} = flipRun c m l (fun x => if x ∈ Y then 1 else 0) x := by
  induction l generalizing s x with
  | nil =>
    have hv : s.verts = x := by obtain ⟨⟨a, h1, _, rfl⟩, _⟩ := h; exact h1.cfg
    have e : ∀ u, RunEnds m c J [] st Y s 0 u ↔ x ∈ Y := by
      intro u
      constructor
      · rintro ⟨y, hr, hY⟩
        have := Returns.const.1 (show Returns (fun _ => Run.ok (⟨s, st, 0⟩ : Walker K)) y from hr)
        rw [← this] at hY
        rw [← hv]; exact hY
      · intro hY
        exact ⟨⟨s, st, 0⟩, ⟨0, fun _ _ => rfl⟩, by rw [← hv] at hY; exact hY⟩
    simp only [e]
    unfold flipRun
    by_cases hY : x ∈ Y
    · simp [hY]
    · simp [hY]
  | cons b l ih =>
    have hl' : OnlyFlips l := fun a ha => hl a (by simp [ha])
    unfold flipRun
    rcases hl b (by simp) with rfl | rfl
    · refine Eq.trans ?_ (doSpinFlip_law ht hf m (J l.length) (B := fun s => {u | RunEnds m c J l st Y s 0 u})
        (F := flipRun c m l (fun x => if x ∈ Y then 1 else 0)) (fun s x h => ih hl' h) h)
      refine ae_iff fun u hu => ?_
      have hd : ∃ s' w p, Returns (fun fuel => m.doSpinFlip c (J l.length) u fuel s 0) (s', w, p) := by
        obtain ⟨⟨a, h1, h2, _⟩, _⟩ := h
        obtain ⟨F, ⟨s', w, p⟩, hF⟩ := (doSpinFlip_total ht hf hu.2 m h1 h2 (J l.length) 0).ends hu.1
        exact ⟨s', w, p, F, hF⟩
      obtain ⟨s', w, p, hd⟩ := hd
      have hb : ∀ y, Returns (fun fuel => (⟨s, st, 0⟩ : Walker K).run m c J u fuel (.spinFlip :: l)) y ↔
          Returns (fun fuel => (⟨s', st, p⟩ : Walker K).run m c J u fuel l) y := by
        intro y
        have := Returns.bind_iff (g := fun fuel (z : Sub K × K × ℕ) => (⟨z.1, st, z.2.2⟩ : Walker K).run m c J u fuel l) hd y
        rw [← this]
        refine returns_congr (fun fuel => ?_) y
        conv_lhs => unfold Walker.run Walker.step
        simp only []
        cases m.doSpinFlip c (J l.length) u fuel s 0 <;> rfl
      constructor
      · rintro ⟨y, hy, hY⟩
        refine ⟨s', w, p, hd, ?_⟩
        show RunEnds m c J l st Y s' 0 (dropS p u)
        rw [← runEnds_shift hl' m J st Y s' p 0 u]
        exact ⟨y, (hb y).1 hy, hY⟩
      · rintro ⟨s2, w2, p2, hr, hB⟩
        have := hr.unique hd
        injection this with q1 q2
        injection q2 with q2 q3
        subst q1 q2 q3
        have hB : RunEnds m c J l st Y s2 0 (dropS p2 u) := hB
        rw [← runEnds_shift hl' m J st Y s2 p2 0 u] at hB
        obtain ⟨y, hy, hY⟩ := hB
        exact ⟨y, (hb y).2 hy, hY⟩
    · obtain ⟨⟨a, h1, h2, h3⟩, h4⟩ := h
      obtain ⟨s', e', m'⟩ := step_spec ht h1 (call := .recompute) h2 (fun _ _ _ _ => 0)
      have e' : s.recompute c = .ok s' := e'
      rw [flipBatch, ← ih hl' (s := s') ⟨⟨_, m', h2, h3⟩, h4⟩]
      congr 1
      ext u
      have hb : ∀ fuel, (⟨s, st, 0⟩ : Walker K).run m c J u fuel (.recompute :: l) =
          (⟨s', st, 0⟩ : Walker K).run m c J u fuel l := by
        intro fuel
        conv_lhs => unfold Walker.run Walker.step
        simp only [e', Run.lift_ok, Run.bind_ok, Run.pure_eq]
      simp only [mem_setOf_eq, RunEnds, hb]

theorem flipRun_stationary (m : Mgr) (l : List Upd) (vs : List Vert) (F : List Vert → ENNReal) :
    ∑ x ∈ fieldStates c.tbl vs, ENNReal.ofReal (target c.NI c.nf c.G0 c.tbl x) * flipRun c m l F x =
      ∑ x ∈ fieldStates c.tbl vs, ENNReal.ofReal (target c.NI c.nf c.G0 c.tbl x) * F x := by
  induction l with
  | nil => rfl
  | cons b l ih =>
    rw [← ih]
    show ∑ x ∈ fieldStates c.tbl vs, _ * flipBatch c m b (flipRun c m l F) x = _
    cases b with
    | spinFlip =>
      unfold flipBatch
      simp only []
      have e : ∀ x ∈ fieldStates c.tbl vs,
          ENNReal.ofReal (target c.NI c.nf c.G0 c.tbl x) * pickMean x.length (fun L => flipOps c L (flipRun c m l F) x) []
            (min (2 * m.kIns) x.length) =
          ENNReal.ofReal (target c.NI c.nf c.G0 c.tbl x) * pickMean vs.length (fun L => flipOps c L (flipRun c m l F) x) []
            (min (2 * m.kIns) vs.length) := by
        intro x hx
        rw [(fieldStates_spec hx).1]
      rw [Finset.sum_congr rfl e]
      exact pickMean_stationary (N := vs.length) (n := min (2 * m.kIns) vs.length) (fieldStates c.tbl vs) _ (fun x L => flipOps c L (flipRun c m l F) x)
        (fun L _ hL => flipOps_stationary hL _) List.nodup_nil (by simp) (by simp)
    | insRem => rfl
    | shift => rfl
    | recompute => rfl

/-! ## C63 -/

open Classical in
/-- **C63.**  Choose the states of the auxiliary fields of a configuration with the probabilities `target`, up to
    normalisation, and let any number of spin-flip updates follow (with recomputations of the matrices at any place),
    with independent random numbers uniform in [0,1): the states are distributed as before.  `obj x` is any object that
    the program can have and that holds the configuration `x`; for configurations with weight 0 there is none, and none
    is needed. -/
theorem C63_stationary (ht : TblOK c.NI c.nf c.tbl) (hf : FullTerms c) {beta : ℝ} {kIns maxOrder : ℕ} {sz : ℝ}
    {m : Mgr} (hm : m = Mgr.create beta kIns maxOrder sz c.tbl) (vs : List Vert) (obj : List Vert → Sub K)
    (hobj : ∀ x ∈ fieldStates c.tbl vs, weight c.NI c.nf c.G0 c.tbl x ≠ 0 → ReachedBy m c (obj x) ∧ (obj x).verts = x)
    {l : List Upd} (hl : ∀ a ∈ l, a = .spinFlip ∨ a = .recompute) (st : AccStat)
    (J : ℕ → ℕ → ℕ → ℕ → ℕ → ℕ → K) (Y : Set (List Vert)) :
    ∑ x ∈ fieldStates c.tbl vs, ENNReal.ofReal (target c.NI c.nf c.G0 c.tbl x) *
        streams {u | ∃ y, Returns (fun fuel => (⟨obj x, st, 0⟩ : Walker K).run m c J u fuel l) y ∧ y.s.verts ∈ Y} =
      ∑ x ∈ fieldStates c.tbl vs with x ∈ Y, ENNReal.ofReal (target c.NI c.nf c.G0 c.tbl x) := by
  have e : ∀ x ∈ fieldStates c.tbl vs, ENNReal.ofReal (target c.NI c.nf c.G0 c.tbl x) *
      streams {u | ∃ y, Returns (fun fuel => (⟨obj x, st, 0⟩ : Walker K).run m c J u fuel l) y ∧ y.s.verts ∈ Y} =
      ENNReal.ofReal (target c.NI c.nf c.G0 c.tbl x) * flipRun c m l (fun x => if x ∈ Y then 1 else 0) x := by
    intro x hx
    by_cases hw : weight c.NI c.nf c.G0 c.tbl x = 0
    · unfold target; rw [hw]; simp
    · obtain ⟨h1, h2⟩ := hobj x hx hw
      obtain ⟨a, h3, h4⟩ := h1.means ht hf hm
      rw [← run_law ht hf m J hl st Y (s := obj x) ⟨⟨a, h3, h4, by rw [← h3.cfg, h2]⟩, ?_⟩]
      · rfl
      · intro v hv
        obtain ⟨j, hj, rfl⟩ := List.mem_iff_getElem.1 hv
        have := ((fieldStates_spec hx).2 j hj).1
        rwa [List.getD_eq_getElem _ _ hj] at this
  rw [Finset.sum_congr rfl e, flipRun_stationary, Finset.sum_filter]
  refine Finset.sum_congr rfl fun x _ => ?_
  split <;> simp

/-- **C63.**  Detailed balance of one attempt: the probability that an attempt at vertex `i` ends in `y`, weighted with
    the stationary density, is the same as for the way back.  `s` and `s'` are objects within a batch in which vertex `i`
    has not been changed yet. -/
theorem C63_detailed_balance (ht : TblOK c.NI c.nf c.tbl) {s s' : Sub K} {a a' : Abs} (h : Means c s a) (h' : Means c s' a')
    (hop : a.isOpen = true) (hop' : a'.isOpen = true) (hint : ∀ v ∈ a.cfg, v.nonInt = false) {i k : ℕ} (hi : i < a.cfg.length)
    (hk : k < (termOf c.tbl (a.cfg.getD i default)).numAf) (hka : (k : ℤ) ≠ (a.cfg.getD i default).af)
    (hib : a.cfg.getD i default = a.base.getD i default) (hcfg : a'.cfg = a.cfg.modify i (flipTo · (k : ℤ)))
    (hib' : a'.cfg.getD i default = a'.base.getD i default) (junk : ℕ → ℕ → ℕ → K) :
    ENNReal.ofReal (target c.NI c.nf c.G0 c.tbl a.cfg) *
        streams {u | ∃ t o p, Returns (fun fuel => Mgr.spinFlipStep c junk u fuel s i 0) (t, o, p) ∧ t.verts = a'.cfg} =
      ENNReal.ofReal (target c.NI c.nf c.G0 c.tbl a'.cfg) *
        streams {u | ∃ t o p, Returns (fun fuel => Mgr.spinFlipStep c junk u fuel s' i 0) (t, o, p) ∧ t.verts = a.cfg} := by
  classical
  -- the probability of one transition
  have law : ∀ {s : Sub K} {a : Abs} {k : ℕ}, Means c s a → a.isOpen = true → (∀ v ∈ a.cfg, v.nonInt = false) → i < a.cfg.length →
      k < (termOf c.tbl (a.cfg.getD i default)).numAf → (k : ℤ) ≠ (a.cfg.getD i default).af →
      a.cfg.getD i default = a.base.getD i default →
      streams {u | ∃ t o p, Returns (fun fuel => Mgr.spinFlipStep c junk u fuel s i 0) (t, o, p) ∧
        t.verts = a.cfg.modify i (flipTo · (k : ℤ))} =
      ENNReal.ofReal (1 / (((termOf c.tbl (a.cfg.getD i default)).numAf - 1 : ℕ) : ℝ)) *
        accProb c a.cfg (a.cfg.modify i (flipTo · (k : ℤ))) := by
    intro s a k h hop hint hi hk hka hib
    have haf := (h.vertOK _ (by rw [List.getD_eq_getElem _ _ hi]; exact List.getElem_mem _)).2
      (hint (a.cfg.getD i default) (by rw [List.getD_eq_getElem _ _ hi]; exact List.getElem_mem _))
    obtain ⟨y, ey⟩ : ∃ y, y = a.cfg.modify i (flipTo · (k : ℤ)) := ⟨_, rfl⟩
    have hne : ∀ j : ℕ, j ≠ k → a.cfg.modify i (flipTo · (j : ℤ)) ≠ y := by
      intro j hj e
      have := congrArg (fun l => (l.getD i default).af) e
      rw [ey] at this
      simp only [getD_modify _ _ _ _ hi, if_true] at this
      unfold flipTo at this
      rw [if_neg (by omega), if_neg (by omega)] at this
      simp only at this
      omega
    have hne0 : a.cfg ≠ y := by
      intro e
      have := congrArg (fun l => (l.getD i default).af) e
      rw [ey] at this
      simp only [getD_modify _ _ _ _ hi, if_true] at this
      unfold flipTo at this
      rw [if_neg (by omega)] at this
      exact hka this.symm
    have hl := spinFlipLoop_law ht (fun _ _ => junk) (B := fun s => {_u | s.verts = y}) (F := fun x => if x = y then 1 else 0)
      (by
        intro s a h
        by_cases e : a.cfg = y
        · simp [e, h.means.cfg]
        · simp [e, h.means.cfg]) (l := [i]) (by simp) (s := s) (a := a) ⟨h, hop, hint, by simpa using ⟨hi, hib⟩⟩ 1
    have hev : streams {u | Then (fun fuel => Mgr.spinFlipLoop c (fun _ _ => junk) u fuel [i] s 1 0) (fun s => {_u | s.verts = y}) u} =
        streams {u | ∃ t o p, Returns (fun fuel => Mgr.spinFlipStep c junk u fuel s i 0) (t, o, p) ∧ t.verts = y} := by
      refine ae_iff fun u hu => ?_
      obtain ⟨F, ⟨t, o, p⟩, hF⟩ := (spinFlipStep_total ht hu.2 (l := []) (i := i) (by simp)
        ⟨h, hop, Reach.refl a, by simpa using ⟨hi, hib⟩, one_mul (weight c.NI c.nf c.G0 c.tbl a.cfg)⟩ junk 0).ends hu.1
      have hr : Returns (fun fuel => Mgr.spinFlipStep c junk u fuel s i 0) (t, o, p) := ⟨F, hF⟩
      have hs : ∀ fuel, Mgr.spinFlipLoop c (fun _ _ => junk) u fuel [i] s 1 0 =
          (Mgr.spinFlipStep c junk u fuel s i 0 >>= fun z => .ok (z.1, 1 * z.2.1.getD 1, z.2.2)) := fun fuel => rfl
      simp only [mem_setOf_eq, Then, hs]
      constructor
      · rintro ⟨t', w, p', h1, hY⟩
        have h2 := Returns.const.1 ((Returns.bind_iff (g := fun _ z => Run.ok (z.1, 1 * z.2.1.getD 1, z.2.2)) hr _).1 h1)
        injection h2 with h2 _
        exact ⟨t, o, p, hr, by rw [show t = t' from h2]; exact hY⟩
      · rintro ⟨t, o, p, hr, hY⟩
        exact ⟨t, _, p, (Returns.bind_iff (g := fun _ z => Run.ok (z.1, 1 * z.2.1.getD 1, z.2.2)) hr _).2 (Returns.const.2 rfl), hY⟩
    rw [← ey, ← hev, hl]
    unfold flipOps flipOps flipOp
    rw [if_neg (by omega), Finset.sum_eq_single k]
    · rw [← ey]
      simp [hne0]
    · intro j _ hj
      simp only []
      rw [if_neg (hne j hj), if_neg hne0]
      simp
    · intro hn
      rw [Finset.mem_sdiff, Finset.mem_range, Finset.mem_singleton] at hn
      exact absurd ⟨hk, by omega⟩ hn
  have hmem : a.cfg.getD i default ∈ a.cfg := by rw [List.getD_eq_getElem _ _ hi]; exact List.getElem_mem _
  have haf := (h.vertOK _ hmem).2 (hint _ hmem)
  have hi' : i < a'.cfg.length := by rw [hcfg, List.length_modify]; exact hi
  have hget : a'.cfg.getD i default = { a.cfg.getD i default with af := (k : ℤ), nonInt := false } := by
    rw [hcfg, getD_modify _ _ _ _ hi, if_pos rfl]
    unfold flipTo
    rw [if_neg (by omega)]
  have hterm : termOf c.tbl (a'.cfg.getD i default) = termOf c.tbl (a.cfg.getD i default) := by
    rw [hget]; rfl
  have hint' : ∀ v ∈ a'.cfg, v.nonInt = false := by
    rw [hcfg]
    intro v hv
    obtain ⟨j, hj, rfl⟩ := List.mem_iff_getElem.1 hv
    rw [List.getElem_modify]
    split
    · unfold flipTo; rw [if_neg (by omega)]
    · exact hint _ (List.getElem_mem _)
  have hback : a'.cfg.modify i (flipTo · (((a.cfg.getD i default).af.toNat : ℕ) : ℤ)) = a.cfg := by
    rw [hcfg]
    exact modify_back hi (hint _ hmem) haf.1
  have l1 := law h hop hint hi hk hka hib
  have l2 := law (k := (a.cfg.getD i default).af.toNat) h' hop' hint' hi' (by rw [hterm]; omega)
    (by rw [hget]; show ((a.cfg.getD i default).af.toNat : ℤ) ≠ (k : ℤ); omega) hib'
  rw [hback] at l2
  rw [← hcfg] at l1
  rw [l1, l2, hterm]
  have hb := accProb_balance (c := c) hint (i := i) (k := k)
  rw [← hcfg] at hb
  rw [mul_left_comm, hb, mul_left_comm]

/-! ## The theorems apply -/

theorem fieldStates_numbered {tbl : List (VDef K)} {k : ℕ} {vs x : List Vert} (h : x ∈ fieldStates tbl (numbered k vs)) :
    numbered k x = x := by
  classical
  induction vs generalizing k x with
  | nil =>
    unfold numbered fieldStates at h
    rw [Finset.mem_singleton] at h
    subst h; rfl
  | cons v vs ih =>
    unfold numbered fieldStates at h
    rw [Finset.mem_image] at h
    obtain ⟨⟨j, y⟩, hz, rfl⟩ := h
    rw [Finset.mem_product] at hz
    unfold numbered
    rw [ih hz.2]

/-- The objects asked for in `C63_stationary` exist, for every list of vertices of existing types. -/
theorem C63_objects (ht : TblOK c.NI c.nf c.tbl) (m : Mgr) {vs : List Vert} (hv : ∀ v ∈ vs, v.type < c.tbl.length) :
    ∃ obj : List Vert → Sub K, ∀ x ∈ fieldStates c.tbl (numbered 0 vs), weight c.NI c.nf c.G0 c.tbl x ≠ 0 →
      ReachedBy m c (obj x) ∧ (obj x).verts = x := by
  have key : ∀ x ∈ fieldStates c.tbl (numbered 0 vs), weight c.NI c.nf c.G0 c.tbl x ≠ 0 →
      ∃ s, ReachedBy m c s ∧ s.verts = x := by
    intro x hx hw
    obtain ⟨h1, h2⟩ := fieldStates_spec hx
    have hl : ∀ (k : ℕ) (vs : List Vert), (numbered k vs).length = vs.length ∧
        ∀ i, ((numbered k vs).getD i default).type = (vs.getD i default).type := by
      intro k vs
      induction vs generalizing k with
      | nil => exact ⟨rfl, fun i => rfl⟩
      | cons v vs ih =>
        unfold numbered
        refine ⟨by simp [(ih (k + 1)).1], fun i => ?_⟩
        cases i with
        | zero => rfl
        | succ i => simpa using (ih (k + 1)).2 i
    have hs : GoodStart c.NI c.nf c.G0 c.tbl x := by
      refine ⟨?_, ?_, by rw [fieldStates_numbered hx]; exact hw⟩
      · intro v hv
        obtain ⟨j, hj, rfl⟩ := List.mem_iff_getElem.1 hv
        have := (h2 j hj).1
        rwa [List.getD_eq_getElem _ _ hj] at this
      · intro v hv'
        obtain ⟨j, hj, rfl⟩ := List.mem_iff_getElem.1 hv'
        obtain ⟨_, b, a0, a1⟩ := h2 j hj
        rw [(hl 0 vs).2, List.getD_eq_getElem _ _ hj] at b
        rw [List.getD_eq_getElem _ _ hj] at a0 a1
        have hjv : j < vs.length := by rw [← (hl 0 vs).1, ← h1]; exact hj
        refine ⟨?_, fun _ => ⟨a0, a1⟩⟩
        rw [b, List.getD_eq_getElem _ _ hjv]
        exact hv _ (List.getElem_mem _)
    obtain ⟨s, e, m0⟩ := create_means ht hs
    refine ⟨s, ⟨x, s, ⟨0, 0⟩, 0, fun _ _ _ _ _ _ => 0, fun _ => 0, 0, [], ⟨s, ⟨0, 0⟩, 0⟩, hs, fun _ => ⟨le_rfl, one_pos⟩, e, rfl, rfl⟩, ?_⟩
    rw [m0.cfg]
    exact fieldStates_numbered hx
  classical
  refine ⟨fun x => if h : x ∈ fieldStates c.tbl (numbered 0 vs) ∧ weight c.NI c.nf c.G0 c.tbl x ≠ 0 then
    (key x h.1 h.2).choose else (create_means ht (empty_goodStart c)).choose, fun x hx hw => ?_⟩
  simp only [dif_pos (And.intro hx hw)]
  exact (key x hx hw).choose_spec

/-- A vertex of type 0. -/
noncomputable def exVertAt (af : ℤ) (time : ℝ) (uid : ℕ) : Vert := ⟨0, af, 2, time, true, false, uid⟩

/-- The fields of two vertices after five spin-flip updates and a recomputation. -/
example : ∃ obj : List Vert → Sub ℝ,
    ∑ x ∈ fieldStates exCtx.tbl [exVertAt 0 (1 / 4) 1, exVertAt 1 (1 / 2) 2],
      ENNReal.ofReal (target exCtx.NI exCtx.nf exCtx.G0 exCtx.tbl x) *
        streams {u | ∃ y, Returns (fun fuel => (⟨obj x, ⟨0, 0⟩, 0⟩ : Walker ℝ).run (Mgr.create 1 3 5 (1 / 10) exCtx.tbl) exCtx
          (fun _ _ _ _ _ _ => 0) u fuel (List.replicate 5 .spinFlip ++ [.recompute])) y ∧ ∀ v ∈ y.s.verts, v.af = 0} =
    ENNReal.ofReal (target exCtx.NI exCtx.nf exCtx.G0 exCtx.tbl [exVertAt 0 (1 / 4) 1, exVertAt 0 (1 / 2) 2]) := by
  classical
  obtain ⟨obj, hobj⟩ := C63_objects ex_tbl (Mgr.create 1 3 5 (1 / 10) exCtx.tbl)
    (vs := [exVertAt 0 (1 / 4) 1, exVertAt 1 (1 / 2) 2]) (by
      intro v hv
      simp only [List.mem_cons, List.not_mem_nil, or_false] at hv
      rcases hv with rfl | rfl <;> exact Nat.zero_lt_one)
  refine ⟨obj, ?_⟩
  have := C63_stationary ex_tbl ex_full (beta := 1) (kIns := 3) (maxOrder := 5) (sz := 1 / 10) rfl
    [exVertAt 0 (1 / 4) 1, exVertAt 1 (1 / 2) 2] obj hobj (l := List.replicate 5 .spinFlip ++ [.recompute]) (by
      intro a ha
      simp only [List.mem_append, List.mem_replicate, List.mem_singleton] at ha
      tauto) ⟨0, 0⟩ (fun _ _ _ _ _ _ => 0) {x | ∀ v ∈ x, v.af = 0}
  refine this.trans ((Finset.sum_congr (s₂ := {[exVertAt 0 (1 / 4) 1, exVertAt 0 (1 / 2) 2]}) ?_ fun _ _ => rfl).trans
    (Finset.sum_singleton _ _))
  · have hn : ∀ v : Vert, v.type = 0 → (termOf exCtx.tbl v).numAf = 2 := by
      intro v hv; unfold termOf; rw [hv]; rfl
    ext x
    refine (@Finset.mem_filter _ _ (fun a => Classical.propDecidable _) _ _).trans ?_
    rw [Finset.mem_singleton]
    simp only [fieldStates, Finset.mem_image, Finset.mem_product, Finset.mem_range, Finset.mem_singleton, Set.mem_setOf_eq]
    constructor
    · rintro ⟨⟨⟨k, y⟩, ⟨hk, ⟨⟨k', y'⟩, ⟨hk', rfl⟩, rfl⟩⟩, rfl⟩, h⟩
      have h1 := h _ (List.mem_cons_self ..)
      have h2 := h _ (List.mem_cons_of_mem _ (List.mem_cons_self ..))
      simp only at h1 h2
      rw [h1, h2]
      rfl
    · rintro rfl
      refine ⟨⟨(0, [exVertAt 0 (1 / 2) 2]), ⟨by rw [hn _ rfl]; norm_num, ⟨(0, []), ⟨by rw [hn _ rfl]; norm_num, rfl⟩, rfl⟩⟩, rfl⟩, ?_⟩
      intro v hv
      simp only [List.mem_cons, List.not_mem_nil, or_false] at hv
      rcases hv with rfl | rfl <;> rfl

/-- The states are not all of weight 0: with one vertex the weight is 1 if the field is 0. -/
example : target exCtx1.NI exCtx1.nf exCtx1.G0 exCtx1.tbl [exVertAt 0 (1 / 4) 1] = 1 / 2 := by
  unfold target
  rw [ex_weight1 rfl rfl rfl]
  simp [interacting, termOf, exCtx1, exTerm1, exVertAt]

theorem ex_weight1' {v : Vert} (h1 : v.type = 0) (h2 : v.nonInt = false) (h3 : v.af = 1) :
    weight exCtx1.NI exCtx1.nf exCtx1.G0 exCtx1.tbl [v] = 1 := by
  have ht : termOf exCtx1.tbl v = exTerm1 := by unfold termOf; rw [h1]; rfl
  have hi : interacting [v] = [v] := by simp [interacting, h2]
  have r0 : rowsOf exCtx1.NI exCtx1.tbl [v] 0 = [rowOf exCtx1.NI exCtx1.tbl v 0] := by
    simp [rowsOf, rowsV, ht, exTerm1, flavorOf, List.range_succ, List.filter_cons]
  have r1 : rowsOf exCtx1.NI exCtx1.tbl [v] 1 = [rowOf exCtx1.NI exCtx1.tbl v 1] := by
    simp [rowsOf, rowsV, ht, exTerm1, flavorOf, List.range_succ, List.filter_cons]
  unfold weight detWeight uWeight
  rw [hi]
  show (∏ fl ∈ Finset.range 2, _) * _ = _
  rw [Finset.prod_range_succ, Finset.prod_range_succ, Finset.prod_range_zero, r0, r1]
  simp only [List.length_singleton, List.map_cons, List.map_nil, List.prod_cons, List.prod_nil, ht]
  unfold detN
  rw [Matrix.det_fin_one, Matrix.det_fin_one]
  simp only [toM_apply, rowG, specG, Fin.val_zero, if_true, List.getD_cons_zero, rowOf, fieldOf, h2, ht, h3,
    Bool.false_eq_true, if_false, Int.toNat_one]
  simp only [exTerm1, exCtx1]
  norm_num

/-- The hypotheses of `C63_detailed_balance` hold for batches opened on one vertex in its two states. -/
example : ∃ s s' : Sub ℝ, ENNReal.ofReal (target exCtx1.NI exCtx1.nf exCtx1.G0 exCtx1.tbl [exVertAt 0 (1 / 4) 1]) *
    streams {u | ∃ t o p, Returns (fun fuel => Mgr.spinFlipStep exCtx1 (fun _ _ _ => 0) u fuel s 0 0) (t, o, p) ∧
      t.verts = [exVertAt 1 (1 / 4) 1]} =
    ENNReal.ofReal (target exCtx1.NI exCtx1.nf exCtx1.G0 exCtx1.tbl [exVertAt 1 (1 / 4) 1]) *
    streams {u | ∃ t o p, Returns (fun fuel => Mgr.spinFlipStep exCtx1 (fun _ _ _ => 0) u fuel s' 0 0) (t, o, p) ∧
      t.verts = [exVertAt 0 (1 / 4) 1]} := by
  have g : ∀ z : ℤ, z = 0 ∨ z = 1 → GoodStart exCtx1.NI exCtx1.nf exCtx1.G0 exCtx1.tbl [exVertAt z (1 / 4) 1] := by
    intro z hz
    refine ⟨by simp [exVertAt], ?_, ?_⟩
    · intro v hv
      rw [List.mem_singleton] at hv
      subst hv
      refine ⟨Nat.zero_lt_one, fun _ => ?_⟩
      show 0 ≤ z ∧ z < ((2 : ℕ) : ℤ)
      omega
    · show weight _ _ _ _ [exVertAt z (1 / 4) 1] ≠ 0
      rcases hz with rfl | rfl
      · rw [ex_weight1 rfl rfl rfl]; exact one_ne_zero
      · rw [ex_weight1' rfl rfl rfl]; exact one_ne_zero
  obtain ⟨s0, _, m0⟩ := create_means ex_tbl1 (g 0 (Or.inl rfl))
  obtain ⟨s1, _, m1⟩ := create_means ex_tbl1 (g 1 (Or.inr rfl))
  obtain ⟨s, _, m, _⟩ := start_spec ex_tbl1 m0 rfl (new := []) (by simp) (fun _ _ _ => 0) (fun _ _ _ => 0) (fun _ _ _ => 0)
  obtain ⟨s', _, m', _⟩ := start_spec ex_tbl1 m1 rfl (new := []) (by simp) (fun _ _ _ => 0) (fun _ _ _ => 0) (fun _ _ _ => 0)
  refine ⟨s, s', C63_detailed_balance ex_tbl1 m m' rfl rfl ?_ (i := 0) (k := 1) Nat.zero_lt_one ?_ ?_ rfl ?_ rfl _⟩
  · intro v hv
    have : v ∈ [exVertAt 0 (1 / 4) 1] := hv
    rw [List.mem_singleton] at this
    rw [this]; rfl
  · show 1 < 2; norm_num
  · show (((1 : ℕ) : ℤ)) ≠ 0; norm_num
  · rfl

end CTInt
