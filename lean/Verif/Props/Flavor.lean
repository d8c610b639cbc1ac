import Verif.Proofs.Batch
import Mathlib.Tactic.IntervalCases
import Mathlib.Tactic.NormNum

/-!
# One flavor: C01, C02, C04, C05 (per flavor), C06

The specification is `Verif.Spec.Weight`: `flavorA NI G0 an cr al` is the matrix A written down from
scratch for the listed annihilators, creators and fields; `flavorG` is G0 - α; `IsInvOf X n g` says that
`X` is an `n × n` matrix and the inverse of `g`.
-/

set_option linter.all false

open Matrix

namespace CTInt

variable {K : Type} [Field K] [DecidableEq K]

/-! ## C01 -/

theorem pushAll_spec (NI : K) {A : InvA K} {n : ℕ} (hA : A.Aligned n) (new : List (Op × Op × VInfo)) :
    Res.foldl (fun A (r : Op × Op × VInfo) => A.pushBackOp r.1 r.2.1 NI r.2.2) A new = .ok
      { A with
        cr := A.cr ++ new.map fun r => r.1
        an := A.an ++ new.map fun r => r.2.1
        al := A.al ++ new.map fun _ => NI
        vi := A.vi ++ new.map fun r => r.2.2 } := by
  induction new generalizing A n with
  | nil => simp
  | cons r new ih =>
    have h1 : A.pushBackOp r.1 r.2.1 NI r.2.2 = .ok { A with
        cr := A.cr ++ [r.1], an := A.an ++ [r.2.1], al := A.al ++ [NI], vi := A.vi ++ [r.2.2] } := by
      unfold InvA.pushBackOp
      simp only [hA.cr, hA.an, hA.al, hA.vi, Res.assert_true trivial, Res.bind_ok, Res.pure_eq]
    rw [Res.foldl_cons, h1, Res.bind_ok]
    rw [ih (n := n + 1) ⟨by simp [hA.cr], by simp [hA.an], by simp [hA.al], by simp [hA.vi]⟩]
    simp

/-- C01: append any operators of non-interacting vertices (any number, also to an empty matrix) and extend.
    The call succeeds, the stored matrix is the inverse of A built from scratch for the extended operator
    list, and det A has not changed. -/
theorem C01_extension {NI : K} {G0 : Op → Op → K} {A : InvA K} {n : ℕ} (hA : A.Aligned n)
    (hX : IsInvOf A.mat n (flavorA NI G0 A.an A.cr A.al)) (new : List (Op × Op × VInfo)) (j1 j2 : ℕ → ℕ → K) :
    ∃ A1 A2, Res.foldl (fun A (r : Op × Op × VInfo) => A.pushBackOp r.1 r.2.1 NI r.2.2) A new = .ok A1 ∧
      A1.extend NI G0 j1 j2 = .ok A2 ∧
      A2.an = A.an ++ new.map (fun r => r.2.1) ∧ A2.cr = A.cr ++ new.map (fun r => r.1) ∧
      A2.al = A.al ++ new.map (fun _ => NI) ∧ A2.vi = A.vi ++ new.map (fun r => r.2.2) ∧
      IsInvOf A2.mat (n + new.length) (flavorA NI G0 A2.an A2.cr A2.al) ∧
      detN (n + new.length) (flavorA NI G0 A2.an A2.cr A2.al) = detN n (flavorA NI G0 A.an A.cr A.al) := by
  have hpush := pushAll_spec NI hA new
  set A1 : InvA K := { A with
        cr := A.cr ++ new.map fun r => r.1
        an := A.an ++ new.map fun r => r.2.1
        al := A.al ++ new.map fun _ => NI
        vi := A.vi ++ new.map fun r => r.2.2 } with hA1
  have hag : ∀ i < n, ∀ j < n, flavorA NI G0 A.an A.cr A.al i j = flavorA NI G0 A1.an A1.cr A1.al i j := by
    intro i hi j hj
    unfold flavorA specA specG0
    rw [hA1]
    simp only
    rw [List.getD_append A.an _ _ _ (by rw [hA.an]; omega), List.getD_append A.cr _ _ _ (by rw [hA.cr]; omega),
      List.getD_append A.al _ _ _ (by rw [hA.al]; omega)]
  obtain ⟨A2, e, _, e1, e2, e3, e4, h1, h2, _⟩ := extend_spec (A := A1) (n := n) (a := new.length)
    ⟨by simp [hA1, hA.cr], by simp [hA1, hA.an], by simp [hA1, hA.al], by simp [hA1, hA.vi]⟩ (hX.congr hag)
    (fun j hj hj' => by
      rw [hA1]
      simp only
      rw [List.getD_append_right _ _ _ _ (by rw [hA.al]; omega), List.getD_eq_getElem _ _ (by simp [hA.al]; omega)]
      simp) j1 j2
  refine ⟨A1, A2, hpush, e, e2, e1, e3, e4, ?_, ?_⟩
  · rw [e1, e2, e3]; exact h1
  · rw [e1, e2, e3, h2]
    unfold detN
    congr 1
    exact (toM_congr hag).symm

/-- C01 applies: the empty matrix. -/
example : ∃ A : InvA ℚ, A.Aligned 0 ∧ IsInvOf A.mat 0 (flavorA 7 (fun _ _ => 1) A.an A.cr A.al) :=
  ⟨InvA.empty, ⟨rfl, rfl, rfl, rfl⟩, rfl, rfl, by ext i; exact i.elim0⟩

/-! ## C02 -/

/-- C02: for a column with an interacting operator the fast formula gives (A⁻¹ G0)ᵢⱼ. -/
theorem C02_fast_formula {NI : K} {G0 : Op → Op → K} {A : InvA K} {n : ℕ}
    (hX : IsInvOf A.mat n (flavorA NI G0 A.an A.cr A.al)) {i j : ℕ} (hi : i < n) (hj : j < n)
    (h1 : A.al.getD j 0 ≠ NI) (h2 : A.al.getD j 0 ≠ 1) :
    InvA.evalGijColPart NI A i j =
      ∑ p ∈ Finset.range n, A.mat.val i p * G0 (A.an.getD p default) (A.cr.getD j default) := by
  rw [evalGijColPart_eq]
  refine fast_column (f := fun j => specF NI (A.al.getD j 0)) hX hi hj ?_
  simp only [specF, if_neg h1]
  rw [ne_eq, div_eq_one_iff_eq (sub_ne_zero.mpr h2)]
  intro h'
  exact one_ne_zero (show (1 : K) = 0 by linear_combination h')

/-- C02: the evaluation used by the solver (fast columns mixed with slow columns read through the column
    cache) returns A⁻¹ G0 for every requested list of rows and columns, repeated or not, in any order. -/
theorem C02_evalGij {NI : K} {G0 : Op → Op → K} {A : InvA K} {n : ℕ} (hA : A.Aligned n)
    (hX : IsInvOf A.mat n (flavorA NI G0 A.an A.cr A.al)) (hok : ∀ j < n, A.al.getD j 0 ≠ 1 ∨ A.al.getD j 0 = NI)
    (hC : (∃ j < n, A.al.getD j 0 = NI) → CacheOK G0 A n) (junk : ℕ → ℕ → K) {rows cols : List ℕ}
    (hr : ∀ r ∈ rows, r < n) (hc : ∀ c ∈ cols, c < n) :
    ∃ A' R, A.evalGij NI G0 junk rows cols = .ok (A', R) ∧ R.rows = rows.length ∧ R.cols = cols.length ∧
      (∀ i (hi : i < rows.length) j (hj : j < cols.length), R.val i j =
        ∑ p ∈ Finset.range n, A.mat.val rows[i] p * G0 (A.an.getD p default) (A.cr.getD cols[j] default)) ∧
      SameButCache A A' ∧ (CacheOK G0 A n → CacheOK G0 A' n) := by
  obtain ⟨hr', hc', hm⟩ := id hX
  set slow := cols.filter fun c => decide (A.al.getD c 0 = NI) with hslow
  obtain ⟨A1, gs, e1, s1, cc1, l1, g1⟩ := slowCols_spec (cs := slow) (junk := junk) hA hr'
    (fun h => by
      obtain ⟨c, hc'⟩ := List.exists_mem_of_ne_nil _ h
      rw [hslow, List.mem_filter] at hc'
      exact hC ⟨c, hc c hc'.1, by simpa using hc'.2⟩)
    (fun c hc' => by rw [hslow, List.mem_filter] at hc'; exact hc c hc'.1)
  unfold InvA.evalGij
  simp only [hr', hc']
  rw [Res.assert_true (show True ∧ (∀ c ∈ cols, c < A.cr.length ∧ c < A.al.length ∧ c < n) ∧
    ∀ r ∈ rows, r < n from ⟨trivial, fun c h => by
      rw [hA.cr, hA.al]; have := hc c h; exact ⟨this, this, this⟩, hr⟩)]
  simp only [Res.bind_ok, ← hslow, e1, Res.pure_eq]
  refine ⟨_, _, rfl, rfl, rfl, ?_, s1, cc1⟩
  intro i hi j hj
  simp only [List.getD_eq_getElem _ _ hi, List.getD_eq_getElem _ _ hj]
  by_cases hNI : A.al.getD cols[j] 0 = NI
  · rw [if_neg (by simpa using hNI)]
    refine Finset.sum_congr rfl fun k hk => ?_
    congr 1
    obtain ⟨hk2, e2⟩ := filter_take_getElem (fun c => decide (A.al.getD c 0 = NI)) cols j hj (by simpa using hNI)
    have := g1 _ hk2 k (Finset.mem_range.mp hk)
    rw [this, e2]
  · rw [if_pos hNI]
    have hjn := hc _ (List.getElem_mem hj)
    exact C02_fast_formula hX (hr _ (List.getElem_mem hi)) hjn hNI ((hok _ hjn).resolve_right hNI)

/-- C02 applies: one interacting operator pair (α = 2, so f = 2, A = 2 - G0). -/
example : ∃ A : InvA ℚ, A.Aligned 1 ∧ IsInvOf A.mat 1 (flavorA 7 (fun _ _ => 1) A.an A.cr A.al) ∧
    (∀ j < 1, A.al.getD j 0 ≠ 1 ∨ A.al.getD j 0 = 7) ∧ ¬ (∃ j < 1, A.al.getD j 0 = 7) := by
  refine ⟨⟨⟨1, 1, fun _ _ => 1⟩, ⟨0, 0, fun _ _ => 0⟩, [default], [default], [2], [default],
    ⟨0, 0, fun _ _ => 0⟩, [], 0⟩, ⟨rfl, rfl, rfl, rfl⟩, ⟨rfl, rfl, ?_⟩, ?_, ?_⟩
  · ext i j
    fin_cases i; fin_cases j
    simp [Matrix.mul_apply, flavorA, specA, specF, specG0]
  · intro j hj; interval_cases j; norm_num
  · rintro ⟨j, hj, h⟩; interval_cases j; norm_num at h

/-! ## C04 -/

/-- C04: folding Gamma into A⁻¹ gives the inverse of A built from scratch for the flipped fields.
    `FlavInv` is the invariant of a batch: A⁻¹ belongs to the fields at the start of the batch, Gamma⁻¹ to
    the fields `cur` reached so far (`Verif.Proofs.Gamma`).  It holds at the start of a batch
    (`C04_batch_start`) and after every accepted or rejected trial (`C03_*`). -/
theorem C04_update_matrix {NI : K} {G0 : Op → Op → K} {A : InvA K} {n : ℕ} {G : Gamma K} {cur : ℕ → K}
    (hF : FlavInv NI G0 A G n cur) (junk : ℕ → ℕ → K) :
    ∃ A', A.updateMatrix NI junk G = .ok A' ∧ A'.an = A.an ∧ A'.cr = A.cr ∧ A'.vi = A.vi ∧
      A'.al.length = n ∧ (∀ i < n, A'.al.getD i 0 = cur i) ∧
      IsInvOf A'.mat n (flavorA NI G0 A.an A.cr A'.al) := by
  obtain ⟨A', e, ha, h1, h2, h3, h4, h5⟩ := updateMatrix_spec hF junk
  exact ⟨A', e, h2, h1, h3, ha.al, h4, by rw [← h1, ← h2]; exact h5⟩

/-- C04: the batch invariant holds when a batch starts (Gamma empty, tilde G just updated). -/
theorem C04_batch_start {NI : K} {G0 : Op → Op → K} {A : InvA K} {n : ℕ} (hA : A.Aligned n)
    (hX : IsInvOf A.mat n (flavorA NI G0 A.an A.cr A.al)) (hok : ∀ i < n, OkAlpha NI (A.al.getD i 0))
    (hC : (∃ i < n, A.al.getD i 0 = NI) → CacheOK G0 A n) (junk : ℕ → ℕ → K) (G : Gamma K) :
    ∃ A', A.updateTildeG NI G0 junk = .ok A' ∧ A'.mat = A.mat ∧ A'.cr = A.cr ∧ A'.an = A.an ∧ A'.al = A.al ∧
      A'.vi = A.vi ∧ FlavInv NI G0 A' (G.clear junk) n fun i => A.al.getD i 0 := by
  obtain ⟨A', e, h1, h2, h3, h4, h5, hS⟩ := updateTildeG_spec hA hX hok hC junk
  refine ⟨A', e, h1, h2, h3, h4, h5, hS, ?_, hok, ?_⟩
  · refine ⟨by simp [Gamma.clear], by simp [Gamma.clear], by simp [Gamma.clear], by simp [Gamma.clear],
      by simp [Gamma.clear], fun i hi _ => by rw [h4]⟩
  · refine ⟨rfl, rfl, ?_⟩
    ext i
    exact i.elim0

/-! ## C03, one flavor -/

/-- C03, adding: the ratio reported is det A(new)/det A(current), both from scratch; accepting keeps the
    batch invariant for the new fields, rejecting restores Gamma. -/
theorem C03_flavor_add {NI : K} {G0 : Op → Op → K} {A : InvA K} {G : Gamma K} {n : ℕ} {cur cur' : ℕ → K}
    {ops : List (OpU K)} (hF : FlavInv NI G0 A G n cur)
    (ho : OpsOK n (fun i => A.al.getD i 0) cur cur' ops)
    (hok : ∀ i < n, OkAlpha NI (cur' i)) (h1 : ∀ o ∈ ops, o.cur = o.a0) (h2 : ∀ o ∈ ops, o.new ≠ o.a0)
    (hne : ops ≠ []) (junk : ℕ → ℕ → K) :
    ∃ G', G.tryAdd NI A ops = .ok (G',
        detN n (specA (fun j => specF NI (cur' j)) (specG0 G0 A.an A.cr)) /
        detN n (specA (fun j => specF NI (cur j)) (specG0 G0 A.an A.cr))) ∧
      G'.rejectAdd.mat = G.mat ∧ G'.rejectAdd.info = G.info ∧
      (detN n (specA (fun j => specF NI (cur' j)) (specG0 G0 A.an A.cr)) ≠ 0 →
        ∃ G'', G'.performAdd junk = .ok G'' ∧ FlavInv NI G0 A G'' n cur') := by
  obtain ⟨G', e, _, h3, h4, h5⟩ := tryAdd_spec hF ho hok h1 h2 hne junk
  exact ⟨G', e, h3, h4, h5⟩

/-- C03, removing. -/
theorem C03_flavor_remove {NI : K} {G0 : Op → Op → K} {A : InvA K} {G : Gamma K} {n : ℕ} {cur cur' : ℕ → K}
    {ops : List (OpU K)} (hF : FlavInv NI G0 A G n cur)
    (ho : OpsOK n (fun i => A.al.getD i 0) cur cur' ops)
    (h1 : ∀ o ∈ ops, o.cur ≠ o.a0) (h2 : ∀ o ∈ ops, o.new = o.a0) (hne : ops ≠ []) (junk : ℕ → ℕ → K) :
    ∃ G', G.tryRemove NI ops = .ok (G',
        detN n (specA (fun j => specF NI (cur' j)) (specG0 G0 A.an A.cr)) /
        detN n (specA (fun j => specF NI (cur j)) (specG0 G0 A.an A.cr))) ∧
      G'.mat = G.mat ∧ G'.info = G.info ∧
      (detN n (specA (fun j => specF NI (cur' j)) (specG0 G0 A.an A.cr)) ≠ 0 →
        ∃ G'', G'.performRemove junk = .ok G'' ∧ FlavInv NI G0 A G'' n cur') :=
  tryRemove_spec hF ho h1 h2 hne junk

/-- C03, adding and removing in one trial.  Partial: the ratio is exact when det A with only the removals
    done (`cm`) is not zero, a rejection keeps the batch invariant, but an acceptance is only right when every
    operator in Gamma is removed (otherwise see `C03_perform_add_remove_violation`). -/
theorem C03_flavor_add_remove_partial {NI : K} {G0 : Op → Op → K} {A : InvA K} {G : Gamma K} {n : ℕ}
    {cur cm cur' : ℕ → K} {ins rem : List (OpU K)} (hF : FlavInv NI G0 A G n cur)
    (hr : OpsOK n (fun i => A.al.getD i 0) cur cm rem) (hi : OpsOK n (fun i => A.al.getD i 0) cm cur' ins)
    (hok : ∀ i < n, OkAlpha NI (cur' i))
    (r1 : ∀ o ∈ rem, o.cur ≠ o.a0) (r2 : ∀ o ∈ rem, o.new = o.a0)
    (i1 : ∀ o ∈ ins, o.cur = o.a0) (i2 : ∀ o ∈ ins, o.new ≠ o.a0)
    (hkeep : detN n (specA (fun j => specF NI (cm j)) (specG0 G0 A.an A.cr)) ≠ 0) (junk : ℕ → ℕ → K) :
    ∃ G', G.tryAddRemove NI A ins rem = .ok (G',
        detN n (specA (fun j => specF NI (cur' j)) (specG0 G0 A.an A.cr)) /
        detN n (specA (fun j => specF NI (cur j)) (specG0 G0 A.an A.cr))) ∧
      FlavInv NI G0 A G'.rejectAdd n cur ∧
      (G.info.length = rem.length → detN n (specA (fun j => specF NI (cur' j)) (specG0 G0 A.an A.cr)) ≠ 0 →
        ∃ G'', G'.performAddRemove junk = .ok G'' ∧ FlavInv NI G0 A G'' n cur') :=
  tryAddRemove_spec hF hr hi hok r1 r2 i1 i2 hkeep junk

/-- C03, violation: accepting a trial that adds `M` and removes operators while `N ≠ M`, `N > 0` operators stay in
    Gamma is undefined (a block of one size is assigned to a block of another). -/
theorem C03_perform_add_remove_violation {G : Gamma K} {N M : ℕ} {g : ℕ → ℕ → K} (junk : ℕ → ℕ → K)
    (hsq : G.mat.cols = G.mat.rows) (hb : UpBlocks N M g G.Gjn G.Gnj G.Gnn) (hN : 0 < N) (hNM : N ≠ M)
    (hm : G.Mmat.rows = N ∧ G.Mmat.cols = N) :
    G.performAddRemove junk = .ub := by
  unfold Gamma.performAddRemove
  simp only [C15_src_inverseReplace_violation_size junk hsq hb hN hNM hm, Res.bind_ub]

/-! ## C05, one flavor -/

theorem one_sub_specF_ne_zero {NI a : K} (h : GoodAlpha NI a) : 1 - specF NI a ≠ 0 :=
  sub_ne_zero.mpr fun e => h.specF_ne_one e.symm

/-- A = (G0 - α)(1 - F). -/
theorem flavorA_eq_mul {NI : K} {G0 : Op → Op → K} {an cr : List Op} {al : List K} {i j : ℕ}
    (h : GoodAlpha NI (al.getD j 0)) :
    flavorA NI G0 an cr al i j = flavorG G0 an cr al i j * (1 - specF NI (al.getD j 0)) := by
  have h1 := h.2.2
  unfold flavorA flavorG specA specG
  simp only [h.specF]
  have h2 := sub_ne_zero.mpr h1
  split_ifs with e
  · generalize al.getD j 0 = x at *
    generalize specG0 G0 an cr i j = y
    field_simp
    ring
  · ring

theorem det_flavorA {NI : K} {G0 : Op → Op → K} {an cr : List Op} {al : List K} {n : ℕ}
    (h : ∀ j < n, GoodAlpha NI (al.getD j 0)) :
    detN n (flavorA NI G0 an cr al) =
      detN n (flavorG G0 an cr al) * ∏ j ∈ Finset.range n, (1 - specF NI (al.getD j 0)) := by
  have e : toM n n (flavorA NI G0 an cr al) =
      toM n n (flavorG G0 an cr al) * diagonal fun j : Fin n => 1 - specF NI (al.getD j 0) := by
    ext i j
    rw [Matrix.mul_diagonal, toM_apply, toM_apply]
    exact flavorA_eq_mul (h j j.2)
  unfold detN
  rw [e, Matrix.det_mul, Matrix.det_diagonal]
  congr 1
  exact Fin.prod_univ_eq_prod_range (fun j => 1 - specF NI (al.getD j 0)) n

/-- C05: M = (1-f) A⁻¹ is the inverse of G0 - α. -/
theorem C05_compute_M {NI : K} {G0 : Op → Op → K} {A : InvA K} {n : ℕ} (hA : A.Aligned n)
    (hX : IsInvOf A.mat n (flavorA NI G0 A.an A.cr A.al)) (h : ∀ j < n, GoodAlpha NI (A.al.getD j 0)) :
    ∃ M, A.computeM NI = .ok M ∧ IsInvOf M n (flavorG G0 A.an A.cr A.al) := by
  unfold InvA.computeM
  simp only [hX.1, hX.2.1, hA.cr, hA.al]
  rw [Res.assert_true (show True ∧ n ≤ n ∧ n ≤ n from ⟨trivial, le_rfl, le_rfl⟩)]
  simp only [Res.bind_ok, Res.pure_eq, evalF_eq]
  refine ⟨_, rfl, rfl, rfl, ?_⟩
  have e1 : toM n n (fun i j => (1 - specF NI (A.al.getD i 0)) * A.mat.val i j) =
      (diagonal fun j : Fin n => 1 - specF NI (A.al.getD j 0)) * toM n n A.mat.val := by
    ext i j; rw [Matrix.diagonal_mul]; rfl
  have e2 : toM n n (flavorA NI G0 A.an A.cr A.al) =
      toM n n (flavorG G0 A.an A.cr A.al) * diagonal fun j : Fin n => 1 - specF NI (A.al.getD j 0) := by
    ext i j
    rw [Matrix.mul_diagonal, toM_apply, toM_apply]
    exact flavorA_eq_mul (h j j.2)
  have hm := hX.2.2
  rw [e2] at hm
  rw [e1, Matrix.mul_assoc]
  rw [← Matrix.mul_assoc] at hm
  exact mul_comm_one hm

/-- C05: a recomputation from scratch stores the inverse of A and reports det A and det(1-F), whose quotient
    is det(G0 - α). -/
theorem C05_recompute {NI : K} {G0 : Op → Op → K} {A : InvA K} {n : ℕ} (hA : A.Aligned n) (hn : 0 < n)
    (h : ∀ j < n, GoodAlpha NI (A.al.getD j 0)) (hdet : detN n (flavorG G0 A.an A.cr A.al) ≠ 0) :
    ∃ A' d p, A.recompute NI G0 = .ok (A', d, p) ∧ A'.an = A.an ∧ A'.cr = A.cr ∧ A'.al = A.al ∧ A'.vi = A.vi ∧
      IsInvOf A'.mat n (flavorA NI G0 A.an A.cr A.al) ∧ d = detN n (flavorA NI G0 A.an A.cr A.al) ∧ p ≠ 0 ∧
      d / p = detN n (flavorG G0 A.an A.cr A.al) := by
  have hp : ∏ j ∈ Finset.range n, (1 - specF NI (A.al.getD j 0)) ≠ 0 :=
    Finset.prod_ne_zero_iff.mpr fun j hj => one_sub_specF_ne_zero (h j (Finset.mem_range.mp hj))
  have hdA := det_flavorA (G0 := G0) (an := A.an) (cr := A.cr) h
  have hS : ∀ i < n, ∀ j < n, (A.scratchMat NI G0).val i j = flavorA NI G0 A.an A.cr A.al i j := by
    intro i hi j hj
    unfold InvA.scratchMat flavorA specA specG0
    simp only [evalF_eq]
    split_ifs <;> ring
  have hSr : (A.scratchMat NI G0).rows = n := hA.an
  have hd : (A.scratchMat NI G0).det = detN n (flavorA NI G0 A.an A.cr A.al) := by
    rw [DMat.det_eq hSr]
    unfold detN DMat.mat
    congr 1
    exact toM_congr hS
  unfold InvA.recompute
  simp only [hA.an, hA.cr, hA.al, if_neg (show ¬ n = 0 by omega)]
  rw [Res.assert_true (show n ≤ n ∧ n ≤ n from ⟨le_rfl, le_rfl⟩)]
  simp only [Res.bind_ok]
  rw [Res.throwIf_false (by
    rintro ⟨i, hi, e⟩
    exact (h i (List.mem_range.mp hi)).1 e)]
  simp only [Res.bind_ok, Res.pure_eq, evalF_eq]
  refine ⟨_, _, _, rfl, rfl, rfl, rfl, rfl, ⟨hSr, hSr, ?_⟩, hd, hp, ?_⟩
  · have := DMat.mat_inv (A := A.scratchMat NI G0) (n := n) hSr
    have e3 : toM n n (A.scratchMat NI G0).inv.val = (toM n n (A.scratchMat NI G0).val)⁻¹ := this
    show toM n n (A.scratchMat NI G0).inv.val * _ = 1
    rw [e3, toM_congr hS]
    refine Matrix.nonsing_inv_mul _ (isUnit_iff_ne_zero.mpr ?_)
    show detN n (flavorA NI G0 A.an A.cr A.al) ≠ 0
    rw [hdA]
    exact mul_ne_zero hdet hp
  · rw [hd, hdA, mul_div_assoc, div_self hp, mul_one]

/-- C05: a recomputation refuses an operator list with non-interacting operators. -/
theorem C05_recompute_refuses {NI : K} {G0 : Op → Op → K} {A : InvA K} {n : ℕ} (hA : A.Aligned n)
    (h : ∃ j < n, A.al.getD j 0 = NI) : A.recompute NI G0 = .throw .logicError := by
  obtain ⟨j, hj, e⟩ := h
  unfold InvA.recompute
  simp only [hA.an, hA.cr, hA.al, if_neg (show ¬ n = 0 by omega)]
  rw [Res.assert_true (show n ≤ n ∧ n ≤ n from ⟨le_rfl, le_rfl⟩)]
  simp only [Res.bind_ok]
  rw [Res.throwIf_true ⟨j, List.mem_range.mpr hj, e⟩]
  rfl

/-! ## C06 -/

/-- C06: removing all operators of the vertices with the given ids, each of which is non-interacting, succeeds and
    leaves the inverse of A built from scratch for the surviving operators; determinant unchanged; what is
    recorded at the positions afterwards (creator, annihilator, field, vertex) is exactly what was recorded for
    the survivors, in some order. -/
theorem C06_remove {NI : K} {G0 : Op → Op → K} {A : InvA K} {n : ℕ} (hA : A.Aligned n)
    (hX : IsInvOf A.mat n (flavorA NI G0 A.an A.cr A.al)) {uids : List ℕ} (nd : uids.Nodup)
    (hex : ∀ u ∈ uids, ∃ i < n, (A.vi.getD i default).uid = u)
    (hNI : ∀ i < n, (A.vi.getD i default).uid ∈ uids → A.al.getD i 0 = NI) (junk : ℕ → ℕ → K) :
    ∃ A' N, A.removeUids junk uids = .ok A' ∧ A'.Aligned N ∧
      IsInvOf A'.mat N (flavorA NI G0 A'.an A'.cr A'.al) ∧
      detN N (flavorA NI G0 A'.an A'.cr A'.al) = detN n (flavorA NI G0 A.an A.cr A.al) ∧
      A'.rowList.Perm (A.rowList.filter fun r => decide (r.vi.uid ∉ uids)) :=
  removeUids_spec hA hX nd hex hNI junk

/-- C06 applies: two non-interacting operator pairs (A = 1), the first belonging to vertex 5. -/
example : ∃ A : InvA ℚ, A.Aligned 2 ∧ IsInvOf A.mat 2 (flavorA 7 (fun _ _ => 1) A.an A.cr A.al) ∧
    (∀ u ∈ [5], ∃ i < 2, (A.vi.getD i default).uid = u) ∧
    (∀ i < 2, (A.vi.getD i default).uid ∈ [5] → A.al.getD i 0 = 7) := by
  refine ⟨⟨⟨2, 2, fun i j => if i = j then 1 else 0⟩, ⟨0, 0, fun _ _ => 0⟩, [default, default],
    [default, default], [7, 7], [⟨0, 0, 5⟩, ⟨0, 1, 6⟩],
    ⟨0, 0, fun _ _ => 0⟩, [], 0⟩, ⟨rfl, rfl, rfl, rfl⟩, ⟨rfl, rfl, ?_⟩, ?_, ?_⟩
  · ext i j
    fin_cases i <;> fin_cases j <;>
      simp [Matrix.mul_apply, flavorA, specA, specF, specG0, Fin.sum_univ_two]
  · intro u hu
    exact ⟨0, by norm_num, by simp_all⟩
  · intro i hi _; interval_cases i <;> rfl

/-! ## The batch invariant and the trials are met by concrete cases -/

/-- Two operators at the start of a batch, both non-interacting (marker 7), G0 = 0, so A = 1. -/
noncomputable def exA : InvA ℚ :=
  ⟨⟨2, 2, fun i j => if i = j then 1 else 0⟩, ⟨2, 2, fun _ _ => 0⟩, [default, default],
    [default, default], [7, 7], [⟨0, 0, 5⟩, ⟨0, 1, 6⟩], ⟨0, 0, fun _ _ => 0⟩, [], 0⟩

/-- Gamma after the first operator got the field 2 (f = 2, Gamma = -2). -/
noncomputable def exG : Gamma ℚ := { Gamma.empty with mat := ⟨1, 1, fun _ _ => -1/2⟩, info := [⟨0, 7, 2⟩] }

theorem exA_setup : Setup (7 : ℚ) (fun _ _ => 0) exA 2 := by
  refine ⟨⟨rfl, rfl, rfl, rfl⟩, ⟨rfl, rfl, ?_⟩, rfl, rfl, ?_, ?_⟩
  · ext i j
    fin_cases i <;> fin_cases j <;>
      simp [exA, Matrix.mul_apply, flavorA, specA, specF, specG0, Fin.sum_univ_two]
  · intro i hi j hj; simp [exA, specG0]
  · intro i hi; left; interval_cases i <;> rfl

/-- C03 and C04 apply: a batch in which the first of two operators has already been flipped. -/
theorem exG_inv : FlavInv (7 : ℚ) (fun _ _ => 0) exA exG 2 (fun i => if i = 0 then 2 else 7) := by
  refine ⟨exA_setup, ⟨by simp [exG], by simp [exG], by simp [exG, exA], by simp [exG], by simp [exG], ?_⟩, ?_, ?_⟩
  · intro i hi hn
    interval_cases i
    · simp [exG] at hn
    · simp [exA]
  · intro i hi
    interval_cases i
    · right; norm_num [GoodAlpha]
    · left; simp
  · show IsInvOf exG.mat 1 _
    refine ⟨rfl, rfl, ?_⟩
    ext i j
    fin_cases i; fin_cases j
    rw [Matrix.mul_apply]
    simp [exG, gamI, exA, specF]
    norm_num

/-- ... then flip the second operator as well (`C03_flavor_add`) ... -/
example : OpsOK 2 (fun i => exA.al.getD i 0) (fun i => if i = 0 then 2 else 7) (fun _ => (2 : ℚ))
    [⟨1, 7, 7, 2⟩] := by
  refine ⟨by simp, by simp, by simp [exA], by simp, by simp, ?_⟩
  intro i hi hn
  interval_cases i
  · simp
  · simp at hn

/-- ... or undo the first flip (`C03_flavor_remove`) ... -/
theorem exRem : OpsOK 2 (fun i => exA.al.getD i 0) (fun i => if i = 0 then 2 else 7) (fun _ => (7 : ℚ))
    [⟨0, 7, 2, 7⟩] := by
  refine ⟨by simp, by simp, by simp [exA], by simp, by simp, ?_⟩
  intro i hi hn
  interval_cases i
  · simp at hn
  · simp

/-- ... or undo the first and flip the second (`C03_flavor_add_remove_partial`). -/
example : OpsOK 2 (fun i => exA.al.getD i 0) (fun _ => (7 : ℚ)) (fun i => if i = 0 then 7 else 2) [⟨1, 7, 7, 2⟩] ∧
    detN 2 (specA (fun _ => specF (7 : ℚ) 7) (specG0 (fun _ _ => 0) exA.an exA.cr)) ≠ 0 := by
  constructor
  · refine ⟨by simp, by simp, by simp [exA], by simp, by simp, ?_⟩
    intro i hi hn
    interval_cases i
    · simp
    · simp at hn
  · have : toM 2 2 (specA (fun _ => specF (7 : ℚ) 7) (specG0 (fun _ _ => 0) exA.an exA.cr)) = 1 := by
      ext i j
      fin_cases i <;> fin_cases j <;> simp [specA, specF, specG0]
    rw [detN, this]; simp

/-! ## C03: the ratio of a mixed trial with a singular intermediate state -/

/-- C03: the value reported for a mixed trial is 0 whenever det A with only the removals done (`cm`) is zero, whatever
    the ratio is.  (The code inverts a singular block on the way; in floating-point arithmetic the result is then not
    even a number.) -/
theorem C03_half_way_zero {NI : K} {G0 : Op → Op → K} {A : InvA K} {G : Gamma K} {n : ℕ}
    {cur cm cur' : ℕ → K} {ins rem : List (OpU K)} (hF : FlavInv NI G0 A G n cur)
    (hr : OpsOK n (fun i => A.al.getD i 0) cur cm rem) (hi : OpsOK n (fun i => A.al.getD i 0) cm cur' ins)
    (hok : ∀ i < n, OkAlpha NI (cur' i))
    (r1 : ∀ o ∈ rem, o.cur ≠ o.a0) (r2 : ∀ o ∈ rem, o.new = o.a0)
    (i1 : ∀ o ∈ ins, o.cur = o.a0) (i2 : ∀ o ∈ ins, o.new ≠ o.a0)
    (hz : detN n (specA (fun j => specF NI (cm j)) (specG0 G0 A.an A.cr)) = 0) :
    ∃ G', G.tryAddRemove NI A ins rem = .ok (G', 0) := by
  obtain ⟨G', r, e, _, _, _, h⟩ := tryAddRemove_all hF hr hi hok r1 r2 i1 i2 (fun _ _ => 0)
  exact ⟨G', by rw [e, h hz]⟩

/-- The Green function of the counterexample: 2 on site 0, 1 between site 0 and any other site, 0 otherwise. -/
noncomputable def halfG0 (a c : Op) : ℚ :=
  if a.site = 0 ∧ c.site = 0 then 2 else if a.site = 0 ∨ c.site = 0 then 1 else 0

/-- Three non-interacting operators (marker 7) on sites 0, 1, 2 at the start of a batch: A = 1. -/
noncomputable def halfA : InvA ℚ :=
  ⟨⟨3, 3, fun i j => if i = j then 1 else 0⟩,
    ⟨3, 3, fun i j => if i = 0 ∧ j = 0 then 2 else if i = 0 ∨ j = 0 then 1 else 0⟩,
    [⟨0, 0, 0, 0⟩, ⟨0, 1, 0, 0⟩, ⟨0, 2, 0, 0⟩], [⟨0, 0, 0, 0⟩, ⟨0, 1, 0, 0⟩, ⟨0, 2, 0, 0⟩], [7, 7, 7],
    [⟨0, 0, 5⟩, ⟨0, 0, 6⟩, ⟨0, 0, 8⟩], ⟨0, 0, fun _ _ => 0⟩, [], 0⟩

/-- Gamma⁻¹ after operators 0 and 1 got the field 2: Gamma = (0 1; 1 -2). -/
noncomputable def halfG : Gamma ℚ :=
  { Gamma.empty with
    mat := ⟨2, 2, fun i j => if i = 0 ∧ j = 0 then 2 else if i = 0 ∨ j = 0 then 1 else 0⟩,
    info := [⟨0, 7, 2⟩, ⟨1, 7, 2⟩] }

theorem halfA_G0 : ∀ i < 3, ∀ j < 3, specG0 halfG0 halfA.an halfA.cr i j =
    if i = 0 ∧ j = 0 then 2 else if i = 0 ∨ j = 0 then 1 else 0 := by
  intro i hi j hj
  interval_cases i <;> interval_cases j <;> simp [specG0, halfG0, halfA]

theorem halfA_setup : Setup (7 : ℚ) halfG0 halfA 3 := by
  refine ⟨⟨rfl, rfl, rfl, rfl⟩, ⟨rfl, rfl, ?_⟩, rfl, rfl, ?_, ?_⟩
  · ext i j
    fin_cases i <;> fin_cases j <;>
      simp [halfA, Matrix.mul_apply, flavorA, specA, specF, specG0, halfG0, Fin.sum_univ_succ]
  · intro i hi j hj
    interval_cases i <;> interval_cases j <;>
      simp [halfA, specG0, halfG0, Finset.sum_range_succ]
  · intro i hi; left; interval_cases i <;> rfl

theorem halfG_inv : FlavInv (7 : ℚ) halfG0 halfA halfG 3 (fun i => if i = 2 then 7 else 2) := by
  refine ⟨halfA_setup, ⟨by simp [halfG], by simp [halfG], by simp [halfG, halfA], by simp [halfG], by simp [halfG], ?_⟩,
    ?_, ?_⟩
  · intro i hi hn
    interval_cases i <;> simp_all [halfG, halfA]
  · intro i hi
    interval_cases i
    · right; norm_num [GoodAlpha]
    · right; norm_num [GoodAlpha]
    · left; simp
  · show IsInvOf halfG.mat 2 _
    refine ⟨rfl, rfl, ?_⟩
    ext i j
    fin_cases i <;> fin_cases j <;>
      (rw [Matrix.mul_apply]; simp [halfG, gamI, halfA, specF, Fin.sum_univ_two] <;> norm_num)

/-- det A of the counterexample by the fields. -/
theorem halfDet (cur : ℕ → ℚ) : detN 3 (specA (fun j => specF 7 (cur j)) (specG0 halfG0 halfA.an halfA.cr)) =
    (let f := fun j => specF 7 (cur j)
     (f 0 - 2 * (f 0 - 1)) * f 1 * f 2 - (f 0 - 1) * (f 1 - 1) * f 2 - (f 0 - 1) * f 1 * (f 2 - 1)) := by
  rw [detN, Matrix.det_fin_three]
  simp [specA, specG0, halfG0, halfA]
  ring

/-- C03, violation: in this batch the exact ratio of undoing the change of operator 1 and changing operator 2 is 1, but
    the trial reports 0. -/
theorem C03_half_way_violation :
    ∃ (G0 : Op → Op → ℚ) (A : InvA ℚ) (G : Gamma ℚ) (cur cm cur' : ℕ → ℚ) (ins rem : List (OpU ℚ)),
      FlavInv 7 G0 A G 3 cur ∧
      OpsOK 3 (fun i => A.al.getD i 0) cur cm rem ∧ OpsOK 3 (fun i => A.al.getD i 0) cm cur' ins ∧
      (∀ i < 3, OkAlpha 7 (cur' i)) ∧
      (∀ o ∈ rem, o.cur ≠ o.a0) ∧ (∀ o ∈ rem, o.new = o.a0) ∧
      (∀ o ∈ ins, o.cur = o.a0) ∧ (∀ o ∈ ins, o.new ≠ o.a0) ∧
      detN 3 (specA (fun j => specF 7 (cur' j)) (specG0 G0 A.an A.cr)) /
        detN 3 (specA (fun j => specF 7 (cur j)) (specG0 G0 A.an A.cr)) = 1 ∧
      ∃ G', G.tryAddRemove 7 A ins rem = .ok (G', 0) := by
  have hr : OpsOK 3 (fun i => halfA.al.getD i 0) (fun i => if i = 2 then 7 else 2)
      (fun i => if i = 0 then (2 : ℚ) else 7) [⟨1, 7, 2, 7⟩] := by
    refine ⟨by simp, by simp, by simp [halfA], by simp, by simp, ?_⟩
    intro i hi hn
    interval_cases i <;> simp_all
  have hi : OpsOK 3 (fun i => halfA.al.getD i 0) (fun i => if i = 0 then (2 : ℚ) else 7)
      (fun i => if i = 1 then (7 : ℚ) else 2) [⟨2, 7, 7, 2⟩] := by
    refine ⟨by simp, by simp, by simp [halfA], by simp, by simp, ?_⟩
    intro i hi hn
    interval_cases i <;> simp_all
  have hok : ∀ i < 3, OkAlpha 7 (if i = 1 then (7 : ℚ) else 2) := by
    intro i hi
    interval_cases i
    · right; norm_num [GoodAlpha]
    · left; simp
    · right; norm_num [GoodAlpha]
  refine ⟨halfG0, halfA, halfG, _, _, _, _, _, halfG_inv, hr, hi, hok, by simp, by simp, by simp, by simp, ?_, ?_⟩
  · rw [halfDet, halfDet]
    norm_num [specF]
  · refine C03_half_way_zero halfG_inv hr hi hok (by simp) (by simp) (by simp) (by simp) ?_
    rw [halfDet]
    norm_num [specF]

end CTInt
