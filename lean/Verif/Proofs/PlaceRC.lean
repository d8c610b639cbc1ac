import Verif.Proofs.Removal
import Verif.Proofs.ReplaceSucc

/-!
# Placing rows and columns in a matrix (helper lemmas for C69)
-/

set_option linter.all false

namespace CTInt

/-! ### The positions -/

theorem rc_set_prefix {l t : List ℕ} {k x : ℕ} (hk : l.length = k) (ht : t ≠ []) :
    (l ++ t).set k x = (l ++ [x]) ++ t.drop 1 := by
  subst hk
  cases t with
  | nil => exact absurd rfl ht
  | cons a t => simp

theorem restLoop_eq {N M : ℕ} {rc : List ℕ} (hk : (kept (N + M) rc).length = N) {start : List ℕ}
    (hs : start.length = N) (i : ℕ) (hi : i ≤ N + M) :
    Res.foldl (Src.restLoop (fun k => decide (k ∈ rc)) N) (start, 0) (List.range i) =
      .ok ((List.range i).filter (fun k => k ∉ rc) ++ start.drop (cntOut rc i), cntOut rc i) := by
  induction i with
  | zero => simp [cntOut]
  | succ i ih =>
    rw [List.range_succ, Res.foldl_append, ih (by omega)]
    simp only [Res.bind_ok, Res.foldl_cons, Res.foldl_nil]
    unfold Src.restLoop
    by_cases h : i ∈ rc
    · simp only [h, decide_true, Bool.true_eq_false, if_false, Res.bind_ok]
      rw [((cnt_succ rc i).2 h).1, List.filter_append]
      simp [h]
    · have hc := (keptAt_cnt (N := N + M) (by omega) h).1
      simp only [h, decide_false, if_true]
      rw [if_pos (by omega), ((cnt_succ rc i).1 h).1, List.filter_append,
        rc_set_prefix (by rfl) (by rw [ne_eq, List.drop_eq_nil_iff]; omega)]
      simp [h, List.drop_drop]

/-- More than `N` remaining positions: the loop writes beyond the end. -/
theorem restLoop_ub {N : ℕ} {rc : List ℕ} {start : List ℕ} (i : ℕ) (hi : N < cntOut rc i) :
    Res.foldl (Src.restLoop (fun k => decide (k ∈ rc)) N) (start, 0) (List.range i) = .ub := by
  have key : ∀ i s, Res.foldl (Src.restLoop (fun k => decide (k ∈ rc)) N) (start, 0) (List.range i) = s →
      match s with
      | .ok a => a.2 = cntOut rc i ∧ cntOut rc i ≤ N
      | .throw _ => False
      | .ub => True := by
    intro i
    induction i with
    | zero => intro s hs; subst hs; simp [cntOut]
    | succ i ih =>
      intro s hs
      rw [List.range_succ, Res.foldl_append] at hs
      have h1 := ih _ rfl
      revert h1
      cases hx : Res.foldl (Src.restLoop (fun k => decide (k ∈ rc)) N) (start, 0) (List.range i) with
      | ok a =>
        intro h1
        rw [hx] at hs
        simp only [Res.bind_ok, Res.foldl_cons, Res.foldl_nil] at hs
        subst hs
        unfold Src.restLoop
        by_cases h : i ∈ rc
        · simp only [h, decide_true, Bool.true_eq_false, if_false, Res.bind_ok]
          rw [((cnt_succ rc i).2 h).1]; exact h1
        · simp only [h, decide_false, if_true]
          rw [((cnt_succ rc i).1 h).1]
          simp only at h1
          by_cases h2 : a.2 < N
          · rw [if_pos h2]; simp only [Res.bind_ok]; omega
          · rw [if_neg h2]; simp
      | throw e => intro h1; exact absurd h1 (by simp)
      | ub => intro _; rw [hx] at hs; simp at hs; subst hs; trivial
  have := key i _ rfl
  revert this
  cases Res.foldl (Src.restLoop (fun k => decide (k ∈ rc)) N) (start, 0) (List.range i) with
  | ok a => intro h; simp only at h; omega
  | throw e => intro h; exact absurd h (by simp)
  | ub => intro _; rfl

theorem splitLoop_eq {N M : ℕ} {rc : List ℕ} (ha : Ascending (N + M) rc) (hM : rc.length = M) (i : ℕ)
    (hi : i ≤ N + M) :
    Res.foldl (Src.splitLoop (fun k => decide (k ∈ rc)) N M)
        ((List.replicate N 0, 0), (List.replicate M 0, 0)) (List.range i) =
      .ok (((List.range i).filter (fun k => k ∉ rc) ++ List.replicate (N - cntOut rc i) 0, cntOut rc i),
        ((List.range i).filter (fun k => k ∈ rc) ++ List.replicate (M - cntIn rc i) 0, cntIn rc i)) := by
  have hk := kept_length' ha
  induction i with
  | zero => simp [cntOut, cntIn]
  | succ i ih =>
    rw [List.range_succ, Res.foldl_append, ih (by omega)]
    simp only [Res.bind_ok, Res.foldl_cons, Res.foldl_nil]
    unfold Src.splitLoop
    by_cases h : i ∈ rc
    · have hc := (rc_cnt ha (by omega) h).1
      simp only [h, decide_true, if_true]
      rw [if_pos (by omega), ((cnt_succ rc i).2 h).1, ((cnt_succ rc i).2 h).2, List.filter_append,
        List.filter_append, rc_set_prefix (by rfl) (by rw [ne_eq, List.replicate_eq_nil_iff]; omega)]
      simp [h, List.drop_replicate, Nat.sub_sub]
    · have hc := (keptAt_cnt (N := N + M) (by omega) h).1
      simp only [h, decide_false, Bool.false_eq_true, if_false]
      rw [if_pos (by omega), ((cnt_succ rc i).1 h).1, ((cnt_succ rc i).1 h).2, List.filter_append,
        List.filter_append, rc_set_prefix (by rfl) (by rw [ne_eq, List.replicate_eq_nil_iff]; omega)]
      simp [h, List.drop_replicate, Nat.sub_sub]

/-! ### Writing elements -/

/-- `A` with the elements at the positions of `L` taken from `new`. -/
def putAt (A : DMat ℝ) (new : ℕ → ℕ → ℝ) (L : List (ℕ × ℕ)) : DMat ℝ :=
  ⟨A.rows, A.cols, fun p q => if (p, q) ∈ L then new p q else A.val p q⟩

theorem putAt_nil (A : DMat ℝ) (new : ℕ → ℕ → ℝ) : putAt A new [] = A := by
  cases A; simp [putAt]

theorem putAt_putAt (A : DMat ℝ) (new : ℕ → ℕ → ℝ) (L L' : List (ℕ × ℕ)) :
    putAt (putAt A new L) new L' = putAt A new (L ++ L') := by
  unfold putAt
  simp only [DMat.mk.injEq, true_and]
  funext p q
  by_cases h : (p, q) ∈ L' <;> by_cases h' : (p, q) ∈ L <;> simp [h, h']

theorem wr_eq {A : DMat ℝ} {new : ℕ → ℕ → ℝ} {p q : ℕ} (hp : p < A.rows) (hq : q < A.cols) :
    Src.wr A p q (new p q) = .ok (putAt A new [(p, q)]) := by
  unfold Src.wr
  rw [if_pos ⟨hp, hq⟩]
  unfold DMat.set putAt
  congr 2
  funext a b
  by_cases h : a = p ∧ b = q
  · obtain ⟨rfl, rfl⟩ := h; simp
  · rw [if_neg h, if_neg (by simpa using h)]

theorem foldl_putAt {α : Type} {n m : ℕ} {new : ℕ → ℕ → ℝ} {f : DMat ℝ → α → Res (DMat ℝ)}
    {L : α → List (ℕ × ℕ)} {l : List α}
    (h : ∀ x ∈ l, ∀ A : DMat ℝ, A.rows = n → A.cols = m → f A x = .ok (putAt A new (L x)))
    (A : DMat ℝ) (h1 : A.rows = n) (h2 : A.cols = m) :
    Res.foldl f A l = .ok (putAt A new (l.flatMap L)) := by
  induction l generalizing A with
  | nil => simp [putAt_nil]
  | cons x l ih =>
    rw [Res.foldl_cons, h x (by simp) A h1 h2]
    simp only [Res.bind_ok]
    refine (ih (fun y hy => h y (by simp [hy])) (putAt A new (L x)) h1 h2).trans ?_
    rw [putAt_putAt, List.flatMap_cons]

theorem rc_get_getD {l : List ℕ} {i : ℕ} (h : i < l.length) : Res.get l i = .ok (l.getD i 0) := by
  unfold Res.get
  rw [List.getD_eq_getElem?_getD, List.getElem?_eq_getElem h]; rfl

theorem rc_mem_getD {l : List ℕ} {x : ℕ} : x ∈ l ↔ ∃ a < l.length, l.getD a 0 = x := by
  rw [List.mem_iff_getElem]
  constructor
  · rintro ⟨i, hi, rfl⟩; exact ⟨i, hi, List.getD_eq_getElem _ _ hi⟩
  · rintro ⟨i, hi, rfl⟩; exact ⟨i, hi, (List.getD_eq_getElem _ _ hi).symm⟩

theorem rc_mem_kept {N x : ℕ} {rc : List ℕ} : x ∈ kept N rc ↔ x < N ∧ x ∉ rc := by
  unfold kept; simp

theorem replaceOrdered_eq {NpM : ℕ} {rc : List ℕ} {new : ℕ → ℕ → ℝ} {A Q R S : DMat ℝ}
    (ha : Ascending NpM rc) (hb : NaturalBlocks NpM rc new Q R S) (hA : A.rows = NpM ∧ A.cols = NpM) :
    ∃ B, Src.replaceOrdered A Q R S rc = .ok B ∧ B.rows = NpM ∧ B.cols = NpM ∧
      ∀ i < NpM, ∀ j < NpM, B.val i j = withRowsCols A.val new rc i j := by
  have hk := kept_length' ha
  obtain ⟨N, hN⟩ : ∃ N, NpM = N + rc.length := ⟨(kept NpM rc).length, hk.symm⟩
  have hkN : (kept NpM rc).length = N := by omega
  have hQr := hb.Qr
  have hRc := hb.Rc
  have hrc : ∀ a < rc.length, rc.getD a 0 < NpM := fun a h => ha.2 _ (rc_mem_getD.mpr ⟨a, h, rfl⟩)
  have hke : ∀ a < N, (kept NpM rc).getD a 0 < NpM := fun a h =>
    (rc_mem_kept.mp (rc_mem_getD.mpr ⟨a, by omega, rfl⟩)).1
  have e1 : NpM - rc.length = N := by omega
  have hs := splitLoop_eq (N := N) (M := rc.length) (hN ▸ ha) rfl NpM (by omega)
  have c1 : cntOut rc NpM = N := hkN
  have c2 : cntIn rc NpM = rc.length := cntIn_all ha
  rw [c1, c2, filter_mem_range ha, Nat.sub_self, Nat.sub_self] at hs
  simp only [List.replicate_zero, List.append_nil] at hs
  have s1 : ∀ j < rc.length, ∀ B : DMat ℝ, B.rows = NpM → B.cols = NpM →
      Res.foldl (Src.placeS S rc j) B (List.range rc.length) =
        .ok (putAt B new ((List.range rc.length).flatMap fun i => [(rc.getD i 0, rc.getD j 0)])) := by
    intro j hj B h1 h2
    refine foldl_putAt (n := NpM) (m := NpM) (fun i hi C k1 k2 => ?_) B h1 h2
    have hi' : i < rc.length := by simpa using hi
    unfold Src.placeS Src.rd
    rw [if_pos ⟨by rw [hb.Sr]; exact hi', by rw [hb.Sc]; exact hj⟩, rc_get_getD hi', rc_get_getD hj]
    simp only [Res.bind_ok]
    rw [hb.Sv i hi' j hj]
    exact wr_eq (by rw [k1]; exact hrc i hi') (by rw [k2]; exact hrc j hj)
  have s2 : ∀ j < rc.length, ∀ B : DMat ℝ, B.rows = NpM → B.cols = NpM →
      Res.foldl (Src.placeQR Q R (kept NpM rc) rc j) B (List.range N) =
        .ok (putAt B new ((List.range N).flatMap fun i =>
          [((kept NpM rc).getD i 0, rc.getD j 0), (rc.getD j 0, (kept NpM rc).getD i 0)])) := by
    intro j hj B h1 h2
    refine foldl_putAt (n := NpM) (m := NpM) (fun i hi C k1 k2 => ?_) B h1 h2
    have hi' : i < N := by simpa using hi
    unfold Src.placeQR Src.rd
    rw [rc_get_getD (show i < (kept NpM rc).length by omega), rc_get_getD hj]
    simp only [Res.bind_ok]
    rw [if_pos ⟨by omega, by rw [hb.Qc]; exact hj⟩, if_pos ⟨by rw [hb.Rr]; exact hj, by omega⟩]
    simp only [Res.bind_ok]
    rw [hb.Qv i (by omega) j hj, hb.Rv j hj i (by omega)]
    have w1 := wr_eq (A := C) (new := new) (p := (kept NpM rc).getD i 0) (q := rc.getD j 0)
      (by rw [k1]; exact hke i hi') (by rw [k2]; exact hrc j hj)
    unfold keptAt
    rw [w1]
    simp only [Res.bind_ok]
    rw [wr_eq (by rw [show (putAt C new [((kept NpM rc).getD i 0, rc.getD j 0)]).rows = C.rows from rfl, k1]
                  exact hrc j hj)
      (by rw [show (putAt C new [((kept NpM rc).getD i 0, rc.getD j 0)]).cols = C.cols from rfl, k2]
          exact hke i hi'), putAt_putAt]
    rfl
  have f1 := foldl_putAt (n := NpM) (m := NpM) (new := new) (l := List.range rc.length)
    (f := fun B j => Res.foldl (Src.placeS S rc j) B (List.range rc.length))
    (fun j hj B h1 h2 => s1 j (by simpa using hj) B h1 h2) A hA.1 hA.2
  have f2 := fun (A1 : DMat ℝ) (h1 : A1.rows = NpM) (h2 : A1.cols = NpM) =>
    foldl_putAt (n := NpM) (m := NpM) (new := new) (l := List.range rc.length)
    (f := fun B j => Res.foldl (Src.placeQR Q R (kept NpM rc) rc j) B (List.range N))
    (fun j hj B h1 h2 => s2 j (by simpa using hj) B h1 h2) A1 h1 h2
  refine ⟨putAt A new (((List.range rc.length).flatMap fun j => (List.range rc.length).flatMap fun i =>
      [(rc.getD i 0, rc.getD j 0)]) ++ ((List.range rc.length).flatMap fun j => (List.range N).flatMap fun i =>
      [((kept NpM rc).getD i 0, rc.getD j 0), (rc.getD j 0, (kept NpM rc).getD i 0)])), ?_, hA.1, hA.2, ?_⟩
  · unfold Src.replaceOrdered
    rw [hA.2, Res.assert_true (show rc.length ≤ NpM by omega), e1]
    unfold Src.isIncluded
    rw [Res.assert_true (show ∀ r ∈ rc, r < N + rc.length from fun r hr => hN ▸ ha.2 r hr)]
    simp only [Res.bind_ok, Res.pure_eq]
    rw [hs]
    simp only [Res.bind_ok, and_self, Res.assert_true trivial]
    rw [f1]
    simp only [Res.bind_ok]
    refine (f2 (putAt A new _) hA.1 hA.2).trans ?_
    rw [putAt_putAt]
  · intro i hi j hj
    unfold putAt withRowsCols
    simp only
    congr 1
    simp only [List.mem_append, List.mem_flatMap, List.mem_range, List.mem_cons, List.not_mem_nil, or_false,
      Prod.mk.injEq, eq_iff_iff]
    constructor
    · rintro (⟨b, hb', a, ha', rfl, rfl⟩ | ⟨b, hb', a, ha', (⟨rfl, rfl⟩ | ⟨rfl, rfl⟩)⟩)
      · exact Or.inl (rc_mem_getD.mpr ⟨a, ha', rfl⟩)
      · exact Or.inr (rc_mem_getD.mpr ⟨b, hb', rfl⟩)
      · exact Or.inl (rc_mem_getD.mpr ⟨b, hb', rfl⟩)
    · intro h
      by_cases h1 : i ∈ rc
      · obtain ⟨a, ha', e⟩ := rc_mem_getD.mp h1
        by_cases h2 : j ∈ rc
        · obtain ⟨b, hb', e'⟩ := rc_mem_getD.mp h2
          exact Or.inl ⟨b, hb', a, ha', e.symm, e'.symm⟩
        · obtain ⟨b, hb', e'⟩ := rc_mem_getD.mp (rc_mem_kept.mpr ⟨hj, h2⟩)
          exact Or.inr ⟨a, ha', b, by omega, Or.inr ⟨e.symm, e'.symm⟩⟩
      · have h2 := h.resolve_left h1
        obtain ⟨b, hb', e'⟩ := rc_mem_getD.mp h2
        obtain ⟨a, ha', e⟩ := rc_mem_getD.mp (rc_mem_kept.mpr ⟨hi, h1⟩)
        exact Or.inr ⟨b, hb', a, by omega, Or.inl ⟨e.symm, e'.symm⟩⟩

/-! ### Placing by exchanges -/

theorem permOf_fixed {l : List (ℕ × ℕ)} {a : ℕ} (h : ∀ p ∈ l, a ≠ p.1 ∧ a ≠ p.2) : permOf l a = a := by
  induction l with
  | nil => rfl
  | cons p l ih =>
    rw [permOf_cons_apply, ih fun q hq => h q (by simp [hq])]
    exact Equiv.swap_apply_of_ne_of_ne (h p (by simp)).1 (h p (by simp)).2

theorem replaceRowsCols_eq {N : ℕ} {rc : List ℕ} {A Q R S : DMat ℝ} (ha : Ascending (N + rc.length) rc)
    (hA : A.rows = N + rc.length ∧ A.cols = N + rc.length) (hQ : Q.rows = N ∧ Q.cols = rc.length)
    (hR : R.rows = rc.length ∧ R.cols = N) (hS : S.rows = rc.length ∧ S.cols = rc.length) :
    ∃ B, Src.replaceRowsCols A Q R S rc = .ok B ∧ B.rows = N + rc.length ∧ B.cols = N + rc.length ∧
      (∀ i < N + rc.length, ∀ j < N + rc.length, i ∉ rc → j ∉ rc → B.val i j = A.val i j) ∧
      (∀ a < rc.length, ∀ b < rc.length, B.val (rc.getD a 0) (rc.getD b 0) = S.val a b) ∧
      ∃ τ : ℕ → ℕ, (∀ a < N, τ a < N + rc.length ∧ τ a ∉ rc ∧ (a ∉ rc → τ a = a)) ∧
        (∀ a < N, ∀ a' < N, τ a = τ a' → a = a') ∧
        ∀ a < N, ∀ b < rc.length, B.val (τ a) (rc.getD b 0) = Q.val a b ∧
          B.val (rc.getD b 0) (τ a) = R.val b a := by
  obtain ⟨bnd, slots, front⟩ := sw_ascending ha
  set l := Src.swapList rc.length (N + rc.length) rc with hl
  have hinv : ∀ x, permOf l.reverse (permOf l x) = x := by
    intro x; rw [permOf_reverse]; simp
  have hinv' : ∀ x, permOf l (permOf l.reverse x) = x := by
    intro x; rw [permOf_reverse]; simp
  set Y3 := (((Src.applySwaps l A).setBlock 0 N (Q.block 0 0 N rc.length)).setBlock N 0
    (R.block 0 0 rc.length N)).setBlock N N (S.block 0 0 rc.length rc.length) with hY3
  have hval : ∀ p q, (Src.applySwaps l.reverse Y3).val (permOf l p) (permOf l q) = Y3.val p q := by
    intro p q; rw [applySwaps_val, hinv, hinv]
  have hslot : ∀ b < rc.length, rc.getD b 0 = permOf l (N + b) := fun b hb => (slots b hb).symm
  refine ⟨Src.applySwaps l.reverse Y3, ?_, ?_, ?_, ?_, ?_, permOf l, ?_, ?_, ?_⟩
  · unfold Src.replaceRowsCols
    rw [hA.1, hA.2, hQ.1, hQ.2, hR.1, hR.2, hS.1, hS.2]
    rw [Res.assert_true (show rc.length ≤ N + rc.length by omega),
      Res.assert_true (show ∀ r ∈ rc, r < N + rc.length ∧ r < N + rc.length from
        fun r hr => ⟨ha.2 r hr, ha.2 r hr⟩)]
    simp only [Res.bind_ok, Nat.add_sub_cancel, le_refl, and_self, Res.assert_true trivial, Res.pure_eq]
    rw [← hl, ← hY3]
  · rw [applySwaps_rows, hY3]; simp only [DMat.setBlock_rows]; rw [applySwaps_rows, hA.1]
  · rw [applySwaps_cols, hY3]; simp only [DMat.setBlock_cols]; rw [applySwaps_cols, hA.2]
  · intro i hi j hj h1 h2
    have fr : ∀ x < N + rc.length, x ∉ rc → permOf l.reverse x < N := by
      intro x hx hn
      by_contra hge
      have hlt : permOf l.reverse x < N + rc.length :=
        permOf_lt (fun p hp => bnd p (by simpa using hp)) hx
      have := slots (permOf l.reverse x - N) (by omega)
      rw [show N + (permOf l.reverse x - N) = permOf l.reverse x by omega, hinv'] at this
      exact hn (this ▸ rc_mem_getD.mpr ⟨_, by omega, rfl⟩)
    have h3 := fr i hi h1
    have h4 := fr j hj h2
    have h5 := hval (permOf l.reverse i) (permOf l.reverse j)
    rw [hinv', hinv'] at h5
    rw [h5, hY3, DMat.setBlock_out (by simp; omega), DMat.setBlock_out (by simp; omega),
      DMat.setBlock_out (by simp; omega), applySwaps_val, hinv', hinv']
  · intro a ha' b hb'
    rw [hslot a ha', hslot b hb', hval, hY3, DMat.setBlock_in (by simp; omega)]
    simp [DMat.block]
  · intro a ha'
    obtain ⟨h1, h2⟩ := front a ha'
    refine ⟨h1, h2, fun hn => permOf_fixed fun p hp => ?_⟩
    rw [hl] at hp
    unfold Src.swapList at hp
    obtain ⟨i, hi, rfl⟩ := List.mem_map.mp hp
    have hi' : i < rc.length := by simpa using hi
    refine ⟨fun h => hn (h ▸ rc_mem_getD.mpr ⟨rc.length - 1 - i, by omega, rfl⟩), ?_⟩
    simp only; omega
  · intro a _ a' _ h
    exact (permOf l).injective h
  · intro a ha' b hb'
    rw [hslot b hb', hval, hval, hY3]
    constructor
    · rw [DMat.setBlock_out (by simp <;> omega), DMat.setBlock_out (by simp <;> omega),
        DMat.setBlock_in (by simp; omega)]
      simp [DMat.block]
    · rw [DMat.setBlock_out (by simp; omega), DMat.setBlock_in (by simp; omega)]
      simp [DMat.block]

end CTInt
