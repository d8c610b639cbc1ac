import Verif.Props.Green

/-!
# The reader of the bare Green function
-/

set_option linter.all false

namespace CTInt

variable {K : Type} [RCLike K]

namespace Green

/-- Consecutive number of a flavour and a pair of sites. -/
def pairIx (S f s1 s2 : ℕ) : ℕ := (f * S + s1) * S + s2

theorem radix_inj {S a b a' b' : ℕ} (hb : b < S) (hb' : b' < S) (h : a * S + b = a' * S + b') : a = a' ∧ b = b' := by
  have hS : 0 < S := by omega
  have h1 : (a * S + b) / S = a := by
    rw [mul_comm, Nat.mul_add_div hS, Nat.div_eq_of_lt hb]; simp
  have h2 : (a' * S + b') / S = a' := by
    rw [mul_comm, Nat.mul_add_div hS, Nat.div_eq_of_lt hb']; simp
  have : a = a' := by rw [← h1, ← h2, h]
  subst this
  exact ⟨rfl, by omega⟩

theorem pairIx_inj {S f s1 s2 f' s1' s2' : ℕ} (h1 : s1 < S) (h2 : s2 < S) (h1' : s1' < S) (h2' : s2' < S)
    (h : pairIx S f s1 s2 = pairIx S f' s1' s2') : f = f' ∧ s1 = s1' ∧ s2 = s2' := by
  obtain ⟨a, b⟩ := radix_inj h2 h2' h
  obtain ⟨c, d⟩ := radix_inj h1 h1' a
  exact ⟨c, d, b⟩

/-- The row with consecutive number `k` is the one expected, and `v` its value. -/
def RowOK (R : List GRow) (k f s1 s2 t : ℕ) (v : K) : Prop :=
  ∃ row, R[k]? = some row ∧ row.f = f ∧ row.i = s1 ∧ row.j = s2 ∧ row.t = t ∧ v = mycast ⟨row.re, row.im⟩

noncomputable def times (T : ℕ) (β : ℝ) : List ℝ := (List.range T).map fun t : ℕ => β * (t : ℝ) / ((T : ℝ) - 1)

/-- The splines of a pair of sites and their stored coefficients. -/
structure CoOK (T : ℕ) (β : ℝ) (d : ℕ → K) (co : ℕ → ℕ → ℂ) (re im : Spline) : Prop where
  eRe : Spline.setPoints .default (times T β) ((List.range T).map fun t => RCLike.re (d t)) true = .ok re
  eIm : Spline.setPoints .default (times T β) ((List.range T).map fun t => RCLike.im (d t)) true = .ok im
  co : ∀ t < T - 1, ∀ p < 4, ∃ x y, re.getCoeff t p = .ok x ∧ im.getCoeff t p = .ok y ∧ co t p = ⟨x, y⟩

structure PairOK (R : List GRow) (T S : ℕ) (β : ℝ) (f s1 s2 : ℕ) (st : GRead K) : Prop where
  rows : ∀ t < T, RowOK R (pairIx S f s1 s2 * T + t) f s1 s2 t (st.data f s1 s2 t)
  co : ∃ re im, CoOK T β (st.data f s1 s2) (st.co f s1 s2) re im

/-- State within the lines of one pair. -/
structure LinesInv (R : List GRow) (T S f s1 s2 : ℕ) (st0 : GRead K) (t : ℕ) (st : GRead K) : Prop where
  rest : st.rest = R.drop (pairIx S f s1 s2 * T + t)
  rows : ∀ t' < t, RowOK R (pairIx S f s1 s2 * T + t') f s1 s2 t' (st.data f s1 s2 t')
  frame : ∀ a b c d, ¬ (a = f ∧ b = s1 ∧ c = s2) → st.data a b c d = st0.data a b c d
  co : st.co = st0.co

theorem head_drop {R : List GRow} {k : ℕ} {row : GRow} {rest : List GRow} (h : R.drop k = row :: rest) :
    R[k]? = some row ∧ rest = R.drop (k + 1) := by
  constructor
  · have := congrArg (·[0]?) h
    simpa using this
  · have := congrArg List.tail h
    simpa [List.tail_drop] using this.symm

theorem readLine_step {R : List GRow} {T S f s1 s2 t : ℕ} {st0 st st' : GRead K} {first : Bool}
    (h : LinesInv R T S f s1 s2 st0 t st) (e : readLine first f s1 s2 st t = .ok st') :
    LinesInv R T S f s1 s2 st0 (t + 1) st' := by
  unfold readLine at e
  split at e
  · split at e <;> simp at e
  · rename_i row rest hr
    simp only [Res.bind_eq_ok, Res.throwIf_eq_ok, not_not] at e
    obtain ⟨_, e1, _, e2, _, e3, _, e4, e⟩ := e
    cases e
    rw [h.rest] at hr
    obtain ⟨hk, hrest⟩ := head_drop hr
    refine ⟨hrest, ?_, ?_, h.co⟩
    · intro t' ht'
      rcases Nat.lt_succ_iff_lt_or_eq.1 ht' with hlt | rfl
      · have : ¬ (t' = t) := by omega
        simp only [true_and, this, if_false]
        exact h.rows t' hlt
      · simp only [true_and, if_true]
        exact ⟨row, hk, e1, e2, e3, e4, rfl⟩
    · intro a b c d hne
      have : ¬ (a = f ∧ b = s1 ∧ c = s2 ∧ d = t) := fun ⟨x, y, z, _⟩ => hne ⟨x, y, z⟩
      simp only [this, if_false]
      exact h.frame a b c d hne

/-- All coefficients of one pair. -/
theorem coeffs_post {T f s1 s2 : ℕ} {re im : Spline} {st st' : GRead K}
    (e : Res.foldl (fun st t => Res.foldl (fun (st : GRead K) p => do
      let x ← re.getCoeff t p
      let y ← im.getCoeff t p
      let co : ℕ → ℕ → ℕ → ℕ → ℕ → ℂ := fun a b c d e =>
        if a = f ∧ b = s1 ∧ c = s2 ∧ d = t ∧ e = p then ⟨x, y⟩ else st.co a b c d e
      pure { st with co := co }) st (List.range 4)) st (List.range (T - 1)) = .ok st') :
    st'.rest = st.rest ∧ st'.data = st.data ∧
    (∀ t < T - 1, ∀ p < 4, ∃ x y, re.getCoeff t p = .ok x ∧ im.getCoeff t p = .ok y ∧ st'.co f s1 s2 t p = ⟨x, y⟩) ∧
    (∀ a b c d e, ¬ (a = f ∧ b = s1 ∧ c = s2) → st'.co a b c d e = st.co a b c d e) := by
  have := Res.foldl_range_post (fun t (s : GRead K) => s.rest = st.rest ∧ s.data = st.data ∧
    (∀ t' < t, ∀ p < 4, ∃ x y, re.getCoeff t' p = .ok x ∧ im.getCoeff t' p = .ok y ∧ s.co f s1 s2 t' p = ⟨x, y⟩) ∧
    (∀ a b c d e, ¬ (a = f ∧ b = s1 ∧ c = s2) → s.co a b c d e = st.co a b c d e)) (T - 1) st st'
    ⟨rfl, rfl, fun t ht => by omega, fun _ _ _ _ _ _ => rfl⟩ ?_ e
  · exact this
  · intro t ht s s' hs e
    have := Res.foldl_range_post (fun q (s : GRead K) => s.rest = st.rest ∧ s.data = st.data ∧
      (∀ t' < t, ∀ p < 4, ∃ x y, re.getCoeff t' p = .ok x ∧ im.getCoeff t' p = .ok y ∧ s.co f s1 s2 t' p = ⟨x, y⟩) ∧
      (∀ p < q, ∃ x y, re.getCoeff t p = .ok x ∧ im.getCoeff t p = .ok y ∧ s.co f s1 s2 t p = ⟨x, y⟩) ∧
      (∀ a b c d e, ¬ (a = f ∧ b = s1 ∧ c = s2) → s.co a b c d e = st.co a b c d e)) 4 s s'
      ⟨hs.1, hs.2.1, hs.2.2.1, fun p hp => by omega, hs.2.2.2⟩ ?_ e
    · obtain ⟨h1, h2, h3, h4, h5⟩ := this
      refine ⟨h1, h2, ?_, h5⟩
      intro t' ht' p hp
      rcases Nat.lt_succ_iff_lt_or_eq.1 ht' with hlt | rfl
      · exact h3 t' hlt p hp
      · exact h4 p hp
    · intro q hq s s' ⟨h1, h2, h3, h4, h5⟩ e
      simp only [Res.bind_eq_ok] at e
      obtain ⟨x, ex, y, ey, e⟩ := e
      cases e
      refine ⟨h1, h2, ?_, ?_, ?_⟩
      · intro t' ht' p hp
        obtain ⟨x', y', a, b, c⟩ := h3 t' ht' p hp
        have : ¬ (t' = t) := by omega
        exact ⟨x', y', a, b, by simp only [true_and, this, false_and, if_false]; exact c⟩
      · intro p hp
        rcases Nat.lt_succ_iff_lt_or_eq.1 hp with hlt | rfl
        · obtain ⟨x', y', a, b, c⟩ := h4 p hlt
          have : ¬ (p = q) := by omega
          exact ⟨x', y', a, b, by simp only [true_and, this, if_false]; exact c⟩
        · exact ⟨x, y, ex, ey, by simp⟩
      · intro a b c d e hne
        have : ¬ (a = f ∧ b = s1 ∧ c = s2 ∧ d = t ∧ e = q) := fun ⟨x, y, z, _⟩ => hne ⟨x, y, z⟩
        simp only [this, if_false]
        exact h5 a b c d e hne

/-- `k` pairs have been read. -/
structure PairsInv (R : List GRow) (T S : ℕ) (β : ℝ) (k : ℕ) (st : GRead K) : Prop where
  rest : st.rest = R.drop (k * T)
  pairs : ∀ f s1 s2, s1 < S → s2 < S → pairIx S f s1 s2 < k → PairOK R T S β f s1 s2 st

theorem readPair_step {R : List GRow} {T S : ℕ} {β : ℝ} {f s1 s2 : ℕ} (h1 : s1 < S) (h2 : s2 < S) {st st' : GRead K}
    (h : PairsInv R T S β (pairIx S f s1 s2) st) (e : readPair T β f s1 st s2 = .ok st') :
    PairsInv R T S β (pairIx S f s1 s2 + 1) st' := by
  unfold readPair at e
  rw [Res.bind_eq_ok] at e
  obtain ⟨sl, el, e⟩ := e
  have hl := Res.foldl_range_post (LinesInv R T S f s1 s2 st) T st sl
    ⟨by rw [h.rest, Nat.add_zero], fun t ht => by omega, fun _ _ _ _ _ => rfl, rfl⟩
    (fun t _ s s' hs e => readLine_step hs e) el
  simp only [Res.bind_eq_ok] at e
  obtain ⟨re, ere, im, eim, e⟩ := e
  obtain ⟨c1, c2, c3, c4⟩ := coeffs_post e
  refine ⟨?_, ?_⟩
  · rw [c1, hl.rest, Nat.add_mul, Nat.one_mul]
  · intro f' s1' s2' h1' h2' hk
    by_cases heq : f' = f ∧ s1' = s1 ∧ s2' = s2
    · obtain ⟨rfl, rfl, rfl⟩ := heq
      refine ⟨by rw [c2]; exact hl.rows, re, im, ?_, ?_, c3⟩
      · rw [c2]; exact ere
      · rw [c2]; exact eim
    · have hk' : pairIx S f' s1' s2' < pairIx S f s1 s2 := by
        rcases Nat.lt_succ_iff_lt_or_eq.1 hk with hlt | heq'
        · exact hlt
        · exact absurd (pairIx_inj h1' h2' h1 h2 heq') heq
      obtain ⟨p1, re', im', p2⟩ := h.pairs f' s1' s2' h1' h2' hk'
      have hd : st'.data f' s1' s2' = st.data f' s1' s2' := by
        funext t; rw [c2, hl.frame _ _ _ _ heq]
      have hc : st'.co f' s1' s2' = st.co f' s1' s2' := by
        funext t p; rw [c4 _ _ _ _ _ heq, hl.co]
      refine ⟨by rw [hd]; exact p1, re', im', ?_⟩
      rw [hd, hc]; exact p2

theorem readAll_post {R : List GRow} {T S F : ℕ} {β : ℝ} {st' : GRead K}
    (e : Res.foldl (fun st f => Res.foldl (fun st s1 => Res.foldl (readPair T β f s1) st
      (List.range S)) st (List.range S)) (⟨R, fun _ _ _ _ => 0, fun _ _ _ _ _ => 0⟩ : GRead K)
      (List.range F) = .ok st') : PairsInv R T S β (F * S * S) st' := by
  refine Res.foldl_range_post (fun f => PairsInv R T S β (f * S * S)) F _ st' ⟨by simp, fun f s1 s2 _ _ h => by omega⟩
    ?_ e
  intro f _ s s' hs e
  have := Res.foldl_range_post (fun s1 => PairsInv R T S β ((f * S + s1) * S)) S s s' (by simpa using hs) ?_ e
  · rw [show (f + 1) * S * S = (f * S + S) * S by ring]; exact this
  · intro s1 hs1 s s' hs e
    have := Res.foldl_range_post (fun s2 => PairsInv R T S β (pairIx S f s1 s2)) S s s' (by simpa [pairIx] using hs) ?_ e
    · rw [show (f * S + (s1 + 1)) * S = pairIx S f s1 S by unfold pairIx; ring]; exact this
    · intro s2 hs2 s s' hs e
      exact readPair_step hs1 hs2 hs e

theorem pairIx_lt {S F f s1 s2 : ℕ} (hf : f < F) (h1 : s1 < S) (h2 : s2 < S) : pairIx S f s1 s2 < F * S * S := by
  have h3 : f * S + s1 < F * S := by
    calc f * S + s1 < f * S + S := by omega
      _ = (f + 1) * S := by ring
      _ ≤ F * S := Nat.mul_le_mul_right _ hf
  calc (f * S + s1) * S + s2 < (f * S + s1) * S + S := by omega
    _ = (f * S + s1 + 1) * S := by ring
    _ ≤ F * S * S := Nat.mul_le_mul_right _ h3

open Spline in
theorem setPoints_inv {o : SplineOpts} {xs ys : List ℝ} {s : Spline} (h : setPoints o xs ys true = .ok s) :
    xs.length = ys.length ∧ 2 < xs.length ∧ ∀ i, i + 1 < xs.length → xs.getD i 0 < xs.getD (i + 1) 0 := by
  unfold setPoints at h
  simp only [Res.bind_eq_ok, Res.assert_eq_ok] at h
  obtain ⟨_, h1, _, h2, _, h3, _⟩ := h
  exact ⟨h1, h2, fun i hi => h3 i (by omega)⟩

theorem times_length (T : ℕ) (β : ℝ) : (times T β).length = T := by simp [times]

theorem times_getD {T : ℕ} (β : ℝ) {i : ℕ} (h : i < T) : (times T β).getD i 0 = β * i / ((T : ℝ) - 1) := by
  simp [times, List.getD, List.getElem?_range h]

theorem range_getD {T : ℕ} {d : ℕ → ℝ} {i : ℕ} (h : i < T) : ((List.range T).map d).getD i 0 = d i := by
  simp [List.getD, List.getElem?_range h]

/-- The grid increases. -/
theorem times_increasing {T : ℕ} {β : ℝ} (hβ : 0 < β) (hT : 2 ≤ T) (i : ℕ) (hi : i + 1 < (times T β).length) :
    (times T β).getD i 0 < (times T β).getD (i + 1) 0 := by
  rw [times_length] at hi
  have : (2 : ℝ) ≤ T := by exact_mod_cast hT
  rw [times_getD β (by omega), times_getD β hi, div_lt_div_iff_of_pos_right (by linarith)]
  push_cast
  nlinarith

theorem times_pairwise {T : ℕ} {β : ℝ} (hβ : 0 < β) (hT : 2 ≤ T) : (times T β).Pairwise (· < ·) := by
  have h2 : (2 : ℝ) ≤ T := by exact_mod_cast hT
  rw [List.pairwise_iff_getElem]
  intro i j hi hj hij
  rw [times_length] at hi hj
  have e1 := times_getD β hi
  have e2 := times_getD β hj
  have a1 : (times T β).getD i 0 = (times T β)[i] := by
    simp [List.getD, List.getElem?_eq_getElem (show i < (times T β).length by rw [times_length]; exact hi)]
  have a2 : (times T β).getD j 0 = (times T β)[j] := by
    simp [List.getD, List.getElem?_eq_getElem (show j < (times T β).length by rw [times_length]; exact hj)]
  rw [← a1, ← a2, e1, e2, div_lt_div_iff_of_pos_right (by linarith)]
  have : (i : ℝ) < j := by exact_mod_cast hij
  nlinarith

/-- What it takes for the grid to increase. -/
theorem grid_pos {T : ℕ} {β : ℝ} {ys : List ℝ} {s : Spline} (h : Spline.setPoints .default (times T β) ys true = .ok s) :
    3 ≤ T ∧ 0 < β ∧ ys.length = T := by
  obtain ⟨h1, h2, h3⟩ := setPoints_inv h
  rw [times_length] at h1 h2
  refine ⟨h2, ?_, h1.symm⟩
  have h4 := h3 0 (by rw [times_length]; omega)
  rw [times_getD β (by omega), times_getD β (by omega)] at h4
  have hT : (3 : ℝ) ≤ T := by exact_mod_cast h2
  simp only [Nat.cast_zero, mul_zero, zero_div, zero_add, Nat.cast_one, mul_one] at h4
  by_contra hc
  exact absurd (div_nonpos_of_nonpos_of_nonneg (not_lt.1 hc) (by linarith)) (not_le.2 h4)

/-- The natural cubic spline through the data of one pair. -/
theorem spline_of {T : ℕ} {β : ℝ} {d : ℕ → ℝ} {s : Spline}
    (h : Spline.setPoints .default (times T β) ((List.range T).map d) true = .ok s) :
    IsCubicSpline T (fun t => β * t / ((T : ℝ) - 1)) d (Spline.value s) ∧
    iteratedDerivWithin 2 (Spline.value s) (Set.Icc 0 β) 0 = 0 ∧
    iteratedDerivWithin 2 (Spline.value s) (Set.Icc 0 β) β = 0 := by
  obtain ⟨hT, hβ, -⟩ := grid_pos h
  obtain ⟨s', S, e, he, hS, hb⟩ := C44_spline .default (times T β) ((List.range T).map d) (by simp [times])
    (by rw [times_length]; exact hT) (times_pairwise hβ (by omega))
  rw [h] at e
  cases e
  obtain ⟨s', B, e, hs⟩ := Spline.setPoints_ok .default (times T β) ((List.range T).map d) (by simp [times])
    (by rw [times_length]; exact hT) (times_increasing hβ (by omega))
  rw [h] at e
  cases e
  have hsn : s.n = T := by rw [hs.n, times_length]
  have hxs : ∀ i, i + 1 < s.n → s.x i < s.x (i + 1) := by
    intro i hi; rw [hs.x]
    exact times_increasing hβ (by omega) i (by rw [times_length]; omega)
  have hv : S = Spline.value s := by
    funext t
    have h1 := he t
    rw [Spline.eval_ok hxs (by omega)] at h1
    exact (Res.ok.inj h1).symm
  subst hv
  have hT' : (3 : ℝ) ≤ T := by exact_mod_cast hT
  have g0 : (times T β).getD 0 0 = 0 := by rw [times_getD β (by omega)]; simp
  have g1 : (times T β).getD ((times T β).length - 1) 0 = β := by
    rw [times_length, times_getD β (by omega), Nat.cast_sub (by omega)]
    have : (T : ℝ) - 1 ≠ 0 := by linarith
    push_cast; field_simp
  simp only [g0, g1] at hb
  refine ⟨⟨?_, ?_, ?_⟩, hb.2.1 rfl, hb.2.2.2 rfl⟩
  · intro i hi
    have := hS.through i (by rw [times_length]; exact hi)
    rw [times_getD β hi, range_getD hi] at this
    exact this
  · intro i hi
    have := hS.cubic i (by rw [times_length]; exact hi)
    simp only [times_getD β (show i < T by omega), times_getD β hi] at this
    exact this
  · have := hS.smooth
    have e0 : (β * ((0 : ℕ) : ℝ) / ((T : ℝ) - 1)) = 0 := by simp
    have e1 : (β * ((T - 1 : ℕ) : ℝ) / ((T : ℝ) - 1)) = β := by
      rw [Nat.cast_sub (by omega)]
      have : (T : ℝ) - 1 ≠ 0 := by linarith
      push_cast; field_simp
    simp only [g0, g1] at this
    simp only [e0, e1]
    exact this

/-- Between two grid points the spline is the polynomial with the stored coefficients. -/
theorem value_coeff {T : ℕ} {β : ℝ} {d : ℕ → ℝ} {s : Spline}
    (h : Spline.setPoints .default (times T β) ((List.range T).map d) true = .ok s) {i : ℕ} (hi : i + 1 < T) {τ : ℝ}
    (h1 : β * i / ((T : ℝ) - 1) ≤ τ) (h2 : τ ≤ β * (i + 1) / ((T : ℝ) - 1)) {y c b a : ℝ}
    (e0 : s.getCoeff i 0 = .ok y) (e1 : s.getCoeff i 1 = .ok c) (e2 : s.getCoeff i 2 = .ok b)
    (e3 : s.getCoeff i 3 = .ok a) :
    Spline.value s τ = y + c * (τ - β * i / ((T : ℝ) - 1)) + b * (τ - β * i / ((T : ℝ) - 1)) ^ 2 +
      a * (τ - β * i / ((T : ℝ) - 1)) ^ 3 := by
  obtain ⟨hT, hβ, -⟩ := grid_pos h
  obtain ⟨s', B, e, hs⟩ := Spline.setPoints_ok .default (times T β) ((List.range T).map d) (by simp [times])
    (by rw [times_length]; exact hT) (times_increasing hβ (by omega))
  rw [h] at e
  cases e
  have hsn : s.n = T := by rw [hs.n, times_length]
  have hxs : ∀ i, i + 1 < s.n → s.x i < s.x (i + 1) := by
    intro i hi; rw [hs.x]
    exact times_increasing hβ (by omega) i (by rw [times_length]; omega)
  have hx : ∀ i, i < T → s.x i = β * i / ((T : ℝ) - 1) := fun i hi => by rw [hs.x]; exact times_getD β hi
  have hv := Spline.value_piece hs (by omega) hxs i (by omega) τ
    ⟨by rw [hx i (by omega)]; exact h1, by rw [hx (i + 1) hi]; push_cast; exact h2⟩
  simp only [Spline.getCoeff, Res.bind_eq_ok, Res.assert_eq_ok, Res.pure_eq] at e0 e1 e2 e3
  obtain ⟨_, _, e0⟩ := e0
  obtain ⟨_, _, e1⟩ := e1
  obtain ⟨_, _, e2⟩ := e2
  obtain ⟨_, _, e3⟩ := e3
  simp at e0 e1 e2 e3
  rw [hv, ← hs.b i (by omega), e0, e1, e2, e3, hx i (by omega)]
  unfold piece
  ring

/-- Interpolation evaluates the splines of real and imaginary part. -/
theorem interpolate_value {T : ℕ} {β : ℝ} (g : Green K) (hn : g.ntau = T) (hb : g.beta = β)
    (hd : g.dtau = g.beta / ((g.ntau : ℝ) - 1)) (hi : g.invDtau = 1 / g.dtau) {f s1 s2 : ℕ} (hf : f < g.nf)
    (h1 : s1 < g.ns) (h2 : s2 < g.ns) {d : ℕ → K} {re im : Spline} (h : CoOK T β d (g.co f s1 s2) re im) (τ : ℝ)
    (hτ : 0 ≤ τ ∧ τ ≤ β) : g.interpolate f s1 s2 τ = .ok (mycast ⟨Spline.value re τ, Spline.value im τ⟩) := by
  subst hn hb
  obtain ⟨hT, hβ, -⟩ := grid_pos h.eRe
  obtain ⟨idx, hlt, b1, b2, e⟩ := C43_interpolate g (by omega) hβ hd hi f s1 s2 hf h1 h2 τ hτ
  obtain ⟨y, y', p0, q0, c0⟩ := h.co idx (by omega) 0 (by omega)
  obtain ⟨c, c', p1, q1, c1⟩ := h.co idx (by omega) 1 (by omega)
  obtain ⟨b, b', p2, q2, c2⟩ := h.co idx (by omega) 2 (by omega)
  obtain ⟨a, a', p3, q3, c3⟩ := h.co idx (by omega) 3 (by omega)
  rw [e, c0, c1, c2, c3, value_coeff h.eRe hlt b1 b2 p0 p1 p2 p3, value_coeff h.eIm hlt b1 b2 q0 q1 q2 q3]
  congr 2
  set x := τ - g.beta * idx / ((g.ntau : ℝ) - 1)
  rw [← Complex.ofReal_pow, ← Complex.ofReal_pow]
  apply Complex.ext
  · simp only [Complex.add_re, Complex.re_mul_ofReal]
  · simp only [Complex.add_im, Complex.im_mul_ofReal]

end Green
end CTInt
