import Verif.Proofs.Spline

/-!
# C44: the cubic spline interpolates smoothly
-/

set_option linter.all false

namespace CTInt

namespace Spline

variable {o : SplineOpts} {xs ys : List ℝ} {B : ℕ → ℝ} {s : Spline}

/-- The pieces between the points, extended to the line, joined at the inner points. -/
noncomputable def inner (s : Spline) (B : ℕ → ℝ) : ℝ → ℝ :=
  glue (fun i => s.x (i + 1)) (fun i => piece (s.x i) (s.y i) (s.a i) (B i) (s.c i)) (s.n - 2) 0
noncomputable def inner1 (s : Spline) (B : ℕ → ℝ) : ℝ → ℝ :=
  glue (fun i => s.x (i + 1)) (fun i => piece1 (s.x i) (s.a i) (B i) (s.c i)) (s.n - 2) 0
noncomputable def inner2 (s : Spline) (B : ℕ → ℝ) : ℝ → ℝ :=
  glue (fun i => s.x (i + 1)) (fun i => piece2 (s.x i) (s.a i) (B i)) (s.n - 2) 0

theorem piece_start (x0 y0 a b c : ℝ) : piece x0 y0 a b c x0 = y0 := by simp [piece]
theorem piece1_start (x0 a b c : ℝ) : piece1 x0 a b c x0 = c := by simp [piece1]
theorem piece2_start (x0 a b : ℝ) : piece2 x0 a b x0 = 2 * b := by simp [piece2]

theorem Solved.eqB (h : Solved o xs ys B s) (i : ℕ) (hi : i + 1 < s.n) :
    piece2 (s.x i) (s.a i) (B i) (s.x (i + 1)) = 2 * B (i + 1) := by
  have := h.eqA i hi
  unfold piece2; linarith

theorem inner_deriv (h : Solved o xs ys B s) (hx : ∀ i, i + 1 < s.n → s.x i < s.x (i + 1)) (t : ℝ) :
    HasDerivAt (inner s B) (inner1 s B t) t := by
  refine glue_hasDerivAt (fun i hi hi' => hx (i + 1) (by omega)) (fun k t => piece_deriv _ _ _ _ _ t) ?_ ?_ t
  · intro i _ hi
    rw [h.eqY i (by omega), piece_start]
  · intro i _ hi
    rw [h.eqC i (by omega), piece1_start]

theorem inner1_deriv (h : Solved o xs ys B s) (hx : ∀ i, i + 1 < s.n → s.x i < s.x (i + 1)) (t : ℝ) :
    HasDerivAt (inner1 s B) (inner2 s B t) t := by
  refine glue_hasDerivAt (fun i hi hi' => hx (i + 1) (by omega)) (fun k t => piece1_deriv _ _ _ _ t) ?_ ?_ t
  · intro i _ hi
    rw [h.eqC i (by omega), piece1_start]
  · intro i _ hi
    rw [h.eqB i (by omega), piece2_start]

theorem inner2_continuous (h : Solved o xs ys B s) (hx : ∀ i, i + 1 < s.n → s.x i < s.x (i + 1)) :
    Continuous (inner2 s B) := by
  refine glue_continuous (fun i hi hi' => hx (i + 1) (by omega)) (fun k => piece2_continuous _ _ _) ?_
  intro i _ hi
  rw [h.eqB i (by omega), piece2_start]

theorem mono_of (hx : ∀ i, i + 1 < s.n → s.x i < s.x (i + 1)) {i j : ℕ} (hij : i < j) (hj : j < s.n) : s.x i < s.x j := by
  induction j with
  | zero => omega
  | succ j ih =>
    rcases Nat.eq_or_lt_of_le (Nat.le_of_lt_succ hij) with rfl | hlt
    · exact hx i hj
    · exact (ih hlt (by omega)).trans (hx j hj)

/-- `lower_bound` counts exactly the points below `t`. -/
theorem lowerBound_spec (hx : ∀ i, i + 1 < s.n → s.x i < s.x (i + 1)) (t : ℝ) :
    s.lowerBound t ≤ s.n ∧ ∀ i < s.n, (s.x i < t ↔ i < s.lowerBound t) := by
  classical
  have key : ∀ m, m ≤ s.n → ((List.range m).takeWhile fun i => decide (s.x i < t)).length ≤ m ∧
      ∀ i < m, (s.x i < t ↔ i < ((List.range m).takeWhile fun i => decide (s.x i < t)).length) := by
    intro m
    induction m with
    | zero => intro _; exact ⟨by simp, fun i hi => by omega⟩
    | succ m ih =>
      intro hm
      obtain ⟨h1, h2⟩ := ih (by omega)
      rw [List.range_succ, List.takeWhile_append, List.length_range]
      by_cases hf : ((List.range m).takeWhile fun i => decide (s.x i < t)).length = m
      · rw [if_pos hf]
        by_cases ht : s.x m < t
        · refine ⟨by simp [ht], fun i hi => ?_⟩
          simp only [List.length_append, List.length_range]
          have e : ([m].takeWhile fun i => decide (s.x i < t)).length = 1 := by simp [ht]
          rw [e]
          constructor
          · intro _; omega
          · intro _
            rcases Nat.eq_or_lt_of_le (Nat.le_of_lt_succ hi) with rfl | hlt
            · exact ht
            · exact (h2 i hlt).2 (by omega)
        · refine ⟨by simp [ht], fun i hi => ?_⟩
          have e : ([m].takeWhile fun i => decide (s.x i < t)).length = 0 := by simp [ht]
          simp only [List.length_append, List.length_range, e]
          rcases Nat.eq_or_lt_of_le (Nat.le_of_lt_succ hi) with rfl | hlt
          · simp [ht]
          · have := h2 i hlt
            rw [hf] at this
            simpa [hlt] using this
      · rw [if_neg hf]
        refine ⟨by omega, fun i hi => ?_⟩
        rcases Nat.eq_or_lt_of_le (Nat.le_of_lt_succ hi) with rfl | hlt
        · have hnot : ¬ s.x (((List.range i).takeWhile fun i => decide (s.x i < t)).length) < t := by
            rw [h2 _ (by omega)]; omega
          constructor
          · intro hm'
            exact absurd ((mono_of hx (lt_of_le_of_ne h1 hf) (by omega)).trans hm') hnot
          · intro hm'; omega
        · exact h2 i hlt
  exact key s.n le_rfl

/-- The value computed at `t`. -/
noncomputable def value (s : Spline) (t : ℝ) : ℝ :=
  open Classical in
  let idx := s.lowerBound t - 1
  let h := t - s.x idx
  if t < s.x 0 then (s.b0 * h + s.c0) * h + s.y 0
  else if t > s.x (s.n - 1) then (s.b (s.n - 1) * h + s.c (s.n - 1)) * h + s.y (s.n - 1)
  else ((s.a idx * h + s.b idx) * h + s.c idx) * h + s.y idx

theorem eval_ok (hx : ∀ i, i + 1 < s.n → s.x i < s.x (i + 1)) (hn : 0 < s.n) (t : ℝ) :
    s.eval t = .ok (value s t) := by
  have := (lowerBound_spec hx t).1
  have e : Res.assert (s.lowerBound t - 1 < s.n ∧ 0 < s.n) = .ok () := Res.assert_true ⟨by omega, hn⟩
  unfold eval
  simp only [e, Res.bind_ok]
  rfl

/-- On the interval the value is that of the joined pieces. -/
theorem value_inner (h : Solved o xs ys B s) (hn : 2 < s.n) (hx : ∀ i, i + 1 < s.n → s.x i < s.x (i + 1)) {t : ℝ}
    (ht : t ∈ Set.Icc (s.x 0) (s.x (s.n - 1))) : value s t = inner s B t := by
  obtain ⟨hle, hlb⟩ := lowerBound_spec hx t
  have hub : s.lowerBound t ≤ s.n - 1 := by
    by_contra hc
    exact absurd ((hlb (s.n - 1) (by omega)).2 (by omega)) (not_lt.2 ht.2)
  have e : value s t = piece (s.x (s.lowerBound t - 1)) (s.y (s.lowerBound t - 1)) (s.a (s.lowerBound t - 1))
      (B (s.lowerBound t - 1)) (s.c (s.lowerBound t - 1)) t := by
    unfold value
    simp only
    rw [if_neg (not_lt.2 ht.1), if_neg (not_lt.2 ht.2), h.b _ (by omega)]
    rfl
  rw [e]
  symm
  refine glue_eq (f := fun i => piece (s.x i) (s.y i) (s.a i) (B i) (s.c i)) (fun i _ hi => hx (i + 1) (by omega))
    (Nat.zero_le _) (by omega) ?_ ?_
  · intro hj
    rw [show s.lowerBound t - 1 - 1 + 1 = s.lowerBound t - 1 by omega]
    exact (hlb _ (by omega)).2 (by omega)
  · intro hj
    by_cases h0 : s.lowerBound t = 0
    · rw [h0]
      have := (hlb 1 (by omega)).not.2 (by omega)
      exact not_lt.1 this
    · rw [show s.lowerBound t - 1 + 1 = s.lowerBound t by omega]
      exact not_lt.1 ((hlb _ (by omega)).not.2 (by omega))

/-- Between two neighbouring points the value is that of the piece that starts at the left one. -/
theorem value_piece (h : Solved o xs ys B s) (hn : 2 < s.n) (hxs : ∀ i, i + 1 < s.n → s.x i < s.x (i + 1)) (i : ℕ)
    (hi : i + 1 < s.n) (t : ℝ) (ht : t ∈ Set.Icc (s.x i) (s.x (i + 1))) :
    value s t = piece (s.x i) (s.y i) (s.a i) (B i) (s.c i) t := by
  have hm : t ∈ Set.Icc (s.x 0) (s.x (s.n - 1)) := by
    constructor
    · rcases Nat.eq_zero_or_pos i with rfl | hp
      · exact ht.1
      · exact (mono_of hxs hp (by omega)).le.trans ht.1
    · rcases Nat.eq_or_lt_of_le (show i + 1 ≤ s.n - 1 by omega) with h1 | h1
      · rw [← h1]; exact ht.2
      · exact ht.2.trans (mono_of hxs h1 (by omega)).le
  rw [value_inner h hn hxs hm]
  rcases eq_or_lt_of_le ht.1 with rfl | hlt
  · -- left end of the piece
    rcases Nat.eq_zero_or_pos i with rfl | hp
    · refine glue_eq (f := fun i => piece (s.x i) (s.y i) (s.a i) (B i) (s.c i)) (j := 0)
        (fun i _ hi => hxs (i + 1) (by omega)) le_rfl (by omega) (by simp) (fun _ => ht.2)
    · rw [piece_start]
      obtain ⟨k, rfl⟩ : ∃ k, i = k + 1 := ⟨i - 1, by omega⟩
      rw [← h.eqY k (by omega)]
      refine glue_eq (f := fun i => piece (s.x i) (s.y i) (s.a i) (B i) (s.c i)) (j := k)
        (fun i _ hi => hxs (i + 1) (by omega)) (by omega) (by omega) ?_ (fun _ => le_rfl)
      intro hk
      rw [show k - 1 + 1 = k by omega]
      exact hxs k (by omega)
  · refine glue_eq (f := fun i => piece (s.x i) (s.y i) (s.a i) (B i) (s.c i)) (j := i)
      (fun i _ hi => hxs (i + 1) (by omega)) (by omega) (by omega) ?_ (fun _ => ht.2)
    intro hk
    rw [show i - 1 + 1 = i by omega]; exact hlt

end Spline

open Spline in
/-- **C44.**  For at least three points with strictly increasing abscissae `set_points` succeeds — in particular
    no pivot of the internal linear solve is zero — and `operator()` is defined everywhere and computes a cubic
    spline through the points that satisfies the requested boundary condition at either end. -/
theorem C44_spline (o : SplineOpts) (xs ys : List ℝ) (hlen : xs.length = ys.length) (hn : 3 ≤ xs.length)
    (hx : xs.Pairwise (· < ·)) :
    ∃ s S, setPoints o xs ys true = .ok s ∧ (∀ t, s.eval t = .ok (S t)) ∧
      IsCubicSpline xs.length (fun i => xs.getD i 0) (fun i => ys.getD i 0) S ∧
      (let a := xs.getD 0 0
       let b := xs.getD (xs.length - 1) 0
       (o.left = .firstDeriv → derivWithin S (Set.Icc a b) a = o.leftValue) ∧
       (o.left = .secondDeriv → iteratedDerivWithin 2 S (Set.Icc a b) a = o.leftValue) ∧
       (o.right = .firstDeriv → derivWithin S (Set.Icc a b) b = o.rightValue) ∧
       (o.right = .secondDeriv → iteratedDerivWithin 2 S (Set.Icc a b) b = o.rightValue)) := by
  have hx' : ∀ i, i + 1 < xs.length → xs.getD i 0 < xs.getD (i + 1) 0 := by
    intro i hi
    have h1 : xs.getD i 0 = xs[i] := by simp [List.getD, List.getElem?_eq_getElem (show i < xs.length by omega)]
    have h2 : xs.getD (i + 1) 0 = xs[i + 1] := by simp [List.getD, List.getElem?_eq_getElem hi]
    rw [h1, h2]
    exact List.pairwise_iff_getElem.1 hx i (i + 1) (by omega) hi (by omega)
  obtain ⟨s, B, e, h⟩ := setPoints_ok o xs ys hlen (by omega) hx'
  have hsn : s.n = xs.length := h.n
  have hsx : ∀ i, s.x i = xs.getD i 0 := fun i => by rw [h.x]
  have hsy : ∀ i, s.y i = ys.getD i 0 := fun i => by rw [h.y]
  have hxs : ∀ i, i + 1 < s.n → s.x i < s.x (i + 1) := by
    intro i hi; rw [hsx, hsx]; exact hx' i (by omega)
  have hval := fun t ht => value_inner h (by omega) hxs (t := t) ht
  have d1 := inner_deriv h hxs
  have d2 := inner1_deriv h hxs
  have d3 := inner2_continuous h hxs
  have hcd : ContDiff ℝ 2 (inner s B) := contDiff_two_of d1 d2 d3
  have hab : s.x 0 < s.x (s.n - 1) := mono_of hxs (by omega) (by omega)
  have hcongr : Set.EqOn (value s) (inner s B) (Set.Icc (s.x 0) (s.x (s.n - 1))) := fun t ht => hval t ht
  have hint : ∀ i, i + 1 < s.n → ∀ t ∈ Set.Icc (s.x i) (s.x (i + 1)),
      value s t = piece (s.x i) (s.y i) (s.a i) (B i) (s.c i) t := fun i hi t ht =>
    value_piece h (by omega) hxs i hi t ht
  have hfirst2 : s.x 0 ≤ s.x 1 := (hxs 0 (by omega)).le
  have g0 : inner1 s B (s.x 0) = s.c 0 := by
    rw [← piece1_start (s.x 0) (s.a 0) (B 0) (s.c 0)]
    exact glue_eq (f := fun i => piece1 (s.x i) (s.a i) (B i) (s.c i)) (j := 0)
      (fun i _ hi => hxs (i + 1) (by omega)) le_rfl (by omega) (by simp) (fun _ => hfirst2)
  have g0' : inner2 s B (s.x 0) = 2 * B 0 := by
    rw [← piece2_start (s.x 0) (s.a 0) (B 0)]
    exact glue_eq (f := fun i => piece2 (s.x i) (s.a i) (B i)) (j := 0)
      (fun i _ hi => hxs (i + 1) (by omega)) le_rfl (by omega) (by simp) (fun _ => hfirst2)
  have gl : inner1 s B (s.x (s.n - 1)) = s.c (s.n - 1) := by
    have := h.eqC (s.n - 2) (by omega)
    rw [show s.n - 2 + 1 = s.n - 1 by omega] at this
    rw [← this]
    refine glue_eq (f := fun i => piece1 (s.x i) (s.a i) (B i) (s.c i)) (j := s.n - 2)
      (fun i _ hi => hxs (i + 1) (by omega)) (by omega) (by omega) ?_ (fun _ => by omega)
    intro _
    rw [show s.n - 2 - 1 + 1 = s.n - 2 by omega]
    exact mono_of hxs (by omega) (by omega)
  have gl' : inner2 s B (s.x (s.n - 1)) = 2 * B (s.n - 1) := by
    have := h.eqB (s.n - 2) (by omega)
    rw [show s.n - 2 + 1 = s.n - 1 by omega] at this
    rw [← this]
    refine glue_eq (f := fun i => piece2 (s.x i) (s.a i) (B i)) (j := s.n - 2)
      (fun i _ hi => hxs (i + 1) (by omega)) (by omega) (by omega) ?_ (fun _ => by omega)
    intro _
    rw [show s.n - 2 - 1 + 1 = s.n - 2 by omega]
    exact mono_of hxs (by omega) (by omega)
  have hud : UniqueDiffOn ℝ (Set.Icc (s.x 0) (s.x (s.n - 1))) := uniqueDiffOn_Icc hab
  have D1 : ∀ t ∈ Set.Icc (s.x 0) (s.x (s.n - 1)),
      derivWithin (value s) (Set.Icc (s.x 0) (s.x (s.n - 1))) t = inner1 s B t := by
    intro t ht
    rw [derivWithin_congr hcongr (hcongr ht)]
    exact (d1 t).hasDerivWithinAt.derivWithin (hud t ht)
  have D2 : ∀ t ∈ Set.Icc (s.x 0) (s.x (s.n - 1)),
      iteratedDerivWithin 2 (value s) (Set.Icc (s.x 0) (s.x (s.n - 1))) t = inner2 s B t := by
    intro t ht
    rw [iteratedDerivWithin_succ, derivWithin_congr (f := inner1 s B) ?_ ?_]
    · exact (d2 t).hasDerivWithinAt.derivWithin (hud t ht)
    · intro r hr
      rw [iteratedDerivWithin_one]; exact D1 r hr
    · rw [iteratedDerivWithin_one]; exact D1 t ht
  refine ⟨s, value s, e, fun t => eval_ok hxs (by omega) t, ⟨?_, ?_, ?_⟩, ?_⟩
  · intro i hi
    simp only [← hsx, ← hsy]
    rw [← hsn] at hi
    by_cases hl : i + 1 < s.n
    · rw [hint i hl _ ⟨le_rfl, (hxs i hl).le⟩, piece_start]
    · obtain ⟨k, rfl⟩ : ∃ k, i = k + 1 := ⟨i - 1, by omega⟩
      rw [hint k (by omega) _ ⟨(hxs k (by omega)).le, le_rfl⟩, h.eqY k (by omega)]
  · intro i hi
    obtain ⟨p, hp, hp'⟩ := piece_poly (s.x i) (s.y i) (s.a i) (B i) (s.c i)
    refine ⟨p, hp, fun t ht => ?_⟩
    simp only [← hsx] at ht
    rw [hint i (by omega) t ht, hp']
  · simp only [← hsx, ← hsn]
    exact hcd.contDiffOn.congr hcongr
  · simp only [← hsx, ← hsn]
    have m0 : s.x 0 ∈ Set.Icc (s.x 0) (s.x (s.n - 1)) := ⟨le_rfl, hab.le⟩
    have m1 : s.x (s.n - 1) ∈ Set.Icc (s.x 0) (s.x (s.n - 1)) := ⟨hab.le, le_rfl⟩
    refine ⟨fun hb => ?_, fun hb => ?_, fun hb => ?_, fun hb => ?_⟩
    · rw [D1 _ m0, g0]; exact h.left.2 hb
    · rw [D2 _ m0, g0']; exact h.left.1 hb
    · rw [D1 _ m1, gl]; exact h.right.2 hb
    · rw [D2 _ m1, gl']; exact h.right.1 hb

/-- Three points meet the hypotheses of `C44_spline`. -/
example : ([0, 1, 3] : List ℝ).Pairwise (· < ·) := by
  simp

namespace Spline

variable {o : SplineOpts} {xs ys : List ℝ} {B : ℕ → ℝ} {s : Spline}

/-- All pieces, the extrapolations included: piece `0` to the left of the first point, piece `i + 1` to the
    right of point `i`. -/
noncomputable def outer (s : Spline) : ℕ → ℝ → ℝ
  | 0 => piece (s.x 0) (s.y 0) 0 s.b0 s.c0
  | i + 1 => piece (s.x i) (s.y i) (s.a i) (s.b i) (s.c i)
noncomputable def outer1 (s : Spline) : ℕ → ℝ → ℝ
  | 0 => piece1 (s.x 0) 0 s.b0 s.c0
  | i + 1 => piece1 (s.x i) (s.a i) (s.b i) (s.c i)
noncomputable def outer2 (s : Spline) : ℕ → ℝ → ℝ
  | 0 => piece2 (s.x 0) 0 s.b0
  | i + 1 => piece2 (s.x i) (s.a i) (s.b i)

theorem outer_select (hx : ∀ i, i + 1 < s.n → s.x i < s.x (i + 1)) (f : ℕ → ℝ → ℝ) (t : ℝ) :
    glue s.x f s.n 0 t = f (s.lowerBound t) t := by
  obtain ⟨hle, hlb⟩ := lowerBound_spec hx t
  refine glue_eq (fun i _ hi => hx i (by omega)) (Nat.zero_le _) (by omega) ?_ ?_
  · intro hj; exact (hlb _ (by omega)).2 (by omega)
  · intro hj; exact not_lt.1 ((hlb _ (by omega)).not.2 (by omega))

theorem bAll (h : Solved o xs ys B s) (hf : o.forceLinear = false) (i : ℕ) (hi : i < s.n) : s.b i = B i := by
  by_cases hl : i + 1 < s.n
  · exact h.b i hl
  · obtain rfl : i = s.n - 1 := by omega
    rw [h.bl, hf]; simp

theorem outer_match (h : Solved o xs ys B s) (hf : o.forceLinear = false) (i : ℕ) (hi : i < s.n) :
    outer s i (s.x i) = outer s (i + 1) (s.x i) ∧ outer1 s i (s.x i) = outer1 s (i + 1) (s.x i) ∧
      outer2 s i (s.x i) = outer2 s (i + 1) (s.x i) := by
  cases i with
  | zero =>
    simp only [outer, outer1, outer2, piece_start, piece1_start, piece2_start, true_and]
    refine ⟨h.c0, ?_⟩
    rw [h.b0, hf, bAll h hf 0 hi]; simp
  | succ i =>
    simp only [outer, outer1, outer2, piece_start, piece1_start, piece2_start]
    rw [bAll h hf i (by omega), bAll h hf (i + 1) hi]
    exact ⟨h.eqY i hi, h.eqC i hi, h.eqB i hi⟩

theorem outer_smooth (h : Solved o xs ys B s) (hf : o.forceLinear = false)
    (hx : ∀ i, i + 1 < s.n → s.x i < s.x (i + 1)) :
    (∀ t, HasDerivAt (glue s.x (outer s) s.n 0) (glue s.x (outer1 s) s.n 0 t) t) ∧
    (∀ t, HasDerivAt (glue s.x (outer1 s) s.n 0) (glue s.x (outer2 s) s.n 0 t) t) ∧
    Continuous (glue s.x (outer2 s) s.n 0) := by
  have hx' : ∀ i, 0 ≤ i → i + 1 < 0 + s.n → s.x i < s.x (i + 1) := fun i _ hi => hx i (by omega)
  refine ⟨fun t => glue_hasDerivAt hx' ?_ (fun i _ hi => (outer_match h hf i (by omega)).1)
      (fun i _ hi => (outer_match h hf i (by omega)).2.1) t,
    fun t => glue_hasDerivAt hx' ?_ (fun i _ hi => (outer_match h hf i (by omega)).2.1)
      (fun i _ hi => (outer_match h hf i (by omega)).2.2) t,
    glue_continuous hx' ?_ (fun i _ hi => (outer_match h hf i (by omega)).2.2)⟩
  · intro k t; cases k <;> exact piece_deriv _ _ _ _ _ t
  · intro k t; cases k <;> exact piece1_deriv _ _ _ _ t
  · intro k; cases k <;> exact piece2_continuous _ _ _

/-- Where the piece is selected. -/
theorem select_cases (hn : 2 < s.n) (hx : ∀ i, i + 1 < s.n → s.x i < s.x (i + 1)) (t : ℝ) :
    (t < s.x 0 ∧ s.lowerBound t = 0) ∨ (t = s.x 0 ∧ s.lowerBound t = 0 ∧ ¬ t > s.x (s.n - 1)) ∨
    (s.x 0 < t ∧ t > s.x (s.n - 1) ∧ s.lowerBound t = s.n) ∨
    (s.x 0 < t ∧ ¬ t > s.x (s.n - 1) ∧ 0 < s.lowerBound t ∧ s.lowerBound t < s.n) := by
  obtain ⟨hle, hlb⟩ := lowerBound_spec hx t
  have h0 := hlb 0 (by omega)
  have hl := hlb (s.n - 1) (by omega)
  have hlt := mono_of hx (show 0 < s.n - 1 by omega) (by omega)
  rcases lt_trichotomy t (s.x 0) with h | h | h
  · left; exact ⟨h, by have := h0.not.1 (not_lt.2 h.le); omega⟩
  · right; left
    refine ⟨h, by have := h0.not.1 (not_lt.2 h.le); omega, ?_⟩
    rw [h]; exact not_lt.2 hlt.le
  · right; right
    by_cases h2 : t > s.x (s.n - 1)
    · left; exact ⟨h, h2, by have := hl.1 h2; omega⟩
    · right
      exact ⟨h, h2, h0.1 h, by have := hl.not.1 h2; omega⟩

theorem value_outer (h : Solved o xs ys B s) (hf : o.forceLinear = false) (hn : 2 < s.n)
    (hx : ∀ i, i + 1 < s.n → s.x i < s.x (i + 1)) (t : ℝ) : value s t = glue s.x (outer s) s.n 0 t := by
  rw [outer_select hx]
  unfold value
  simp only
  rcases select_cases hn hx t with ⟨h1, h2⟩ | ⟨h1, h2, h3⟩ | ⟨h1, h2, h3⟩ | ⟨h1, h2, h3, h4⟩
  · rw [if_pos h1, h2]
    simp [outer, piece]
  · rw [if_neg (by rw [h1]; exact lt_irrefl _), if_neg h3, h2, h1]
    simp [outer, piece]
  · rw [if_neg (not_lt.2 h1.le), if_pos h2, h3]
    obtain ⟨k, hk⟩ : ∃ k, s.n = k + 1 := ⟨s.n - 1, by omega⟩
    have := h.al
    rw [hk] at this ⊢
    simp only [Nat.add_sub_cancel] at this ⊢
    simp [outer, piece, this]
  · rw [if_neg (not_lt.2 h1.le), if_neg h2]
    obtain ⟨k, hk⟩ : ∃ k, s.lowerBound t = k + 1 := ⟨s.lowerBound t - 1, by omega⟩
    rw [hk]
    simp [outer, piece]

theorem deriv1_outer (h : Solved o xs ys B s) (hf : o.forceLinear = false) (hn : 2 < s.n)
    (hx : ∀ i, i + 1 < s.n → s.x i < s.x (i + 1)) (t : ℝ) : s.deriv 1 t = .ok (glue s.x (outer1 s) s.n 0 t) := by
  rw [outer_select hx]
  have hle := (lowerBound_spec hx t).1
  have e : Res.assert (s.lowerBound t - 1 < s.n ∧ 0 < s.n) = .ok () := Res.assert_true ⟨by omega, by omega⟩
  unfold deriv
  simp only [Res.assert_true (Nat.one_pos), e, Res.bind_ok, Res.pure_eq, if_true]
  refine congrArg Res.ok ?_
  rcases select_cases hn hx t with ⟨h1, h2⟩ | ⟨h1, h2, h3⟩ | ⟨h1, h2, h3⟩ | ⟨h1, h2, h3, h4⟩
  · rw [if_pos h1, h2]
    simp [outer1, piece1]
  · rw [if_neg (by rw [h1]; exact lt_irrefl _), if_neg h3, h2, h1]
    simp [outer1, piece1, h.c0]
  · rw [if_neg (not_lt.2 h1.le), if_pos h2, h3]
    obtain ⟨k, hk⟩ : ∃ k, s.n = k + 1 := ⟨s.n - 1, by omega⟩
    have := h.al
    rw [hk] at this ⊢
    simp only [Nat.add_sub_cancel] at this ⊢
    simp [outer1, piece1, this]
  · rw [if_neg (not_lt.2 h1.le), if_neg h2]
    obtain ⟨k, hk⟩ : ∃ k, s.lowerBound t = k + 1 := ⟨s.lowerBound t - 1, by omega⟩
    rw [hk]
    simp [outer1, piece1]

theorem deriv2_outer (h : Solved o xs ys B s) (hf : o.forceLinear = false) (hn : 2 < s.n)
    (hx : ∀ i, i + 1 < s.n → s.x i < s.x (i + 1)) (t : ℝ) (ht : s.x 0 ≤ t) :
    s.deriv 2 t = .ok (glue s.x (outer2 s) s.n 0 t) := by
  rw [outer_select hx]
  have hle := (lowerBound_spec hx t).1
  have e : Res.assert (s.lowerBound t - 1 < s.n ∧ 0 < s.n) = .ok () := Res.assert_true ⟨by omega, by omega⟩
  unfold deriv
  simp only [Res.assert_true (Nat.two_pos), e, Res.bind_ok, Res.pure_eq, if_true, OfNat.ofNat_ne_one, if_false]
  refine congrArg Res.ok ?_
  rcases select_cases hn hx t with ⟨h1, h2⟩ | ⟨h1, h2, h3⟩ | ⟨h1, h2, h3⟩ | ⟨h1, h2, h3, h4⟩
  · exact absurd ht (not_le.2 h1)
  · rw [if_neg (by rw [h1]; exact lt_irrefl _), if_neg h3, h2, h1]
    simp [outer2, piece2, h.b0, hf, bAll h hf 0 (by omega)]
  · rw [if_neg (not_lt.2 h1.le), if_pos h2, h3]
    obtain ⟨k, hk⟩ : ∃ k, s.n = k + 1 := ⟨s.n - 1, by omega⟩
    have := h.al
    rw [hk] at this ⊢
    simp only [Nat.add_sub_cancel] at this ⊢
    simp [outer2, piece2, this]
  · rw [if_neg (not_lt.2 h1.le), if_neg h2]
    obtain ⟨k, hk⟩ : ∃ k, s.lowerBound t = k + 1 := ⟨s.lowerBound t - 1, by omega⟩
    rw [hk]
    simp [outer2, piece2]

end Spline

theorem getD_increasing {xs : List ℝ} (hx : xs.Pairwise (· < ·)) (i : ℕ) (hi : i + 1 < xs.length) :
    xs.getD i 0 < xs.getD (i + 1) 0 := by
  have h1 : xs.getD i 0 = xs[i] := by simp [List.getD, List.getElem?_eq_getElem (show i < xs.length by omega)]
  have h2 : xs.getD (i + 1) 0 = xs[i + 1] := by simp [List.getD, List.getElem?_eq_getElem hi]
  rw [h1, h2]
  exact List.pairwise_iff_getElem.1 hx i (i + 1) (by omega) hi (by omega)

open Spline in
/-- **C44, the whole line.**  Without forced linear extrapolation the computed function is twice continuously
    differentiable everywhere, `deriv(1, t)` is its derivative everywhere, and `deriv(2, t)` its second
    derivative from the first point on.  (Partial: to the left of the first point `deriv(2, t)` is wrong, see
    `C44_deriv_violation`.) -/
theorem C44_deriv_partial (o : SplineOpts) (xs ys : List ℝ) (hlen : xs.length = ys.length) (hn : 3 ≤ xs.length)
    (hx : xs.Pairwise (· < ·)) (hf : o.forceLinear = false) :
    ∃ s S, setPoints o xs ys true = .ok s ∧ (∀ t, s.eval t = .ok (S t)) ∧ ContDiff ℝ 2 S ∧
      (∀ t, s.deriv 1 t = .ok (_root_.deriv S t)) ∧
      (∀ t, xs.getD 0 0 ≤ t → s.deriv 2 t = .ok (iteratedDeriv 2 S t)) := by
  obtain ⟨s, B, e, h⟩ := setPoints_ok o xs ys hlen (by omega) (getD_increasing hx)
  have hsn : s.n = xs.length := h.n
  have hsx : ∀ i, s.x i = xs.getD i 0 := fun i => by rw [h.x]
  have hxs : ∀ i, i + 1 < s.n → s.x i < s.x (i + 1) := by
    intro i hi; rw [hsx, hsx]; exact getD_increasing hx i (by omega)
  obtain ⟨d1, d2, d3⟩ := outer_smooth h hf hxs
  have ev : value s = glue s.x (outer s) s.n 0 := funext fun t => value_outer h hf (by omega) hxs t
  have e1 : _root_.deriv (value s) = glue s.x (outer1 s) s.n 0 := by
    rw [ev]; exact funext fun t => (d1 t).deriv
  refine ⟨s, value s, e, fun t => eval_ok hxs (by omega) t, ?_, fun t => ?_, fun t ht => ?_⟩
  · rw [ev]; exact contDiff_two_of d1 d2 d3
  · rw [e1]; exact deriv1_outer h hf (by omega) hxs t
  · rw [deriv2_outer h hf (by omega) hxs t (by rw [hsx]; exact ht), iteratedDeriv_succ, iteratedDeriv_one, e1, (d2 t).deriv]

open Spline in
/-- **C44, defect.**  To the left of the first point `deriv(2, t)` returns `2 b (t - x₀)` instead of `2 b`. -/
theorem C44_deriv_violation :
    ∃ (o : SplineOpts) (xs ys : List ℝ) (s : Spline) (S : ℝ → ℝ), o.forceLinear = false ∧ xs.Pairwise (· < ·) ∧
      setPoints o xs ys true = .ok s ∧ (∀ t, s.eval t = .ok (S t)) ∧ ContDiff ℝ 2 S ∧
      s.deriv 2 (-1) = .ok (-2) ∧ iteratedDeriv 2 S (-1) = 2 := by
  have hx : ([0, 1, 2] : List ℝ).Pairwise (· < ·) := by simp
  obtain ⟨s, B, e, h⟩ := setPoints_ok ⟨.secondDeriv, .secondDeriv, 2, 2, false⟩ [0, 1, 2] [0, 1, 4] rfl (by simp)
    (getD_increasing hx)
  have hsn : s.n = 3 := h.n
  have hsx : ∀ i, s.x i = ([0, 1, 2] : List ℝ).getD i 0 := fun i => by rw [h.x]
  have hxs : ∀ i, i + 1 < s.n → s.x i < s.x (i + 1) := by
    intro i hi; rw [hsx, hsx]; exact getD_increasing hx i (by simp; omega)
  obtain ⟨d1, d2, d3⟩ := outer_smooth h rfl hxs
  have ev : value s = glue s.x (outer s) s.n 0 := funext fun t => value_outer h rfl (by omega) hxs t
  have e1 : _root_.deriv (value s) = glue s.x (outer1 s) s.n 0 := by
    rw [ev]; exact funext fun t => (d1 t).deriv
  have hb : s.b0 = 1 := by
    have := h.left.1 rfl
    rw [h.b0]
    simp only at this ⊢
    simp; linarith
  have h0 : s.x 0 = 0 := by rw [hsx]; rfl
  have hlb : s.lowerBound (-1) = 0 := by
    have := ((lowerBound_spec hxs (-1)).2 0 (by omega)).not.1 (by rw [h0]; norm_num)
    omega
  refine ⟨_, _, _, s, value s, rfl, hx, e, fun t => eval_ok hxs (by omega) t, ?_, ?_, ?_⟩
  · rw [ev]; exact contDiff_two_of d1 d2 d3
  · unfold Spline.deriv
    simp only [hlb, Res.assert_true (Nat.two_pos), Res.bind_ok, h0, hb,
      Res.assert_true (show (0 - 1 < s.n ∧ 0 < s.n) from ⟨by omega, by omega⟩), Nat.zero_sub]
    norm_num
  · rw [iteratedDeriv_succ, iteratedDeriv_one, e1, (d2 _).deriv, outer_select hxs, hlb]
    simp [outer2, piece2, hb]

end CTInt
