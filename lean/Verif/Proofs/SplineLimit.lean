import Verif.Props.SplineUnique

/-!
# Natural splines on fine grids
-/

set_option linter.all false

namespace CTInt

open Spline

/-- The second derivatives of a natural spline are bounded by the second differences of its values. -/
theorem spline_coeff_bound {n : ℕ} {x y a B c : ℕ → ℝ} {h D : ℝ} (hn : 2 ≤ n) (hh : 0 < h) (hD : 0 ≤ D) (hx : ∀ i, i + 1 < n → x (i + 1) = x i + h)
    (eqA : ∀ i, i + 1 < n → 3 * a i * (x (i + 1) - x i) = B (i + 1) - B i)
    (eqY : ∀ i, i + 1 < n → piece (x i) (y i) (a i) (B i) (c i) (x (i + 1)) = y (i + 1))
    (eqC : ∀ i, i + 1 < n → piece1 (x i) (a i) (B i) (c i) (x (i + 1)) = c (i + 1))
    (h0 : B 0 = 0) (h1 : B (n - 1) = 0) (hd : ∀ i, i + 2 < n → |y (i + 2) - 2 * y (i + 1) + y i| ≤ D) :
    ∀ i < n, |B i| * h ^ 2 ≤ 3 / 2 * D := by
  obtain ⟨m, hm, hmax⟩ := Finset.exists_max_image (Finset.range n) (fun i => |B i|) ⟨0, Finset.mem_range.2 (by omega)⟩
  have hm := Finset.mem_range.1 hm
  suffices hs : |B m| * h ^ 2 ≤ 3 / 2 * D by
    intro i hi
    exact (mul_le_mul_of_nonneg_right (hmax i (Finset.mem_range.2 hi)) (by positivity)).trans hs
  rcases Nat.eq_zero_or_pos m with rfl | hp
  · rw [h0, abs_zero, zero_mul]
    positivity
  by_cases hl : m = n - 1
  · rw [hl, h1, abs_zero, zero_mul]
    positivity
  obtain ⟨i, rfl⟩ : ∃ i, m = i + 1 := ⟨m - 1, by omega⟩
  have a1 := eqA i (by omega)
  have a2 := eqA (i + 1) (by omega)
  have y1 := eqY i (by omega)
  have y2 := eqY (i + 1) (by omega)
  have c1 := eqC i (by omega)
  have x1 := hx i (by omega)
  have x2 := hx (i + 1) (by omega)
  have e1 : x (i + 1) - x i = h := by linarith
  have e2 : x (i + 1 + 1) - x (i + 1) = h := by linarith
  unfold piece at y1 y2
  unfold piece1 at c1
  rw [e1] at a1 y1 c1
  rw [e2] at a2 y2
  have key : y (i + 2) - 2 * y (i + 1) + y i = h ^ 2 * (B i / 3 + 4 / 3 * B (i + 1) + B (i + 2) / 3) := by
    show y (i + 1 + 1) - 2 * y (i + 1) + y i = h ^ 2 * (B i / 3 + 4 / 3 * B (i + 1) + B (i + 1 + 1) / 3)
    have p1 : 3 * a i * h ^ 3 = (B (i + 1) - B i) * h ^ 2 := by rw [← a1]; ring
    have p2 : 3 * a (i + 1) * h ^ 3 = (B (i + 1 + 1) - B (i + 1)) * h ^ 2 := by rw [← a2]; ring
    have p3 : c (i + 1) * h = c i * h + 3 * a i * h ^ 3 + 2 * B i * h ^ 2 := by rw [← c1]; ring
    linear_combination -y2 + y1 + p3 + 2 / 3 * p1 + 1 / 3 * p2
  have hd := hd i (by omega)
  rw [key, abs_mul, abs_of_nonneg (by positivity : (0 : ℝ) ≤ h ^ 2)] at hd
  have b0 : |B i| ≤ |B (i + 1)| := hmax i (Finset.mem_range.2 (by omega))
  have b2 : |B (i + 2)| ≤ |B (i + 1)| := hmax (i + 2) (Finset.mem_range.2 (by omega))
  have : 2 / 3 * |B (i + 1)| ≤ |B i / 3 + 4 / 3 * B (i + 1) + B (i + 2) / 3| := by
    have q : 4 / 3 * B (i + 1) = (B i / 3 + 4 / 3 * B (i + 1) + B (i + 2) / 3) - B i / 3 - B (i + 2) / 3 := by ring
    have q2 : |4 / 3 * B (i + 1)| ≤ |B i / 3 + 4 / 3 * B (i + 1) + B (i + 2) / 3| + |B i / 3| + |B (i + 2) / 3| := by
      rw [q]
      refine (abs_sub _ _).trans (add_le_add_left ?_ _)
      rw [← q]
      exact abs_sub _ _
    have r1 : |4 / 3 * B (i + 1)| = 4 / 3 * |B (i + 1)| := by rw [abs_mul, abs_of_pos (by norm_num : (0 : ℝ) < 4 / 3)]
    have r2 : |B i / 3| = |B i| / 3 := by rw [abs_div, abs_of_pos (by norm_num : (0 : ℝ) < 3)]
    have r3 : |B (i + 2) / 3| = |B (i + 2)| / 3 := by rw [abs_div, abs_of_pos (by norm_num : (0 : ℝ) < 3)]
    rw [r1, r2, r3] at q2
    linarith
  nlinarith [sq_nonneg h]

/-- A natural spline stays close to the straight line between neighbours. -/
theorem spline_piece_bound {x y a b b' c y' h D t : ℝ} (hh : 0 < h) (ha : 3 * a * h = b' - b) (hy : ((a * h + b) * h + c) * h + y = y')
    (hb : |b| * h ^ 2 ≤ 3 / 2 * D) (hb' : |b'| * h ^ 2 ≤ 3 / 2 * D) (ht : t ∈ Set.Icc x (x + h)) :
    |piece x y a b c t - (y + (y' - y) * ((t - x) / h))| ≤ 9 / 2 * D := by
  obtain ⟨u, hu⟩ : ∃ u, u = (t - x) / h := ⟨_, rfl⟩
  have hs : t - x = u * h := by rw [hu]; field_simp
  have u0 : 0 ≤ u := by rw [hu]; exact div_nonneg (by linarith [ht.1]) hh.le
  have u1 : u ≤ 1 := by rw [hu, div_le_one hh]; linarith [ht.2]
  rw [← hu]
  unfold piece
  rw [hs]
  have e : ((a * (u * h) + b) * (u * h) + c) * (u * h) + y - (y + (y' - y) * u) =
      (b * h ^ 2) * (-(2 / 3) * u + u ^ 2 - u ^ 3 / 3) + (b' * h ^ 2) * (-(1 / 3) * u + u ^ 3 / 3) := by
    have p1 : 3 * a * h ^ 3 = (b' - b) * h ^ 2 := by rw [← ha]; ring
    linear_combination u * hy + (u ^ 3 / 3 - u / 3) * p1
  rw [e]
  have q1 : |b * h ^ 2| ≤ 3 / 2 * D := by rw [abs_mul, abs_of_nonneg (by positivity : (0 : ℝ) ≤ h ^ 2)]; exact hb
  have q2 : |b' * h ^ 2| ≤ 3 / 2 * D := by rw [abs_mul, abs_of_nonneg (by positivity : (0 : ℝ) ≤ h ^ 2)]; exact hb'
  have s2 : u ^ 2 ≤ 1 := pow_le_one₀ u0 u1
  have s3 : u ^ 3 ≤ 1 := pow_le_one₀ u0 u1
  have s2' : 0 ≤ u ^ 2 := by positivity
  have s3' : 0 ≤ u ^ 3 := by positivity
  have r1 : |-(2 / 3) * u + u ^ 2 - u ^ 3 / 3| ≤ 2 := abs_le.2 ⟨by linarith, by linarith⟩
  have r2 : |-(1 / 3) * u + u ^ 3 / 3| ≤ 1 := abs_le.2 ⟨by linarith, by linarith⟩
  refine (abs_add_le _ _).trans ?_
  rw [abs_mul (b * h ^ 2), abs_mul (b' * h ^ 2)]
  linarith [mul_le_mul q1 r1 (abs_nonneg _) ((abs_nonneg _).trans q1),
    mul_le_mul q2 r2 (abs_nonneg _) ((abs_nonneg _).trans q2)]

/-- **A natural spline through values close to a function is close to that function.** -/
theorem naturalSpline_close {file : GFile} {β : ℝ} (hβ : 0 < β) (hn : 3 ≤ file.ntau) {v : ℕ → ℝ} {S f : ℝ → ℝ} (hS : NaturalSpline file β v S) {δ ω : ℝ}
    (hv : ∀ i : ℕ, (i : ℤ) < file.ntau → |v i - f (file.grid β i)| ≤ δ)
    (hf : ∀ t ∈ Set.Icc 0 β, ∀ t' ∈ Set.Icc 0 β, |t - t'| ≤ β / ((file.ntau : ℝ) - 1) → |f t - f t'| ≤ ω) :
    ∀ t ∈ Set.Icc 0 β, |S t - f t| ≤ 19 * δ + 10 * ω := by
  obtain ⟨N, hN⟩ : ∃ N : ℕ, file.ntau = (N : ℤ) + 1 := ⟨(file.ntau - 1).toNat, by omega⟩
  have hN2 : 2 ≤ N := by omega
  have hNr : (0 : ℝ) < N := by exact_mod_cast (by omega : 0 < N)
  have hnt : file.ntau.toNat = N + 1 := by omega
  have hg : ∀ i : ℕ, file.grid β i = β / N * i := by
    intro i
    unfold GFile.grid
    rw [hN]
    push_cast
    rw [add_sub_cancel_right]
    ring
  have hst : β / ((file.ntau : ℝ) - 1) = β / N := by
    rw [hN]
    push_cast
    rw [add_sub_cancel_right]
  rw [hst] at hf
  obtain ⟨h, hh⟩ : ∃ h, h = β / N := ⟨_, rfl⟩
  have hpos : 0 < h := by rw [hh]; positivity
  rw [← hh] at hf
  have hg : ∀ i : ℕ, file.grid β i = h * i := fun i => by rw [hg, hh]
  have hNh : h * N = β := by rw [hh]; field_simp
  have g0 : file.grid β 0 = 0 := by rw [hg]; simp
  have g1 : file.grid β N = β := by rw [hg, hNh]
  have gin : ∀ i, i ≤ N → file.grid β i ∈ Set.Icc 0 β := by
    intro i hi
    rw [hg, ← hNh]
    have : (i : ℝ) ≤ N := by exact_mod_cast hi
    exact ⟨by positivity, by nlinarith⟩
  have gstep : ∀ i, file.grid β (i + 1) = file.grid β i + h := fun i => by rw [hg, hg]; push_cast; ring
  obtain ⟨xs, hxs⟩ : ∃ xs, xs = (List.range (N + 1)).map (file.grid β) := ⟨_, rfl⟩
  obtain ⟨ys, hys⟩ : ∃ ys, ys = (List.range (N + 1)).map v := ⟨_, rfl⟩
  have lx : xs.length = N + 1 := by rw [hxs]; simp
  have ly : ys.length = N + 1 := by rw [hys]; simp
  have dx : ∀ i < N + 1, xs.getD i 0 = file.grid β i := fun i hi => by
    rw [hxs]
    simp [List.getD, hi]
  have dy : ∀ i < N + 1, ys.getD i 0 = v i := fun i hi => by
    rw [hys]
    simp [List.getD, hi]
  have hinc : ∀ i, i + 1 < xs.length → xs.getD i 0 < xs.getD (i + 1) 0 := by
    intro i hi
    rw [lx] at hi
    rw [dx i (by omega), dx (i + 1) hi, gstep]
    linarith
  obtain ⟨s, B, es, hs⟩ := setPoints_ok .default xs ys (by rw [lx, ly]) (by omega) hinc
  have sn : s.n = N + 1 := by rw [hs.n, lx]
  have sx : ∀ i < N + 1, s.x i = file.grid β i := fun i hi => by rw [hs.x]; exact dx i hi
  have sy : ∀ i < N + 1, s.y i = v i := fun i hi => by rw [hs.y]; exact dy i hi
  have hsx : ∀ i, i + 1 < s.n → s.x i < s.x (i + 1) := by
    intro i hi
    rw [hs.x]
    exact hinc i (by rw [lx]; omega)
  have hpw : xs.Pairwise (· < ·) := by
    rw [hxs, List.pairwise_map]
    refine List.pairwise_lt_range.imp fun {i j} hij => ?_
    rw [hg, hg]
    exact mul_lt_mul_of_pos_left (by exact_mod_cast hij) hpos
  obtain ⟨s', es', -, huni⟩ := C44_computes .default xs ys (by rw [lx, ly]) (by omega) hpw
  rw [es] at es'
  obtain rfl : s = s' := by injection es'
  have hval : ∀ t ∈ Set.Icc 0 β, Spline.value s t = S t := by
    intro t ht
    have e0 : xs.getD 0 0 = 0 := by rw [dx 0 (by omega), g0]
    have e1 : xs.getD (xs.length - 1) 0 = β := by rw [lx, Nat.add_sub_cancel, dx N (by omega), g1]
    have := huni S ?_ ?_ t (by rw [e0, e1]; exact ht)
    · rw [eval_ok hsx (by omega) t] at this
      injection this
    · have sp := hS.spline
      rw [hnt] at sp
      refine ⟨fun i hi => ?_, fun i hi => ?_, ?_⟩
      · rw [lx] at hi
        show S (xs.getD i 0) = ys.getD i 0
        rw [dx i hi, dy i hi]
        exact sp.through i hi
      · rw [lx] at hi
        show ∃ p : Polynomial ℝ, p.natDegree ≤ 3 ∧ ∀ t ∈ Set.Icc (xs.getD i 0) (xs.getD (i + 1) 0), S t = p.eval t
        rw [dx i (by omega), dx (i + 1) hi]
        exact sp.cubic i hi
      · show ContDiffOn ℝ 2 S (Set.Icc (xs.getD 0 0) (xs.getD (xs.length - 1) 0))
        rw [e0, e1]
        have := sp.smooth
        rw [Nat.add_sub_cancel, g0, g1] at this
        exact this
    · rw [e0, e1]
      exact ⟨fun q => (by cases q), fun _ => hS.left, fun q => (by cases q), fun _ => hS.right⟩
  have hω : 0 ≤ ω := (abs_nonneg _).trans (hf 0 ⟨le_rfl, hβ.le⟩ 0 ⟨le_rfl, hβ.le⟩ (by simpa using hpos.le))
  have hδ : 0 ≤ δ := (abs_nonneg _).trans (hv 0 (by omega))
  have hstep : ∀ i, i + 1 < N + 1 → |v (i + 1) - v i| ≤ 2 * δ + ω := by
    intro i hi
    have q1 := hv i (by omega)
    have q2 := hv (i + 1) (by omega)
    have q3 := hf _ (gin (i + 1) (by omega)) _ (gin i (by omega)) (by rw [gstep, add_sub_cancel_left, abs_of_pos hpos])
    rw [abs_le] at *
    constructor <;> linarith [q1.1, q1.2, q2.1, q2.2, q3.1, q3.2]
  have hB := spline_coeff_bound (n := N + 1) (x := s.x) (y := s.y) (a := s.a) (B := B) (c := s.c) (h := h) (D := 2 * (2 * δ + ω)) (by omega) hpos (by positivity)
    (fun i hi => by rw [sx i (by omega), sx (i + 1) hi, gstep]) (fun i hi => hs.eqA i (by omega)) (fun i hi => hs.eqY i (by omega))
    (fun i hi => hs.eqC i (by omega)) (by have := hs.left.1 rfl; simp [SplineOpts.default] at this; exact this)
    (by have := hs.right.1 rfl; rw [sn] at this; simp [SplineOpts.default] at this; exact this) (fun i hi => by
      rw [sy _ hi, sy _ (by omega), sy _ (by omega)]
      have q1 := hstep i (by omega)
      have q2 := hstep (i + 1) (by omega)
      rw [show i + 1 + 1 = i + 2 from rfl] at q2
      rw [abs_le] at *
      constructor <;> linarith [q1.1, q1.2, q2.1, q2.2])
  intro t ht
  -- the interval of `t`
  obtain ⟨i, hi, hti⟩ : ∃ i, i + 1 < N + 1 ∧ t ∈ Set.Icc (file.grid β i) (file.grid β i + h) := by
    by_cases hl : t = β
    · refine ⟨N - 1, by omega, ?_⟩
      rw [← gstep, show N - 1 + 1 = N by omega, g1, hl]
      exact ⟨(gin _ (by omega)).2, le_rfl⟩
    · have hlt : t < β := lt_of_le_of_ne ht.2 hl
      have q0 : 0 ≤ t / h := div_nonneg ht.1 hpos.le
      refine ⟨⌊t / h⌋₊, ?_, ?_⟩
      · have : t / h < N := by rw [div_lt_iff₀ hpos, mul_comm, hNh]; exact hlt
        have := (Nat.floor_lt q0).2 this
        omega
      · rw [hg]
        have q1 := Nat.floor_le q0
        have q2 := (Nat.lt_floor_add_one (t / h)).le
        rw [le_div_iff₀ hpos] at q1
        rw [div_le_iff₀ hpos] at q2
        constructor <;> nlinarith
  have hp : S t = piece (s.x i) (s.y i) (s.a i) (B i) (s.c i) t := by
    rw [← hval t ht]
    refine value_piece hs (by omega) hsx i (by omega) t ?_
    rw [sx i (by omega), sx (i + 1) hi, gstep]
    exact hti
  have e1 : s.x (i + 1) - s.x i = h := by rw [sx i (by omega), sx (i + 1) hi, gstep, add_sub_cancel_left]
  have hA := hs.eqA i (by omega)
  have hY := hs.eqY i (by omega)
  unfold piece at hY
  rw [e1] at hA hY
  have key := spline_piece_bound (x := s.x i) (y := s.y i) (t := t) (D := 2 * (2 * δ + ω)) hpos hA hY (hB i (by omega)) (hB (i + 1) hi) (by rw [sx i (by omega)]; exact hti)
  rw [← hp, sy i (by omega), sy (i + 1) hi, sx i (by omega)] at key
  obtain ⟨u, hu⟩ : ∃ u, u = (t - file.grid β i) / h := ⟨_, rfl⟩
  rw [← hu] at key
  have u0 : 0 ≤ u := by rw [hu]; exact div_nonneg (by linarith [hti.1]) hpos.le
  have u1 : u ≤ 1 := by rw [hu, div_le_one hpos]; linarith [hti.2]
  have w1 : |v i - f t| ≤ δ + ω := by
    have q1 := hv i (by omega)
    have q2 := hf _ (gin i (by omega)) t ht (by rw [abs_le]; constructor <;> linarith [hti.1, hti.2])
    rw [abs_le] at *
    constructor <;> linarith [q1.1, q1.2, q2.1, q2.2]
  have w2 : |v (i + 1) - f t| ≤ δ + ω := by
    have q1 := hv (i + 1) (by omega)
    have q2 := hf _ (gin (i + 1) (by omega)) t ht (by rw [gstep, abs_le]; constructor <;> linarith [hti.1, hti.2])
    rw [abs_le] at *
    constructor <;> linarith [q1.1, q1.2, q2.1, q2.2]
  have w3 : |v i + (v (i + 1) - v i) * u - f t| ≤ δ + ω := by
    rw [show v i + (v (i + 1) - v i) * u - f t = (1 - u) * (v i - f t) + u * (v (i + 1) - f t) by ring]
    rw [abs_le] at *
    constructor <;> nlinarith [w1.1, w1.2, w2.1, w2.2]
  rw [abs_le] at *
  constructor <;> linarith [key.1, key.2, w3.1, w3.2]

end CTInt
