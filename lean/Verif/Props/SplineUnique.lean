import Verif.Props.GreenRead
import Mathlib.Analysis.Calculus.Deriv.Polynomial
import Mathlib.Algebra.Polynomial.Derivative

/-!
# C44, C56: the spline is the only one
-/

set_option linter.all false

namespace CTInt

namespace Spline

/-- The coefficients of a polynomial of degree at most three. -/
theorem cubic_coeffs {p : Polynomial ℝ} (hp : p.natDegree ≤ 3) : ∃ a b c d : ℝ,
    (∀ t, p.eval t = a + b * t + c * t ^ 2 + d * t ^ 3) ∧
    (∀ t, p.derivative.eval t = b + 2 * c * t + 3 * d * t ^ 2) ∧
    ∀ t, p.derivative.derivative.eval t = 2 * c + 6 * d * t := by
  have h := p.as_sum_range' 4 (by omega)
  generalize p.coeff = co at h
  simp only [Finset.sum_range_succ, Finset.sum_range_zero, zero_add] at h
  refine ⟨co 0, co 1, co 2, co 3, fun t => ?_, fun t => ?_, fun t => ?_⟩
  · rw [h]; simp
  · rw [h]; simp [Polynomial.derivative_monomial]; ring
  · rw [h]; simp [Polynomial.derivative_monomial]; ring

/-- A function that is differentiable on an interval and a polynomial on a part of it has there the derivative of the
    polynomial. -/
theorem deriv_of_piece {f : ℝ → ℝ} {a b u v : ℝ} (huv : u < v) (hau : a ≤ u) (hvb : v ≤ b)
    (hf : DifferentiableOn ℝ f (Set.Icc a b)) {p : Polynomial ℝ} (hp : ∀ t ∈ Set.Icc u v, f t = p.eval t) {t : ℝ}
    (ht : t ∈ Set.Icc u v) : derivWithin f (Set.Icc a b) t = p.derivative.eval t := by
  have hsub : Set.Icc u v ⊆ Set.Icc a b := Set.Icc_subset_Icc hau hvb
  have h1 := ((hf t (hsub ht)).hasDerivWithinAt).mono hsub
  have h2 : HasDerivWithinAt f (p.derivative.eval t) (Set.Icc u v) t :=
    (p.hasDerivAt t).hasDerivWithinAt.congr hp (hp t ht)
  exact (uniqueDiffOn_Icc huv t ht).eq_deriv _ h1 h2

theorem derivs_of_piece {f : ℝ → ℝ} {a b u v : ℝ} (huv : u < v) (hau : a ≤ u) (hvb : v ≤ b)
    (hf : ContDiffOn ℝ 2 f (Set.Icc a b)) {p : Polynomial ℝ} (hp : ∀ t ∈ Set.Icc u v, f t = p.eval t) {t : ℝ}
    (ht : t ∈ Set.Icc u v) : derivWithin f (Set.Icc a b) t = p.derivative.eval t ∧
      iteratedDerivWithin 2 f (Set.Icc a b) t = p.derivative.derivative.eval t := by
  have hab : a < b := by linarith
  have h1 := fun t ht => deriv_of_piece huv hau hvb (hf.differentiableOn (by norm_num)) hp (t := t) ht
  have hd : DifferentiableOn ℝ (derivWithin f (Set.Icc a b)) (Set.Icc a b) :=
    (hf.derivWithin (uniqueDiffOn_Icc hab) (m := 1) (by norm_num)).differentiableOn (by norm_num)
  refine ⟨h1 t ht, ?_⟩
  rw [show (2 : ℕ) = 1 + 1 from rfl, iteratedDerivWithin_succ, iteratedDerivWithin_one]
  exact deriv_of_piece huv hau hvb hd h1 ht

theorem nodes_mono {n : ℕ} {x : ℕ → ℝ} (hx : ∀ i, i + 1 < n → x i < x (i + 1)) {i j : ℕ} (hij : i ≤ j) (hj : j < n) :
    x i ≤ x j := by
  induction j with
  | zero => obtain rfl : i = 0 := by omega
            exact le_rfl
  | succ j ih =>
    rcases Nat.eq_or_lt_of_le hij with rfl | h
    · exact le_rfl
    · exact (ih (by omega) (by omega)).trans (hx j hj).le

end Spline

open Spline in
/-- **C44.**  The spline is determined: two cubic splines through the same points that agree at either end in the first
    or in the second derivative are the same function on the interval. -/
theorem C44_unique {n : ℕ} {x y : ℕ → ℝ} {S S' : ℝ → ℝ} (hn : 2 ≤ n) (hx : ∀ i, i + 1 < n → x i < x (i + 1))
    (h : IsCubicSpline n x y S) (h' : IsCubicSpline n x y S')
    (hl : derivWithin S (Set.Icc (x 0) (x (n - 1))) (x 0) = derivWithin S' (Set.Icc (x 0) (x (n - 1))) (x 0) ∨
      iteratedDerivWithin 2 S (Set.Icc (x 0) (x (n - 1))) (x 0) = iteratedDerivWithin 2 S' (Set.Icc (x 0) (x (n - 1))) (x 0))
    (hr : derivWithin S (Set.Icc (x 0) (x (n - 1))) (x (n - 1)) = derivWithin S' (Set.Icc (x 0) (x (n - 1))) (x (n - 1)) ∨
      iteratedDerivWithin 2 S (Set.Icc (x 0) (x (n - 1))) (x (n - 1)) =
        iteratedDerivWithin 2 S' (Set.Icc (x 0) (x (n - 1))) (x (n - 1))) :
    ∀ t ∈ Set.Icc (x 0) (x (n - 1)), S t = S' t := by
  set I := Set.Icc (x 0) (x (n - 1)) with hI
  set d1 : ℕ → ℝ := fun i => derivWithin S I (x i) - derivWithin S' I (x i) with hd1
  set d2 : ℕ → ℝ := fun i => iteratedDerivWithin 2 S I (x i) - iteratedDerivWithin 2 S' I (x i) with hd2
  -- the difference on one piece
  have hq : ∀ i, i + 1 < n → ∃ a b c d : ℝ,
      (∀ t ∈ Set.Icc (x i) (x (i + 1)), S t - S' t = a + b * t + c * t ^ 2 + d * t ^ 3) ∧
      a + b * x i + c * x i ^ 2 + d * x i ^ 3 = 0 ∧
      a + b * x (i + 1) + c * x (i + 1) ^ 2 + d * x (i + 1) ^ 3 = 0 ∧
      d1 i = b + 2 * c * x i + 3 * d * x i ^ 2 ∧ d1 (i + 1) = b + 2 * c * x (i + 1) + 3 * d * x (i + 1) ^ 2 ∧
      d2 i = 2 * c + 6 * d * x i ∧ d2 (i + 1) = 2 * c + 6 * d * x (i + 1) := by
    intro i hi
    obtain ⟨p, hp, ep⟩ := h.cubic i hi
    obtain ⟨p', hp', ep'⟩ := h'.cubic i hi
    have hlt := hx i hi
    have ha := nodes_mono hx (Nat.zero_le i) (by omega)
    have hb := nodes_mono hx (show i + 1 ≤ n - 1 by omega) (by omega)
    have m0 : x i ∈ Set.Icc (x i) (x (i + 1)) := ⟨le_rfl, hlt.le⟩
    have m1 : x (i + 1) ∈ Set.Icc (x i) (x (i + 1)) := ⟨hlt.le, le_rfl⟩
    have q0 := derivs_of_piece hlt ha hb h.smooth ep m0
    have q1 := derivs_of_piece hlt ha hb h.smooth ep m1
    have q0' := derivs_of_piece hlt ha hb h'.smooth ep' m0
    have q1' := derivs_of_piece hlt ha hb h'.smooth ep' m1
    obtain ⟨a, b, c, d, e0, e1, e2⟩ := cubic_coeffs hp
    obtain ⟨a', b', c', d', e0', e1', e2'⟩ := cubic_coeffs hp'
    have hval : ∀ t ∈ Set.Icc (x i) (x (i + 1)), S t - S' t =
        (a - a') + (b - b') * t + (c - c') * t ^ 2 + (d - d') * t ^ 3 := by
      intro t ht; rw [ep t ht, ep' t ht, e0, e0']; ring
    refine ⟨a - a', b - b', c - c', d - d', hval, ?_, ?_, ?_, ?_, ?_, ?_⟩
    · rw [← hval _ m0, h.through i (by omega), h'.through i (by omega), sub_self]
    · rw [← hval _ m1, h.through _ hi, h'.through _ hi, sub_self]
    · simp only [hd1]; rw [q0.1, q0'.1, e1, e1']; ring
    · simp only [hd1]; rw [q1.1, q1'.1, e1, e1']; ring
    · simp only [hd2]; rw [q0.2, q0'.2, e2, e2']; ring
    · simp only [hd2]; rw [q1.2, q1'.2, e2, e2']; ring
  -- the energy of the pieces
  have hen : ∀ i, i + 1 < n → d1 (i + 1) * d2 (i + 1) - d1 i * d2 i =
      (x (i + 1) - x i) / 3 * (d2 i ^ 2 + d2 i * d2 (i + 1) + d2 (i + 1) ^ 2) := by
    intro i hi
    obtain ⟨a, b, c, d, -, z0, z1, e1, e1', e2, e2'⟩ := hq i hi
    rw [e1, e1', e2, e2']
    linear_combination 6 * d * (z1 - z0)
  have hnn : ∀ i ∈ Finset.range (n - 1), 0 ≤ d1 (i + 1) * d2 (i + 1) - d1 i * d2 i := by
    intro i hi
    rw [Finset.mem_range] at hi
    rw [hen i (by omega)]
    have := sub_pos.2 (hx i (by omega))
    have : 0 ≤ d2 i ^ 2 + d2 i * d2 (i + 1) + d2 (i + 1) ^ 2 := by nlinarith [sq_nonneg (d2 i + d2 (i + 1))]
    positivity
  have hsum : ∑ i ∈ Finset.range (n - 1), (d1 (i + 1) * d2 (i + 1) - d1 i * d2 i) = 0 := by
    rw [Finset.sum_range_sub (fun i => d1 i * d2 i)]
    have z0 : d1 0 * d2 0 = 0 := by
      rcases hl with e | e
      · simp only [hd1, e, sub_self, zero_mul]
      · simp only [hd2, e, sub_self, mul_zero]
    have z1 : d1 (n - 1) * d2 (n - 1) = 0 := by
      rcases hr with e | e
      · simp only [hd1, e, sub_self, zero_mul]
      · simp only [hd2, e, sub_self, mul_zero]
    rw [z0, z1, sub_zero]
  have hz := (Finset.sum_eq_zero_iff_of_nonneg hnn).1 hsum
  -- on every piece the two agree
  have hpiece : ∀ i, i + 1 < n → ∀ t ∈ Set.Icc (x i) (x (i + 1)), S t = S' t := by
    intro i hi t ht
    have e := hz i (by rw [Finset.mem_range]; omega)
    have hp := sub_pos.2 (hx i hi)
    rw [hen i hi] at e
    have e' : d2 i ^ 2 + d2 i * d2 (i + 1) + d2 (i + 1) ^ 2 = 0 :=
      (mul_eq_zero.1 e).resolve_left (by positivity)
    have w0 : d2 i = 0 := by nlinarith [sq_nonneg (d2 i + 2 * d2 (i + 1)), sq_nonneg (d2 i)]
    have w1 : d2 (i + 1) = 0 := by
      rw [w0] at e'; nlinarith [sq_nonneg (d2 (i + 1))]
    obtain ⟨a, b, c, d, hv, z0, z1, -, -, e2, e2'⟩ := hq i hi
    rw [w0] at e2
    rw [w1] at e2'
    have hd : d = 0 := by
      have : d * (x (i + 1) - x i) = 0 := by linarith
      exact (mul_eq_zero.1 this).resolve_right hp.ne'
    subst hd
    have hc : c = 0 := by linarith
    subst hc
    have hb : b = 0 := by
      have : b * (x (i + 1) - x i) = 0 := by linarith
      exact (mul_eq_zero.1 this).resolve_right hp.ne'
    subst hb
    have ha : a = 0 := by linarith
    have := hv t ht
    rw [ha] at this
    linarith
  -- every point lies on a piece
  intro t ht
  have hex : ∃ i, i + 1 < n ∧ t ∈ Set.Icc (x i) (x (i + 1)) := by
    by_contra hc
    push Not at hc
    have : ∀ i, i < n → x i ≤ t := by
      intro i
      induction i with
      | zero => intro _; exact ht.1
      | succ i ih =>
        intro hi
        by_contra hlt
        exact hc i hi ⟨ih (by omega), (not_le.1 hlt).le⟩
    have hlast := this (n - 1) (by omega)
    have heq : t = x (n - 1) := le_antisymm ht.2 hlast
    refine hc (n - 2) (by omega) ?_
    rw [show n - 2 + 1 = n - 1 by omega]
    exact ⟨this _ (by omega), heq.le⟩
  obtain ⟨i, hi, hti⟩ := hex
  exact hpiece i hi t hti

/-- `S` satisfies the boundary conditions requested of a spline object on `[a, b]`. -/
def MeetsEnds (o : SplineOpts) (a b : ℝ) (S : ℝ → ℝ) : Prop :=
  (o.left = .firstDeriv → derivWithin S (Set.Icc a b) a = o.leftValue) ∧
  (o.left = .secondDeriv → iteratedDerivWithin 2 S (Set.Icc a b) a = o.leftValue) ∧
  (o.right = .firstDeriv → derivWithin S (Set.Icc a b) b = o.rightValue) ∧
  (o.right = .secondDeriv → iteratedDerivWithin 2 S (Set.Icc a b) b = o.rightValue)

theorem MeetsEnds.unique {o : SplineOpts} {n : ℕ} {x y : ℕ → ℝ} {S S' : ℝ → ℝ} (hn : 2 ≤ n)
    (hx : ∀ i, i + 1 < n → x i < x (i + 1)) (h : IsCubicSpline n x y S) (h' : IsCubicSpline n x y S')
    (e : MeetsEnds o (x 0) (x (n - 1)) S) (e' : MeetsEnds o (x 0) (x (n - 1)) S') :
    ∀ t ∈ Set.Icc (x 0) (x (n - 1)), S t = S' t := by
  refine C44_unique hn hx h h' ?_ ?_
  · cases ho : o.left with
    | firstDeriv => exact Or.inl ((e.1 ho).trans (e'.1 ho).symm)
    | secondDeriv => exact Or.inr ((e.2.1 ho).trans (e'.2.1 ho).symm)
  · cases ho : o.right with
    | firstDeriv => exact Or.inl ((e.2.2.1 ho).trans (e'.2.2.1 ho).symm)
    | secondDeriv => exact Or.inr ((e.2.2.2 ho).trans (e'.2.2.2 ho).symm)

open Spline in
/-- **C44.**  What `operator()` computes between the first and the last point is the value of the only cubic spline
    through the points that satisfies the requested boundary conditions: of whatever function has these properties. -/
theorem C44_computes (o : SplineOpts) (xs ys : List ℝ) (hlen : xs.length = ys.length) (hn : 3 ≤ xs.length)
    (hx : xs.Pairwise (· < ·)) :
    ∃ s, setPoints o xs ys true = .ok s ∧
      (∃ S, IsCubicSpline xs.length (fun i => xs.getD i 0) (fun i => ys.getD i 0) S ∧
        MeetsEnds o (xs.getD 0 0) (xs.getD (xs.length - 1) 0) S) ∧
      ∀ S, IsCubicSpline xs.length (fun i => xs.getD i 0) (fun i => ys.getD i 0) S →
        MeetsEnds o (xs.getD 0 0) (xs.getD (xs.length - 1) 0) S →
        ∀ t ∈ Set.Icc (xs.getD 0 0) (xs.getD (xs.length - 1) 0), s.eval t = .ok (S t) := by
  obtain ⟨s, S, e, he, hS, hb⟩ := C44_spline o xs ys hlen hn hx
  refine ⟨s, e, ⟨S, hS, hb⟩, fun S' hS' hb' t ht => ?_⟩
  rw [he]
  exact congrArg _ (MeetsEnds.unique (by omega) (getD_increasing hx) hS hS' hb hb' t ht)

/-- `S` is a natural cubic spline through the values `v` at the points of the grid on `[0, β]`. -/
structure NaturalSpline (file : GFile) (β : ℝ) (v : ℕ → ℝ) (S : ℝ → ℝ) : Prop where
  spline : IsCubicSpline file.ntau.toNat (file.grid β) v S
  left : iteratedDerivWithin 2 S (Set.Icc 0 β) 0 = 0
  right : iteratedDerivWithin 2 S (Set.Icc 0 β) β = 0

variable {K : Type} [RCLike K]

open Green in
/-- **C56.**  The function read from an accepted file is, between `0` and `β`, the natural cubic spline through the values
    in the file: for every flavour and pair of sites the real and the imaginary values have a natural cubic spline, and
    interpolation returns the number made of whatever natural cubic splines they have. -/
theorem C56_natural (file : GFile) (β : ℝ) (F S : ℕ) (g : Green K) (h : Green.read (some file) β F S = .ok g) :
    ∀ f < F, ∀ s1 < S, ∀ s2 < S,
      (∃ A B, NaturalSpline file β (fun t => RCLike.re (file.value f s1 s2 t : K)) A ∧
        NaturalSpline file β (fun t => RCLike.im (file.value f s1 s2 t : K)) B) ∧
      ∀ A B, NaturalSpline file β (fun t => RCLike.re (file.value f s1 s2 t : K)) A →
        NaturalSpline file β (fun t => RCLike.im (file.value f s1 s2 t : K)) B →
        ∀ τ, 0 ≤ τ → τ ≤ β → g.interpolate f s1 s2 τ = .ok ((RCLike.ofReal (A τ) : K) + RCLike.ofReal (B τ) * RCLike.I) := by
  obtain ⟨h1, h2, h3, n1, n2, n3, n4, n5, n6, ⟨st, hp, hd, hc⟩, hh⟩ := Green.read_inv h
  intro f hf s1 hs1 s2 hs2
  have hnt : file.ntau.toNat = g.ntau := by omega
  have hpair := hp.pairs f s1 s2 hs1 hs2 (pairIx_lt (F := F) hf hs1 hs2)
  obtain ⟨re, im, hco⟩ := hpair.co
  obtain ⟨hT, hβ, -⟩ := grid_pos hco.eRe
  have hT' : (3 : ℝ) ≤ g.ntau := by exact_mod_cast hT
  have hval : ∀ t < g.ntau, st.data f s1 s2 t = file.value f s1 s2 t := fun t ht =>
    (Green.rowOK_line n4 h2 (hpair.rows t ht)).2
  have hgrid : (fun t : ℕ => β * (t : ℝ) / ((g.ntau : ℝ) - 1)) = file.grid β := by
    funext t
    unfold GFile.grid
    rw [← n4]
    push_cast
    ring
  have nat : ∀ (r : K → ℝ) (s : Spline), Spline.setPoints .default (times g.ntau β)
      ((List.range g.ntau).map fun t => r (st.data f s1 s2 t)) true = .ok s →
      NaturalSpline file β (fun t => r (file.value f s1 s2 t)) (Spline.value s) := by
    intro r s e
    obtain ⟨sr, l, r'⟩ := Green.spline_of e
    rw [hgrid] at sr
    refine ⟨⟨fun i hi => ?_, ?_, ?_⟩, l, r'⟩
    · rw [sr.through i (by omega), hval i (by omega)]
    · rw [hnt]; exact sr.cubic
    · rw [hnt]; exact sr.smooth
  have g0 : file.grid β 0 = 0 := by rw [← hgrid]; simp
  have g1 : file.grid β (file.ntau.toNat - 1) = β := by
    rw [← hgrid, hnt]
    simp only
    rw [Nat.cast_sub (by omega)]
    have : (g.ntau : ℝ) - 1 ≠ 0 := by linarith
    push_cast; field_simp
  have gx : ∀ i, i + 1 < file.ntau.toNat → file.grid β i < file.grid β (i + 1) := by
    intro i hi
    have := times_increasing (T := g.ntau) hβ (by omega) i (by rw [times_length]; omega)
    rw [times_getD β (by omega), times_getD β (by omega)] at this
    rw [← hgrid]
    exact this
  have uni : ∀ {v : ℕ → ℝ} {A A' : ℝ → ℝ}, NaturalSpline file β v A → NaturalSpline file β v A' →
      ∀ τ, 0 ≤ τ → τ ≤ β → A τ = A' τ := by
    intro v A A' a a' τ t0 t1
    refine C44_unique (n := file.ntau.toNat) (by omega) gx a.spline a'.spline (Or.inr ?_) (Or.inr ?_) τ ?_
    · rw [g0, g1, a.left, a'.left]
    · rw [g0, g1, a.right, a'.right]
    · rw [g0, g1]; exact ⟨t0, t1⟩
  have nr := nat RCLike.re re hco.eRe
  have ni := nat RCLike.im im hco.eIm
  refine ⟨⟨_, _, nr, ni⟩, fun A B hA hB τ t0 t1 => ?_⟩
  rw [Green.interpolate_value g rfl n3 n5 n6 (by omega) (by omega) (by omega) (by rw [hc]; exact hco) τ ⟨t0, t1⟩,
    uni hA nr τ t0 t1, uni hB ni τ t0 t1]
  rfl

/-- Not any two splines through the same points agree: without the boundary conditions `0` and `t (t - 1) (t - 2)` are
    both cubic splines through zeros at `0, 1, 2`. -/
example : IsCubicSpline 3 (fun i => (i : ℝ)) (fun _ => 0) (fun _ => 0) ∧
    IsCubicSpline 3 (fun i => (i : ℝ)) (fun _ => 0) (fun t => t * (t - 1) * (t - 2)) := by
  refine ⟨⟨fun _ _ => rfl, fun i _ => ⟨0, by simp, fun t _ => by simp⟩, contDiffOn_const⟩, ⟨fun i hi => ?_, fun i _ =>
    ⟨Polynomial.X * (Polynomial.X - Polynomial.C 1) * (Polynomial.X - Polynomial.C 2), ?_, fun t _ => by simp⟩, ?_⟩⟩
  · obtain rfl | rfl | rfl : i = 0 ∨ i = 1 ∨ i = 2 := by omega
    all_goals norm_num
  · compute_degree
  · fun_prop

end CTInt
