import Verif.Proofs.FockMotion
import Mathlib.Analysis.Matrix.Spectrum

/-!
# A bound for the Green's function, and for its change over a short time
-/

set_option linter.all false

namespace CTInt

open NormedSpace Matrix Filter
open scoped Matrix.Norms.Operator

variable {K : Type} [RCLike K] {n : Type} [Fintype n] [DecidableEq n] {nf ns : ℕ} {β : ℝ} {a : ℕ → ℕ → Matrix n n K} {h : ℕ → ℕ → ℕ → K}

/-- The exponential of a Hermitian matrix in its eigenvectors. -/
theorem herm_exp {H : Matrix n n K} (hH : H.IsHermitian) : ∃ (U : Matrix n n K) (l : n → ℝ), U * Uᴴ = 1 ∧ Uᴴ * U = 1 ∧
    ∀ t : ℝ, exp ((t : K) • H) = U * diagonal (fun i => ((Real.exp (t * l i) : ℝ) : K)) * Uᴴ := by
  letI : NormedAlgebra ℚ K := NormedAlgebra.restrictScalars ℚ ℝ K
  have h1 : (hH.eigenvectorUnitary : Matrix n n K) * (hH.eigenvectorUnitary : Matrix n n K)ᴴ = 1 := Unitary.coe_mul_star_self _
  have h2 : (hH.eigenvectorUnitary : Matrix n n K)ᴴ * (hH.eigenvectorUnitary : Matrix n n K) = 1 := Unitary.coe_star_mul_self _
  refine ⟨hH.eigenvectorUnitary, hH.eigenvalues, h1, h2, fun t => ?_⟩
  have h3 : H = (hH.eigenvectorUnitary : Matrix n n K) * diagonal (RCLike.ofReal ∘ hH.eigenvalues) * (hH.eigenvectorUnitary : Matrix n n K)ᴴ := by
    have := hH.spectral_theorem
    rw [Unitary.conjStarAlgAut_apply] at this
    exact this
  generalize (hH.eigenvectorUnitary : Matrix n n K) = U at *
  generalize hH.eigenvalues = l at *
  have hi : U⁻¹ = Uᴴ := Matrix.inv_eq_right_inv h1
  have hu : IsUnit U := ⟨⟨U, Uᴴ, h1, h2⟩, rfl⟩
  have e : (t : K) • H = U * diagonal (fun i => ((t * l i : ℝ) : K)) * U⁻¹ := by
    rw [hi]
    conv_lhs => rw [h3]
    rw [← Matrix.smul_mul, ← Matrix.mul_smul, ← diagonal_smul]
    congr 3
    funext i
    simp
  rw [e, Matrix.exp_conj _ _ hu, Matrix.exp_diagonal, hi]
  congr 3
  funext i
  rw [Pi.coe_exp, Real.exp_eq_exp_ℝ]
  exact (algebraMap_exp_comm (𝕂 := ℝ) (𝔸 := K) (t * l i)).symm

/-- The trace behind the Green's function in the eigenvectors. -/
theorem green_spectral {H : Matrix n n K} (hH : H.IsHermitian) : ∃ (U : Matrix n n K) (l : n → ℝ), ∀ (X Y : Matrix n n K) (u : ℝ),
    (exp (-(β : K) • H) * (atTime H u X * Yᴴ)).trace =
      ∑ i, ∑ j, ((Real.exp (-β * l i + u * l i - u * l j) : ℝ) : K) * ((Uᴴ * X * U) i j * star ((Uᴴ * Y * U) i j)) := by
  obtain ⟨U, l, h1, h2, h3⟩ := herm_exp hH
  refine ⟨U, l, fun X Y u => ?_⟩
  have e1 : exp (-(β : K) • H) = U * diagonal (fun i => ((Real.exp (-β * l i) : ℝ) : K)) * Uᴴ := by
    rw [← h3]
    push_cast
    rfl
  have e2 : exp (-((u : K) • H)) = U * diagonal (fun i => ((Real.exp (-u * l i) : ℝ) : K)) * Uᴴ := by
    rw [← h3, ← neg_smul]
    push_cast
    rfl
  unfold atTime
  rw [e1, e2, h3]
  generalize hD1 : diagonal (fun i => ((Real.exp (-β * l i) : ℝ) : K)) = D1
  generalize hD2 : diagonal (fun i => ((Real.exp (u * l i) : ℝ) : K)) = D2
  generalize hD3 : diagonal (fun i => ((Real.exp (-u * l i) : ℝ) : K)) = D3
  have e3 : (U * D1 * Uᴴ * (U * D2 * Uᴴ * X * (U * D3 * Uᴴ) * Yᴴ)).trace = (D1 * D2 * (Uᴴ * X * U) * D3 * (Uᴴ * Y * U)ᴴ).trace := by
    have : U * D1 * Uᴴ * (U * D2 * Uᴴ * X * (U * D3 * Uᴴ) * Yᴴ) = U * (D1 * (Uᴴ * U) * D2 * (Uᴴ * X * U) * D3 * (Uᴴ * Yᴴ)) := by
      simp only [mul_assoc]
    rw [this, h2, mul_one, Matrix.trace_mul_comm]
    congr 1
    simp only [conjTranspose_mul, conjTranspose_conjTranspose, mul_assoc]
  rw [e3, Matrix.trace]
  refine Finset.sum_congr rfl fun i _ => ?_
  rw [Matrix.diag_apply, Matrix.mul_apply]
  refine Finset.sum_congr rfl fun j _ => ?_
  rw [← hD1, ← hD2, ← hD3, diagonal_mul_diagonal, mul_diagonal, diagonal_mul, conjTranspose_apply, sub_eq_add_neg, Real.exp_add, Real.exp_add, neg_mul u]
  push_cast
  ring

theorem exp_between {u : ℝ} (h0 : 0 ≤ u) (h1 : u ≤ β) (x y : ℝ) :
    Real.exp (-β * x + u * x - u * y) ≤ Real.exp (-β * x + 0 * x - 0 * y) + Real.exp (-β * x + β * x - β * y) := by
  have p := Real.exp_pos (-β * x + 0 * x - 0 * y)
  have q := Real.exp_pos (-β * x + β * x - β * y)
  rcases le_total x y with g | g
  · have : Real.exp (-β * x + u * x - u * y) ≤ Real.exp (-β * x + 0 * x - 0 * y) := Real.exp_le_exp.2 (by nlinarith)
    linarith
  · have : Real.exp (-β * x + u * x - u * y) ≤ Real.exp (-β * x + β * x - β * y) := Real.exp_le_exp.2 (by nlinarith)
    linarith

/-- The Green's function of any Hermitian matrix is at most one. -/
theorem greenP_le_one [Nonempty n] (ha : Annihilators nf ns a) {H : Matrix n n K} (hH : H.IsHermitian) {z A b : ℕ} (hz : z < nf) (hA : A < ns) (hb : b < ns) {u : ℝ}
    (h0 : 0 ≤ u) (h1 : u ≤ β) : ‖greenP β a H z A b u‖ ≤ 1 := by
  obtain ⟨U, l, hs⟩ := green_spectral (β := β) hH
  obtain ⟨Z, hZ⟩ : ∃ Z, Z = (exp (-(β : K) • H)).trace := ⟨_, rfl⟩
  have hZ0 : Z ≠ 0 := hZ ▸ thermal_trace_ne hH
  obtain ⟨w, hw⟩ : ∃ w : ℝ → n → n → ℝ, w = fun u i j => Real.exp (-β * l i + u * l i - u * l j) := ⟨_, rfl⟩
  have hs' : ∀ (X Y : Matrix n n K) (u : ℝ), (exp (-(β : K) • H) * (atTime H u X * Yᴴ)).trace =
      ∑ i, ∑ j, (w u i j : K) * ((Uᴴ * X * U) i j * star ((Uᴴ * Y * U) i j)) := by
    intro X Y u
    rw [hs, hw]
  have wp : ∀ u i j, 0 < w u i j := fun u i j => by rw [hw]; exact Real.exp_pos _
  have wb : ∀ i j, w u i j ≤ w 0 i j + w β i j := fun i j => by rw [hw]; exact exp_between h0 h1 _ _
  obtain ⟨q, hq⟩ : ∃ q : ℝ → Matrix n n K → ℝ, q = fun u X => ∑ i, ∑ j, w u i j * ‖(Uᴴ * X * U) i j‖ ^ 2 := ⟨_, rfl⟩
  have hqt : ∀ (X : Matrix n n K) (u : ℝ), (exp (-(β : K) • H) * (atTime H u X * Xᴴ)).trace = (q u X : K) := by
    intro X u
    rw [hs', hq]
    push_cast
    refine Finset.sum_congr rfl fun i _ => Finset.sum_congr rfl fun j _ => ?_
    congr 1
    exact RCLike.mul_conj _
  have hqb : ∀ X, q u X ≤ q 0 X + q β X := by
    intro X
    simp only [hq, ← Finset.sum_add_distrib]
    refine Finset.sum_le_sum fun i _ => Finset.sum_le_sum fun j _ => ?_
    rw [← add_mul]
    exact mul_le_mul_of_nonneg_right (wb i j) (by positivity)
  have hqp : ∀ u X, 0 ≤ q u X := fun u X => by
    rw [hq]
    exact Finset.sum_nonneg fun i _ => Finset.sum_nonneg fun j _ => mul_nonneg (wp u i j).le (by positivity)
  have hend : ∀ A < ns, ((q 0 (a z A) + q β (a z A) : ℝ) : K) = Z := by
    intro A hA
    have e := greenP_ends ha (hZ ▸ hZ0 : (exp (-(β : K) • H)).trace ≠ 0) hz hA hA
    rw [if_pos rfl] at e
    unfold greenP thermal at e
    rw [hqt, hqt, ← hZ, ← add_div, div_eq_one_iff_eq hZ0] at e
    push_cast
    rw [add_comm]
    exact e
  have hn : ∀ A < ns, q 0 (a z A) + q β (a z A) = ‖Z‖ := by
    intro A hA
    rw [← hend A hA, RCLike.norm_ofReal, abs_of_nonneg (add_nonneg (hqp _ _) (hqp _ _))]
  unfold greenP thermal
  rw [← hZ, norm_div, div_le_one (norm_pos_iff.2 hZ0), hs']
  have hle : ‖∑ i, ∑ j, (w u i j : K) * ((Uᴴ * a z A * U) i j * star ((Uᴴ * a z b * U) i j))‖ ≤ (q u (a z A) + q u (a z b)) / 2 := by
    refine (norm_sum_le _ _).trans ?_
    have : (q u (a z A) + q u (a z b)) / 2 =
        ∑ i, ∑ j, w u i j * ((‖(Uᴴ * a z A * U) i j‖ ^ 2 + ‖(Uᴴ * a z b * U) i j‖ ^ 2) / 2) := by
      simp only [hq, ← Finset.sum_add_distrib, Finset.sum_div]
      refine Finset.sum_congr rfl fun i _ => Finset.sum_congr rfl fun j _ => ?_
      ring
    rw [this]
    refine Finset.sum_le_sum fun i _ => (norm_sum_le _ _).trans (Finset.sum_le_sum fun j _ => ?_)
    rw [norm_mul, norm_mul, norm_star, RCLike.norm_ofReal, abs_of_pos (wp u i j)]
    refine mul_le_mul_of_nonneg_left ?_ (wp u i j).le
    nlinarith [sq_nonneg (‖(Uᴴ * a z A * U) i j‖ - ‖(Uᴴ * a z b * U) i j‖)]
  have := hqb (a z A)
  have := hqb (a z b)
  have := hn A hA
  have := hn b hb
  linarith

/-- How much the bare Green's function changes over a time. -/
theorem greenP_lipschitz [Nonempty n] (ha : Annihilators nf ns a) (hh : HermitianHops nf ns h) {z A b : ℕ} (hz : z < nf) (hA : A < ns) (hb : b < ns) {u v : ℝ}
    (hu : u ∈ Set.Icc 0 β) (hv : v ∈ Set.Icc 0 β) :
    ‖greenP β a (bareH nf ns h a) z A b v - greenP β a (bareH nf ns h a) z A b u‖ ≤ (∑ s ∈ Finset.range ns, ‖h z A s‖) * ‖v - u‖ := by
  refine Convex.norm_image_sub_le_of_norm_hasDerivWithin_le (𝕜 := ℝ) (s := Set.Icc 0 β)
    (f' := fun t => -(∑ s ∈ Finset.range ns, h z A s * greenP β a (bareH nf ns h a) z s b t)) (fun t ht => ?_) (fun t ht => ?_) (convex_Icc 0 β) hu hv
  · have := greenP_deriv (β := β) (h := h) ha 0 hz hA b t
    rw [add_zero] at this
    refine (this.congr_deriv ?_).hasDerivWithinAt
    unfold selfG
    rw [mul_zero, zero_mul, sub_zero]
    unfold atTime
    rw [mul_zero, zero_mul, zero_mul, thermal_zero, sub_zero]
  · rw [norm_neg]
    refine (norm_sum_le _ _).trans (Finset.sum_le_sum fun s hs => ?_)
    rw [norm_mul]
    exact mul_le_of_le_one_right (norm_nonneg _) (greenP_le_one ha (bareH_hermitian hh) hz (Finset.mem_range.1 hs) hb ht.1 ht.2)

theorem equal_time_green (H : Matrix n n K) (z s s2 : ℕ) (t : ℝ) : thermal β H (atTime H t (a z s)ᴴ * a z s2) = greenP β a H z s2 s (β - t) := by
  unfold greenP
  rw [show β - t = β + -t by ring, atTime_add, thermal_kms, ← thermal_shift H ((a z s)ᴴ * atTime H (-t) (a z s2)) t, atTime_mul, ← atTime_add,
    add_neg_cancel, atTime_zero]

end CTInt
