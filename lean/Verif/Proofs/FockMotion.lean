import Verif.Proofs.FockSigmaLimit
import Verif.Proofs.FockG0
import Verif.Proofs.Matsubara
import Verif.Spec.FockSigma

/-!
# The equation of motion of the Green's function
-/

set_option linter.all false

namespace CTInt

open NormedSpace Matrix Filter
open scoped Matrix.Norms.Operator

variable {K : Type} [RCLike K] {n : Type} [Fintype n] [DecidableEq n] {nf ns : ℕ} {β : ℝ} {a : ℕ → ℕ → Matrix n n K} {h : ℕ → ℕ → ℕ → K}

/-- The commutator of an annihilator with the bare Hamiltonian. -/
theorem bareH_comm (ha : Annihilators nf ns a) {z A : ℕ} (hz : z < nf) (hA : A < ns) :
    bareH nf ns h a * a z A - a z A * bareH nf ns h a = - ∑ s ∈ Finset.range ns, h z A s • a z s := by
  unfold bareH
  simp only [Finset.sum_mul, Finset.mul_sum, ← Finset.sum_sub_distrib]
  have e : ∀ w ∈ Finset.range nf, ∀ u ∈ Finset.range ns, ∀ u' ∈ Finset.range ns,
      h w u u' • ((a w u)ᴴ * a w u') * a z A - a z A * h w u u' • ((a w u)ᴴ * a w u') = if z = w then if A = u then - (h w u u' • a w u') else 0 else 0 := by
    intro w hw u hu u' hu'
    rw [Finset.mem_range] at hw hu hu'
    have e1 := ha.mixed _ hz _ hA _ hw _ hu
    have e2 := ha.same _ hw _ hu' _ hz _ hA
    rw [Matrix.mul_smul, Matrix.smul_mul, ← smul_sub]
    have e : (a w u)ᴴ * a w u' * a z A - a z A * ((a w u)ᴴ * a w u') =
        (a w u)ᴴ * (a w u' * a z A + a z A * a w u') - (a z A * (a w u)ᴴ + (a w u)ᴴ * a z A) * a w u' := by
      noncomm_ring
    rw [e, e1, e2, mul_zero, zero_sub]
    by_cases h1 : z = w
    · by_cases h2 : A = u
      · rw [if_pos ⟨h1, h2⟩, if_pos h1, if_pos h2, one_mul, smul_neg]
      · rw [if_neg (fun q => h2 q.2), if_pos h1, if_neg h2, zero_mul, neg_zero, smul_zero]
    · rw [if_neg (fun q => h1 q.1), if_neg h1, zero_mul, neg_zero, smul_zero]
  rw [Finset.sum_congr rfl fun w hw => Finset.sum_congr rfl fun u hu => Finset.sum_congr rfl fun u' hu' => e w hw u hu u' hu']
  rw [Finset.sum_eq_single z (fun w _ hne => by simp [Ne.symm hne]) (fun q => absurd (Finset.mem_range.2 hz) q),
    Finset.sum_eq_single A (fun w _ hne => by simp [Ne.symm hne]) (fun q => absurd (Finset.mem_range.2 hA) q)]
  simp

theorem atTime_deriv (H X : Matrix n n K) (t : ℝ) : HasDerivAt (fun u : ℝ => atTime H u X) (atTime H t (H * X - X * H)) t := by
  have h1 : HasDerivAt (fun u : ℝ => exp (u • H)) (exp (t • H) * H) t := hasDerivAt_exp_smul_const (𝕂 := ℝ) H t
  have h2 : HasDerivAt (fun u : ℝ => exp (u • (-H))) (-H * exp (t • (-H))) t := hasDerivAt_exp_smul_const' (𝕂 := ℝ) _ t
  have h3 := (h1.mul_const X).mul h2
  have e : ∀ (u : ℝ) (Y : Matrix n n K), atTime H u Y = exp (u • H) * Y * exp (u • (-H)) := by
    intro u Y
    unfold atTime
    rw [real_smul_coe, smul_neg]
  rw [show (fun u : ℝ => atTime H u X) = fun u : ℝ => exp (u • H) * X * exp (u • (-H)) from funext fun u => e u X, e]
  have e3 : exp (t • H) * H * X * exp (t • -H) + exp (t • H) * X * (-H * exp (t • -H)) = exp (t • H) * (H * X - X * H) * exp (t • -H) := by
    noncomm_ring
  exact h3.congr_deriv e3

/-- The Green's function, without its sign. -/
noncomputable def greenP (β : ℝ) (a : ℕ → ℕ → Matrix n n K) (H : Matrix n n K) (z A b : ℕ) (u : ℝ) : K := thermal β H (atTime H u (a z A) * (a z b)ᴴ)

theorem greenP_deriv (ha : Annihilators nf ns a) (V : Matrix n n K) {z A : ℕ} (hz : z < nf) (hA : A < ns) (b : ℕ) (t : ℝ) :
    HasDerivAt (greenP β a (bareH nf ns h a + V) z A b)
      (-(∑ s ∈ Finset.range ns, h z A s * greenP β a (bareH nf ns h a + V) z s b t) - selfG β a (bareH nf ns h a) V z A b t) t := by
  obtain ⟨H', hH'⟩ : ∃ H', H' = bareH nf ns h a + V := ⟨_, rfl⟩
  have h1 := (thermalCL (K := K) β H').hasFDerivAt.comp_hasDerivAt t ((atTime_deriv H' (a z A) t).mul_const (a z b)ᴴ)
  have e : H' * a z A - a z A * H' = -(∑ s ∈ Finset.range ns, h z A s • a z s) - (a z A * V - V * a z A) := by
    rw [← bareH_comm ha hz hA, hH']
    noncomm_ring
  have e2 : thermal β H' (atTime H' t (H' * a z A - a z A * H') * (a z b)ᴴ) =
      -(∑ s ∈ Finset.range ns, h z A s * greenP β a H' z s b t) - thermal β H' (atTime H' t (a z A * V - V * a z A) * (a z b)ᴴ) := by
    rw [e, atTime_sub, sub_mul, show -(∑ s ∈ Finset.range ns, h z A s • a z s) = (-1 : K) • ∑ s ∈ Finset.range ns, h z A s • a z s by rw [neg_one_smul],
      atTime_smul, atTime_sum, thermal_eq, map_sub, ← thermal_eq, ← thermal_eq, Matrix.smul_mul, thermal_smul, neg_one_mul, Finset.sum_mul, thermal_sum]
    congr 2
    refine Finset.sum_congr rfl fun s _ => ?_
    rw [atTime_smul, Matrix.smul_mul, thermal_smul]
    rfl
  unfold selfG
  rw [← hH', ← e2]
  exact h1

theorem greenP_ends [Nonempty n] (ha : Annihilators nf ns a) {H : Matrix n n K} (hZ : (exp (-(β : K) • H)).trace ≠ 0) {z A b : ℕ} (hz : z < nf) (hA : A < ns)
    (hb : b < ns) : greenP β a H z A b β + greenP β a H z A b 0 = if A = b then 1 else 0 := by
  unfold greenP
  rw [thermal_kms, atTime_zero, add_comm, thermal_eq, thermal_eq, ← map_add, ha.mixed z hz A hA z hz b hb, ← thermal_eq]
  by_cases q : A = b
  · rw [if_pos ⟨rfl, q⟩, if_pos q]
    unfold thermal
    rw [mul_one, div_self hZ]
  · rw [if_neg (fun w => q w.2), if_neg q, thermal_zero]

/-! ### Frequencies -/

theorem exp_omega_end (hβ : 0 < β) (k : ℕ) : Complex.exp (Complex.I * omega β k * β) = -1 := by
  have : Complex.I * omega β k * β = Real.pi * Complex.I + k * (2 * Real.pi * Complex.I) := by
    unfold omega
    have hb : (β : ℂ) ≠ 0 := by exact_mod_cast hβ.ne'
    push_cast
    field_simp
    ring
  rw [this, Complex.exp_add, Complex.exp_nat_mul_two_pi_mul_I, mul_one, Complex.exp_pi_mul_I]

noncomputable def toCL (K : Type) [RCLike K] : K →L[ℝ] ℂ :=
  Complex.equivRealProdCLM.symm.toContinuousLinearMap.comp ((RCLike.reCLM (K := K)).prod RCLike.imCLM)

theorem toCL_apply (x : K) : toCL K x = toC x := rfl

/-- The equation of motion in frequencies. -/
theorem motion_fourier [Nonempty n] (hβ : 0 < β) (ha : Annihilators nf ns a) (V : Matrix n n K) (hZ : (exp (-(β : K) • (bareH nf ns h a + V))).trace ≠ 0)
    {z A b : ℕ} (hz : z < nf) (hA : A < ns) (hb : b < ns) (k : ℕ) :
    ∑ s ∈ Finset.range ns, ((if A = s then Complex.I * omega β k else 0) - toC (h z A s)) *
        fourier β (fun u => -toC (greenP β a (bareH nf ns h a + V) z s b u)) k =
      (if A = b then 1 else 0) - fourier β (fun u => toC (selfG β a (bareH nf ns h a) V z A b u)) k := by
  obtain ⟨H', hH'⟩ : ∃ H', H' = bareH nf ns h a + V := ⟨_, rfl⟩
  have hc : ∀ s, Continuous fun u => toC (greenP β a H' z s b u) := fun s => (toCL K).continuous.comp (thermal_at_continuous H' _ _)
  have hs : Continuous fun u => toC (selfG β a (bareH nf ns h a) V z A b u) := (toCL K).continuous.comp (thermal_at_continuous _ _ _)
  have hd : ∀ u, HasDerivAt (fun u => toC (greenP β a H' z A b u))
      (-(∑ s ∈ Finset.range ns, toC (h z A s) * toC (greenP β a H' z s b u)) - toC (selfG β a (bareH nf ns h a) V z A b u)) u := by
    intro u
    have := (toCL K).hasFDerivAt.comp_hasDerivAt u (greenP_deriv (β := β) (h := h) ha V hz hA b u)
    rw [← hH'] at this
    refine this.congr_deriv ?_
    rw [toCL_apply]
    simp only [← toCHom_apply, map_sub, map_neg, map_sum, map_mul]
  have hparts := intervalIntegral.integral_deriv_mul_eq_sub (u := fun u : ℝ => toC (greenP β a H' z A b u)) (v := fun x : ℝ => Complex.exp (Complex.I * omega β k * x))
    (a := 0) (b := β) (fun x _ => hd x) (fun x _ => hasDeriv_exp (omega β k) x)
    ((((continuous_finset_sum _ fun s _ => (continuous_const (y := toC (h z A s))).mul (hc s)).neg).sub hs).intervalIntegrable _ _)
    (((cont_exp _).const_smul (Complex.I * omega β k)).intervalIntegrable _ _)
  have hends := greenP_ends ha (hH' ▸ hZ) hz hA hb
  have hends' : toC (greenP β a H' z A b β) + toC (greenP β a H' z A b 0) = if A = b then 1 else 0 := by
    rw [← toCHom_apply, ← toCHom_apply, ← map_add, hends]
    split_ifs <;> simp
  obtain ⟨g, hg⟩ : ∃ g : ℕ → ℝ → ℂ, g = fun s u => toC (greenP β a H' z s b u) := ⟨_, rfl⟩
  obtain ⟨S, hS⟩ : ∃ S : ℝ → ℂ, S = fun u => toC (selfG β a (bareH nf ns h a) V z A b u) := ⟨_, rfl⟩
  have hc' : ∀ s, Continuous (g s) := fun s => hg ▸ hc s
  have hs' : Continuous S := hS ▸ hs
  have he := cont_exp (omega β k)
  have hi : ∀ f : ℝ → ℂ, Continuous f → IntervalIntegrable f MeasureTheory.volume 0 β := fun f hf => hf.intervalIntegrable _ _
  have e1 : ∫ x in (0 : ℝ)..β, ((-(∑ s ∈ Finset.range ns, toC (h z A s) * g s x) - S x) * Complex.exp (Complex.I * omega β k * x) +
        g A x * (Complex.I * omega β k * Complex.exp (Complex.I * omega β k * x))) =
      -(∑ s ∈ Finset.range ns, toC (h z A s) * fourier β (g s) k) - fourier β S k + Complex.I * omega β k * fourier β (g A) k := by
    unfold fourier
    have q : ∀ x : ℝ, (-(∑ s ∈ Finset.range ns, toC (h z A s) * g s x) - S x) * Complex.exp (Complex.I * omega β k * x) +
        g A x * (Complex.I * omega β k * Complex.exp (Complex.I * omega β k * x)) =
        -(∑ s ∈ Finset.range ns, toC (h z A s) * (Complex.exp (Complex.I * omega β k * x) * g s x)) - Complex.exp (Complex.I * omega β k * x) * S x +
          Complex.I * omega β k * (Complex.exp (Complex.I * omega β k * x) * g A x) := by
      intro x
      have : ∑ s ∈ Finset.range ns, toC (h z A s) * (Complex.exp (Complex.I * omega β k * x) * g s x) =
          (∑ s ∈ Finset.range ns, toC (h z A s) * g s x) * Complex.exp (Complex.I * omega β k * x) := by
        rw [Finset.sum_mul]
        exact Finset.sum_congr rfl fun s _ => by ring
      rw [this]
      ring
    rw [intervalIntegral.integral_congr fun x _ => q x]
    have c1 : ∀ s, Continuous fun x : ℝ => toC (h z A s) * (Complex.exp (Complex.I * omega β k * x) * g s x) :=
      fun s => (continuous_const (y := toC (h z A s))).mul (he.mul (hc' s))
    have c2 : Continuous fun x : ℝ => ∑ s ∈ Finset.range ns, toC (h z A s) * (Complex.exp (Complex.I * omega β k * x) * g s x) :=
      continuous_finset_sum _ fun s _ => c1 s
    have c3 : Continuous fun x : ℝ => Complex.exp (Complex.I * omega β k * x) * S x := he.mul hs'
    have c4 : Continuous fun x : ℝ => Complex.I * omega β k * (Complex.exp (Complex.I * omega β k * x) * g A x) :=
      (continuous_const (y := Complex.I * (omega β k : ℂ))).mul (he.mul (hc' A))
    have c5 : Continuous fun x : ℝ => -∑ s ∈ Finset.range ns, toC (h z A s) * (Complex.exp (Complex.I * omega β k * x) * g s x) := c2.neg
    have c6 : Continuous fun x : ℝ => -(∑ s ∈ Finset.range ns, toC (h z A s) * (Complex.exp (Complex.I * omega β k * x) * g s x)) -
        Complex.exp (Complex.I * omega β k * x) * S x := c5.sub c3
    rw [intervalIntegral.integral_add (hi _ c6) (hi _ c4),
      intervalIntegral.integral_sub (hi _ c5) (hi _ c3), intervalIntegral.integral_neg,
      intervalIntegral.integral_finset_sum fun s _ => hi _ (c1 s), intervalIntegral.integral_const_mul]
    simp only [intervalIntegral.integral_const_mul]
  have e2 : g A β + g A 0 = if A = b then 1 else 0 := by
    rw [hg]
    exact hends'
  have e3 : -(∑ s ∈ Finset.range ns, toC (h z A s) * fourier β (g s) k) - fourier β S k + Complex.I * omega β k * fourier β (g A) k =
      g A β * Complex.exp (Complex.I * omega β k * β) - g A 0 * Complex.exp (Complex.I * omega β k * (0 : ℝ)) := by
    rw [← e1, hg, hS]
    exact hparts
  rw [exp_omega_end hβ k, Complex.ofReal_zero, mul_zero, Complex.exp_zero] at e3
  have e4 : ∀ s, fourier β (fun u => -toC (greenP β a (bareH nf ns h a + V) z s b u)) k = - fourier β (g s) k := by
    intro s
    unfold fourier
    rw [← hH', hg, ← intervalIntegral.integral_neg]
    exact intervalIntegral.integral_congr fun x _ => by ring
  simp only [e4, ← hS]
  have e5 : ∑ s ∈ Finset.range ns, ((if A = s then Complex.I * omega β k else 0) - toC (h z A s)) * -fourier β (g s) k =
      ∑ s ∈ Finset.range ns, toC (h z A s) * fourier β (g s) k - Complex.I * omega β k * fourier β (g A) k := by
    have : ∀ s ∈ Finset.range ns, ((if A = s then Complex.I * omega β k else 0) - toC (h z A s)) * -fourier β (g s) k =
        toC (h z A s) * fourier β (g s) k - if A = s then Complex.I * omega β k * fourier β (g s) k else 0 := by
      intro s _
      by_cases q : A = s
      · rw [if_pos q, if_pos q]; ring
      · rw [if_neg q, if_neg q]; ring
    rw [Finset.sum_congr rfl this, Finset.sum_sub_distrib, Finset.sum_ite_eq, if_pos (Finset.mem_range.2 hA)]
  rw [e5]
  linear_combination -e3 + e2

end CTInt
