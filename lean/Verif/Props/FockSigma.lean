import Verif.Proofs.FockSigmaLimit
import Verif.Spec.FockSigma
import Verif.Props.FockDensity

/-!
# C98: the self-energy of fermions that hop and interact
-/

set_option linter.all false

namespace CTInt

open NormedSpace Matrix Filter

variable {K : Type} [RCLike K] [DecidableEq K] {n : Type} [Fintype n] [DecidableEq n] [Nonempty n] {ns : ℕ} {β : ℝ}
  {a : ℕ → ℕ → Matrix n n K} {h : ℕ → ℕ → ℕ → K} {c : Ctx K} {G : ℝ → ℕ → ℕ → ℕ → K}

/-- **C98.**  The self-energy of the expansion in a bin converges to the mean over the bin of ⟨[c_A, V](u) c†_b⟩ of the interacting
    Hamiltonian. -/
theorem C98_self_energy (hβ : 0 < β) (ha : Annihilators c.nf ns a) (hh : HermitianHops c.nf ns h)
    (hG0 : ThermalG0 β c.nf ns a (bareH c.nf ns h a) c.G0) (hm : MeasurableG0 c.G0) (hG : ThermalG β c.nf ns a (bareH c.nf ns h a) G) (hGm : MeasurableG G)
    (hT : TermsOn c.nf ns c.tbl) (hZ : (exp (-(β : K) • (bareH c.nf ns h a + interactionH a c.tbl))).trace ≠ 0) {z A b m i : ℕ} (hi : i < m) (hz : z < c.nf)
    (hA : A < ns) (hb : b < ns) :
    Tendsto (fun M => sigmaSum c G β M m z A b i / partitionC c β M) atTop
      (nhds (toC (((m / β : ℝ) : K) * ∫ u in (β * i / m)..(β * (i + 1) / m), selfG β a (bareH c.nf ns h a) (interactionH a c.tbl) z A b u))) := by
  obtain ⟨_, rfl, hp⟩ := C96_partition hβ.le ha hh hG0 hm hT
  have h0 := thermal_trace_ne (K := K) (β := β) (bareH_hermitian (c := a) hh)
  have key := fun L => sigma_limit hβ ha hh hG0 hm hG hGm hT hZ hi hz hA hb L
  have h3 := (Complex.equivRealProdCLM.symm.continuous.tendsto _).comp ((key RCLike.reCLM).prodMk_nhds (key RCLike.imCLM))
  have e : ∀ X Z Z0 : K, Z / Z0 * X = Z * X / Z0 := fun X Z Z0 => by ring
  rw [e] at h3
  have := ratio_limit (f := fun M => sigmaSum c G β M m z A b i) h3 hp hZ h0
  rw [mul_div_cancel_left₀ _ hZ] at this
  exact this

/-- **C98, Legendre coefficients.** -/
theorem C98_legendre (hβ : 0 < β) (ha : Annihilators c.nf ns a) (hh : HermitianHops c.nf ns h)
    (hG0 : ThermalG0 β c.nf ns a (bareH c.nf ns h a) c.G0) (hm : MeasurableG0 c.G0) (hG : ThermalG β c.nf ns a (bareH c.nf ns h a) G) (hGm : MeasurableG G)
    (hT : TermsOn c.nf ns c.tbl) (hZ : (exp (-(β : K) • (bareH c.nf ns h a + interactionH a c.tbl))).trace ≠ 0) {z A b m : ℕ} (hz : z < c.nf)
    (hA : A < ns) (hb : b < ns) (l : ℕ) :
    Tendsto (fun M => sigmaSumLegendre c G β M m z A b l / partitionC c β M) atTop
      (nhds (∑ i ∈ Finset.range m, ((Real.sqrt (2 * l + 1) * (legendreP l).eval (2 * (β * (i + 1 / 2) / m) / β - 1) : ℝ) : ℂ) *
        toC (∫ u in (β * i / m)..(β * (i + 1) / m), selfG β a (bareH c.nf ns h a) (interactionH a c.tbl) z A b u))) := by
  unfold sigmaSumLegendre
  simp only [Finset.sum_div]
  refine tendsto_finset_sum _ fun i hi => ?_
  have hi := Finset.mem_range.1 hi
  have hm0 : (m : ℝ) ≠ 0 := Nat.cast_ne_zero.2 (by omega)
  have h1 := C98_self_energy hβ ha hh hG0 hm hG hGm hT hZ hi hz hA hb
  have h2 := (h1.const_mul ((Real.sqrt (2 * l + 1) * (legendreP l).eval (2 * (β * (i + 1 / 2) / m) / β - 1) : ℝ) : ℂ)).mul_const ((β / m : ℝ) : ℂ)
  refine Tendsto.congr (fun M => ?_) (h2.trans (le_of_eq (congrArg nhds ?_)))
  · ring
  · have e : ∀ (r : ℝ) (k : K), toC ((r : K) * k) = (r : ℂ) * toC k := fun r k => by
      rw [show toC ((r : K) * k) = toC (r : K) * toC k from map_mul (toCHom K) _ _]
      congr 1
      apply Complex.ext <;> simp [toC]
    rw [e, mul_assoc, mul_assoc]
    congr 1
    rw [mul_comm (toC _), ← mul_assoc, ← Complex.ofReal_mul]
    have : (m / β * (β / m) : ℝ) = 1 := by field_simp
    rw [this, Complex.ofReal_one, one_mul]

/-! ### The theorems apply -/

/-- The self-energy of the Hubbard dimer between its two sites. -/
example : ∃ (n : Type) (_ : Fintype n) (_ : DecidableEq n) (_ : Nonempty n) (a : ℕ → ℕ → Matrix n n ℝ) (G0 : Op → Op → ℝ) (G : ℝ → ℕ → ℕ → ℕ → ℝ),
    Annihilators 2 2 a ∧
    Tendsto (fun M => sigmaSum ⟨1e20, 2, G0, dimerTbl⟩ G 3 M 10 1 0 1 4 / partitionC ⟨1e20, 2, G0, dimerTbl⟩ 3 M) atTop
      (nhds (toC ((((10 : ℕ) / 3 : ℝ) : ℝ) * ∫ u in (3 * ((4 : ℕ) : ℝ) / (10 : ℕ))..(3 * (((4 : ℕ) : ℝ) + 1) / (10 : ℕ)),
        selfG 3 a (bareH 2 2 dimerHop a) (interactionH a dimerTbl) 1 0 1 u))) := by
  obtain ⟨n, i1, i2, i3, a, G0, ha, hG, hm⟩ := fock_meets ℝ 2 2 dimerHop 3
  have hZ := density_terms_partition ha dimer_hops dimer_terms dimer_densities 3
  exact ⟨n, i1, i2, i3, a, G0, thermalGt 3 a (bareH 2 2 dimerHop a), ha,
    C98_self_energy (K := ℝ) (c := ⟨1e20, 2, G0, dimerTbl⟩) (by norm_num) ha dimer_hops hG hm (thermalGt_spec _ _ _ _ _) (thermalGt_measurable _ _ _) dimer_terms hZ
      (by norm_num) (by norm_num) (by norm_num) (by norm_num)⟩

end CTInt
