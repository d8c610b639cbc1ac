import Verif.Proofs.FockPair
import Verif.Props.FockDensity

/-!
# C97: products of two densities of one flavor
-/

set_option linter.all false

namespace CTInt

open NormedSpace Matrix Filter

variable {n : Type} [Fintype n] [DecidableEq n] [Nonempty n] {ns : ℕ} {β : ℝ} {a : ℕ → ℕ → Matrix n n ℝ} {h : ℕ → ℕ → ℕ → ℝ} {c : Ctx ℝ}
  {G : ℝ → ℕ → ℕ → ℕ → ℝ}

/-- **C97, products of densities of one flavor on two sites.**  The measured product converges to the thermal average of the product of
    the densities, except for the time difference used for equal times: it enters the densities and the exchange of the two pairs. -/
theorem C97_product_same (hβ : 0 < β) (ha : Annihilators c.nf ns a) (hh : HermitianHops c.nf ns h)
    (hG0 : ThermalG0 β c.nf ns a (bareH c.nf ns h a) c.G0) (hm : MeasurableG0 c.G0) (hG : ThermalG β c.nf ns a (bareH c.nf ns h a) G) (hGm : MeasurableG G)
    (hT : TermsOn c.nf ns c.tbl) (hZ : (exp (-β • (bareH c.nf ns h a + interactionH a c.tbl))).trace ≠ 0) {z i j : ℕ} (hz : z < c.nf) (hi : i < ns)
    (hj : j < ns) (hij : i ≠ j) :
    Tendsto (fun M => densDens c G β M z i z j) atTop
      (nhds (thermal β (bareH c.nf ns h a + interactionH a c.tbl)
        (((a z i)ᴴ * a z i + equalTimeError β a (bareH c.nf ns h a) z i i • 1) * ((a z j)ᴴ * a z j + equalTimeError β a (bareH c.nf ns h a) z j j • 1) -
          equalTimeError β a (bareH c.nf ns h a) z i j • ((a z j)ᴴ * a z i) - equalTimeError β a (bareH c.nf ns h a) z j i • ((a z i)ᴴ * a z j) -
          (equalTimeError β a (bareH c.nf ns h a) z i j * equalTimeError β a (bareH c.nf ns h a) z j i) • 1))) := by
  have key := inserts_limit hβ (pairWeight_inserts (ε := -β * 1e-10) ha hh hG0 hG hT hz hi hj hij) (measurable_pairWeight hm hGm _ z i j)
    (fun τ x y hxy => pairWeight_perm c G _ τ z i j hxy) (ContinuousLinearMap.id ℝ ℝ)
  have hp := C96_partition_real hβ.le ha hh hG0 hm hT
  have h0 : (exp (-β • bareH c.nf ns h a)).trace ≠ 0 := thermal_trace_ne (K := ℝ) (bareH_hermitian hh)
  have h1 := key.div hp (div_ne_zero hZ h0)
  have e : ∀ X Z Z0 : ℝ, Z0 ≠ 0 → Z ≠ 0 → X / Z0 / (Z / Z0) = X / Z := fun X Z Z0 h1 h2 => by field_simp
  have hX : ((a z i)ᴴ * a z i + equalTimeError β a (bareH c.nf ns h a) z i i • 1) * ((a z j)ᴴ * a z j + equalTimeError β a (bareH c.nf ns h a) z j j • 1) -
      equalTimeError β a (bareH c.nf ns h a) z i j • ((a z j)ᴴ * a z i) - equalTimeError β a (bareH c.nf ns h a) z j i • ((a z i)ᴴ * a z j) -
      (equalTimeError β a (bareH c.nf ns h a) z i j * equalTimeError β a (bareH c.nf ns h a) z j i) • 1 =
      pairX a (shiftG β a (bareH c.nf ns h a) G (-β * 1e-10) z) z i j := by
    unfold pairX
    rw [shiftG_eq hβ hG hz hi hi, shiftG_eq hβ hG hz hj hj, shiftG_eq hβ hG hz hi hj, shiftG_eq hβ hG hz hj hi]
    simp only [neg_smul, sub_neg_eq_add, zero_smul, sub_zero, smul_add, smul_smul]
    rw [neg_mul, neg_smul, mul_comm (equalTimeError β a (bareH c.nf ns h a) z j i)]
    abel
  rw [hX]
  unfold densDens expect
  simp only [weightTwo_pair c G _ _ z hij]
  refine Tendsto.congr (fun M => rfl) (h1.trans (le_of_eq ?_))
  congr 1
  exact e _ _ _ h0 hZ

/-! ### The theorem applies -/

/-- Densities of one flavor on the two sites of the Hubbard dimer. -/
example : ∃ (n : Type) (_ : Fintype n) (_ : DecidableEq n) (_ : Nonempty n) (a : ℕ → ℕ → Matrix n n ℝ) (G0 : Op → Op → ℝ) (G : ℝ → ℕ → ℕ → ℕ → ℝ),
    Annihilators 2 2 a ∧
    Tendsto (fun M => densDens ⟨1e20, 2, G0, dimerTbl⟩ G 3 M 1 0 1 1) atTop
      (nhds (thermal 3 (bareH 2 2 dimerHop a + interactionH a dimerTbl)
        (((a 1 0)ᴴ * a 1 0 + equalTimeError 3 a (bareH 2 2 dimerHop a) 1 0 0 • 1) * ((a 1 1)ᴴ * a 1 1 + equalTimeError 3 a (bareH 2 2 dimerHop a) 1 1 1 • 1) -
          equalTimeError 3 a (bareH 2 2 dimerHop a) 1 0 1 • ((a 1 1)ᴴ * a 1 0) - equalTimeError 3 a (bareH 2 2 dimerHop a) 1 1 0 • ((a 1 0)ᴴ * a 1 1) -
          (equalTimeError 3 a (bareH 2 2 dimerHop a) 1 0 1 * equalTimeError 3 a (bareH 2 2 dimerHop a) 1 1 0) • 1))) := by
  obtain ⟨n, i1, i2, i3, a, G0, ha, hG, hm⟩ := fock_meets ℝ 2 2 dimerHop 3
  have hZ := density_terms_partition ha dimer_hops dimer_terms dimer_densities 3
  exact ⟨n, i1, i2, i3, a, G0, thermalGt 3 a (bareH 2 2 dimerHop a), ha,
    C97_product_same (c := ⟨1e20, 2, G0, dimerTbl⟩) (by norm_num) ha dimer_hops hG hm (thermalGt_spec _ _ _ _ _) (thermalGt_measurable _ _ _) dimer_terms hZ
      (by norm_num) (by norm_num) (by norm_num) (by norm_num)⟩

end CTInt
