import Verif.Proofs.FockMotion
import Verif.Proofs.BinLimit
import Verif.Spec.FockMotion
import Verif.Props.FockSigma

/-!
# C99: the Green's function from the self-energy
-/

set_option linter.all false

namespace CTInt

open NormedSpace Matrix Filter

variable {K : Type} [RCLike K] {n : Type} [Fintype n] [DecidableEq n] [Nonempty n] {nf ns : ℕ} {β : ℝ}
  {a : ℕ → ℕ → Matrix n n K} {h : ℕ → ℕ → ℕ → K} {G : ℝ → ℕ → ℕ → ℕ → K}

/-- **C99.**  G = G0 - G0 (ΣG) at every frequency, where ΣG is what the program measures and G is the Green's function of H + V. -/
theorem C99_dyson (hβ : 0 < β) (ha : Annihilators nf ns a) (hh : HermitianHops nf ns h) (hG : ThermalG β nf ns a (bareH nf ns h a) G) (V : Matrix n n K)
    (hZ : (exp (-(β : K) • (bareH nf ns h a + V))).trace ≠ 0) {z A b : ℕ} (hz : z < nf) (hA : A < ns) (hb : b < ns) (k : ℕ) :
    fourier β (fun u => toC (greenOf β a (bareH nf ns h a + V) z A b u)) k =
      fourier β (fun u => toC (G u z A b)) k -
        ∑ s ∈ Finset.range ns, fourier β (fun u => toC (G u z A s)) k * fourier β (fun u => toC (selfG β a (bareH nf ns h a) V z s b u)) k := by
  have h0 := thermal_trace_ne (K := K) (β := β) (bareH_hermitian (c := a) hh)
  have eG : ∀ s < ns, ∀ s' < ns, fourier β (fun u => toC (G u z s s')) k = fourier β (fun u => -toC (greenP β a (bareH nf ns h a) z s s' u)) k := by
    intro s hs s' hs'
    unfold fourier
    refine intervalIntegral.integral_congr_ae ?_
    have hne : ∀ᵐ u : ℝ, u ≠ β := by simp [MeasureTheory.ae_iff]
    filter_upwards [hne] with u hu hm
    rw [Set.uIoc_of_le hβ.le] at hm
    have := hG z hz s hs s' hs' u ⟨hm.1, lt_of_le_of_ne hm.2 hu⟩ 0
    rw [Int.cast_zero, zero_mul, add_zero, zpow_zero, one_mul] at this
    rw [this, toC_neg]
    rfl
  obtain ⟨X0, hX0⟩ : ∃ X0 : Matrix (Fin ns) (Fin ns) ℂ, X0 = Matrix.of fun s s' : Fin ns => fourier β (fun u => toC (G u z s s')) k := ⟨_, rfl⟩
  obtain ⟨X, hX⟩ : ∃ X : Matrix (Fin ns) (Fin ns) ℂ, X = Matrix.of fun s s' : Fin ns => fourier β (fun u => toC (greenOf β a (bareH nf ns h a + V) z s s' u)) k := ⟨_, rfl⟩
  obtain ⟨S, hS⟩ : ∃ S : Matrix (Fin ns) (Fin ns) ℂ, S = Matrix.of fun s s' : Fin ns => fourier β (fun u => toC (selfG β a (bareH nf ns h a) V z s s' u)) k := ⟨_, rfl⟩
  obtain ⟨D, hD⟩ : ∃ D : Matrix (Fin ns) (Fin ns) ℂ, D = Matrix.of fun s s' : Fin ns => (if (s : ℕ) = s' then Complex.I * omega β k else 0) - toC (h z s s') := ⟨_, rfl⟩
  have eq : ∀ (W : Matrix n n K) (hW : (exp (-(β : K) • (bareH nf ns h a + W))).trace ≠ 0) (i j : Fin ns),
      ∑ s : Fin ns, D i s * fourier β (fun u => -toC (greenP β a (bareH nf ns h a + W) z s j u)) k =
        (if i = j then 1 else 0) - fourier β (fun u => toC (selfG β a (bareH nf ns h a) W z i j u)) k := by
    intro W hW i j
    have := motion_fourier hβ ha W hW hz i.2 j.2 k
    rw [← Fin.sum_univ_eq_sum_range (fun s => ((if (i : ℕ) = s then Complex.I * omega β k else 0) - toC (h z i s)) *
      fourier β (fun u => -toC (greenP β a (bareH nf ns h a + W) z s j u)) k) ns] at this
    simp only [Fin.ext_iff]
    rw [← this, hD]
    rfl
  have d0 : D * X0 = 1 := by
    ext i j
    have := eq 0 (by rwa [add_zero]) i j
    rw [add_zero] at this
    rw [Matrix.mul_apply, Matrix.one_apply, hX0]
    have e0 : fourier β (fun u => toC (selfG β a (bareH nf ns h a) 0 z i j u)) k = 0 := by
      unfold fourier selfG atTime
      simp [thermal_zero, toC_zero]
    rw [e0, sub_zero] at this
    rw [← this]
    exact Finset.sum_congr rfl fun s _ => by rw [Matrix.of_apply, eG s s.2 j j.2]
  have d1 : D * X = 1 - S := by
    ext i j
    rw [Matrix.mul_apply, Matrix.sub_apply, Matrix.one_apply, hS, Matrix.of_apply, ← eq V hZ i j, hX]
    exact Finset.sum_congr rfl fun s _ => by
      rw [Matrix.of_apply]
      congr 2
      funext u
      unfold greenOf
      rw [toC_neg]
      rfl
  have d2 : X = X0 - X0 * S := by
    rw [← mul_one_sub, ← d1, ← mul_assoc, mul_eq_one_comm.1 d0, one_mul]
  have d3 := congrFun (congrFun d2 ⟨A, hA⟩) ⟨b, hb⟩
  rw [Matrix.sub_apply, Matrix.mul_apply, hX, hX0, hS] at d3
  simp only [Matrix.of_apply] at d3
  rw [d3, Fin.sum_univ_eq_sum_range (fun s => fourier β (fun u => toC (G u z A s)) k * fourier β (fun u => toC (selfG β a (bareH nf ns h a) V z s b u)) k) ns]

variable [DecidableEq K] {c : Ctx K}

theorem selfG_continuous (a : ℕ → ℕ → Matrix n n K) (H V : Matrix n n K) (z A b : ℕ) : Continuous fun u => toC (selfG β a H V z A b u) :=
  (toCL K).continuous.comp (thermal_at_continuous _ _ _)

/-- The limit in the number of vertices. -/
theorem C99_vertices (hβ : 0 < β) (ha : Annihilators c.nf ns a) (hh : HermitianHops c.nf ns h)
    (hG0 : ThermalG0 β c.nf ns a (bareH c.nf ns h a) c.G0) (hm : MeasurableG0 c.G0) (hG : ThermalG β c.nf ns a (bareH c.nf ns h a) G) (hGm : MeasurableG G)
    (hT : TermsOn c.nf ns c.tbl) (hZ : (exp (-(β : K) • (bareH c.nf ns h a + interactionH a c.tbl))).trace ≠ 0) {z A b : ℕ} (hz : z < c.nf)
    (hA : A < ns) (hb : b < ns) (m nl k : ℕ) :
    Tendsto (fun M => writtenOmega c G β M m nl z A b k) atTop
      (nhds (fourier β (expansion β nl fun l => ∑ i ∈ Finset.range m,
        ((Real.sqrt (2 * l + 1) * (legendreP l).eval (2 * (β * (i + 1 / 2) / m) / β - 1) : ℝ) : ℂ) *
          ∫ u in (β * i / m)..(β * (i + 1) / m), toC (selfG β a (bareH c.nf ns h a) (interactionH a c.tbl) z A b u)) k)) := by
  refine fourier_expansion_coeffs nl k fun l _ => ?_
  have h1 := C98_legendre hβ ha hh hG0 hm hG hGm hT hZ (m := m) hz hA hb l
  refine h1.trans (le_of_eq (congrArg nhds (Finset.sum_congr rfl fun i _ => congrArg _ ?_)))
  exact ((toCL K).intervalIntegral_comp_comm ((thermal_at_continuous _ _ _).intervalIntegrable _ _)).symm

/-- The limit in the number of bins. -/
theorem C99_bins (hβ : 0 < β) (S : ℝ → ℂ) (hS : Continuous S) (nl k : ℕ) :
    Tendsto (fun m : ℕ => fourier β (expansion β nl fun l => ∑ i ∈ Finset.range m,
        ((Real.sqrt (2 * l + 1) * (legendreP l).eval (2 * (β * (i + 1 / 2) / m) / β - 1) : ℝ) : ℂ) * ∫ u in (β * i / m)..(β * (i + 1) / m), S u) k) atTop
      (nhds (fourier β (expansion β nl (legendreCoeff β S)) k)) :=
  fourier_expansion_coeffs nl k fun l _ => bin_limit (f := fun τ => Real.sqrt (2 * l + 1) * (legendreP l).eval (2 * τ / β - 1)) hβ
    (continuous_const.mul ((legendreP l).continuous.comp (by fun_prop))) hS

/-- The limit in the number of Legendre polynomials. -/
theorem C99_polynomials (hβ : 0 < β) (S : ℝ → ℂ) (hS : Continuous S) (k : ℕ) :
    Tendsto (fun nl => fourier β (expansion β nl (legendreCoeff β S)) k) atTop (nhds (fourier β S k)) := fourier_expansion_limit hβ hS k

/-- **C99.**  With enough Legendre polynomials, then enough bins, then enough vertices, what the program writes is as close as wanted to the Fourier transform of
    <[c_A, V](u) c†_b>. -/
theorem C99_written (hβ : 0 < β) (ha : Annihilators c.nf ns a) (hh : HermitianHops c.nf ns h)
    (hG0 : ThermalG0 β c.nf ns a (bareH c.nf ns h a) c.G0) (hm : MeasurableG0 c.G0) (hG : ThermalG β c.nf ns a (bareH c.nf ns h a) G) (hGm : MeasurableG G)
    (hT : TermsOn c.nf ns c.tbl) (hZ : (exp (-(β : K) • (bareH c.nf ns h a + interactionH a c.tbl))).trace ≠ 0) {z A b : ℕ} (hz : z < c.nf)
    (hA : A < ns) (hb : b < ns) (k : ℕ) {ε : ℝ} (hε : 0 < ε) :
    ∀ᶠ nl in atTop, ∀ᶠ m in atTop, ∀ᶠ M in atTop,
      ‖writtenOmega c G β M m nl z A b k - fourier β (fun u => toC (selfG β a (bareH c.nf ns h a) (interactionH a c.tbl) z A b u)) k‖ < ε := by
  have hS := selfG_continuous (β := β) a (bareH c.nf ns h a) (interactionH a c.tbl) z A b
  have h3 := (C99_polynomials hβ _ hS k).eventually (Metric.ball_mem_nhds _ (show 0 < ε / 3 by linarith))
  filter_upwards [h3] with nl q3
  have h2 := (C99_bins hβ _ hS nl k).eventually (Metric.ball_mem_nhds _ (show 0 < ε / 3 by linarith))
  filter_upwards [h2] with m q2
  have h1 := (C99_vertices hβ ha hh hG0 hm hG hGm hT hZ hz hA hb m nl k).eventually (Metric.ball_mem_nhds _ (show 0 < ε / 3 by linarith))
  filter_upwards [h1] with M q1
  rw [← dist_eq_norm]
  have t := (dist_triangle _ _ _).trans_lt (add_lt_add ((dist_triangle _ _ _).trans_lt (add_lt_add q1 q2)) q3)
  exact t.trans_le (by linarith)

/-- **C99.**  The same for the Green's function reconstructed from the written numbers, G0 - G0 (ΣG), and that of the interacting Hamiltonian. -/
theorem C99_reconstructed (hβ : 0 < β) (ha : Annihilators c.nf ns a) (hh : HermitianHops c.nf ns h)
    (hG0 : ThermalG0 β c.nf ns a (bareH c.nf ns h a) c.G0) (hm : MeasurableG0 c.G0) (hG : ThermalG β c.nf ns a (bareH c.nf ns h a) G) (hGm : MeasurableG G)
    (hT : TermsOn c.nf ns c.tbl) (hZ : (exp (-(β : K) • (bareH c.nf ns h a + interactionH a c.tbl))).trace ≠ 0) {z A b : ℕ} (hz : z < c.nf)
    (hA : A < ns) (hb : b < ns) (k : ℕ) {ε : ℝ} (hε : 0 < ε) :
    ∀ᶠ nl in atTop, ∀ᶠ m in atTop, ∀ᶠ M in atTop,
      ‖(fourier β (fun u => toC (G u z A b)) k - ∑ s ∈ Finset.range ns, fourier β (fun u => toC (G u z A s)) k * writtenOmega c G β M m nl z s b k) -
        fourier β (fun u => toC (greenOf β a (bareH c.nf ns h a + interactionH a c.tbl) z A b u)) k‖ < ε := by
  obtain ⟨g, hg⟩ : ∃ g : ℕ → ℂ, g = fun s => fourier β (fun u => toC (G u z A s)) k := ⟨_, rfl⟩
  obtain ⟨C, hC⟩ : ∃ C, C = 1 + ∑ s ∈ Finset.range ns, ‖g s‖ := ⟨_, rfl⟩
  have hs0 : 0 ≤ ∑ s ∈ Finset.range ns, ‖g s‖ := Finset.sum_nonneg fun s _ => norm_nonneg _
  have hCp : 0 < C := by linarith
  have key : ∀ s ∈ Finset.range ns, _ := fun s hs => C99_written hβ ha hh hG0 hm hG hGm hT hZ hz (Finset.mem_range.1 hs) hb k (ε := ε / C) (by positivity)
  have key2 := (Finset.range ns).eventually_all.2 key
  filter_upwards [key2] with nl q
  have q2 := (Finset.range ns).eventually_all.2 q
  filter_upwards [q2] with m q
  have q3 := (Finset.range ns).eventually_all.2 q
  filter_upwards [q3] with M q
  have hd := C99_dyson hβ ha hh hG (interactionH a c.tbl) hZ hz hA hb k
  have e : ∀ x S S' : ℂ, (x - S) - (x - S') = S' - S := fun x S S' => by ring
  rw [hd, e, ← Finset.sum_sub_distrib]
  refine (norm_sum_le _ _).trans_lt ?_
  have ht : ∀ s ∈ Finset.range ns, ‖fourier β (fun u => toC (G u z A s)) k * fourier β (fun u => toC (selfG β a (bareH c.nf ns h a) (interactionH a c.tbl) z s b u)) k -
      fourier β (fun u => toC (G u z A s)) k * writtenOmega c G β M m nl z s b k‖ ≤ ‖g s‖ * (ε / C) := by
    intro s hs
    rw [← mul_sub, norm_mul, norm_sub_rev, hg]
    exact mul_le_mul_of_nonneg_left (q s hs).le (norm_nonneg _)
  refine (Finset.sum_le_sum ht).trans_lt ?_
  rw [← Finset.sum_mul]
  calc (∑ s ∈ Finset.range ns, ‖g s‖) * (ε / C) < C * (ε / C) := mul_lt_mul_of_pos_right (by linarith) (by positivity)
    _ = ε := by field_simp

/-- **C99.**  The same for the numbers in the archives of runs that have converged (C76, C94): the length of the run comes last. -/
theorem C99_archive (hβ : 0 < β) (ha : Annihilators c.nf ns a) (hh : HermitianHops c.nf ns h)
    (hG0 : ThermalG0 β c.nf ns a (bareH c.nf ns h a) c.G0) (hm : MeasurableG0 c.G0) (hG : ThermalG β c.nf ns a (bareH c.nf ns h a) G) (hGm : MeasurableG G)
    (hT : TermsOn c.nf ns c.tbl) (hZ : (exp (-(β : K) • (bareH c.nf ns h a + interactionH a c.tbl))).trace ≠ 0) {z A b : ℕ} (hz : z < c.nf)
    (hA : A < ns) (hb : b < ns) (k : ℕ) {ε : ℝ} (hε : 0 < ε) :
    ∀ᶠ nl in atTop, ∀ᶠ m in atTop, ∀ᶠ M in atTop, ∀ (q : MeasPar K) (nm : ℕ) (ar : ℕ → Archive), q.beta = β → q.ns = ns → q.nb = m → k < nm →
      SelfTo c q G M nl nm (partitionC c β M) ar →
      ∀ᶠ j in atTop, ‖(fourier β (fun u => toC (G u z A b)) k -
          ∑ s ∈ Finset.range ns, fourier β (fun u => toC (G u z A s)) k * (ar j).omega (off4 ns ns c.nf k s b z)) -
        fourier β (fun u => toC (greenOf β a (bareH c.nf ns h a + interactionH a c.tbl) z A b u)) k‖ < ε := by
  filter_upwards [C99_reconstructed hβ ha hh hG0 hm hG hGm hT hZ hz hA hb k hε] with nl q1
  filter_upwards [q1] with m q2
  filter_upwards [q2] with M q3
  rintro q nm ar rfl rfl rfl hk har
  have ht := (((tendsto_finset_sum (Finset.range q.ns) fun s hs =>
    (har.omega z hz s (Finset.mem_range.1 hs) b hb k hk).const_mul (fourier q.beta (fun u => toC (G u z A s)) k)).const_sub (fourier q.beta (fun u => toC (G u z A b)) k)).sub_const
      (fourier q.beta (fun u => toC (greenOf q.beta a (bareH c.nf q.ns h a + interactionH a c.tbl) z A b u)) k)).norm
  exact ht.eventually (gt_mem_nhds q3)

/-! ### The theorems apply -/

/-- The Green's function of the Hubbard dimer from its self-energy. -/
example : ∃ (n : Type) (_ : Fintype n) (_ : DecidableEq n) (_ : Nonempty n) (a : ℕ → ℕ → Matrix n n ℝ) (G0 : Op → Op → ℝ) (G : ℝ → ℕ → ℕ → ℕ → ℝ),
    Annihilators 2 2 a ∧ ∀ ε > 0, ∀ᶠ nl in atTop, ∀ᶠ m in atTop, ∀ᶠ M in atTop,
      ‖(fourier 3 (fun u => toC (G u 1 0 1)) 7 - ∑ s ∈ Finset.range 2, fourier 3 (fun u => toC (G u 1 0 s)) 7 *
          writtenOmega ⟨1e20, 2, G0, dimerTbl⟩ G 3 M m nl 1 s 1 7) -
        fourier 3 (fun u => toC (greenOf 3 a (bareH 2 2 dimerHop a + interactionH a dimerTbl) 1 0 1 u)) 7‖ < ε := by
  obtain ⟨n, i1, i2, i3, a, G0, ha, hG, hm⟩ := fock_meets ℝ 2 2 dimerHop 3
  have hZ := density_terms_partition ha dimer_hops dimer_terms dimer_densities 3
  exact ⟨n, i1, i2, i3, a, G0, thermalGt 3 a (bareH 2 2 dimerHop a), ha, fun ε hε =>
    C99_reconstructed (K := ℝ) (c := ⟨1e20, 2, G0, dimerTbl⟩) (by norm_num) ha dimer_hops hG hm (thermalGt_spec _ _ _ _ _) (thermalGt_measurable _ _ _) dimer_terms hZ
      (by norm_num) (by norm_num) (by norm_num) 7 hε⟩

end CTInt
