import Verif.Proofs.FockGreen
import Verif.Props.Fock

/-!
# C97: densities of fermions that hop and interact
-/

set_option linter.all false

namespace CTInt

open NormedSpace Matrix Filter

variable {K : Type} [RCLike K] [DecidableEq K] {n : Type} [Fintype n] [DecidableEq n] {ns : ℕ} {β : ℝ}

/-- What the time difference of 10⁻¹⁰ β used for equal times adds to c†_s c_s2: a property of the bare Hamiltonian. -/
noncomputable def equalTimeError (β : ℝ) (a : ℕ → ℕ → Matrix n n K) (H : Matrix n n K) (z s s2 : ℕ) : K :=
  thermal β H (atTime H (β * 1e-10) (a z s)ᴴ * a z s2) - thermal β H ((a z s)ᴴ * a z s2)

variable {a : ℕ → ℕ → Matrix n n K} {h : ℕ → ℕ → ℕ → K} {c : Ctx K} {G : ℝ → ℕ → ℕ → ℕ → K}

theorem shiftG_eq {nf : ℕ} {H : Matrix n n K} (hβ : 0 < β) (hG : ThermalG β nf ns a H G) {z s s2 : ℕ} (hz : z < nf) (hs : s < ns) (hs2 : s2 < ns) :
    shiftG β a H G (-β * 1e-10) z s s2 = - equalTimeError β a H z s s2 := by
  unfold shiftG equalTimeError
  rw [neg_mul, green_small hG hz hs2 hs (by positivity) (by nlinarith)]
  ring

variable [Nonempty n]

theorem ratio_limit {f g : ℕ → ℂ} {X Z Z0 : K} (hf : Tendsto f atTop (nhds (toC (X / Z0)))) (hg : Tendsto g atTop (nhds (toC (Z / Z0)))) (hZ : Z ≠ 0)
    (h0 : Z0 ≠ 0) : Tendsto (fun M => f M / g M) atTop (nhds (toC (X / Z))) := by
  have : X / Z = (X / Z0) / (Z / Z0) := by field_simp
  rw [this, show toC ((X / Z0) / (Z / Z0)) = toC (X / Z0) / toC (Z / Z0) from map_div₀ (toCHom K) _ _]
  refine hf.div hg ?_
  intro hc
  have := (map_eq_zero (toCHom K)).1 (show toCHom K (Z / Z0) = 0 from hc)
  exact div_ne_zero hZ h0 this

theorem trace_sub (β : ℝ) (H X : Matrix n n K) (e : K) (hZ : (exp (-(β : K) • H)).trace ≠ 0) :
    (exp (-(β : K) • H) * (X - (-e) • 1)).trace / (exp (-(β : K) • H)).trace = thermal β H X + e := by
  unfold thermal
  rw [neg_smul e, sub_neg_eq_add, mul_add, Matrix.trace_add, Matrix.mul_smul, mul_one, Matrix.trace_smul, smul_eq_mul, add_div, mul_div_assoc, div_self hZ, mul_one]

/-- **C97.**  The density matrix of the expansion, c†_s c_s2 of flavor `z`, converges to the thermal average of the interacting
    Hamiltonian, except for the time difference used for equal times. -/
theorem C97_density (hβ : 0 < β) (ha : Annihilators c.nf ns a) (hh : HermitianHops c.nf ns h)
    (hG0 : ThermalG0 β c.nf ns a (bareH c.nf ns h a) c.G0) (hm : MeasurableG0 c.G0) (hG : ThermalG β c.nf ns a (bareH c.nf ns h a) G) (hGm : MeasurableG G)
    (hT : TermsOn c.nf ns c.tbl) (hZ : (exp (-(β : K) • (bareH c.nf ns h a + interactionH a c.tbl))).trace ≠ 0) {z s s2 : ℕ} (hz : z < c.nf) (hs : s < ns)
    (hs2 : s2 < ns) :
    Tendsto (fun M => configSumC c β M (fun vs => ((1 / β : ℝ) : K) * ∫ τ in (0 : ℝ)..β, weightExtra c G z (-β * 1e-10) τ s s2 vs) / partitionC c β M) atTop
      (nhds (toC (thermal β (bareH c.nf ns h a + interactionH a c.tbl) ((a z s)ᴴ * a z s2) + equalTimeError β a (bareH c.nf ns h a) z s s2))) := by
  obtain ⟨_, rfl, hp⟩ := C96_partition hβ.le ha hh hG0 hm hT
  have key := optWeight_limit hβ ha hh hG0 hm hG hGm hT (rowsFor_one (ε := -β * 1e-10) hz hs hs2)
    (rowsOp_one (H := bareH c.nf ns h a) (β := β) (shiftG β a (bareH c.nf ns h a) G (-β * 1e-10) z s s2))
  simp only [← weightExtra_opt] at key
  have h3 := (Complex.equivRealProdCLM.symm.continuous.tendsto _).comp ((key RCLike.reCLM).prodMk_nhds (key RCLike.imCLM))
  rw [← trace_sub _ _ _ _ hZ, ← shiftG_eq hβ hG hz hs hs2]
  exact ratio_limit h3 hp hZ (thermal_trace_ne (bareH_hermitian hh))

section real

variable {a : ℕ → ℕ → Matrix n n ℝ} {h : ℕ → ℕ → ℕ → ℝ} {c : Ctx ℝ} {G : ℝ → ℕ → ℕ → ℕ → ℝ}

theorem expect_opt (hβ : 0 < β) (ha : Annihilators c.nf ns a) (hh : HermitianHops c.nf ns h)
    (hG0 : ThermalG0 β c.nf ns a (bareH c.nf ns h a) c.G0) (hm : MeasurableG0 c.G0) (hG : ThermalG β c.nf ns a (bareH c.nf ns h a) G) (hGm : MeasurableG G)
    (hT : TermsOn c.nf ns c.tbl) (hZ : (exp (-β • (bareH c.nf ns h a + interactionH a c.tbl))).trace ≠ 0) {E : ℕ → Option (ℕ × ℕ)}
    {rows : ℝ → List (OpRow ℝ)} (hE : RowsFor β c.nf ns a (bareH c.nf ns h a) G (-β * 1e-10) E rows) {X : Matrix n n ℝ}
    (hX : RowsOp a (bareH c.nf ns h a) β rows X) {w : ℝ → List Vert → ℝ} (hw : ∀ τ x, w τ (x.map vertAt) = optWeight c G (-β * 1e-10) τ E x) :
    Tendsto (fun M => expect c β M fun vs => (1 / β) * ∫ τ in (0 : ℝ)..β, w τ vs) atTop
      (nhds (thermal β (bareH c.nf ns h a + interactionH a c.tbl) X)) := by
  have key := optWeight_limit hβ ha hh hG0 hm hG hGm hT hE hX (ContinuousLinearMap.id ℝ ℝ)
  have hp := C96_partition_real hβ.le ha hh hG0 hm hT
  have h0 : (exp (-β • bareH c.nf ns h a)).trace ≠ 0 := thermal_trace_ne (K := ℝ) (bareH_hermitian hh)
  have h1 := key.div hp (div_ne_zero hZ h0)
  have e : ∀ X Z Z0 : ℝ, Z0 ≠ 0 → Z ≠ 0 → X / Z0 / (Z / Z0) = X / Z := fun X Z Z0 h1 h2 => by field_simp
  unfold expect
  simp only [hw]
  refine Tendsto.congr (fun M => rfl) (h1.trans (le_of_eq ?_))
  congr 1
  exact e _ _ _ h0 hZ

/-- **C97, real weights.** -/
theorem C97_density_real (hβ : 0 < β) (ha : Annihilators c.nf ns a) (hh : HermitianHops c.nf ns h)
    (hG0 : ThermalG0 β c.nf ns a (bareH c.nf ns h a) c.G0) (hm : MeasurableG0 c.G0) (hG : ThermalG β c.nf ns a (bareH c.nf ns h a) G) (hGm : MeasurableG G)
    (hT : TermsOn c.nf ns c.tbl) (hZ : (exp (-β • (bareH c.nf ns h a + interactionH a c.tbl))).trace ≠ 0) {z s s2 : ℕ} (hz : z < c.nf) (hs : s < ns)
    (hs2 : s2 < ns) :
    Tendsto (fun M => expect c β M fun vs => (1 / β) * ∫ τ in (0 : ℝ)..β, weightExtra c G z (-β * 1e-10) τ s s2 vs) atTop
      (nhds (thermal β (bareH c.nf ns h a + interactionH a c.tbl) ((a z s)ᴴ * a z s2) + equalTimeError β a (bareH c.nf ns h a) z s s2)) := by
  have := expect_opt hβ ha hh hG0 hm hG hGm hT hZ (rowsFor_one (ε := -β * 1e-10) hz hs hs2) (rowsOp_one _)
    (w := fun τ vs => weightExtra c G z (-β * 1e-10) τ s s2 vs) fun τ x => weightExtra_opt c G z _ τ s s2 x
  rw [← trace_sub (K := ℝ) β _ _ _ hZ, ← shiftG_eq hβ hG hz hs hs2]
  exact this

/-- **C97, mean density of a flavor.** -/
theorem C97_mean (hβ : 0 < β) (ha : Annihilators c.nf ns a) (hh : HermitianHops c.nf ns h)
    (hG0 : ThermalG0 β c.nf ns a (bareH c.nf ns h a) c.G0) (hm : MeasurableG0 c.G0) (hG : ThermalG β c.nf ns a (bareH c.nf ns h a) G) (hGm : MeasurableG G)
    (hT : TermsOn c.nf ns c.tbl) (hZ : (exp (-β • (bareH c.nf ns h a + interactionH a c.tbl))).trace ≠ 0) {z : ℕ} (hz : z < c.nf) :
    Tendsto (fun M => meanDensity c G β M ns z) atTop
      (nhds ((∑ s ∈ Finset.range ns, (thermal β (bareH c.nf ns h a + interactionH a c.tbl) ((a z s)ᴴ * a z s) +
        equalTimeError β a (bareH c.nf ns h a) z s s)) / ns)) := by
  unfold meanDensity
  refine Tendsto.div_const (tendsto_finset_sum _ fun s hs => ?_) _
  have hs := Finset.mem_range.1 hs
  exact C97_density_real hβ ha hh hG0 hm hG hGm hT hZ hz hs hs

/-- **C97, products of densities.**  The product of the densities of two flavors, for instance the double occupancy. -/
theorem C97_product (hβ : 0 < β) (ha : Annihilators c.nf ns a) (hh : HermitianHops c.nf ns h)
    (hG0 : ThermalG0 β c.nf ns a (bareH c.nf ns h a) c.G0) (hm : MeasurableG0 c.G0) (hG : ThermalG β c.nf ns a (bareH c.nf ns h a) G) (hGm : MeasurableG G)
    (hT : TermsOn c.nf ns c.tbl) (hZ : (exp (-β • (bareH c.nf ns h a + interactionH a c.tbl))).trace ≠ 0) {f1 i f2 j : ℕ} (h1 : f1 < c.nf) (hi : i < ns)
    (h2 : f2 < c.nf) (hj : j < ns) (hne : f1 ≠ f2) :
    Tendsto (fun M => densDens c G β M f1 i f2 j) atTop
      (nhds (thermal β (bareH c.nf ns h a + interactionH a c.tbl)
        (((a f1 i)ᴴ * a f1 i + equalTimeError β a (bareH c.nf ns h a) f1 i i • 1) *
          ((a f2 j)ᴴ * a f2 j + equalTimeError β a (bareH c.nf ns h a) f2 j j • 1)))) := by
  have := expect_opt hβ ha hh hG0 hm hG hGm hT hZ (rowsFor_two (ε := -β * 1e-10) h1 hi h2 hj hne) (rowsOp_two _ _)
    (w := fun τ vs => weightTwo c G (-β * 1e-10) τ f1 i f2 j vs) fun τ x => weightTwo_opt c G _ τ hne x
  rw [shiftG_eq hβ hG h1 hi hi, shiftG_eq hβ hG h2 hj hj, neg_smul, neg_smul, sub_neg_eq_add, sub_neg_eq_add] at this
  exact this

/-- **C97, a density squared is the density.** -/
theorem C97_square (hβ : 0 < β) (ha : Annihilators c.nf ns a) (hh : HermitianHops c.nf ns h)
    (hG0 : ThermalG0 β c.nf ns a (bareH c.nf ns h a) c.G0) (hm : MeasurableG0 c.G0) (hG : ThermalG β c.nf ns a (bareH c.nf ns h a) G) (hGm : MeasurableG G)
    (hT : TermsOn c.nf ns c.tbl) (hZ : (exp (-β • (bareH c.nf ns h a + interactionH a c.tbl))).trace ≠ 0) {z s : ℕ} (hz : z < c.nf) (hs : s < ns) :
    Tendsto (fun M => densDens c G β M z s z s) atTop
      (nhds (thermal β (bareH c.nf ns h a + interactionH a c.tbl) ((a z s)ᴴ * a z s) + equalTimeError β a (bareH c.nf ns h a) z s s)) := by
  refine (C97_density_real hβ ha hh hG0 hm hG hGm hT hZ hz hs hs).congr fun M => ?_
  unfold densDens
  congr 1
  funext vs
  congr 2
  funext τ
  unfold weightExtra weightTwo
  congr 1
  refine Finset.prod_congr rfl fun fl _ => ?_
  rw [if_pos rfl, if_pos rfl]
  by_cases q : fl = z
  · subst q
    rw [if_pos rfl]
  · rw [if_neg q, if_neg q]

end real

/-! ### The theorems apply -/

/-- Terms that are products of densities give a Hermitian interaction, hence a partition function that does not vanish. -/
theorem density_terms_hermitian {nf : ℕ} {a : ℕ → ℕ → Matrix n n ℝ} (ha : Annihilators nf ns a) {tbl : List (VDef ℝ)} (hT : TermsOn nf ns tbl)
    (hd : ∀ d ∈ tbl, ∀ r < d.rank, d.sites.getD (2 * r) 0 = d.sites.getD (2 * r + 1) 0) : (interactionH a tbl).IsHermitian := by
  have hprod : ∀ l : List (Matrix n n ℝ), (∀ x ∈ l, x.IsHermitian) → (∀ x ∈ l, ∀ y ∈ l, Commute x y) → l.prod.IsHermitian := by
    intro l
    induction l with
    | nil => intro _ _; exact Matrix.isHermitian_one
    | cons x l ih =>
      intro h1 h2
      rw [List.prod_cons]
      show (x * l.prod)ᴴ = x * l.prod
      rw [Matrix.conjTranspose_mul, (h1 x List.mem_cons_self).eq,
        (ih (fun y hy => h1 y (List.mem_cons_of_mem _ hy)) fun y hy y' hy' => h2 y (List.mem_cons_of_mem _ hy) y' (List.mem_cons_of_mem _ hy')).eq]
      exact (Commute.list_prod_right _ _ fun y hy => h2 x List.mem_cons_self y (List.mem_cons_of_mem _ hy)).eq.symm
  have hsum : ∀ l : List (Matrix n n ℝ), (∀ x ∈ l, x.IsHermitian) → l.sum.IsHermitian := by
    intro l
    induction l with
    | nil => intro _; exact Matrix.isHermitian_zero
    | cons x l ih => 
      intro h1
      rw [List.sum_cons]
      exact (h1 x List.mem_cons_self).add (ih fun y hy => h1 y (List.mem_cons_of_mem _ hy))
  have hs : ∀ (k : ℝ) (X : Matrix n n ℝ), X.IsHermitian → (k • X).IsHermitian := fun k X hX => by
    show (k • X)ᴴ = k • X
    rw [Matrix.conjTranspose_smul, hX.eq]
    simp
  refine hsum _ fun x hx => ?_
  obtain ⟨d, hd', rfl⟩ := List.mem_map.1 hx
  refine hs _ _ ?_
  refine Finset.sum_induction _ (fun X : Matrix n n ℝ => X.IsHermitian) (fun _ _ h1 h2 => h1.add h2) Matrix.isHermitian_zero fun f _ => ?_
  unfold pairsOp
  refine hprod _ ?_ ?_
  · intro x hx
    obtain ⟨r, hr, rfl⟩ := List.mem_map.1 hx
    rw [← hd d hd' r (List.mem_range.1 hr)]
    exact (density_hermitian _ _).sub (hs _ _ Matrix.isHermitian_one)
  · intro x hx y hy
    obtain ⟨r, hr, rfl⟩ := List.mem_map.1 hx
    obtain ⟨r', hr', rfl⟩ := List.mem_map.1 hy
    have hr := List.mem_range.1 hr
    have hr' := List.mem_range.1 hr'
    rw [← hd d hd' r hr, ← hd d hd' r' hr']
    obtain ⟨t1, t2, -⟩ := hT d hd' r hr
    obtain ⟨t1', t2', -⟩ := hT d hd' r' hr'
    have hc : Commute ((a (d.flavors.getD r 0) (d.sites.getD (2 * r) 0))ᴴ * a (d.flavors.getD r 0) (d.sites.getD (2 * r) 0))
        ((a (d.flavors.getD r' 0) (d.sites.getD (2 * r') 0))ᴴ * a (d.flavors.getD r' 0) (d.sites.getD (2 * r') 0)) := by
      by_cases q : d.flavors.getD r 0 = d.flavors.getD r' 0 ∧ d.sites.getD (2 * r) 0 = d.sites.getD (2 * r') 0
      · rw [q.1, q.2]
      · exact density_commute ha t1 t2 t1' t2' q
    exact (hc.sub_right ((Commute.one_right _).smul_right _)).sub_left (((Commute.one_left _).smul_left _))

theorem density_terms_partition {nf : ℕ} {a : ℕ → ℕ → Matrix n n ℝ} {h : ℕ → ℕ → ℕ → ℝ} (ha : Annihilators nf ns a) (hh : HermitianHops nf ns h)
    {tbl : List (VDef ℝ)} (hT : TermsOn nf ns tbl) (hd : ∀ d ∈ tbl, ∀ r < d.rank, d.sites.getD (2 * r) 0 = d.sites.getD (2 * r + 1) 0) (β : ℝ) :
    (exp (-β • (bareH nf ns h a + interactionH a tbl))).trace ≠ 0 :=
  thermal_trace_ne (K := ℝ) ((bareH_hermitian hh).add (density_terms_hermitian ha hT hd))

theorem dimer_densities : ∀ d ∈ dimerTbl, ∀ r < d.rank, d.sites.getD (2 * r) 0 = d.sites.getD (2 * r + 1) 0 := by
  intro d hd r hr
  unfold dimerTbl at hd
  obtain ⟨s, hs, rfl⟩ := List.mem_map.1 hd
  have hr : r = 0 ∨ r = 1 := by
    have : r < 2 := hr
    omega
  rcases hr with rfl | rfl <;> simp

/-- The double occupancy of the Hubbard dimer. -/
example : ∃ (n : Type) (_ : Fintype n) (_ : DecidableEq n) (_ : Nonempty n) (a : ℕ → ℕ → Matrix n n ℝ) (G0 : Op → Op → ℝ) (G : ℝ → ℕ → ℕ → ℕ → ℝ),
    Annihilators 2 2 a ∧
    Tendsto (fun M => densDens ⟨1e20, 2, G0, dimerTbl⟩ G 3 M 0 1 1 1) atTop
      (nhds (thermal 3 (bareH 2 2 dimerHop a + interactionH a dimerTbl)
        (((a 0 1)ᴴ * a 0 1 + equalTimeError 3 a (bareH 2 2 dimerHop a) 0 1 1 • 1) *
          ((a 1 1)ᴴ * a 1 1 + equalTimeError 3 a (bareH 2 2 dimerHop a) 1 1 1 • 1)))) ∧
    Tendsto (fun M => meanDensity ⟨1e20, 2, G0, dimerTbl⟩ G 3 M 2 1) atTop
      (nhds ((∑ s ∈ Finset.range 2, (thermal 3 (bareH 2 2 dimerHop a + interactionH a dimerTbl) ((a 1 s)ᴴ * a 1 s) +
        equalTimeError 3 a (bareH 2 2 dimerHop a) 1 s s)) / (2 : ℕ))) := by
  obtain ⟨n, i1, i2, i3, a, G0, ha, hG, hm⟩ := fock_meets ℝ 2 2 dimerHop 3
  have hZ := density_terms_partition ha dimer_hops dimer_terms dimer_densities 3
  exact ⟨n, i1, i2, i3, a, G0, thermalGt 3 a (bareH 2 2 dimerHop a), ha,
    C97_product (c := ⟨1e20, 2, G0, dimerTbl⟩) (by norm_num) ha dimer_hops hG hm (thermalGt_spec _ _ _ _ _) (thermalGt_measurable _ _ _) dimer_terms hZ
      (by norm_num) (by norm_num) (by norm_num) (by norm_num) (by norm_num),
    C97_mean (c := ⟨1e20, 2, G0, dimerTbl⟩) (by norm_num) ha dimer_hops hG hm (thermalGt_spec _ _ _ _ _) (thermalGt_measurable _ _ _) dimer_terms hZ
      (by norm_num)⟩

end CTInt
