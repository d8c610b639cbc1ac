import Verif.Proofs.Observables
import Verif.Props.SpinFlip

/-!
# C65, C66: what a measurement records
-/

set_option linter.all false

namespace CTInt

variable {K : Type} [RCLike K] [DecidableEq K]
variable {c : Ctx K}

/-! ## C66 -/

theorem mem_rowsOf_site {NI : K} {nf ns : ℕ} {tbl : List (VDef K)} (ht : TblOK NI nf tbl) (hs : SitesIn ns tbl) {vs : List Vert}
    (hv : ∀ v ∈ vs, VertOK tbl v) {fl : ℕ} {r : OpRow K} (hr : r ∈ rowsOf NI tbl vs fl) :
    r.cr.site < ns ∧ r.an.site < ns ∧ ∃ v ∈ vs, r.cr.time = v.time := by
  unfold rowsOf at hr
  obtain ⟨v, hvm, hr⟩ := List.mem_flatMap.1 hr
  unfold rowsV at hr
  obtain ⟨k, hk, rfl⟩ := List.mem_map.1 hr
  have hk := List.mem_range.1 (List.mem_filter.1 hk).1
  have hd : termOf tbl v ∈ tbl := by
    unfold termOf
    rw [List.getD_eq_getElem _ _ (hv v hvm).1]
    exact List.getElem_mem _
  have hl := ht.si _ hd
  refine ⟨?_, ?_, v, hvm, rfl⟩
  · show (termOf tbl v).sites.getD (2 * k) 0 < ns
    rw [List.getD_eq_getElem _ _ (by omega)]
    exact hs _ hd _ (List.getElem_mem _)
  · show (termOf tbl v).sites.getD (2 * k + 1) 0 < ns
    rw [List.getD_eq_getElem _ _ (by omega)]
    exact hs _ hd _ (List.getElem_mem _)

/-- A measurement of a closed object. -/
theorem measureObservables_spec (ht : TblOK c.NI c.nf c.tbl) {q : MeasPar K} (hb : 0 < q.beta) (hnb : 0 < q.nb)
    (hsite : SitesIn q.ns c.tbl) {G : ℝ → ℕ → ℕ → ℕ → K}
    (hG : ∀ t z s1 s2, z < c.nf → s1 < q.ns → s2 < q.ns → q.g0 t z s1 s2 = .ok (G t z s1 s2))
    {s : Sub K} (hc : Closed c s) (htime : TimesIn q.beta s.verts) {u : ℕ → ℝ} (hu : ∀ k, 0 ≤ u k ∧ u k < 1)
    (junk : ℕ → ℕ → K) (p : ℕ) {w : K} (hw : w = weight c.NI c.nf c.G0 c.tbl s.verts)
    {L : ℕ → List (OpRow K)} (hL : ∀ z, L z = rowsOf c.NI c.tbl s.verts z)
    {shifts : List ℝ} (hsh : shifts = (List.range q.nShifts).map fun i => q.beta * u (p + i)) {τ : ℝ}
    (hτ : τ = q.beta * u (p + q.nShifts)) {ρ : ℕ → ℕ → ℕ → ℂ}
    (hρ : ∀ z a b, ρ z a b = (RCLike.re (densityOf c.G0 G z (L z) (-q.beta * 1e-10) τ a b) : ℂ)) :
    ∃ r, measureObservables q c junk u s p = .ok (r, p + q.nShifts + 1) ∧ w ≠ 0 ∧
      r.sign = RCLike.re (w / ((‖w‖ : ℝ) : K)) ∧
      (∀ z < c.nf, ∀ a < q.ns, ∀ b < q.ns, (r.stauRe z a b).length = q.nb ∧ (r.stauIm z a b).length = q.nb ∧ ∀ i < q.nb,
        (⟨(r.stauRe z a b).getD i 0, (r.stauIm z a b).getD i 0⟩ : ℂ) =
          selfEnergy q.beta c.G0 G z (L z) (w / ((‖w‖ : ℝ) : K)) shifts (binWeight q.beta q.nb i) a b) ∧
      (∀ z < c.nf, ∀ a < q.ns, (r.dens.site z).getD a 0 =
        r.sign * RCLike.re (densityOf c.G0 G z (L z) (-q.beta * 1e-10) τ a a)) ∧
      (∀ z < c.nf, r.dens.mean.getD z 0 = r.sign * ((∑ a ∈ Finset.range q.ns,
        RCLike.re (densityOf c.G0 G z (L z) (-q.beta * 1e-10) τ a a)) / q.ns)) ∧
      (∀ f1 < c.nf, ∀ i < q.ns, ∀ f2 < c.nf, ∀ j < q.ns,
        (⟨r.dens.ninjRe.getD (off4 q.ns c.nf q.ns f1 i f2 j) 0, r.dens.ninjIm.getD (off4 q.ns c.nf q.ns f1 i f2 j) 0⟩ : ℂ) =
          (r.sign : ℂ) * wick ρ f1 i f2 j) ∧
      r.pertOrder.length = c.nf ∧ (∀ z < c.nf, r.pertOrder.getD z 0 = ((L z).length : ℝ)) ∧
      r.pertVertex.length = c.tbl.length ∧ ∀ t < c.tbl.length, r.pertVertex.getD t 0 =
        ((s.verts.countP fun v => decide (v.type = t) : ℕ) : ℝ) := by
  obtain ⟨a, hM, hcl⟩ := hc
  have hR := hM.cl hcl
  obtain ⟨M, eM, qM⟩ := computeM_spec ht hR
  set m := measIn q c s M with hm
  let L' : ℕ → List (OpRow K) := fun z => (s.invA z).rowList
  have hperm : ∀ z < c.nf, (L' z).Perm (L z) := fun z hz => by rw [hL]; exact hR.rows z hz
  have hcr : ∀ z < c.nf, m.cr z = (L' z).map OpRow.cr := by
    intro z hz
    show (s.invA z).cr = _
    refine List.ext_getElem (by simp [L', rowList_length]) fun i h1 h2 => ?_
    rw [List.getElem_map, rowList_getElem _ h1]
    exact (List.getD_eq_getElem _ _ h1).symm
  have hanl : ∀ z < c.nf, (s.invA z).an.length = (s.invA z).cr.length := fun z hz => (hR.al z hz).an
  have han : ∀ z < c.nf, m.an z = (L' z).map OpRow.an := by
    intro z hz
    show (s.invA z).an = _
    refine List.ext_getElem (by simp [L', rowList_length, hanl z hz]) fun i h1 h2 => ?_
    rw [List.getElem_map, rowList_getElem _ (by rw [← hanl z hz]; exact h1)]
    exact (List.getD_eq_getElem _ _ h1).symm
  have hrows : MeasRows m c.G0 L' := ⟨hcr, han, qM⟩
  have hmem : ∀ z < c.nf, ∀ r ∈ L' z, r.cr.site < q.ns ∧ r.an.site < q.ns ∧ ∃ v ∈ s.verts, r.cr.time = v.time := by
    intro z hz r hr
    have := (hperm z hz).mem_iff.1 hr
    rw [hL] at this
    exact mem_rowsOf_site ht hsite hR.ok this
  have hlen : ∀ z < c.nf, (m.cr z).length = (L' z).length := fun z hz => by rw [hcr z hz, List.length_map]
  have hOK : MeasOK m := by
    refine ⟨hb, fun z hz => ?_, fun z hz => ?_, fun z hz => ?_, fun z hz x hx => ?_, fun z hz x hx => ?_, fun z hz x hx => ?_⟩
    · rw [hlen z hz]; exact (qM z hz).1
    · rw [hlen z hz]; exact (qM z hz).2.1
    · rw [hlen z hz, han z hz, List.length_map]
    · rw [han z hz] at hx
      obtain ⟨r, hr, rfl⟩ := List.mem_map.1 hx
      exact (hmem z hz r hr).2.1
    · rw [hcr z hz] at hx
      obtain ⟨r, hr, rfl⟩ := List.mem_map.1 hx
      exact (hmem z hz r hr).1
    · rw [hcr z hz] at hx
      obtain ⟨r, hr, rfl⟩ := List.mem_map.1 hx
      obtain ⟨-, -, v, hv, e⟩ := hmem z hz r hr
      rw [e]
      exact htime v hv
  have hsr : ∀ t ∈ shifts, 0 ≤ t ∧ t < m.beta := by
    intro t ht'
    rw [hsh] at ht'
    obtain ⟨i, -, rfl⟩ := List.mem_map.1 ht'
    obtain ⟨h0, h1⟩ := hu (p + i)
    exact ⟨mul_nonneg hb.le h0, by show q.beta * u (p + i) < q.beta; nlinarith⟩
  have hGm : HasG0 m G := hG
  obtain ⟨S, eS, qS⟩ := C47_stau m G hGm hOK junk hnb shifts hsr
  obtain ⟨d, eD, -, -, d1, d2, d3⟩ := measureDensities_spec m G hGm hOK τ
  obtain ⟨t, eT, t1, t2⟩ := countTypes_spec (n := c.tbl.length) (vs := s.verts) fun v hv => (hR.ok v hv).1
  have hsgn : s.sign = w / ((‖w‖ : ℝ) : K) := by rw [hR.sgn, hw]; rfl
  have hdens : ∀ z < c.nf, ∀ a b, m.rho G τ z a b = densityOf c.G0 G z (L z) (-q.beta * 1e-10) τ a b := by
    intro z hz a b
    rw [rho_ratio hrows G hz]
    exact extraPair_perm (hperm z hz) _ _ _ _
  refine ⟨⟨RCLike.re s.sign,
    fun z a b => (List.range q.nb).map fun i => (S (off4 q.ns q.ns q.nb z a b i)).re,
    fun z a b => (List.range q.nb).map fun i => (S (off4 q.ns q.ns q.nb z a b i)).im,
    d, (List.range c.nf).map fun f => ((M f).rows : ℝ), t⟩, ?_, ?_, ?_, ?_, ?_, ?_, ?_, ?_, ?_, ?_, ?_⟩
  · unfold measureObservables
    simp only [eM, Res.bind_ok]
    rw [← hsh, ← hτ, ← hm, eS, Res.bind_ok, eD, Res.bind_ok, eT, Res.bind_ok]
    rfl
  · rw [hw]; exact ready_weight_ne_zero ht hR
  · show RCLike.re s.sign = _
    rw [hsgn]
  · intro z hz a ha b hb'
    refine ⟨by simp, by simp, fun i hi => ?_⟩
    have := qS z a b i hz ha hb' hi
    rw [estimator_ratio hrows G hz, selfEnergy_perm (hperm z hz)] at this
    rw [← hsgn]
    show (⟨((List.range q.nb).map fun i => (S (off4 q.ns q.ns q.nb z a b i)).re).getD i 0,
      ((List.range q.nb).map fun i => (S (off4 q.ns q.ns q.nb z a b i)).im).getD i 0⟩ : ℂ) = _
    have e1 : ∀ f : ℕ → ℝ, ((List.range q.nb).map f).getD i 0 = f i := by
      intro f
      simp [List.getD, hi]
    rw [e1, e1]
    exact this
  · intro z hz a ha
    have := d1 z hz a ha
    rw [hdens z hz] at this
    exact this
  · intro z hz
    have := d2 z hz
    simp only [hdens z hz] at this
    exact this
  · intro f1 h1 i hi f2 h2 j hj
    have := d3 f1 h1 i hi f2 h2 j hj
    refine this.trans ?_
    show (RCLike.re s.sign : ℂ) * _ = (RCLike.re s.sign : ℂ) * _
    congr 1
    unfold wick MeasIn.rhoRe
    simp only [hρ, hdens f1 h1, hdens f2 h2]
  · simp
  · intro z hz
    show ((List.range c.nf).map fun f => ((M f).rows : ℝ)).getD z 0 = _
    rw [← (hperm z hz).length_eq, ← (qM z hz).1]
    simp [List.getD, hz]
  · exact t1
  · exact t2

/-- **C66.**  Take any usable starting configuration with times in [0,β], any sequence of updates, any random numbers in [0,1).
    The measurement that follows is defined and records values of the present configuration `y.s.verts` only:
    * "Sign": the real part of the phase of its weight `w`;
    * "Stau": for every flavour, pair of sites and bin, the average over the random shifts of the ratios of determinants
      with one creation operator replaced;
    * densities: Re(sign) times the real part of the ratio of determinants with and without one more pair of operators;
    * density correlations: Re(sign) times Wick's formula for these real parts;
    * "PertOrder": the number of operator pairs of each flavour; "PerturbationOrderVertex": the number of vertices of each type.
    It reads `num_samples + 1` random numbers. -/
theorem C66_record (ht : TblOK c.NI c.nf c.tbl) (hf : FullTerms c) {kIns maxOrder : ℕ} {sz : ℝ} (hsz : 0 ≤ sz) {m : Mgr}
    {q : MeasPar K} (hm : m = Mgr.create q.beta kIns maxOrder sz c.tbl) (hb : 0 < q.beta) (hnb : 0 < q.nb)
    (hsite : SitesIn q.ns c.tbl) {G : ℝ → ℕ → ℕ → ℕ → K}
    (hG : ∀ t z s1 s2, z < c.nf → s1 < q.ns → s2 < q.ns → q.g0 t z s1 s2 = .ok (G t z s1 s2))
    {vs : List Vert} (hs : GoodStart c.NI c.nf c.G0 c.tbl vs) (htime : TimesIn q.beta vs) {s0 : Sub K}
    (e0 : Sub.create c vs = .ok s0) {u : ℕ → ℝ} (hu : ∀ k, 0 ≤ u k ∧ u k < 1) {J : ℕ → ℕ → ℕ → ℕ → ℕ → ℕ → K} {fuel : ℕ}
    {l : List Upd} {st : AccStat} {p0 : ℕ} {y : Walker K} (e : (⟨s0, st, p0⟩ : Walker K).run m c J u fuel l = .ok y)
    (junk : ℕ → ℕ → K) {w : K} (hw : w = weight c.NI c.nf c.G0 c.tbl y.s.verts)
    {L : ℕ → List (OpRow K)} (hL : ∀ z, L z = rowsOf c.NI c.tbl y.s.verts z)
    {shifts : List ℝ} (hsh : shifts = (List.range q.nShifts).map fun i => q.beta * u (y.p + i)) {τ : ℝ}
    (hτ : τ = q.beta * u (y.p + q.nShifts)) {ρ : ℕ → ℕ → ℕ → ℂ}
    (hρ : ∀ z a b, ρ z a b = (RCLike.re (densityOf c.G0 G z (L z) (-q.beta * 1e-10) τ a b) : ℂ)) :
    ∃ r, measureObservables q c junk u y.s y.p = .ok (r, y.p + q.nShifts + 1) ∧ w ≠ 0 ∧
      r.sign = RCLike.re (w / ((‖w‖ : ℝ) : K)) ∧
      (∀ z < c.nf, ∀ a < q.ns, ∀ b < q.ns, (r.stauRe z a b).length = q.nb ∧ (r.stauIm z a b).length = q.nb ∧ ∀ i < q.nb,
        (⟨(r.stauRe z a b).getD i 0, (r.stauIm z a b).getD i 0⟩ : ℂ) =
          selfEnergy q.beta c.G0 G z (L z) (w / ((‖w‖ : ℝ) : K)) shifts (binWeight q.beta q.nb i) a b) ∧
      (∀ z < c.nf, ∀ a < q.ns, (r.dens.site z).getD a 0 =
        r.sign * RCLike.re (densityOf c.G0 G z (L z) (-q.beta * 1e-10) τ a a)) ∧
      (∀ z < c.nf, r.dens.mean.getD z 0 = r.sign * ((∑ a ∈ Finset.range q.ns,
        RCLike.re (densityOf c.G0 G z (L z) (-q.beta * 1e-10) τ a a)) / q.ns)) ∧
      (∀ f1 < c.nf, ∀ i < q.ns, ∀ f2 < c.nf, ∀ j < q.ns,
        (⟨r.dens.ninjRe.getD (off4 q.ns c.nf q.ns f1 i f2 j) 0, r.dens.ninjIm.getD (off4 q.ns c.nf q.ns f1 i f2 j) 0⟩ : ℂ) =
          (r.sign : ℂ) * wick ρ f1 i f2 j) ∧
      r.pertOrder.length = c.nf ∧ (∀ z < c.nf, r.pertOrder.getD z 0 = ((L z).length : ℝ)) ∧
      r.pertVertex.length = c.tbl.length ∧ ∀ t < c.tbl.length, r.pertVertex.getD t 0 =
        ((y.s.verts.countP fun v => decide (v.type = t) : ℕ) : ℝ) := by
  obtain ⟨s1, e1, m0⟩ := create_means ht hs
  rw [e0] at e1
  injection e1 with e1
  subst e1
  have hcl : Closed c y.s := by
    have := (run_total ht hf hm hu (x := ⟨s0, st, p0⟩) ⟨_, m0, rfl⟩ J l).good fuel
    rw [e] at this
    exact this
  have hv : s0.verts = numbered 0 vs := m0.cfg
  have hfld : FieldsOK s0.verts := by
    intro v hv'
    have hR := m0.cl rfl
    exact ((hR.ok v hv').2 (hR.int v hv')).1
  have hbm : m.beta = q.beta := by rw [hm]; rfl
  have htm : TimesIn q.beta y.s.verts := by
    rw [← hbm]
    refine run_times hu (by rw [hbm]; exact hb) (by rw [hm]; exact mul_nonneg hb.le hsz) e ⟨hfld, ?_⟩
    show TimesIn m.beta s0.verts
    rw [hv, hbm]
    exact numbered_times htime
  exact measureObservables_spec ht hb hnb hsite hG hcl htm hu junk y.p hw hL hsh hτ hρ

/-- **C66.**  Wick's formula used for two different sites is the ratio of determinants with and without two more pairs of
    operators, whenever the weight of the configuration is not zero. -/
theorem C66_wick (ht : TblOK c.NI c.nf c.tbl) {s : Sub K} (hc : Closed c s) (G : ℝ → ℕ → ℕ → ℕ → K) {z : ℕ} (hz : z < c.nf)
    {L : List (OpRow K)} (hL : L = rowsOf c.NI c.tbl s.verts z) (ε τ : ℝ) {i j : ℕ} (hij : i ≠ j) :
    wick (fun f a b => toC (densityOf c.G0 G f (rowsOf c.NI c.tbl s.verts f) ε τ a b)) z i z j =
      toC (detN (L.length + 2) (twoPairs c.G0 G z L ε τ i j) / detN L.length (rowG c.G0 L)) := by
  obtain ⟨a, hM, hcl⟩ := hc
  have hR := hM.cl hcl
  obtain ⟨M, eM, qM⟩ := computeM_spec ht hR
  have hdet : detN L.length (rowG c.G0 L) ≠ 0 := by
    rw [hL, ← detG_perm c.G0 (hR.rows z hz)]
    exact (qM z hz).det_ne_zero
  obtain ⟨X, hX⟩ : ∃ X : DMat K, IsInvOf X L.length (rowG c.G0 L) := by
    have hI : IsInvOf (⟨L.length, L.length, rowG c.G0 L⟩ : DMat K).inv L.length (rowG c.G0 L) := by
      have hb : UpBlocks 0 L.length (rowG c.G0 L) ⟨0, L.length, fun i j => rowG c.G0 L i (0 + j)⟩
          ⟨L.length, 0, fun i j => rowG c.G0 L (0 + i) j⟩ ⟨L.length, L.length, rowG c.G0 L⟩ :=
        ⟨rfl, rfl, rfl, rfl, rfl, rfl, fun _ _ _ _ => rfl, fun _ _ _ _ => rfl, fun _ _ _ _ => by simp⟩
      have := isInvOf_zero_up hb (by rw [Nat.zero_add]; exact hdet)
      rw [Nat.zero_add] at this
      exact this
    exact ⟨_, hI⟩
  rw [← wick_ratio hX G z ε τ i j, hL]
  unfold wick
  rw [if_pos rfl, if_neg hij]
  have e1 : ∀ x y : K, toC (x - y) = toC x - toC y := by
    intro x y; apply Complex.ext <;> simp [toC]
  have e2 : ∀ x y : K, toC (x * y) = toC x * toC y := by
    intro x y; apply Complex.ext <;> simp [toC]
  rw [e1, e2, e2]

theorem ex_start1 : GoodStart exCtx1.NI exCtx1.nf exCtx1.G0 exCtx1.tbl [exVertAt 0 (1 / 4) 1] := by
  refine ⟨by simp [exVertAt], ?_, ?_⟩
  · intro v hv
    rw [List.mem_singleton] at hv
    subst hv
    refine ⟨Nat.zero_lt_one, fun _ => ?_⟩
    show 0 ≤ (0 : ℤ) ∧ (0 : ℤ) < ((2 : ℕ) : ℤ)
    omega
  · show weight _ _ _ _ [exVertAt 0 (1 / 4) 1] ≠ 0
    rw [ex_weight1 rfl rfl rfl]; exact one_ne_zero

/-- One site, β = 1, two shifts, three bins. -/
noncomputable def exMeasPar : MeasPar ℝ := ⟨1, 1, ⟨0, fun _ => 0, fun _ => 0⟩, fun _ _ _ _ => .ok (1 / 2), 2, 3⟩

theorem ex_sites1 : SitesIn exMeasPar.ns exCtx1.tbl := by
  intro d hd s hs
  have : d = exTerm1 := List.mem_singleton.1 hd
  subst this
  have : s = 0 := by simpa [exTerm1] using hs
  rw [this]; exact Nat.zero_lt_one

theorem ex_rows1 {v : Vert} (h1 : v.type = 0) : rowsOf exCtx1.NI exCtx1.tbl [v] 0 = [rowOf exCtx1.NI exCtx1.tbl v 0] := by
  have ht : termOf exCtx1.tbl v = exTerm1 := by unfold termOf; rw [h1]; rfl
  simp [rowsOf, rowsV, ht, exTerm1, flavorOf, List.range_succ, List.filter_cons]

/-- The hypotheses of `C66_record` can be met: a measurement with one vertex in the configuration.  Its weight is 1, the density
    of flavor 0 is 2/3. -/
example : ∃ s0 r, Sub.create exCtx1 [exVertAt 0 (1 / 4) 1] = .ok s0 ∧
    measureObservables exMeasPar exCtx1 (fun _ _ => 7) (fun _ => 1 / 2) s0 0 = .ok (r, 3) ∧ r.sign = 1 ∧
    (r.dens.site 0).getD 0 0 = 2 / 3 ∧ r.pertOrder.getD 0 0 = 1 ∧ r.pertVertex.getD 0 0 = 1 := by
  obtain ⟨s0, e0, m0⟩ := create_means ex_tbl1 ex_start1
  have hv : s0.verts = [exVertAt 0 (1 / 4) 1] := m0.cfg
  obtain ⟨r, er, -, h1, -, h2, -, -, -, h3, -, h4⟩ := C66_record (q := exMeasPar) (kIns := 3) (maxOrder := 5) (sz := 1 / 10) (vs := [exVertAt 0 (1 / 4) 1])
    (G := fun _ _ _ _ => 1 / 2) ex_tbl1 ex_full1 (by norm_num) rfl one_pos (show 0 < 3 by norm_num) ex_sites1
    (fun _ _ _ _ _ _ _ => rfl) ex_start1 (by
      intro v hv
      rw [List.mem_singleton] at hv
      subst hv
      show (0 : ℝ) ≤ 1 / 4 ∧ (1 / 4 : ℝ) ≤ 1
      norm_num) e0
    (u := fun _ => 1 / 2) (fun _ => by norm_num) (J := fun _ _ _ _ _ _ => 0) (fuel := 0) (l := []) (st := ⟨0, 0⟩) (p0 := 0) rfl
    (fun _ _ => 7) rfl (fun _ => rfl) rfl rfl (fun _ _ _ => rfl)
  have hw : weight exCtx1.NI exCtx1.nf exCtx1.G0 exCtx1.tbl s0.verts = 1 := by rw [hv]; exact ex_weight1 rfl rfl rfl
  have hs : r.sign = 1 := by
    rw [h1]
    show RCLike.re (weight exCtx1.NI exCtx1.nf exCtx1.G0 exCtx1.tbl s0.verts / ((‖weight exCtx1.NI exCtx1.nf exCtx1.G0 exCtx1.tbl s0.verts‖ : ℝ) : ℝ)) = 1
    rw [hw]; simp
  have hr : rowsOf exCtx1.NI exCtx1.tbl s0.verts 0 = [rowOf exCtx1.NI exCtx1.tbl (exVertAt 0 (1 / 4) 1) 0] := by
    rw [hv]; exact ex_rows1 rfl
  refine ⟨s0, r, e0, er, hs, ?_, ?_, ?_⟩
  · rw [h2 0 (show 0 < 2 by norm_num) 0 (show 0 < 1 by norm_num), hs]
    show 1 * (densityOf exCtx1.G0 (fun _ _ _ _ => 1 / 2) 0 (rowsOf exCtx1.NI exCtx1.tbl s0.verts 0) _ _ 0 0) = 2 / 3
    rw [hr]
    unfold densityOf
    have ht : termOf exCtx1.tbl (exVertAt 0 (1 / 4) 1) = exTerm1 := rfl
    have hg : ∀ i < 1, ∀ j < 1, rowG exCtx1.G0 [rowOf exCtx1.NI exCtx1.tbl (exVertAt 0 (1 / 4) 1) 0] i j = -3 / 2 := by
      intro i hi j hj
      obtain rfl : i = 0 := by omega
      obtain rfl : j = 0 := by omega
      show (1 / 2 : ℝ) - 2 = _
      norm_num
    show 1 * (detN 2 _ / detN 1 _) = _
    unfold detN
    rw [Matrix.det_fin_two, Matrix.det_fin_one]
    simp only [toM, extraPair, List.length_singleton]
    generalize hgv : exVertAt 0 (1 / 4) 1 = v at hg
    have := hg 0 one_pos 0 one_pos
    simp [this]
    norm_num
  · rw [h3 0 (show 0 < 2 by norm_num)]
    show ((rowsOf exCtx1.NI exCtx1.tbl s0.verts 0).length : ℝ) = 1
    rw [hr]; simp
  · rw [h4 0 (show 0 < 1 by norm_num)]
    show ((s0.verts.countP _ : ℕ) : ℝ) = 1
    rw [hv]; simp [exVertAt]

/-! ## C65 -/

/-- The number of accepted insertions and removals whose weight ratio is not exactly 1, over a sequence of updates. -/
noncomputable def countedMoves (m : Mgr) (c : Ctx K) (J : ℕ → ℕ → ℕ → ℕ → ℕ → ℕ → K) (u : ℕ → ℝ) (fuel : ℕ) :
    Walker K → List Upd → ℕ
  | _, [] => 0
  | x, a :: l =>
    (match a, m.doInsRem c (J l.length) u 1 x.s x.stat x.p with
      | .insRem, .ok r => r.truth.countP fun o => decide (o.getD 1 ≠ 1)
      | _, _ => 0) +
    (match x.step m c (J l.length) u fuel a with
      | .ok y => countedMoves m c J u fuel y l
      | _ => 0)

/-- The number of insertion-removal updates. -/
def insRemUpdates (l : List Upd) : ℕ := l.countP fun a => match a with | .insRem => true | _ => false

theorem run_counts {m : Mgr} {J : ℕ → ℕ → ℕ → ℕ → ℕ → ℕ → K} {u : ℕ → ℝ} {fuel : ℕ} {x y : Walker K} {l : List Upd}
    (e : x.run m c J u fuel l = .ok y) :
    y.stat.acc = x.stat.acc + countedMoves m c J u fuel x l ∧
      y.stat.acc + y.stat.rej = x.stat.acc + x.stat.rej + 2 * m.kIns * insRemUpdates l := by
  induction l generalizing x with
  | nil => cases e; simp [countedMoves, insRemUpdates]
  | cons a l ih =>
    simp only [Walker.run, Run.bind_eq_ok] at e
    obtain ⟨x1, e1, e2⟩ := e
    obtain ⟨h1, h2⟩ := ih e2
    cases a with
    | insRem =>
      have e1' := e1
      simp only [Walker.step, Run.bind_eq_ok, Run.lift_eq_ok] at e1
      obtain ⟨r, e3, e4⟩ := e1
      obtain ⟨c1, c2, c3, -⟩ := C40_counts_partial e3
      cases e4
      have hi : insRemUpdates (Upd.insRem :: l) = insRemUpdates l + 1 := by simp [insRemUpdates]
      rw [hi]
      simp only [countedMoves, e3, e1']
      rw [h1, c3]
      refine ⟨by omega, ?_⟩
      rw [← c3, ← h1, h2, c2]
      ring
    | shift =>
      have hst : x1.stat = x.stat := by
        simp only [Walker.step, Run.bind_eq_ok, Run.lift_eq_ok] at e1
        obtain ⟨⟨s', w, p⟩, e1, e⟩ := e1
        cases e; rfl
      have hi : insRemUpdates (Upd.shift :: l) = insRemUpdates l := by simp [insRemUpdates]
      simp only [countedMoves, e1, hi]
      rw [← hst]
      exact ⟨by omega, h2⟩
    | spinFlip =>
      have hst : x1.stat = x.stat := by
        simp only [Walker.step, Run.bind_eq_ok, Run.lift_eq_ok] at e1
        obtain ⟨⟨s', w, p⟩, e1, e⟩ := e1
        cases e; rfl
      have hi : insRemUpdates (Upd.spinFlip :: l) = insRemUpdates l := by simp [insRemUpdates]
      simp only [countedMoves, e1, hi]
      rw [← hst]
      exact ⟨by omega, h2⟩
    | recompute =>
      have hst : x1.stat = x.stat := by
        simp only [Walker.step, Run.bind_eq_ok, Run.lift_eq_ok] at e1
        obtain ⟨s', e1, e⟩ := e1
        cases e; rfl
      have hi : insRemUpdates (Upd.recompute :: l) = insRemUpdates l := by simp [insRemUpdates]
      simp only [countedMoves, e1, hi]
      rw [← hst]
      exact ⟨by omega, h2⟩

/-- A state right after the counters were reset: after `prepare_for_measurement_steps`, or after a measurement. -/
def AfterReset (q : MeasPar K) (c : Ctx K) (x : McState K) : Prop :=
  (∃ x0 : McState K, x = x0.prepare) ∨ ∃ (x0 : McState K) (junk : ℕ → ℕ → K) (u : ℕ → ℝ) (r : Measured), x0.measure q c junk u = .ok (r, x)

theorem AfterReset.zero {q : MeasPar K} {x : McState K} (h : AfterReset q c x) : x.w.stat = ⟨0, 0⟩ ∧ x.shift = ⟨0, 0⟩ := by
  rcases h with ⟨x0, rfl⟩ | ⟨x0, junk, u, r, e⟩
  · exact ⟨rfl, rfl⟩
  · unfold McState.measure at e
    simp only [Res.bind_eq_ok] at e
    obtain ⟨⟨r', p⟩, _, e⟩ := e
    cases e
    exact ⟨rfl, rfl⟩

/-- **C65.**  Let the counters have been reset, let any sequence of updates follow and then a measurement.  The pair recorded
    as "VertexInsertionRemoval_Acceptance_Rate" belongs to the `2 k_ins_max N` insertions and removals of the `N`
    insertion-removal updates since the reset: the first number is the fraction counted as accepted, both are in [0,1] and
    they add up to 1.  Without such an update they are not numbers.
    (Partial: accepted moves with weight ratio 1 are not counted as accepted, see C40; and see `C65_shift_violation`.) -/
theorem C65_rate_partial {m : Mgr} {q : MeasPar K} {J : ℕ → ℕ → ℕ → ℕ → ℕ → ℕ → K} {u : ℕ → ℝ} {fuel : ℕ} {x y z : McState K}
    {l : List Upd} {junk : ℕ → ℕ → K} {r : Measured} (hx : AfterReset q c x) (e : x.run m c J u fuel l = .ok y)
    (er : y.measure q c junk u = .ok (r, z)) :
    (2 * m.kIns * insRemUpdates l = 0 → r.insRem = none) ∧
    (0 < 2 * m.kIns * insRemUpdates l → ∃ a b : ℝ, r.insRem = some (a, b) ∧ a + b = 1 ∧ 0 ≤ a ∧ 0 ≤ b ∧
      a = (countedMoves m c J u fuel x.w l : ℝ) / ((2 * m.kIns * insRemUpdates l : ℕ) : ℝ)) := by
  obtain ⟨h0, -⟩ := hx.zero
  unfold McState.run at e
  rw [Run.bind_eq_ok] at e
  obtain ⟨w, e1, e⟩ := e
  cases e
  obtain ⟨h1, h2⟩ := run_counts e1
  rw [h0] at h1 h2
  simp only [Nat.zero_add, Nat.add_zero] at h1 h2
  unfold McState.measure at er
  simp only [Res.bind_eq_ok] at er
  obtain ⟨⟨r', p⟩, _, er⟩ := er
  cases er
  show (_ → w.stat.result = none) ∧ (_ → ∃ a b : ℝ, w.stat.result = some (a, b) ∧ _)
  unfold AccStat.result
  constructor
  · intro h
    rw [if_pos (by omega)]
  · intro h
    rw [if_neg (by omega)]
    have hc : ((w.stat.acc : ℝ) + w.stat.rej) = ((2 * m.kIns * insRemUpdates l : ℕ) : ℝ) := by
      rw [← h2]; push_cast; ring
    have hpos : (0 : ℝ) < ((2 * m.kIns * insRemUpdates l : ℕ) : ℝ) := by exact_mod_cast h
    refine ⟨_, _, rfl, ?_, by positivity, by positivity, ?_⟩
    · rw [← add_div, hc, div_self hpos.ne']
    · rw [hc, h1]

/-- **C65, violation.**  Whatever shift updates are made and however many of them are accepted, the pair recorded as
    "VertexShift_Acceptance_Rate" is not a pair of numbers: no update ever counts in `acc_rate_shift`. -/
theorem C65_shift_violation {m : Mgr} {q : MeasPar K} {J : ℕ → ℕ → ℕ → ℕ → ℕ → ℕ → K} {u : ℕ → ℝ} {fuel : ℕ} {x y z : McState K}
    {l : List Upd} {junk : ℕ → ℕ → K} {r : Measured} (hx : AfterReset q c x) (e : x.run m c J u fuel l = .ok y)
    (er : y.measure q c junk u = .ok (r, z)) : r.shift = none := by
  obtain ⟨-, h0⟩ := hx.zero
  unfold McState.run at e
  rw [Run.bind_eq_ok] at e
  obtain ⟨w, e1, e⟩ := e
  cases e
  unfold McState.measure at er
  simp only [Res.bind_eq_ok] at er
  obtain ⟨⟨r', p⟩, _, er⟩ := er
  cases er
  show x.shift.result = none
  rw [h0]
  rfl

/-- The hypotheses of `C65_rate_partial` can be met, with 24 insertions and removals before the measurement. -/
example : ∃ (x y z : McState ℝ) (fuel : ℕ) (r : Measured), AfterReset exMeasPar exCtx1 x ∧
    x.run (Mgr.create 1 3 5 (1 / 10) exCtx1.tbl) exCtx1 (fun _ _ _ _ _ _ => 0) exStream fuel
      ((List.range 2).flatMap (updateUpdates 1 1 1 2)) = .ok y ∧
    y.measure exMeasPar exCtx1 (fun _ _ => 7) exStream = .ok (r, z) ∧ (∃ a b, r.insRem = some (a, b) ∧ a + b = 1) ∧ r.shift = none := by
  obtain ⟨s0, h1, h2, h3⟩ := C53_updates_never_fail ex_tbl1 ex_full1 (beta := 1) (kIns := 3) (maxOrder := 5) (sz := 1 / 10) rfl
    exStream_range ex_start1 ⟨0, 0⟩ 0 (fun _ _ _ _ _ _ => 0) ((List.range 2).flatMap (updateUpdates 1 1 1 2))
  obtain ⟨F, y, h4⟩ := h3 exStream_fair
  have h5 := h4 F le_rfl
  obtain ⟨r, er, -⟩ := C66_record (q := exMeasPar) (kIns := 3) (maxOrder := 5) (sz := 1 / 10) (vs := [exVertAt 0 (1 / 4) 1])
    (G := fun _ _ _ _ => 1 / 2) ex_tbl1 ex_full1 (by norm_num) rfl one_pos (show 0 < 3 by norm_num) ex_sites1
    (fun _ _ _ _ _ _ _ => rfl) ex_start1 (by
      intro v hv
      rw [List.mem_singleton] at hv
      subst hv
      show (0 : ℝ) ≤ 1 / 4 ∧ (1 / 4 : ℝ) ≤ 1
      norm_num) h1 exStream_range h5 (fun _ _ => 7) rfl (fun _ => rfl) rfl rfl (fun _ _ _ => rfl)
  have hr : AfterReset exMeasPar exCtx1 (⟨⟨s0, ⟨0, 0⟩, 0⟩, ⟨0, 0⟩⟩ : McState ℝ) := Or.inl ⟨⟨⟨s0, ⟨0, 0⟩, 0⟩, ⟨0, 0⟩⟩, rfl⟩
  have e : (⟨⟨s0, ⟨0, 0⟩, 0⟩, ⟨0, 0⟩⟩ : McState ℝ).run (Mgr.create 1 3 5 (1 / 10) exCtx1.tbl) exCtx1 (fun _ _ _ _ _ _ => 0) exStream F
      ((List.range 2).flatMap (updateUpdates 1 1 1 2)) = .ok ⟨y, ⟨0, 0⟩⟩ := by
    unfold McState.run
    show (Walker.run _ _ _ _ _ _ _ >>= fun w => _) = _
    rw [h5]; rfl
  have em : (⟨y, ⟨0, 0⟩⟩ : McState ℝ).measure exMeasPar exCtx1 (fun _ _ => 7) exStream = .ok (⟨r, y.stat.result, none⟩, ⟨⟨y.s, ⟨0, 0⟩, y.p + exMeasPar.nShifts + 1⟩, ⟨0, 0⟩⟩) := by
    unfold McState.measure
    rw [er]; rfl
  refine ⟨_, _, _, F, _, hr, e, em, ?_, C65_shift_violation hr e em⟩
  have hn : insRemUpdates ((List.range 2).flatMap (updateUpdates 1 1 1 2)) = 4 := by decide
  obtain ⟨a, b, q1, q2, -⟩ := (C65_rate_partial hr e em).2 (by rw [hn]; decide)
  exact ⟨a, b, q1, q2⟩

end CTInt
