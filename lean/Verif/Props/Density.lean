import Verif.Proofs.MeasDens

/-!
# C48, C57: densities and density correlations
-/

set_option linter.all false

namespace CTInt

variable {K : Type} [RCLike K]

/-- The density matrix with imaginary parts dropped. -/
noncomputable def MeasIn.rhoRe (m : MeasIn K) (G : ℝ → ℕ → ℕ → ℕ → K) (τ : ℝ) (z s s2 : ℕ) : ℂ :=
  (RCLike.re (m.rho G τ z s s2) : ℂ)

/-- One measurement: defined, and the vectors hold `Re(sign)` times the densities and Wick's formula, both from the
    real parts of the density matrix; the element for `(f1, i, f2, j)` is at its row-major position. -/
theorem measureDensities_spec (m : MeasIn K) (G : ℝ → ℕ → ℕ → ℕ → K) (hG : HasG0 m G) (hm : MeasOK m) (τ : ℝ) :
    ∃ out, m.measureDensities τ = .ok out ∧
      out.ninjRe.length = m.nf * m.ns * m.nf * m.ns ∧ out.ninjIm.length = m.nf * m.ns * m.nf * m.ns ∧
      (∀ z < m.nf, ∀ s < m.ns, (out.site z).getD s 0 = RCLike.re m.sign * RCLike.re (m.rho G τ z s s)) ∧
      (∀ z < m.nf, out.mean.getD z 0 =
        RCLike.re m.sign * ((∑ s ∈ Finset.range m.ns, RCLike.re (m.rho G τ z s s)) / m.ns)) ∧
      ∀ f1 < m.nf, ∀ i < m.ns, ∀ f2 < m.nf, ∀ j < m.ns,
        (⟨out.ninjRe.getD (off4 m.ns m.nf m.ns f1 i f2 j) 0, out.ninjIm.getD (off4 m.ns m.nf m.ns f1 i f2 j) 0⟩ : ℂ) =
          (RCLike.re m.sign : ℂ) * wick (m.rhoRe G τ) f1 i f2 j := by
  obtain ⟨d, e1, h1, h2⟩ := MeasIn.densAll_spec hG hm τ
  obtain ⟨x, e2, l1, l2, h3⟩ := MeasIn.ninjAll_spec m d
  refine ⟨_, by unfold MeasIn.measureDensities; simp only [e1, e2, Res.bind_ok, Res.pure_eq]; rfl, by simp [l1],
    by simp [l2], ?_, ?_, ?_⟩
  · intro z hz s hs
    simp [List.getD, hs, h1 z hz s hs, MeasIn.rr]
  · intro z hz
    simp only [List.getD, List.getElem?_map, List.getElem?_range hz, Option.map_some, Option.getD_some]
    congr 2
    have : ((List.range m.ns).map fun i => d.1 z i).sum = ∑ i ∈ Finset.range m.ns, d.1 z i := rfl
    rw [this]
    exact Finset.sum_congr rfl fun s hs => h1 z hz s (Finset.mem_range.1 hs)
  · intro f1 hf1 i hi f2 hf2 j hj
    obtain ⟨a1, a2⟩ := h3 f1 hf1 i hi f2 hf2 j hj
    have hlt := MeasIn.off4_lt hf1 hi hf2 hj
    have hw : MeasIn.ninj d f1 i f2 j = wick (m.rhoRe G τ) f1 i f2 j := by
      unfold MeasIn.ninj wick MeasIn.rhoRe
      rw [h1 f1 hf1 i hi, h1 f1 hf1 j hj, h1 f2 hf2 j hj, h2 f1 hf1 i hi j hj, h2 f1 hf1 j hj i hi]
      rfl
    have b1 : (x.1.map (RCLike.re m.sign * ·)).getD (off4 m.ns m.nf m.ns f1 i f2 j) 0 =
        RCLike.re m.sign * (MeasIn.ninj d f1 i f2 j).re := by
      rw [← a1]; simp [List.getD, l1, hlt]
    have b2 : (x.2.1.map (RCLike.re m.sign * ·)).getD (off4 m.ns m.nf m.ns f1 i f2 j) 0 =
        RCLike.re m.sign * (MeasIn.ninj d f1 i f2 j).im := by
      rw [← a2]; simp [List.getD, l2, hlt]
    simp only [b1, b2]
    rw [← hw]
    apply Complex.ext <;> simp

/-- Element-wise mean of the vectors passed to an observable. -/
noncomputable def vecMean (n : ℕ) (l : List (List ℝ)) : List ℝ :=
  (List.range n).map fun i => (l.map fun v => v.getD i 0).sum / l.length

theorem vecMean_getD {n : ℕ} (l : List (List ℝ)) {i : ℕ} (h : i < n) :
    (vecMean n l).getD i 0 = (l.map fun v => v.getD i 0).sum / l.length := by
  simp [vecMean, List.getD, h]

theorem mapM_pick {α β : Type} {f : α → Res β} {l : List α} {P : α → β → Prop} (h : ∀ a ∈ l, ∃ b, f a = .ok b ∧ P a b) :
    ∃ bs, Res.mapM f l = .ok bs ∧ List.Forall₂ P l bs := by
  induction l with
  | nil => exact ⟨[], rfl, .nil⟩
  | cons a l ih =>
    obtain ⟨b, e1, h1⟩ := h a (by simp)
    obtain ⟨bs, e2, h2⟩ := ih fun a ha => h a (by simp [ha])
    exact ⟨b :: bs, by rw [Res.mapM_cons, e1, Res.bind_ok, e2]; rfl, .cons h1 h2⟩

theorem forall2_sum {α β γ : Type} [AddCommMonoid γ] {l : List α} {bs : List β} {P : α → β → Prop} (h : List.Forall₂ P l bs)
    (f : α → γ) (g : β → γ) (hfg : ∀ a b, P a b → g b = f a) : (bs.map g).sum = (l.map f).sum := by
  induction h with
  | nil => rfl
  | cons h1 _ ih => simp only [List.map_cons, List.sum_cons]; rw [hfg _ _ h1, ih]

theorem list_sum_ofReal {α : Type} (l : List α) (f : α → ℝ) : ((l.map f).sum : ℂ) = (l.map fun a => (f a : ℂ)).sum := by
  induction l with
  | nil => simp
  | cons a l ih => simp [ih]

/-- **C48.**  A run of any number of measurements followed by the post-processing: all calls are defined, every
    entry `ni_nj[f1][i][f2][j]` of the result is the sign-weighted average of the quantities measured for exactly
    these flavours and sites, and the diagonal entries are the averaged densities. -/
theorem C48_round_trip (nf ns : ℕ) (G : ℝ → ℕ → ℕ → ℕ → K) (l : List (MeasIn K × ℝ)) (hl : l ≠ [])
    (hc : ∀ c ∈ l, c.1.nf = nf ∧ c.1.ns = ns ∧ HasG0 c.1 G ∧ MeasOK c.1) :
    ∃ outs x, Res.mapM (fun c => c.1.measureDensities c.2) l = .ok outs ∧
      postNinj nf ns ((l.map fun c => RCLike.re c.1.sign).sum / l.length)
        (vecMean (nf * ns * nf * ns) (outs.map fun o => o.ninjRe))
        (vecMean (nf * ns * nf * ns) (outs.map fun o => o.ninjIm)) = .ok x ∧
      (∀ f1 < nf, ∀ i < ns, ∀ f2 < nf, ∀ j < ns, x.1 f1 i f2 j =
        (l.map fun c => (RCLike.re c.1.sign : ℂ) * wick (c.1.rhoRe G c.2) f1 i f2 j).sum /
          (l.map fun c => (RCLike.re c.1.sign : ℂ)).sum) ∧
      ∀ f < nf, ∀ i < ns, x.1 f i f i =
        ((vecMean ns (outs.map fun o => o.site f)).getD i 0 : ℂ) /
          (((l.map fun c => RCLike.re c.1.sign).sum / l.length : ℝ) : ℂ) := by
  have hp : ∀ c ∈ l, ∃ out, c.1.measureDensities c.2 = .ok out ∧
      (∀ z < nf, ∀ s < ns, (out.site z).getD s 0 = RCLike.re c.1.sign * RCLike.re (c.1.rho G c.2 z s s)) ∧
      ∀ f1 < nf, ∀ i < ns, ∀ f2 < nf, ∀ j < ns,
        (⟨out.ninjRe.getD (off4 ns nf ns f1 i f2 j) 0, out.ninjIm.getD (off4 ns nf ns f1 i f2 j) 0⟩ : ℂ) =
          (RCLike.re c.1.sign : ℂ) * wick (c.1.rhoRe G c.2) f1 i f2 j := by
    intro c hcm
    obtain ⟨rfl, rfl, hG, hm⟩ := hc c hcm
    obtain ⟨out, e, -, -, h1, -, h2⟩ := measureDensities_spec c.1 G hG hm c.2
    exact ⟨out, e, h1, h2⟩
  obtain ⟨outs, eo, hf⟩ := mapM_pick hp
  obtain ⟨x, ex, hx⟩ := MeasIn.postNinj_spec nf ns ((l.map fun c => RCLike.re c.1.sign).sum / l.length)
    (vecMean (nf * ns * nf * ns) (outs.map fun o => o.ninjRe))
    (vecMean (nf * ns * nf * ns) (outs.map fun o => o.ninjIm)) (by simp [vecMean]) (by simp [vecMean])
  have hlen : outs.length = l.length := hf.length_eq.symm
  have hl0 : (l.length : ℂ) ≠ 0 := by
    have : l.length ≠ 0 := fun h => hl (List.length_eq_zero_iff.1 h)
    exact_mod_cast this
  have main : ∀ f1 < nf, ∀ i < ns, ∀ f2 < nf, ∀ j < ns, x.1 f1 i f2 j =
        (l.map fun c => (RCLike.re c.1.sign : ℂ) * wick (c.1.rhoRe G c.2) f1 i f2 j).sum /
          (l.map fun c => (RCLike.re c.1.sign : ℂ)).sum := by
    intro f1 hf1 i hi f2 hf2 j hj
    have hlt := MeasIn.off4_lt hf1 hi hf2 hj
    rw [hx f1 hf1 i hi f2 hf2 j hj, vecMean_getD _ hlt, vecMean_getD _ hlt]
    have e1 : (⟨((outs.map fun o => o.ninjRe).map fun v => v.getD (off4 ns nf ns f1 i f2 j) 0).sum /
          (outs.map fun o => o.ninjRe).length,
        ((outs.map fun o => o.ninjIm).map fun v => v.getD (off4 ns nf ns f1 i f2 j) 0).sum /
          (outs.map fun o => o.ninjIm).length⟩ : ℂ) =
        (l.map fun c => (RCLike.re c.1.sign : ℂ) * wick (c.1.rhoRe G c.2) f1 i f2 j).sum / (l.length : ℂ) := by
      have e2 := forall2_sum hf (fun c => (RCLike.re c.1.sign : ℂ) * wick (c.1.rhoRe G c.2) f1 i f2 j)
        (fun o => (⟨o.ninjRe.getD (off4 ns nf ns f1 i f2 j) 0, o.ninjIm.getD (off4 ns nf ns f1 i f2 j) 0⟩ : ℂ))
        fun a b h => h.2 f1 hf1 i hi f2 hf2 j hj
      rw [← e2]
      have e3 : ∀ os : List MeasIn.DensOut,
          (os.map fun o => (⟨o.ninjRe.getD (off4 ns nf ns f1 i f2 j) 0, o.ninjIm.getD (off4 ns nf ns f1 i f2 j) 0⟩ : ℂ)).sum =
          ⟨(os.map fun o => o.ninjRe.getD (off4 ns nf ns f1 i f2 j) 0).sum,
            (os.map fun o => o.ninjIm.getD (off4 ns nf ns f1 i f2 j) 0).sum⟩ := by
        intro os
        induction os with
        | nil => apply Complex.ext <;> simp
        | cons o os ih => simp only [List.map_cons, List.sum_cons]; rw [ih]; apply Complex.ext <;> simp
      rw [e3]
      simp only [List.map_map, List.length_map, hlen, Function.comp_def]
      apply Complex.ext <;> simp [Complex.div_natCast_re, Complex.div_natCast_im]
    rw [e1]
    push_cast
    rw [list_sum_ofReal]
    rw [div_div_div_cancel_right₀ hl0]
  refine ⟨outs, x, eo, ex, main, fun f hf0 i hi => ?_⟩
  rw [main f hf0 i hi f hf0 i hi, vecMean_getD _ hi]
  have e4 := forall2_sum hf (fun c => RCLike.re c.1.sign * RCLike.re (c.1.rho G c.2 f i i))
    (fun o => (o.site f).getD i 0) fun a b h => h.1 f hf0 i hi
  simp only [List.map_map, List.length_map, hlen, Function.comp_def]
  rw [e4]
  push_cast
  rw [div_div_div_cancel_right₀ hl0, list_sum_ofReal, list_sum_ofReal]
  congr 2
  refine List.map_congr_left fun c _ => ?_
  simp [wick, MeasIn.rhoRe]

/-- **C57 (partial).**  If sign and density matrix of the configuration are real, what is recorded is the sign times
    the density and the sign times Wick's formula.  Missing: complex configurations, see the violations below. -/
theorem C57_wick_partial (m : MeasIn K) (G : ℝ → ℕ → ℕ → ℕ → K) (hG : HasG0 m G) (hm : MeasOK m) (τ : ℝ)
    (hs : RCLike.im m.sign = 0) (hr : ∀ z < m.nf, ∀ i < m.ns, ∀ j < m.ns, RCLike.im (m.rho G τ z i j) = 0) :
    ∃ out, m.measureDensities τ = .ok out ∧
      (∀ z < m.nf, ∀ s < m.ns, ((out.site z).getD s 0 : ℂ) = toC m.sign * toC (m.rho G τ z s s)) ∧
      ∀ f1 < m.nf, ∀ i < m.ns, ∀ f2 < m.nf, ∀ j < m.ns,
        (⟨out.ninjRe.getD (off4 m.ns m.nf m.ns f1 i f2 j) 0, out.ninjIm.getD (off4 m.ns m.nf m.ns f1 i f2 j) 0⟩ : ℂ) =
          toC m.sign * wick (fun z s s2 => toC (m.rho G τ z s s2)) f1 i f2 j := by
  obtain ⟨out, e, -, -, h1, -, h2⟩ := measureDensities_spec m G hG hm τ
  have tr : ∀ x : K, RCLike.im x = 0 → toC x = (RCLike.re x : ℂ) := fun x hx => by
    apply Complex.ext <;> simp [toC, hx]
  refine ⟨out, e, fun z hz s hss => ?_, fun f1 hf1 i hi f2 hf2 j hj => ?_⟩
  · rw [h1 z hz s hss, tr _ hs, tr _ (hr z hz s hss s hss)]; push_cast; rfl
  · rw [h2 f1 hf1 i hi f2 hf2 j hj, tr _ hs]
    unfold wick MeasIn.rhoRe
    simp only [tr _ (hr f1 hf1 i hi i hi), tr _ (hr f1 hf1 j hj j hj), tr _ (hr f2 hf2 j hj j hj),
      tr _ (hr f1 hf1 i hi j hj), tr _ (hr f1 hf1 j hj i hi)]

/-- For a real Green function the conditions hold. -/
theorem C57_wick_real (m : MeasIn ℝ) (G : ℝ → ℕ → ℕ → ℕ → ℝ) (hG : HasG0 m G) (hm : MeasOK m) (τ : ℝ) :
    ∃ out, m.measureDensities τ = .ok out ∧
      (∀ z < m.nf, ∀ s < m.ns, ((out.site z).getD s 0 : ℂ) = toC m.sign * toC (m.rho G τ z s s)) ∧
      ∀ f1 < m.nf, ∀ i < m.ns, ∀ f2 < m.nf, ∀ j < m.ns,
        (⟨out.ninjRe.getD (off4 m.ns m.nf m.ns f1 i f2 j) 0, out.ninjIm.getD (off4 m.ns m.nf m.ns f1 i f2 j) 0⟩ : ℂ) =
          toC m.sign * wick (fun z s s2 => toC (m.rho G τ z s s2)) f1 i f2 j :=
  C57_wick_partial m G hG hm τ rfl fun _ _ _ _ _ _ => rfl

/-- Two sites with a complex hopping amplitude between them and no vertices: the density matrix is hermitian with
    off-diagonal elements `± i / 4`. -/
noncomputable def exHop : ℝ → ℕ → ℕ → ℕ → ℂ := fun _ _ s1 s2 =>
  if s1 = s2 then 1 / 2 else if s1 < s2 then Complex.I / 4 else -Complex.I / 4

/-- The configuration without vertices. -/
noncomputable def exEmpty : MeasIn ℂ :=
  ⟨1, 2, 1, 1, ⟨1, fun _ => 0, fun _ => 1⟩, fun t z a b => .ok (exHop t z a b), fun _ => ⟨0, 0, fun _ _ => 0⟩,
    fun _ => [], fun _ => []⟩

theorem exEmpty_ok : MeasOK exEmpty := ⟨by norm_num [exEmpty], by simp [exEmpty], by simp [exEmpty], by simp [exEmpty],
  by simp [exEmpty], by simp [exEmpty], by simp [exEmpty]⟩

/-- **C57, violation.**  With a complex Green function the imaginary parts of the off-diagonal density matrix are
    dropped before they are multiplied: for the two sites above `⟨n_0 n_1⟩` is recorded as `1/4`, Wick's formula
    gives `1/4 - 1/16`. -/
theorem C57_complex_violation :
    ∃ out, exEmpty.measureDensities 0 = .ok out ∧
      (⟨out.ninjRe.getD (off4 2 1 2 0 0 0 1) 0, out.ninjIm.getD (off4 2 1 2 0 0 0 1) 0⟩ : ℂ) = 1 / 4 ∧
      toC exEmpty.sign * wick (fun z s s2 => toC (exEmpty.rho exHop 0 z s s2)) 0 0 0 1 = 1 / 4 - 1 / 16 := by
  obtain ⟨out, e, -, -, -, -, h⟩ := measureDensities_spec exEmpty exHop (fun t z a b _ _ _ => rfl) exEmpty_ok 0
  refine ⟨out, e, ?_, ?_⟩
  · have := h 0 (by simp [exEmpty]) 0 (by simp [exEmpty]) 0 (by simp [exEmpty]) 1 (by simp [exEmpty])
    refine this.trans ?_
    simp [exEmpty, wick, MeasIn.rhoRe, MeasIn.rho, exHop]
    norm_num
  · simp [exEmpty, wick, MeasIn.rho, exHop, toC]
    apply Complex.ext <;> simp <;> norm_num

/-- One operator pair with `M = i`, `G0 = 1/2` and sign `i`. -/
noncomputable def exPhase : MeasIn ℂ :=
  ⟨1, 1, 1, Complex.I, ⟨1, fun _ => 0, fun _ => 1⟩, fun _ _ _ _ => .ok (1 / 2), fun _ => ⟨1, 1, fun _ _ => Complex.I⟩,
    fun _ => [⟨0, 0, 1 / 2, 0⟩], fun _ => [⟨0, 0, 1 / 2, 0⟩]⟩

theorem exPhase_ok : MeasOK exPhase := ⟨by norm_num [exPhase], by simp [exPhase], by simp [exPhase], by simp [exPhase],
  by simp [exPhase], by simp [exPhase], by simp [exPhase]; norm_num⟩

/-- **C57, violation of the sign.**  With a complex sign the product of the real parts is recorded instead of the
    real part of the product: here `0`, although `Re(sign * density) = 1/4`. -/
theorem C57_phase_violation :
    ∃ out, exPhase.measureDensities 0 = .ok out ∧ (out.site 0).getD 0 0 = 0 ∧
      (exPhase.sign * exPhase.rho (fun _ _ _ _ => 1 / 2) 0 0 0 0).re = 1 / 4 := by
  obtain ⟨out, e, -, -, h, -, -⟩ := measureDensities_spec exPhase (fun _ _ _ _ => 1 / 2) (fun t z a b _ _ _ => rfl) exPhase_ok 0
  refine ⟨out, e, ?_, ?_⟩
  · rw [h 0 (by simp [exPhase]) 0 (by simp [exPhase])]
    simp [exPhase]
  · simp [exPhase, MeasIn.rho]
    norm_num

/-- A run of two measurements that meets the hypotheses of `C48_round_trip`, one of them with operators. -/
example : ∃ l : List (MeasIn ℂ × ℝ), l.length = 2 ∧
    ∀ c ∈ l, c.1.nf = 1 ∧ c.1.ns = 1 ∧ HasG0 c.1 (fun _ _ _ _ => 1 / 2) ∧ MeasOK c.1 :=
  ⟨[(exPhase, 0), ({ exPhase with M := fun _ => ⟨0, 0, fun _ _ => 0⟩, an := fun _ => [], cr := fun _ => [] }, 1)], rfl, by
    intro c hc
    simp only [List.mem_cons, List.not_mem_nil, or_false] at hc
    rcases hc with rfl | rfl
    · exact ⟨rfl, rfl, fun _ _ _ _ _ _ _ => rfl, exPhase_ok⟩
    · exact ⟨rfl, rfl, fun _ _ _ _ _ _ _ => rfl, by norm_num [exPhase], by simp, by simp, by simp, by simp, by simp, by simp⟩⟩

/-- A configuration with real sign and density matrix and an operator pair: `C57_wick_real` applies. -/
example : ∃ m : MeasIn ℝ, HasG0 m (fun _ _ _ _ => 1 / 2) ∧ MeasOK m ∧ (m.cr 0).length = 1 :=
  ⟨⟨1, 1, 1, 1, ⟨1, fun _ => 0, fun _ => 1⟩, fun _ _ _ _ => .ok (1 / 2), fun _ => ⟨1, 1, fun _ _ => 3⟩,
    fun _ => [⟨0, 0, 1 / 2, 0⟩], fun _ => [⟨0, 0, 1 / 2, 0⟩]⟩, fun _ _ _ _ _ _ _ => rfl,
    ⟨by norm_num, by simp, by simp, by simp, by simp, by simp, by simp; norm_num⟩, rfl⟩

end CTInt
