import Verif.Proofs.FockEvents
import Verif.Proofs.AverageSelf
import Verif.Proofs.Observables

/-!
# Densities of fermions that hop and interact
-/

set_option linter.all false

namespace CTInt

open NormedSpace Matrix ComplexOrder MeasureTheory Filter

variable {K : Type} [RCLike K]

/-! ## Quantities with values in the field -/

section

variable {A : Type} [NormedRing A] [NormedAlgebra ℝ A] [CompleteSpace A] [DecidableEq K] {c : Ctx K} {β : ℝ} {v : Pt → A} {ω : A →L[ℝ] K}
  {Ω : Type} [MeasurableSpace Ω] {μ : Measure Ω} [IsFiniteMeasure μ] {f : Ω → List Pt → K} {Os : Ω → List (ℝ × A)} {N : ℕ} {B₀ : ℝ}

theorem stateProd_ne {x : List Pt} (hx : ValidPts β c.tbl x) : stateProd c.tbl x ≠ 0 := by
  unfold stateProd
  refine List.prod_ne_zero ?_
  intro h
  obtain ⟨p, hp, h0⟩ := List.mem_map.1 h
  have := (hx p hp).2.1
  rw [inv_eq_zero, Nat.cast_eq_zero] at h0
  omega

theorem ParamHyp.slice {v : Pt → A} {ω : A →L[ℝ] ℝ} {f : Ω → List Pt → ℝ} (h : ParamHyp c β v ω μ f Os N B₀) (n : ℕ) :
    ∀ᵐ x ∂tupleMeasure β c.tbl n, Integrable (fun o => f o (List.ofFn x)) μ := by
  filter_upwards [(h.integrable n).prod_right_ae, ae_validPts β c.tbl n] with x hx hv
  have h1 := hx.const_mul (stateProd c.tbl (List.ofFn x))⁻¹
  refine h1.congr (Eventually.of_forall fun o => ?_)
  show (stateProd c.tbl (List.ofFn x))⁻¹ * (stateProd c.tbl (List.ofFn x) * f o (List.ofFn x)) = _
  rw [← mul_assoc, inv_mul_cancel₀ (stateProd_ne hv), one_mul]

theorem param_integral (h : ∀ L : K →L[ℝ] ℝ, ParamHyp c β v (L.comp ω) μ (fun o x => L (f o x)) Os N B₀) (L : K →L[ℝ] ℝ) (M : ℕ) :
    (configSum c β M fun x => L (∫ o, f o x ∂μ)) = configSum c β M fun x => ∫ o, L (f o x) ∂μ := by
  unfold configSum
  refine Finset.sum_congr rfl fun n _ => ?_
  congr 1
  refine integral_congr_ae ?_
  filter_upwards [(h RCLike.reCLM).slice n, (h RCLike.imCLM).slice n] with x h1 h2
  have : Integrable (fun o => f o (List.ofFn x)) μ := Integrable.re_im_iff.1 ⟨h1, h2⟩
  rw [← L.integral_comp_comm this]

theorem param_limit (h : ∀ L : K →L[ℝ] ℝ, ParamHyp c β v (L.comp ω) μ (fun o x => L (f o x)) Os N B₀) (hβ : 0 ≤ β) {H V : A}
    (hW : (vertexSum c.tbl fun p => ((numStates c.tbl p.1 : ℕ) : ℝ)⁻¹ • v p) = moved H V) (L : K →L[ℝ] ℝ) :
    Tendsto (fun M => configSum c β M fun x => L (∫ o, f o x ∂μ)) atTop (nhds (∫ o, L (ω (chain (evolution H V) (Os o) β)) ∂μ)) :=
  Tendsto.congr (fun M => (param_integral h L M).symm) ((h L).limit hβ hW)

end

/-! ## At most one more pair in every flavor -/

section

variable [DecidableEq K] {n : Type} [Fintype n] [DecidableEq n] {ns : ℕ} {a : ℕ → ℕ → Matrix n n K} {h : ℕ → ℕ → ℕ → K} {β : ℝ} {c : Ctx K}
  {G : ℝ → ℕ → ℕ → ℕ → K}

/-- The determinant of the operators of a flavor with one more pair, if there is one. -/
noncomputable def optDet (G0 : Op → Op → K) (G : ℝ → ℕ → ℕ → ℕ → K) (z : ℕ) (l : List (OpRow K)) (ε τ : ℝ) : Option (ℕ × ℕ) → K
  | some p => detN (l.length + 1) (extraPair G0 G z l ε τ p.1 p.2)
  | none => detN l.length (rowG G0 l)

/-- The weight with more pairs. -/
noncomputable def optWeight (c : Ctx K) (G : ℝ → ℕ → ℕ → ℕ → K) (ε τ : ℝ) (E : ℕ → Option (ℕ × ℕ)) (x : List Pt) : K :=
  (∏ z ∈ Finset.range c.nf, optDet c.G0 G z (rowsOf c.NI c.tbl (x.map vertAt) z) ε τ (E z)) * uWeight c.tbl (x.map vertAt)

theorem weightExtra_opt (c : Ctx K) (G : ℝ → ℕ → ℕ → ℕ → K) (z : ℕ) (ε τ : ℝ) (s s2 : ℕ) (x : List Pt) :
    weightExtra c G z ε τ s s2 (x.map vertAt) = optWeight c G ε τ (fun fl => if fl = z then some (s, s2) else none) x := by
  unfold weightExtra optWeight
  rw [interacting_vertAt]
  congr 1
  refine Finset.prod_congr rfl fun fl _ => ?_
  beta_reduce
  by_cases hz : fl = z
  · subst hz
    rw [if_pos rfl, if_pos rfl]
    rfl
  · rw [if_neg hz, if_neg hz]
    rfl

theorem weightTwo_opt (c : Ctx K) (G : ℝ → ℕ → ℕ → ℕ → K) (ε τ : ℝ) {f1 i f2 j : ℕ} (hne : f1 ≠ f2) (x : List Pt) :
    weightTwo c G ε τ f1 i f2 j (x.map vertAt) =
      optWeight c G ε τ (fun fl => if fl = f1 then some (i, i) else if fl = f2 then some (j, j) else none) x := by
  unfold weightTwo optWeight
  rw [interacting_vertAt]
  congr 1
  refine Finset.prod_congr rfl fun fl _ => ?_
  rw [if_neg hne]
  beta_reduce
  by_cases hz : fl = f1
  · rw [if_pos hz, if_pos hz]
    rfl
  · rw [if_neg hz, if_neg hz]
    by_cases hz : fl = f2
    · rw [if_pos hz, if_pos hz]
      rfl
    · rw [if_neg hz, if_neg hz]
      rfl

theorem optDet_perm (G0 : Op → Op → K) (G : ℝ → ℕ → ℕ → ℕ → K) (z : ℕ) {l l' : List (OpRow K)} (h : l.Perm l') (ε τ : ℝ) (E : Option (ℕ × ℕ)) :
    optDet G0 G z l ε τ E = optDet G0 G z l' ε τ E := by
  rcases E with _ | ⟨s, s2⟩
  · exact detG_perm G0 h
  show detN (l.length + 1) (extraPair G0 G z l ε τ s s2) = detN (l'.length + 1) (extraPair G0 G z l' ε τ s s2)
  let A : Option (OpRow K) → Option (OpRow K) → K := fun a b =>
    match a, b with
    | some a, some b => G0 a.an b.cr
    | some a, none => G (a.an.time - τ) z a.an.site s
    | none, some b => G (τ - b.cr.time) z s2 b.cr.site
    | none, none => G ε z s2 s
  let D : Option (OpRow K) → K := fun a => match a with | some a => - a.al | none => 0
  have key : ∀ l : List (OpRow K), detN (l.length + 1) (extraPair G0 G z l ε τ s s2) =
      detN (l.map some ++ [none]).length (fun i j => (if i = j then D ((l.map some ++ [none]).getD j default) else 0) +
        A ((l.map some ++ [none]).getD i default) ((l.map some ++ [none]).getD j default)) := by
    intro l
    have hl : (l.map some ++ [none]).length = l.length + 1 := by simp
    rw [hl]
    have h1 : ∀ i, i < l.length → (l.map some ++ [none]).getD i default = some (l.getD i default) := by
      intro i hi
      rw [List.getD_append _ _ _ _ (by simpa using hi), List.getD_eq_getElem _ _ (by simpa using hi),
        List.getD_eq_getElem _ _ hi, List.getElem_map]
    have h2 : (l.map some ++ [none]).getD l.length default = none := by
      rw [List.getD_append_right _ _ _ _ (by simp)]
      simp
    refine detN_congr fun i hi j hj => ?_
    unfold extraPair
    by_cases h3 : i < l.length
    · by_cases h4 : j < l.length
      · rw [if_pos h3, if_pos h4, h1 i h3, h1 j h4]
        unfold rowG specG
        simp only [A, D]
        split_ifs <;> ring
      · have : j = l.length := by omega
        subst this
        rw [if_pos h3, if_neg h4, h1 i h3, h2, if_neg (by omega)]
        simp [A]
    · have : i = l.length := by omega
      subst this
      by_cases h4 : j < l.length
      · rw [if_neg h3, if_pos h4, h1 j h4, h2, if_neg (by omega)]
        simp [A]
      · have : j = l.length := by omega
        subst this
        rw [if_neg h3, if_neg h4, h2, if_pos rfl]
        simp [A, D]
  rw [key l, key l']
  exact detN_list_perm D A ((h.map some).append_right _)

theorem rows_perm (c : Ctx K) {x y : List Pt} (h : x.Perm y) (z : ℕ) : (rowsOf c.NI c.tbl (x.map vertAt) z).Perm (rowsOf c.NI c.tbl (y.map vertAt) z) := by
  unfold rowsOf
  exact (h.map _).flatMap_right _

theorem uWeight_perm (c : Ctx K) {x y : List Pt} (h : x.Perm y) : uWeight c.tbl (x.map vertAt) = uWeight c.tbl (y.map vertAt) := by
  unfold uWeight
  rw [interacting_vertAt, interacting_vertAt]
  exact ((h.map _).map _).prod_eq

theorem optWeight_perm (c : Ctx K) (G : ℝ → ℕ → ℕ → ℕ → K) (ε τ : ℝ) (E : ℕ → Option (ℕ × ℕ)) {x y : List Pt} (h : x.Perm y) :
    optWeight c G ε τ E x = optWeight c G ε τ E y := by
  unfold optWeight
  rw [uWeight_perm c h]
  congr 1
  exact Finset.prod_congr rfl fun z _ => optDet_perm _ _ _ (rows_perm c h z) _ _ _

theorem measurable_uWeight (c : Ctx K) : Measurable fun x : List Pt => uWeight c.tbl (x.map vertAt) := by
  refine measurable_of_length' fun n => measurable_of_tags fun k => ?_
  unfold uWeight
  simp only [interacting_vertAt]
  have : ∀ τ : Fin n → ℝ, ((List.ofFn (untag k τ)).map vertAt).map (fun v => - (termOf c.tbl v).U) =
      (List.finRange n).map fun i => - (c.tbl.getD (k i).1 default).U := by
    intro τ
    rw [List.ofFn_eq_map, List.map_map, List.map_map]
    rfl
  simp only [this]
  exact measurable_const

theorem measurable_optWeight (hG0 : MeasurableG0 c.G0) (hGm : MeasurableG G) (ε : ℝ) (E : ℕ → Option (ℕ × ℕ)) :
    Measurable fun x : List Pt × ℝ => optWeight c G ε x.2 E x.1 := by
  unfold optWeight
  refine Measurable.mul ?_ ((measurable_uWeight c).comp measurable_fst)
  refine Finset.measurable_prod _ fun z _ => ?_
  refine measurable_rows (f := fun l τ => optDet c.G0 G z l ε τ (E z)) fun n k => ?_
  rcases E z with _ | ⟨s, s2⟩
  · show Measurable fun τ : (Fin n → ℝ) × ℝ => detN _ (rowG c.G0 _)
    simp only [List.length_map]
    exact measurable_detN fun i hi j hj => measurable_rowG hG0 hi hj
  · show Measurable fun τ : (Fin n → ℝ) × ℝ => detN _ (extraPair c.G0 G z _ ε τ.2 s s2)
    simp only [List.length_map]
    refine measurable_detN fun i hi j hj => ?_
    unfold extraPair
    simp only [List.length_map]
    by_cases h1 : i < (pairIx c.tbl z k).length <;> by_cases h2 : j < (pairIx c.tbl z k).length
    · simp only [if_pos h1, if_pos h2]
      exact measurable_rowG hG0 h1 h2
    · simp only [if_pos h1, if_neg h2]
      obtain ⟨zi, f, s1, s2, a, al, h⟩ := getD_pairs (NI := c.NI) i h1
      simp only [h]
      exact (hGm z s2 s).comp (((measurable_pi_apply zi.1).comp measurable_fst).sub measurable_snd)
    · simp only [if_neg h1, if_pos h2]
      obtain ⟨zj, f, s1, s2', a, al, h⟩ := getD_pairs (NI := c.NI) j h2
      simp only [h]
      exact (hGm z s2 s1).comp (measurable_snd.sub ((measurable_pi_apply zj.1).comp measurable_fst))
    · simp only [if_neg h1, if_neg h2]
      exact measurable_const

/-- A pair of operators at time `τ`. -/
def exRow (z s s2 : ℕ) (τ : ℝ) (k : ℤ) (al : K) : OpRow K := ⟨⟨z, s, τ, k⟩, ⟨z, s2, τ, k⟩, al, default⟩

/-- What the time difference used for equal times changes. -/
noncomputable def shiftG (β : ℝ) (a : ℕ → ℕ → Matrix n n K) (H : Matrix n n K) (G : ℝ → ℕ → ℕ → ℕ → K) (ε : ℝ) (z s s2 : ℕ) : K :=
  thermal β H ((a z s)ᴴ * a z s2) - G ε z s2 s

theorem exRow_at {z s s2 : ℕ} {τ : ℝ} {nf : ℕ} (hz : z < nf) (hs : s < ns) (hs2 : s2 < ns) (hτ : τ ∈ Set.Ico 0 β) (k : ℤ) (al : K) :
    RowAt β nf ns (exRow z s s2 τ k al) ∧ (exRow z s s2 τ k al).cr.time = τ := ⟨⟨hz, rfl, hs, hs2, hτ, rfl, rfl⟩, rfl⟩

theorem exRow_op (H : Matrix n n K) (z s s2 : ℕ) (τ : ℝ) (k : ℤ) (al : K) :
    pairOp (opsOf a H (exRow z s s2 τ k al)) = atTime H τ ((a z s)ᴴ * a z s2 - al • 1) := by
  rw [atTime_sub, atTime_mul, atTime_smul, atTime_one]
  unfold pairOp opsOf
  rw [Algebra.algebraMap_eq_smul_one]
  rfl

theorem optDet_some {H : Matrix n n K} {nf : ℕ} {G0 : Op → Op → K} (hG0 : ThermalG0 β nf ns a H G0) (hG : ThermalG β nf ns a H G) {z s s2 : ℕ} (hz : z < nf)
    (hs : s < ns) (hs2 : s2 < ns) {τ : ℝ} (hτ : τ ∈ Set.Ico 0 β) (ε : ℝ) (k : ℤ) {R : List (OpRow K)}
    (hR : ∀ ρ ∈ R, RowAt β nf ns ρ ∧ ρ.cr.flavor = z ∧ ρ.cr.time ≠ τ) :
    optDet G0 G z R ε τ (some (s, s2)) = detN (R ++ [exRow z s s2 τ k (shiftG β a H G ε z s s2)]).length
      (rowG G0 (R ++ [exRow z s s2 τ k (shiftG β a H G ε z s s2)])) := by
  show detN (R.length + 1) (extraPair G0 G z R ε τ s s2) = _
  rw [List.length_append, List.length_singleton]
  set e := exRow z s s2 τ k (shiftG β a H G ε z s s2) with he
  have g1 : ∀ i, i < R.length → (R ++ [e]).getD i default = R.getD i default ∧ R.getD i default ∈ R := by
    intro i hi
    rw [List.getD_append _ _ _ _ hi, List.getD_eq_getElem _ _ hi]
    exact ⟨rfl, List.getElem_mem _⟩
  have g2 : (R ++ [e]).getD R.length default = e := by
    rw [List.getD_append_right _ _ _ _ le_rfl]
    simp
  refine detN_congr fun i hi j hj => ?_
  unfold extraPair
  by_cases h3 : i < R.length
  · by_cases h4 : j < R.length
    · rw [if_pos h3, if_pos h4]
      unfold rowG specG
      beta_reduce
      rw [(g1 i h3).1, (g1 j h4).1]
    · obtain rfl : j = R.length := by omega
      rw [if_pos h3, if_neg h4]
      unfold rowG specG
      beta_reduce
      rw [(g1 i h3).1, g2, if_neg (by omega), sub_zero]
      obtain ⟨r1, r2, r3⟩ := hR _ (g1 i h3).2
      generalize R.getD i default = ρ at r1 r2 r3
      have := green_eq hG0 hG hz r1.an hs (t := ρ.an.time) (t' := τ) (by rw [r1.time']; exact r1.time) hτ (by rw [r1.time']; exact r3) ρ.an.small k
      rw [← this, he]
      show G0 ⟨z, ρ.an.site, ρ.an.time, ρ.an.small⟩ _ = G0 ρ.an _
      rw [← r2, ← r1.same]
      rfl
  · obtain rfl : i = R.length := by omega
    by_cases h4 : j < R.length
    · rw [if_neg h3, if_pos h4]
      unfold rowG specG
      beta_reduce
      rw [(g1 j h4).1, g2, if_neg (by omega), sub_zero]
      obtain ⟨r1, r2, r3⟩ := hR _ (g1 j h4).2
      generalize R.getD j default = ρ at r1 r2 r3
      have := green_eq hG0 hG hz hs2 r1.cr (t := τ) (t' := ρ.cr.time) hτ r1.time (Ne.symm r3) k ρ.cr.small
      rw [← this, he, ← r2]
      rfl
    · obtain rfl : j = R.length := by omega
      rw [if_neg h3, if_neg h4]
      unfold rowG specG
      beta_reduce
      rw [g2, if_pos rfl, he]
      show _ = G0 ⟨z, s2, τ, k⟩ ⟨z, s, τ, k⟩ - shiftG β a H G ε z s s2
      rw [(hG0 z hz s2 hs2 s hs τ hτ τ hτ k k).2 (by simp), ← atTime_mul, thermal_shift]
      unfold shiftG
      ring

/-- The pairs `rows` are those of `E`. -/
structure RowsFor (β : ℝ) (nf ns : ℕ) (a : ℕ → ℕ → Matrix n n K) (H : Matrix n n K) (G : ℝ → ℕ → ℕ → ℕ → K) (ε : ℝ) (E : ℕ → Option (ℕ × ℕ))
    (rows : ℝ → List (OpRow K)) : Prop where
  sites : ∀ z < nf, ∀ p, E z = some p → p.1 < ns ∧ p.2 < ns
  ev : ∀ τ ∈ Set.Ico 0 β, EvAt β nf ns ⟨τ, 1, rows τ⟩
  none : ∀ τ, ∀ z < nf, E z = none → (rows τ).filter (fun ρ => decide (ρ.cr.flavor = z)) = []
  some : ∀ τ, ∀ z < nf, ∀ p, E z = some p → ∃ k, (rows τ).filter (fun ρ => decide (ρ.cr.flavor = z)) = [exRow z p.1 p.2 τ k (shiftG β a H G ε z p.1 p.2)]

variable [Nonempty n] {E : ℕ → Option (ℕ × ℕ)} {rows : ℝ → List (OpRow K)} {ε : ℝ}

theorem optWeight_thermal (ha : Annihilators c.nf ns a) (hh : HermitianHops c.nf ns h) (hG0 : ThermalG0 β c.nf ns a (bareH c.nf ns h a) c.G0)
    (hG : ThermalG β c.nf ns a (bareH c.nf ns h a) G) (hT : TermsOn c.nf ns c.tbl) (hE : RowsFor β c.nf ns a (bareH c.nf ns h a) G ε E rows)
    {τ : ℝ} (hτ : τ ∈ Set.Ico 0 β) {x : List Pt} (hx : ValidPts β c.tbl x) {w : List (ℝ × Matrix n n K)}
    (hw : w.Perm (x.map (timed (vertexOp a (bareH c.nf ns h a) c.tbl)) ++ [evOp a (bareH c.nf ns h a) ⟨τ, 1, rows τ⟩]))
    (hd : w.Pairwise fun m m' => m'.1 < m.1) :
    optWeight c G ε τ E x = thermal β (bareH c.nf ns h a) (w.map Prod.snd).prod := by
  rw [← group_thermal ha hh hG0 hT hx (hE.ev τ hτ) rfl hw hd]
  unfold optWeight
  congr 1
  have hne : ∀ p ∈ x, p.2.2 ≠ τ := by
    have h1 : w.Pairwise fun m m' => m.1 ≠ m'.1 := hd.imp fun q => q.ne'
    have h2 := (hw.pairwise_iff (fun {m m'} (q : m.1 ≠ m'.1) => Ne.symm q)).1 h1
    rw [List.pairwise_append] at h2
    intro p hp
    exact h2.2.2 (timed (vertexOp a (bareH c.nf ns h a) c.tbl) p) (List.mem_map_of_mem hp) _ (List.mem_singleton.2 rfl)
  refine Finset.prod_congr rfl fun z hz => ?_
  have hz := Finset.mem_range.1 hz
  rcases hq : E z with _ | p
  · rw [hE.none τ z hz hq, List.append_nil]
    rfl
  · obtain ⟨k, hk⟩ := hE.some τ z hz p hq
    rw [hk]
    obtain ⟨s1, s2⟩ := hE.sites z hz p hq
    refine optDet_some hG0 hG hz s1 s2 hτ ε k fun ρ hρ => ?_
    rw [rowsOf_filter, List.flatMap_map, List.mem_filter] at hρ
    obtain ⟨q, hq', hρ'⟩ := List.mem_flatMap.1 hρ.1
    have := rowsAllV_at hT (hx q hq').1 (hx q hq').2.2 ρ hρ'
    exact ⟨this.1, of_decide_eq_true hρ.2, by rw [this.2]; exact hne q hq'⟩

open scoped Matrix.Norms.Operator

/-- The operator of the pairs. -/
def RowsOp (a : ℕ → ℕ → Matrix n n K) (H : Matrix n n K) (β : ℝ) (rows : ℝ → List (OpRow K)) (X : Matrix n n K) : Prop :=
  ∀ τ, (((rows τ).map (opsOf a H)).map pairOp).prod = atTime H τ X

theorem optWeight_param (ha : Annihilators c.nf ns a) (hh : HermitianHops c.nf ns h) (hG0 : ThermalG0 β c.nf ns a (bareH c.nf ns h a) c.G0)
    (hm : MeasurableG0 c.G0) (hG : ThermalG β c.nf ns a (bareH c.nf ns h a) G) (hGm : MeasurableG G) (hT : TermsOn c.nf ns c.tbl)
    (hE : RowsFor β c.nf ns a (bareH c.nf ns h a) G ε E rows) {X : Matrix n n K} (hX : RowsOp a (bareH c.nf ns h a) β rows X) :
    ∃ B₀, ∀ L : K →L[ℝ] ℝ, ParamHyp c β (vertexOp a (bareH c.nf ns h a) c.tbl) (L.comp (thermalCL β (bareH c.nf ns h a)))
      (volume.restrict (Set.Ioc 0 β)) (fun τ x => L (optWeight c G ε τ E x)) (fun τ => [(τ, X)].map fun o => (o.1, atTime (bareH c.nf ns h a) o.1 o.2)) 1 B₀ := by
  set H := bareH c.nf ns h a with hH
  obtain ⟨B₀, hB⟩ := isCompact_Icc.exists_bound_of_continuousOn (s := Set.Icc 0 β) (atTime_continuous H X).continuousOn
  have hin : ∀ᵐ τ ∂volume.restrict (Set.Ioc 0 β), τ ∈ Set.Ioo 0 β := by
    rw [← restrict_Ioo_eq_restrict_Ioc]
    exact ae_restrict_mem measurableSet_Ioo
  refine ⟨B₀, fun L => ⟨?_, ?_, ?_, ?_, ?_, ?_, ?_, ?_⟩⟩
  · exact L.continuous.measurable.comp (measurable_optWeight hm hGm ε E)
  · intro o x y hxy
    show L _ = L _
    rw [optWeight_perm c G ε o E hxy]
  · intro t f
    show Continuous fun τ => atTime H τ (-(c.tbl.getD t default).U • pairsOp a (c.tbl.getD t default) f)
    exact atTime_continuous _ _
  · filter_upwards [hin] with τ hτ
    intro m hm'
    rw [List.map_singleton, List.mem_singleton] at hm'
    subst hm'
    exact ⟨hτ.1.le, hτ.2⟩
  · exact Eventually.of_forall fun τ => List.pairwise_singleton _ _
  · exact Eventually.of_forall fun τ => rfl
  · filter_upwards [hin] with τ hτ
    intro m hm'
    rw [List.map_singleton, List.mem_singleton] at hm'
    subst hm'
    exact hB τ ⟨hτ.1.le, hτ.2.le⟩
  · filter_upwards [hin] with τ hτ
    intro x hx w hw hd
    show L _ = L _
    rw [optWeight_thermal ha hh hG0 hG hT hE ⟨hτ.1.le, hτ.2⟩ hx ?_ hd]
    · rfl
    · rw [List.map_singleton] at hw
      have : evOp a H ⟨τ, 1, rows τ⟩ = (τ, atTime H τ X) := by
        unfold evOp
        rw [one_smul, hX τ]
      rw [this]
      exact hw

/-- The sum over all configurations with more pairs, averaged over their time. -/
theorem optWeight_limit (hβ : 0 < β) (ha : Annihilators c.nf ns a) (hh : HermitianHops c.nf ns h) (hG0 : ThermalG0 β c.nf ns a (bareH c.nf ns h a) c.G0)
    (hm : MeasurableG0 c.G0) (hG : ThermalG β c.nf ns a (bareH c.nf ns h a) G) (hGm : MeasurableG G) (hT : TermsOn c.nf ns c.tbl)
    (hE : RowsFor β c.nf ns a (bareH c.nf ns h a) G ε E rows) {X : Matrix n n K} (hX : RowsOp a (bareH c.nf ns h a) β rows X) (L : K →L[ℝ] ℝ) :
    Tendsto (fun M => configSum c β M fun x => L (((1 / β : ℝ) : K) * ∫ τ in (0 : ℝ)..β, optWeight c G ε τ E x)) atTop
      (nhds (L ((exp (-(β : K) • (bareH c.nf ns h a + interactionH a c.tbl)) * X).trace / (exp (-(β : K) • bareH c.nf ns h a)).trace))) := by
  set H := bareH c.nf ns h a with hH
  set L' : K →L[ℝ] ℝ := (1 / β) • L with hL'
  have e0 : ∀ k : K, L (((1 / β : ℝ) : K) * k) = L' k := fun k => by
    rw [hL', ← smul_eq_mul, ← RCLike.real_smul_eq_coe_smul (K := K), map_smul]
    rfl
  obtain ⟨B₀, hp⟩ := optWeight_param ha hh hG0 hm hG hGm hT hE hX
  have h1 := param_limit hp hβ.le (vertexSum_eq H c.tbl) L'
  simp only [e0, intervalIntegral.integral_of_le hβ.le]
  have e1 : ∀ τ : ℝ, thermalCL β H (chain (evolution H (interactionH a c.tbl)) ([(τ, X)].map fun o => (o.1, atTime H o.1 o.2)) β) =
      (exp (-(β : K) • (H + interactionH a c.tbl)) * X).trace / (exp (-(β : K) • H)).trace := fun τ => by
    show thermal β H _ = _
    rw [thermal_chain]
    congr 1
    rw [List.map_singleton, List.prod_singleton]
    unfold atTime
    rw [neg_smul, mexp_neg, mexp_neg, ← mul_assoc, ← mul_assoc, ← mexp_add, Matrix.trace_mul_comm, ← mul_assoc, ← mexp_add]
    ring_nf
  have e3 : ∫ τ in Set.Ioc (0 : ℝ) β, L' (thermalCL β H (chain (evolution H (interactionH a c.tbl)) ([(τ, X)].map fun o => (o.1, atTime H o.1 o.2)) β)) =
      ∫ τ in Set.Ioc (0 : ℝ) β, L' ((exp (-(β : K) • (H + interactionH a c.tbl)) * X).trace / (exp (-(β : K) • H)).trace) :=
    integral_congr_ae (Eventually.of_forall fun τ => congrArg L' (e1 τ))
  replace h1 := e3 ▸ h1
  have e2 : ∀ k : K, ∫ τ in Set.Ioc (0 : ℝ) β, L' k = L k := fun k => by
    rw [setIntegral_const, hL']
    show (volume.real (Set.Ioc 0 β)) • ((1 / β) * L k) = L k
    rw [Measure.real, Real.volume_Ioc, sub_zero, ENNReal.toReal_ofReal hβ.le, smul_eq_mul]
    field_simp
  rw [e2] at h1
  exact h1

end

end CTInt
