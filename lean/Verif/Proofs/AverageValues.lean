import Verif.Proofs.Average

/-!
# The recorded values as measurable functions of the configuration and of the numbers not yet used
-/

set_option linter.all false

namespace CTInt

open MeasureTheory

variable {K : Type} [RCLike K] [DecidableEq K]
variable {c : Ctx K}

/-! ## Only operators and fields matter -/

theorem getD_key {l l' : List (OpRow K)} (h : l.map opKey = l'.map opKey) {k : ℕ} (hk : k < l'.length) :
    (l.getD k default).cr = (l'.getD k default).cr ∧ (l.getD k default).an = (l'.getD k default).an ∧
      (l.getD k default).al = (l'.getD k default).al := by
  have hlen : l.length = l'.length := by simpa using congrArg List.length h
  have := congrArg (fun z => z[k]?) h
  simp only [List.getElem?_map, List.getElem?_eq_getElem (show k < l.length by omega), List.getElem?_eq_getElem hk, Option.map_some] at this
  injection this with this
  rw [List.getD_eq_getElem _ _ (show k < l.length by omega), List.getD_eq_getElem _ _ hk]
  unfold opKey at this
  injection this with h1 h2
  injection h2 with h2 h3
  exact ⟨h1, h2, h3⟩

theorem densityOf_congr {G0 : Op → Op → K} (G : ℝ → ℕ → ℕ → ℕ → K) (z : ℕ) {l l' : List (OpRow K)}
    (h : l.map opKey = l'.map opKey) (ε τ : ℝ) (s s2 : ℕ) :
    densityOf G0 G z l ε τ s s2 = densityOf G0 G z l' ε τ s s2 := by
  have hlen : l.length = l'.length := by simpa using congrArg List.length h
  unfold densityOf
  rw [rowG_congr h]
  congr 1
  rw [hlen]
  refine detN_congr fun i hi j hj => ?_
  unfold extraPair
  rw [hlen]
  by_cases h1 : i < l'.length <;> by_cases h2 : j < l'.length
  · rw [if_pos h1, if_pos h2, if_pos h1, if_pos h2]
    obtain ⟨-, i2, -⟩ := getD_key h h1
    obtain ⟨j1, -, j3⟩ := getD_key h h2
    unfold rowG specG
    simp only [i2, j1, j3]
  · rw [if_pos h1, if_neg h2, if_pos h1, if_neg h2, (getD_key h h1).2.1]
  · rw [if_neg h1, if_pos h2, if_neg h1, if_pos h2, (getD_key h h2).1]
  · rw [if_neg h1, if_neg h2, if_neg h1, if_neg h2]

theorem same_pts {l : List Vert} (hl : ∀ v ∈ l, v.nonInt = false) : List.Forall₂ SameForWeight ((ptsOf l).map vertAt) l := by
  induction l with
  | nil => exact List.Forall₂.nil
  | cons v l ih =>
    exact List.Forall₂.cons ⟨rfl, rfl, rfl, (hl v (by simp)).symm⟩ (ih fun w hw => hl w (by simp [hw]))

/-! ## Measurability -/

theorem measurable_of_tags_prod {n : ℕ} {Z W : Type} [MeasurableSpace Z] [MeasurableSpace W] {f : (Fin n → Pt) × Z → W}
    (h : ∀ k : Fin n → ℕ × ℕ, Measurable fun τ : (Fin n → ℝ) × Z => f (untag k τ.1, τ.2)) : Measurable f := by
  intro S hS
  have htag : Measurable (tags (n := n)) := by
    refine measurable_pi_iff.2 fun i => ?_
    exact (measurable_fst.comp (measurable_pi_apply i)).prodMk
      ((measurable_fst.comp measurable_snd).comp (measurable_pi_apply i))
  have htime : Measurable fun (x : Fin n → Pt) (i : Fin n) => (x i).2.2 := by
    refine measurable_pi_iff.2 fun i => ?_
    exact (measurable_snd.comp measurable_snd).comp (measurable_pi_apply i)
  have e : f ⁻¹' S = ⋃ k : Fin n → ℕ × ℕ, ({z | tags z.1 = k} ∩
      (fun (z : (Fin n → Pt) × Z) => ((fun i : Fin n => (z.1 i).2.2), z.2)) ⁻¹' ((fun τ : (Fin n → ℝ) × Z => f (untag k τ.1, τ.2)) ⁻¹' S)) := by
    ext x
    simp only [Set.mem_preimage, Set.mem_iUnion, Set.mem_inter_iff, Set.mem_setOf_eq]
    constructor
    · intro hx; exact ⟨tags x.1, rfl, hx⟩
    · rintro ⟨k, rfl, hx⟩; exact hx
  rw [e]
  refine MeasurableSet.iUnion fun k => MeasurableSet.inter ((htag.comp measurable_fst) (measurableSet_singleton k)) ?_
  exact ((htime.comp measurable_fst).prodMk measurable_snd) ((h k) hS)

/-- The bare Green function of the measurements is measurable in the time difference. -/
def MeasurableG (G : ℝ → ℕ → ℕ → ℕ → K) : Prop := ∀ z s1 s2, Measurable fun t => G t z s1 s2

/-- A function of the operators of a flavor and of something else is measurable if it is so for every choice of types and
    states. -/
theorem measurable_rows {NI : K} {tbl : List (VDef K)} {fl : ℕ} {Z W : Type} [MeasurableSpace Z] [MeasurableSpace W]
    {f : List (OpRow K) → Z → W}
    (h : ∀ (n : ℕ) (k : Fin n → ℕ × ℕ), Measurable fun τ : (Fin n → ℝ) × Z =>
      f ((pairIx tbl fl k).map fun z => rowOf NI tbl (vertAt ((k z.1).1, (k z.1).2, τ.1 z.1)) z.2) τ.2) :
    Measurable fun z : List Pt × Z => f (rowsOf NI tbl (z.1.map vertAt) fl) z.2 := by
  refine measurable_of_length fun n => measurable_of_tags_prod fun k => ?_
  simp only [rowsOf_untag]
  exact h n k

section
variable {NI : K} {tbl : List (VDef K)} {fl n : ℕ} {k : Fin n → ℕ × ℕ} {Z : Type} [MeasurableSpace Z]

/-- The operators at place `i` have fixed flavor and site; their time is that of one vertex. -/
theorem getD_pairs (i : ℕ) (hi : i < (pairIx tbl fl k).length) :
    ∃ (zi : Fin n × ℕ) (f s1 s2 : ℕ) (a : ℤ) (al : K), ∀ τ : Fin n → ℝ,
      ((((pairIx tbl fl k).map fun z => rowOf NI tbl (vertAt ((k z.1).1, (k z.1).2, τ z.1)) z.2).getD i default).cr = ⟨f, s1, τ zi.1, a⟩ ∧
      (((pairIx tbl fl k).map fun z => rowOf NI tbl (vertAt ((k z.1).1, (k z.1).2, τ z.1)) z.2).getD i default).an = ⟨f, s2, τ zi.1, a⟩ ∧
      (((pairIx tbl fl k).map fun z => rowOf NI tbl (vertAt ((k z.1).1, (k z.1).2, τ z.1)) z.2).getD i default).al = al) := by
  obtain ⟨zi, ezi⟩ : ∃ zi, zi = (pairIx tbl fl k)[i] := ⟨_, rfl⟩
  have gi : ∀ τ : Fin n → ℝ, ((pairIx tbl fl k).map fun z => rowOf NI tbl (vertAt ((k z.1).1, (k z.1).2, τ z.1)) z.2).getD i default =
      rowOf NI tbl (vertAt ((k zi.1).1, (k zi.1).2, τ zi.1)) zi.2 := by
    intro τ
    rw [List.getD_eq_getElem _ _ (by simpa using hi), List.getElem_map, ← ezi]
  refine ⟨zi, flavorOf tbl (vertAt ((k zi.1).1, (k zi.1).2, 0)) zi.2, (tbl.getD (k zi.1).1 default).sites.getD (2 * zi.2) 0,
    (tbl.getD (k zi.1).1 default).sites.getD (2 * zi.2 + 1) 0, -(zi.2 : ℤ), fieldOf NI tbl (vertAt ((k zi.1).1, (k zi.1).2, 0)) zi.2, fun τ => ?_⟩
  rw [gi]
  exact ⟨rfl, rfl, rfl⟩

theorem measurable_rowG {G0 : Op → Op → K} (hG : MeasurableG0 G0) {i j : ℕ} (hi : i < (pairIx tbl fl k).length)
    (hj : j < (pairIx tbl fl k).length) : Measurable fun τ : (Fin n → ℝ) × Z =>
      rowG G0 ((pairIx tbl fl k).map fun z => rowOf NI tbl (vertAt ((k z.1).1, (k z.1).2, τ.1 z.1)) z.2) i j := by
  obtain ⟨zi, f, s1, s2, a, al, h⟩ := getD_pairs (NI := NI) i hi
  obtain ⟨zj, f', s1', s2', a', al', h'⟩ := getD_pairs (NI := NI) j hj
  unfold rowG specG
  simp only [h, h']
  refine Measurable.sub ?_ (by split <;> exact measurable_const)
  have hz : Measurable fun τ : (Fin n → ℝ) × Z => (τ.1 zi.1, τ.1 zj.1) :=
    ((measurable_pi_apply zi.1).comp measurable_fst).prodMk ((measurable_pi_apply zj.1).comp measurable_fst)
  exact (hG f s2 a f' s1' a').comp hz

end

theorem measurable_densityOf {NI : K} {tbl : List (VDef K)} (z : ℕ) {G0 : Op → Op → K} (hG : MeasurableG0 G0)
    {G : ℝ → ℕ → ℕ → ℕ → K} (hGm : MeasurableG G) (ε : ℝ) (s s2 : ℕ) :
    Measurable fun x : List Pt × ℝ => densityOf G0 G z (rowsOf NI tbl (x.1.map vertAt) z) ε x.2 s s2 := by
  refine measurable_rows (f := fun l τ => densityOf G0 G z l ε τ s s2) fun n k => ?_
  unfold densityOf
  simp only [List.length_map]
  refine Measurable.div ?_ (measurable_detN fun i hi j hj => measurable_rowG hG hi hj)
  refine measurable_detN fun i hi j hj => ?_
  unfold extraPair
  simp only [List.length_map]
  by_cases h1 : i < (pairIx tbl z k).length <;> by_cases h2 : j < (pairIx tbl z k).length
  · simp only [if_pos h1, if_pos h2]
    exact measurable_rowG hG h1 h2
  · simp only [if_pos h1, if_neg h2]
    obtain ⟨zi, f, s1, s2, a, al, h⟩ := getD_pairs (NI := NI) i h1
    simp only [h]
    exact (hGm z s2 s).comp (((measurable_pi_apply zi.1).comp measurable_fst).sub measurable_snd)
  · simp only [if_neg h1, if_pos h2]
    obtain ⟨zj, f, s1, s2', a, al, h⟩ := getD_pairs (NI := NI) j h2
    simp only [h]
    exact (hGm z s2 s1).comp (measurable_snd.sub ((measurable_pi_apply zj.1).comp measurable_fst))
  · simp only [if_neg h1, if_neg h2]
    exact measurable_const

/-! ## Bounds -/

variable {beta B : ℝ}

theorem uWeight_le {x : List Pt} (hx : ValidPts beta c.tbl x) : ‖uWeight c.tbl (x.map vertAt)‖ ≤ uBound c.tbl ^ x.length := by
  unfold uWeight
  rw [interacting_vertAt, List.map_map]
  have : ∀ l : List Pt, (∀ p ∈ l, p ∈ x) →
      ‖(l.map ((fun v => - (termOf c.tbl v).U) ∘ vertAt)).prod‖ ≤ uBound c.tbl ^ l.length := by
    intro l hl
    induction l with
    | nil => simp
    | cons p l ih =>
      rw [List.map_cons, List.prod_cons, norm_mul, List.length_cons, pow_succ, mul_comm]
      refine mul_le_mul (ih fun q hq => hl q (List.mem_cons_of_mem _ hq)) ?_ (norm_nonneg _) (by have := one_le_uBound c.tbl; positivity)
      rw [Function.comp, norm_neg]
      exact u_le (validPts_term hx (List.mem_map_of_mem (hl p (by simp)))).1
  exact this x fun _ h => h

/-- A bound for determinants with at most `e` more rows than the operators of one flavor. -/
noncomputable def detBound (c : Ctx K) (B : ℝ) (e n : ℕ) : ℝ :=
  ((n * rankBound c.tbl + e).factorial : ℝ) * (1 + B + alphaBound c.tbl) ^ (n * rankBound c.tbl + e)

theorem det_le_bound (hB0 : 0 ≤ B) {x : List Pt} (hx : ValidPts beta c.tbl x) (fl : ℕ) {e e' : ℕ} (he : e ≤ e') {g : ℕ → ℕ → K}
    (hg : ∀ i < (rowsOf c.NI c.tbl (x.map vertAt) fl).length + e, ∀ j < (rowsOf c.NI c.tbl (x.map vertAt) fl).length + e,
      ‖g i j‖ ≤ 1 + B + alphaBound c.tbl) :
    ‖detN ((rowsOf c.NI c.tbl (x.map vertAt) fl).length + e) g‖ ≤ detBound c B e' x.length := by
  have h0 := alphaBound_nonneg c.tbl
  have hl := rowsOf_length_le hx fl
  refine le_trans (detN_le hg) ?_
  have h1 : (((rowsOf c.NI c.tbl (x.map vertAt) fl).length + e).factorial : ℝ) ≤ ((x.length * rankBound c.tbl + e').factorial : ℝ) := by
    exact_mod_cast Nat.factorial_le (by omega)
  exact mul_le_mul h1 (pow_le_pow_right₀ (by linarith) (by omega)) (by positivity) (by positivity)

theorem extraPair_le (hB : ∀ a b, ‖c.G0 a b‖ ≤ B) {G : ℝ → ℕ → ℕ → ℕ → K} (hBG : ∀ t z s1 s2, ‖G t z s1 s2‖ ≤ B) {x : List Pt}
    (hx : ValidPts beta c.tbl x) (z : ℕ) (ε τ : ℝ) (s s2 i j : ℕ) :
    ‖extraPair c.G0 G z (rowsOf c.NI c.tbl (x.map vertAt) z) ε τ s s2 i j‖ ≤ 1 + B + alphaBound c.tbl := by
  have h0 := alphaBound_nonneg c.tbl
  have : ∀ t z s1 s2, ‖G t z s1 s2‖ ≤ 1 + B + alphaBound c.tbl := fun t z s1 s2 => by linarith [hBG t z s1 s2]
  unfold extraPair
  split
  · split
    · rename_i _ hj
      exact rowG_le hB hx z i hj
    · exact this _ _ _ _
  · split <;> exact this _ _ _ _

theorem weightExtra_le (hB : ∀ a b, ‖c.G0 a b‖ ≤ B) {G : ℝ → ℕ → ℕ → ℕ → K} (hBG : ∀ t z s1 s2, ‖G t z s1 s2‖ ≤ B) {x : List Pt}
    (hx : ValidPts beta c.tbl x) (z : ℕ) (ε τ : ℝ) (s s2 : ℕ) :
    ‖weightExtra c G z ε τ s s2 (x.map vertAt)‖ ≤ detBound c B 1 x.length ^ c.nf * uBound c.tbl ^ x.length := by
  have hB0 : 0 ≤ B := le_trans (norm_nonneg _) (hB default default)
  have h0 := alphaBound_nonneg c.tbl
  unfold weightExtra
  rw [norm_mul, interacting_vertAt, norm_prod]
  refine mul_le_mul ?_ (uWeight_le hx) (norm_nonneg _) (by unfold detBound; positivity)
  refine le_trans (Finset.prod_le_prod (fun _ _ => norm_nonneg _) fun fl _ => ?_) (le_of_eq (by rw [Finset.prod_const, Finset.card_range]))
  split
  · rename_i h
    subst h
    exact det_le_bound hB0 hx fl le_rfl fun i _ j _ => extraPair_le hB hBG hx fl ε τ s s2 i j
  · exact det_le_bound hB0 hx fl (Nat.zero_le 1) fun i _ j hj => rowG_le hB hx fl i hj

/-- The weight times the ratio of determinants is the weight with the extra pair. -/
theorem wt_mul_density {z : ℕ} (hz : z < c.nf) (G : ℝ → ℕ → ℕ → ℕ → K) (ε τ : ℝ) (s s2 : ℕ) (x : List Pt) :
    wt c x * densityOf c.G0 G z (rowsOf c.NI c.tbl (x.map vertAt) z) ε τ s s2 =
      if wt c x = 0 then 0 else weightExtra c G z ε τ s s2 (x.map vertAt) := by
  split
  · rename_i h; rw [h, zero_mul]
  · rename_i h
    have hw : wt c x = detN (rowsOf c.NI c.tbl (x.map vertAt) z).length (rowG c.G0 (rowsOf c.NI c.tbl (x.map vertAt) z)) *
        (∏ fl ∈ (Finset.range c.nf).erase z, detN (rowsOf c.NI c.tbl (x.map vertAt) fl).length
          (rowG c.G0 (rowsOf c.NI c.tbl (x.map vertAt) fl))) * uWeight c.tbl (x.map vertAt) := by
      unfold wt weight detWeight
      rw [interacting_vertAt, ← Finset.mul_prod_erase _ _ (Finset.mem_range.2 hz)]
    have hd : detN (rowsOf c.NI c.tbl (x.map vertAt) z).length (rowG c.G0 (rowsOf c.NI c.tbl (x.map vertAt) z)) ≠ 0 := by
      intro h0
      rw [h0] at hw
      apply h
      rw [hw]; ring
    have he : weightExtra c G z ε τ s s2 (x.map vertAt) =
        detN ((rowsOf c.NI c.tbl (x.map vertAt) z).length + 1) (extraPair c.G0 G z (rowsOf c.NI c.tbl (x.map vertAt) z) ε τ s s2) *
        (∏ fl ∈ (Finset.range c.nf).erase z, detN (rowsOf c.NI c.tbl (x.map vertAt) fl).length
          (rowG c.G0 (rowsOf c.NI c.tbl (x.map vertAt) fl))) * uWeight c.tbl (x.map vertAt) := by
      unfold weightExtra
      rw [interacting_vertAt, ← Finset.mul_prod_erase _ _ (Finset.mem_range.2 hz), if_pos rfl]
      congr 2
      refine Finset.prod_congr rfl fun fl hfl => ?_
      rw [if_neg (Finset.ne_of_mem_erase hfl)]
    rw [hw, he]
    unfold densityOf
    field_simp

end CTInt
