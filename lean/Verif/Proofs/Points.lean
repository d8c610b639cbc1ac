import Verif.Spec.Ensemble
import Verif.Proofs.Rows
import Mathlib.MeasureTheory.Constructions.BorelSpace.Complex
import Mathlib.MeasureTheory.Function.Floor

/-!
# Lists of points: measurability, and the weight as a function of the points
-/

set_option linter.all false

namespace CTInt

open MeasureTheory

/-- Lists of points are sequences of points with a length. -/
instance listPtSpace : MeasurableSpace (List Pt) :=
  MeasurableSpace.comap (fun l : List Pt => (l.length, fun i : ℕ => l.getD i default)) inferInstance

theorem measurable_list {Z : Type} [MeasurableSpace Z] {f : Z → List Pt} (h1 : Measurable fun z => (f z).length)
    (h2 : ∀ i : ℕ, Measurable fun z => (f z).getD i default) : Measurable f := by
  rw [measurable_comap_iff]
  exact h1.prodMk (measurable_pi_iff.2 h2)

theorem measurable_length : Measurable fun l : List Pt => l.length :=
  measurable_fst.comp (comap_measurable fun l : List Pt => (l.length, fun i : ℕ => l.getD i default))

theorem measurable_getD (i : ℕ) : Measurable fun l : List Pt => l.getD i default :=
  (measurable_pi_apply i).comp
    (measurable_snd.comp (comap_measurable fun l : List Pt => (l.length, fun i : ℕ => l.getD i default)))

theorem getD_ofFn {n : ℕ} (x : Fin n → Pt) (i : ℕ) : (List.ofFn x).getD i default = if h : i < n then x ⟨i, h⟩ else default := by
  split
  · rename_i h
    rw [List.getD_eq_getElem _ _ (by simpa using h)]
    simp
  · rename_i h
    rw [List.getD_eq_default _ _ (by simpa using h)]

theorem measurable_ofFn (n : ℕ) : Measurable fun x : Fin n → Pt => List.ofFn x := by
  refine measurable_list (by simp only [List.length_ofFn]; exact measurable_const) fun i => ?_
  simp only [getD_ofFn]
  split
  · exact measurable_pi_apply _
  · exact measurable_const

/-- The points of a list as a tuple. -/
def toTuple (n : ℕ) (l : List Pt) : Fin n → Pt := fun i => l.getD i default

theorem measurable_toTuple (n : ℕ) : Measurable (toTuple n) := measurable_pi_iff.2 fun i => measurable_getD i

theorem ofFn_toTuple {n : ℕ} {l : List Pt} (h : l.length = n) : List.ofFn (toTuple n l) = l := by
  subst h
  refine List.ext_getElem (by simp) fun i h1 h2 => ?_
  simp only [List.getElem_ofFn, toTuple]
  exact List.getD_eq_getElem _ _ h2

/-- A function of a list and something else is measurable if it is so for every length. -/
theorem measurable_of_length {Z W : Type} [MeasurableSpace Z] [MeasurableSpace W] {f : List Pt × Z → W}
    (h : ∀ n, Measurable fun z : (Fin n → Pt) × Z => f (List.ofFn z.1, z.2)) : Measurable f := by
  intro S hS
  have e : f ⁻¹' S = ⋃ n : ℕ, ({z | z.1.length = n} ∩
      (fun z : List Pt × Z => (toTuple n z.1, z.2)) ⁻¹' ((fun z : (Fin n → Pt) × Z => f (List.ofFn z.1, z.2)) ⁻¹' S)) := by
    ext z
    simp only [Set.mem_preimage, Set.mem_iUnion, Set.mem_inter_iff, Set.mem_setOf_eq]
    constructor
    · intro hz
      exact ⟨z.1.length, rfl, by rw [ofFn_toTuple rfl]; exact hz⟩
    · rintro ⟨n, hn, hz⟩
      rw [ofFn_toTuple hn] at hz
      exact hz
  rw [e]
  refine MeasurableSet.iUnion fun n => MeasurableSet.inter ?_ ?_
  · exact (measurable_length.comp measurable_fst) (measurableSet_singleton n)
  · exact (((measurable_toTuple n).comp measurable_fst).prodMk measurable_snd) ((h n) hS)

theorem measurable_of_length' {W : Type} [MeasurableSpace W] {f : List Pt → W}
    (h : ∀ n, Measurable fun x : Fin n → Pt => f (List.ofFn x)) : Measurable f := by
  have : Measurable fun z : List Pt × Unit => f z.1 := measurable_of_length fun n => (h n).comp measurable_fst
  exact this.comp (measurable_id.prodMk (measurable_const (a := ())))

theorem measurableSet_list {Y : Set (List Pt)} (h : ∀ n, MeasurableSet {x : Fin n → Pt | List.ofFn x ∈ Y}) : MeasurableSet Y := by
  have : Measurable fun l : List Pt => l ∈ Y := measurable_of_length' fun n => (measurableSet_setOf.1 (h n))
  exact measurableSet_setOf.2 this

theorem measurable_snoc : Measurable fun z : List Pt × Pt => z.1 ++ [z.2] := by
  refine measurable_list ?_ fun i => ?_
  · simp only [List.length_append, List.length_singleton]
    exact (measurable_length.comp measurable_fst).add_const 1
  · refine measurable_of_length fun n => ?_
    simp only []
    by_cases h : i < n
    · have : ∀ z : (Fin n → Pt) × Pt, (List.ofFn z.1 ++ [z.2]).getD i default = z.1 ⟨i, h⟩ := by
        intro z
        rw [List.getD_append _ _ _ _ (by simpa using h), getD_ofFn, dif_pos h]
      simp only [this]
      exact (measurable_pi_apply _).comp measurable_fst
    · by_cases h' : i = n
      · have : ∀ z : (Fin n → Pt) × Pt, (List.ofFn z.1 ++ [z.2]).getD i default = z.2 := by
          intro z
          rw [List.getD_append_right _ _ _ _ (by simpa using h)]
          simp [h']
        simp only [this]
        exact measurable_snd
      · have : ∀ z : (Fin n → Pt) × Pt, (List.ofFn z.1 ++ [z.2]).getD i default = default := by
          intro z
          exact List.getD_eq_default _ _ (by simp; omega)
        simp only [this]
        exact measurable_const

/-- Lists made of chosen points of a list. -/
theorem measurable_reindex (ix : ℕ → List ℕ) :
    Measurable fun l : List Pt => (ix l.length).map fun i => l.getD i default := by
  refine measurable_of_length' fun n => ?_
  simp only [List.length_ofFn]
  refine measurable_list (by simp only [List.length_map]; exact measurable_const) fun i => ?_
  by_cases h : i < (ix n).length
  · have : ∀ x : Fin n → Pt, (((ix n).map fun i => (List.ofFn x).getD i default)).getD i default =
        (List.ofFn x).getD ((ix n)[i]) default := by
      intro x
      rw [List.getD_eq_getElem _ _ (by simpa using h)]
      simp
    simp only [this]
    exact (measurable_getD _).comp (measurable_ofFn n)
  · have : ∀ x : Fin n → Pt, (((ix n).map fun i => (List.ofFn x).getD i default)).getD i default = default := by
      intro x
      exact List.getD_eq_default _ _ (by simpa using h)
    simp only [this]
    exact measurable_const

theorem eraseIdx_reindex (l : List Pt) (i : ℕ) :
    l.eraseIdx i = ((List.range l.length).eraseIdx i).map fun j => l.getD j default := by
  have : l = (List.range l.length).map fun j => l.getD j default := by
    refine List.ext_getElem (by simp) fun k h1 h2 => ?_
    rw [List.getElem_map, List.getElem_range, List.getD_eq_getElem _ _ h1]
  conv_lhs => rw [this]
  rw [List.eraseIdx_map]

theorem measurable_eraseIdx (i : ℕ) : Measurable fun l : List Pt => l.eraseIdx i := by
  have : (fun l : List Pt => l.eraseIdx i) = fun l => ((fun n => (List.range n).eraseIdx i) l.length).map fun j => l.getD j default := by
    funext l; exact eraseIdx_reindex l i
  rw [this]
  exact measurable_reindex fun n => (List.range n).eraseIdx i

theorem measurable_set (i : ℕ) : Measurable fun z : List Pt × Pt => z.1.set i z.2 := by
  refine measurable_list ?_ fun j => ?_
  · simp only [List.length_set]
    exact measurable_length.comp measurable_fst
  · by_cases h : j = i
    · subst h
      have : ∀ z : List Pt × Pt, (z.1.set j z.2).getD j default = if z.1.length ≤ j then default else z.2 := by
        intro z
        split
        · rename_i h; exact List.getD_eq_default _ _ (by simpa using h)
        · rename_i h
          rw [List.getD_eq_getElem _ _ (by simpa using h)]
          simp
      simp only [this]
      exact Measurable.ite ((measurable_length.comp measurable_fst) (measurableSet_Iic (a := j))) measurable_const measurable_snd
    · have : ∀ z : List Pt × Pt, (z.1.set i z.2).getD j default = z.1.getD j default := by
        intro z
        rw [List.getD_eq_getElem?_getD, List.getD_eq_getElem?_getD, List.getElem?_set_ne (Ne.symm h)]
      simp only [this]
      exact (measurable_getD j).comp measurable_fst

/-! ## The weight -/

variable {K : Type} [RCLike K] [DecidableEq K]

/-- The weight of a configuration given by points. -/
noncomputable def wt (c : Ctx K) (x : List Pt) : K := weight c.NI c.nf c.G0 c.tbl (x.map vertAt)

theorem interacting_vertAt (x : List Pt) : interacting (x.map vertAt) = x.map vertAt := by
  unfold interacting
  rw [List.filter_eq_self]
  intro v hv
  obtain ⟨p, _, rfl⟩ := List.mem_map.1 hv
  rfl

/-- What the matrices need of an operator pair. -/
def opKey (r : OpRow K) : Op × Op × K := (r.cr, r.an, r.al)

theorem rowG_congr {G0 : Op → Op → K} {l l' : List (OpRow K)} (h : l.map opKey = l'.map opKey) :
    detN l.length (rowG G0 l) = detN l'.length (rowG G0 l') := by
  have hlen : l.length = l'.length := by simpa using congrArg List.length h
  rw [hlen]
  refine detN_congr fun i hi j hj => ?_
  have key : ∀ k, k < l'.length → opKey (l.getD k default) = opKey (l'.getD k default) := by
    intro k hk
    have := congrArg (fun z => z[k]?) h
    simp only [List.getElem?_map, List.getElem?_eq_getElem (show k < l.length by omega), List.getElem?_eq_getElem hk, Option.map_some] at this
    rw [List.getD_eq_getElem _ _ (show k < l.length by omega), List.getD_eq_getElem _ _ hk]
    injection this
  have ki := key i hi
  have kj := key j hj
  unfold opKey at ki kj
  injection ki with i1 i2
  injection i2 with i2 i3
  injection kj with j1 j2
  injection j2 with j2 j3
  unfold rowG specG
  simp only [i2, j1, j3]

/-- The same vertex for the weight. -/
def SameForWeight (v w : Vert) : Prop := v.type = w.type ∧ v.af.toNat = w.af.toNat ∧ v.time = w.time ∧ v.nonInt = w.nonInt

theorem rowsOf_key {NI : K} {tbl : List (VDef K)} {vs ws : List Vert} (h : List.Forall₂ SameForWeight vs ws) (fl : ℕ) :
    (rowsOf NI tbl vs fl).map opKey = (rowsOf NI tbl ws fl).map opKey := by
  induction h with
  | nil => rfl
  | @cons v w vs ws hvw _ ih =>
    obtain ⟨h1, h2, h3, h4⟩ := hvw
    have e : ∀ v (l : List Vert), rowsOf NI tbl (v :: l) fl = rowsV NI tbl fl v ++ rowsOf NI tbl l fl := fun _ _ => rfl
    rw [e, e, List.map_append, List.map_append, ih]
    congr 1
    have ht : termOf tbl v = termOf tbl w := by unfold termOf; rw [h1]
    have hfl : ∀ r, flavorOf tbl v r = flavorOf tbl w r := fun r => by unfold flavorOf; rw [ht]
    have hfi : ∀ r, fieldOf NI tbl v r = fieldOf NI tbl w r := fun r => by unfold fieldOf; rw [ht, h2, h4]
    unfold rowsV
    rw [List.map_map, List.map_map, ht]
    simp only [hfl]
    refine List.map_congr_left fun r _ => ?_
    simp only [Function.comp, opKey, rowOf, hfl, hfi, ht, h3]

theorem weight_congr {c : Ctx K} {vs ws : List Vert} (h : List.Forall₂ SameForWeight (interacting vs) (interacting ws)) :
    weight c.NI c.nf c.G0 c.tbl vs = weight c.NI c.nf c.G0 c.tbl ws := by
  unfold weight detWeight uWeight
  congr 1
  · exact Finset.prod_congr rfl fun fl _ => rowG_congr (rowsOf_key h fl)
  · congr 1
    generalize interacting vs = a at h
    generalize interacting ws = b at h
    induction h with
    | nil => rfl
    | @cons v w _ _ hvw _ ih =>
      rw [List.map_cons, List.map_cons, ih]
      congr 2
      unfold termOf
      rw [hvw.1]

theorem wt_ptsOf (c : Ctx K) (vs : List Vert) : wt c (ptsOf (interacting vs)) = weight c.NI c.nf c.G0 c.tbl vs := by
  unfold wt
  refine weight_congr ?_
  rw [interacting_vertAt]
  have : ∀ l : List Vert, (∀ v ∈ l, v.nonInt = false) → List.Forall₂ SameForWeight ((ptsOf l).map vertAt) l := by
    intro l hl
    induction l with
    | nil => exact List.Forall₂.nil
    | cons v l ih =>
      exact List.Forall₂.cons ⟨rfl, rfl, rfl, (hl v (by simp)).symm⟩ (ih fun w hw => hl w (by simp [hw]))
  refine this _ fun v hv => ?_
  unfold interacting at hv
  simpa using (List.mem_filter.1 hv).2

theorem weight_perm {c : Ctx K} {vs ws : List Vert} (h : (interacting vs).Perm (interacting ws)) :
    weight c.NI c.nf c.G0 c.tbl vs = weight c.NI c.nf c.G0 c.tbl ws := by
  unfold weight detWeight uWeight
  congr 1
  · exact Finset.prod_congr rfl fun fl _ => detG_perm c.G0 (h.flatMap_right _)
  · exact (h.map _).prod_eq

theorem wt_perm (c : Ctx K) {x y : List Pt} (h : x.Perm y) : wt c x = wt c y := by
  unfold wt
  refine weight_perm ?_
  rw [interacting_vertAt, interacting_vertAt]
  exact h.map _

/-! ## Measurability of the weight -/

/-- Types and states of a tuple. -/
def tags {n : ℕ} (x : Fin n → Pt) : Fin n → ℕ × ℕ := fun i => ((x i).1, (x i).2.1)

/-- A tuple from its types and states and its times. -/
def untag {n : ℕ} (k : Fin n → ℕ × ℕ) (τ : Fin n → ℝ) : Fin n → Pt := fun i => ((k i).1, (k i).2, τ i)

/-- Functions of a tuple are measurable if they are so in the times. -/
theorem measurable_of_tags {n : ℕ} {W : Type} [MeasurableSpace W] {f : (Fin n → Pt) → W}
    (h : ∀ k : Fin n → ℕ × ℕ, Measurable fun τ : Fin n → ℝ => f (untag k τ)) : Measurable f := by
  intro S hS
  have htag : Measurable (tags (n := n)) := by
    refine measurable_pi_iff.2 fun i => ?_
    exact (measurable_fst.comp (measurable_pi_apply i)).prodMk
      ((measurable_fst.comp measurable_snd).comp (measurable_pi_apply i))
  have htime : Measurable fun (x : Fin n → Pt) (i : Fin n) => (x i).2.2 := by
    refine measurable_pi_iff.2 fun i => ?_
    exact (measurable_snd.comp measurable_snd).comp (measurable_pi_apply i)
  have e : f ⁻¹' S = ⋃ k : Fin n → ℕ × ℕ, ({x | tags x = k} ∩
      (fun (x : Fin n → Pt) (i : Fin n) => (x i).2.2) ⁻¹' ((fun τ => f (untag k τ)) ⁻¹' S)) := by
    ext x
    simp only [Set.mem_preimage, Set.mem_iUnion, Set.mem_inter_iff, Set.mem_setOf_eq]
    constructor
    · intro hx; exact ⟨tags x, rfl, hx⟩
    · rintro ⟨k, rfl, hx⟩; exact hx
  rw [e]
  exact MeasurableSet.iUnion fun k => (htag (measurableSet_singleton k)).inter (htime ((h k) hS))

theorem measurable_detN {Z : Type} [MeasurableSpace Z] {n : ℕ} {g : Z → ℕ → ℕ → K}
    (h : ∀ i < n, ∀ j < n, Measurable fun z => g z i j) : Measurable fun z => detN n (g z) := by
  unfold detN
  simp only [Matrix.det_apply', toM_apply]
  refine Finset.measurable_sum _ fun σ _ => ?_
  refine Measurable.const_mul ?_ _
  exact Finset.measurable_prod _ fun i _ => h _ (σ i).2 _ i.2

/-- The operator pairs of a tuple on a flavor, as positions. -/
def pairIx (tbl : List (VDef K)) (fl : ℕ) {n : ℕ} (k : Fin n → ℕ × ℕ) : List (Fin n × ℕ) :=
  (List.finRange n).flatMap fun i => ((List.range (tbl.getD (k i).1 default).rank).filter
    fun r => decide ((tbl.getD (k i).1 default).flavors.getD r 0 = fl)).map fun r => (i, r)

theorem rowsOf_untag (NI : K) (tbl : List (VDef K)) (fl : ℕ) {n : ℕ} (k : Fin n → ℕ × ℕ) (τ : Fin n → ℝ) :
    rowsOf NI tbl ((List.ofFn (untag k τ)).map vertAt) fl =
      (pairIx tbl fl k).map fun z => rowOf NI tbl (vertAt ((k z.1).1, (k z.1).2, τ z.1)) z.2 := by
  unfold rowsOf pairIx
  rw [List.ofFn_eq_map, List.map_map, List.flatMap_map, List.map_flatMap]
  congr 1
  funext i
  unfold rowsV
  rw [List.map_map]
  rfl

theorem measurable_wt {c : Ctx K} (hG : MeasurableG0 c.G0) : Measurable (wt c) := by
  refine measurable_of_length' fun n => measurable_of_tags fun k => ?_
  unfold wt weight detWeight uWeight
  simp only [interacting_vertAt]
  refine Measurable.mul ?_ ?_
  · refine Finset.measurable_prod _ fun fl _ => ?_
    simp only [rowsOf_untag, List.length_map]
    refine measurable_detN fun i hi j hj => ?_
    unfold rowG specG
    obtain ⟨zi, ezi⟩ : ∃ zi, zi = (pairIx c.tbl fl k)[i] := ⟨_, rfl⟩
    obtain ⟨zj, ezj⟩ : ∃ zj, zj = (pairIx c.tbl fl k)[j] := ⟨_, rfl⟩
    have gi : ∀ τ : Fin n → ℝ, ((pairIx c.tbl fl k).map fun z => rowOf c.NI c.tbl (vertAt ((k z.1).1, (k z.1).2, τ z.1)) z.2).getD i default =
        rowOf c.NI c.tbl (vertAt ((k zi.1).1, (k zi.1).2, τ zi.1)) zi.2 := by
      intro τ
      rw [List.getD_eq_getElem _ _ (by simpa using hi), List.getElem_map, ← ezi]
    have gj : ∀ τ : Fin n → ℝ, ((pairIx c.tbl fl k).map fun z => rowOf c.NI c.tbl (vertAt ((k z.1).1, (k z.1).2, τ z.1)) z.2).getD j default =
        rowOf c.NI c.tbl (vertAt ((k zj.1).1, (k zj.1).2, τ zj.1)) zj.2 := by
      intro τ
      rw [List.getD_eq_getElem _ _ (by simpa using hj), List.getElem_map, ← ezj]
    simp only [gi, gj]
    refine Measurable.sub ?_ ?_
    · have hz : Measurable fun τ : Fin n → ℝ => (τ zi.1, τ zj.1) := (measurable_pi_apply zi.1).prodMk (measurable_pi_apply zj.1)
      exact (hG (flavorOf c.tbl (vertAt ((k zi.1).1, (k zi.1).2, 0)) zi.2) ((c.tbl.getD (k zi.1).1 default).sites.getD (2 * zi.2 + 1) 0) (-(zi.2 : ℤ))
        (flavorOf c.tbl (vertAt ((k zj.1).1, (k zj.1).2, 0)) zj.2) ((c.tbl.getD (k zj.1).1 default).sites.getD (2 * zj.2) 0) (-(zj.2 : ℤ))).comp hz
    · split
      · exact measurable_const (a := fieldOf c.NI c.tbl (vertAt ((k zj.1).1, (k zj.1).2, 0)) zj.2)
      · exact measurable_const
  · have : ∀ τ : Fin n → ℝ, ((List.ofFn (untag k τ)).map vertAt).map (fun v => - (termOf c.tbl v).U) =
        (List.finRange n).map fun i => - (c.tbl.getD (k i).1 default).U := by
      intro τ
      rw [List.ofFn_eq_map, List.map_map, List.map_map]
      rfl
    simp only [this]
    exact measurable_const

end CTInt
