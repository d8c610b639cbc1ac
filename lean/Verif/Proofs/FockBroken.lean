import Verif.Proofs.WickBroken
import Verif.Proofs.FockDensity

/-!
# Weights with a creator at another time as thermal averages
-/

set_option linter.all false

namespace CTInt

open NormedSpace Matrix ComplexOrder MeasureTheory Filter

variable {K : Type} [RCLike K] {n : Type} [Fintype n] [DecidableEq n] {nf ns : ℕ} {a : ℕ → ℕ → Matrix n n K} {h : ℕ → ℕ → ℕ → K} {β : ℝ}

/-! ## Contractions of rows -/

/-- The bare Green's function between the operators of two pairs; zero between flavors. -/
def gRow (G0 : Op → Op → K) (ρ σ : OpRow K) : K := if ρ.cr.flavor = σ.cr.flavor then G0 ρ.an σ.cr else 0

theorem rowLeft_asymm {ρ σ : OpRow K} (h : RowLeft ρ σ) : ¬ RowLeft σ ρ := by
  rcases h with q | q
  · rintro (r | r)
    · exact lt_asymm q r
    · exact absurd r.1 (ne_of_lt q)
  · rintro (r | r)
    · exact absurd q.1 (ne_of_lt r)
    · exact lt_asymm q.2 r.2

theorem rowLeft_irrefl (ρ : OpRow K) : ¬ RowLeft ρ ρ := by
  rintro (r | r)
  · exact lt_irrefl _ r
  · exact lt_irrefl _ r.2

section

variable [Nonempty n] (ha : Annihilators nf ns a) (hh : HermitianHops nf ns h) {G0 : Op → Op → K} (hG : ThermalG0 β nf ns a (bareH nf ns h a) G0)
include ha

theorem opsOf_cr {ρ : OpRow K} (hρ : RowAt β nf ns ρ) : (opsOf a (bareH nf ns h a) ρ).1 ∈ crSpan {ρ.cr.flavor} ns a :=
  atTime_mem (fun b hb => comm_cr ha (fun z hz => by rw [Set.mem_singleton_iff.1 hz]; exact hρ.flavor) hb) _
    (Submodule.subset_span ⟨_, rfl, _, hρ.cr, rfl⟩)

theorem opsOf_an {ρ : OpRow K} (hρ : RowAt β nf ns ρ) : (opsOf a (bareH nf ns h a) ρ).2.1 ∈ anSpan {ρ.cr.flavor} ns a :=
  atTime_mem (fun b hb => comm_an ha (fun z hz => by rw [Set.mem_singleton_iff.1 hz]; exact hρ.flavor) hb) _
    (Submodule.subset_span ⟨_, rfl, _, hρ.an, by rw [hρ.same]⟩)

theorem opsOf_mem {ρ : OpRow K} (hρ : RowAt β nf ns ρ) :
    (opsOf a (bareH nf ns h a) ρ).1 ∈ crSpan (Set.Iio nf) ns a ∧ (opsOf a (bareH nf ns h a) ρ).2.1 ∈ anSpan (Set.Iio nf) ns a := by
  have sub : ({ρ.cr.flavor} : Set ℕ) ⊆ Set.Iio nf := by rintro z rfl; exact hρ.flavor
  refine ⟨Submodule.span_mono ?_ (opsOf_cr (h := h) ha hρ), Submodule.span_mono ?_ (opsOf_an (h := h) ha hρ)⟩
  · rintro b ⟨z, hz, r⟩; exact ⟨z, sub hz, r⟩
  · rintro b ⟨z, hz, r⟩; exact ⟨z, sub hz, r⟩

include hh hG

theorem gRow_eq {ρ σ : OpRow K} (hρ : RowAt β nf ns ρ) (hσ : RowAt β nf ns σ) :
    (RowLeft ρ σ → gRow G0 ρ σ = - thermalL β (bareH nf ns h a) ((opsOf a (bareH nf ns h a) ρ).2.1 * (opsOf a (bareH nf ns h a) σ).1)) ∧
    (¬ RowLeft ρ σ → gRow G0 ρ σ = thermalL β (bareH nf ns h a) ((opsOf a (bareH nf ns h a) σ).1 * (opsOf a (bareH nf ns h a) ρ).2.1)) := by
  set H := bareH nf ns h a with hH
  unfold gRow
  by_cases hfl : ρ.cr.flavor = σ.cr.flavor
  · rw [if_pos hfl]
    have key := hG σ.cr.flavor hσ.flavor ρ.an.site hρ.an σ.cr.site hσ.cr ρ.an.time (by rw [hρ.time']; exact hρ.time) σ.cr.time hσ.time
      ρ.an.small σ.cr.small
    have eρ : ρ.an = ⟨σ.cr.flavor, ρ.an.site, ρ.an.time, ρ.an.small⟩ := by
      rw [← hfl, ← hρ.same]
    have eσ : σ.cr = ⟨σ.cr.flavor, σ.cr.site, σ.cr.time, σ.cr.small⟩ := rfl
    rw [← eρ, ← eσ, hρ.time', hρ.small] at key
    have o1 : (opsOf a H ρ).2.1 = atTime H ρ.cr.time (a σ.cr.flavor ρ.an.site) := by
      unfold opsOf
      rw [hρ.time', hρ.same, hfl]
    have o2 : (opsOf a H σ).1 = atTime H σ.cr.time (a σ.cr.flavor σ.cr.site)ᴴ := rfl
    rw [o1, o2]
    exact key
  · rw [if_neg hfl]
    have := thermal_cross β ha hh hσ.flavor hρ.flavor (fun e => hfl e.symm) (opsOf_cr (h := h) ha hσ) (opsOf_an (h := h) ha hρ)
    rw [thermal_eq, thermal_eq] at this
    exact ⟨fun _ => by rw [this.2, neg_zero], fun _ => this.1.symm⟩

theorem row_stands {ρ σ : OpRow K} (hρ : RowAt β nf ns ρ) (hσ : RowAt β nf ns σ) (hl : RowLeft ρ σ) :
    Stands (thermalL β (bareH nf ns h a)) (opsOf a (bareH nf ns h a)) (gRow G0) ρ σ :=
  ⟨(gRow_eq ha hh hG hρ hσ).1 hl, (gRow_eq ha hh hG hσ hρ).2 (rowLeft_asymm hl)⟩

theorem row_diag {ρ : OpRow K} (hρ : RowAt β nf ns ρ) :
    gRow G0 ρ ρ = thermalL β (bareH nf ns h a) ((opsOf a (bareH nf ns h a) ρ).1 * (opsOf a (bareH nf ns h a) ρ).2.1) :=
  (gRow_eq ha hh hG hρ hρ).2 (rowLeft_irrefl ρ)

end

/-! ## Determinants with one more pair -/

/-- Contractions with the pair of the annihilator of `ρ` and a creator that has the contractions `col`. -/
def oKer (g : OpRow K → OpRow K → K) (col : OpRow K → K) (ρ : OpRow K) : Option (OpRow K) → Option (OpRow K) → K
  | some σ, some τ => g σ τ
  | some σ, none => col σ
  | none, some τ => g ρ τ
  | none, none => col ρ

def oD : Option (OpRow K) → K
  | some σ => - σ.al
  | none => 0

def oDet (g : OpRow K → OpRow K → K) (col : OpRow K → K) (ρ : OpRow K) (l : List (OpRow K)) : K :=
  detN (none :: l.map some).length (kernelG oD (oKer g col ρ) (none :: l.map some))

theorem oDet_perm (g : OpRow K → OpRow K → K) (col : OpRow K → K) (ρ : OpRow K) {l l' : List (OpRow K)} (h : l.Perm l') :
    oDet g col ρ l = oDet g col ρ l' := detN_list_perm oD (oKer g col ρ) ((h.map some).cons none)

theorem getD_some' {α : Type} [Inhabited α] {l : List α} {i : ℕ} (hi : i < l.length) : (l.map some).getD i default = some (l.getD i default) := by
  rw [List.getD_eq_getElem _ _ (by rwa [List.length_map]), List.getD_eq_getElem _ _ hi, List.getElem_map]

theorem getD_mem' {α : Type} [Inhabited α] {l : List α} {i : ℕ} (hi : i < l.length) : l.getD i default ∈ l := by
  rw [List.getD_eq_getElem _ _ hi]; exact List.getElem_mem _

theorem oDet_congr {g g' : OpRow K → OpRow K → K} {col col' : OpRow K → K} {ρ : OpRow K} {l : List (OpRow K)}
    (h1 : ∀ σ ∈ ρ :: l, ∀ τ ∈ l, g σ τ = g' σ τ) (h2 : ∀ σ ∈ ρ :: l, col σ = col' σ) : oDet g col ρ l = oDet g' col' ρ l := by
  unfold oDet
  refine detN_congr_below fun i hi j hj => ?_
  rw [List.length_cons, List.length_map] at hi hj
  unfold kernelG
  congr 1
  rcases i with _ | i <;> rcases j with _ | j
  · exact h2 ρ List.mem_cons_self
  · simp only [List.getD_cons_zero, List.getD_cons_succ]
    rw [getD_some' (by omega)]
    exact h1 ρ List.mem_cons_self _ (getD_mem' (by omega))
  · simp only [List.getD_cons_zero, List.getD_cons_succ]
    rw [getD_some' (by omega)]
    exact h2 _ (List.mem_cons_of_mem _ (getD_mem' (by omega)))
  · simp only [List.getD_cons_zero, List.getD_cons_succ]
    rw [getD_some' (by omega), getD_some' (by omega)]
    exact h1 _ (List.mem_cons_of_mem _ (getD_mem' (by omega))) _ (getD_mem' (by omega))

theorem oDet_neg (g : OpRow K → OpRow K → K) (col : OpRow K → K) (ρ : OpRow K) (l : List (OpRow K)) :
    oDet g (fun σ => - col σ) ρ l = - oDet g col ρ l := by
  unfold oDet
  have e : ∀ m : ℕ, m = l.length → ∀ i < m + 1, ∀ j < m + 1, kernelG oD (oKer g (fun σ => - col σ) ρ) (none :: l.map some) i j =
      (if j = 0 then (-1 : K) else 1) * kernelG oD (oKer g col ρ) (none :: l.map some) i j := by
    intro m hm i hi j hj
    unfold kernelG
    rcases i with _ | i <;> rcases j with _ | j
    · simp [oD, oKer]
    · simp only [List.getD_cons_zero, List.getD_cons_succ]
      rw [getD_some' (by omega)]
      simp [oKer]
    · simp only [List.getD_cons_zero, List.getD_cons_succ]
      rw [getD_some' (by omega)]
      simp [oKer]
    · simp only [List.getD_cons_zero, List.getD_cons_succ]
      rw [getD_some' (by omega), getD_some' (by omega)]
      simp [oKer]
  rw [List.length_cons, List.length_map, detN_congr_below (e _ rfl)]
  unfold detN
  have := Matrix.det_mul_row (fun j : Fin (l.length + 1) => if (j : ℕ) = 0 then (-1 : K) else 1)
    (toM (l.length + 1) (l.length + 1) (kernelG oD (oKer g col ρ) (none :: l.map some)))
  refine Eq.trans ?_ (this.trans ?_)
  · rfl
  · rw [Fin.prod_univ_succ]
    simp

/-- The determinant with one creator replaced. -/
theorem otherCreator_oDet [DecidableEq K] (G0 : Op → Op → K) (G : ℝ → ℕ → ℕ → ℕ → K) (z : ℕ) (l : List (OpRow K)) {q : ℕ} (hq : q < l.length) (b : ℕ) (t : ℝ) :
    detN l.length (otherCreator G0 G z l q b t) =
      oDet (fun σ τ => G0 σ.an τ.cr) (fun σ => G (σ.an.time + t) z σ.an.site b) (l.getD q default) (l.take q ++ l.drop (q + 1)) := by
  set ρ := l.getD q default with hρ
  set g : OpRow K → OpRow K → K := fun σ τ => G0 σ.an τ.cr
  set col : OpRow K → K := fun σ => G (σ.an.time + t) z σ.an.site b with hcol
  have hp : ((l.take q).map some ++ none :: (l.drop (q + 1)).map some).Perm (none :: (l.take q ++ l.drop (q + 1)).map some) := by
    rw [List.map_append]
    exact List.perm_middle
  unfold oDet
  refine Eq.trans ?_ (detN_list_perm oD (oKer g col ρ) hp)
  have hlen : ((l.take q).map some ++ none :: (l.drop (q + 1)).map some).length = l.length := by
    simp
    omega
  rw [hlen]
  refine detN_congr_below fun i hi j hj => ?_
  have e : ∀ i < l.length, i ≠ q → ((l.take q).map some ++ none :: (l.drop (q + 1)).map some).getD i default = some (l.getD i default) := by
    intro i hi hne
    rw [List.getD_eq_getElem _ _ (by rw [hlen]; exact hi), List.getD_eq_getElem _ _ hi, List.getElem_append]
    split_ifs with hlt
    · simp
    · simp at hlt
      rw [List.getElem_cons]
      split_ifs with h0
      · simp at h0
        omega
      · simp
        congr 1
        omega
  have eq' : ((l.take q).map some ++ none :: (l.drop (q + 1)).map some).getD q default = none := by
    rw [List.getD_eq_getElem _ _ (by rw [hlen]; exact hq), List.getElem_append, dif_neg (by simp)]
    simp [Nat.min_eq_left hq.le]
  unfold otherCreator withCol
  by_cases h2 : j = q
  · subst h2
    rw [if_pos rfl, eq']
    by_cases h1 : i = j
    · subst h1
      rw [eq']
      simp [oD, oKer, hcol, hρ]
    · rw [e i hi h1, if_neg h1]
      simp [oKer, hcol]
  · rw [if_neg h2, e j hj h2]
    by_cases h1 : i = q
    · subst h1
      rw [eq', if_neg (fun q => h2 q.symm)]
      unfold rowG specG
      beta_reduce
      rw [if_neg (fun q => h2 q.symm)]
      show _ - 0 = 0 + G0 ρ.an _
      rw [sub_zero, zero_add]
    · rw [e i hi h1]
      unfold rowG specG
      beta_reduce
      by_cases h3 : i = j
      · rw [if_pos h3, if_pos h3]
        show _ = - _ + G0 _ _
        ring
      · rw [if_neg h3, if_neg h3]
        show _ = 0 + G0 _ _
        ring

local instance instInhK' : Inhabited K := ⟨0⟩

theorem bdet_oDet (a : ℕ → ℕ → Matrix n n K) (H : Matrix n n K) (g : OpRow K → OpRow K → K) (col : OpRow K → K) (ρ : OpRow K) (l : List (OpRow K)) :
    bdet (opsOf a H) g (col ρ) (l.map fun σ => (σ, col σ, g ρ σ)) = oDet g col ρ l := by
  unfold bdet oDet
  simp only [List.length_cons, List.length_map]
  refine detN_congr_below fun i hi j hj => ?_
  have e : ∀ j < l.length, ((l.map fun σ => (σ, col σ, g ρ σ)).map some).getD j default =
      some (l.getD j default, col (l.getD j default), g ρ (l.getD j default)) := by
    intro j hj
    rw [List.getD_eq_getElem _ _ (by simpa using hj), List.getD_eq_getElem _ _ hj, List.getElem_map, List.getElem_map]
  unfold kernelG
  rcases i with _ | i <;> rcases j with _ | j
  · simp [borderD, bordered, oD, oKer]
  · simp only [List.getD_cons_zero, List.getD_cons_succ]
    rw [e _ (by omega), getD_some' (by omega)]
    simp [bordered, oKer]
  · simp only [List.getD_cons_zero, List.getD_cons_succ]
    rw [e _ (by omega), getD_some' (by omega)]
    simp [bordered, oKer]
  · simp only [List.getD_cons_zero, List.getD_cons_succ]
    rw [e _ (by omega), e _ (by omega), getD_some' (by omega), getD_some' (by omega)]
    simp [bordered, oKer, borderD, oD, opsOf]

/-- Flavors separate. -/
theorem oDet_blocks [DecidableEq K] (G0 : Op → Op → K) {z : ℕ} (hz : z < nf) {ρ κ : OpRow K} (hρ : ρ.cr.flavor = z) (hκ : κ.cr.flavor = z) {l : List (OpRow K)}
    (hl : ∀ σ ∈ l, σ.cr.flavor < nf) :
    oDet (gRow G0) (fun σ => gRow G0 σ κ) ρ l = ∏ fl ∈ Finset.range nf,
      if fl = z then oDet (fun σ τ => G0 σ.an τ.cr) (fun σ => G0 σ.an κ.cr) ρ (l.filter fun σ => decide (σ.cr.flavor = fl))
      else detN (l.filter fun σ => decide (σ.cr.flavor = fl)).length (rowG G0 (l.filter fun σ => decide (σ.cr.flavor = fl))) := by
  set fo : Option (OpRow K) → ℕ := fun x => match x with | some σ => σ.cr.flavor | none => z with hfo
  set g := oKer (gRow G0) (fun σ => gRow G0 σ κ) ρ with hg
  have hcross : ∀ x y, fo x ≠ fo y → g x y = 0 := by
    intro x y hne
    rcases x with _ | σ <;> rcases y with _ | τ
    · exact absurd rfl hne
    · exact if_neg (by rw [hρ]; exact hne)
    · exact if_neg (by rw [hκ]; exact hne)
    · exact if_neg hne
  have hperm : (none :: l.map some).Perm ((List.range nf).flatMap fun fl => (none :: l.map some).filter fun x => decide (fo x = fl)) := by
    refine List.Perm.trans (List.Perm.of_eq ?_) (filter_flatMap_perm fo (none :: l.map some) nf)
    rw [eq_comm, List.filter_eq_self]
    intro x hx
    rcases List.mem_cons.1 hx with rfl | hx
    · exact decide_eq_true hz
    · obtain ⟨σ, hσ, rfl⟩ := List.mem_map.1 hx
      exact decide_eq_true (hl σ hσ)
  unfold oDet
  refine (detN_list_perm oD g hperm).trans ((detN_kernel_blocks oD g _ nf ?_).trans ?_)
  · intro z z' hne x hx y hy
    have h1 : fo x = z := of_decide_eq_true (List.mem_filter.1 hx).2
    have h2 : fo y = z' := of_decide_eq_true (List.mem_filter.1 hy).2
    exact hcross x y (by rw [h1, h2]; exact hne)
  · refine Finset.prod_congr rfl fun fl _ => ?_
    have ef : (l.map some).filter (fun x => decide (fo x = fl)) = (l.filter fun σ => decide (σ.cr.flavor = fl)).map some := by
      rw [List.filter_map]
      rfl
    have hm : ∀ σ ∈ l.filter (fun σ => decide (σ.cr.flavor = fl)), σ.cr.flavor = fl := fun σ hσ => of_decide_eq_true (List.mem_filter.1 hσ).2
    by_cases hfl : fl = z
    · subst hfl
      rw [if_pos rfl, List.filter_cons, if_pos (by simp [hfo]), ef]
      refine oDet_congr (g := gRow G0) (col := fun σ => gRow G0 σ κ) ?_ ?_
      · intro σ hσ τ hτ
        refine if_pos ?_
        rw [hm τ hτ]
        rcases List.mem_cons.1 hσ with rfl | hσ
        · exact hρ
        · exact hm σ hσ
      · intro σ hσ
        refine if_pos ?_
        rw [hκ]
        rcases List.mem_cons.1 hσ with rfl | hσ
        · exact hρ
        · exact hm σ hσ
    · rw [if_neg hfl, List.filter_cons, if_neg (by simp [hfo]; exact fun q => hfl q.symm), ef, List.length_map]
      refine detN_congr_below fun i hi j hj => ?_
      unfold rowG specG kernelG
      rw [getD_some' hi, getD_some' hj]
      have : g (some ((l.filter fun σ => decide (σ.cr.flavor = fl)).getD i default)) (some ((l.filter fun σ => decide (σ.cr.flavor = fl)).getD j default)) =
          G0 ((l.filter fun σ => decide (σ.cr.flavor = fl)).getD i default).an ((l.filter fun σ => decide (σ.cr.flavor = fl)).getD j default).cr :=
        if_pos (by rw [hm _ (getD_mem' hi), hm _ (getD_mem' hj)])
      rw [this]
      simp only [oD]
      split_ifs <;> ring

/-! ## A product of pairs with one of them pulled apart -/

section

variable [Nonempty n] (ha : Annihilators nf ns a) (hh : HermitianHops nf ns h) {G0 : Op → Op → K} (hG : ThermalG0 β nf ns a (bareH nf ns h a) G0)
  {ρ κ : OpRow K} (hρ : RowAt β nf ns ρ) (hκ : RowAt β nf ns κ) {R1 R2 R3 : List (OpRow K)} (hR : ∀ σ ∈ R1 ++ R2 ++ R3, RowAt β nf ns σ)
  (hp : (R1 ++ R2 ++ R3).Pairwise RowLeft)
include ha hh hG hρ hκ hR hp

theorem rows_broken_left (h1 : ∀ σ ∈ R1, RowLeft σ κ ∧ RowLeft σ ρ) (h2 : ∀ σ ∈ R2, RowLeft κ σ ∧ RowLeft σ ρ) (h3 : ∀ σ ∈ R3, RowLeft κ σ ∧ RowLeft ρ σ)
    (h4 : RowLeft κ ρ) :
    thermal β (bareH nf ns h a) (((R1.map (opsOf a (bareH nf ns h a))).map pairOp).prod * (opsOf a (bareH nf ns h a) κ).1 *
      ((R2.map (opsOf a (bareH nf ns h a))).map pairOp).prod * (opsOf a (bareH nf ns h a) ρ).2.1 * ((R3.map (opsOf a (bareH nf ns h a))).map pairOp).prod) =
    oDet (gRow G0) (fun σ => gRow G0 σ κ) ρ (R1 ++ R2 ++ R3) := by
  set H := bareH nf ns h a with hH
  obtain ⟨p, hF⟩ := ha.fermions
  have hq := thermal_quasi β (bareH_hermitian (c := a) hh) (V := crSpan (Set.Iio nf) ns a) fun b hb => comm_cr ha (fun z hz => hz) hb
  set φ : OpRow K → OpRow K × K × K := fun σ => (σ, gRow G0 σ κ, gRow G0 ρ σ) with hφ
  have hprod : ∀ R : List (OpRow K), opsProd (opsOf a H) (R.map φ) = ((R.map (opsOf a H)).map pairOp).prod := by
    intro R
    unfold opsProd
    rw [List.map_map, List.map_map]
    rfl
  have hg := fun σ τ => gRow_eq (ρ := σ) (σ := τ) ha hh hG
  have key := broken_left (f := opsOf a H) (g := gRow G0) hF hq (opsOf_mem (h := h) ha hκ).1 (opsOf_mem (h := h) ha hρ).2 (L1 := R1.map φ) (L2 := R2.map φ) (L3 := R3.map φ) ?_
  · rw [hprod, hprod, hprod] at key
    rw [thermal_eq]
    refine key.trans ?_
    rw [← List.map_append, ← List.map_append, ← List.append_assoc, ← bdet_oDet a H, (hg ρ κ hρ hκ).2 (rowLeft_asymm h4)]
  · rw [List.append_assoc] at hR hp
    refine ⟨?_, ?_, ?_, ?_, ?_, ?_, ?_⟩
    · intro x hx
      rw [← List.map_append, ← List.map_append] at hx
      obtain ⟨σ, hσ, rfl⟩ := List.mem_map.1 hx
      exact opsOf_mem ha (hR σ hσ)
    · intro x hx
      rw [← List.map_append, ← List.map_append] at hx
      obtain ⟨σ, hσ, rfl⟩ := List.mem_map.1 hx
      exact row_diag ha hh hG (hR σ hσ)
    · rw [← List.map_append, ← List.map_append, List.pairwise_map]
      exact List.Pairwise.imp_of_mem (fun {σ τ} hσ hτ q => row_stands ha hh hG (hR σ hσ) (hR τ hτ) q) hp
    · intro x hx
      obtain ⟨σ, hσ, rfl⟩ := List.mem_map.1 hx
      exact (hg σ κ (hR σ (by simp [hσ])) hκ).1 (h1 σ hσ).1
    · intro x hx
      rw [← List.map_append] at hx
      obtain ⟨σ, hσ, rfl⟩ := List.mem_map.1 hx
      refine (hg σ κ (hR σ (by simp at hσ ⊢; tauto)) hκ).2 (rowLeft_asymm ?_)
      rcases List.mem_append.1 hσ with q | q
      · exact (h2 σ q).1
      · exact (h3 σ q).1
    · intro x hx
      rw [← List.map_append] at hx
      obtain ⟨σ, hσ, rfl⟩ := List.mem_map.1 hx
      refine (hg ρ σ hρ (hR σ (by simp at hσ ⊢; tauto))).2 (rowLeft_asymm ?_)
      rcases List.mem_append.1 hσ with q | q
      · exact (h1 σ q).2
      · exact (h2 σ q).2
    · intro x hx
      obtain ⟨σ, hσ, rfl⟩ := List.mem_map.1 hx
      exact (hg ρ σ hρ (hR σ (by simp [hσ]))).1 (h3 σ hσ).2

theorem rows_broken_right (h1 : ∀ σ ∈ R1, RowLeft σ κ ∧ RowLeft σ ρ) (h2 : ∀ σ ∈ R2, RowLeft σ κ ∧ RowLeft ρ σ) (h3 : ∀ σ ∈ R3, RowLeft κ σ ∧ RowLeft ρ σ)
    (h4 : RowLeft ρ κ) :
    thermal β (bareH nf ns h a) (((R1.map (opsOf a (bareH nf ns h a))).map pairOp).prod * (opsOf a (bareH nf ns h a) ρ).2.1 *
      ((R2.map (opsOf a (bareH nf ns h a))).map pairOp).prod * (opsOf a (bareH nf ns h a) κ).1 * ((R3.map (opsOf a (bareH nf ns h a))).map pairOp).prod) =
    - oDet (gRow G0) (fun σ => gRow G0 σ κ) ρ (R1 ++ R2 ++ R3) := by
  set H := bareH nf ns h a with hH
  obtain ⟨p, hF⟩ := ha.fermions
  have hq := thermal_quasi β (bareH_hermitian (c := a) hh) (V := crSpan (Set.Iio nf) ns a) fun b hb => comm_cr ha (fun z hz => hz) hb
  set φ : OpRow K → OpRow K × K × K := fun σ => (σ, gRow G0 σ κ, gRow G0 ρ σ) with hφ
  have hprod : ∀ R : List (OpRow K), opsProd (opsOf a H) (R.map φ) = ((R.map (opsOf a H)).map pairOp).prod := by
    intro R
    unfold opsProd
    rw [List.map_map, List.map_map]
    rfl
  have hg := fun σ τ => gRow_eq (ρ := σ) (σ := τ) ha hh hG
  have key := broken_right (f := opsOf a H) (g := gRow G0) hF hq (opsOf_mem (h := h) ha hκ).1 (opsOf_mem (h := h) ha hρ).2 (L1 := R1.map φ) (L2 := R2.map φ) (L3 := R3.map φ) ?_
  · rw [hprod, hprod, hprod] at key
    rw [thermal_eq]
    refine key.trans ?_
    rw [← List.map_append, ← List.map_append, ← bdet_oDet a H, (hg ρ κ hρ hκ).1 h4]
  · refine ⟨?_, ?_, ?_, ?_, ?_, ?_, ?_⟩
    · intro x hx
      rw [← List.map_append, ← List.map_append] at hx
      obtain ⟨σ, hσ, rfl⟩ := List.mem_map.1 hx
      exact opsOf_mem ha (hR σ hσ)
    · intro x hx
      rw [← List.map_append, ← List.map_append] at hx
      obtain ⟨σ, hσ, rfl⟩ := List.mem_map.1 hx
      exact row_diag ha hh hG (hR σ hσ)
    · rw [← List.map_append, ← List.map_append, List.pairwise_map]
      exact List.Pairwise.imp_of_mem (fun {σ τ} hσ hτ q => row_stands ha hh hG (hR σ hσ) (hR τ hτ) q) hp
    · intro x hx
      rw [← List.map_append] at hx
      obtain ⟨σ, hσ, rfl⟩ := List.mem_map.1 hx
      refine (hg σ κ (hR σ (by simp at hσ ⊢; tauto)) hκ).1 ?_
      rcases List.mem_append.1 hσ with q | q
      · exact (h1 σ q).1
      · exact (h2 σ q).1
    · intro x hx
      obtain ⟨σ, hσ, rfl⟩ := List.mem_map.1 hx
      exact (hg σ κ (hR σ (by simp [hσ])) hκ).2 (rowLeft_asymm (h3 σ hσ).1)
    · intro x hx
      obtain ⟨σ, hσ, rfl⟩ := List.mem_map.1 hx
      exact (hg ρ σ hρ (hR σ (by simp [hσ]))).2 (rowLeft_asymm (h1 σ hσ).2)
    · intro x hx
      rw [← List.map_append] at hx
      obtain ⟨σ, hσ, rfl⟩ := List.mem_map.1 hx
      refine (hg ρ σ hρ (hR σ (by simp at hσ ⊢; tauto))).1 ?_
      rcases List.mem_append.1 hσ with q | q
      · exact (h2 σ q).2
      · exact (h3 σ q).2

end

end CTInt
