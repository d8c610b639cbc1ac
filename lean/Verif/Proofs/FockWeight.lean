import Verif.Proofs.Fock
import Verif.Proofs.Points

/-!
# The weight of a configuration is a thermal average of a product of operators
-/

set_option linter.all false

namespace CTInt

open NormedSpace Matrix ComplexOrder

section lists

theorem filter_flatMap_perm {α : Type} (f : α → ℕ) (l : List α) (n : ℕ) :
    (l.filter fun a => decide (f a < n)).Perm ((List.range n).flatMap fun z => l.filter fun a => decide (f a = z)) := by
  induction n with
  | zero => simp
  | succ n ih =>
    rw [List.range_succ, List.flatMap_append]
    have h := List.filter_append_perm (fun a => decide (f a < n)) (l.filter fun a => decide (f a < n + 1))
    refine h.symm.trans ?_
    refine List.Perm.append ?_ ?_
    · rw [List.filter_filter]
      refine List.Perm.trans (List.Perm.of_eq (List.filter_congr fun a _ => ?_)) ih
      by_cases c : f a < n
      · simp [c]; omega
      · simp [c]
    · rw [List.filter_filter, List.flatMap_singleton]
      refine List.Perm.of_eq (List.filter_congr fun a _ => ?_)
      by_cases c : f a = n
      · simp [c]
      · simp [c]; omega

variable {K : Type} [Field K] {α : Type} [Inhabited α]

/-- A diagonal plus a kernel, on a list. -/
def kernelG (D : α → K) (g : α → α → K) (l : List α) : ℕ → ℕ → K := fun i j =>
  (if i = j then D (l.getD j default) else 0) + g (l.getD i default) (l.getD j default)

theorem detN_kernel_append (D : α → K) (g : α → α → K) {l l' : List α} (h : ∀ a ∈ l, ∀ b ∈ l', g a b = 0) :
    detN (l ++ l').length (kernelG D g (l ++ l')) = detN l.length (kernelG D g l) * detN l'.length (kernelG D g l') := by
  rw [List.length_append]
  unfold detN
  rw [← Matrix.det_submatrix_equiv_self finSumFinEquiv, ← Matrix.det_fromBlocks_zero₁₂ (toM l.length l.length (kernelG D g l))
    (Matrix.of fun (i : Fin l'.length) (j : Fin l.length) => kernelG D g (l ++ l') (l.length + i) j)]
  congr 1
  have e1 : ∀ i < l.length, (l ++ l').getD i default = l.getD i default := fun i hi => by
    rw [List.getD_eq_getElem?_getD, List.getD_eq_getElem?_getD, List.getElem?_append_left hi]
  have e2 : ∀ i, (l ++ l').getD (l.length + i) default = l'.getD i default := fun i => by
    rw [List.getD_eq_getElem?_getD, List.getD_eq_getElem?_getD, List.getElem?_append_right (by omega), Nat.add_sub_cancel_left]
  ext i j
  rcases i with i | i <;> rcases j with j | j
  · show kernelG D g (l ++ l') i j = kernelG D g l i j
    unfold kernelG
    rw [e1 _ i.2, e1 _ j.2]
  · show kernelG D g (l ++ l') i (l.length + j) = 0
    unfold kernelG
    rw [e1 _ i.2, e2, if_neg (by omega), zero_add]
    refine h _ ?_ _ ?_
    · rw [List.getD_eq_getElem _ _ i.2]; exact List.getElem_mem _
    · rw [List.getD_eq_getElem _ _ j.2]; exact List.getElem_mem _
  · rfl
  · show kernelG D g (l ++ l') (l.length + i) (l.length + j) = kernelG D g l' i j
    unfold kernelG
    rw [e2, e2]
    simp

theorem detN_kernel_blocks (D : α → K) (g : α → α → K) (L : ℕ → List α) (n : ℕ)
    (h : ∀ z z', z ≠ z' → ∀ a ∈ L z, ∀ b ∈ L z', g a b = 0) :
    detN ((List.range n).flatMap L).length (kernelG D g ((List.range n).flatMap L)) = ∏ z ∈ Finset.range n, detN (L z).length (kernelG D g (L z)) := by
  induction n with
  | zero => exact Matrix.det_isEmpty (n := Fin 0)
  | succ n ih =>
    rw [List.range_succ, List.flatMap_append, detN_kernel_append, ih, Finset.prod_range_succ, List.flatMap_singleton]
    intro a ha b hb
    obtain ⟨z, hz, ha⟩ := List.mem_flatMap.1 ha
    rw [List.flatMap_singleton] at hb
    exact h z n (by rw [List.mem_range] at hz; omega) a ha b hb

end lists

variable {K : Type} [RCLike K] [DecidableEq K] {n : Type} [Fintype n] [DecidableEq n] {nf ns : ℕ} {c : ℕ → ℕ → Matrix n n K} {h : ℕ → ℕ → ℕ → K}

/-- All operator pairs of a vertex. -/
def rowsAllV (NI : K) (tbl : List (VDef K)) (v : Vert) : List (OpRow K) := (List.range (termOf tbl v).rank).map (rowOf NI tbl v)

theorem rowsOf_filter (NI : K) (tbl : List (VDef K)) (vs : List Vert) (z : ℕ) :
    rowsOf NI tbl vs z = (vs.flatMap (rowsAllV NI tbl)).filter fun ρ => decide (ρ.cr.flavor = z) := by
  unfold rowsOf
  rw [List.filter_flatMap]
  congr 1
  funext v
  unfold rowsV rowsAllV
  rw [List.filter_map]
  rfl

/-- What is needed of an operator pair. -/
structure RowAt (β : ℝ) (nf ns : ℕ) (ρ : OpRow K) : Prop where
  flavor : ρ.cr.flavor < nf
  same : ρ.an.flavor = ρ.cr.flavor
  cr : ρ.cr.site < ns
  an : ρ.an.site < ns
  time : ρ.cr.time ∈ Set.Ico 0 β
  time' : ρ.an.time = ρ.cr.time
  small : ρ.an.small = ρ.cr.small

/-- The operators of a pair at their time. -/
noncomputable def opsOf (c : ℕ → ℕ → Matrix n n K) (H : Matrix n n K) (ρ : OpRow K) : Matrix n n K × Matrix n n K × K :=
  (atTime H ρ.cr.time (c ρ.cr.flavor ρ.cr.site)ᴴ, atTime H ρ.an.time (c ρ.an.flavor ρ.an.site), ρ.al)

/-- `ρ` stands left of `σ`. -/
def RowLeft (ρ σ : OpRow K) : Prop := σ.cr.time < ρ.cr.time ∨ ρ.cr.time = σ.cr.time ∧ σ.cr.small < ρ.cr.small

theorem rows_thermal [Nonempty n] {β : ℝ} (hc : Annihilators nf ns c) (hh : HermitianHops nf ns h) {G0 : Op → Op → K}
    (hG : ThermalG0 β nf ns c (bareH nf ns h c) G0) {l : List (OpRow K)} (hl : ∀ ρ ∈ l, RowAt β nf ns ρ) (hp : l.Pairwise RowLeft) :
    ∏ z ∈ Finset.range nf, detN (l.filter fun ρ => decide (ρ.cr.flavor = z)).length (rowG G0 (l.filter fun ρ => decide (ρ.cr.flavor = z))) =
      thermal β (bareH nf ns h c) ((l.map (opsOf c (bareH nf ns h c))).map pairOp).prod := by
  set H := bareH nf ns h c with hH
  obtain ⟨p, hF⟩ := hc.fermions
  have hq := thermal_quasi β (bareH_hermitian (c := c) hh) (V := crSpan (Set.Iio nf) ns c) fun b hb => comm_cr hc (fun z hz => hz) hb
  have memCr : ∀ ρ, RowAt β nf ns ρ → (opsOf c H ρ).1 ∈ crSpan {ρ.cr.flavor} ns c := fun ρ hρ =>
    atTime_mem (fun b hb => comm_cr hc (fun z hz => by rw [Set.mem_singleton_iff.1 hz]; exact hρ.flavor) hb) _
      (Submodule.subset_span ⟨_, rfl, _, hρ.cr, rfl⟩)
  have memAn : ∀ ρ, RowAt β nf ns ρ → (opsOf c H ρ).2.1 ∈ anSpan {ρ.cr.flavor} ns c := fun ρ hρ =>
    atTime_mem (fun b hb => comm_an hc (fun z hz => by rw [Set.mem_singleton_iff.1 hz]; exact hρ.flavor) hb) _
      (Submodule.subset_span ⟨_, rfl, _, hρ.an, by rw [hρ.same]⟩)
  rw [thermal_eq, wick_pairs hF _ ?_ hq]
  swap
  · intro x hx
    obtain ⟨ρ, hρ, rfl⟩ := List.mem_map.1 hx
    have := hl ρ hρ
    have sub : ({ρ.cr.flavor} : Set ℕ) ⊆ Set.Iio nf := by rintro z rfl; exact this.flavor
    refine ⟨Submodule.span_mono ?_ (memCr ρ this), Submodule.span_mono ?_ (memAn ρ this)⟩
    · rintro b ⟨z, hz, r⟩; exact ⟨z, sub hz, r⟩
    · rintro b ⟨z, hz, r⟩; exact ⟨z, sub hz, r⟩
  set g : OpRow K → OpRow K → K := fun ρ σ => if ρ.cr.flavor = σ.cr.flavor then G0 ρ.an σ.cr else 0 with hg
  have e1 : detN (l.map (opsOf c H)).length (wickG (thermalL β H) (l.map (opsOf c H))) = detN l.length (kernelG (fun ρ => - ρ.al) g l) := by
    rw [List.length_map]
    refine detN_congr fun i hi j hj => ?_
    have hget : ∀ i < l.length, (l.map (opsOf c H)).getD i (0, 0, 0) = opsOf c H (l.getD i default) := by
      intro i hi
      rw [List.getD_eq_getElem _ _ (by rwa [List.length_map]), List.getD_eq_getElem _ _ hi, List.getElem_map]
    have hmem : ∀ i < l.length, l.getD i default ∈ l := fun i hi => by rw [List.getD_eq_getElem _ _ hi]; exact List.getElem_mem _
    have hleft : ∀ i j, i < j → j < l.length → RowLeft (l.getD i default) (l.getD j default) := by
      intro i j hij hj
      rw [List.getD_eq_getElem _ _ hj, List.getD_eq_getElem _ _ (hij.trans hj)]
      exact List.pairwise_iff_getElem.1 hp i j _ _ hij
    unfold wickG kernelG
    rw [hget i hi, hget j hj]
    have hi' := hl _ (hmem i hi)
    have hj' := hl _ (hmem j hj)
    have e2 : (if i = j then (opsOf c H (l.getD j default)).2.2 else 0) = if i = j then (l.getD j default).al else 0 := rfl
    have e3 : (if j ≤ i then thermalL β H ((opsOf c H (l.getD j default)).1 * (opsOf c H (l.getD i default)).2.1)
        else - thermalL β H ((opsOf c H (l.getD i default)).2.1 * (opsOf c H (l.getD j default)).1)) = g (l.getD i default) (l.getD j default) := by
      simp only [hg]
      generalize hρ : l.getD i default = ρ at hi'
      generalize hσ : l.getD j default = σ at hj'
      by_cases hfl : ρ.cr.flavor = σ.cr.flavor
      · rw [if_pos hfl]
        have key := hG σ.cr.flavor hj'.flavor ρ.an.site hi'.an σ.cr.site hj'.cr ρ.an.time (by rw [hi'.time']; exact hi'.time) σ.cr.time hj'.time
          ρ.an.small σ.cr.small
        have eρ : ρ.an = ⟨σ.cr.flavor, ρ.an.site, ρ.an.time, ρ.an.small⟩ := by
          rw [← hfl, ← hi'.same]
        have eσ : σ.cr = ⟨σ.cr.flavor, σ.cr.site, σ.cr.time, σ.cr.small⟩ := rfl
        rw [← eρ, ← eσ, hi'.time', hi'.small] at key
        have o1 : (opsOf c H ρ).2.1 = atTime H ρ.cr.time (c σ.cr.flavor ρ.an.site) := by
          unfold opsOf
          rw [hi'.time', hi'.same, hfl]
        have o2 : (opsOf c H σ).1 = atTime H σ.cr.time (c σ.cr.flavor σ.cr.site)ᴴ := rfl
        rw [o1, o2]
        split_ifs with hij
        · refine (key.2 ?_).symm
          rcases Nat.lt_or_eq_of_le hij with hij | hij
          · have := hleft j i hij hi
            rw [hρ, hσ] at this
            rcases this with q | q
            · rintro (r | r)
              · exact lt_asymm q r
              · exact absurd r.1 (ne_of_lt q)
            · rintro (r | r)
              · exact absurd q.1 (ne_of_lt r).symm.symm
              · exact lt_asymm q.2 r.2
          · subst hij
            rw [hρ] at hσ
            subst hσ
            simp
        · have := hleft i j (by omega) hj
          rw [hρ, hσ] at this
          exact (key.1 this).symm
      · rw [if_neg hfl]
        have := thermal_cross β hc hh hj'.flavor hi'.flavor (fun e => hfl e.symm) (memCr _ hj') (memAn _ hi')
        rw [thermal_eq, thermal_eq] at this
        split_ifs
        · exact this.1
        · rw [this.2, neg_zero]
    rw [e2, e3]
    split_ifs <;> ring
  rw [e1]
  have hperm : l.Perm ((List.range nf).flatMap fun z => l.filter fun ρ => decide (ρ.cr.flavor = z)) := by
    refine List.Perm.trans (List.Perm.of_eq ?_) (filter_flatMap_perm (fun ρ : OpRow K => ρ.cr.flavor) l nf)
    rw [eq_comm, List.filter_eq_self]
    intro ρ hρ
    exact decide_eq_true (hl ρ hρ).flavor
  have e4 := detN_list_perm (fun ρ : OpRow K => - ρ.al) g hperm
  refine Eq.trans ?_ e4.symm
  refine Eq.trans ?_ (detN_kernel_blocks (fun ρ : OpRow K => - ρ.al) g _ nf ?_).symm
  · refine Finset.prod_congr rfl fun z hz => detN_congr fun i hi j hj => ?_
    have hf : ∀ i < (l.filter fun ρ => decide (ρ.cr.flavor = z)).length, ((l.filter fun ρ => decide (ρ.cr.flavor = z)).getD i default).cr.flavor = z := by
      intro i hi
      rw [List.getD_eq_getElem _ _ hi]
      exact of_decide_eq_true (List.mem_filter.1 (List.getElem_mem hi)).2
    unfold rowG specG kernelG
    simp only [hg]
    rw [hf i hi, hf j hj, if_pos rfl]
    split_ifs <;> ring
  · intro z z' hne ρ hρ σ hσ
    have h1 : ρ.cr.flavor = z := of_decide_eq_true (List.mem_filter.1 hρ).2
    have h2 : σ.cr.flavor = z' := of_decide_eq_true (List.mem_filter.1 hσ).2
    simp only [hg]
    rw [h1, h2, if_neg hne]

theorem rowsAllV_at {NI : K} {β : ℝ} {tbl : List (VDef K)} (hT : TermsOn nf ns tbl) {p : Pt} (hp : p.1 < tbl.length) (ht : p.2.2 ∈ Set.Ico 0 β) :
    ∀ ρ ∈ rowsAllV NI tbl (vertAt p), RowAt β nf ns ρ ∧ ρ.cr.time = p.2.2 := by
  intro ρ hρ
  unfold rowsAllV at hρ
  obtain ⟨r, hr, rfl⟩ := List.mem_map.1 hρ
  have hd : tbl.getD p.1 default ∈ tbl := by rw [List.getD_eq_getElem _ _ hp]; exact List.getElem_mem _
  have := hT _ hd r (List.mem_range.1 hr)
  exact ⟨⟨this.1, rfl, this.2.1, this.2.2, ht, rfl, rfl⟩, rfl⟩

theorem rowsAllV_left (NI : K) (tbl : List (VDef K)) (v : Vert) : (rowsAllV NI tbl v).Pairwise RowLeft := by
  unfold rowsAllV
  rw [List.pairwise_map]
  refine List.Pairwise.imp ?_ List.pairwise_lt_range
  intro a b hab
  refine .inr ⟨rfl, ?_⟩
  show -(b : ℤ) < -(a : ℤ)
  omega

theorem fock_detWeight [Nonempty n] {NI : K} {β : ℝ} (hc : Annihilators nf ns c) (hh : HermitianHops nf ns h) {G0 : Op → Op → K}
    (hG : ThermalG0 β nf ns c (bareH nf ns h c) G0) {tbl : List (VDef K)} (hT : TermsOn nf ns tbl) {x : List Pt} (hx : ValidPts β tbl x)
    (hd : x.Pairwise fun p p' => p'.2.2 < p.2.2) :
    detWeight NI nf G0 tbl (x.map vertAt) =
      thermal β (bareH nf ns h c) (x.map fun p => atTime (bareH nf ns h c) p.2.2 (pairsOp c (tbl.getD p.1 default) p.2.1)).prod := by
  unfold detWeight
  rw [interacting_vertAt]
  simp only [rowsOf_filter]
  rw [rows_thermal hc hh hG]
  · congr 1
    rw [List.map_map, List.flatMap_map, List.map_flatMap]
    induction x with
    | nil => rfl
    | cons p x ih =>
      rw [List.flatMap_cons, List.prod_append, List.map_cons, List.prod_cons,
        ih (fun q hq => hx q (List.mem_cons_of_mem _ hq)) (List.Pairwise.of_cons hd)]
      congr 1
      unfold pairsOp rowsAllV
      rw [atTime_prod, List.map_map, List.map_map]
      congr 1
      refine List.map_congr_left fun r _ => ?_
      simp only [Function.comp_apply]
      rw [atTime_sub, atTime_mul, atTime_smul, atTime_one]
      unfold pairOp opsOf
      rw [Algebra.algebraMap_eq_smul_one]
      simp [rowOf, flavorOf, fieldOf, termOf, vertAt]
  · intro ρ hρ
    rw [List.flatMap_map] at hρ
    obtain ⟨p, hp, hρ⟩ := List.mem_flatMap.1 hρ
    have := hx p hp
    exact (rowsAllV_at hT this.1 this.2.2 ρ hρ).1
  · rw [List.flatMap_map, List.pairwise_flatMap]
    refine ⟨fun p _ => rowsAllV_left _ _ _, ?_⟩
    refine List.Pairwise.imp_of_mem ?_ hd
    intro p q hp hq hpq ρ hρ σ hσ
    have h1 := (rowsAllV_at hT (hx p hp).1 (hx p hp).2.2 ρ hρ).2
    have h2 := (rowsAllV_at hT (hx q hq).1 (hx q hq).2.2 σ hσ).2
    left
    rw [h1, h2]
    exact hpq

theorem thermal_smul (β : ℝ) (H : Matrix n n K) (k : K) (X : Matrix n n K) : thermal β H (k • X) = k * thermal β H X := by
  rw [thermal_eq, map_smul, ← thermal_eq, smul_eq_mul]

theorem prod_map_smul {α : Type} (u : α → K) (f : α → Matrix n n K) (l : List α) :
    (l.map fun a => u a • f a).prod = (l.map u).prod • (l.map f).prod := by
  induction l with
  | nil => simp
  | cons a l ih =>
    simp only [List.map_cons, List.prod_cons, ih, Matrix.smul_mul, Matrix.mul_smul, smul_smul]
    rw [mul_comm]

theorem fock_weight [Nonempty n] {NI : K} {β : ℝ} (hc : Annihilators nf ns c) (hh : HermitianHops nf ns h) {G0 : Op → Op → K}
    (hG : ThermalG0 β nf ns c (bareH nf ns h c) G0) {tbl : List (VDef K)} (hT : TermsOn nf ns tbl) {x : List Pt} (hx : ValidPts β tbl x)
    (hd : x.Pairwise fun p p' => p'.2.2 < p.2.2) :
    weight NI nf G0 tbl (x.map vertAt) =
      thermal β (bareH nf ns h c) (x.map fun p =>
        atTime (bareH nf ns h c) p.2.2 (-(tbl.getD p.1 default).U • pairsOp c (tbl.getD p.1 default) p.2.1)).prod := by
  unfold weight uWeight
  rw [fock_detWeight hc hh hG hT hx hd, interacting_vertAt]
  simp only [atTime_smul]
  rw [prod_map_smul, thermal_smul, List.map_map, mul_comm]
  rfl

end CTInt
