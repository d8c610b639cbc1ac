import Verif.Proofs.PartSide
import Verif.Proofs.FastUpdate
import Mathlib.Data.Fintype.BigOperators

/-!
# Time-ordered determinants of operators in sectors (helper lemmas for C27, C60)
-/

set_option linter.all false

open Matrix

namespace CTInt

variable {K Cd Co T X : Type} [Field K] [LinearOrder T]

theorem det_toM_lower {N M : ℕ} {g : ℕ → ℕ → K} (h : ∀ i < N, ∀ j < M, g i (N + j) = 0) :
    detN (N + M) g = detN N g * detN M fun i j => g (N + i) (N + j) := by
  unfold detN
  rw [det_toM_add]
  have : (toM N M fun i j => g i (N + j)) = 0 := by
    ext i j; exact h i i.2 j j.2
  rw [this, Matrix.det_fromBlocks_zero₁₂]

theorem greenAt_left {G : Co → Cd → K} {c1 c2 : List Co} {d1 d2 : List Cd} {i j : ℕ} (hi : i < c1.length) (hj : j < d1.length) :
    greenAt G (c1 ++ c2) (d1 ++ d2) i j = greenAt G c1 d1 i j := by
  unfold greenAt
  rw [List.getElem?_append_left hi, List.getElem?_append_left hj]

theorem greenAt_right {G : Co → Cd → K} {c1 c2 : List Co} {d1 d2 : List Cd} (i j : ℕ) :
    greenAt G (c1 ++ c2) (d1 ++ d2) (c1.length + i) (d1.length + j) = greenAt G c2 d2 i j := by
  unfold greenAt
  rw [List.getElem?_append_right (by omega), List.getElem?_append_right (by omega)]
  simp

theorem greenAt_zero {G : Co → Cd → K} {c : List Co} {d : List Cd} {i j : ℕ}
    (h : ∀ b a, c[i]? = some b → d[j]? = some a → G b a = 0) : greenAt G c d i j = 0 := by
  unfold greenAt
  cases hb : c[i]? with
  | none => rfl
  | some b =>
    cases ha : d[j]? with
    | none => rfl
    | some a => exact h b a hb ha

theorem detN_congr_fn {n : ℕ} {g g' : ℕ → ℕ → K} (h : ∀ i < n, ∀ j < n, g i j = g' i j) : detN n g = detN n g' := by
  unfold detN; rw [toM_congr h]

/-- Two blocks. -/
theorem det_two {G : Co → Cd → K} {c1 c2 : List Co} {d1 d2 : List Cd} (h1 : c1.length = d1.length)
    (hz : ∀ b ∈ c1, ∀ a ∈ d2, G b a = 0) :
    detN (d1.length + d2.length) (greenAt G (c1 ++ c2) (d1 ++ d2)) =
      detN d1.length (greenAt G c1 d1) * detN d2.length (greenAt G c2 d2) := by
  rw [det_toM_lower]
  · congr 1
    · exact detN_congr_fn fun i hi j hj => greenAt_left (by omega) hj
    · refine detN_congr_fn fun i hi j hj => ?_
      have := greenAt_right (G := G) (c1 := c1) (c2 := c2) (d1 := d1) (d2 := d2) i j
      rw [h1] at this
      exact this
  · intro i hi j hj
    refine greenAt_zero fun b a hb ha => hz b ?_ a ?_
    · rw [List.getElem?_append_left (by omega)] at hb
      exact List.mem_of_getElem? hb
    · rw [List.getElem?_append_right (by omega)] at ha
      exact List.mem_of_getElem? ha

/-- Many blocks. -/
theorem det_blocks {G : Co → Cd → K} (n : ℕ) (c : ℕ → List Co) (d : ℕ → List Cd) (h1 : ∀ k < n, (c k).length = (d k).length)
    (hz : ∀ k < n, ∀ l < n, k ≠ l → ∀ b ∈ c k, ∀ a ∈ d l, G b a = 0) :
    detN (tab n d).flatten.length (greenAt G (tab n c).flatten (tab n d).flatten) =
      ∏ k ∈ Finset.range n, detN (d k).length (greenAt G (c k) (d k)) := by
  induction n with
  | zero =>
    rw [Finset.prod_range_zero]
    exact Matrix.det_isEmpty (n := Fin 0)
  | succ n ih =>
    have hl : (tab n c).flatten.length = (tab n d).flatten.length := by
      rw [List.length_flatten, List.length_flatten]
      congr 1
      unfold tab
      rw [List.map_map, List.map_map]
      exact List.map_congr_left fun k hk => h1 k (by have := List.mem_range.mp hk; omega)
    have e : ∀ {Y : Type} (g : ℕ → List Y), (tab (n + 1) g).flatten = (tab n g).flatten ++ g n := by
      intro Y g; unfold tab; rw [List.range_succ, List.map_append, List.flatten_append]; simp
    rw [Finset.prod_range_succ, ← ih (fun k hk => h1 k (by omega)) (fun k hk l hl => hz k (by omega) l (by omega)), e, e,
      List.length_append]
    refine det_two hl ?_
    intro b hb a ha
    obtain ⟨l, hl', hb'⟩ := List.mem_flatten.mp hb
    unfold tab at hl'
    obtain ⟨k, hk, rfl⟩ := List.mem_map.mp hl'
    have := List.mem_range.mp hk
    exact hz k (by omega) n (by omega) (by omega) b hb' a ha

/-- `det_ordered` where creation and annihilation operators may share times. -/
theorem det_ordered' (o : OpSys K Cd Co T) {A : Conf Cd Co} {cs : List Co} {cds : List Cd} (hc : cs.Perm A.cs)
    (hcd : cds.Perm A.cds) (hl : A.cds.length = A.cs.length) (hn1 : (A.cds.map o.tcd).Nodup) (hn2 : (A.cs.map o.tc).Nodup) :
    A.det o = (orderSign o.tcd cds : K) * (orderSign o.tc cs : K) * detN cds.length (greenAt o.G cs cds) := by
  have hnc : (cs.map o.tc).Nodup := ((hc.map _).nodup_iff).mpr hn2
  have hncd : (cds.map o.tcd).Nodup := ((hcd.map _).nodup_iff).mpr hn1
  have p1 : cs.Perm (byTime o.tc A.cs) := hc.trans (byTime_perm _ _).symm
  have p2 : cds.Perm (byTime o.tcd A.cds) := hcd.trans (byTime_perm _ _).symm
  have r1 := det_rows o.tc o.G cds cds.length p1 [] (by simpa using hnc) (by simp [hcd.length_eq, hl, hc.length_eq])
  have r2 := det_rows o.tcd (fun a b => o.G b a) (byTime o.tc A.cs) cds.length p2 [] (by simpa using hncd) (by simp)
  simp only [List.nil_append] at r1 r2
  rw [orderSign_sorted (byTime_sorted _ _)] at r1 r2
  rw [← detN_greenAt_transpose o.G, ← detN_greenAt_transpose o.G] at r2
  push_cast at r1 r2
  rw [one_mul] at r1 r2
  unfold Conf.det
  rw [← hcd.length_eq, ← r2, ← r1]
  ring

/-- The operators are of flavors in the sectors `0 … n - 1` and different sectors do not see each other. -/
structure Apart (o : OpSys K Cd Co T) (fl : FlSys Cd Co) (n : ℕ) (lab : ℕ → ℕ) (A : Conf Cd Co) : Prop where
  cds : ∀ a ∈ A.cds, lab (fl.fcd a) < n
  cs : ∀ b ∈ A.cs, lab (fl.fc b) < n
  timesCd : (A.cds.map o.tcd).Nodup
  timesC : (A.cs.map o.tc).Nodup
  zero : ∀ b ∈ A.cs, ∀ a ∈ A.cds, lab (fl.fc b) ≠ lab (fl.fcd a) → o.G b a = 0

variable {o : OpSys K Cd Co T} {fl : FlSys Cd Co} {n : ℕ} {lab : ℕ → ℕ} {A : Conf Cd Co}

theorem sec_cds (k : ℕ) : (A.sec fl lab k).cds = inSec (fun a => lab (fl.fcd a)) k A.cds := rfl
theorem sec_cs (k : ℕ) : (A.sec fl lab k).cs = inSec (fun b => lab (fl.fc b)) k A.cs := rfl

theorem len_inSec {σ : X → ℕ} {L : List X} (h : ∀ x ∈ L, σ x < n) : ∑ k ∈ Finset.range n, (inSec σ k L).length = L.length := by
  have := (inSec_all h).length_eq
  rw [← this, List.length_flatMap]
  clear this h
  induction n with
  | zero => rfl
  | succ n ih => rw [Finset.sum_range_succ, ih, List.range_succ, List.map_append, List.sum_append]; simp

/-- The determinant is the product of the sectors' determinants, up to the sign of the reordering. -/
theorem det_sectors (h : Apart o fl n lab A) (he : ∀ k < n, (A.sec fl lab k).cds.length = (A.sec fl lab k).cs.length) :
    A.det o = (secSign o.tcd (fun a => lab (fl.fcd a)) n A.cds : K) * (secSign o.tc (fun b => lab (fl.fc b)) n A.cs : K) *
      ∏ k ∈ Finset.range n, (A.sec fl lab k).det o := by
  have hl : A.cds.length = A.cs.length := by
    rw [← len_inSec h.cds, ← len_inSec h.cs]
    exact Finset.sum_congr rfl fun k hk => he k (Finset.mem_range.mp hk)
  have p1 := secList_perm (τ := o.tc) h.cs
  have p2 := secList_perm (τ := o.tcd) h.cds
  rw [det_ordered' o p1 p2 hl h.timesCd h.timesC]
  unfold secSign
  congr 1
  unfold secList
  rw [det_blocks]
  · refine Finset.prod_congr rfl fun k _ => ?_
    unfold Conf.det
    rw [(byTime_perm _ _).length_eq]; rfl
  · intro k hk
    have := he k hk
    rw [(byTime_perm _ _).length_eq, (byTime_perm _ _).length_eq]
    exact this.symm
  · intro k hk l hl hkl b hb a ha
    have hb' := (byTime_perm _ _).mem_iff.mp hb
    have ha' := (byTime_perm _ _).mem_iff.mp ha
    unfold inSec at hb' ha'
    rw [List.mem_filter] at hb' ha'
    simp only [decide_eq_true_eq] at hb' ha'
    exact h.zero b hb'.1 a ha'.1 (by rw [hb'.2, ha'.2]; exact hkl)

theorem card_countP {l : List X} {n : ℕ} (hl : l.length = n) (p : X → Bool) :
    (Finset.univ.filter fun i : Fin n => (l[i.1]?).any p = true).card = l.countP p := by
  subst hl
  have e : (List.ofFn fun i : Fin l.length => l[i.1]) = l := List.ofFn_getElem
  conv_rhs => rw [← e]
  have h2 : ((List.ofFn fun i : Fin l.length => l[i.1]) : List X).countP p =
      Multiset.countP (fun x => p x = true) ((Finset.univ : Finset (Fin l.length)).val.map fun i => l[i.1]) := by
    rw [Fin.univ_val_map, Multiset.coe_countP]
    congr 1; funext x; simp
  rw [h2, Multiset.countP_map, Finset.card_def, Finset.filter_val]
  congr 1
  refine Multiset.filter_congr fun i _ => ?_
  rw [List.getElem?_eq_getElem i.2]; simp

/-- A matrix with more rows than columns in a sector is singular. -/
theorem det_pigeon {n : ℕ} (M : Matrix (Fin n) (Fin n) K) (I J : Finset (Fin n)) (h : J.card < I.card)
    (hz : ∀ i ∈ I, ∀ j, j ∉ J → M i j = 0) : M.det = 0 := by
  rw [Matrix.det_apply]
  refine Finset.sum_eq_zero fun σ _ => ?_
  have hc : J.card < (I.map (σ⁻¹ : Equiv.Perm (Fin n)).toEmbedding).card := by rw [Finset.card_map]; exact h
  obtain ⟨j, hj, hj'⟩ := Finset.exists_mem_notMem_of_card_lt_card hc
  obtain ⟨i, hi, rfl⟩ := Finset.mem_map.mp hj
  rw [Finset.prod_eq_zero (Finset.mem_univ (σ⁻¹ i)), smul_zero]
  have : M i (σ⁻¹ i) = 0 := hz i hi _ hj'
  simpa using this

theorem countP_inSec (σ : X → ℕ) (k : ℕ) (L : List X) : L.countP (fun x => decide (σ x = k)) = (inSec σ k L).length := by
  unfold inSec; rw [List.countP_eq_length_filter]

/-- A sector with unequal numbers of creation and annihilation operators makes the determinant vanish. -/
theorem det_uneven (h : Apart o fl n lab A) (hl : A.cds.length = A.cs.length) {k : ℕ} (hk : k < n)
    (hu : (A.sec fl lab k).cds.length ≠ (A.sec fl lab k).cs.length) : A.det o = 0 := by
  -- some sector has more annihilation operators
  have hex : ∃ k < n, (A.sec fl lab k).cds.length < (A.sec fl lab k).cs.length := by
    by_contra hcon
    push Not at hcon
    have s1 := len_inSec h.cds
    have s2 := len_inSec h.cs
    have : ∑ k ∈ Finset.range n, (inSec (fun b => lab (fl.fc b)) k A.cs).length <
        ∑ k ∈ Finset.range n, (inSec (fun a => lab (fl.fcd a)) k A.cds).length := by
      refine Finset.sum_lt_sum (fun i hi => hcon i (Finset.mem_range.mp hi)) ⟨k, Finset.mem_range.mpr hk, ?_⟩
      exact lt_of_le_of_ne (hcon k hk) (Ne.symm hu)
    omega
  obtain ⟨m, hm, hlt⟩ := hex
  unfold Conf.det detN
  refine det_pigeon _
    (Finset.univ.filter fun i : Fin A.cds.length => ((byTime o.tc A.cs)[i.1]?).any (fun b => decide (lab (fl.fc b) = m)) = true)
    (Finset.univ.filter fun j : Fin A.cds.length => ((byTime o.tcd A.cds)[j.1]?).any (fun a => decide (lab (fl.fcd a) = m)) = true)
    ?_ ?_
  · rw [card_countP (by rw [(byTime_perm _ _).length_eq]), card_countP (by rw [(byTime_perm _ _).length_eq]; exact hl.symm),
      (byTime_perm _ _).countP_eq, (byTime_perm _ _).countP_eq, countP_inSec (fun a => lab (fl.fcd a)), countP_inSec (fun b => lab (fl.fc b))]
    exact hlt
  · intro i hi j hj
    show greenAt o.G _ _ i.1 j.1 = 0
    refine greenAt_zero fun b a hb ha => ?_
    simp only [Finset.mem_filter, Finset.mem_univ, true_and, hb, ha, Option.any_some, decide_eq_true_eq] at hi hj
    refine h.zero b ((byTime_perm _ _).mem_iff.mp (List.mem_of_getElem? hb)) a ((byTime_perm _ _).mem_iff.mp (List.mem_of_getElem? ha)) ?_
    rw [hi]; exact fun e => hj e.symm

end CTInt
