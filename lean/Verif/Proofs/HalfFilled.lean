import Verif.Spec.HalfFilled
import Mathlib.LinearAlgebra.Matrix.Determinant.Basic

/-!
# The weights at particle-hole symmetry
-/

set_option linter.all false

namespace CTInt

variable {U δ β : ℝ} {ns : ℕ} {tbl : List (VDef ℝ)} {ε : ℕ → ℝ} {G0 : Op → Op → ℝ} {NI : ℝ}

theorem IsHubbard.term (hT : IsHubbard U δ ns tbl) {v : Vert} (hv : v.type < tbl.length) :
    ∃ w : UDef ℝ, termOf tbl v = w.d ∧ OnsiteTerm U δ v.type [v.type, v.type, v.type, v.type] [0, 1] w := by
  obtain ⟨w, h1, h2⟩ := hT.2 v.type (by rw [← hT.1]; exact hv)
  refine ⟨w, ?_, h2⟩
  unfold termOf
  rw [List.getD_eq_getElem?_getD, h1]
  rfl

theorem IsHubbard.rows (hT : IsHubbard U δ ns tbl) {vs : List Vert} (hv : ∀ v ∈ vs, v.type < tbl.length) {z : ℕ} (hz : z < 2) :
    rowsOf NI tbl vs z = vs.map fun v => rowOf NI tbl v z := by
  unfold rowsOf
  induction vs with
  | nil => rfl
  | cons v vs ih =>
    rw [List.flatMap_cons, ih fun w hw => hv w (List.mem_cons_of_mem _ hw), List.map_cons]
    obtain ⟨w, h1, h2⟩ := hT.term (hv v (by simp))
    have : rowsV NI tbl z v = [rowOf NI tbl v z] := by
      unfold rowsV flavorOf
      rw [h1, h2.rank, h2.flavors]
      obtain rfl | rfl : z = 0 ∨ z = 1 := by omega
      · rfl
      · rfl
    rw [this]
    rfl

/-- The matrix of flavor 1 is minus the transpose of that of flavor 0, up to the signs of the sites. -/
theorem hubbard_mirror (hT : IsHubbard U δ ns tbl) (hS : PHSymmetric β ns ε G0) {vs : List Vert} (hv : ∀ v ∈ vs, VertOK tbl v)
    (hi : ∀ v ∈ vs, v.nonInt = false) (hb : ∀ v ∈ vs, 0 ≤ v.time ∧ v.time < β) (hd : vs.Pairwise fun v w => v.type ≠ w.type ∨ v.time ≠ w.time) :
    detN vs.length (rowG G0 (rowsOf NI tbl vs 1)) = (-1) ^ vs.length * detN vs.length (rowG G0 (rowsOf NI tbl vs 0)) := by
  have hl : ∀ v ∈ vs, v.type < tbl.length := fun v h => (hv v h).1
  rw [hT.rows hl one_lt_two, hT.rows hl two_pos]
  set n := vs.length with hn
  set D : Matrix (Fin n) (Fin n) ℝ := Matrix.diagonal fun i => ε (vs[i.val]'(by omega)).type with hD
  have hDD : D.det * D.det = 1 := by
    rw [hD, Matrix.det_diagonal, ← Finset.prod_mul_distrib]
    refine Finset.prod_eq_one fun i _ => ?_
    have hm : vs[i.val]'(by omega) ∈ vs := List.getElem_mem _
    rcases hS.unit (vs[i.val]'(by omega)).type (by rw [← hT.1]; exact hl _ hm) with h | h <;> rw [h] <;> norm_num
  have hM : toM n n (rowG G0 (vs.map fun v => rowOf NI tbl v 1)) = - (D * (toM n n (rowG G0 (vs.map fun v => rowOf NI tbl v 0))).transpose * D) := by
    ext i j
    rw [Matrix.neg_apply, hD, Matrix.mul_diagonal, Matrix.diagonal_mul, Matrix.transpose_apply]
    simp only [toM, Matrix.of_apply]
    unfold rowG specG
    have e : ∀ (z : ℕ) (k : Fin n), (vs.map fun v => rowOf NI tbl v z).getD k.val default = rowOf NI tbl (vs[k.val]'(by omega)) z := by
      intro z k
      rw [List.getD_eq_getElem?_getD, List.getElem?_map, List.getElem?_eq_getElem (by omega)]
      rfl
    simp only [e]
    set v := vs[i.val]'(by omega) with hvi
    set w := vs[j.val]'(by omega) with hwj
    have hmv : v ∈ vs := List.getElem_mem _
    have hmw : w ∈ vs := List.getElem_mem _
    obtain ⟨v', v1, v2⟩ := hT.term (hl v hmv)
    obtain ⟨w', w1, w2⟩ := hT.term (hl w hmw)
    have hsv : v.type < ns := by rw [← hT.1]; exact hl v hmv
    have hsw : w.type < ns := by rw [← hT.1]; exact hl w hmw
    have ev : ∀ z < 2, (rowOf NI tbl v z).an = ⟨z, v.type, v.time, -(z : ℤ)⟩ ∧ (rowOf NI tbl v z).cr = ⟨z, v.type, v.time, -(z : ℤ)⟩ := by
      intro z hz
      unfold rowOf flavorOf
      rw [v1, v2.flavors, v2.sites]
      obtain rfl | rfl : z = 0 ∨ z = 1 := by omega
      · exact ⟨rfl, rfl⟩
      · exact ⟨rfl, rfl⟩
    have ew : ∀ z < 2, (rowOf NI tbl w z).an = ⟨z, w.type, w.time, -(z : ℤ)⟩ ∧ (rowOf NI tbl w z).cr = ⟨z, w.type, w.time, -(z : ℤ)⟩ := by
      intro z hz
      unfold rowOf flavorOf
      rw [w1, w2.flavors, w2.sites]
      obtain rfl | rfl : z = 0 ∨ z = 1 := by omega
      · exact ⟨rfl, rfl⟩
      · exact ⟨rfl, rfl⟩
    rw [(ev 1 one_lt_two).1, (ew 1 one_lt_two).2, (ew 0 two_pos).1, (ev 0 two_pos).2]
    by_cases hij : i.val = j.val
    · have hvw : v = w := by rw [hvi, hwj]; simp only [hij]
      rw [if_pos hij, if_pos hij.symm, ← hvw]
      have h1 := hS.filling v.type hsv v.time (-((1 : ℕ) : ℤ)) (-((0 : ℕ) : ℤ))
      have hu : ε v.type * ε v.type = 1 := by
        rcases hS.unit v.type hsv with h | h <;> rw [h] <;> norm_num
      have hal : (rowOf NI tbl v 1).al + (rowOf NI tbl v 0).al = 1 := by
        show fieldOf NI tbl v 1 + fieldOf NI tbl v 0 = 1
        unfold fieldOf
        obtain ⟨a0, a1⟩ := (hv v hmv).2 (hi v hmv)
        rw [hi v hmv, v1]
        rw [v1, v2.numAf] at a1
        simp only [Bool.false_eq_true, if_false]
        obtain h | h : v.af = 0 ∨ v.af = 1 := by omega
        · rw [h]
          simp only [Int.toNat_zero]
          rw [v2.up.1, v2.up.2]; ring
        · rw [h]
          simp only [Int.toNat_one]
          rw [v2.down.1, v2.down.2, v2.up.1, v2.up.2]; ring
      have : ∀ x y : ℝ, ε v.type * (x - y) * ε v.type = x - y := fun x y => by
        rw [mul_right_comm, hu, one_mul]
      rw [this]
      linarith
    · rw [if_neg hij, if_neg (Ne.symm hij), sub_zero, sub_zero]
      have hne : v.type ≠ w.type ∨ v.time ≠ w.time := by
        rcases Nat.lt_or_gt_of_ne hij with h | h
        · exact List.pairwise_iff_getElem.1 hd i.val j.val (by omega) (by omega) h
        · have := List.pairwise_iff_getElem.1 hd j.val i.val (by omega) (by omega) h
          exact this.imp Ne.symm Ne.symm
      rw [hS.mirror v.type hsv w.type hsw v.time w.time (-((1 : ℕ) : ℤ)) (-((0 : ℕ) : ℤ))
        (abs_lt.2 ⟨by have := hb v hmv; have := hb w hmw; linarith, by have := hb v hmv; have := hb w hmw; linarith⟩) hne]
      ring
  unfold detN
  rw [hM, Matrix.det_neg, Matrix.det_mul, Matrix.det_mul, Matrix.det_transpose, Fintype.card_fin]
  rw [mul_comm D.det, mul_assoc, hDD, mul_one]

/-- The weight is a square times a power of `U`. -/
theorem hubbard_weight (hT : IsHubbard U δ ns tbl) (hS : PHSymmetric β ns ε G0) {vs : List Vert} (hv : ∀ v ∈ vs, VertOK tbl v)
    (hi : ∀ v ∈ vs, v.nonInt = false) (hb : ∀ v ∈ vs, 0 ≤ v.time ∧ v.time < β) (hd : vs.Pairwise fun v w => v.type ≠ w.type ∨ v.time ≠ w.time) :
    weight NI 2 G0 tbl vs = U ^ vs.length * (detN vs.length (rowG G0 (rowsOf NI tbl vs 0))) ^ 2 := by
  have hl : ∀ v ∈ vs, v.type < tbl.length := fun v h => (hv v h).1
  have hint : interacting vs = vs := by
    unfold interacting
    rw [List.filter_eq_self]
    intro v h
    simp [hi v h]
  have hlen : ∀ z < 2, (rowsOf NI tbl vs z).length = vs.length := fun z hz => by rw [hT.rows hl hz, List.length_map]
  unfold weight detWeight uWeight
  rw [hint, Finset.prod_range_succ, Finset.prod_range_one, hlen 0 two_pos, hlen 1 one_lt_two, hubbard_mirror hT hS hv hi hb hd]
  have hU : (vs.map fun v => - (termOf tbl v).U).prod = (-1) ^ vs.length * U ^ vs.length := by
    have : ∀ v ∈ vs, - (termOf tbl v).U = -U := by
      intro v h
      obtain ⟨w, h1, h2⟩ := hT.term (hl v h)
      rw [h1, h2.U]
    rw [List.map_congr_left this, List.map_const', List.prod_replicate, neg_pow]
  rw [hU]
  have h1 : ((-1 : ℝ) ^ vs.length) * (-1) ^ vs.length = 1 := by rw [← mul_pow]; norm_num
  linear_combination (U ^ vs.length * (detN vs.length (rowG G0 (rowsOf NI tbl vs 0))) ^ 2) * h1

end CTInt
