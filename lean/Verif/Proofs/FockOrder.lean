import Verif.Spec.FockOrder
import Verif.Proofs.FockSum

/-!
# Sums over configurations weighted with the number of their vertices
-/

set_option linter.all false

namespace CTInt

open NormedSpace Matrix ComplexOrder MeasureTheory Filter

variable {n : Type} [Fintype n] [DecidableEq n]

/-- A matrix with a first-order change: products obey the product rule. -/
def dual (X Y : Matrix n n ℝ) : Matrix (n ⊕ n) (n ⊕ n) ℝ := fromBlocks X Y 0 X

theorem dual_mul (X Y X' Y' : Matrix n n ℝ) : dual X Y * dual X' Y' = dual (X * X') (X * Y' + Y * X') := by
  unfold dual
  rw [fromBlocks_multiply]
  simp

theorem dual_one : dual (1 : Matrix n n ℝ) 0 = 1 := fromBlocks_one

theorem dual_add (X Y X' Y' : Matrix n n ℝ) : dual X Y + dual X' Y' = dual (X + X') (Y + Y') := by
  unfold dual
  rw [fromBlocks_add, add_zero]

theorem dual_smul (t : ℝ) (X Y : Matrix n n ℝ) : t • dual X Y = dual (t • X) (t • Y) := by
  unfold dual
  rw [fromBlocks_smul, smul_zero]

theorem dual_neg (X Y : Matrix n n ℝ) : -dual X Y = dual (-X) (-Y) := by
  have := dual_smul (-1) X Y
  simpa using this

theorem dual_sum {ι : Type} (s : Finset ι) (f g : ι → Matrix n n ℝ) : ∑ i ∈ s, dual (f i) (g i) = dual (∑ i ∈ s, f i) (∑ i ∈ s, g i) := by
  classical
  induction s using Finset.induction_on with
  | empty => simp only [Finset.sum_empty]; unfold dual; exact fromBlocks_zero.symm
  | insert i s hi ih => rw [Finset.sum_insert hi, Finset.sum_insert hi, Finset.sum_insert hi, ih, dual_add]

theorem dual_prod {ι : Type} (v : ι → Matrix n n ℝ) (r : ι → ℝ) (l : List ι) :
    (l.map fun p => dual (v p) (r p • v p)).prod = dual (l.map v).prod ((l.map r).sum • (l.map v).prod) := by
  induction l with
  | nil => simp [dual_one]
  | cons p l ih =>
    rw [List.map_cons, List.prod_cons, ih, dual_mul, List.map_cons, List.prod_cons, List.map_cons, List.sum_cons, mul_smul_comm, smul_mul_assoc, ← add_smul, add_comm]

open scoped Matrix.Norms.Operator

theorem dual_continuous {Ω : Type} [TopologicalSpace Ω] {f g : Ω → Matrix n n ℝ} (hf : Continuous f) (hg : Continuous g) : Continuous fun o => dual (f o) (g o) :=
  Continuous.matrix_fromBlocks hf hg continuous_const hf

/-- Twice the same matrix. -/
def dualHom : Matrix n n ℝ →+* Matrix (n ⊕ n) (n ⊕ n) ℝ where
  toFun X := dual X 0
  map_one' := dual_one
  map_mul' X Y := by rw [dual_mul]; simp
  map_zero' := by unfold dual; exact fromBlocks_zero
  map_add' X Y := by rw [dual_add, add_zero]

theorem dual_exp (X : Matrix n n ℝ) : exp (dual X 0) = dual (exp X) 0 := by
  letI : NormedAlgebra ℚ (Matrix n n ℝ) := NormedAlgebra.restrictScalars ℚ ℝ _
  letI : NormedAlgebra ℚ (Matrix (n ⊕ n) (n ⊕ n) ℝ) := NormedAlgebra.restrictScalars ℚ ℝ _
  exact (map_exp dualHom (dual_continuous continuous_id continuous_const) X).symm

/-- The first-order change. -/
noncomputable def changeL : Matrix (n ⊕ n) (n ⊕ n) ℝ →L[ℝ] Matrix n n ℝ :=
  LinearMap.toContinuousLinearMap { toFun := toBlocks₁₂, map_add' := fun _ _ => rfl, map_smul' := fun _ _ => rfl }

theorem changeL_dual (X Y : Matrix n n ℝ) : changeL (dual X Y) = Y := by
  show toBlocks₁₂ (fromBlocks X Y 0 X) = Y
  exact toBlocks_fromBlocks₁₂ _ _ _ _

theorem changeL_mul (X : Matrix n n ℝ) (Z : Matrix (n ⊕ n) (n ⊕ n) ℝ) : changeL (dual X 0 * Z) = X * changeL Z := by
  show toBlocks₁₂ (fromBlocks X 0 0 X * Z) = X * toBlocks₁₂ Z
  conv_lhs => rw [← fromBlocks_toBlocks Z, fromBlocks_multiply]
  rw [toBlocks_fromBlocks₁₂]
  simp

theorem dual_pow (X Y : Matrix n n ℝ) (k : ℕ) : ∃ Z, dual X Y ^ k = dual (X ^ k) Z ∧ ∀ j, (X ^ j * Z).trace = k * (Y * X ^ (k - 1 + j)).trace := by
  induction k with
  | zero => exact ⟨0, by rw [pow_zero, pow_zero, dual_one], fun j => by simp⟩
  | succ k ih =>
    obtain ⟨Z, h1, h2⟩ := ih
    refine ⟨X ^ k * Y + Z * X, by rw [pow_succ, h1, dual_mul, pow_succ], fun j => ?_⟩
    have e1 : (X ^ j * (X ^ k * Y)).trace = (Y * X ^ (k + j)).trace := by
      rw [← mul_assoc, ← pow_add, trace_mul_comm, add_comm]
    have e2 : (X ^ j * (Z * X)).trace = k * (Y * X ^ (k + j)).trace := by
      rw [← mul_assoc, trace_mul_comm, ← mul_assoc, ← pow_succ', h2 (j + 1)]
      cases k with
      | zero => simp
      | succ k => rw [show k + 1 - 1 + (j + 1) = k + 1 + j by omega]
    rw [mul_add, trace_add, e1, e2, Nat.add_sub_cancel]
    push_cast
    ring

/-- The derivative of the trace of an exponential. -/
theorem exp_change (X Y : Matrix n n ℝ) : (changeL (exp (dual X Y))).trace = (Y * exp X).trace := by
  letI : NormedAlgebra ℚ (Matrix n n ℝ) := NormedAlgebra.restrictScalars ℚ ℝ _
  letI : NormedAlgebra ℚ (Matrix (n ⊕ n) (n ⊕ n) ℝ) := NormedAlgebra.restrictScalars ℚ ℝ _
  let T : Matrix n n ℝ →L[ℝ] ℝ := LinearMap.toContinuousLinearMap (traceLinearMap n ℝ ℝ)
  let T' : Matrix n n ℝ →L[ℝ] ℝ := LinearMap.toContinuousLinearMap ((traceLinearMap n ℝ ℝ).comp (LinearMap.mulLeft ℝ Y))
  have s1 := (exp_series_hasSum_exp' (𝕂 := ℝ) (dual X Y)).mapL (T.comp changeL)
  have s2 := (exp_series_hasSum_exp' (𝕂 := ℝ) X).mapL T'
  have v1 : ∀ k : ℕ, (T.comp changeL) ((k.factorial : ℝ)⁻¹ • dual X Y ^ k) = (k.factorial : ℝ)⁻¹ * (k * (Y * X ^ (k - 1)).trace) := by
    intro k
    obtain ⟨Z, h1, h2⟩ := dual_pow X Y k
    rw [map_smul, smul_eq_mul, h1]
    have := h2 0
    rw [pow_zero, one_mul, add_zero] at this
    show _ * (changeL (dual (X ^ k) Z)).trace = _
    rw [changeL_dual, this]
  have v2 : ∀ k : ℕ, T' ((k.factorial : ℝ)⁻¹ • X ^ k) = (k.factorial : ℝ)⁻¹ * (Y * X ^ k).trace := by
    intro k
    rw [map_smul, smul_eq_mul]
    rfl
  simp only [v1] at s1
  simp only [v2] at s2
  have s3 := (hasSum_nat_add_iff' 1).2 s1
  simp only [Finset.range_one, Finset.sum_singleton, Nat.cast_zero, zero_mul, mul_zero, sub_zero] at s3
  have e : ∀ k : ℕ, (((k + 1).factorial : ℕ) : ℝ)⁻¹ * (((k + 1 : ℕ) : ℝ) * (Y * X ^ (k + 1 - 1)).trace) = (k.factorial : ℝ)⁻¹ * (Y * X ^ k).trace := by
    intro k
    rw [Nat.factorial_succ, Nat.add_sub_cancel]
    have h1 : ((k + 1 : ℕ) : ℝ) ≠ 0 := by positivity
    have h2 : (k.factorial : ℝ) ≠ 0 := by positivity
    push_cast at h1 ⊢
    field_simp
  simp only [e] at s3
  exact s3.unique s2

theorem dual_moved (H V W : Matrix n n ℝ) (t : ℝ) : moved (dual H 0) (dual V W) t = dual (moved H V t) (moved H W t) := by
  rw [moved_eq, moved_eq, moved_eq]
  unfold atTime
  rw [dual_smul, dual_neg, smul_zero, neg_zero, dual_exp, dual_exp, dual_mul, dual_mul, dual_neg]
  simp

variable {ns : ℕ} {a : ℕ → ℕ → Matrix n n ℝ} {h : ℕ → ℕ → ℕ → ℝ} {c : Ctx ℝ} {β : ℝ}

theorem multiplied_getD (ρ : VDef ℝ → ℕ) (tbl : List (VDef ℝ)) {t : ℕ} (ht : t < tbl.length) :
    (multiplied ρ tbl).getD t default = { tbl.getD t default with U := (ρ (tbl.getD t default) : ℝ) * (tbl.getD t default).U } := by
  unfold multiplied
  simp [List.getD, ht]

theorem dual_vertexSum (H : Matrix n n ℝ) (tbl : List (VDef ℝ)) (ρ : VDef ℝ → ℕ) :
    vertexSum tbl (fun p => ((numStates tbl p.1 : ℕ) : ℝ)⁻¹ • dual (vertexOp a H tbl p) ((ρ (tbl.getD p.1 default) : ℝ) • vertexOp a H tbl p)) =
      moved (dual H 0) (dual (interactionH a tbl) (interactionH a (multiplied ρ tbl))) := by
  funext τ
  rw [dual_moved, ← vertexSum_eq, ← vertexSum_eq]
  unfold vertexSum
  simp only [dual_smul, dual_sum]
  congr 1
  rw [show (multiplied ρ tbl).length = tbl.length by simp [multiplied]]
  refine Finset.sum_congr rfl fun t ht => ?_
  have e := multiplied_getD ρ tbl (Finset.mem_range.1 ht)
  have e2 : numStates (multiplied ρ tbl) t = numStates tbl t := by unfold numStates; rw [e]
  rw [e2]
  refine Finset.sum_congr rfl fun f _ => ?_
  unfold vertexOp
  simp only [e]
  rw [show pairsOp a { tbl.getD t default with U := (ρ (tbl.getD t default) : ℝ) * (tbl.getD t default).U } f = pairsOp a (tbl.getD t default) f from rfl]
  simp only [atTime_smul, smul_smul]
  congr 1
  ring

theorem measurable_counts (c : Ctx ℝ) (ρ : VDef ℝ → ℕ) : Measurable fun x : List Pt => (x.map fun p => (ρ (c.tbl.getD p.1 default) : ℝ)).sum := by
  refine measurable_of_length' fun n => measurable_of_tags fun k => ?_
  have : ∀ τ : Fin n → ℝ, (List.ofFn (untag k τ)).map (fun p => (ρ (c.tbl.getD p.1 default) : ℝ)) =
      (List.finRange n).map fun i => (ρ (c.tbl.getD (k i).1 default) : ℝ) := by
    intro τ
    rw [List.ofFn_eq_map, List.map_map]
    rfl
  simp only [this]
  exact measurable_const

variable [Nonempty n]

/-- The sum over all configurations weighted with numbers that depend on the types of the vertices. -/
theorem order_limit (hβ : 0 ≤ β) (ha : Annihilators c.nf ns a) (hh : HermitianHops c.nf ns h)
    (hG : ThermalG0 β c.nf ns a (bareH c.nf ns h a) c.G0) (hm : MeasurableG0 c.G0) (hT : TermsOn c.nf ns c.tbl) (ρ : VDef ℝ → ℕ) :
    Tendsto (fun M => configSum c β M fun x => weight c.NI c.nf c.G0 c.tbl (x.map vertAt) * (x.map fun p => (ρ (c.tbl.getD p.1 default) : ℝ)).sum) atTop
      (nhds (-β * (interactionH a (multiplied ρ c.tbl) * exp (-β • (bareH c.nf ns h a + interactionH a c.tbl))).trace / (exp (-β • bareH c.nf ns h a)).trace)) := by
  set H := bareH c.nf ns h a with hH
  set V := interactionH a c.tbl with hV
  set W := interactionH a (multiplied ρ c.tbl) with hW
  have hv : ∀ t f, Continuous fun τ => vertexOp a H c.tbl (t, f, τ) := fun t f => by
    show Continuous fun τ => atTime H τ (-(c.tbl.getD t default).U • pairsOp a (c.tbl.getD t default) f)
    exact atTime_continuous _ _
  have hsum := measurable_counts c ρ
  have key := fun M => configSum_dyson (c := c) (F := fun x => weight c.NI c.nf c.G0 c.tbl (x.map vertAt) * (x.map fun p => (ρ (c.tbl.getD p.1 default) : ℝ)).sum)
    (v := fun p => dual (vertexOp a H c.tbl p) ((ρ (c.tbl.getD p.1 default) : ℝ) • vertexOp a H c.tbl p)) (ω := (thermalCL β H).comp changeL) hβ
    ((measurable_wt hm).mul hsum) (fun x y hxy => by
      show wt c x * _ = wt c y * _
      rw [wt_perm c hxy, (hxy.map _).sum_eq])
    (fun t f => dual_continuous (hv t f) ((hv t f).const_smul (ρ (c.tbl.getD t default) : ℝ))) (fun x hx hd => by
      rw [dual_prod, fock_weight ha hh hG hT hx hd]
      show _ = thermalCL β H (changeL _)
      rw [changeL_dual, map_smul, smul_eq_mul, mul_comm]
      rfl) M
  simp only [key, dual_vertexSum]
  have h1 := dyson_limit (dual H 0) (dual V W) hβ
  have h2 := (((thermalCL β H).comp changeL).continuous.tendsto _).comp h1
  have e : ((thermalCL β H).comp changeL) (evolved (dual H 0) (dual V W) β) = -β * (W * exp (-β • (H + V))).trace / (exp (-β • H)).trace := by
    show (exp (-β • H) * changeL (evolved (dual H 0) (dual V W) β)).trace / (exp (-β • H)).trace = _
    rw [evolved_eq_exp]
    show (exp (-β • H) * changeL (exp (β • dual H 0) * exp (-(β • (dual H 0 + dual V W))))).trace / (exp (-β • H)).trace = _
    rw [dual_smul, smul_zero, dual_exp, changeL_mul, ← mul_assoc, neg_smul, matrix_exp_neg_mul, one_mul, dual_add, zero_add, dual_smul, dual_neg, exp_change,
      neg_mul, trace_neg, smul_mul_assoc, trace_smul, smul_eq_mul, neg_smul, neg_mul]
  rw [← e]
  exact h2

end CTInt
