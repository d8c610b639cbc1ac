import Verif.Proofs.FockWeight
import Verif.Proofs.OrderedSum
import Verif.Spec.SelfComplex

/-!
# The sum over all configurations is the partition function of the interacting Hamiltonian
-/

set_option linter.all false

namespace CTInt

open NormedSpace Matrix ComplexOrder MeasureTheory Filter

variable {K : Type} [RCLike K] {n : Type} [Fintype n] [DecidableEq n] {ns : ℕ} {a : ℕ → ℕ → Matrix n n K} {h : ℕ → ℕ → ℕ → K}

theorem real_smul_coe (t : ℝ) (X : Matrix n n K) : (t : K) • X = t • X := (RCLike.real_smul_eq_coe_smul (K := K) t X).symm

open scoped Matrix.Norms.Operator

/-- The thermal average as a continuous map. -/
noncomputable def thermalCL (β : ℝ) (H : Matrix n n K) : Matrix n n K →L[ℝ] K :=
  ((thermalL β H).restrictScalars ℝ).toContinuousLinearMap

theorem moved_eq (H V : Matrix n n K) (t : ℝ) : moved H V t = - atTime H t V := by
  unfold moved atTime
  rw [real_smul_coe]
  rfl

theorem evolved_eq_exp (H V : Matrix n n K) (t : ℝ) : evolved H V t = exp ((t : K) • H) * exp (-((t : K) • (H + V))) := by
  unfold evolved
  rw [real_smul_coe, real_smul_coe]
  rfl

theorem atTime_continuous (H X : Matrix n n K) : Continuous fun t : ℝ => atTime H t X := by
  have := (moved_continuous H X).neg
  refine this.congr fun t => ?_
  rw [Pi.neg_apply, moved_eq, neg_neg]

theorem atTime_sum {ι : Type} (H : Matrix n n K) (t : ℝ) (s : Finset ι) (f : ι → Matrix n n K) :
    atTime H t (∑ i ∈ s, f i) = ∑ i ∈ s, atTime H t (f i) := by
  unfold atTime
  rw [Finset.mul_sum, Finset.sum_mul]

theorem interactionH_eq (tbl : List (VDef K)) :
    interactionH a tbl = ∑ t ∈ Finset.range tbl.length, ∑ f ∈ Finset.range (numStates tbl t),
      ((tbl.getD t default).U / ((numStates tbl t : ℕ) : K)) • pairsOp a (tbl.getD t default) f := by
  unfold interactionH
  simp only [Finset.smul_sum]
  have : ∀ (l : List (VDef K)) (g : VDef K → Matrix n n K), (l.map g).sum = ∑ t ∈ Finset.range l.length, g (l.getD t default) := by
    intro l g
    induction l with
    | nil => simp
    | cons d l ih => 
      rw [List.map_cons, List.sum_cons, List.length_cons, Finset.sum_range_succ', add_comm, ih]
      rfl
  exact this _ _

/-- What a vertex contributes at its time. -/
noncomputable def vertexOp (a : ℕ → ℕ → Matrix n n K) (H : Matrix n n K) (tbl : List (VDef K)) (p : Pt) : Matrix n n K :=
  atTime H p.2.2 (-(tbl.getD p.1 default).U • pairsOp a (tbl.getD p.1 default) p.2.1)

theorem vertexSum_eq (H : Matrix n n K) (tbl : List (VDef K)) :
    vertexSum tbl (fun p => ((numStates tbl p.1 : ℕ) : ℝ)⁻¹ • vertexOp a H tbl p) = moved H (interactionH a tbl) := by
  funext τ
  rw [moved_eq, interactionH_eq, atTime_sum, ← Finset.sum_neg_distrib]
  unfold vertexSum
  refine Finset.sum_congr rfl fun t _ => ?_
  rw [atTime_sum, ← Finset.sum_neg_distrib]
  refine Finset.sum_congr rfl fun f _ => ?_
  unfold vertexOp
  simp only [atTime_smul]
  rw [← real_smul_coe, smul_smul, ← neg_smul]
  congr 1
  push_cast
  ring

variable [DecidableEq K] [Nonempty n] {c : Ctx K} {β : ℝ}

theorem fock_configSum (hβ : 0 ≤ β) (ha : Annihilators c.nf ns a) (hh : HermitianHops c.nf ns h)
    (hG : ThermalG0 β c.nf ns a (bareH c.nf ns h a) c.G0) (hm : MeasurableG0 c.G0) (hT : TermsOn c.nf ns c.tbl) (L : K →L[ℝ] ℝ) (M : ℕ) :
    (configSum c β M fun x => L (weight c.NI c.nf c.G0 c.tbl (x.map vertAt))) =
      L (thermal β (bareH c.nf ns h a) (∑ k ∈ Finset.range (M + 1), dyson (moved (bareH c.nf ns h a) (interactionH a c.tbl)) k β)) := by
  rw [← vertexSum_eq]
  set H := bareH c.nf ns h a with hH
  have hv : ∀ t f, Continuous fun τ => vertexOp a H c.tbl (t, f, τ) := fun t f => by
    show Continuous fun τ => atTime H τ (-(c.tbl.getD t default).U • pairsOp a (c.tbl.getD t default) f)
    exact atTime_continuous _ _
  have hF : ∀ x : List Pt, ValidPts β c.tbl x → x.Pairwise (fun p p' => p'.2.2 < p.2.2) →
      L (weight c.NI c.nf c.G0 c.tbl (x.map vertAt)) = (L.comp (thermalCL β H)) (x.map (vertexOp a H c.tbl)).prod := fun x hx hd => by
    rw [fock_weight ha hh hG hT hx hd]
    rfl
  exact configSum_dyson (F := fun x => L (weight c.NI c.nf c.G0 c.tbl (x.map vertAt))) (v := vertexOp a H c.tbl) (ω := L.comp (thermalCL β H)) hβ
    (L.continuous.measurable.comp (measurable_wt hm)) (fun x y hxy => congrArg L (wt_perm c hxy)) hv hF M

theorem fock_limit (hβ : 0 ≤ β) (ha : Annihilators c.nf ns a) (hh : HermitianHops c.nf ns h)
    (hG : ThermalG0 β c.nf ns a (bareH c.nf ns h a) c.G0) (hm : MeasurableG0 c.G0) (hT : TermsOn c.nf ns c.tbl) (L : K →L[ℝ] ℝ) :
    Tendsto (fun M => configSum c β M fun x => L (weight c.NI c.nf c.G0 c.tbl (x.map vertAt))) atTop
      (nhds (L ((exp (-(β : K) • (bareH c.nf ns h a + interactionH a c.tbl))).trace / (exp (-(β : K) • bareH c.nf ns h a)).trace))) := by
  refine Tendsto.congr (fun M => (fock_configSum hβ ha hh hG hm hT L M).symm) ?_
  have h1 := dyson_limit (bareH c.nf ns h a) (interactionH a c.tbl) hβ
  have h2 := ((L.comp (thermalCL β (bareH c.nf ns h a))).continuous.tendsto _).comp h1
  have e : thermalCL β (bareH c.nf ns h a) (evolved (bareH c.nf ns h a) (interactionH a c.tbl) β) =
      (exp (-(β : K) • (bareH c.nf ns h a + interactionH a c.tbl))).trace / (exp (-(β : K) • bareH c.nf ns h a)).trace := by
    show (exp (-(β : K) • bareH c.nf ns h a) * evolved (bareH c.nf ns h a) (interactionH a c.tbl) β).trace / _ = _
    congr 2
    rw [evolved_eq_exp, ← mul_assoc, neg_smul, matrix_exp_neg_mul, one_mul, neg_smul]
  rw [← e]
  exact h2

end CTInt
