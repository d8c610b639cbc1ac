import Verif.Spec.Ensemble
import Verif.Model.Manager

/-!
# Specification: configurations that can be taken apart
-/

set_option linter.all false

namespace CTInt

variable {K : Type} [RCLike K] [DecidableEq K]

/-- From every configuration with at most `M` vertices and with weight some vertex can be removed such that the modulus of the
    weight does not drop below `a` times its value. -/
def CanShrink (c : Ctx K) (beta : ℝ) (M : ℕ) (a : ℝ) : Prop :=
  ∀ x, ValidPts beta c.tbl x → x.length ≤ M → x ≠ [] → weight c.NI c.nf c.G0 c.tbl (x.map vertAt) ≠ 0 →
    ∃ i < x.length, a * ‖weight c.NI c.nf c.G0 c.tbl (x.map vertAt)‖ ≤ ‖weight c.NI c.nf c.G0 c.tbl ((x.eraseIdx i).map vertAt)‖

/-- From almost every configuration with at most `M` vertices and with weight some vertex can be removed such that the weight does not
    vanish.  The exceptions have measure zero; there is no bound on the ratio of the weights. -/
def AlmostShrinks (c : Ctx K) (beta : ℝ) (M : ℕ) : Prop :=
  ∀ n < M, ∀ᵐ x : Fin (n + 1) → Pt ∂MeasureTheory.Measure.pi fun _ => pointMeasure beta c.tbl,
    weight c.NI c.nf c.G0 c.tbl ((List.ofFn x).map vertAt) ≠ 0 →
    ∃ i < n + 1, weight c.NI c.nf c.G0 c.tbl (((List.ofFn x).eraseIdx i).map vertAt) ≠ 0

/-- The weights of the configurations with at most `M` vertices vanish at most on sets of measure zero. -/
def AlmostNonzero (c : Ctx K) (beta : ℝ) (M : ℕ) : Prop :=
  ∀ n ≤ M, ∀ᵐ x : Fin n → Pt ∂MeasureTheory.Measure.pi fun _ => pointMeasure beta c.tbl,
    weight c.NI c.nf c.G0 c.tbl ((List.ofFn x).map vertAt) ≠ 0

/-- The updates `l`, `n` times. -/
def sweeps (n : ℕ) (l : List Upd) : List Upd := (List.replicate n l).flatten

end CTInt
