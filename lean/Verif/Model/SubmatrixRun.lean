import Verif.Model.Submatrix
import Verif.Spec.Machine

/-!
# Sequences of calls on a `SubmatrixUpdate` object

The callers (`update_manager.hpp` 353-427, 431-498, 674-728) call `init_update`, then repeatedly `try_spin_flip`
followed by `perform_spin_flip` or `reject_spin_flip`, then `finalize_update`; `recompute_matrix` is called
between batches (`interaction_expansion.ipp` 88-154).
-/

set_option linter.all false

namespace CTInt

variable {K : Type} [RCLike K] [DecidableEq K]

/-- One call on the modelled object; `J` supplies the contents of uninitialised memory. -/
noncomputable def Sub.call (c : Ctx K) (J : ℕ → ℕ → ℕ → ℕ → K) (s : Sub K) : Call → Res (Sub K)
  | .start new => s.initUpdate c (J 0) (J 1) (J 2) new
  | .flip pos spins acc => do
    let (s, _) ← s.trySpinFlip c pos spins
    if acc then s.performSpinFlip c (J 0) pos spins else s.rejectSpinFlip c
  | .finish => s.finalizeUpdate c (J 0) (J 1) (J 2)
  | .recompute => s.recompute c

/-- Several calls; `J k` is the uninitialised memory met by the `k`-th of the remaining calls. -/
noncomputable def Sub.run (c : Ctx K) (J : ℕ → ℕ → ℕ → ℕ → ℕ → K) (s : Sub K) : List Call → Res (Sub K)
  | [] => .ok s
  | call :: calls => do
    let s ← s.call c (J calls.length) call
    s.run c J calls

end CTInt
