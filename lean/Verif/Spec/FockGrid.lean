import Verif.Spec.FockMotion
import Verif.Spec.Solver
import Verif.Spec.Green

/-!
# Specification: a file that lists the bare Green's function of a Hamiltonian on a grid
-/

set_option linter.all false

namespace CTInt

open Matrix

variable {K : Type} [RCLike K] [DecidableEq K] {n : Type} [Fintype n] [DecidableEq n]

/-- Up to `δ`, the file lists - <c_s(τ) c†_s'> at the points of its grid on [0,β]. -/
def ListsGreen (δ β : ℝ) (nf ns : ℕ) (a : ℕ → ℕ → Matrix n n K) (H : Matrix n n K) (file : GFile) : Prop :=
  ∀ z < nf, ∀ s < ns, ∀ s' < ns, ∀ i : ℕ, (i : ℤ) < file.ntau → ‖(file.value z s s' i : K) - greenOf β a H z s s' (file.grid β i)‖ ≤ δ

/-- A solver was created for inverse temperature `β`, `nf` flavors, `ns` sites and the terms `tbl`, with a file that has at least `N` grid points and lists the bare
    Green's function up to `δ`. -/
structure FineRun {S : Type} (is : IStream S) (dbg : Bool) (P : Params S) (j : ReadJunk) (V : FullSolver K) (β : ℝ) (nf ns : ℕ) (a : ℕ → ℕ → Matrix n n K)
    (H : Matrix n n K) (tbl : List (VDef K)) (δ : ℝ) (N : ℕ) : Prop where
  made : FullSolver.create is dbg P j = .ok V
  beta : P.beta = β
  spins : P.spins = nf
  sites : P.sites = ns
  terms : V.c.tbl = tbl
  file : ∃ file, P.g0File = some (some file) ∧ (N : ℤ) ≤ file.ntau ∧ ListsGreen δ β nf ns a H file

end CTInt
