import Verif.Spec.FockProgram

/-!
# Specification: a program with isolated sites
-/

set_option linter.all false

namespace CTInt

variable {S : Type}

/-- The file lists -1/2 on each of `ns` sites and 0 between different sites, at all times and for both flavors: the Green's function of half-filled sites without hopping. -/
def IsolatedFile (ns : ℕ) (file : GFile) : Prop :=
  ∀ z < 2, ∀ s < ns, ∀ s' < ns, ∀ i : ℕ, (i : ℤ) < file.ntau → (file.value z s s' i : ℝ) = if s = s' then -(1 / 2) else 0

/-- The program reads a file of isolated sites, with at least `N` points of time, and "model.U". -/
structure IsolatedProgram (is : IStream S) (dbg : Bool) (P : Params S) {np : ℕ} (mem : Fin np → Memory ℝ) (V : FullSolver ℝ) (β U : ℝ) (ns N : ℕ) : Prop where
  procs : 0 < np
  made : ∀ i, FullSolver.create is dbg P (mem i).j = .ok V
  beta : P.beta = β
  spins : P.spins = 2
  sites : P.sites = ns
  term : P.U = some U
  file : ∃ file, P.g0File = some (some file) ∧ (N : ℤ) ≤ file.ntau ∧ IsolatedFile ns file
  params : UsableParams P
  fresh : P.config = none
  inserts : 0 < P.kIns
  sweeps : 0 < P.nIR
  samples : 0 < P.nSamples

end CTInt
