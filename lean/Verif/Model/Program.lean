import Verif.Model.Solver
import Verif.Model.Postprocess

/-!
# Model of the program (src/main.hpp 11-53)

`n` processes, each with its own random numbers and its own uninitialised memory.  How often each of them goes round the loop is
decided by the parallel run loop (Model/RunLoop.lean) and a parameter here.  `collect_results` of ALPSCore adds up what all
processes passed to the observables; here the results are the records of all processes, one process after the other.  MPI, the
output on the terminal, the seeds of the random number generators and a process that ends alone are not modelled.
-/

set_option linter.all false

namespace CTInt

variable {K : Type} [RCLike K] [DecidableEq K] {S : Type}

/-- What the first process leaves: "/parameters" and "/simulation_raw_data/results" (main.hpp 45-48) and what `postprocess`
    writes. -/
structure Written (S : Type) where
  params : Params S
  results : List Record
  archive : Archive

/-- The uninitialised memory a process meets: while reading input, in the updates, in the measurements. -/
structure Memory (K : Type) where
  j : ReadJunk
  J : ℕ → ℕ → ℕ → ℕ → ℕ → ℕ → ℕ → K
  junk : ℕ → ℕ → ℕ → K

/-- One process up to the end of its loop, main.hpp 35-36: what it passed to the observables. -/
noncomputable def processRun (is : IStream S) (dbg : Bool) (P : Params S) (mem : Memory K) (u : ℕ → ℝ) (passes fuel : ℕ) :
    Run (List Record) := do
  let V ← Run.lift (FullSolver.create (K := K) is dbg P mem.j)
  let y ← V.s.passes V.a V.m V.q V.c mem.J mem.junk u fuel passes
  pure (y.log.map fun r => r.values)

/-- `run_simulation`, main.hpp 11-53: what each process has written when all have returned (always with exit code 0). `help` is
    `par.help_requested`; `nm` is the number of frequencies, `sj` the spherical Bessel functions, `junkP` the uninitialised memory of
    `postprocess`. -/
noncomputable def runSimulation (is : IStream S) (dbg help : Bool) (P : Params S) (nm : ℕ) (sj : ℕ → ℝ → ℝ) {n : ℕ} (mem : Fin n → Memory K)
    (junkP : ℕ → ℕ → ℝ) (u : Fin n → ℕ → ℝ) (passes : Fin n → ℕ) (fuel : ℕ) : Run (Fin n → Option (Written S)) :=
  if help then pure fun _ => none else do
    let rs ← Run.foldl (fun rs i => do
      let r ← processRun is dbg P (mem i) (u i) (passes i) fuel
      pure (rs ++ r)) [] (List.finRange n)
    let ar ← Run.lift (postprocess P.spins P.sites P.nBin P.nLegendre nm P.beta sj junkP rs)
    pure fun i => if i.val = 0 then some ⟨P, rs, ar⟩ else none

end CTInt
