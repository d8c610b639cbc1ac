import Verif.Spec.FockGrid
import Verif.Spec.Converge
import Verif.Spec.Program
import Verif.Spec.Postprocess
import Verif.Model.Program
import Verif.Props.Matsubara
import Verif.Spec.Streams

/-!
# Specification: runs of the whole program with a file that lists the bare Green's function
-/

set_option linter.all false

namespace CTInt

open MeasureTheory

variable {K : Type} [RCLike K] [DecidableEq K] {n : Type} [Fintype n] [DecidableEq n] {S : Type}

/-- All processes (there is one at least) construct the solver `V` from usable parameters with a file as in `FineRun`, start from the empty configuration, insert and
    remove vertices and measure; weights vanish at most on sets of measure zero. -/
structure FineProgram (is : IStream S) (dbg : Bool) (P : Params S) {np : ℕ} (mem : Fin np → Memory K) (V : FullSolver K) (β : ℝ) (nf ns : ℕ)
    (a : ℕ → ℕ → Matrix n n K) (H : Matrix n n K) (tbl : List (VDef K)) (δ : ℝ) (N : ℕ) : Prop where
  procs : 0 < np
  runs : ∀ i, FineRun is dbg P (mem i).j V β nf ns a H tbl δ N
  params : UsableParams P
  usable : UsableTerms nf tbl
  fresh : P.config = none
  inserts : 0 < P.kIns
  sweeps : 0 < P.nIR
  samples : 0 < P.nSamples
  nonzero : AlmostNonzero V.c β P.maxOrder

/-- With probability one: when the program is run with more and more steps, the archives it writes have the property `Q` from some number of steps on. -/
def ArchivesEventually (is : IStream S) (dbg : Bool) (P : Params S) (nm : ℕ) {np : ℕ} (mem : Fin np → Memory K) (Q : Archive → Prop) : Prop :=
  ∀ sj : ℕ → ℝ → ℝ, IsSphBessel sj → ∀ junkP : ℕ → ℕ → ℕ → ℝ, ∀ μ : Measure (Fin np → ℕ → ℝ), EachUniform μ →
    ∀ᵐ u ∂μ, ∀ (T : ℕ → ℕ) (k : ℕ → Fin np → ℕ), Filter.Tendsto T Filter.atTop Filter.atTop → (∀ l, Completes ⟨T l, P.therm, P.period.toNat⟩ (k l)) →
      ∃ (rs : ℕ → List Record) (ar : ℕ → Archive),
        (∀ᶠ l in Filter.atTop, Returns (fun fuel => runSimulation is dbg false { P with total := T l } nm sj mem (junkP l) u (k l) fuel)
          (fun i => if i.val = 0 then some ⟨{ P with total := T l }, rs l, ar l⟩ else none)) ∧
        ∀ᶠ l in Filter.atTop, Q (ar l)

end CTInt
