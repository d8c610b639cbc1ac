import Verif.Spec.Config
import Verif.Spec.Green
import Mathlib.Analysis.RCLike.Basic

/-!
# Specification: Hermitian Hamiltonians

Conjugation exchanges creation and annihilation operators and reverses the order of the times.
-/

set_option linter.all false

namespace CTInt

variable {K : Type} [RCLike K]

/-- The term whose operator pairs are those of `d` with creator and annihilator exchanged, with conjugate coupling and fields; state
    `s` of `d` is state `π s` of `d'`. -/
structure ConjTerm (π : ℕ → ℕ) (d d' : VDef K) : Prop where
  rank : d'.rank = d.rank
  states : d'.numAf = d.numAf
  coupling : d'.U = starRingEnd K d.U
  flavors : ∀ r < d.rank, d'.flavors.getD r 0 = d.flavors.getD r 0
  creator : ∀ r < d.rank, d'.sites.getD (2 * r) 0 = d.sites.getD (2 * r + 1) 0
  annihilator : ∀ r < d.rank, d'.sites.getD (2 * r + 1) 0 = d.sites.getD (2 * r) 0
  fields : ∀ s < d.numAf, ∀ r < d.rank, d'.alpha (π s) r = starRingEnd K (d.alpha s r)

/-- The interaction is Hermitian: with every term `t` and state `s` there is its conjugate, state `π t s` of term `σ t`; for densities
    with real coupling and fields these are the same.  The sites exist, and no operator pair of a term annihilates where another one of the same flavor
    creates. -/
structure HermitianTerms (ns : ℕ) (σ : ℕ → ℕ) (π : ℕ → ℕ → ℕ) (tbl : List (VDef K)) : Prop where
  exist : ∀ t < tbl.length, σ t < tbl.length
  twice : ∀ t < tbl.length, σ (σ t) = t
  state : ∀ t < tbl.length, ∀ s < (tbl.getD t default).numAf, π t s < (tbl.getD t default).numAf ∧ π (σ t) (π t s) = s
  conj : ∀ t < tbl.length, ConjTerm (π t) (tbl.getD t default) (tbl.getD (σ t) default)
  sites : ∀ d ∈ tbl, ∀ r < d.rank, d.sites.getD (2 * r) 0 < ns ∧ d.sites.getD (2 * r + 1) 0 < ns
  apart : ∀ d ∈ tbl, ∀ r < d.rank, ∀ r' < d.rank, r ≠ r' → d.flavors.getD r 0 = d.flavors.getD r' 0 →
    d.sites.getD (2 * r + 1) 0 ≠ d.sites.getD (2 * r') 0

/-- The bare Green's function of a Hermitian Hamiltonian: its conjugate is the one with annihilator and creator exchanged and the
    times counted from the other end.  (Nothing is said about different operator pairs on one site at the same time.) -/
def HermitianG0 (β : ℝ) (nf ns : ℕ) (G0 : Op → Op → K) : Prop :=
  ∀ z < nf, ∀ s < ns, ∀ s' < ns, ∀ (t t' : ℝ) (k k' : ℤ), |t - t'| < β → t ≠ t' ∨ k = k' ∨ s ≠ s' →
    starRingEnd K (G0 ⟨z, s, t, k⟩ ⟨z, s', t', k'⟩) = G0 ⟨z, s', β - t', k'⟩ ⟨z, s, β - t, k⟩

/-- The file with the bare Green's function is that of a Hermitian Hamiltonian: at every grid point (there are at least three) the
    values of the two orders of the sites are conjugate, and between different sites the values at the two ends add up to zero (as
    for every Green's function of fermions). -/
structure HermitianFile (K : Type) [RCLike K] (file : GFile) (nf ns : ℕ) : Prop where
  grid : 3 ≤ file.ntau
  mirror : ∀ f < nf, ∀ s < ns, ∀ s' < ns, ∀ t : ℕ, (t : ℤ) < file.ntau → starRingEnd K (file.value f s s' t : K) = file.value f s' s t
  jump : ∀ f < nf, ∀ s < ns, ∀ s' < ns, s ≠ s' → (file.value f s s' 0 : K) + file.value f s s' (file.ntau.toNat - 1) = 0

end CTInt
