import Verif.Spec.Config
import Mathlib.Analysis.Normed.Algebra.MatrixExponential
import Mathlib.Analysis.RCLike.Basic

/-!
# Specification: fermions on sites, in a space of finite dimension

Annihilators are matrices; the adjoint of an annihilator is a creator.  The bare Hamiltonian lets fermions of each flavor hop between
the sites.
-/

set_option linter.all false

namespace CTInt

open NormedSpace Matrix

variable {K : Type} [RCLike K] {n : Type} [Fintype n] [DecidableEq n]

/-- The annihilators of `nf` flavors on `ns` sites: annihilators anticommute, and an annihilator anticommutes with every creator but
    its own. -/
structure Annihilators (nf ns : ℕ) (c : ℕ → ℕ → Matrix n n K) : Prop where
  same : ∀ z < nf, ∀ s < ns, ∀ z' < nf, ∀ s' < ns, c z s * c z' s' + c z' s' * c z s = 0
  mixed : ∀ z < nf, ∀ s < ns, ∀ z' < nf, ∀ s' < ns,
    c z s * (c z' s')ᴴ + (c z' s')ᴴ * c z s = if z = z' ∧ s = s' then 1 else 0

/-- The bare Hamiltonian: Σ h_z(s,s') c†_zs c_zs'. -/
def bareH (nf ns : ℕ) (h : ℕ → ℕ → ℕ → K) (c : ℕ → ℕ → Matrix n n K) : Matrix n n K :=
  ∑ z ∈ Finset.range nf, ∑ s ∈ Finset.range ns, ∑ s' ∈ Finset.range ns, h z s s' • ((c z s)ᴴ * c z s')

/-- The amplitudes of opposite hops are conjugate. -/
def HermitianHops (nf ns : ℕ) (h : ℕ → ℕ → ℕ → K) : Prop :=
  ∀ z < nf, ∀ s < ns, ∀ s' < ns, starRingEnd K (h z s s') = h z s' s

/-- An operator at imaginary time `t`: exp(tH) X exp(-tH). -/
noncomputable def atTime (H : Matrix n n K) (t : ℝ) (X : Matrix n n K) : Matrix n n K := exp ((t : K) • H) * X * exp (-((t : K) • H))

/-- The thermal average: tr(exp(-βH) X) / tr exp(-βH). -/
noncomputable def thermal (β : ℝ) (H X : Matrix n n K) : K := (exp (-(β : K) • H) * X).trace / (exp (-(β : K) • H)).trace

/-- The bare Green's function between operators at times in [0,β): - <c(t) c†(t')> if the annihilator is later, <c†(t') c(t)> if it is not;
    at equal times the second index decides. -/
def ThermalG0 (β : ℝ) (nf ns : ℕ) (c : ℕ → ℕ → Matrix n n K) (H : Matrix n n K) (G0 : Op → Op → K) : Prop :=
  ∀ z < nf, ∀ s < ns, ∀ s' < ns, ∀ t ∈ Set.Ico 0 β, ∀ t' ∈ Set.Ico 0 β, ∀ (k k' : ℤ),
    ((t' < t ∨ t = t' ∧ k' < k) → G0 ⟨z, s, t, k⟩ ⟨z, s', t', k'⟩ = - thermal β H (atTime H t (c z s) * atTime H t' (c z s')ᴴ)) ∧
    (¬ (t' < t ∨ t = t' ∧ k' < k) → G0 ⟨z, s, t, k⟩ ⟨z, s', t', k'⟩ = thermal β H (atTime H t' (c z s')ᴴ * atTime H t (c z s)))

/-- A term of the interaction with its fields in state `a`, without the coupling: ∏ (c† c - α), the first pair on the left. -/
def pairsOp (c : ℕ → ℕ → Matrix n n K) (d : VDef K) (a : ℕ) : Matrix n n K :=
  ((List.range d.rank).map fun r =>
    (c (d.flavors.getD r 0) (d.sites.getD (2 * r) 0))ᴴ * c (d.flavors.getD r 0) (d.sites.getD (2 * r + 1) 0) - d.alpha a r • (1 : Matrix n n K)).prod

/-- The interaction: the sum of the terms, each averaged over the states of its fields. -/
noncomputable def interactionH (c : ℕ → ℕ → Matrix n n K) (tbl : List (VDef K)) : Matrix n n K :=
  (tbl.map fun d => (d.U / (d.numAf : K)) • ∑ a ∈ Finset.range d.numAf, pairsOp c d a).sum

/-- The operators of the interaction exist. -/
def TermsOn (nf ns : ℕ) (tbl : List (VDef K)) : Prop :=
  ∀ d ∈ tbl, ∀ r < d.rank, d.flavors.getD r 0 < nf ∧ d.sites.getD (2 * r) 0 < ns ∧ d.sites.getD (2 * r + 1) 0 < ns

end CTInt
