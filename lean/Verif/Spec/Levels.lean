import Verif.Spec.Ensemble
import Verif.Spec.Green
import Mathlib.Analysis.SpecialFunctions.Exp

/-!
# Specification: levels that are coupled only by interactions between densities

Without hopping the occupation numbers are conserved and everything can be summed over the occupied levels: the Hamiltonian is
H = ∑ e n + V, both parts functions of the occupation numbers, and the partition function is the sum of exp(-β H) over all states.
-/

set_option linter.all false

namespace CTInt

/-- The states: the sets of occupied levels (flavor, site). -/
def states (nf ns : ℕ) : Finset (Finset (ℕ × ℕ)) := (Finset.range nf ×ˢ Finset.range ns).powerset

/-- The occupation number of a level. -/
def occ (S : Finset (ℕ × ℕ)) (z s : ℕ) : ℝ := if (z, s) ∈ S then 1 else 0

/-- The energy of the occupied levels. -/
def levelEnergy (e : ℕ → ℕ → ℝ) (S : Finset (ℕ × ℕ)) : ℝ := ∑ i ∈ S, e i.1 i.2

/-- An interaction term in a state, with its fields in state `a`: U ∏ (n - α). -/
def fieldTerm (S : Finset (ℕ × ℕ)) (d : VDef ℝ) (a : ℕ) : ℝ :=
  d.U * ∏ r ∈ Finset.range d.rank, (occ S (d.flavors.getD r 0) (d.sites.getD (2 * r) 0) - d.alpha a r)

/-- The interaction energy of a state: the sum of the terms, each averaged over the states of its fields. -/
noncomputable def interaction (tbl : List (VDef ℝ)) (S : Finset (ℕ × ℕ)) : ℝ :=
  (tbl.map fun d => (∑ a ∈ Finset.range d.numAf, fieldTerm S d a) / d.numAf).sum

/-- The partition function for the energies `E` of the states. -/
noncomputable def statesZ (β : ℝ) (nf ns : ℕ) (E : Finset (ℕ × ℕ) → ℝ) : ℝ := ∑ S ∈ states nf ns, Real.exp (-β * E S)

/-- The average of `X` over the states. -/
noncomputable def statesMean (β : ℝ) (nf ns : ℕ) (E X : Finset (ℕ × ℕ) → ℝ) : ℝ :=
  (∑ S ∈ states nf ns, X S * Real.exp (-β * E S)) / statesZ β nf ns E

/-- A term that couples densities of different levels. -/
structure DensityTerm (nf ns : ℕ) (d : VDef ℝ) : Prop where
  fields : 0 < d.numAf
  lt : ∀ r < d.rank, d.flavors.getD r 0 < nf ∧ d.sites.getD (2 * r) 0 < ns
  same : ∀ r < d.rank, d.sites.getD (2 * r + 1) 0 = d.sites.getD (2 * r) 0
  diff : ∀ r < d.rank, ∀ r' < d.rank, r ≠ r' → (d.flavors.getD r 0, d.sites.getD (2 * r) 0) ≠ (d.flavors.getD r' 0, d.sites.getD (2 * r') 0)

/-- The bare Green's function of levels with energies `e`, between operators less than `β` apart: - <c(t) c†(t')> if the annihilator
    is later, <c†(t') c(t)> if it is earlier, the density for the operators of one density. -/
structure LevelsG0 (β : ℝ) (nf ns : ℕ) (e : ℕ → ℕ → ℝ) (G0 : Op → Op → ℝ) : Prop where
  apart : ∀ z < nf, ∀ s < ns, ∀ s' < ns, s ≠ s' → ∀ (t t' : ℝ) (k k' : ℤ), |t - t'| < β → G0 ⟨z, s, t, k⟩ ⟨z, s', t', k'⟩ = 0
  later : ∀ z < nf, ∀ s < ns, ∀ (t t' : ℝ) (k k' : ℤ), t' < t → |t - t'| < β →
    G0 ⟨z, s, t, k⟩ ⟨z, s, t', k'⟩ = - Real.exp (-(e z s * (t - t'))) / (1 + Real.exp (-β * e z s))
  earlier : ∀ z < nf, ∀ s < ns, ∀ (t t' : ℝ) (k k' : ℤ), t < t' → |t - t'| < β →
    G0 ⟨z, s, t, k⟩ ⟨z, s, t', k'⟩ = Real.exp (-(e z s * (t - t'))) / (1 + Real.exp (β * e z s))
  density : ∀ z < nf, ∀ s < ns, ∀ (t : ℝ) (k : ℤ), G0 ⟨z, s, t, k⟩ ⟨z, s, t, k⟩ = 1 / (1 + Real.exp (β * e z s))

/-- The same as a function of the time difference, between operators of one flavor on two sites. -/
structure LevelsG (β : ℝ) (nf ns : ℕ) (e : ℕ → ℕ → ℝ) (G : ℝ → ℕ → ℕ → ℕ → ℝ) : Prop where
  apart : ∀ z < nf, ∀ s < ns, ∀ s' < ns, s ≠ s' → ∀ t : ℝ, |t| < β → G t z s s' = 0
  later : ∀ z < nf, ∀ s < ns, ∀ t : ℝ, 0 < t → t < β → G t z s s = - Real.exp (-(e z s * t)) / (1 + Real.exp (-β * e z s))
  earlier : ∀ z < nf, ∀ s < ns, ∀ t : ℝ, -β < t → t < 0 → G t z s s = Real.exp (-(e z s * t)) / (1 + Real.exp (β * e z s))

/-- The average of `X` over the states with energies `E`, with the exponential series of the interaction `V` to order `M`. -/
noncomputable def seriesMean (β : ℝ) (nf ns : ℕ) (E V : Finset (ℕ × ℕ) → ℝ) (M : ℕ) (X : Finset (ℕ × ℕ) → ℝ) : ℝ :=
  (∑ S ∈ states nf ns, X S * (∑ n ∈ Finset.range (M + 1), (-β * V S) ^ n / n.factorial) * Real.exp (-β * E S)) /
    ∑ S ∈ states nf ns, (∑ n ∈ Finset.range (M + 1), (-β * V S) ^ n / n.factorial) * Real.exp (-β * E S)

/-- The on-site repulsion about half filling, with the constant that the fields with shift `δ` bring with them. -/
noncomputable def onsiteEnergy (U δ : ℝ) (ns : ℕ) (S : Finset (ℕ × ℕ)) : ℝ :=
  ∑ s ∈ Finset.range ns, U * ((occ S 0 s - 1 / 2) * (occ S 1 s - 1 / 2) - (δ + 1 / 2) ^ 2)

/-- The file with the bare Green's function of levels at zero energy: -1/2 at all times on the diagonal, 0 elsewhere. -/
structure FlatFile (nf : ℕ) (file : GFile) : Prop where
  grid : 3 ≤ file.ntau
  value : ∀ z < nf, ∀ s s' t : ℕ, (s : ℤ) < file.ns → (s' : ℤ) < file.ns → (t : ℤ) < file.ntau →
    (file.value z s s' t : ℝ) = if s = s' then -1 / 2 else 0

end CTInt
