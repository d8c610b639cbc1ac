import Verif.Spec.Config
import Verif.Spec.UMatrix

/-!
# Specification: what a term of the interaction does to the number of particles in groups of sites

`lab f s` is the group of site `s` for flavor `f`.
-/

set_option linter.all false

namespace CTInt

variable {K : Type}

/-- Particles a term adds to group `k` of flavor `f`: its creators minus its annihilators there. -/
def charge (lab : ℕ → ℕ → ℕ) (d : VDef K) (f k : ℕ) : ℤ :=
  (((List.range d.rank).filter fun r => decide (d.flavors.getD r 0 = f)).map fun r =>
    (if lab f (d.sites.getD (2 * r) 0) = k then (1 : ℤ) else 0) - if lab f (d.sites.getD (2 * r + 1) 0) = k then 1 else 0).sum

variable [Field K]

/-- No propagation between different groups. -/
def Separated (G0 : Op → Op → K) (nf ns : ℕ) (lab : ℕ → ℕ → ℕ) : Prop :=
  ∀ a b : Op, a.flavor = b.flavor → a.flavor < nf → a.site < ns → b.site < ns → lab a.flavor a.site ≠ lab a.flavor b.site → G0 a b = 0

/-- Only operator pairs that stay in a group have an auxiliary field. -/
def FieldsWithin (lab : ℕ → ℕ → ℕ) (tbl : List (VDef K)) : Prop :=
  ∀ d ∈ tbl, ∀ s < d.numAf, ∀ r < d.rank,
    lab (d.flavors.getD r 0) (d.sites.getD (2 * r) 0) ≠ lab (d.flavors.getD r 0) (d.sites.getD (2 * r + 1) 0) → d.alpha s r = 0

end CTInt
