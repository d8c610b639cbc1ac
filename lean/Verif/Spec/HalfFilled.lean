import Verif.Spec.Config
import Verif.Spec.Green
import Verif.Props.UMatrix

/-!
# Specification: on-site repulsion at particle-hole symmetry

Holes of flavor 1 behave as particles of flavor 0, with a sign on every other site.
-/

set_option linter.all false

namespace CTInt

/-- The terms are the on-site repulsions `U` of the two flavors, one for every site, with fields `1 + δ` and `-δ`. -/
def IsHubbard (U δ : ℝ) (ns : ℕ) (tbl : List (VDef ℝ)) : Prop :=
  tbl.length = ns ∧ ∀ s < ns, ∃ v : UDef ℝ, tbl[s]? = some v.d ∧ OnsiteTerm U δ s [s, s, s, s] [0, 1] v

/-- Particle-hole symmetry of the bare Green's function between operators less than `β` apart; `ε` is the sign of a site.
    Exchanging annihilator and creator takes flavor 1 to flavor 0 with a sign; the densities of the two flavors add up to 1. -/
structure PHSymmetric (β : ℝ) (ns : ℕ) (ε : ℕ → ℝ) (G0 : Op → Op → ℝ) : Prop where
  unit : ∀ s < ns, ε s = 1 ∨ ε s = -1
  mirror : ∀ s < ns, ∀ s' < ns, ∀ (t t' : ℝ) (k k' : ℤ), |t - t'| < β → s ≠ s' ∨ t ≠ t' →
    G0 ⟨1, s, t, k⟩ ⟨1, s', t', k⟩ = - (ε s * ε s') * G0 ⟨0, s', t', k'⟩ ⟨0, s, t, k'⟩
  filling : ∀ s < ns, ∀ (t : ℝ) (k k' : ℤ), G0 ⟨1, s, t, k⟩ ⟨1, s, t, k⟩ + G0 ⟨0, s, t, k'⟩ ⟨0, s, t, k'⟩ = 1

/-- The same for the file with the bare Green's function: the values of flavor 1 are those of flavor 0 with the sites exchanged,
    the grid of times reversed and the sign of the two sites, and the values at the two ends add up to minus the unit matrix (as
    for every Green's function of fermions).  There are at least three grid points. -/
structure PHFile (ε : ℕ → ℝ) (file : GFile) : Prop where
  grid : 3 ≤ file.ntau
  unit : ∀ s : ℕ, (s : ℤ) < file.ns → ε s = 1 ∨ ε s = -1
  mirror : ∀ s s' t : ℕ, (s : ℤ) < file.ns → (s' : ℤ) < file.ns → (t : ℤ) < file.ntau →
    (file.value 1 s s' t : ℝ) = ε s * ε s' * file.value 0 s' s (file.ntau.toNat - 1 - t)
  jump : ∀ s s' : ℕ, (s : ℤ) < file.ns → (s' : ℤ) < file.ns →
    (file.value 0 s s' 0 : ℝ) + file.value 0 s s' (file.ntau.toNat - 1) = if s = s' then -1 else 0

end CTInt
