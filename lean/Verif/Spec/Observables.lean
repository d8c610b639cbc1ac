import Verif.Spec.Measure
import Verif.Spec.Config
import Verif.Spec.Replace

/-!
# Specification: the quantities a configuration contributes, as ratios of weights

`l` lists the operator pairs of one flavor `z`, `G t z s1 s2` is the bare Green function for the time difference `t`.
-/

set_option linter.all false

namespace CTInt

variable {K : Type} [RCLike K]

/-- The matrix of the configuration with the creation operator of pair `q` (and its field) replaced by a creation operator
    on site `B` at time `-t`. -/
noncomputable def otherCreator (G0 : Op → Op → K) (G : ℝ → ℕ → ℕ → ℕ → K) (z : ℕ) (l : List (OpRow K)) (q B : ℕ) (t : ℝ) :
    ℕ → ℕ → K :=
  withCol (rowG G0 l) q fun p => G ((l.getD p default).an.time + t) z (l.getD p default).an.site B

/-- The contribution of a configuration to the improved estimator: for the creation operators on site `c`, the ratio of the
    determinants after and before the replacement, with sign and weight of the shifted time; averaged over the shifts. -/
noncomputable def selfEnergy (β : ℝ) (G0 : Op → Op → K) (G : ℝ → ℕ → ℕ → ℕ → K) (z : ℕ) (l : List (OpRow K)) (sign : K)
    (shifts : List ℝ) (ρ : ℝ → ℂ) (c B : ℕ) : ℂ :=
  (shifts.map fun t => ∑ q ∈ Finset.range l.length,
    if (l.getD q default).cr.site = c then
      foldSign β ((l.getD q default).cr.time + t) * toC sign * ρ (foldTime β ((l.getD q default).cr.time + t)) *
        toC (detN l.length (otherCreator G0 G z l q B t) / detN l.length (rowG G0 l))
    else 0).sum / (shifts.length : ℂ)

/-- The matrix of the configuration with one more pair: an annihilation operator on site `s2` and a creation operator on site
    `s`, both at time `τ`, without field; `ε` is the time difference used for equal times. -/
noncomputable def extraPair (G0 : Op → Op → K) (G : ℝ → ℕ → ℕ → ℕ → K) (z : ℕ) (l : List (OpRow K)) (ε τ : ℝ) (s s2 : ℕ) :
    ℕ → ℕ → K := fun i j =>
  if i < l.length then
    if j < l.length then rowG G0 l i j else G ((l.getD i default).an.time - τ) z (l.getD i default).an.site s
  else
    if j < l.length then G (τ - (l.getD j default).cr.time) z s2 (l.getD j default).cr.site else G ε z s2 s

/-- The density matrix of a configuration: the ratio of the determinants with and without the extra pair. -/
noncomputable def densityOf (G0 : Op → Op → K) (G : ℝ → ℕ → ℕ → ℕ → K) (z : ℕ) (l : List (OpRow K)) (ε τ : ℝ) (s s2 : ℕ) : K :=
  detN (l.length + 1) (extraPair G0 G z l ε τ s s2) / detN l.length (rowG G0 l)

/-- The matrix of the configuration with two more pairs: on site `i` and on site `j`, all at time `τ`. -/
noncomputable def twoPairs (G0 : Op → Op → K) (G : ℝ → ℕ → ℕ → ℕ → K) (z : ℕ) (l : List (OpRow K)) (ε τ : ℝ) (i j : ℕ) :
    ℕ → ℕ → K := fun a b =>
  let site : ℕ → ℕ := fun k => if k = l.length then i else j
  if a < l.length then
    if b < l.length then rowG G0 l a b else G ((l.getD a default).an.time - τ) z (l.getD a default).an.site (site b)
  else
    if b < l.length then G (τ - (l.getD b default).cr.time) z (site a) (l.getD b default).cr.site else G ε z (site a) (site b)

/-- All times are in [0,β]. -/
def TimesIn (β : ℝ) (vs : List Vert) : Prop := ∀ v ∈ vs, 0 ≤ v.time ∧ v.time ≤ β

/-- The sites of all operators exist. -/
def SitesIn (ns : ℕ) (tbl : List (VDef K)) : Prop := ∀ d ∈ tbl, ∀ s ∈ d.sites, s < ns

end CTInt
