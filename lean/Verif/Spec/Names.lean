import Verif.Model.Names

/-!
# Specification: every quantity has its own observable
-/

set_option linter.all false

namespace CTInt

/-- A pair of rates is recorded as a vector, accepted first; without any attempt 0/0 is recorded. -/
def rateVal (o : Option (ℝ × ℝ)) : ObsVal := (o.map fun p => ObsVal.vec [p.1, p.2]).getD .nan

/-- The set holds exactly the values recorded: for every quantity, under its name and with its kind, the values of all
    measurements in order; besides these, empty scalar observables for the densities of single sites; nothing else. -/
structure Recorded (nf ns : ℕ) (log : List (Measured × List ℝ)) (S : ObsSet) : Prop where
  sign : S "Sign" = some (.scalar, log.map fun m => .num m.1.values.sign)
  order : S "PertOrder" = some (.vector, log.map fun m => .vec m.1.values.pertOrder)
  orderType : S "PerturbationOrderVertex" = some (.vector, log.map fun m => .vec m.1.values.pertVertex)
  stauRe : ∀ f < nf, ∀ a < ns, ∀ b < ns, S ("Stau_real_" ++ toString f ++ "_" ++ toString a ++ "_" ++ toString b) =
    some (.vector, log.map fun m => .vec (m.1.values.stauRe f a b))
  stauIm : ∀ f < nf, ∀ a < ns, ∀ b < ns, S ("Stau_imag_" ++ toString f ++ "_" ++ toString a ++ "_" ++ toString b) =
    some (.vector, log.map fun m => .vec (m.1.values.stauIm f a b))
  dens : S "densities" = some (.vector, log.map fun m => .vec m.1.values.dens.mean)
  site : ∀ f < nf, S ("densities_" ++ toString f) = some (.vector, log.map fun m => .vec (m.1.values.dens.site f))
  ninjRe : S "n_i_n_j_real" = some (.vector, log.map fun m => .vec m.1.values.dens.ninjRe)
  ninjIm : S "n_i_n_j_imag" = some (.vector, log.map fun m => .vec m.1.values.dens.ninjIm)
  insRem : S "VertexInsertionRemoval_Acceptance_Rate" = some (.vector, log.map fun m => rateVal m.1.insRem)
  shift : S "VertexShift_Acceptance_Rate" = some (.vector, log.map fun m => rateVal m.1.shift)
  timings : S "Timings" = some (.vector, log.map fun m => .vec m.2)
  single : ns = 1 → ∀ f < nf, S ("density_" ++ toString f) = some (.scalar, [])
  pairs : 1 < ns → ∀ f < nf, ∀ i < ns, S ("density_" ++ toString f ++ "_" ++ toString i) = some (.scalar, [])
  only : ∀ n, S n ≠ none →
    n ∈ ["Sign", "PertOrder", "PerturbationOrderVertex", "densities", "n_i_n_j_real", "n_i_n_j_imag",
      "VertexInsertionRemoval_Acceptance_Rate", "VertexShift_Acceptance_Rate", "Timings"] ∨
    (∃ f < nf, n = "densities_" ++ toString f ∨ n = "density_" ++ toString f) ∨
    (∃ f < nf, ∃ i < ns, n = "density_" ++ toString f ++ "_" ++ toString i) ∨
    ∃ f < nf, ∃ a < ns, ∃ b < ns, n = "Stau_real_" ++ toString f ++ "_" ++ toString a ++ "_" ++ toString b ∨
      n = "Stau_imag_" ++ toString f ++ "_" ++ toString a ++ "_" ++ toString b

end CTInt
