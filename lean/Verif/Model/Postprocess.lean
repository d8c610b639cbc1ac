import Verif.Model.Observables
import Verif.Model.Matsubara

/-!
# Model of what is written at the end: src/postprocess.hpp 73-239

The observables are the sequences of the values passed to them (Model/Observables.lean).  `mean<T>()` of ALPSCore is the sum of
the values over their number, element by element for vectors; without a value, or with vectors of different lengths, it is
outside the model.  Error bars, the output on the terminal and the clock readings ("Timings") are not modelled.
-/

set_option linter.all false

namespace CTInt

/-- `results[...].template mean<double>()`, postprocess.hpp 82, 165, 218. -/
noncomputable def meanOf (l : List ℝ) : Res ℝ := do
  Res.assert (l ≠ [])
  pure (l.sum / l.length)

/-- `results[...].template mean<std::vector<double> >()`, postprocess.hpp 103-104, 171, 175-176, 199. -/
noncomputable def meanVec : List (List ℝ) → Res (List ℝ)
  | [] => .ub
  | v :: l => do
    Res.assert (∀ w ∈ l, w.length = v.length)
    pure ((List.range v.length).map fun i => ((v :: l).map fun w => w.getD i 0).sum / (l.length + 1 : ℝ))

/-- Loading the binned self-energy, postprocess.hpp 96-110: here the means, still with the shape they were measured in; the
    division by the sign and the copy to `Stau[n_bin][n_site][n_site][n_flavors]` are in `postBinning`.  The code takes the two
    means outside the loop over the bins. -/
noncomputable def loadStau (nf ns nb : ℕ) (l : List Record) : Res (ℕ → ℂ) :=
  Res.foldl (fun S f => Res.foldl (fun S a => Res.foldl (fun S b => Res.foldl (fun S ib => do
      let re ← meanVec (l.map fun r => r.stauRe f a b)
      let im ← meanVec (l.map fun r => r.stauIm f a b)
      let x ← Res.get re ib
      let y ← Res.get im ib
      pure (Function.update S (off4 ns ns nb f a b ib) (⟨x, y⟩ : ℂ)))
    S (List.range nb)) S (List.range ns)) S (List.range ns)) (fun _ => 0) (List.range nf)

/-- What is written: the line added to the file "matrix_size" and the entries "Sign", "SigmaG_legendre", "SigmaG_omega",
    "SigmaG_tau", "densities", "ni_nj" of the archive. -/
structure Archive where
  matrixSize : List ℝ
  sign : ℝ
  legendre : ℕ → ℂ
  omega : ℕ → ℂ
  tau : ℕ → ℂ
  densities : List ℝ
  ninj : ℕ → ℕ → ℕ → ℕ → ℂ

open Classical in
/-- `postprocess`, postprocess.hpp 195-227, with `evaluate_selfenergy_measurement_binning` (73-158) and
    `postprocess_densities` (160-193).  Division by a mean sign of 0 gives no numbers and is outside the model. -/
noncomputable def postprocess (nf ns nb nl nm : ℕ) (beta : ℝ) (sj : ℕ → ℝ → ℝ) (junkP : ℕ → ℕ → ℝ) (l : List Record) :
    Res Archive := do
  let order ← meanVec (l.map fun r => r.pertOrder)
  let size ← Res.mapM (fun i => Res.get order i) (List.range nf)
  let sign ← meanOf (l.map fun r => r.sign)
  Res.assert (sign ≠ 0)
  let stau ← loadStau nf ns nb l
  let S ← postBinning nf ns nb nl beta sign junkP stau
  let Sw ← postFreq nf ns nm nl (tnl sj nm nl) S.2
  let dens ← meanVec (l.map fun r => r.dens.mean)
  let re ← meanVec (l.map fun r => r.dens.ninjRe)
  let im ← meanVec (l.map fun r => r.dens.ninjIm)
  let nn ← postNinj nf ns sign re im
  pure ⟨size, sign, S.2, Sw, S.1, dens.map fun x => x / sign, nn.1⟩

end CTInt
