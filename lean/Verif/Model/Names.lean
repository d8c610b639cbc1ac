import Verif.Model.Postprocess

/-!
# Model of the observables by name: src/measurement.ipp 16-68, 79-113, 188-196, 557-589, src/update_manager.hpp 500-530,
# src/interaction_expansion.ipp 173, src/postprocess.hpp 73-239

Model/Observables.lean and Model/Postprocess.lean treat the values passed to the observables as the fields of a record.  Here the
observables are kept as in the code: in a set with the names as keys.  The accumulator sets of ALPSCore are external: `create`
throws `std::out_of_range` if the name is taken, `push` and `read` if there is no observable of this name; passing a number to a
vector observable, or the converse, is outside the model.
-/

set_option linter.all false

namespace CTInt

/-- A value passed to an observable: a number, a vector of numbers, or a vector of which no entry is a number
    (0/0 in update_statistics.h 108-111). -/
inductive ObsVal where
  | num (x : ℝ)
  | vec (l : List ℝ)
  | nan

/-- `SimpleRealObservable` or `SimpleRealVectorObservable`. -/
inductive ObsKind where
  | scalar
  | vector
  deriving DecidableEq

/-- Which values an observable takes. -/
def ObsVal.kind : ObsVal → ObsKind
  | .num _ => .scalar
  | .vec _ => .vector
  | .nan => .vector

/-- `measurements`, an `alps::accumulators::accumulator_set`: by name, the kind and the values passed so far. -/
abbrev ObsSet := String → Option (ObsKind × List ObsVal)

namespace ObsSet

/-- The set without observables. -/
def empty : ObsSet := fun _ => none

/-- `measurements << SimpleRealObservable(name)`, `measurements << SimpleRealVectorObservable(name)`. -/
def create (S : ObsSet) (n : String × ObsKind) : Res ObsSet := do
  Res.throwIf ((S n.1).isSome = true) .outOfRange
  pure (Function.update S n.1 (some (n.2, [])))

/-- `measurements[name] << value`. -/
def push (S : ObsSet) (n : String × ObsVal) : Res ObsSet :=
  match S n.1 with
  | none => .throw .outOfRange
  | some o => do
    Res.assert (n.2.kind = o.1)
    pure (Function.update S n.1 (some (o.1, o.2 ++ [n.2])))

/-- The values of `results[name]` as numbers, for `mean<double>`. -/
def readNums (S : ObsSet) (n : String) : Res (List ℝ) :=
  match S n with
  | none => .throw .outOfRange
  | some o => Res.mapM (fun v => match v with | .num x => .ok x | _ => .ub) o.2

/-- The values of `results[name]` as vectors, for `mean<std::vector<double> >`. -/
def readVecs (S : ObsSet) (n : String) : Res (List (List ℝ)) :=
  match S n with
  | none => .throw .outOfRange
  | some o => Res.mapM (fun v => match v with | .vec x => .ok x | _ => .ub) o.2

end ObsSet

/-- What the streams make of "..._" << flavor << "_" << k << "_" << k2, measurement.ipp 40-41, 193-194, postprocess.hpp 101-102;
    integers are written in decimal. -/
def stauName (part : String) (f a b : ℕ) : String :=
  "Stau_" ++ part ++ "_" ++ toString f ++ "_" ++ toString a ++ "_" ++ toString b

/-- The observables of `initialize_observables`, measurement.ipp 18-67, in the order of their creation. -/
def solverObservables (nf ns : ℕ) : List (String × ObsKind) :=
  [("Sign", .scalar), ("PertOrder", .vector)] ++
  ((List.range nf).flatMap fun f => (List.range ns).flatMap fun k => (List.range ns).flatMap fun k2 =>
    [(stauName "real" f k k2, .vector), (stauName "imag" f k k2, .vector)]) ++
  [("densities", .vector)] ++
  ((List.range nf).map fun f => ("densities_" ++ toString f, .vector)) ++
  [("n_i_n_j_real", .vector), ("n_i_n_j_imag", .vector)] ++
  ((List.range nf).flatMap fun f => (List.range ns).map fun i =>
    ("density_" ++ toString f ++ (if ns > 1 then "_" ++ toString i else ""), .scalar)) ++
  [("PerturbationOrderVertex", .vector), ("Timings", .vector)]

/-- `create_observables` of the update manager, update_manager.hpp 507-508. -/
def managerObservables : List (String × ObsKind) :=
  [("VertexInsertionRemoval_Acceptance_Rate", .vector), ("VertexShift_Acceptance_Rate", .vector)]

/-- The constructor creates the observables of the solver, then those of the manager, interaction_expansion.ipp 212, 63. -/
def createObservables (nf ns : ℕ) : Res ObsSet :=
  Res.foldl ObsSet.create ObsSet.empty (solverObservables nf ns ++ managerObservables)

/-- The two numbers of `get_result`, or 0/0 twice. -/
def ObsVal.ofRate : Option (ℝ × ℝ) → ObsVal
  | none => .nan
  | some (a, r) => .vec [a, r]

/-- The values one call of `measure` passes, with the names, in order: measurement.ipp 79, 188-196 (in `measure_Sl`), 557-561,
    588-589 (in `measure_densities`), 97, 113, update_manager.hpp 526-527, interaction_expansion.ipp 173; `t` are the clock
    readings. -/
def passedValues (nf ns : ℕ) (m : Measured × List ℝ) : List (String × ObsVal) :=
  [("Sign", .num m.1.values.sign)] ++
  ((List.range nf).flatMap fun z => (List.range ns).flatMap fun a => (List.range ns).flatMap fun b =>
    [(stauName "real" z a b, .vec (m.1.values.stauRe z a b)), (stauName "imag" z a b, .vec (m.1.values.stauIm z a b))]) ++
  ((List.range nf).map fun z => ("densities_" ++ toString z, .vec (m.1.values.dens.site z))) ++
  [("densities", .vec m.1.values.dens.mean),
   ("n_i_n_j_real", .vec m.1.values.dens.ninjRe), ("n_i_n_j_imag", .vec m.1.values.dens.ninjIm),
   ("PertOrder", .vec m.1.values.pertOrder), ("PerturbationOrderVertex", .vec m.1.values.pertVertex),
   ("VertexInsertionRemoval_Acceptance_Rate", .ofRate m.1.insRem), ("VertexShift_Acceptance_Rate", .ofRate m.1.shift),
   ("Timings", .vec m.2)]

/-- The calls of `measure` of a simulation, one after the other. -/
def passAll (nf ns : ℕ) (S : ObsSet) (log : List (Measured × List ℝ)) : Res ObsSet :=
  Res.foldl (fun S m => Res.foldl ObsSet.push S (passedValues nf ns m)) S log

/-- Loading the binned self-energy, postprocess.hpp 96-110; see `loadStau`. -/
noncomputable def loadStauNamed (nf ns nb : ℕ) (S : ObsSet) : Res (ℕ → ℂ) :=
  Res.foldl (fun A f => Res.foldl (fun A a => Res.foldl (fun A b => do
      let vre ← S.readVecs (stauName "real" f a b)
      let re ← meanVec vre
      let vim ← S.readVecs (stauName "imag" f a b)
      let im ← meanVec vim
      Res.foldl (fun A ib => do
        let x ← Res.get re ib
        let y ← Res.get im ib
        pure (Function.update A (off4 ns ns nb f a b ib) (⟨x, y⟩ : ℂ))) A (List.range nb))
    A (List.range ns)) A (List.range ns)) (fun _ => 0) (List.range nf)

open Classical in
/-- `postprocess`, postprocess.hpp 195-238, with `evaluate_selfenergy_measurement_binning` (73-158) and `postprocess_densities`
    (160-193), reading the observables by name; see `postprocess`.  Also returned: the four timings printed, 230-236. -/
noncomputable def postprocessNamed (nf ns nb nl nm : ℕ) (beta : ℝ) (sj : ℕ → ℝ → ℝ) (junkP : ℕ → ℕ → ℝ) (S : ObsSet) :
    Res (Archive × List ℝ) := do
  let vorder ← S.readVecs "PertOrder"
  let order ← meanVec vorder
  let size ← Res.mapM (fun i => Res.get order i) (List.range nf)
  let vsign ← S.readNums "Sign"
  let sign ← meanOf vsign
  Res.assert (sign ≠ 0)
  let stau ← loadStauNamed nf ns nb S
  let Sl ← postBinning nf ns nb nl beta sign junkP stau
  let Sw ← postFreq nf ns nm nl (tnl sj nm nl) Sl.2
  let vdens ← S.readVecs "densities"
  let dens ← meanVec vdens
  let vre ← S.readVecs "n_i_n_j_real"
  let re ← meanVec vre
  let vim ← S.readVecs "n_i_n_j_imag"
  let im ← meanVec vim
  let nn ← postNinj nf ns sign re im
  let vt ← S.readVecs "Timings"
  let t ← meanVec vt
  let shown ← Res.mapM (fun i => Res.get t i) (List.range 4)
  pure (⟨size, sign, Sl.2, Sw, Sl.1, dens.map fun x => x / sign, nn.1⟩, shown)

/-- The reading of the unused `evaluate_selfenergy_measurement_legendre`, postprocess.hpp 14-71: for every flavour and pair of sites
    it takes the means of "Sl_real_..." and "Sl_imag_...". -/
noncomputable def loadSlNamed (nf ns : ℕ) (S : ObsSet) : Res Unit :=
  Res.foldl (fun _ f => Res.foldl (fun _ a => Res.foldl (fun _ b => do
      let vre ← S.readVecs ("Sl_real_" ++ toString f ++ "_" ++ toString a ++ "_" ++ toString b)
      let re ← meanVec vre
      let vim ← S.readVecs ("Sl_imag_" ++ toString f ++ "_" ++ toString a ++ "_" ++ toString b)
      let im ← meanVec vim
      pure ()) () (List.range ns)) () (List.range ns)) () (List.range nf)

end CTInt
