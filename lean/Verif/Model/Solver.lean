import Verif.Model.Green
import Verif.Model.Simulation
import Verif.Model.UMatrix

/-!
# Model of the construction of the solver (src/interaction_expansion.ipp 9-80)

From the parameters and the input files to the object whose `update` and `measure` are called: interaction table, update
manager, bare Green's function, submatrix object.
-/

set_option linter.all false

namespace CTInt

/-- The parameters the solver reads, src/program_options.hpp 10-38.  `S` is the type of input streams.  `uFile` is the stream of
    "model.U_matrix_file" and whether it could be opened, if the parameter is supplied; `U` is "model.U", if supplied; `g0File` is
    `none` if "model.G0_tau_file" is empty and `some none` if the file cannot be opened; `rates` is the number of numbers in
    "update.multi_vertex_update_proposal_rate", if defined; `config` is the stream of the configuration file, if
    "PREFIX_LOAD_CONFIG" is defined.  Simplifications: negative numbers of sites, spins, steps and so on are not modelled, except
    for the measurement period; "GLOBAL_UPDATES" is not defined. -/
structure Params (S : Type) where
  sites : ℕ
  spins : ℕ
  beta : ℝ
  uFile : Option (Bool × S)
  U : Option ℝ
  g0File : Option (Option GFile)
  total : ℕ
  therm : ℕ
  period : ℤ
  maxOrder : ℕ
  nIR : ℕ
  nSh : ℕ
  nSF : ℕ
  stepSize : ℝ
  kIns : ℕ
  nLegendre : ℕ
  nSamples : ℕ
  nBin : ℕ
  rates : Option ℕ
  config : Option S

/-- Values found in uninitialised variables while the interaction table (`u`) and the configuration (`i`, `t`) are read. -/
structure ReadJunk where
  u : ℕ → ℕ
  i : ℕ → ℤ
  t : ℕ → ℝ

/-- The solver: what the updates and measurements read, the update manager, the run parameters, the configuration it was started
    from (`itime_vertices_init`) and the state. -/
structure FullSolver (K : Type) where
  c : Ctx K
  q : MeasPar K
  m : Mgr
  a : SimPar
  init : List Vert
  s : Sim K

variable {K : Type} [RCLike K] [DecidableEq K]

open Classical in
/-- The outcome of a call with loops: that of every sufficient number of iterations.  A loop that never ends and has no effect is
    undefined in C++. -/
noncomputable def Run.outcome {α : Type} (f : ℕ → Run α) : Res α :=
  if h : ∃ a, ∃ N, ∀ fuel, N ≤ fuel → f fuel = .ok a then .ok h.choose
  else if h : ∃ e, ∃ N, ∀ fuel, N ≤ fuel → f fuel = .throw e then .throw h.choose
  else .ub

/-- The value of a call, 0 if it has none. -/
def Res.valueD {α : Type} [Zero α] : Res α → α
  | .ok a => a
  | _ => 0

/-- `ALPHA_NON_INT`, submatrix.hpp 23. -/
noncomputable def alphaNonInt : K := ((10 ^ 100 : ℝ) : K)

/-- What the submatrix object reads, submatrix_impl/common.ipp 4-49: the interpolation is called on pairs of operators. -/
noncomputable def solverCtx (nf : ℕ) (g : Green K) (t : UTable K) : Ctx K :=
  ⟨alphaNonInt, nf, fun a b => (Run.outcome fun fuel => g.ofOps fuel a b).valueD, t.list.map (·.d)⟩

/-- The constructor, interaction_expansion.ipp 9-80, in the order of the code: member initialisers (11-32) with the interaction
    table (21), the transformer (27) and the update manager (31; update_manager.hpp 150-346, of which only the check of the number
    of proposal rates (296-297) can throw); then the body.  `initialize_simulation` and `create_observables` only name the
    observables (Model/Names.lean). -/
noncomputable def FullSolver.create {S : Type} (is : IStream S) (dbg : Bool) (P : Params S) (j : ReadJunk) : Res (FullSolver K) := do
  let t ← UTable.create is dbg (mycast : ℂ → K) P.sites P.spins P.uFile (P.U.map fun x => (x : K)) ((1e-2 : ℝ) : K) j.u
  let leg ← Legendre.create P.nLegendre
  Res.throwIf (P.rates.getD 1 ≠ 1) .runtimeError
  let m := Mgr.create P.beta P.kIns P.maxOrder P.stepSize (t.list.map (·.d))
  Res.throwIf (P.g0File.isNone = true) .runtimeError
  let g ← Green.read (K := K) (P.g0File.getD none) P.beta P.spins P.sites
  Res.throwIf (P.period ≤ 0) .runtimeError
  let init ← (match P.config with
    | none => pure []
    | some s => do
      let r ← loadConfig is t.list s j.i j.t
      pure r.1)
  let c := solverCtx P.spins g t
  let sub ← Sub.create c init
  pure ⟨c, ⟨P.sites, P.beta, leg, fun τ z s1 s2 => Run.outcome fun fuel => g.ofTime fuel τ z s1 s2, P.nSamples, P.nBin⟩, m,
    ⟨P.nIR, P.nSh, P.nSF, ⟨P.total, P.therm, P.period.toNat⟩⟩, init, ⟨⟨⟨sub, ⟨0, 0⟩, 0⟩, ⟨0, 0⟩⟩, 0, false, []⟩⟩

end CTInt
