import Verif.Model.UMatrix

/-!
# Specification: interaction tables and configuration files
-/

set_option linter.all false

namespace CTInt

variable {K : Type}

/-- A vertex definition fit for `ns` sites and `nf` flavors. -/
structure GoodDef (ns nf : ℕ) (d : VDef K) : Prop where
  fl : d.flavors.length = d.rank
  si : d.sites.length = 2 * d.rank
  flavor : ∀ f ∈ d.flavors, f < nf
  site : ∀ s ∈ d.sites, s < ns

/-- Every operator pair creates and annihilates on the same site. -/
def DensityLike (d : VDef K) : Prop := ∀ r < d.rank, d.sites.getD (2 * r) 0 = d.sites.getD (2 * r + 1) 0

/-- One entry of an interaction file. -/
structure Entry where
  rank : ℕ
  numAf : ℕ
  U : ℂ
  sites : List ℕ
  flavors : List ℕ
  alpha : ℕ → ℕ → ℂ

/-- The shape every entry must have to be written down at all. -/
structure Entry.Shape (e : Entry) : Prop where
  si : e.sites.length = 2 * e.rank
  fl : e.flavors.length = e.rank

/-- All indices are in range. -/
structure Entry.InRange (ns nf : ℕ) (e : Entry) : Prop where
  site : ∀ s ∈ e.sites, s < ns
  flavor : ∀ f ∈ e.flavors, f < nf

/-- The word `t` is a way to write the number `z`: `4`, `4.0` and `(4,0)` all write four. -/
def Tok.Spells (t : Tok) (z : ℂ) : Prop :=
  (∃ n : ℤ, t = .int n ∧ z = n) ∨ (∃ x : ℝ, t = .dec x ∧ z = x) ∨ t = .cplx z

/-- The words of entry number `i`: number, rank, number of auxiliary states, U, sites, flavors, auxiliary fields
    pair by pair.  `sp` is how the author of the file writes numbers. -/
noncomputable def Entry.text (i : ℕ) (e : Entry) (sp : ℂ → Tok := Tok.cplx) : List Tok :=
  [.int i, .int e.rank, .int e.numAf, sp e.U] ++ e.sites.map (fun s => .int (s : ℤ)) ++
    e.flavors.map (fun f => .int (f : ℤ)) ++
    (List.range e.rank).flatMap fun r => (List.range e.numAf).map fun a => sp (e.alpha a r)

/-- The words of entries numbered from `k` on. -/
noncomputable def entriesText (k : ℕ) (es : List Entry) (sp : ℂ → Tok := Tok.cplx) : List Tok :=
  match es with
  | [] => []
  | e :: l => e.text k sp ++ entriesText (k + 1) l sp

/-- An interaction file. -/
noncomputable def fileText (es : List Entry) (sp : ℂ → Tok := Tok.cplx) : List Tok :=
  .int es.length :: entriesText 0 es sp

/-- The definition `d` says what entry `e` says (`cast` drops the imaginary parts in the real build). -/
structure SaysSame (cast : ℂ → K) (e : Entry) (d : VDef K) : Prop where
  rank : d.rank = e.rank
  numAf : d.numAf = e.numAf
  sites : d.sites = e.sites
  flavors : d.flavors = e.flavors
  U : d.U = cast e.U
  alpha : ∀ a < e.numAf, ∀ r < e.rank, d.alpha a r = cast (e.alpha a r)

end CTInt
