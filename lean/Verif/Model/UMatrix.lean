import Verif.Model.Manager
import Mathlib.Data.Complex.Basic
import Mathlib.Data.Int.Log
import Mathlib.Algebra.Order.Round

/-!
# Model of the interaction table and of configuration files (src/U_matrix.h)

Input files are read through `operator>>`.  A stream is a type `S` of stream states with one operation per kind of
variable; `size s old` is the value of the variable after `is >> x` when it held `old` before, together with the
new state.  A failed extraction may leave the variable as it was, so `old` matters.  The theorems about arbitrary
files quantify over every such stream.  `Tok` below is one concrete stream: words separated by blanks.
-/

set_option linter.all false

namespace CTInt

/-- `std::istream` as the code uses it: extraction of `size_t`, `unsigned int`, `int`, `double` and
    `std::complex<double>`. -/
structure IStream (S : Type) where
  size : S → ℕ → ℕ × S
  uint : S → ℕ → ℕ × S
  int : S → ℤ → ℤ × S
  dbl : S → ℝ → ℝ × S
  cplx : S → ℂ → ℂ × S

/-- A vertex definition with its number: `vertex_definition` (src/U_matrix.h 28-105), the field `id_` added to
    `VDef`. -/
structure UDef (K : Type) where
  d : VDef K
  id : ℕ

instance {K : Type} [Zero K] : Inhabited (UDef K) := ⟨⟨default, 0⟩⟩

/-- `is_truely_non_density_type`, U_matrix.h 87-93. -/
def VDef.isTrulyNonDensity {K : Type} (d : VDef K) : Bool :=
  (List.range d.rank).foldl (fun flag r => flag && (d.sites.getD (2 * r) 0 != d.sites.getD (2 * r + 1) 0)) true

/-- `general_U_matrix`, members at U_matrix.h 337-341. -/
structure UTable (K : Type) where
  ns : ℕ
  nf : ℕ
  nonzero : ℕ
  list : List (UDef K)
  nonDens : List (UDef K)
  dens : List (UDef K)
  isDens : List Bool
  isTruly : List Bool

variable {K : Type} [RCLike K] [DecidableEq K]

/-- The constructor of `vertex_definition`, U_matrix.h 34-47, with its asserts.  The two shape asserts on the
    auxiliary fields compare the shape `(naf, rk)` of the array passed. -/
def UDef.create (rank numAf : ℕ) (flavors sites : List ℕ) (U : K) (naf rk : ℕ) (alpha : ℕ → ℕ → K) (id : ℕ) :
    Res (UDef K) := do
  Res.assert (flavors.length = rank)
  Res.assert (sites.length = 2 * rank)
  Res.assert (naf = numAf)
  Res.assert (rk = rank)
  pure ⟨⟨rank, flavors, sites, numAf, U, alpha⟩, id⟩

/-- `find_non_density_vertices`, U_matrix.h 343-356, on a table whose `density_vertices` is `dens0` (it is not
    cleared by the code; every call in the repository starts with the empty list). -/
def UTable.classify (ns nf nonzero : ℕ) (dens0 list : List (UDef K)) : UTable K :=
  let (nd, de, a, b) := list.foldl (fun (x : List (UDef K) × List (UDef K) × List Bool × List Bool) v =>
    let den := v.d.isDensity
    if !den then (x.1 ++ [v], x.2.1, x.2.2.1 ++ [den], x.2.2.2 ++ [v.d.isTrulyNonDensity])
    else (x.1, x.2.1 ++ [v], x.2.2.1 ++ [den], x.2.2.2 ++ [v.d.isTrulyNonDensity])) ([], dens0, [], [])
  ⟨ns, nf, nonzero, list, nd, de, a, b⟩

/-- The auxiliary fields set at U_matrix.h 246-251 and 260-265: first index the state, second the operator pair. -/
def onsiteAlpha (delta : K) : ℕ → ℕ → K
  | 0, 0 => 1 + delta
  | 0, 1 => -delta
  | 1, 0 => -delta
  | 1, 1 => 1 + delta
  | _, _ => 0

/-- The body of the loop over physical sites, U_matrix.h 235-268. -/
def onsiteVertex (nf : ℕ) (U delta : K) (site : ℕ) : Res (UDef K) :=
  if nf = 1 then
    UDef.create 2 2 [0, 0] ([0, 1].map (fun _ => 2 * site) ++ [2, 3].map (fun _ => 2 * site + 1)) U 2 2
      (onsiteAlpha delta) site
  else
    UDef.create 2 2 [0, 1] ([0, 1, 2, 3].map fun _ => site) U 2 2 (onsiteAlpha delta) site

/-- `set_onsite_U`, U_matrix.h 214-273. -/
def UTable.onsite (ns nf : ℕ) (U delta : K) : Res (UTable K) := do
  Res.throwIf (nf ≠ 1 ∧ nf ≠ 2) .runtimeError
  let n := if nf = 2 then ns else ns / 2
  let l ← Res.foldl (fun l site => do
    let v ← onsiteVertex nf U delta site
    pure (l ++ [v])) [] (List.range n)
  pure (UTable.classify ns nf ns [] l)

/-- `std::vector::resize`. -/
def resizeL (l : List ℕ) (n : ℕ) : List ℕ := l.take n ++ List.replicate (n - l.length) 0

/-- The local variables of `load_vertex_from_file` that live across the entries, U_matrix.h 159-166.  `shape` is the
    shape of `alpha_cmplx`.  (`alpha_` is overwritten completely for each entry, 191-195.) -/
structure LoadVars (S : Type) where
  s : S
  rank : ℕ
  numAf : ℕ
  U : ℂ
  sites : List ℕ
  flavors : List ℕ
  shape : ℕ × ℕ
  al : ℕ → ℕ → ℂ

/-- `boost::multi_array::resize`: common elements are kept, new ones are zero. -/
noncomputable def resizeA (shape new : ℕ × ℕ) (al : ℕ → ℕ → ℂ) : ℕ → ℕ → ℂ := fun i j =>
  if i < min shape.1 new.1 ∧ j < min shape.2 new.2 then al i j else 0

section
variable {S : Type} (is : IStream S)

/-- U_matrix.h 180-185: the site indices. -/
def readSites (ns : ℕ) (n : ℕ) (s : S) (l : List ℕ) : Res (S × List ℕ) :=
  Res.foldl (fun (x : S × List ℕ) i => do
    let old ← Res.get x.2 i
    let (v, s) := is.size x.1 old
    Res.throwIf (ns ≤ v) .runtimeError
    pure (s, x.2.set i v)) (s, l) (List.range n)

/-- U_matrix.h 186-191: the flavor indices. -/
def readFlavors (nf : ℕ) (n : ℕ) (s : S) (l : List ℕ) : Res (S × List ℕ) :=
  Res.foldl (fun (x : S × List ℕ) i => do
    let old ← Res.get x.2 i
    let (v, s) := is.uint x.1 old
    Res.throwIf (nf ≤ v) .runtimeError
    pure (s, x.2.set i v)) (s, l) (List.range n)

/-- U_matrix.h 192-196: the auxiliary fields, pair by pair. -/
noncomputable def readAlpha (rank naf : ℕ) (s : S) (al : ℕ → ℕ → ℂ) : S × (ℕ → ℕ → ℂ) :=
  (List.range rank).foldl (fun x r =>
    (List.range naf).foldl (fun (x : S × (ℕ → ℕ → ℂ)) a =>
      let (v, s) := is.cplx x.1 (x.2 a r)
      (s, fun i j => if i = a ∧ j = r then v else x.2 i j)) x) (s, al)

/-- One entry of the file, U_matrix.h 168-204.  `dbg` tells whether the asserts at 172-173 are compiled in; in a
    release build neither `itmp` nor the demand `rank==2` has any effect.  `junk` is the uninitialised `itmp`. -/
noncomputable def loadEntry (dbg : Bool) (cast : ℂ → K) (ns nf idx junk : ℕ) (v : LoadVars S) :
    Res (LoadVars S × UDef K) := do
  let (itmp, s) := is.size v.s junk
  let (rank, s) := is.size s v.rank
  let (naf, s) := is.size s v.numAf
  let (U, s) := is.cplx s v.U
  Res.assert (dbg = true → itmp = idx)
  Res.assert (dbg = true → rank = 2)
  let (s, sites) ← readSites is ns (2 * rank) s (resizeL v.sites (2 * rank))
  let (s, flavors) ← readFlavors is nf rank s (resizeL v.flavors rank)
  let (s, al) := readAlpha is rank naf s (resizeA v.shape (naf, rank) v.al)
  let d ← UDef.create rank naf flavors sites (cast U) naf rank
    (fun i r => if i < naf ∧ r < rank then cast (al i r) else 0) idx
  pure (⟨s, rank, naf, U, sites, flavors, (naf, rank), al⟩, d)

/-- `load_vertex_from_file`, U_matrix.h 148-207, after the file has been opened; `open? = false` stands for a file
    that cannot be opened.  `junk` are the values of the uninitialised `num_nonzero_`, `rank`, `num_af_states` and
    `itmp`. -/
noncomputable def UTable.load (dbg : Bool) (cast : ℂ → K) (ns nf : ℕ) (isOpen : Bool) (s : S) (junk : ℕ → ℕ) :
    Res (UTable K) := do
  Res.throwIf (isOpen = false) .runtimeError
  let (n, s) := is.uint s (junk 0)
  let (_, l) ← Res.foldl (fun (x : LoadVars S × List (UDef K)) idx => do
    let (v, d) ← loadEntry is dbg cast ns nf idx (junk (3 + idx)) x.1
    pure (v, x.2 ++ [d])) (⟨s, junk 1, junk 2, 0, [], [], (0, 0), fun _ _ => 0⟩, []) (List.range n)
  pure (UTable.classify ns nf n [] l)

/-- The constructor, U_matrix.h 136-146: exactly one of the file name and `U` must be given. -/
noncomputable def UTable.create (dbg : Bool) (cast : ℂ → K) (ns nf : ℕ) (file : Option (Bool × S)) (U : Option K)
    (delta : K) (junk : ℕ → ℕ) : Res (UTable K) :=
  match file, U with
  | some (o, s), none => UTable.load is dbg cast ns nf o s junk
  | none, some U => UTable.onsite ns nf U delta
  | _, _ => .throw .runtimeError

/-- `load_config`, U_matrix.h 855-871.  The loop reads `iv_in`, `type`, `af_state` and `time` into fresh variables;
    `junk` are their uninitialised values.  A negative type becomes a huge `size_t` and fails the assert of
    `get_vertex` (283-286).  The constructor of `itime_vertex` is 371-380; `push_back` (443-455) never refuses. -/
noncomputable def loadConfig (tbl : List (UDef K)) (s : S) (junk : ℕ → ℤ) (junkT : ℕ → ℝ) : Res (List Vert × S) := do
  let (n, s) := is.int s (junk 0)
  Res.foldl (fun (x : List Vert × S) i => do
    let (_, s) := is.int x.2 (junk (3 * i + 1))
    let (type, s) := is.int s (junk (3 * i + 2))
    let (af, s) := is.int s (junk (3 * i + 3))
    let (time, s) := is.dbl s (junkT i)
    Res.assert (0 ≤ type)
    let d ← Res.get tbl type.toNat
    pure (x.1 ++ [⟨type.toNat, af, (d.d.rank : ℤ), time, d.d.isDensity, false, 0⟩], s)) ([], s) (List.range n.toNat)

end

/-- `ItimeVertexContainer::push_back`, U_matrix.h 443-455: the exception object at line 452 is constructed but not
    thrown, so the search has no effect. -/
noncomputable def pushVert (vs : List Vert) (x : Vert) : Res (List Vert) :=
  open Classical in
  let equalTime := (List.range vs.length).any fun i => decide ((vs.getD i default).time = x.time)
  let _unused := if equalTime then some Exn.runtimeError else none
  pure (vs ++ [x])

/-- `num_interacting`, U_matrix.h 420-426. -/
def numInteracting (vs : List Vert) : ℕ := vs.foldl (fun c v => if !v.nonInt then c + 1 else c) 0

/-- A word of a text file, by what it can be read as. -/
inductive Tok where
  | int (z : ℤ)
  | dec (x : ℝ)
  | cplx (z : ℂ)
  | word

/-- The state of a text stream: what is left, or failed. -/
abbrev TokS := Option (List Tok)

/-- Extraction of a number from a text stream.  A word that cannot be read as asked makes the stream fail and stores
    0; in a failed stream, and at the end of the file, the variable keeps its value (C++11). -/
def Tok.extract {α : Type} (zero : α) (f : Tok → Option α) : TokS → α → α × TokS
  | some (t :: l), _ => match f t with
    | some a => (a, some l)
    | none => (zero, none)
  | _, old => (old, none)

/-- The text stream.  Simplifications: integers wider than the variable are not treated (negative numbers read into
    an unsigned variable wrap around); a number with a decimal point read into an integer variable counts as
    unreadable. -/
noncomputable def Tok.stream : IStream TokS where
  size := Tok.extract 0 fun | .int z => some (if 0 ≤ z then z.toNat else (2 ^ 64 + z).toNat) | _ => none
  uint := Tok.extract 0 fun | .int z => some (if 0 ≤ z then z.toNat else (2 ^ 32 + z).toNat) | _ => none
  int := Tok.extract 0 fun | .int z => some z | _ => none
  dbl := Tok.extract 0 fun | .int z => some (z : ℝ) | .dec x => some x | _ => none
  cplx := Tok.extract 0 fun | .int z => some (z : ℂ) | .dec x => some (x : ℂ) | .cplx z => some z | _ => none

/-- The value that `os << x` prints: `p` significant digits (`p = 6`, the default precision, which the code never
    changes).  Simplification: ties are rounded up. -/
noncomputable def printed (p : ℕ) (x : ℝ) : ℝ :=
  if x = 0 then 0
  else
    let e : ℤ := p - 1 - Int.log 10 |x|
    (round (x * (10 : ℝ) ^ e) : ℤ) / (10 : ℝ) ^ e

/-- `dump`, U_matrix.h 882-892. -/
noncomputable def dumpConfig (vs : List Vert) : List Tok :=
  Tok.int vs.length :: (List.range vs.length).flatMap fun i =>
    let v := vs.getD i default
    [Tok.int i, Tok.int v.type, Tok.int v.af, Tok.dec (printed 6 v.time)]

end CTInt
