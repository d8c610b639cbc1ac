import Verif.Model.Green
import Verif.Model.UMatrix

/-!
# Reading the bare Green function word by word: src/green_function.h

`Model/Green.lean` takes the lines of the file as a whole.  Here every variable is filled by its own extraction, as in
the code; a variable that has not been given a value yet is `none`, and its use is undefined.
-/

set_option linter.all false

namespace CTInt

variable {K : Type} [RCLike K]

/-- `is >> x` for a number `x` that may not be initialised: a word that cannot be read as asked makes the stream fail
    and stores 0; in a failed stream, and at the end of the file, the variable stays as it is (C++11). -/
def Tok.into {α : Type} (zero : α) (rd : Tok → Option α) : TokS → Option α → Option α × TokS
  | some (t :: l), _ => match rd t with
    | some a => (some a, some l)
    | none => (some zero, none)
  | _, old => (old, none)

/-- A word read as an `int`.  Simplification as for `Tok.stream`: a number with a decimal point counts as unreadable. -/
def Tok.asInt : Tok → Option ℤ
  | .int z => some z
  | _ => none

/-- A word read as a `double`. -/
def Tok.asDbl : Tok → Option ℝ
  | .int z => some z
  | .dec x => some x
  | _ => none

/-- The use of a variable. -/
def Res.val {α : Type} : Option α → Res α
  | some a => .ok a
  | none => .ub

/-- The local variables `flavor_tmp`, `itmp`, `itmp2`, `itmp3`, `re`, `im`, green_function.h 60-62. -/
structure GVars where
  f : Option ℤ
  i : Option ℤ
  j : Option ℤ
  t : Option ℤ
  re : Option ℝ
  im : Option ℝ

/-- Before the first line none of them has a value. -/
def GVars.unset : GVars := ⟨none, none, none, none, none, none⟩

/-- `ifs >> flavor_tmp >> itmp >> itmp2 >> itmp3 >> re >> im`, green_function.h 68. -/
def GVars.next (v : GVars) (s : TokS) : GVars × TokS :=
  let (f, s) := Tok.into 0 Tok.asInt s v.f
  let (i, s) := Tok.into 0 Tok.asInt s v.i
  let (j, s) := Tok.into 0 Tok.asInt s v.j
  let (t, s) := Tok.into 0 Tok.asInt s v.t
  let (re, s) := Tok.into 0 Tok.asDbl s v.re
  let (im, s) := Tok.into 0 Tok.asDbl s v.im
  (⟨f, i, j, t, re, im⟩, s)

/-- What has been read so far: the stream, the local variables, `data_` and `spline_coeff_`. -/
structure GReadT (K : Type) where
  s : TokS
  v : GVars
  data : ℕ → ℕ → ℕ → ℕ → K
  co : ℕ → ℕ → ℕ → ℕ → ℕ → ℂ

namespace Green

/-- One pass of the innermost loop, green_function.h 67-94. -/
noncomputable def readLineT (f s1 s2 : ℕ) (st : GReadT K) (t : ℕ) : Res (GReadT K) := do
  let (v, s) := st.v.next st.s
  let x ← Res.val v.f
  Res.throwIf (x ≠ f) .runtimeError
  let x ← Res.val v.i
  Res.throwIf (x ≠ s1) .runtimeError
  let x ← Res.val v.j
  Res.throwIf (x ≠ s2) .runtimeError
  let x ← Res.val v.t
  Res.throwIf (x ≠ t) .runtimeError
  let re ← Res.val v.re
  let im ← Res.val v.im
  pure ⟨s, v, fun a b c d => if a = f ∧ b = s1 ∧ c = s2 ∧ d = t then mycast ⟨re, im⟩ else st.data a b c d, st.co⟩

/-- One pair of sites, green_function.h 67-107: read the lines, make the splines, store their coefficients. -/
noncomputable def readPairT (ntau : ℕ) (beta : ℝ) (f s1 : ℕ) (st : GReadT K) (s2 : ℕ) : Res (GReadT K) := do
  let st ← Res.foldl (fun st t => readLineT f s1 s2 st t) st (List.range ntau)
  let tau := (List.range ntau).map fun t : ℕ => beta * (t : ℝ) / ((ntau : ℝ) - 1)
  let re ← Spline.setPoints .default tau ((List.range ntau).map fun t => RCLike.re (st.data f s1 s2 t)) true
  let im ← Spline.setPoints .default tau ((List.range ntau).map fun t => RCLike.im (st.data f s1 s2 t)) true
  Res.foldl (fun st t => Res.foldl (fun st p => do
    let x ← re.getCoeff t p
    let y ← im.getCoeff t p
    let co : ℕ → ℕ → ℕ → ℕ → ℕ → ℂ := fun a b c d e =>
      if a = f ∧ b = s1 ∧ c = s2 ∧ d = t ∧ e = p then ⟨x, y⟩ else st.co a b c d e
    pure { st with co := co }) st (List.range 4)) st (List.range (ntau - 1))

open Classical in
/-- `read_itime_data(file, beta, flavors, sites)`, green_function.h 28-123, on the words of the file; `none` is a
    file that cannot be opened.  A grid of fewer than one point is not allocated. -/
noncomputable def readText (file : Option (List Tok)) (beta : ℝ) (flavors sites : ℕ) : Res (Green K) :=
  match file with
  | none => .throw .runtimeError
  | some l => do
    let (nf, s) := Tok.into 0 Tok.asInt (some l) none
    let (ns, s) := Tok.into 0 Tok.asInt s none
    let (nt, s) := Tok.into 0 Tok.asInt s none
    let (b, s) := Tok.into 0 Tok.asDbl s none
    let x ← Res.val nf
    Res.throwIf ((flavors : ℤ) ≠ x) .runtimeError
    let x ← Res.val ns
    Res.throwIf ((sites : ℤ) ≠ x) .runtimeError
    let b ← Res.val b
    Res.throwIf (|b - beta| > 1e-8) .runtimeError
    let nt ← Res.val nt
    Res.assert (1 ≤ nt)
    let ntau := nt.toNat
    let dtau := beta / ((ntau : ℝ) - 1)
    let st ← Res.foldl (fun st f => Res.foldl (fun st s1 => Res.foldl (readPairT ntau beta f s1) st
      (List.range sites)) st (List.range sites))
      (⟨s, GVars.unset, fun _ _ _ _ => 0, fun _ _ _ _ _ => 0⟩ : GReadT K)
      (List.range flavors)
    let g : Green K := ⟨flavors, sites, ntau, beta, dtau, 1 / dtau, st.data, st.co⟩
    let _ ← Res.foldl (fun _ f => Res.foldl (fun _ s => Res.foldl (fun _ s2 => Res.foldl (fun _ tau => do
      let a ← g.interpolate f s s2 tau
      let b ← g.interpolate f s2 s tau
      Res.throwIf (‖a - starRingEnd K b‖ > 1e-8) .runtimeError) () [0, 0.5 * beta, beta]) ()
      (List.range sites)) () (List.range sites)) () (List.range flavors)
    pure g

end Green
end CTInt
