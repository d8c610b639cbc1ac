import Verif.Base.Run
import Verif.Base.Types
import Verif.Model.Spline
import Mathlib.Analysis.RCLike.Basic
import Mathlib.Analysis.Complex.Basic
import Mathlib.Algebra.Order.Floor.Ring

/-!
# The bare Green function: src/green_function.h

The scalar type `T` of the class (`double` or `std::complex<double>`) is an `RCLike` field `K`.
-/

set_option linter.all false

namespace CTInt

variable {K : Type} [RCLike K]

/-- `mycast<T>`, util.h 20-31: the real part if `T` is real, the identity if `T` is complex. -/
noncomputable def mycast (z : ℂ) : K := (RCLike.ofReal z.re : K) + RCLike.ofReal z.im * RCLike.I

/-- `green_function<T>`, green_function.h 241-250.  `co f s1 s2 t p` is `spline_coeff_[f][s1][s2][t][p]`, stored
    for `t < ntau - 1`. -/
structure Green (K : Type) where
  nf : ℕ
  ns : ℕ
  ntau : ℕ
  beta : ℝ
  dtau : ℝ
  invDtau : ℝ
  data : ℕ → ℕ → ℕ → ℕ → K
  co : ℕ → ℕ → ℕ → ℕ → ℕ → ℂ

namespace Green

open Classical in
/-- `interpolate(flavor, site, site2, tau)`, green_function.h 185-214.  The comparison with the spline object
    in the debug build (206-211) is not part of the result. -/
noncomputable def interpolate (g : Green K) (f s1 s2 : ℕ) (tau : ℝ) : Res K := do
  Res.assert (0 ≤ tau ∧ tau ≤ g.beta)
  let idx := ⌊tau * g.invDtau⌋₊
  let idx := if idx = g.ntau - 1 then g.ntau - 2 else idx
  Res.assert (idx < g.ntau - 1)
  Res.assert (f < g.nf ∧ s1 < g.ns ∧ s2 < g.ns)
  let h : ℂ := ((tau - idx * g.dtau : ℝ) : ℂ)
  let y := g.co f s1 s2 idx 0
  let c := g.co f s1 s2 idx 1
  let b := g.co f s1 s2 idx 2
  let a := g.co f s1 s2 idx 3
  pure (mycast (((a * h + b) * h + c) * h + y))

open Classical in
/-- `while (dt >= beta_) { dt -= beta_; sign *= -1.0; }`, green_function.h 145-148 and 222-225. -/
noncomputable def down (beta : ℝ) : ℕ → ℝ → K → Run (ℝ × K)
  | 0, _, _ => .more
  | fuel + 1, dt, sign => if dt ≥ beta then down beta fuel (dt - beta) (sign * -1) else pure (dt, sign)

open Classical in
/-- `while (dt < 0.0) { dt += beta_; sign *= -1.0; }`, green_function.h 149-152 and 226-229. -/
noncomputable def upw (beta : ℝ) : ℕ → ℝ → K → Run (ℝ × K)
  | 0, _, _ => .more
  | fuel + 1, dt, sign => if dt < 0 then upw beta fuel (dt + beta) (sign * -1) else pure (dt, sign)

open Classical in
/-- `operator()(c, cdagger)`, green_function.h 128-158; each loop may run `fuel` times. -/
noncomputable def ofOps (g : Green K) (fuel : ℕ) (c cdag : Op) : Run K := do
  Run.assert (c.flavor = cdag.flavor)
  let dt := c.time - cdag.time
  if dt = 0 then
    if c.small > cdag.small then Run.lift (g.interpolate c.flavor c.site cdag.site 0)
    else do
      let v ← Run.lift (g.interpolate c.flavor c.site cdag.site g.beta)
      pure (-v)
  else do
    let r ← down (K := K) g.beta fuel dt 1
    let r ← upw g.beta fuel r.1 r.2
    let v ← Run.lift (g.interpolate c.flavor c.site cdag.site r.1)
    pure (r.2 * v)

open Classical in
/-- `operator()(delta_t, flavor, site1, site2)`, green_function.h 219-234. -/
noncomputable def ofTime (g : Green K) (fuel : ℕ) (delta : ℝ) (f s1 s2 : ℕ) : Run K := do
  let r ← down (K := K) g.beta fuel delta 1
  let r ← upw g.beta fuel r.1 r.2
  let dt := if r.1 = 0 then r.1 + 1e-8 else r.1
  let v ← Run.lift (g.interpolate f s1 s2 dt)
  pure (r.2 * v)

end Green

/-- One line of the input file: four indices, real and imaginary part. -/
structure GRow where
  f : ℤ
  i : ℤ
  j : ℤ
  t : ℤ
  re : ℝ
  im : ℝ

/-- The input file: first line and the remaining lines.  (A line is taken as a whole; for files that end within
    a line or are not made of numbers see `Model/GreenText.lean`.) -/
structure GFile where
  nf : ℤ
  ns : ℤ
  ntau : ℤ
  beta : ℝ
  rows : List GRow

/-- What has been read so far. -/
structure GRead (K : Type) where
  rest : List GRow
  data : ℕ → ℕ → ℕ → ℕ → K
  co : ℕ → ℕ → ℕ → ℕ → ℕ → ℂ

namespace Green

/-- One pass of the innermost loop, green_function.h 67-94.  When the file has ended the extraction leaves the
    index variables as they were; they hold the indices of the line before, which differ from the expected ones,
    so the first comparison that fails throws; before the first line they are not initialised. -/
noncomputable def readLine (first : Bool) (f s1 s2 : ℕ) (st : GRead K) (t : ℕ) : Res (GRead K) :=
  match st.rest with
  | [] => if first then .ub else .throw .runtimeError
  | row :: rest => do
    Res.throwIf (row.f ≠ f) .runtimeError
    Res.throwIf (row.i ≠ s1) .runtimeError
    Res.throwIf (row.j ≠ s2) .runtimeError
    Res.throwIf (row.t ≠ t) .runtimeError
    pure { st with rest := rest,
                   data := fun a b c d => if a = f ∧ b = s1 ∧ c = s2 ∧ d = t then mycast ⟨row.re, row.im⟩
                     else st.data a b c d }

/-- One pair of sites, green_function.h 67-107: read the lines, make the splines, store their coefficients. -/
noncomputable def readPair (ntau : ℕ) (beta : ℝ) (f s1 : ℕ) (st : GRead K) (s2 : ℕ) : Res (GRead K) := do
  let st ← Res.foldl (fun st t => readLine (f = 0 ∧ s1 = 0 ∧ s2 = 0 ∧ t = 0) f s1 s2 st t) st (List.range ntau)
  let tau := (List.range ntau).map fun t : ℕ => beta * (t : ℝ) / ((ntau : ℝ) - 1)
  let re ← Spline.setPoints .default tau ((List.range ntau).map fun t => RCLike.re (st.data f s1 s2 t)) true
  let im ← Spline.setPoints .default tau ((List.range ntau).map fun t => RCLike.im (st.data f s1 s2 t)) true
  Res.foldl (fun st t => Res.foldl (fun st p => do
    let x ← re.getCoeff t p
    let y ← im.getCoeff t p
    let co : ℕ → ℕ → ℕ → ℕ → ℕ → ℂ := fun a b c d e =>
      if a = f ∧ b = s1 ∧ c = s2 ∧ d = t ∧ e = p then ⟨x, y⟩ else st.co a b c d e
    pure { st with co := co }) st (List.range 4)) st (List.range (ntau - 1))

open Classical in
/-- `read_itime_data(file, beta, flavors, sites)`, green_function.h 28-123; `none` is a file that cannot be
    opened.  A grid of fewer than one point is not allocated. -/
noncomputable def read (file : Option GFile) (beta : ℝ) (flavors sites : ℕ) : Res (Green K) :=
  match file with
  | none => .throw .runtimeError
  | some h => do
    Res.throwIf ((flavors : ℤ) ≠ h.nf ∨ (sites : ℤ) ≠ h.ns) .runtimeError
    Res.throwIf (|h.beta - beta| > 1e-8) .runtimeError
    Res.assert (1 ≤ h.ntau)
    let ntau := h.ntau.toNat
    let dtau := beta / ((ntau : ℝ) - 1)
    let st ← Res.foldl (fun st f => Res.foldl (fun st s1 => Res.foldl (readPair ntau beta f s1) st
      (List.range sites)) st (List.range sites)) (⟨h.rows, fun _ _ _ _ => 0, fun _ _ _ _ _ => 0⟩ : GRead K)
      (List.range flavors)
    let g : Green K := ⟨flavors, sites, ntau, beta, dtau, 1 / dtau, st.data, st.co⟩
    let _ ← Res.foldl (fun _ f => Res.foldl (fun _ s => Res.foldl (fun _ s2 => Res.foldl (fun _ tau => do
      let a ← g.interpolate f s s2 tau
      let b ← g.interpolate f s2 s tau
      Res.throwIf (‖a - starRingEnd K b‖ > 1e-8) .runtimeError) () [0, 0.5 * beta, beta]) ()
      (List.range sites)) () (List.range sites)) () (List.range flavors)
    pure g

end Green
end CTInt
