import Verif.Model.Green

/-!
# The debug build of the bare Green function: src/green_function.h with `NDEBUG` not defined
-/

set_option linter.all false

namespace CTInt

variable {K : Type} [RCLike K]

namespace Green

/-- The splines `splines_re_[flavor][site][site2]` and `splines_im_[flavor][site][site2]`, green_function.h 55-57 and 97-98.
    The object keeps the two splines it made while reading; here they are made again from the same table. -/
noncomputable def splines (g : Green K) (f s1 s2 : ℕ) : Res (Spline × Spline) := do
  let tau := (List.range g.ntau).map fun t : ℕ => g.beta * (t : ℝ) / ((g.ntau : ℝ) - 1)
  let re ← Spline.setPoints .default tau ((List.range g.ntau).map fun t => RCLike.re (g.data f s1 s2 t)) true
  let im ← Spline.setPoints .default tau ((List.range g.ntau).map fun t => RCLike.im (g.data f s1 s2 t)) true
  pure (re, im)

open Classical in
/-- `interpolate(flavor, site, site2, tau)` in the debug build, green_function.h 185-214: the polynomial with the
    stored coefficients is compared with the spline objects, and a difference stops the program. -/
noncomputable def interpolateD (g : Green K) (f s1 s2 : ℕ) (tau : ℝ) : Res K := do
  Res.assert (0 ≤ tau ∧ tau ≤ g.beta)
  let idx := ⌊tau * g.invDtau⌋₊
  let idx := if idx = g.ntau - 1 then g.ntau - 2 else idx
  Res.assert (idx < g.ntau - 1)
  Res.assert (f < g.nf ∧ s1 < g.ns ∧ s2 < g.ns)
  let h : ℂ := ((tau - idx * g.dtau : ℝ) : ℂ)
  let y := g.co f s1 s2 idx 0
  let c := g.co f s1 s2 idx 1
  let b := g.co f s1 s2 idx 2
  let a := g.co f s1 s2 idx 3
  let v := ((a * h + b) * h + c) * h + y
  let sp ← g.splines f s1 s2
  let x ← sp.1.eval tau
  let y ← sp.2.eval tau
  let w : K := mycast ⟨x, y⟩
  Res.assert (‖v - ⟨RCLike.re w, RCLike.im w⟩‖ < 1e-8)
  pure (mycast v)

open Classical in
/-- `read_itime_data(file, beta, flavors, sites)` in the debug build, green_function.h 28-123: the last check calls
    `interpolate`. -/
noncomputable def readD (file : Option GFile) (beta : ℝ) (flavors sites : ℕ) : Res (Green K) :=
  match file with
  | none => .throw .runtimeError
  | some h => do
    Res.throwIf ((flavors : ℤ) ≠ h.nf ∨ (sites : ℤ) ≠ h.ns) .runtimeError
    Res.throwIf (|h.beta - beta| > 1e-8) .runtimeError
    Res.assert (1 ≤ h.ntau)
    let ntau := h.ntau.toNat
    let dtau := beta / ((ntau : ℝ) - 1)
    let st ← Res.foldl (fun st f => Res.foldl (fun st s1 => Res.foldl (readPair ntau beta f s1) st
      (List.range sites)) st (List.range sites)) (⟨h.rows, fun _ _ _ _ => 0, fun _ _ _ _ _ => 0⟩ : GRead K)
      (List.range flavors)
    let g : Green K := ⟨flavors, sites, ntau, beta, dtau, 1 / dtau, st.data, st.co⟩
    let _ ← Res.foldl (fun _ f => Res.foldl (fun _ s => Res.foldl (fun _ s2 => Res.foldl (fun _ tau => do
      let a ← g.interpolateD f s s2 tau
      let b ← g.interpolateD f s2 s tau
      Res.throwIf (‖a - starRingEnd K b‖ > 1e-8) .runtimeError) () [0, 0.5 * beta, beta]) ()
      (List.range sites)) () (List.range sites)) () (List.range flavors)
    pure g

open Classical in
/-- `operator()(c, cdagger)` in the debug build, green_function.h 128-158. -/
noncomputable def ofOpsD (g : Green K) (fuel : ℕ) (c cdag : Op) : Run K := do
  Run.assert (c.flavor = cdag.flavor)
  let dt := c.time - cdag.time
  if dt = 0 then
    if c.small > cdag.small then Run.lift (g.interpolateD c.flavor c.site cdag.site 0)
    else do
      let v ← Run.lift (g.interpolateD c.flavor c.site cdag.site g.beta)
      pure (-v)
  else do
    let r ← down (K := K) g.beta fuel dt 1
    let r ← upw g.beta fuel r.1 r.2
    let v ← Run.lift (g.interpolateD c.flavor c.site cdag.site r.1)
    pure (r.2 * v)

open Classical in
/-- `operator()(delta_t, flavor, site1, site2)` in the debug build, green_function.h 219-234. -/
noncomputable def ofTimeD (g : Green K) (fuel : ℕ) (delta : ℝ) (f s1 s2 : ℕ) : Run K := do
  let r ← down (K := K) g.beta fuel delta 1
  let r ← upw g.beta fuel r.1 r.2
  let dt := if r.1 = 0 then r.1 + 1e-8 else r.1
  let v ← Run.lift (g.interpolateD f s1 s2 dt)
  pure (r.2 * v)

end Green
end CTInt
