import Verif.Model.Statistics

/-!
# Model of the adaptive cutoff and of the counters of updates (src/update_statistics.h 120-153, 267-318, 345-426)

Real arithmetic is exact.  None of these classes is used by the solver at this commit; they are part of the header.
-/

set_option linter.all false

namespace CTInt

open Classical in
/-- `get_mean`, update_statistics.h 267-273: the copy of `sumval` with its first `num_bins_` elements divided.  `none` is not a
    number: a bin without samples gives `0.0/0.0`.  Elements are read and written without a check. -/
noncomputable def Hist.mean (h : Hist) : Res (List (Option ℝ)) := do
  Res.assert (h.bins ≤ h.sumval.length ∧ h.bins ≤ h.counter.length)
  pure ((List.range h.sumval.length).map fun i =>
    if i < h.bins then (if h.counter.getD i 0 = 0 then none else some (h.sumval.getD i 0 / h.counter.getD i 0))
    else some (h.sumval.getD i 0))

open Classical in
/-- The loop of `update_cutoff`, update_statistics.h 299-305: `none` if `flag` was set, else `maxval`. -/
noncomputable def cutLoop (cnt sum : List ℝ) : List ℕ → ℝ → Option ℝ
  | [], m => some m
  | i :: l, m => if cnt.getD i 0 < 100 then none else cutLoop cnt sum l (max m (sum.getD i 0 / cnt.getD i 0))

/-- `a/b > c` for doubles with `b ≥ 0`: division by zero gives an infinity or, for `a = 0`, something incomparable. -/
def quotGt (a b c : ℝ) : Prop := if b = 0 then 0 < a else c < a / b

/-- `a/b < c` for doubles with `b ≥ 0`. -/
def quotLt (a b c : ℝ) : Prop := if b = 0 then a < 0 else a / b < c

open Classical in
/-- `update_cutoff` of `scalar_histogram`, update_statistics.h 284-318.  The debug asserts of lines 285-286 are preconditions. -/
noncomputable def Hist.updateCutoff (h : Hist) (ratio maxdist mag : ℝ) : Res (Bool × ℝ) := do
  Res.assert (0 ≤ ratio ∧ ratio ≤ 1)
  Res.assert (1 ≤ mag)
  let cnt ← rebinMax h.counter h.maxVal maxdist 4
  let sum ← rebinMax h.sumval h.maxVal maxdist 4
  match cutLoop cnt sum (List.range cnt.length) (-1) with
  | none => pure (false, maxdist)
  | some m =>
    if m < 0 then pure (false, maxdist)
    else if quotGt (sum.getD 3 0 / cnt.getD 3 0) m ratio then pure (true, maxdist * mag)
    else if quotLt (sum.getD 3 0 / cnt.getD 3 0) m ratio then pure (true, maxdist / mag)
    else pure (true, maxdist)

/-- `scalar_histogram_flavors`, update_statistics.h 345-426. -/
structure HistF where
  flavors : ℕ
  bins : ℕ
  maxVal : ℝ
  hists : List Hist

/-- The constructor, update_statistics.h 348-357. -/
noncomputable def HistF.create (n : ℕ) (mx : ℝ) (flavors : ℕ) : HistF :=
  ⟨flavors, n, mx, List.replicate flavors (Hist.init n mx)⟩

/-- `add_sample`, update_statistics.h 359-362.  The debug assert is a precondition. -/
noncomputable def HistF.add (h : HistF) (d v : ℝ) (f : ℕ) : Res (Bool × HistF) := do
  Res.assert (f < h.flavors)
  let g ← Res.get h.hists f
  let (b, g) ← g.add d v
  pure (b, { h with hists := h.hists.set f g })

/-- The inner loop of `get_mean`, `get_counter` and `get_sumval`, update_statistics.h 369-372, 383-386, 396-399: one block is
    copied into the result. -/
def blockCopy {α : Type} (bins f : ℕ) (src : List α) (acc : List α) : Res (List α) :=
  Res.foldl (fun acc b => do
    let x ← Res.get src b
    Res.assert (b + f * bins < acc.length)
    pure (acc.set (b + f * bins) x)) acc (List.range bins)

/-- The outer loop of these functions: `get` is the getter of one histogram, the result begins filled with `z`. -/
def HistF.gather {α : Type} (h : HistF) (get : Hist → Res (List α)) (z : α) : Res (List α) :=
  Res.foldl (fun acc f => do
    let g ← Res.get h.hists f
    let src ← get g
    blockCopy h.bins f src acc) (List.replicate (h.bins * h.flavors) z) (List.range h.flavors)

/-- `get_mean`, update_statistics.h 364-375. -/
noncomputable def HistF.mean (h : HistF) : Res (List (Option ℝ)) := h.gather Hist.mean (some 0)

/-- `get_counter`, update_statistics.h 377-388. -/
noncomputable def HistF.counter (h : HistF) : Res (List ℝ) := h.gather (fun g => .ok g.counter) 0

/-- `get_sumval`, update_statistics.h 390-401. -/
noncomputable def HistF.sumval (h : HistF) : Res (List ℝ) := h.gather (fun g => .ok g.sumval) 0

open Classical in
/-- `update_cutoff`, update_statistics.h 403-411.  The debug assert of line 409 is a precondition; without bins the last
    division gives infinity, a failure of the model. -/
noncomputable def HistF.updateCutoff (h : HistF) (ratio maxdist mag : ℝ) : Res ℝ := do
  let d ← Res.foldl (fun d g => do
    let r ← g.updateCutoff ratio maxdist mag
    pure (max d r.2)) (-1) h.hists
  Res.assert (0 < d)
  Res.assert (h.bins ≠ 0)
  pure (max (min h.maxVal d) (h.maxVal / h.bins))

/-- `reset`, update_statistics.h 413-417. -/
noncomputable def HistF.reset (h : HistF) : Res HistF := do
  let hs ← Res.mapM Hist.reset h.hists
  pure { h with hists := hs }

/-- What a caller does with such an object and the cutoff it keeps. -/
inductive CutOp where
  | sample (d v : ℝ) (f : ℕ)
  | adapt (ratio mag : ℝ)
  | reset

/-- One call; the state is the object and the current cutoff. -/
noncomputable def CutOp.run (s : HistF × ℝ) : CutOp → Res (HistF × ℝ)
  | .sample d v f => do
    let (_, h) ← s.1.add d v f
    pure (h, s.2)
  | .adapt ratio mag => do
    let c ← s.1.updateCutoff ratio s.2 mag
    pure (s.1, c)
  | .reset => do
    let h ← s.1.reset
    pure (h, s.2)

/-! ## `simple_update_statistcs` -/

/-- The four counters of an update. -/
inductive UpdateEvent where
  | notValid
  | reducible
  | accepted
  | rejected
  deriving DecidableEq

/-- The position of a counter, update_statistics.h 127-142. -/
def UpdateEvent.index : UpdateEvent → ℕ
  | .notValid => 0
  | .reducible => 1
  | .accepted => 2
  | .rejected => 3

/-- The constructor, update_statistics.h 122-126. -/
def UStat.create (nv : ℕ) : List (List ℕ) := List.replicate nv (List.replicate 4 0)

/-- One of the four counting methods, update_statistics.h 127-142.  The debug assert is a precondition. -/
def UStat.count (c : List (List ℕ)) (e : UpdateEvent) (iv : ℕ) : Res (List (List ℕ)) := do
  Res.assert (iv < c.length)
  pure (c.modify iv fun l => l.modify e.index (· + 1))

/-- `reset`, update_statistics.h 144-148. -/
def UStat.reset (c : List (List ℕ)) : List (List ℕ) := c.map fun l => l.map fun _ => 0

end CTInt
