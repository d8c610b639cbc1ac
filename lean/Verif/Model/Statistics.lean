import Mathlib.Algebra.Order.Archimedean.Real.Basic
import Mathlib.Algebra.Order.Floor.Ring
import Verif.Base.Res

/-!
# Model of the statistics classes (src/update_statistics.h, src/interaction_expansion.hpp)

Real arithmetic is exact.  Integer counters do not overflow.
-/

set_option linter.all false

namespace CTInt

/-- `static_cast<int>(std::floor(x))` with `x = a/b`: undefined if `b` is zero or the result does not fit an `int`. -/
noncomputable def floorDiv (a b : ℝ) : Res ℤ :=
  open Classical in
  if b ≠ 0 ∧ -2 ^ 31 ≤ ⌊a / b⌋ ∧ ⌊a / b⌋ < 2 ^ 31 then .ok ⌊a / b⌋ else .ub

/-- `scalar_histogram`, update_statistics.h 231-343. -/
structure Hist where
  bins : ℕ
  samples : ℕ
  maxVal : ℝ
  sumval : List ℝ
  sumval2 : List ℝ
  counter : List ℝ

/-- The constructor with arguments, update_statistics.h 240: `sumval(0.0, num_bins_)` is a vector of length zero (the
    element value is `num_bins_`), and so are the two others. -/
noncomputable def Hist.construct (n : ℕ) (mx : ℝ) : Hist := ⟨n, 0, mx, List.replicate 0 n, List.replicate 0 n, List.replicate 0 n⟩

/-- `init`, update_statistics.h 242-252. -/
noncomputable def Hist.init (n : ℕ) (mx : ℝ) : Hist := ⟨n, 0, mx, List.replicate n 0, List.replicate n 0, List.replicate n 0⟩

/-- `add_sample`, update_statistics.h 254-265. -/
noncomputable def Hist.add (h : Hist) (d v : ℝ) : Res (Bool × Hist) := do
  let pos ← floorDiv (h.bins * d) h.maxVal
  if 0 ≤ pos ∧ pos < h.bins then do
    Res.assert (pos.toNat < h.sumval.length ∧ pos.toNat < h.sumval2.length ∧ pos.toNat < h.counter.length)
    pure (true, { h with
      samples := h.samples + 1
      sumval := h.sumval.modify pos.toNat (· + v)
      sumval2 := h.sumval2.modify pos.toNat (· + v * v)
      counter := h.counter.modify pos.toNat (· + 1) })
  else pure (false, h)

/-- A sequence of calls of `add_sample`: the returned flags and the histogram. -/
noncomputable def Hist.addAll (h : Hist) : List (ℝ × ℝ) → Res (List Bool × Hist)
  | [] => .ok ([], h)
  | s :: l => do
    let (b, h) ← h.add s.1 s.2
    let (bs, h) ← h.addAll l
    pure (b :: bs, h)

/-- `reset`, update_statistics.h 321-328. -/
noncomputable def Hist.reset (h : Hist) : Res Hist := do
  Res.assert (h.bins ≤ h.sumval.length ∧ h.bins ≤ h.sumval2.length ∧ h.bins ≤ h.counter.length)
  pure { h with
    samples := 0
    sumval := List.replicate h.bins 0 ++ h.sumval.drop h.bins
    sumval2 := List.replicate h.bins 0 ++ h.sumval2.drop h.bins
    counter := List.replicate h.bins 0 ++ h.counter.drop h.bins }

/-- The inner loop of `rebin`, update_statistics.h 200-203: `k` elements from position `count` on, and the new position. -/
noncomputable def rebinSum (org : List ℝ) : ℕ → ℝ × ℕ → Res (ℝ × ℕ)
  | 0, x => .ok x
  | k + 1, (s, count) => do
    let a ← Res.get org count
    rebinSum org k (s + a, count + 1)

/-- The outer loop of `rebin`, update_statistics.h 198-205. -/
noncomputable def rebinLoop (org : List ℝ) (nrebin : ℕ) : ℕ → ℕ → Res (List ℝ)
  | 0, _ => .ok []
  | n + 1, count => do
    let (s, count) ← rebinSum org nrebin (0, count)
    let l ← rebinLoop org nrebin n count
    pure (s :: l)

/-- `rebin(org_array, nrebin)`, update_statistics.h 193-208.  `nrebin = 0` is an integer division by zero. -/
noncomputable def rebin (org : List ℝ) (nrebin : ℕ) : Res (List ℝ) := do
  Res.assert (nrebin ≠ 0)
  rebinLoop org nrebin (org.length / nrebin) 0

open Classical in
/-- The loop of the second `rebin`, update_statistics.h 217-226, from old bin `i` on: `pos > new_len` leaves the loop. -/
noncomputable def rebinTo (oldLen : ℕ) (mx mxNew : ℝ) (newLen : ℕ) : ℕ → List ℝ → List ℝ → Res (List ℝ)
  | _, [], new => .ok new
  | i, a :: l, new => do
    let pos ← floorDiv (newLen * ((i + 1 / 2) * (mx / oldLen))) mxNew
    let new := if 0 ≤ pos ∧ pos < newLen then new.modify pos.toNat (· + a) else new
    if pos > newLen then pure new else rebinTo oldLen mx mxNew newLen (i + 1) l new

/-- `rebin(org_array, maxval, maxval_new, new_len)`, update_statistics.h 210-229.  The debug `assert` on line 215 is a
    precondition. -/
noncomputable def rebinMax (org : List ℝ) (mx mxNew : ℝ) (newLen : ℕ) : Res (List ℝ) :=
  open Classical in do
  Res.assert (mxNew ≤ mx)
  rebinTo org.length mx mxNew newLen 0 org (List.replicate newLen 0)

/-! ## `histogram`, interaction_expansion.hpp 81-157 -/

/-- The constructor, line 84. -/
def Counts.create (n : ℕ) : List ℕ := List.replicate n 0

/-- `count`, lines 92-96. -/
def Counts.count (h : List ℕ) (k : ℕ) : List ℕ := if k < h.length then h.modify k (· + 1) else h

/-- `max_index`, lines 98-108. -/
def Counts.maxIndex (h : List ℕ) : ℕ :=
  ((List.range h.length).foldl (fun (x : ℕ × ℕ) i => if x.1 < h.getD i 0 then (h.getD i 0, i) else x) (0, 0)).2

/-- `top_index`, lines 110-118. -/
def Counts.topIndex (h : List ℕ) : ℕ :=
  (List.range h.length).foldl (fun (x : ℕ) i => if h.getD i 0 ≠ 0 then i else x) 0

/-- `max`, lines 120-128.  Reads `index` elements. -/
def Counts.max (h : List ℕ) (index : ℕ) : Res ℕ := do
  Res.assert (index ≤ h.length)
  pure ((List.range index).foldl (fun (x : ℕ) i => if x < h.getD i 0 then h.getD i 0 else x) 0)

/-- `average`, lines 130-136.  Reads `index` elements; without elements the quotient is not a number. -/
noncomputable def Counts.average (h : List ℕ) (index : ℕ) : Res ℝ := do
  Res.assert (index ≤ h.length)
  Res.assert (index ≠ 0)
  pure ((List.range index).foldl (fun (x : ℝ) i => x + (h.getD i 0 : ℝ)) 0 / index)

open Classical in
/-- `is_flat`, line 138. -/
noncomputable def Counts.isFlat (h : List ℕ) (index : ℕ) : Res Bool := do
  let m ← Counts.max h index
  let a ← Counts.average h index
  pure (decide ((m : ℝ) * 0.8 < a))

/-- `clear`, lines 140-144. -/
def Counts.clear (h : List ℕ) : List ℕ := (List.range h.length).foldl (fun t i => t.set i 0) h

/-! ## `update_proposer`, update_statistics.h 17-91 -/

/-- The object.  The generator object `dist_`, which repeats the rates, is not modelled. -/
structure Proposer where
  nv : ℕ
  mode : ℕ
  valid : List ℝ
  invalid : List ℝ
  rate : List ℝ

/-- The constructor, lines 21-29. -/
noncomputable def Proposer.create (nv : ℕ) (rate : List ℝ) : Proposer :=
  ⟨nv, 0, List.replicate nv 1, List.replicate nv 1, rate⟩

/-- `generated_valid_update`, lines 31-36. -/
noncomputable def Proposer.generatedValid (p : Proposer) (k : ℕ) : Res Proposer :=
  if p.mode ≠ 0 then .ok p else do
    Res.assert (1 ≤ k ∧ k - 1 < p.valid.length)
    pure { p with valid := p.valid.modify (k - 1) (· + 1) }

/-- `generated_invalid_update`, lines 38-43. -/
noncomputable def Proposer.generatedInvalid (p : Proposer) (k : ℕ) : Res Proposer :=
  if p.mode ≠ 0 then .ok p else do
    Res.assert (1 ≤ k ∧ k - 1 < p.invalid.length)
    pure { p with invalid := p.invalid.modify (k - 1) (· + 1) }

open Classical in
/-- The loop of `finish_learning`, lines 60-62, from entry `i` on (`n` entries left).  A vanishing divisor, which gives
    infinite or undefined numbers, is a failure of the model. -/
noncomputable def learnLoop (valid : List ℝ) : ℕ → ℕ → List ℝ → Res (List ℝ)
  | 0, _, rate => .ok rate
  | n + 1, i, rate => do
    let ri ← Res.get rate i
    let r0 ← Res.get rate 0
    let vi ← Res.get valid i
    let v0 ← Res.get valid 0
    Res.assert (r0 ≠ 0 ∧ v0 ≠ 0 ∧ vi / v0 ≠ 0)
    learnLoop valid n (i + 1) (rate.set i (ri * (ri / r0 / (vi / v0))))

open Classical in
/-- `finish_learning`, lines 46-75, without the output.  The rates have `Nv_` entries (else lines 64-66 leave the vector). -/
noncomputable def Proposer.finish (p : Proposer) : Res Proposer := do
  Res.throwIf (p.mode ≠ 0) .logicError
  let rate ← learnLoop p.valid (p.nv - 1) 1 p.rate
  Res.assert (rate.sum ≠ 0 ∧ rate.length = p.nv)
  pure { p with mode := 1, rate := rate.map (· / rate.sum) }

/-- One call of an observing method. -/
inductive ProposerCall where
  | valid (k : ℕ)
  | invalid (k : ℕ)

/-- The effect of a call. -/
noncomputable def Proposer.call (p : Proposer) : ProposerCall → Res Proposer
  | .valid k => p.generatedValid k
  | .invalid k => p.generatedInvalid k

end CTInt
