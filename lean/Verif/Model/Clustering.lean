import Verif.Base.Res
import Mathlib.Data.Nat.Notation
import Mathlib.Logic.Function.Basic

/-!
# Model of `Clustering` (include/alps/fastupdate/detail/clustering.hpp) and `make_groups` (src/green_function.h)

Arrays of length `N` are functions `ℕ → ℕ`; an access at an index `≥ N` is undefined.
-/

set_option linter.all false

namespace CTInt

/-- A `Clustering` object before `finalize_labeling`: number of vertices and `cluster_alias_`. -/
structure Clus where
  N : ℕ
  al : ℕ → ℕ

namespace Clus

/-- Constructor, clustering.hpp 11-21.  (`cluster_belonging_to_` is never read.) -/
def create (N : ℕ) : Clus := ⟨N, fun i => i⟩

/-- The `while` loop of `get_true_label`, clustering.hpp 99-102: the label reached and the labels visited before it.
    A loop that has not ended after visiting all `N` labels never ends: undefined. -/
def chase (c : Clus) : ℕ → ℕ → Res (ℕ × List ℕ)
  | 0, _ => .ub
  | fuel + 1, i =>
    if ¬ i < c.N then .ub
    else if i = c.al i then .ok (i, [])
    else do
      let (r, vs) ← chase c fuel (c.al i)
      pure (r, i :: vs)

/-- `get_true_label`, clustering.hpp 90-107 (the shortcut of lines 93-95 is the case of no iteration): the true label,
    and the object after redirecting every visited label. -/
def trueLabel (c : Clus) (i : ℕ) : Res (ℕ × Clus) := do
  let (r, vs) ← c.chase (c.N + 1) i
  pure (r, { c with al := vs.foldl (fun al v => Function.update al v r) c.al })

/-- `connect_vertices`, clustering.hpp 24-36. -/
def connect (c : Clus) (v1 v2 : ℕ) : Res Clus := do
  Res.assert (v1 < c.N)
  let (c1, c') ← c.trueLabel (c.al v1)
  Res.assert (v2 < c.N)
  let (c2, c'') ← c'.trueLabel (c'.al v2)
  if c1 = c2 then pure c''
  else if c1 < c2 then pure { c'' with al := Function.update c''.al c2 c1 }
  else pure { c'' with al := Function.update c''.al c1 c2 }

/-- Several calls. -/
def connects (c : Clus) (ps : List (ℕ × ℕ)) : Res Clus := Res.foldl (fun c p => c.connect p.1 p.2) c ps

/-- The results of `finalize_labeling`: `cluster_labels_` and `cluster_members`. -/
structure Final where
  labels : List ℕ
  members : List (List ℕ)

/-- First loop of `finalize_labeling`, clustering.hpp 43-49: object and `valid_labels` (`flag[r]` is "`r` is in
    `valid_labels`"). -/
def collect (c : Clus) : Res (Clus × List ℕ) :=
  Res.foldl (fun (x : Clus × List ℕ) i => do
    let (r, c') ← x.1.trueLabel i
    let c'' := { c' with al := Function.update c'.al i r }
    Res.assert (c''.al i < c''.N)
    pure (c'', if c''.al i ∈ x.2 then x.2 else x.2 ++ [c''.al i])) (c, []) (List.range c.N)

/-- `label_map`, clustering.hpp 54-57. -/
def labelMap (valid : List ℕ) : ℕ → ℕ :=
  (List.range valid.length).foldl (fun m l => Function.update m (valid.getD l 0) l) fun _ => 0

/-- `finalize_labeling`, clustering.hpp 39-66. -/
def finalize (c : Clus) : Res Final := do
  let (c', valid) ← c.collect
  let m := labelMap valid
  let labels := (List.range c'.N).map fun i => m (c'.al i)
  Res.assert (∀ l ∈ labels, l < valid.length)
  pure ⟨labels, (List.range valid.length).map fun l => (List.range c'.N).filter fun i => labels.getD i 0 = l⟩

end Clus

/-! ## make_groups -/

/-- State of `make_groups`: `groups` and `map` of the sites handled so far. -/
structure Groups where
  groups : List (List ℕ)
  map : List ℕ

/-- Body of the loop over `site1`, green_function.h 259-277: the first earlier connected site decides
    (every earlier site has `map ≠ -1`). -/
def groupStep (connected : ℕ → ℕ → Bool) (g : Groups) (site1 : ℕ) : Groups :=
  match (List.range site1).find? fun site2 => connected site1 site2 with
  | none => ⟨g.groups ++ [[site1]], g.map ++ [g.groups.length]⟩
  | some site2 => ⟨g.groups.modify (g.map.getD site2 0) (· ++ [site1]), g.map ++ [g.map.getD site2 0]⟩

/-- `make_groups`, green_function.h 253-290. -/
def makeGroups (N : ℕ) (connected : ℕ → ℕ → Bool) : Groups := (List.range N).foldl (groupStep connected) ⟨[], []⟩

end CTInt
