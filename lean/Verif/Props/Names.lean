import Verif.Proofs.Names
import Verif.Props.Postprocess

/-!
# C78: every recorded quantity has its own observable and is read back under its name
-/

set_option linter.all false

namespace CTInt

/-- C78: creating the observables never meets a name that is taken, every value measured is accepted by an observable of the
    right kind, and after any number of measurements every observable holds exactly the values of its quantity, in order. -/
theorem C78_recorded (nf ns : ℕ) (log : List (Measured × List ℝ)) :
    ∃ S0 S, createObservables nf ns = .ok S0 ∧ passAll nf ns S0 log = .ok S ∧ Recorded nf ns log S := by
  obtain ⟨S0, e0, h0⟩ := created nf ns
  obtain ⟨S, e, h⟩ := passed_all h0 log
  exact ⟨S0, S, e0, e, h⟩

theorem res_assoc {α β γ : Type} (x : Res α) (f : α → Res β) (g : β → Res γ) :
    ((x >>= f) >>= g) = (x >>= fun a => f a >>= g) := by
  cases x <;> rfl

/-- C78: what the post-processing writes, reading the observables by name, is what it writes given the values themselves; it
    needs a measurement with at least one bin, and the means of the four clock readings it prints. -/
theorem C78_read_back {nf ns nb : ℕ} (hb : 0 < nb) (nl nm : ℕ) (beta : ℝ) (sj : ℕ → ℝ → ℝ) (junkP : ℕ → ℕ → ℝ)
    {log : List (Measured × List ℝ)} (hl : log ≠ []) (ht : ∀ m ∈ log, m.2.length = 4) {S0 S : ObsSet}
    (h0 : createObservables nf ns = .ok S0) (h1 : passAll nf ns S0 log = .ok S) (ar : Archive) :
    (∃ t, postprocessNamed nf ns nb nl nm beta sj junkP S = .ok (ar, t) ∧
      t = (List.range 4).map fun i => (log.map fun m => m.2.getD i 0).sum / log.length) ↔
    postprocess nf ns nb nl nm beta sj junkP (log.map fun m => m.1.values) = .ok ar := by
  obtain ⟨S0', S', e0, e1, h⟩ := C78_recorded nf ns log
  rw [h0] at e0
  cases e0
  rw [h1] at e1
  cases e1
  have em : meanVec (log.map fun m => m.2) =
      .ok ((List.range 4).map fun i => ((log.map fun m => m.2).map fun w => w.getD i 0).sum / (log.map fun m => m.2).length) :=
    meanVec_spec (by simpa using hl) fun v hv => by
      obtain ⟨m, hm, rfl⟩ := List.mem_map.mp hv
      exact ht m hm
  have hr : postprocessNamed nf ns nb nl nm beta sj junkP S =
      (postprocess nf ns nb nl nm beta sj junkP (log.map fun m => m.1.values) >>= fun a =>
        pure (a, (List.range 4).map fun i => (log.map fun m => m.2.getD i 0).sum / log.length)) := by
    unfold postprocessNamed postprocess
    rw [readVecs_eq (fun m : Measured × List ℝ => m.1.values.pertOrder) h.order,
      readNums_eq (fun m : Measured × List ℝ => m.1.values.sign) h.sign,
      readVecs_eq (fun m : Measured × List ℝ => m.1.values.dens.mean) h.dens,
      readVecs_eq (fun m : Measured × List ℝ => m.1.values.dens.ninjRe) h.ninjRe,
      readVecs_eq (fun m : Measured × List ℝ => m.1.values.dens.ninjIm) h.ninjIm,
      readVecs_eq (fun m : Measured × List ℝ => m.2) h.timings, loadStau_named hb h]
    simp only [List.map_map, Function.comp_def] at em
    simp only [Res.bind_ok, List.map_map, Function.comp_def, em, mapM_get, res_assoc, List.length_map]
    rfl
  rw [hr]
  cases hp : postprocess nf ns nb nl nm beta sj junkP (log.map fun m => m.1.values) with
  | ok a =>
    constructor
    · rintro ⟨t, e, _⟩
      cases e
      rfl
    · intro e
      cases e
      exact ⟨_, rfl, rfl⟩
  | throw e =>
    constructor
    · rintro ⟨t, e, _⟩; cases e
    · intro e; cases e
  | ub =>
    constructor
    · rintro ⟨t, e, _⟩; cases e
    · intro e; cases e

/-- C78: the unused evaluation in the Legendre basis would throw, whatever was measured: its observables are never created. -/
theorem C78_legendre_missing {nf ns : ℕ} (hf : 0 < nf) (hs : 0 < ns) (log : List (Measured × List ℝ)) {S0 S : ObsSet}
    (h0 : createObservables nf ns = .ok S0) (h1 : passAll nf ns S0 log = .ok S) :
    loadSlNamed nf ns S = .throw .outOfRange := by
  obtain ⟨S0', S', e0, e1, h⟩ := C78_recorded nf ns log
  rw [h0] at e0
  cases e0
  rw [h1] at e1
  cases e1
  have hn : S ("Sl_real_" ++ toString 0 ++ "_" ++ toString 0 ++ "_" ++ toString 0) = none := by
    by_contra hc
    have hL : ∀ x : String, x.toList = ("Sl_real_" ++ toString 0 ++ "_" ++ toString 0 ++ "_" ++ toString 0).toList →
        x.toList.take 2 = ['S', 'l'] := fun x e => by rw [e]; rfl
    have key : ∀ x, ("Sl_real_" ++ toString 0 ++ "_" ++ toString 0 ++ "_" ++ toString 0) = x → x.toList.take 2 ≠ ['S', 'l'] → False :=
      fun x e hx => hx (hL x (congrArg String.toList e.symm))
    rcases h.only _ hc with hm | ⟨f, _, e | e⟩ | ⟨f, _, i, _, e⟩ | ⟨f, _, a, _, b, _, e | e⟩
    · rcases List.mem_map.mp (List.mem_map_of_mem (f := id) hm) with ⟨x, hx, e⟩
      refine key x e.symm ?_
      simp only [List.mem_cons, List.not_mem_nil, or_false] at hx
      rcases hx with rfl | rfl | rfl | rfl | rfl | rfl | rfl | rfl | rfl <;> decide
    · exact key _ e (by simp [String.toList_append])
    · exact key _ e (by simp [String.toList_append])
    · exact key _ e (by simp [String.toList_append])
    · exact key _ e (by simp [String.toList_append])
    · exact key _ e (by simp [String.toList_append])
  obtain ⟨nf, rfl⟩ : ∃ n, nf = n + 1 := ⟨nf - 1, by omega⟩
  obtain ⟨ns, rfl⟩ : ∃ n, ns = n + 1 := ⟨ns - 1, by omega⟩
  have hr : S.readVecs ("Sl_real_" ++ toString 0 ++ "_" ++ toString 0 ++ "_" ++ toString 0) = .throw .outOfRange := by
    unfold ObsSet.readVecs
    rw [hn]
  unfold loadSlNamed
  rw [List.range_succ_eq_map, List.range_succ_eq_map, Res.foldl_cons, Res.foldl_cons, Res.foldl_cons, hr]
  rfl

/-! ### A concrete case -/

/-- Two measurements of one flavour on one site with one bin. -/
noncomputable def exLog78 : List (Measured × List ℝ) :=
  [(⟨⟨1, fun _ _ _ => [2], fun _ _ _ => [0], ⟨fun _ => [5], [5], [5], [0]⟩, [1], [1]⟩, none, none⟩, [1, 2, 3, 4]),
   (⟨⟨1, fun _ _ _ => [4], fun _ _ _ => [0], ⟨fun _ => [7], [7], [7], [0]⟩, [3], [3]⟩, some (1 / 2, 1 / 2), none⟩, [1, 2, 3, 4])]

/-- The names are used: the two values of a bin arrive under the name read later. -/
example : ∃ S0 S, createObservables 1 1 = .ok S0 ∧ passAll 1 1 S0 exLog78 = .ok S ∧
    S "Stau_real_0_0_0" = some (.vector, [.vec [2], .vec [4]]) ∧ S "density_0" = some (.scalar, []) ∧
    S "VertexInsertionRemoval_Acceptance_Rate" = some (.vector, [.nan, .vec [1 / 2, 1 / 2]]) := by
  obtain ⟨S0, S, e0, e1, h⟩ := C78_recorded 1 1 exLog78
  exact ⟨S0, S, e0, e1, h.stauRe 0 (by omega) 0 (by omega) 0 (by omega), h.single rfl 0 (by omega), h.insRem⟩

/-- The post-processing of these measurements succeeds and finds the mean density. -/
example : ∃ S0 S ar t, createObservables 1 1 = .ok S0 ∧ passAll 1 1 S0 exLog78 = .ok S ∧
    postprocessNamed 1 1 1 1 1 1 (fun _ _ => 0) (fun _ _ => 0) S = .ok (ar, t) ∧ ar.densities = [6] := by
  obtain ⟨S0, S, e0, e1, h⟩ := C78_recorded 1 1 exLog78
  have hsh : ∀ r ∈ exLog78.map (fun m => m.1.values), RecShape 1 1 1 r := by
    intro r hr
    simp only [exLog78, List.map_cons, List.map_nil, List.mem_cons, List.not_mem_nil, or_false] at hr
    rcases hr with rfl | rfl <;> constructor <;> intros <;> rfl
  obtain ⟨ar, e, _, hs, _, _, _, hd, _⟩ := postprocess_spec 1 1 1 1 1 (by omega) 1 (fun _ _ => 0) (fun _ _ => 0)
    (l := exLog78.map fun m => m.1.values) (by simp [exLog78]) hsh (by simp [recMean, exLog78])
  obtain ⟨t, et, _⟩ := (C78_read_back (by omega) 1 1 1 (fun _ _ => 0) (fun _ _ => 0) (log := exLog78) (by simp [exLog78])
    (by intro m hm; simp only [exLog78, List.mem_cons, List.not_mem_nil, or_false] at hm; rcases hm with rfl | rfl <;> rfl)
    e0 e1 ar).mpr e
  refine ⟨S0, S, ar, t, e0, e1, et, ?_⟩
  rw [hd, hs]
  simp [recMean, exLog78]
  norm_num

example : ∃ S0 S, createObservables 1 1 = .ok S0 ∧ passAll 1 1 S0 exLog78 = .ok S ∧ loadSlNamed 1 1 S = .throw .outOfRange := by
  obtain ⟨S0, S, e0, e1, h⟩ := C78_recorded 1 1 exLog78
  exact ⟨S0, S, e0, e1, C78_legendre_missing (by omega) (by omega) exLog78 e0 e1⟩

end CTInt
