import Verif.Spec.Simulation
import Verif.Proofs.RecordStep
import Verif.Props.Average

/-!
# The whole simulation does to the points what the updates and measurements on points do
-/

set_option linter.all false

namespace CTInt

open MeasureTheory Set

variable {K : Type} [RCLike K] [DecidableEq K]
variable {c : Ctx K}

/-- The updates of one call of `update`, without the recomputation of the matrices. -/
def callUpdates (a : SimPar) : List Upd := (List.replicate a.steps.period (turnUpdates a.nIR a.nSh a.nSF)).flatten

theorem simRun_call (m : Mgr) (c : Ctx K) (a : SimPar) (step : ℕ) (z : List Pt × (ℕ → ℝ)) :
    simRun m c (updateUpdates a.nIR a.nSh a.nSF a.steps.period step) z = simRun m c (callUpdates a) z := by
  unfold updateUpdates
  rw [simRun_append]
  split <;> rfl

/-- The object in `s` has the points `x` and times in [0,β]. -/
def SimAt (c : Ctx K) (beta : ℝ) (s : Sim K) (x : List Pt) : Prop := At c s.x.w.s x ∧ TimesIn beta s.x.w.s.verts

/-- The value `val` of a record is `V` of the points and the numbers not used before the measurement. -/
def ReadsAs (c : Ctx K) (q : MeasPar K) (val : Record → ℝ) (V : List Pt × (ℕ → ℝ) → ℝ) : Prop :=
  ∀ (s : Sub K) (y : List Pt) (u : ℕ → ℝ) (junk : ℕ → ℕ → K) (p : ℕ) (r : Record) (p' : ℕ), At c s y → TimesIn q.beta s.verts → GoodS u →
    measureObservables q c junk u s p = .ok (r, p') → val r = V (y, dropS p u)

variable {q : MeasPar K} {G : ℝ → ℕ → ℕ → ℕ → K} {m : Mgr} {kIns maxOrder : ℕ} {sz : ℝ}

theorem mcrun_sim (h : SimOK c q G m kIns maxOrder sz) {u : ℕ → ℝ} (hu : GoodS u) {s : McState K} {x : List Pt}
    (h1 : At c s.w.s x) (h2 : TimesIn q.beta s.w.s.verts) (J : ℕ → ℕ → ℕ → ℕ → ℕ → ℕ → K) (l : List Upd) :
    ∃ s' y, Returns (fun fuel => s.run m c J u fuel l) s' ∧ At c s'.w.s y ∧ TimesIn q.beta s'.w.s.verts ∧
      simRun m c l (x, dropS s.w.p u) = (y, dropS s'.w.p u) := by
  obtain ⟨w', y, r1, r2, r3⟩ := run_sim h.ht h.hf h.hT h.hm hu h1 J l
  refine ⟨⟨w', s.shift⟩, y, ?_, r2, ?_, r3⟩
  · show Returns (fun fuel => s.w.run m c J u fuel l >>= fun w => pure (⟨w, s.shift⟩ : McState K)) _
    rw [Returns.bind_iff (g := fun _ w => pure (⟨w, s.shift⟩ : McState K)) r1]
    exact Returns.const.2 rfl
  · obtain ⟨F, hF⟩ := r1
    have e := hF F le_rfl
    have hbm : m.beta = q.beta := by rw [h.hm]; rfl
    obtain ⟨a, a1, a2, -⟩ := h1
    have hR := a1.cl a2
    rw [← hbm]
    refine run_times hu.2 (by rw [hbm]; exact h.hb) (by rw [h.hm]; exact mul_nonneg h.hb.le h.hsz) e ⟨?_, by rw [hbm]; exact h2⟩
    intro v hv
    exact ((hR.ok v hv).2 (hR.int v hv)).1

/-- One pass. -/
theorem pass_sim (h : SimOK c q G m kIns maxOrder sz) (a : SimPar) {u : ℕ → ℝ} (hu : GoodS u) {s : Sim K} {x : List Pt}
    (hs : SimAt c q.beta s x) (J : ℕ → ℕ → ℕ → ℕ → ℕ → ℕ → ℕ → K) (junk : ℕ → ℕ → ℕ → K) :
    ∃ s' y v, Returns (fun fuel => s.pass a m q c J junk u fuel) s' ∧ SimAt c q.beta s' y ∧ s'.step = s.step + a.steps.period ∧
      simRun m c (callUpdates a) (x, dropS s.x.w.p u) = (y, v) ∧
      (¬ s.step + a.steps.period > a.steps.therm → s'.log = s.log ∧ dropS s'.x.w.p u = v) ∧
      (s.step + a.steps.period > a.steps.therm → dropS s'.x.w.p u = dropS (q.nShifts + 1) v ∧ ∃ r, s'.log = s.log ++ [r] ∧
        ∀ val V, ReadsAs c q val V → val r.values = V (y, v)) := by
  obtain ⟨x1, y, r1, r2, r3, r4⟩ := mcrun_sim h hu hs.1 hs.2 (J s.step) (updateUpdates a.nIR a.nSh a.nSF a.steps.period s.step)
  rw [simRun_call] at r4
  let x2 : McState K := if a.steps.isTherm (s.step + a.steps.period) && !s.was then x1.prepare else x1
  have e1 : x2.w.s = x1.w.s ∧ x2.w.p = x1.w.p := by
    show (if _ then x1.prepare else x1).w.s = _ ∧ (if _ then x1.prepare else x1).w.p = _
    split <;> exact ⟨rfl, rfl⟩
  let s1 : Sim K := ⟨x2, s.step + a.steps.period, a.steps.isTherm (s.step + a.steps.period), s.log⟩
  have ru : Returns (fun fuel => s.update a m c (J s.step) u fuel) s1 := by
    show Returns (fun fuel => s.x.run m c (J s.step) u fuel (updateUpdates a.nIR a.nSh a.nSF a.steps.period s.step) >>= fun x => pure
      (⟨if a.steps.isTherm (s.step + a.steps.period) && !s.was then x.prepare else x, s.step + a.steps.period,
        a.steps.isTherm (s.step + a.steps.period), s.log⟩ : Sim K)) s1
    rw [Returns.bind_iff (g := fun _ x => pure
      (⟨if a.steps.isTherm (s.step + a.steps.period) && !s.was then x.prepare else x, s.step + a.steps.period,
        a.steps.isTherm (s.step + a.steps.period), s.log⟩ : Sim K)) r1]
    exact Returns.const.2 rfl
  have rp : ∀ s', Returns (fun fuel => s.pass a m q c J junk u fuel) s' ↔
      Returns (fun _ => s1.measure a q c (junk (s.step + a.steps.period)) u) s' := by
    intro s'
    show Returns (fun fuel => s.update a m c (J s.step) u fuel >>= fun s => s.measure a q c (junk s.step) u) s' ↔ _
    rw [Returns.bind_iff (g := fun _ s => Sim.measure a q c (junk s.step) u s) ru]
  by_cases hth : s.step + a.steps.period > a.steps.therm
  · have hcl : Closed c x2.w.s := by
      rw [e1.1]; obtain ⟨b, b1, b2, -⟩ := r2; exact ⟨b, b1, b2⟩
    obtain ⟨r, er, -⟩ := measureObservables_spec h.ht h.hb h.hnb h.hsite h.hg hcl (by rw [e1.1]; exact r3) hu.2
      (junk (s.step + a.steps.period)) x2.w.p rfl (fun _ => rfl) rfl rfl (fun _ _ _ => rfl)
    refine ⟨⟨⟨⟨x2.w.s, ⟨0, 0⟩, x2.w.p + q.nShifts + 1⟩, ⟨0, 0⟩⟩, s.step + a.steps.period, a.steps.isTherm (s.step + a.steps.period),
      s.log ++ [⟨r, x2.w.stat.result, x2.shift.result⟩]⟩, y, _, (rp _).2 ?_, ⟨?_, ?_⟩, rfl, r4, fun h => absurd hth h, fun _ => ⟨?_, _, rfl, ?_⟩⟩
    · have e2 : s1.measure a q c (junk (s.step + a.steps.period)) u = .ok ⟨⟨⟨x2.w.s, ⟨0, 0⟩, x2.w.p + q.nShifts + 1⟩, ⟨0, 0⟩⟩,
          s.step + a.steps.period, a.steps.isTherm (s.step + a.steps.period), s.log ++ [⟨r, x2.w.stat.result, x2.shift.result⟩]⟩ := by
        unfold Sim.measure
        have : a.steps.isTherm s1.step = true := by unfold Steps.isTherm; exact decide_eq_true hth
        refine (if_neg (by rw [this]; simp)).trans ?_
        show (Run.lift (x2.measure q c (junk (s.step + a.steps.period)) u) >>= _) = _
        unfold McState.measure
        rw [er]
        rfl
      rw [e2]
      exact Returns.const.2 rfl
    · show At c x2.w.s y
      rw [e1.1]; exact r2
    · show TimesIn q.beta x2.w.s.verts
      rw [e1.1]; exact r3
    · show dropS (x2.w.p + q.nShifts + 1) u = dropS (q.nShifts + 1) (dropS x1.w.p u)
      rw [dropS_drop, e1.2, Nat.add_assoc]
    · intro val V hv
      have := hv x2.w.s y u (junk (s.step + a.steps.period)) x2.w.p r _ (by rw [e1.1]; exact r2) (by rw [e1.1]; exact r3) hu er
      rw [e1.2] at this
      exact this
  · refine ⟨s1, y, _, (rp _).2 ?_, ⟨?_, ?_⟩, rfl, r4, fun _ => ⟨rfl, ?_⟩, fun h => absurd h hth⟩
    · have e2 : s1.measure a q c (junk (s.step + a.steps.period)) u = .ok s1 := by
        unfold Sim.measure
        have : a.steps.isTherm s1.step = false := by unfold Steps.isTherm; exact decide_eq_false hth
        exact if_pos (by rw [this]; rfl)
      rw [e2]
      exact Returns.const.2 rfl
    · show At c x2.w.s y
      rw [e1.1]; exact r2
    · show TimesIn q.beta x2.w.s.verts
      rw [e1.1]; exact r3
    · show dropS x2.w.p u = _
      rw [e1.2]

theorem passes_succ_returns {a : SimPar} {J : ℕ → ℕ → ℕ → ℕ → ℕ → ℕ → ℕ → K} {junk : ℕ → ℕ → ℕ → K} {u : ℕ → ℝ} {s s1 s2 : Sim K} {n : ℕ}
    (h1 : Returns (fun fuel => s.pass a m q c J junk u fuel) s1) (h2 : Returns (fun fuel => Sim.passes a m q c J junk u fuel s1 n) s2) :
    Returns (fun fuel => Sim.passes a m q c J junk u fuel s (n + 1)) s2 := by
  show Returns (fun fuel => s.pass a m q c J junk u fuel >>= fun z => Sim.passes a m q c J junk u fuel z n) _
  rw [Returns.bind_iff (g := fun fuel z => Sim.passes a m q c J junk u fuel z n) h1]
  exact h2

/-- Passes after the thermalisation. -/
theorem passes_measured (h : SimOK c q G m kIns maxOrder sz) (a : SimPar) {u : ℕ → ℝ} (hu : GoodS u)
    (J : ℕ → ℕ → ℕ → ℕ → ℕ → ℕ → ℕ → K) (junk : ℕ → ℕ → ℕ → K) (n : ℕ) {s : Sim K} {x : List Pt}
    (hs : SimAt c q.beta s x) (hth : s.step + a.steps.period > a.steps.therm) :
    ∃ s' l, Returns (fun fuel => Sim.passes a m q c J junk u fuel s n) s' ∧ s'.log = s.log ++ l ∧ l.length = n ∧
      ∀ val V, ReadsAs c q val V → (l.map fun r => val r.values) =
        (List.range n).map fun j => recorded (passK (simRun m c (callUpdates a)) (q.nShifts + 1) V) j (x, dropS s.x.w.p u) := by
  induction n generalizing s x with
  | zero => exact ⟨s, [], Returns.const.2 rfl, by simp, rfl, fun _ _ _ => rfl⟩
  | succ n ih =>
    obtain ⟨s1, y, v, r1, r2, r3, r4, -, r5⟩ := pass_sim h a hu hs J junk
    obtain ⟨r6, r, r7, r8⟩ := r5 hth
    obtain ⟨s2, l, t1, t2, t3, t4⟩ := ih r2 (by rw [r3]; omega)
    refine ⟨s2, r :: l, passes_succ_returns r1 t1, by rw [t2, r7]; simp, by simp [t3], fun val V hv => ?_⟩
    rw [List.map_cons, t4 val V hv, r8 val V hv, List.range_succ_eq_map, List.map_cons, List.map_map]
    have es : stateOf (passK (simRun m c (callUpdates a)) (q.nShifts + 1) V) (x, dropS s.x.w.p u) = (y, dropS s1.x.w.p u) := by
      rw [stateOf_passK, r4, r6]
    congr 1
    · show V (y, v) = V (simRun m c (callUpdates a) (x, dropS s.x.w.p u))
      rw [r4]
    · refine List.map_congr_left fun j _ => ?_
      show _ = recorded _ (j + 1) _
      rw [recorded_succ, es]

/-- All passes: `k0` before the end of the thermalisation, `n` after it. -/
theorem passes_sim (h : SimOK c q G m kIns maxOrder sz) (a : SimPar) {u : ℕ → ℝ} (hu : GoodS u)
    (J : ℕ → ℕ → ℕ → ℕ → ℕ → ℕ → ℕ → K) (junk : ℕ → ℕ → ℕ → K) (k0 n : ℕ) {s : Sim K} {x : List Pt}
    (hs : SimAt c q.beta s x) (h1 : s.step + k0 * a.steps.period ≤ a.steps.therm)
    (h2 : s.step + k0 * a.steps.period + a.steps.period > a.steps.therm) :
    ∃ s' l, Returns (fun fuel => Sim.passes a m q c J junk u fuel s (k0 + n)) s' ∧ s'.log = s.log ++ l ∧ l.length = n ∧
      ∀ val V, ReadsAs c q val V → (l.map fun r => val r.values) =
        (List.range n).map fun j => recorded (passK (simRun m c (callUpdates a)) (q.nShifts + 1) V) j
          ((simRun m c (callUpdates a))^[k0] (x, dropS s.x.w.p u)) := by
  induction k0 generalizing s x with
  | zero =>
    rw [Nat.zero_add]
    exact passes_measured h a hu J junk n hs (by simpa using h2)
  | succ k0 ih =>
    obtain ⟨s1, y, v, r1, r2, r3, r4, r5, -⟩ := pass_sim h a hu hs J junk
    rw [Nat.succ_mul] at h1 h2
    obtain ⟨r6, r7⟩ := r5 (by omega)
    obtain ⟨s2, l, t1, t2, t3, t4⟩ := ih r2 (by rw [r3]; omega) (by rw [r3]; omega)
    refine ⟨s2, l, ?_, by rw [t2, r6], t3, fun val V hv => ?_⟩
    · rw [show k0 + 1 + n = (k0 + n) + 1 by omega]
      exact passes_succ_returns r1 t1
    · rw [t4 val V hv, Function.iterate_succ_apply, r4, r7]

end CTInt
