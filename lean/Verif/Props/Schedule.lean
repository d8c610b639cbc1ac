import Verif.Model.Simulation
import Verif.Props.Observables
import Mathlib.Data.List.Count
import Mathlib.Tactic.Linarith
import Mathlib.Tactic.Ring

/-!
# C109: how often each kind of update is carried out
-/

set_option linter.all false

namespace CTInt

deriving instance DecidableEq for Upd

theorem count_turns (x : Upd) (l : List Upd) (k : ℕ) : ((List.replicate k l).flatten).count x = k * l.count x := by
  induction k with
  | zero => simp
  | succ k ih => rw [List.replicate_succ, List.flatten_cons, List.count_append, ih]; ring

theorem count_turn (nIR nSh nSF : ℕ) : (turnUpdates nIR nSh nSF).count .insRem = nIR ∧ (turnUpdates nIR nSh nSF).count .shift = nSh ∧
    (turnUpdates nIR nSh nSF).count .spinFlip = nSF ∧ (turnUpdates nIR nSh nSF).count .recompute = 0 := by
  unfold turnUpdates
  simp [List.count_append, List.count_replicate]

/-- **C109, one call.**  The call of `update` after i calls carries out `period` times the numbers of updates given, and recomputes the matrices if it is the 20th, 40th, ... -/
theorem C109_call (nIR nSh nSF : ℕ) {period : ℕ} (hp : 0 < period) (i : ℕ) :
    (updateUpdates nIR nSh nSF period (i * period)).count .insRem = period * nIR ∧
    (updateUpdates nIR nSh nSF period (i * period)).count .shift = period * nSh ∧
    (updateUpdates nIR nSh nSF period (i * period)).count .spinFlip = period * nSF ∧
    (updateUpdates nIR nSh nSF period (i * period)).count .recompute = if 20 ∣ i + 1 then 1 else 0 := by
  obtain ⟨h1, h2, h3, h4⟩ := count_turn nIR nSh nSF
  have e : (i * period + period) % (20 * period) = 0 ↔ 20 ∣ i + 1 := by
    rw [← Nat.dvd_iff_mod_eq_zero, show i * period + period = (i + 1) * period by ring]
    exact Nat.mul_dvd_mul_iff_right hp
  unfold updateUpdates
  simp only [List.count_append, count_turns, h1, h2, h3, h4, e]
  by_cases q : 20 ∣ i + 1 <;> simp [q]

/-- **C109, a run.**  In the first k calls together. -/
theorem C109_run (nIR nSh nSF : ℕ) {period : ℕ} (hp : 0 < period) (k : ℕ) (l : List Upd)
    (hl : l = (List.range k).flatMap fun i => updateUpdates nIR nSh nSF period (i * period)) :
    l.count .insRem = k * (period * nIR) ∧ l.count .shift = k * (period * nSh) ∧ l.count .spinFlip = k * (period * nSF) ∧ l.count .recompute = k / 20 := by
  subst hl
  induction k with
  | zero => simp
  | succ k ih =>
    obtain ⟨h1, h2, h3, h4⟩ := C109_call nIR nSh nSF hp k
    obtain ⟨g1, g2, g3, g4⟩ := ih
    simp only [List.range_succ, List.flatMap_append, List.flatMap_cons, List.flatMap_nil, List.append_nil, List.count_append, h1, h2, h3, h4, g1, g2, g3, g4]
    refine ⟨by ring, by ring, by ring, ?_⟩
    rw [Nat.succ_div]

variable {K : Type} [RCLike K] [DecidableEq K]

/-- **C109, the simulation.**  s i is the simulation before the call of `update` with number i, t i after it; measurements in between do not change `step`.  Every call that
    returns has carried out, on the Monte Carlo state, a list of updates with these numbers. -/
theorem C109_simulation {a : SimPar} (hp : 0 < a.steps.period) {m : Mgr} {c : Ctx K} {J : ℕ → ℕ → ℕ → ℕ → ℕ → ℕ → ℕ → K} {u : ℕ → ℝ} {fuel : ℕ → ℕ} {s t : ℕ → Sim K}
    {k : ℕ} (h0 : (s 0).step = 0) (hu : ∀ i < k, (s i).update a m c (J i) u (fuel i) = .ok (t i)) (hm : ∀ i, i + 1 < k → (s (i + 1)).step = (t i).step) {i : ℕ} (hi : i < k) :
    ∃ l x, (s i).x.run m c (J i) u (fuel i) l = .ok x ∧ l.count .insRem = a.steps.period * a.nIR ∧ l.count .shift = a.steps.period * a.nSh ∧
      l.count .spinFlip = a.steps.period * a.nSF ∧ l.count .recompute = if 20 ∣ i + 1 then 1 else 0 := by
  have hs : ∀ i < k, ∃ x, (s i).x.run m c (J i) u (fuel i) (updateUpdates a.nIR a.nSh a.nSF a.steps.period (s i).step) = .ok x ∧ (t i).step = (s i).step + a.steps.period := by
    intro i hi
    have q := hu i hi
    unfold Sim.update at q
    cases e : (s i).x.run m c (J i) u (fuel i) (updateUpdates a.nIR a.nSh a.nSF a.steps.period (s i).step) with
    | ok x =>
      rw [e] at q
      refine ⟨x, rfl, ?_⟩
      have q' : Run.ok _ = Run.ok (t i) := q
      rw [← Run.ok.inj q']
    | _ => rw [e] at q; cases q
  have hst : ∀ i < k, (s i).step = i * a.steps.period := by
    intro i
    induction i with
    | zero => intro _; rw [h0, zero_mul]
    | succ i ih =>
      intro hi
      obtain ⟨_, _, e⟩ := hs i (by omega)
      rw [hm i hi, e, ih (by omega)]
      ring
  obtain ⟨x, hx, _⟩ := hs i hi
  exact ⟨_, x, hx, by rw [hst i hi]; exact C109_call _ _ _ hp i⟩

/-! ## The hypotheses can be met -/

/-- 50 calls with 4 turns of 2 insertions or removals, 1 shift and 3 spin flips: the matrices are recomputed twice. -/
example : ((List.range 50).flatMap fun i => updateUpdates 2 1 3 4 (i * 4)).count .insRem = 400 ∧
    ((List.range 50).flatMap fun i => updateUpdates 2 1 3 4 (i * 4)).count .recompute = 2 :=
  ⟨(C109_run 2 1 3 (by norm_num) 50 _ rfl).1, (C109_run 2 1 3 (by norm_num) 50 _ rfl).2.2.2⟩

/-- The first call of a simulation that starts without vertices. -/
example : ∃ (s t : Sim ℝ) (fuel : ℕ) (l : List Upd) (x : McState ℝ), s.update ⟨2, 1, 1, ⟨40, 8, 4⟩⟩ (Mgr.create 1 3 5 (1 / 10) exCtx.tbl) exCtx (fun _ _ _ _ _ _ => 0) exStream fuel = .ok t ∧
    s.x.run (Mgr.create 1 3 5 (1 / 10) exCtx.tbl) exCtx (fun _ _ _ _ _ _ => 0) exStream fuel l = .ok x ∧ l.count .insRem = 8 ∧ l.count .shift = 4 ∧ l.count .recompute = 0 := by
  obtain ⟨s0, h1, h2, h3⟩ := C53_updates_never_fail ex_tbl ex_full (beta := 1) (kIns := 3) (maxOrder := 5) (sz := 1 / 10) rfl
    exStream_range (empty_goodStart exCtx) ⟨0, 0⟩ 0 (fun _ _ _ _ _ _ => 0) (updateUpdates 2 1 1 4 0)
  obtain ⟨F, y, h4⟩ := h3 exStream_fair
  have h5 := h4 F le_rfl
  have e : (⟨⟨s0, ⟨0, 0⟩, 0⟩, ⟨0, 0⟩⟩ : McState ℝ).run (Mgr.create 1 3 5 (1 / 10) exCtx.tbl) exCtx (fun _ _ _ _ _ _ => 0) exStream F (updateUpdates 2 1 1 4 0) = .ok ⟨y, ⟨0, 0⟩⟩ := by
    unfold McState.run
    show (Walker.run _ _ _ _ _ _ _ >>= fun w => _) = _
    rw [h5]; rfl
  have hu : ∃ t, (⟨⟨⟨s0, ⟨0, 0⟩, 0⟩, ⟨0, 0⟩⟩, 0, false, []⟩ : Sim ℝ).update ⟨2, 1, 1, ⟨40, 8, 4⟩⟩ (Mgr.create 1 3 5 (1 / 10) exCtx.tbl) exCtx (fun _ _ _ _ _ _ => 0) exStream F = .ok t := by
    unfold Sim.update
    rw [e]
    exact ⟨_, rfl⟩
  obtain ⟨t, ht⟩ := hu
  obtain ⟨l, x, q1, q2, q3, _, q5⟩ := C109_simulation (a := ⟨2, 1, 1, ⟨40, 8, 4⟩⟩) (by decide) (J := fun _ _ _ _ _ _ _ => 0) (fuel := fun _ => F) (s := fun _ => ⟨⟨⟨s0, ⟨0, 0⟩, 0⟩, ⟨0, 0⟩⟩, 0, false, []⟩)
    (t := fun _ => t) (k := 1) rfl (fun _ _ => ht) (fun i hi => by omega) (i := 0) one_pos
  exact ⟨_, t, F, l, x, ht, q1, q2, q3, q5⟩

end CTInt
