import Verif.Model.RunLoop
import Mathlib.Tactic.Linarith
import Mathlib.Tactic.Ring
import Mathlib.Tactic.FinCases
import Mathlib.Tactic.Positivity
import Mathlib.Tactic.NormNum
import Mathlib.Algebra.Order.BigOperators.Group.Finset

/-!
# Run loop: C51, C52, C55
-/

set_option linter.all false

namespace CTInt

variable {c : Steps}

/-! ## C51 -/

theorem update_step (s : Loop) : (s.update c).step = s.step + c.period := by
  show (List.range c.period).foldl (fun n _ => n + 1) s.step = _
  generalize c.period = m
  induction m with
  | zero => rfl
  | succ m ih => rw [List.range_succ, List.foldl_append, ih]; rfl

theorem isTherm_iff {n : ℕ} : c.isTherm n = true ↔ c.therm < n := by
  unfold Steps.isTherm; simp

/-- The log is either empty, before the thermalisation ended, or a preparation followed by recorded measurements, all after it
    ended. -/
def LogOK (c : Steps) (s : Loop) : Prop :=
  (s.was = false ∧ c.isTherm s.step = false ∧ s.log = []) ∨
  (s.was = true ∧ c.isTherm s.step = true ∧ ∃ k ms, s.log = .prepare k :: ms ∧ c.therm < k ∧ k ≤ s.step ∧
    ∀ e ∈ ms, ∃ m, e = .record m ∧ k ≤ m ∧ m ≤ s.step)

theorem LogOK.call {s : Loop} (h : LogOK c s) (a : LoopCall) : LogOK c (s.call c a) := by
  cases a with
  | update =>
    have hs : (s.update c).step = s.step + c.period := update_step s
    have hw : (s.update c).was = c.isTherm (s.update c).step := rfl
    have hl : (s.update c).log = if c.isTherm (s.update c).step && !s.was then s.log ++ [.prepare (s.update c).step] else s.log := rfl
    show LogOK c (s.update c)
    rcases h with ⟨h1, h2, h3⟩ | ⟨h1, h2, k, ms, h3, h4, h5, h6⟩
    · by_cases ht : c.isTherm (s.update c).step = true
      · right
        rw [ht, h1] at hl
        refine ⟨by rw [hw, ht], ht, _, [], by rw [hl, h3]; rfl, isTherm_iff.mp ht, le_rfl, by simp⟩
      · left
        simp only [Bool.not_eq_true] at ht
        rw [ht] at hl
        exact ⟨by rw [hw, ht], ht, by rw [hl, h3]; rfl⟩
    · right
      have ht : c.isTherm (s.update c).step = true := by
        rw [isTherm_iff] at h2 ⊢; omega
      rw [ht, h1] at hl
      refine ⟨by rw [hw, ht], ht, k, ms, by rw [hl, h3]; rfl, h4, by omega, fun e he => ?_⟩
      obtain ⟨m, a, b, d⟩ := h6 e he
      exact ⟨m, a, b, by omega⟩
  | measure =>
    show LogOK c (s.measure c)
    unfold Loop.measure
    rcases h with ⟨h1, h2, h3⟩ | ⟨h1, h2, k, ms, h3, h4, h5, h6⟩
    · rw [h2]; left; exact ⟨h1, h2, h3⟩
    · rw [h2]
      right
      refine ⟨h1, h2, k, ms ++ [.record s.step], by simp [h3], h4, h5, fun e he => ?_⟩
      rcases List.mem_append.mp he with he | he
      · exact h6 e he
      · simp only [List.mem_singleton] at he
        exact ⟨s.step, he, h5, le_rfl⟩

theorem LogOK.run {s : Loop} (h : LogOK c s) (l : List LoopCall) : LogOK c (l.foldl (Loop.call c) s) := by
  induction l generalizing s with
  | nil => exact h
  | cons a l ih => exact ih (h.call a)

/-- C51: after any sequence of calls of `update` and `measure`, either the thermalisation is not completed and nothing was
    prepared or recorded, or it is and the preparation was done exactly once, first, after the end of the thermalisation, and
    every recorded measurement comes after it. -/
theorem C51_measure (l : List LoopCall) :
    ((l.foldl (Loop.call c) Loop.start).step ≤ c.therm ∧ (l.foldl (Loop.call c) Loop.start).log = []) ∨
    (c.therm < (l.foldl (Loop.call c) Loop.start).step ∧ ∃ k ms, (l.foldl (Loop.call c) Loop.start).log = .prepare k :: ms ∧
      c.therm < k ∧ ∀ e ∈ ms, ∃ m, e = .record m ∧ k ≤ m) := by
  have h0 : LogOK c Loop.start := Or.inl ⟨rfl, by simp [Steps.isTherm, Loop.start], rfl⟩
  rcases h0.run l with ⟨_, h2, h3⟩ | ⟨_, h2, k, ms, h3, h4, _, h6⟩
  · left
    refine ⟨?_, h3⟩
    by_contra hc
    push Not at hc
    rw [isTherm_iff.mpr hc] at h2
    cases h2
  · right
    refine ⟨isTherm_iff.mp h2, k, ms, h3, h4, fun e he => ?_⟩
    obtain ⟨m, a, b, _⟩ := h6 e he
    exact ⟨m, a, b⟩

/-- C51: `measure` records one measurement exactly if the thermalisation is completed. -/
theorem C51_records (s : Loop) :
    (c.therm < s.step → (s.measure c).log = s.log ++ [.record s.step]) ∧ (s.step ≤ c.therm → s.measure c = s) := by
  unfold Loop.measure
  constructor
  · intro h; rw [isTherm_iff.mpr h]; rfl
  · intro h
    rw [show c.isTherm s.step = false by rw [← Bool.not_eq_true, isTherm_iff]; omega]
    rfl

example : ((List.replicate 4 LoopCall.update).foldl (Loop.call ⟨100, 5, 2⟩) Loop.start).log = [.prepare 6] := rfl

theorem fraction_nonneg (n : ℕ) : 0 ≤ fraction c n := by
  unfold fraction
  split
  · exact le_rfl
  · rename_i h
    simp only [Bool.not_eq_true', Bool.not_eq_false] at h
    have : (c.therm : ℝ) < n := by exact_mod_cast isTherm_iff.mp h
    apply div_nonneg (by linarith) (Nat.cast_nonneg _)

/-- C51: the completed fraction vanishes up to the end of the thermalisation, is the share of the steps afterwards, and never
    decreases; it reaches one after exactly the requested number of steps. -/
theorem C51_fraction (hmc : 0 < c.mc) :
    (∀ n ≤ c.therm, fraction c n = 0) ∧ (∀ k, 0 < k → fraction c (c.therm + k) = k / c.mc) ∧
    (∀ m n, m ≤ n → fraction c m ≤ fraction c n) ∧ ∀ n, 1 ≤ fraction c n ↔ c.therm + c.mc ≤ n := by
  have hmc' : (0 : ℝ) < c.mc := by exact_mod_cast hmc
  have z : ∀ n ≤ c.therm, fraction c n = 0 := by
    intro n hn
    unfold fraction
    rw [show c.isTherm n = false by rw [← Bool.not_eq_true, isTherm_iff]; omega]
    rfl
  have f : ∀ n, c.therm < n → fraction c n = ((n : ℝ) - c.therm) / c.mc := by
    intro n hn
    unfold fraction
    rw [isTherm_iff.mpr hn]
    rfl
  refine ⟨z, fun k hk => by rw [f _ (by omega)]; push_cast; rw [add_sub_cancel_left], fun m n hmn => ?_, fun n => ?_⟩
  · rcases Nat.lt_or_ge c.therm m with h | h
    · rw [f m h, f n (by omega)]
      apply div_le_div_of_nonneg_right _ hmc'.le
      have : (m : ℝ) ≤ n := by exact_mod_cast hmn
      linarith
    · rw [z m h]; exact fraction_nonneg n
  · rcases Nat.lt_or_ge c.therm n with h | h
    · rw [f n h, le_div_iff₀ hmc', one_mul]
      constructor
      · intro q
        have : (c.therm : ℝ) + c.mc ≤ n := by linarith
        exact_mod_cast this
      · intro q
        have : (c.therm : ℝ) + c.mc ≤ n := by exact_mod_cast q
        linarith
    · rw [z n h]
      constructor
      · intro q; linarith
      · intro q; omega

example : fraction ⟨10, 5, 2⟩ 9 = 4 / 10 := by
  have := (C51_fraction (c := ⟨10, 5, 2⟩) (by norm_num)).2.1 4 (by norm_num)
  simpa using this

/-! ## C52 -/

variable {n : ℕ}

/-- What holds in every reachable state of the parallel run. -/
structure Together (c : Steps) (w : World n) : Prop where
  /-- running processes have not been stopped -/
  run : ∀ i b, (w.proc i).at_ = .running b → b = false
  /-- inside the reduction: the contribution is one if stopped, else the completed fraction -/
  val : ∀ i b v, (w.proc i).at_ = .reducing b v → v = if b then 1 else fraction c (w.proc i).step
  /-- number of reductions entered -/
  ent : ∀ i, ((w.proc i).isReducing → (w.proc i).entered = w.done.length + 1) ∧
    (¬ (w.proc i).isReducing → (w.proc i).entered = w.done.length)
  /-- completed reductions but the last had a sum below one -/
  old : ∀ k (hk : k < w.done.length), k + 1 < w.done.length → ∑ j, (w.done[k] j).value < 1
  /-- after the last one either everyone goes on or everyone has returned -/
  last : (w.done = [] ∧ ∀ i, ¬ (w.proc i).isReturned) ∨
    ∃ d, w.done.getLast? = some d ∧
      ((∑ j, (d j).value < 1 ∧ ∀ i, ¬ (w.proc i).isReturned) ∨
       (1 ≤ ∑ j, (d j).value ∧ ∀ i, ∃ b v, (d i).at_ = .reducing b v ∧ (w.proc i).at_ = .returned (!b)))
  /-- every completed reduction was entered by all, with values as above -/
  vals : ∀ d ∈ w.done, ∀ i, ∃ b, (d i).at_ = .reducing b (if b then 1 else fraction c (d i).step)
  /-- every reduction entered is preceded by a pass -/
  stp : ∀ i, (w.proc i).entered * c.period ≤ (w.proc i).step
  stpd : ∀ k (hk : k < w.done.length) i, (k + 1) * c.period ≤ (w.done[k] i).step

theorem value_nonneg {d : Fin n → Proc} (h : ∀ i, ∃ b, (d i).at_ = .reducing b (if b then 1 else fraction c (d i).step)) (i : Fin n) :
    0 ≤ (d i).value := by
  obtain ⟨b, e⟩ := h i
  unfold Proc.value
  rw [e]
  cases b
  · exact fraction_nonneg _
  · exact zero_le_one

theorem stop_sum {d : Fin n → Proc} (h : ∀ i, ∃ b, (d i).at_ = .reducing b (if b then 1 else fraction c (d i).step))
    {i : Fin n} {v : ℝ} (hi : (d i).at_ = .reducing true v) : 1 ≤ ∑ j, (d j).value := by
  have h1 : (d i).value = 1 := by
    obtain ⟨b, e⟩ := h i
    rw [hi] at e
    injection e with e1 e2
    unfold Proc.value
    rw [hi]
    simp only
    rw [e2, ← e1]
    rfl
  rw [← h1]
  exact Finset.single_le_sum (fun j _ => value_nonneg h j) (Finset.mem_univ i)

theorem Together.start : Together c (⟨fun _ => Proc.start, []⟩ : World n) where
  run := by intro i b h; unfold Proc.start at h; injection h with h; exact h.symm
  val := by intro i b v h; cases h
  ent := by
    intro i
    exact ⟨(by rintro ⟨b, v, h⟩; cases h), fun _ => rfl⟩
  old := by intro k hk; simp at hk
  last := Or.inl ⟨rfl, by rintro i ⟨b, h⟩; cases h⟩
  vals := by intro d hd; simp at hd
  stp := by intro i; show 0 * c.period ≤ 0; simp
  stpd := by intro k hk; simp at hk

theorem pass_cases (p : Proc) {pending stop : Bool} (h : p.at_ = .running false) :
    p.pass c pending stop =
      if pending then ⟨.reducing stop (if stop then 1 else fraction c (p.step + c.period)), p.step + c.period, p.entered + 1⟩
      else ⟨.running false, p.step + c.period, p.entered⟩ := by
  unfold Proc.pass
  rw [h]
  rfl

theorem Together.pass {w : World n} (h : Together c w) (i : Fin n) (pending stop : Bool) (hi : ∃ b, (w.proc i).at_ = .running b) :
    Together c ⟨fun j => if j = i then (w.proc i).pass c pending stop else w.proc j, w.done⟩ := by
  obtain ⟨b0, hb0⟩ := hi
  obtain rfl := h.run i b0 hb0
  have hp := pass_cases (c := c) (w.proc i) (pending := pending) (stop := stop) hb0
  have hnr : ¬ (w.proc i).isReducing := by rintro ⟨b, v, e⟩; rw [hb0] at e; cases e
  have hent := (h.ent i).2 hnr
  have hs := h.stp i
  have hall : ∀ i, ¬ (w.proc i).isReturned := by
    rcases h.last with ⟨_, q⟩ | ⟨d, _, ⟨_, q⟩ | ⟨_, q⟩⟩
    · exact q
    · exact q
    · obtain ⟨b, v, _, e⟩ := q i
      rw [hb0] at e; cases e
  have hret : ∀ j, ¬ ((if j = i then (w.proc i).pass c pending stop else w.proc j)).isReturned := by
    intro j
    by_cases e : j = i
    · rw [if_pos e, hp]
      rintro ⟨b, q⟩
      cases pending <;> cases q
    · rw [if_neg e]; exact hall j
  refine ⟨?_, ?_, ?_, h.old, ?_, h.vals, ?_, h.stpd⟩
  · intro j b q
    simp only at q
    split at q
    · rw [hp] at q
      cases pending
      · injection q with q; exact q.symm
      · cases q
    · exact h.run j b q
  · intro j b v q
    simp only at q ⊢
    by_cases e : j = i
    · rw [if_pos e] at q ⊢
      rw [hp] at q ⊢
      cases pending
      · cases q
      · simp only [if_true] at q ⊢
        injection q with q1 q2
        rw [← q1, ← q2]
    · rw [if_neg e] at q ⊢
      exact h.val j b v q
  · intro j
    simp only
    by_cases e : j = i
    · rw [if_pos e, hp]
      cases pending
      · refine ⟨(by rintro ⟨b, v, q⟩; cases q), fun _ => hent⟩
      · refine ⟨fun _ => by show (w.proc i).entered + 1 = _; rw [hent], fun q => absurd ⟨_, _, rfl⟩ q⟩
    · rw [if_neg e]; exact h.ent j
  · rcases h.last with ⟨q1, _⟩ | ⟨d, q1, ⟨q2, _⟩ | ⟨_, q⟩⟩
    · exact Or.inl ⟨q1, hret⟩
    · exact Or.inr ⟨d, q1, Or.inl ⟨q2, hret⟩⟩
    · obtain ⟨b, v, _, e⟩ := q i
      rw [hb0] at e; cases e
  · intro j
    simp only
    by_cases e : j = i
    · rw [if_pos e, hp]
      cases pending
      · show (w.proc i).entered * c.period ≤ (w.proc i).step + c.period
        omega
      · show ((w.proc i).entered + 1) * c.period ≤ (w.proc i).step + c.period
        rw [Nat.succ_mul]; omega
    · rw [if_neg e]; exact h.stp j

theorem Together.reduce {w : World n} (h : Together c w) (hall : ∀ i, (w.proc i).isReducing) :
    Together c ⟨fun i => (w.proc i).leave (∑ j, (w.proc j).value), w.done ++ [w.proc]⟩ := by
  have hval : ∀ i, ∃ b, (w.proc i).at_ = .reducing b (if b then 1 else fraction c (w.proc i).step) := by
    intro i
    obtain ⟨b, v, e⟩ := hall i
    exact ⟨b, by rw [e, h.val i b v e]⟩
  have hleave : ∀ i b v, (w.proc i).at_ = .reducing b v → ((w.proc i).leave (∑ j, (w.proc j).value)) =
      ⟨open Classical in if ∑ j, (w.proc j).value ≥ 1 then .returned (!b) else .running b, (w.proc i).step, (w.proc i).entered⟩ := by
    intro i b v e
    unfold Proc.leave
    rw [e]
  have hne : ∀ i, ¬ ((w.proc i).leave (∑ j, (w.proc j).value)).isReducing := by
    intro i
    obtain ⟨b, v, e⟩ := hall i
    rw [hleave i b v e]
    rintro ⟨b', v', q⟩
    simp only at q
    split at q <;> cases q
  have hnret : w.done = [] ∨ ∃ d, w.done.getLast? = some d ∧ ∑ j, (d j).value < 1 ∨ IsEmpty (Fin n) := by
    rcases h.last with ⟨q1, _⟩ | ⟨d, q1, ⟨q2, _⟩ | ⟨_, q⟩⟩
    · exact Or.inl q1
    · exact Or.inr ⟨d, Or.inl ⟨q1, q2⟩⟩
    · refine Or.inr ⟨d, Or.inr ⟨fun i => ?_⟩⟩
      obtain ⟨b, v, _, e⟩ := q i
      obtain ⟨b', v', e'⟩ := hall i
      rw [e] at e'; cases e'
  refine ⟨?_, ?_, ?_, ?_, ?_, ?_, ?_, ?_⟩
  · intro i b q
    obtain ⟨b', v, e⟩ := hall i
    simp only at q
    rw [hleave i b' v e] at q
    simp only at q
    split at q
    · cases q
    · rename_i hlt
      injection q with q
      subst q
      cases b'
      · rfl
      · exact absurd (stop_sum hval e) hlt
  · intro i b v q
    exact absurd ⟨b, v, q⟩ (hne i)
  · intro i
    refine ⟨fun q => absurd q (hne i), fun _ => ?_⟩
    obtain ⟨b, v, e⟩ := hall i
    simp only
    rw [hleave i b v e, (h.ent i).1 (hall i)]
    simp
  · intro k hk hk'
    simp only [List.length_append, List.length_singleton] at hk hk'
    simp only
    rw [List.getElem_append_left (by omega)]
    rcases Nat.lt_or_ge (k + 1) w.done.length with q | q
    · exact h.old k (by omega) q
    · rcases hnret with q1 | ⟨d, ⟨q1, q2⟩ | q1⟩
      · rw [q1] at hk'; simp at hk'
      · rw [List.getLast?_eq_getElem?] at q1
        rw [show w.done.length - 1 = k by omega, List.getElem?_eq_getElem (by omega)] at q1
        injection q1 with q1
        rw [q1]; exact q2
      · haveI := q1
        simp
  · right
    refine ⟨w.proc, by simp, ?_⟩
    by_cases hs : 1 ≤ ∑ j, (w.proc j).value
    · right
      refine ⟨hs, fun i => ?_⟩
      obtain ⟨b, v, e⟩ := hall i
      refine ⟨b, v, e, ?_⟩
      simp only
      rw [hleave i b v e]
      simp only
      rw [if_pos hs]
    · left
      refine ⟨not_le.mp hs, fun i => ?_⟩
      obtain ⟨b, v, e⟩ := hall i
      simp only
      rw [hleave i b v e]
      rintro ⟨b', q⟩
      simp only at q
      rw [if_neg hs] at q
      cases q
  · intro d hd i
    rcases List.mem_append.mp hd with hd | hd
    · exact h.vals d hd i
    · rw [List.mem_singleton] at hd
      subst hd
      exact hval i
  · intro i
    obtain ⟨b, v, e⟩ := hall i
    simp only
    rw [hleave i b v e]
    exact h.stp i
  · intro k hk i
    simp only [List.length_append, List.length_singleton] at hk
    simp only
    rcases Nat.lt_or_ge k w.done.length with q | q
    · rw [List.getElem_append_left q]
      exact h.stpd k q i
    · obtain rfl : k = w.done.length := by omega
      rw [List.getElem_append_right le_rfl]
      have := h.stp i
      rw [(h.ent i).1 (hall i)] at this
      simpa using this

theorem reachable_together {w : World n} (h : w.Reachable c) : Together c w := by
  induction h with
  | refl => exact Together.start
  | tail _ s ih =>
    cases s with
    | pass i pending stop hi => exact ih.pass i pending stop hi
    | reduce hall => exact ih.reduce hall

/-- C52: as soon as one process has returned from the run loop all have, and all entered the same number of reductions. -/
theorem C52_together {w : World n} (h : w.Reachable c) {i : Fin n} (hi : (w.proc i).isReturned) (j : Fin n) :
    (w.proc j).isReturned ∧ (w.proc j).entered = w.done.length := by
  have t := reachable_together h
  rcases t.last with ⟨_, q⟩ | ⟨d, _, ⟨_, q⟩ | ⟨_, q⟩⟩
  · exact absurd hi (q i)
  · exact absurd hi (q i)
  · obtain ⟨b, v, _, e⟩ := q j
    refine ⟨⟨_, e⟩, (t.ent j).2 ?_⟩
    rintro ⟨b', v', e'⟩
    rw [e] at e'; cases e'

/-- C52: no process waits for a reduction another process will never enter.  While one process is inside a reduction, every
    other process is inside the same one or still running and one reduction behind. -/
theorem C52_no_deadlock {w : World n} (h : w.Reachable c) {i : Fin n} (hi : (w.proc i).isReducing) (j : Fin n) :
    ((w.proc j).isReducing ∧ (w.proc j).entered = (w.proc i).entered) ∨
    ((w.proc j).at_ = .running false ∧ (w.proc j).entered + 1 = (w.proc i).entered) := by
  have t := reachable_together h
  have ei := (t.ent i).1 hi
  match hj : (w.proc j).at_ with
  | .running b =>
    right
    have := t.run j b hj
    subst this
    refine ⟨rfl, ?_⟩
    rw [(t.ent j).2 (by rintro ⟨b', v', e'⟩; rw [hj] at e'; cases e'), ei]
  | .reducing b v => left; exact ⟨⟨b, v, hj⟩, by rw [(t.ent j).1 ⟨b, v, hj⟩, ei]⟩
  | .returned b =>
    exfalso
    obtain ⟨⟨b', e'⟩, _⟩ := C52_together h ⟨b, hj⟩ i
    obtain ⟨b'', v, e''⟩ := hi
    rw [e'] at e''; cases e''

/-- C52: the loop ends with the first reduction whose sum reaches one: all earlier sums were below one, and the processes have
    returned exactly if the last sum is at least one.  The values summed are the completed fractions, or one if the process was
    asked to stop. -/
theorem C52_ends {w : World n} (h : w.Reachable c) (hn : 0 < n) :
    (∀ k (hk : k < w.done.length), k + 1 < w.done.length → ∑ j, (w.done[k] j).value < 1) ∧
    ((∀ i, (w.proc i).isReturned) ↔ ∃ d, w.done.getLast? = some d ∧ 1 ≤ ∑ j, (d j).value) ∧
    (∀ d ∈ w.done, ∀ i, ∃ b, (d i).at_ = .reducing b (if b then 1 else fraction c (d i).step)) := by
  have t := reachable_together h
  refine ⟨t.old, ⟨fun q => ?_, ?_⟩, t.vals⟩
  · rcases t.last with ⟨_, q'⟩ | ⟨d, q1, ⟨_, q'⟩ | ⟨q2, _⟩⟩
    · exact absurd (q ⟨0, hn⟩) (q' _)
    · exact absurd (q ⟨0, hn⟩) (q' _)
    · exact ⟨d, q1, q2⟩
  · rintro ⟨d, e, hd⟩ i
    rcases t.last with ⟨q', _⟩ | ⟨d', q1, ⟨q2, _⟩ | ⟨_, q'⟩⟩
    · rw [q'] at e; cases e
    · rw [e] at q1
      injection q1 with q1
      subst q1
      linarith
    · obtain ⟨b, v, _, e'⟩ := q' i
      exact ⟨_, e'⟩

/-- C52: a stop request of one process ends the loop of all with the reduction it enters. -/
theorem C52_stop {w : World n} (h : w.Reachable c) (hall : ∀ i, (w.proc i).isReducing) {i : Fin n} {v : ℝ}
    (hi : (w.proc i).at_ = .reducing true v) (j : Fin n) : ((w.proc j).leave (∑ j, (w.proc j).value)).isReturned := by
  have t := reachable_together h
  have hval : ∀ i, ∃ b, (w.proc i).at_ = .reducing b (if b then 1 else fraction c (w.proc i).step) := by
    intro i
    obtain ⟨b, v, e⟩ := hall i
    exact ⟨b, by rw [e, t.val i b v e]⟩
  have := stop_sum hval hi
  obtain ⟨b, v, e⟩ := hall j
  refine ⟨!b, ?_⟩
  unfold Proc.leave
  rw [e]
  simp only
  rw [if_pos this]

/-- C52: the number of reductions is bounded by the number of steps requested, whatever the schedules. -/
theorem C52_bounded {w : World n} (h : w.Reachable c) (hn : 0 < n) (hmc : 0 < c.mc) (hp : 0 < c.period) (i : Fin n) :
    (w.proc i).entered ≤ (c.therm + c.mc) / c.period + 2 := by
  have t := reachable_together h
  have hlen : w.done.length ≤ (c.therm + c.mc) / c.period + 1 := by
    by_contra hc
    push Not at hc
    -- the reduction number `(therm + mc) / period` was not the last one
    have hk : (c.therm + c.mc) / c.period < w.done.length := by omega
    have hsum := t.old _ hk (by omega)
    have hr := t.vals _ (List.getElem_mem hk)
    have hle : (w.done[(c.therm + c.mc) / c.period] ⟨0, hn⟩).value < 1 :=
      lt_of_le_of_lt (Finset.single_le_sum (f := fun j => (w.done[(c.therm + c.mc) / c.period] j).value)
        (fun j _ => value_nonneg hr j) (Finset.mem_univ _)) hsum
    obtain ⟨b, e⟩ := hr ⟨0, hn⟩
    unfold Proc.value at hle
    rw [e] at hle
    cases b
    · simp only [Bool.false_eq_true, if_false] at hle
      have hs := t.stpd _ hk ⟨0, hn⟩
      have h1 := ((C51_fraction hmc).2.2.2 (w.done[(c.therm + c.mc) / c.period] ⟨0, hn⟩).step).not
      have h2 := h1.mp (not_le.mpr hle)
      have h3 : c.therm + c.mc < ((c.therm + c.mc) / c.period + 1) * c.period := Nat.lt_mul_of_div_lt (Nat.lt_succ_self _) hp
      omega
    · simp only [if_true] at hle
      exact absurd hle (lt_irrefl _)
  by_cases hr : (w.proc i).isReducing
  · rw [(t.ent i).1 hr]; omega
  · rw [(t.ent i).2 hr]; omega

/-! ## A run of two processes -/

/-- Both processes inside their first reduction; the first was asked to stop. -/
noncomputable def exPair (c : Steps) : World 2 :=
  ⟨fun i => if i = 0 then ⟨.reducing true 1, c.period, 1⟩ else ⟨.reducing false (fraction c c.period), c.period, 1⟩, []⟩

theorem ex_reachable (c : Steps) : (exPair c).Reachable c := by
  have s1 := World.Step.pass (c := c) (⟨fun _ => Proc.start, []⟩ : World 2) 0 true true ⟨false, rfl⟩
  have s2 := World.Step.pass (c := c) (⟨fun j => if j = 0 then (Proc.start).pass c true true else Proc.start, []⟩ : World 2) 1 true false
    ⟨false, rfl⟩
  have r := (Relation.ReflTransGen.single s1).tail s2
  have e : (fun j : Fin 2 => if j = 1 then Proc.start.pass c true false else (if j = 0 then Proc.start.pass c true true else Proc.start)) =
      fun i => if i = 0 then ⟨.reducing true 1, c.period, 1⟩ else ⟨.reducing false (fraction c c.period), c.period, 1⟩ := by
    funext j
    fin_cases j
    · simp [Proc.pass, Proc.start]
    · simp [Proc.pass, Proc.start]
  unfold World.Reachable exPair
  rw [← e]
  exact r

theorem ex_reducing (c : Steps) (i : Fin 2) : ((exPair c).proc i).isReducing := by
  unfold exPair
  by_cases e : i = 0
  · exact ⟨true, 1, by simp [e]⟩
  · exact ⟨false, fraction c c.period, by simp [e]⟩

/-- The hypotheses of `C52_no_deadlock` and `C52_stop` hold in this state. -/
example (c : Steps) (j : Fin 2) : (((exPair c).proc j).leave (∑ j, ((exPair c).proc j).value)).isReturned :=
  C52_stop (ex_reachable c) (ex_reducing c) (i := 0) (v := 1) rfl j

/-- C55: with one process the result of the run loop is `false` exactly if it was asked to stop at its last check.  (Partial:
    with more processes the others report `true`, see `C55_violation`.) -/
theorem C55_single_partial {w : World 1} (h : w.Reachable c) {r : Bool} (hr : (w.proc 0).at_ = .returned r) :
    ∃ d b v, w.done.getLast? = some d ∧ (d 0).at_ = .reducing b v ∧ r = !b := by
  have t := reachable_together h
  rcases t.last with ⟨_, q⟩ | ⟨d, _, ⟨_, q⟩ | ⟨_, q⟩⟩
  · exact absurd ⟨r, hr⟩ (q 0)
  · exact absurd ⟨r, hr⟩ (q 0)
  · rename_i e _
    obtain ⟨b, v, e1, e2⟩ := q 0
    rw [hr] at e2
    injection e2 with e2
    exact ⟨d, b, v, e, e1, e2⟩

/-- C55, what holds with any number of processes: the result of each is `false` exactly if this process itself was asked to stop at
    its last check, and the others' results say nothing about it.  (Partial: see `C55_violation`.) -/
theorem C55_each_partial {n : ℕ} {w : World n} (h : w.Reachable c) {i : Fin n} {r : Bool} (hr : (w.proc i).at_ = .returned r) :
    ∃ d b v, w.done.getLast? = some d ∧ (d i).at_ = .reducing b v ∧ r = !b ∧
      (r = false → ∀ j, (w.proc j).isReturned) := by
  have t := reachable_together h
  rcases t.last with ⟨_, q⟩ | ⟨d, _, ⟨_, q⟩ | ⟨_, q⟩⟩
  · exact absurd ⟨r, hr⟩ (q i)
  · exact absurd ⟨r, hr⟩ (q i)
  · rename_i e _
    obtain ⟨b, v, e1, e2⟩ := q i
    rw [hr] at e2
    injection e2 with e2
    exact ⟨d, b, v, e, e1, e2, fun _ j => (C52_together h ⟨r, hr⟩ j).1⟩

/-- C55 fails: with two processes, the first asked to stop during the thermalisation, the second returns `true` (complete) although
    none of the requested steps was done. -/
theorem C55_violation {c : Steps} (hp : c.period ≤ c.therm) (hmc : 0 < c.mc) :
    ∃ w : World 2, w.Reachable c ∧ (w.proc 0).at_ = .returned false ∧ (w.proc 1).at_ = .returned true ∧
      ∀ i, fraction c (w.proc i).step = 0 := by
  have s := World.Step.reduce (c := c) _ (ex_reducing c)
  have hz := (C51_fraction (c := c) hmc).1 _ hp
  have sum : (∑ j : Fin 2, ((exPair c).proc j).value) ≥ 1 := by
    rw [Fin.sum_univ_two]
    simp [Proc.value, exPair, hz]
  refine ⟨_, (ex_reachable c).tail s, ?_, ?_, ?_⟩
  · simp only
    generalize (∑ j : Fin 2, ((exPair c).proc j).value) = x at sum
    simp [Proc.leave, exPair, sum]
  · simp only
    generalize (∑ j : Fin 2, ((exPair c).proc j).value) = x at sum
    simp [Proc.leave, exPair, sum]
  · intro i
    simp only
    unfold Proc.leave exPair
    by_cases e : i = 0
    · simp [e, hz]
    · simp [e, hz]

end CTInt
