import Verif.Proofs.SubMake
import Verif.Model.SubmatrixRun

/-!
# Runs of `SubmatrixUpdate` refine the specification
-/

set_option linter.all false

namespace CTInt

variable {K : Type} [RCLike K] [DecidableEq K]
variable {c : Ctx K} {s : Sub K}

/-- The object means `a`. -/
structure Means (c : Ctx K) (s : Sub K) (a : Abs) : Prop where
  cfg : s.verts = a.cfg
  id : s.uid = a.lastId
  op : a.isOpen = true → s.verts0 = a.base ∧ TryInv c s
  cl : a.isOpen = false → ReadyInv c s

theorem withIds_fresh (vs : List Vert) (k : ℕ) :
    Sub.withIds (vs.map fun v => { v with nonInt := true }) k = fresh k vs := by
  induction vs generalizing k with
  | nil => rfl
  | cons v vs ih => rw [List.map_cons, Sub.withIds, fresh, ih]

theorem withIds_numbered (vs : List Vert) (k : ℕ) : Sub.withIds vs k = numbered k vs := by
  induction vs generalizing k with
  | nil => rfl
  | cons v vs ih => rw [Sub.withIds, numbered, ih]

theorem WellFormed.trialOK {pos : List ℕ} {spins : List ℤ} (h : WellFormed c.tbl s.verts pos spins) :
    TrialOK c s pos spins := ⟨h.len, h.nodup, h.lt, h.spin⟩

theorem step_spec (ht : TblOK c.NI c.nf c.tbl) {a : Abs} (h : Means c s a) {call : Call}
    (had : Admissible c.NI c.nf c.G0 c.tbl a call) (J : ℕ → ℕ → ℕ → ℕ → K) :
    ∃ s', s.call c J call = .ok s' ∧ Means c s' (a.step call) := by
  cases call with
  | start new =>
    obtain ⟨h1, h2⟩ := had
    obtain ⟨s', e, q1, q2, q3, q4⟩ := initUpdate_spec ht (h.cl h1) h2 (J 0) (J 1) (J 2)
    refine ⟨s', e, ?_, ?_, ?_, ?_⟩
    · rw [q2, withIds_fresh, h.cfg, h.id]; rfl
    · rw [q4, h.id]; rfl
    · intro _
      refine ⟨?_, q1⟩
      rw [q3, q2, withIds_fresh, h.cfg, h.id]; rfl
    · intro e; cases e
  | flip pos spins acc =>
    obtain ⟨h1, h2, h3, h4⟩ := had
    obtain ⟨hb, hI⟩ := h.op h1
    rw [← h.cfg] at h2
    have h3' : ∀ fl < c.nf, FlavorTrial c.NI c.tbl s.verts0 s.verts (pos.zip spins) acc fl := by
      intro fl hfl
      have := h3 fl hfl
      rw [← h.cfg, ← hb] at this
      exact this
    obtain ⟨s1, p0, e1, _, ⟨s2, e2, q, q', _⟩, p⟩ := trySpinFlip_spec ht hI h2.trialOK h3' (J 0)
    cases acc with
    | true =>
      obtain ⟨s3, e3, r1, r2, r3, r4, r5⟩ := p rfl (by rw [h.cfg]; exact h4 rfl)
      refine ⟨s3, ?_, ?_, ?_, ?_, ?_⟩
      · unfold Sub.call
        simp only [e1]
        exact e3
      · rw [r2, h.cfg]; rfl
      · rw [r5, h.id]; rfl
      · intro _; exact ⟨by rw [r3, hb]; rfl, r1⟩
      · intro e
        have : a.isOpen = false := e
        rw [h1] at this; cases this
    | false =>
      refine ⟨s2, ?_, ?_, ?_, ?_, ?_⟩
      · unfold Sub.call
        simp only [e1]
        exact e2
      · rw [q.verts, h.cfg]; rfl
      · rw [q.uid, h.id]; rfl
      · intro _; exact ⟨by rw [q.verts0, hb]; rfl, q'⟩
      · intro e
        have : a.isOpen = false := e
        rw [h1] at this; cases this
  | finish =>
    obtain ⟨h1, h2⟩ := had
    obtain ⟨hb, hI⟩ := h.op h1
    rw [← h.cfg] at h2
    obtain ⟨s', e, q1, q2, q3⟩ := finalizeUpdate_spec ht hI h2 (J 0) (J 1) (J 2)
    refine ⟨s', e, ?_, ?_, ?_, ?_⟩
    · rw [q2, h.cfg]; rfl
    · rw [q3, h.id]; rfl
    · intro e; cases e
    · intro _; exact q1
  | recompute =>
    have hR := h.cl had
    obtain ⟨s', e, q1, q2, q3, _⟩ := recompute_spec ht hR (ready_weight_ne_zero ht hR)
    refine ⟨s', e, by rw [q2, h.cfg]; rfl, by rw [q3, h.id]; rfl, ?_, fun _ => q1⟩
    intro e
    have : a.isOpen = true := e
    have h2 : a.isOpen = false := had
    rw [h2] at this; cases this

theorem run_spec (ht : TblOK c.NI c.nf c.tbl) {a : Abs} (h : Means c s a) {calls : List Call}
    (had : AllAdmissible c.NI c.nf c.G0 c.tbl a calls) (J : ℕ → ℕ → ℕ → ℕ → ℕ → K) :
    ∃ s', s.run c J calls = .ok s' ∧ Means c s' (a.run calls) := by
  induction calls generalizing a s with
  | nil => exact ⟨s, rfl, h⟩
  | cons call calls ih =>
    obtain ⟨s1, e1, h1⟩ := step_spec ht h had.1 (J calls.length)
    obtain ⟨s2, e2, h2⟩ := ih h1 had.2
    refine ⟨s2, ?_, h2⟩
    unfold Sub.run
    rw [e1]
    exact e2

theorem create_means (ht : TblOK c.NI c.nf c.tbl) {vs : List Vert} (h : GoodStart c.NI c.nf c.G0 c.tbl vs) :
    ∃ s, Sub.create c vs = .ok s ∧ Means c s (Abs.init vs) := by
  obtain ⟨s, e, q1, q2, q3⟩ := create_spec ht h.int h.ok (by rw [withIds_numbered]; exact h.w)
  refine ⟨s, e, ?_, q3, ?_, fun _ => q1⟩
  · rw [q2, withIds_numbered]; rfl
  · intro e; cases e

end CTInt
