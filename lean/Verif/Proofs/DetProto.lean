import Verif.Proofs.DetMore

/-!
# The call protocol (helper lemmas for C26)
-/

set_option linter.all false

namespace CTInt

/-- An action that does not change a part of the state. -/
def Keeps {σ α β : Type} (f : σ → β) (m : Act σ α) : Prop := ∀ s, f (m s).2 = f s

namespace Keeps
variable {σ α β γ : Type} {f : σ → γ}

theorem pure' (a : α) : Keeps f (pure a : Act σ α) := fun _ => rfl
theorem get' : Keeps f (Act.get : Act σ σ) := fun _ => rfl
theorem lift' (r : Res α) : Keeps f (Act.lift r : Act σ α) := fun _ => rfl
theorem assert' {p : Prop} (i : Decidable p) : Keeps f (@Act.assert σ p i) := fun _ => rfl
theorem throwIf' {p : Prop} [Decidable p] (e : Exn) : Keeps f (Act.throwIf p e : Act σ Unit) := fun _ => rfl
theorem modify' {g : σ → σ} (h : ∀ s, f (g s) = f s) : Keeps f (Act.modify g : Act σ Unit) := h

theorem bind' {m : Act σ α} {k : α → Act σ β} (h1 : Keeps f m) (h2 : ∀ a, Keeps f (k a)) : Keeps f (m >>= k) := by
  intro s
  have e1 := h1 s
  rw [Act.run_bind]
  rcases hm : m s with ⟨r, s'⟩
  rw [hm] at e1
  cases r with
  | ok a => exact (h2 a s').trans e1
  | throw e => exact e1
  | ub => exact e1

theorem fold' {δ : Type} {g : δ → α → Act σ δ} (h : ∀ d a, Keeps f (g d a)) : ∀ (l : List α) (d : δ), Keeps f (Act.fold g d l)
  | [], d => pure' d
  | a :: l, d => by
    rw [Act.fold_cons]
    exact bind' (h d a) fun d' => fold' h l d'

end Keeps

variable {K Cd Co T : Type} [Field K] [DecidableEq K] [LinearOrder T] {o : OpSys K Cd Co T}

/-- What `perform_remove_add` reads. -/
def mixedPart (s : DM K Cd Co T) := (s.mode, s.helper, s.Gjn, s.Gnj, s.Gnn)

theorem keeps_addNew (ps : List (Cd × Co)) : Keeps mixedPart (DM.addNew o ps) := by
  unfold DM.addNew
  refine Keeps.bind' (Keeps.fold' (fun n p => ?_) _ _) fun _ => Keeps.pure' _
  refine Keeps.bind' Keeps.get' fun s => ?_
  refine Keeps.bind' (Keeps.modify' fun _ => rfl) fun _ => ?_
  refine Keeps.bind' (Keeps.throwIf' _) fun _ => ?_
  refine Keeps.bind' (Keeps.modify' fun _ => rfl) fun _ => ?_
  exact Keeps.bind' (Keeps.throwIf' _) fun _ => Keeps.pure' _

theorem keeps_removeLast (k : ℤ) : Keeps mixedPart (DM.removeLast o k) := by
  unfold DM.removeLast
  refine Keeps.bind' Keeps.get' fun s => Keeps.bind' (Keeps.throwIf' _) fun _ => ?_
  refine Keeps.bind' (Keeps.fold' (fun n p => ?_) _ _) fun _ => Keeps.pure' _
  refine Keeps.bind' Keeps.get' fun s => Keeps.bind' (Keeps.lift' _) fun p => Keeps.bind' (Keeps.lift' _) fun q => ?_
  exact Keeps.bind' (Keeps.modify' fun _ => rfl) fun _ => Keeps.pure' _

theorem keeps_checkState (st : DState) : Keeps mixedPart (DM.checkState st : Act (DM K Cd Co T) Unit) :=
  Keeps.bind' Keeps.get' fun _ => Keeps.throwIf' _

theorem keeps_rejectRemoveAdd (dbg : Bool) : Keeps mixedPart (DM.rejectRemoveAdd o dbg) := by
  unfold DM.rejectRemoveAdd
  refine Keeps.bind' (keeps_checkState _) fun _ => Keeps.bind' (Keeps.modify' fun _ => rfl) fun _ => ?_
  refine Keeps.bind' Keeps.get' fun s => Keeps.bind' (keeps_removeLast _) fun _ => ?_
  refine Keeps.bind' Keeps.get' fun s => Keeps.bind' (keeps_addNew _) fun _ => ?_
  unfold DM.sanityCheck
  split_ifs
  · refine Keeps.bind' (keeps_checkState _) fun _ => Keeps.bind' Keeps.get' fun s => ?_
    refine Keeps.bind' (Keeps.assert' _) fun _ => Keeps.bind' (Keeps.assert' _) fun _ => ?_
    refine Keeps.bind' (Keeps.assert' _) fun _ => Keeps.bind' (Keeps.assert' _) fun _ => ?_
    refine Keeps.bind' (Keeps.lift' _) fun _ => Keeps.bind' (Keeps.lift' _) fun _ => ?_
    refine Keeps.bind' (Keeps.lift' _) fun _ => Keeps.bind' (Keeps.lift' _) fun _ => ?_
    refine Keeps.bind' (Keeps.assert' _) fun _ => Keeps.bind' (Keeps.lift' _) fun _ => ?_
    refine Keeps.bind' (Keeps.lift' _) fun _ => Keeps.bind' (Keeps.assert' _) fun _ => ?_
    exact Keeps.bind' (Keeps.assert' _) fun _ => Keeps.assert' _
  · exact Keeps.pure' _

theorem checkState_throw {β : Type} {st : DState} {s : DM K Cd Co T} (h : s.state ≠ st) (f : Unit → Act (DM K Cd Co T) β) :
    (DM.checkState st >>= f) s = (.throw .logicError, s) := by
  have : DM.checkState st s = (.throw .logicError, s) := by
    unfold DM.checkState
    rw [Act.get_bind]
    unfold Act.throwIf
    rw [Res.throwIf_true h]; rfl
  exact Act.bind_throw this

/-- Calls that meet the wrong state. -/
theorem perform_wrong (dbg : Bool) (junk : ℕ → ℕ → K) {s : DM K Cd Co T} :
    (s.mode = some .add → s.state ≠ .tryAdd → DM.performUpdate o dbg junk s = (.throw .logicError, s)) ∧
    (s.mode = some .rem → s.state ≠ .tryRem → DM.performUpdate o dbg junk s = (.throw .logicError, s)) ∧
    (s.mode = some .replaceCd → s.state ≠ .tryReplaceCd → DM.performUpdate o dbg junk s = (.throw .logicError, s)) ∧
    (s.mode = some .replaceC → s.state ≠ .tryReplaceC → DM.performUpdate o dbg junk s = (.throw .logicError, s)) ∧
    (s.mode = some .remAdd → s.state ≠ .tryRemAdd → DM.performUpdate o dbg junk s =
      (.throw .logicError, { s with inv := s.helper.inverse junk s.Gjn s.Gnj s.Gnn })) := by
  refine ⟨fun hm hs => ?_, fun hm hs => ?_, fun hm hs => ?_, fun hm hs => ?_, fun hm hs => ?_⟩ <;> rw [perform_mode dbg junk hm]
  · exact checkState_throw hs _
  · exact checkState_throw hs _
  · exact checkState_throw hs _
  · exact checkState_throw hs _
  · show DM.performRemoveAdd o dbg junk s = _
    unfold DM.performRemoveAdd
    rw [Act.modify_bind]
    exact checkState_throw (s := { s with inv := s.helper.inverse junk s.Gjn s.Gnj s.Gnn }) hs _

theorem reject_wrong (dbg : Bool) {s : DM K Cd Co T} :
    (s.mode = some .add → s.state ≠ .tryAdd → DM.rejectUpdate o dbg s = (.throw .logicError, s)) ∧
    (s.mode = some .rem → s.state ≠ .tryRem → DM.rejectUpdate o dbg s = (.throw .logicError, s)) ∧
    (s.mode = some .replaceCd → s.state ≠ .tryReplaceCd → DM.rejectUpdate o dbg s = (.throw .logicError, s)) ∧
    (s.mode = some .replaceC → s.state ≠ .tryReplaceC → DM.rejectUpdate o dbg s = (.throw .logicError, s)) ∧
    (s.mode = some .remAdd → s.state ≠ .tryRemAdd → DM.rejectUpdate o dbg s = (.throw .logicError, s)) := by
  refine ⟨fun hm hs => ?_, fun hm hs => ?_, fun hm hs => ?_, fun hm hs => ?_, fun hm hs => ?_⟩ <;> rw [reject_mode dbg hm]
  · exact checkState_throw hs _
  · exact checkState_throw hs _
  · exact checkState_throw hs _
  · exact checkState_throw hs _
  · exact checkState_throw hs _

/-- A trial on a pending trial: only the mode changes. -/
theorem second_trial (junk : ℕ → ℕ → K) {s : DM K Cd Co T} (hs : s.state ≠ .waiting) {ch : Change Cd Co}
    (hr : ch.Regular) (hne : ch.remCd ≠ [] ∨ ch.remC ≠ [] ∨ ch.addCd ≠ [] ∨ ch.addC ≠ []) :
    ∃ m, DM.tryUpdate o false junk ch s = (.throw .logicError, { s with mode := some m }) := by
  unfold DM.tryUpdate
  rw [Act.bind_ok (show DM.sanityCheck o false s = (.ok (), s) from rfl)]
  have hl : 0 < ch.remCd.length ∨ 0 < ch.remC.length ∨ 0 < ch.addCd.length ∨ 0 < ch.addC.length := by
    simpa only [List.length_pos_iff] using hne
  have hr' : (ch.remCd.length = ch.remC.length ∧ ch.addCd.length = ch.addC.length) ∨
      (ch.remCd.length = 1 ∧ ch.addCd.length = 1 ∧ ch.remC.length = 0 ∧ ch.addC.length = 0) ∨
      (ch.remC.length = 1 ∧ ch.addC.length = 1 ∧ ch.remCd.length = 0 ∧ ch.addCd.length = 0) := by
    simpa only [Change.Regular, List.length_eq_zero_iff] using hr
  rw [if_neg (by omega), if_neg (by omega)]
  split_ifs with c1 c2 c3 c4
  · refine ⟨.replaceCd, ?_⟩
    rw [setMode_bind, Res.get_of_lt (by omega), Act.lift_ok_bind, Res.get_of_lt (by omega), Act.lift_ok_bind]
    exact checkState_throw (s := { s with mode := some .replaceCd }) hs _
  · refine ⟨.replaceC, ?_⟩
    rw [setMode_bind, Res.get_of_lt (by omega), Act.lift_ok_bind, Res.get_of_lt (by omega), Act.lift_ok_bind]
    exact checkState_throw (s := { s with mode := some .replaceC }) hs _
  · refine ⟨.add, ?_⟩
    rw [setMode_bind, pairs_ok rfl (by omega), Act.lift_ok_bind]
    exact checkState_throw (s := { s with mode := some .add }) hs _
  · refine ⟨.rem, ?_⟩
    rw [setMode_bind, pairs_ok rfl (by omega), Act.lift_ok_bind]
    exact checkState_throw (s := { s with mode := some .rem }) hs _
  · refine ⟨.remAdd, ?_⟩
    rw [setMode_bind, pairs_ok rfl (by omega), Act.lift_ok_bind, pairs_ok rfl (by omega), Act.lift_ok_bind]
    exact checkState_throw (s := { s with mode := some .remAdd }) hs _

theorem second_trial_rem (junk : ℕ → ℕ → K) {s : DM K Cd Co T} (hs : s.state ≠ .waiting) {ch : Change Cd Co}
    (h1 : ch.addCd = []) (h2 : ch.addC = []) (hl : ch.remCd.length = ch.remC.length) (h3 : ch.remCd ≠ []) :
    DM.tryUpdate o false junk ch s = (.throw .logicError, { s with mode := some .rem }) := by
  have := List.length_pos_iff.mpr h3
  unfold DM.tryUpdate
  rw [Act.bind_ok (show DM.sanityCheck o false s = (.ok (), s) from rfl)]
  have z1 := congrArg List.length h1
  have z2 := congrArg List.length h2
  simp only [List.length_nil] at z1 z2
  rw [if_neg (by omega), if_neg (by omega), if_neg (by omega), if_neg (by omega), if_neg (by omega), if_pos (by omega),
    setMode_bind, pairs_ok rfl hl.symm, Act.lift_ok_bind]
  exact checkState_throw (s := { s with mode := some .rem }) hs _

end CTInt
