import Verif.Spec.Partitioned

/-!
# A call of the build with asserts that comes back did what the build without asserts does
-/

set_option linter.all false

namespace CTInt

/-- Whenever `a` comes back, `b` comes back with the same result and the same members. -/
def Checked {σ α : Type} (a b : Act σ α) : Prop := ∀ s r s', a s = (.ok r, s') → b s = (.ok r, s')

namespace Checked

variable {σ α β γ : Type}

theorem refl (a : Act σ α) : Checked a a := fun _ _ _ h => h

theorem bind {a b : Act σ α} {f g : α → Act σ β} (h : Checked a b) (hf : ∀ x, Checked (f x) (g x)) :
    Checked (a >>= f) (b >>= g) := by
  intro s r s' e
  rw [Act.run_bind] at e
  rcases ha : a s with ⟨ra, s1⟩
  rw [ha] at e
  cases ra with
  | ok x => rw [Act.bind_ok (h _ _ _ ha)]; exact hf x _ _ _ e
  | throw _ => simp at e
  | ub => simp at e

/-- A check that leaves the members alone is left out. -/
theorem drop {a : Act σ Unit} {f g : Act σ β} (h : Checked a (pure ())) (hf : Checked f g) : Checked (a >>= fun _ => f) g := by
  intro s r s' e
  rw [Act.run_bind] at e
  rcases ha : a s with ⟨ra, s1⟩
  rw [ha] at e
  cases ra with
  | ok x =>
    have := h _ _ _ ha
    simp only [Act.run_pure, Prod.mk.injEq] at this
    rw [this.2]
    exact hf _ _ _ e
  | throw _ => simp at e
  | ub => simp at e

theorem ite {p : Prop} [Decidable p] {a b c d : Act σ α} (h1 : Checked a c) (h2 : Checked b d) :
    Checked (if p then a else b) (if p then c else d) := by
  split <;> assumption

theorem fold {f g : β → α → Act σ β} (h : ∀ b x, Checked (f b x) (g b x)) (b : β) (l : List α) :
    Checked (Act.fold f b l) (Act.fold g b l) := by
  induction l generalizing b with
  | nil => exact refl _
  | cons x l ih => exact (h b x).bind fun b' => ih b'

theorem lift_unit (r : Res Unit) : Checked (Act.lift r : Act σ Unit) (pure ()) := by
  intro s r' s' e
  simp only [Act.run_lift, Prod.mk.injEq] at e
  rw [Act.run_pure, ← e.2]

theorem assert_unit (p : Prop) [Decidable p] : Checked (Act.assert p : Act σ Unit) (pure ()) := lift_unit _

theorem ignore {a : Act σ α} (ha : ∀ s r s', a s = (.ok r, s') → s' = s) {f : α → Act σ β} {g : Act σ β}
    (hf : ∀ x, Checked (f x) g) : Checked (a >>= f) g := by
  intro s r s' e
  rw [Act.run_bind] at e
  rcases h1 : a s with ⟨ra, s1⟩
  rw [h1] at e
  cases ra with
  | ok x =>
    rw [ha _ _ _ h1] at e
    exact hf x _ _ _ e
  | throw _ => simp at e
  | ub => simp at e

theorem ignore_get {f : σ → Act σ β} {g : Act σ β} (hf : ∀ x, Checked (f x) g) : Checked (Act.get >>= f) g :=
  ignore (fun s r s' e => by simp only [Act.run_get, Prod.mk.injEq] at e; exact e.2.symm) hf

theorem ignore_lift {r : Res α} {f : α → Act σ β} {g : Act σ β} (hf : ∀ x, Checked (f x) g) :
    Checked (Act.lift r >>= f) g :=
  ignore (fun s r s' e => by simp only [Act.run_lift, Prod.mk.injEq] at e; exact e.2.symm) hf

theorem ignore_assert {p : Prop} [Decidable p] {f : Unit → Act σ β} {g : Act σ β} (hf : ∀ x, Checked (f x) g) :
    Checked (Act.assert p >>= f) g := ignore_lift hf

end Checked

variable {K Cd Co T : Type} [Field K] [DecidableEq K] [LinearOrder T] (o : OpSys K Cd Co T) (fl : FlSys Cd Co)

namespace DM

open Checked

open Classical in
theorem checked_sanity : Checked (sanityCheck (K := K) o true) (sanityCheck o false) := by
  show Checked (sanityCheck o true) (pure ())
  unfold sanityCheck
  rw [if_pos rfl]
  refine ignore (a := checkState .waiting) (fun s r s' e => ?_) fun _ => ?_
  · unfold checkState at e
    simp only [Act.get_bind] at e
    unfold Act.throwIf at e
    simp only [Act.run_lift, Prod.mk.injEq] at e
    exact e.2.symm
  refine ignore_get fun s => ignore_assert fun _ => ignore_assert fun _ => ignore_assert fun _ => ignore_assert fun _ =>
    ignore_lift fun _ => ignore_lift fun _ => ignore_lift fun p => ignore_lift fun q => ignore_assert fun _ =>
    ignore_lift fun _ => ignore_lift fun _ => ignore_assert fun _ => ignore_assert fun _ => assert_unit _

theorem checked_removeExcess : Checked (removeExcess (K := K) o true) (removeExcess o false) := by
  unfold removeExcess
  refine (refl _).bind fun s => (refl _).bind fun _ => (refl _).bind fun _ => (refl _).bind fun _ => (refl _).bind fun _ =>
    (refl _).bind fun _ => checked_sanity o

theorem checked_try (junk : ℕ → ℕ → K) (ch : Change Cd Co) : Checked (tryUpdate o true junk ch) (tryUpdate o false junk ch) := by
  unfold tryUpdate
  exact (checked_sanity o).bind fun _ => refl _

theorem checked_perform (junk : ℕ → ℕ → K) : Checked (performUpdate o true junk) (performUpdate o false junk) := by
  unfold performUpdate
  refine (refl _).bind fun s => ?_
  rcases s.mode with _ | m
  · exact refl _
  cases m with
  | remAdd =>
    show Checked (performRemoveAdd o true junk) (performRemoveAdd o false junk)
    unfold performRemoveAdd
    exact (refl _).bind fun _ => (refl _).bind fun _ => (refl _).bind fun _ => (refl _).bind fun s =>
      ite (refl _) ((refl _).bind fun _ => checked_sanity o)
  | _ => exact refl _

theorem checked_reject : Checked (rejectUpdate (K := K) o true) (rejectUpdate o false) := by
  unfold rejectUpdate
  refine (refl _).bind fun s => ?_
  rcases s.mode with _ | m
  · exact refl _
  cases m with
  | add =>
    show Checked (rejectAdd o true) (rejectAdd o false)
    unfold rejectAdd
    exact (refl _).bind fun _ => (refl _).bind fun _ => checked_removeExcess o
  | remAdd =>
    show Checked (rejectRemoveAdd o true) (rejectRemoveAdd o false)
    unfold rejectRemoveAdd
    exact (refl _).bind fun _ => (refl _).bind fun _ => (refl _).bind fun _ => (refl _).bind fun _ => (refl _).bind fun _ =>
      (refl _).bind fun _ => checked_sanity o
  | _ => exact refl _

theorem checked_rebuild : Checked (rebuild (K := K) o true) (rebuild o false) := by
  unfold rebuild
  exact (refl _).bind fun _ => (refl _).bind fun _ => checked_sanity o

end DM

namespace PDM

open Checked

theorem checked_onBlock {α : Type} (k : ℕ) {a b : Act (DM K Cd Co T) α} (h : Checked a b) :
    Checked (onBlock k a) (onBlock k b) := by
  intro s r s' e
  unfold onBlock at e ⊢
  cases hm : s.mats[k]? with
  | none => rw [hm] at e; simp at e
  | some m =>
    rw [hm] at e
    simp only [Prod.mk.injEq] at e ⊢
    have h1 : a m = (.ok r, (a m).2) := by rw [← e.1]
    rw [h _ _ _ h1]
    exact ⟨rfl, e.2⟩

theorem checked_sanity : Checked (sanityCheck (K := K) o fl true) (sanityCheck o fl false) := by
  show Checked (sanityCheck o fl true) (pure ())
  unfold sanityCheck
  rw [if_pos rfl]
  exact ignore_get fun s => ignore_lift fun _ => ignore_lift fun _ => ignore_lift fun _ => ignore_lift fun _ =>
    ignore_assert fun _ => ignore_assert fun _ => ignore_lift fun _ => ignore_lift fun _ => ignore_assert fun _ =>
    ignore_lift fun _ => lift_unit _

theorem checked_reconstruct : Checked (reconstruct true (K := K) (Cd := Cd) (Co := Co) (T := T)) (reconstruct false) := by
  have : (reconstruct false : Act (PDM K Cd Co T) Unit) = (do
      let s ← Act.get
      Act.assert (s.ns ≤ s.mats.length)
      let ms := s.mats.take s.ns
      Act.modify fun s => { s with
        cd := { s.cd with order := ms.flatMap fun m => m.cd.ops }
        c := { s.c with order := ms.flatMap fun m => m.c.ops } }
      pure ()) := by
    unfold reconstruct
    congr 1
  rw [this]
  unfold reconstruct
  exact (refl _).bind fun s => (refl _).bind fun _ => (refl _).bind fun _ => ignore_get fun _ => ignore_assert fun _ =>
    assert_unit _

theorem checked_try (junk : ℕ → ℕ → K) (ch : Change Cd Co) :
    Checked (tryUpdate o fl true junk ch) (tryUpdate o fl false junk ch) := by
  unfold tryUpdate
  refine (refl _).bind fun s => (refl _).bind fun x1 => (refl _).bind fun _ => (refl _).bind fun s => (refl _).bind fun x2 =>
    (refl _).bind fun _ => (refl _).bind fun s => (refl _).bind fun x3 => (refl _).bind fun _ => (refl _).bind fun s =>
    (refl _).bind fun x4 => (refl _).bind fun _ => (refl _).bind fun _ => (refl _).bind fun s => Checked.bind (Checked.fold ?_ _ _) fun _ =>
    refl _
  intro d k
  exact (refl _).bind fun _ => (refl _).bind fun _ => (refl _).bind fun _ => (refl _).bind fun _ =>
    (checked_onBlock k (DM.checked_try o junk _)).bind fun _ => refl _

theorem checked_perform (junk : ℕ → ℕ → K) : Checked (performUpdate o fl true junk) (performUpdate o fl false junk) := by
  unfold performUpdate
  exact (refl _).bind fun s => (Checked.fold (fun _ k => checked_onBlock k (DM.checked_perform o junk)) _ _).bind fun _ =>
    checked_reconstruct.bind fun _ => (refl _).bind fun _ => (refl _).bind fun _ => checked_sanity o fl

theorem checked_reject : Checked (rejectUpdate (K := K) o true) (rejectUpdate o false) := by
  unfold rejectUpdate
  exact (refl _).bind fun s => (Checked.fold (fun _ k => checked_onBlock k (DM.checked_reject o)) _ _).bind fun _ =>
    (refl _).bind fun _ => (refl _).bind fun _ => (refl _).bind fun _ => (refl _).bind fun _ => (refl _).bind fun _ =>
    (refl _).bind fun _ => (refl _).bind fun _ => (refl _).bind fun _ => (refl _).bind fun _ => (refl _).bind fun _ =>
    (refl _).bind fun _ => (refl _).bind fun _ => checked_reconstruct.bind fun _ => refl _

theorem checked_rebuild : Checked (rebuild (K := K) o true) (rebuild o false) := by
  unfold rebuild
  exact (refl _).bind fun s => Checked.fold (fun _ k => checked_onBlock k (DM.checked_rebuild o)) _ _

theorem checked_create {j : ℕ → DM K Cd Co T} {np : ℤ} {s : PDM K Cd Co T} (h : create fl true j np = .ok s) :
    create fl false j np = .ok s := by
  unfold create at h ⊢
  obtain ⟨u1, h1, h⟩ := Res.bind_eq_ok.mp h
  obtain ⟨c, h2, h⟩ := Res.bind_eq_ok.mp h
  obtain ⟨F, h3, h⟩ := Res.bind_eq_ok.mp h
  obtain ⟨u4, h4, h⟩ := Res.bind_eq_ok.mp h
  rw [Res.assert_true (by simp), Res.bind_ok, h2, Res.bind_ok, h3, Res.bind_ok, Res.assert_true (by simp), Res.bind_ok]
  exact h

theorem checked_createWith {junk : ℕ → ℕ → K} {j : ℕ → DM K Cd Co T} {np : ℤ} {ops : List (Cd × Co)} {s : PDM K Cd Co T}
    (h : createWith o fl true junk j np ops = .ok s) : createWith o fl false junk j np ops = .ok s := by
  unfold createWith at h ⊢
  obtain ⟨s0, h0, h⟩ := Res.bind_eq_ok.mp h
  rw [checked_create fl h0, Res.bind_ok]
  have hc : Checked (do
        let _ ← tryUpdate o fl true junk ⟨[], [], ops.map Prod.fst, ops.map Prod.snd⟩
        performUpdate o fl true junk
        sanityCheck o fl true : Act (PDM K Cd Co T) Unit) (do
        let _ ← tryUpdate o fl false junk ⟨[], [], ops.map Prod.fst, ops.map Prod.snd⟩
        performUpdate o fl false junk
        sanityCheck o fl false : Act (PDM K Cd Co T) Unit) :=
    (checked_try o fl junk _).bind fun _ => (checked_perform o fl junk).bind fun _ => checked_sanity o fl
  generalize ha : (do
        let _ ← tryUpdate o fl true junk ⟨[], [], ops.map Prod.fst, ops.map Prod.snd⟩
        performUpdate o fl true junk
        sanityCheck o fl true : Act (PDM K Cd Co T) Unit) = a at h hc
  rcases h1 : a s0 with ⟨r, s1⟩
  rw [h1] at h
  cases r with
  | ok u => rw [hc _ _ _ h1]; exact h
  | throw e => simp at h
  | ub => simp at h

end PDM

theorem checked_play (junk : ℕ → ℕ → K) (l : List (Change Cd Co × Bool)) : Checked (play o true junk l) (play o false junk l) := by
  induction l with
  | nil => exact Checked.refl _
  | cons x l ih =>
    obtain ⟨ch, b⟩ := x
    unfold play
    exact (DM.checked_try o junk ch).bind fun _ => Checked.ite
      ((DM.checked_perform o junk).bind fun _ => ih.bind fun _ => Checked.refl _)
      ((DM.checked_reject o).bind fun _ => ih.bind fun _ => Checked.refl _)

theorem checked_pplay (junk : ℕ → ℕ → K) (l : List (Change Cd Co × Bool)) :
    Checked (pplay o fl true junk l) (pplay o fl false junk l) := by
  induction l with
  | nil => exact Checked.refl _
  | cons x l ih =>
    obtain ⟨ch, b⟩ := x
    unfold pplay
    exact (PDM.checked_try o fl junk ch).bind fun _ => Checked.ite
      ((PDM.checked_perform o fl junk).bind fun _ => ih.bind fun _ => Checked.refl _)
      ((PDM.checked_reject o).bind fun _ => ih.bind fun _ => Checked.refl _)

end CTInt
