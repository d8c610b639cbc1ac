import Verif.Model.Manager
import Verif.Spec.Manager
import Verif.Props.Submatrix
import Verif.Props.Random

/-!
# What the updates do to the vertex list, if they return
-/

set_option linter.all false

namespace CTInt

variable {K : Type} [RCLike K] [DecidableEq K]
variable {c : Ctx K}

/-- The meaning of an object as far as its vertex list is concerned. -/
def absOf (s : Sub K) : Abs := ⟨s.verts, [], true, s.uid⟩

theorem absOf_agree (s : Sub K) : Agree s (absOf s) := ⟨rfl, rfl⟩

theorem initUpdate_verts {s s' : Sub K} {j1 j2 j3 : ℕ → ℕ → ℕ → K} {new : List Vert}
    (e : s.initUpdate c j1 j2 j3 new = .ok s') :
    s'.verts = s.verts ++ fresh s.uid new ∧ s'.uid = s.uid + new.length ∧ ∀ v ∈ s.verts, v.nonInt = false := by
  have h := call_agree (c := c) (J := fun k => if k = 0 then j1 else if k = 1 then j2 else j3) (call := .start new)
    (absOf_agree s) (s' := s') e
  refine ⟨h.1, h.2, ?_⟩
  unfold Sub.initUpdate at e
  simp only [Res.bind_eq_ok, Res.assert_eq_ok] at e
  exact e.choose_spec.2.choose_spec.1

theorem finalizeUpdate_verts {s s' : Sub K} {j1 j2 j3 : ℕ → ℕ → ℕ → K}
    (e : s.finalizeUpdate c j1 j2 j3 = .ok s') : s'.verts = interacting s.verts ∧ s'.uid = s.uid := by
  have h := call_agree (c := c) (J := fun k => if k = 0 then j1 else if k = 1 then j2 else j3) (call := .finish)
    (absOf_agree s) (s' := s') e
  exact h

theorem metropolis_verts {s s' : Sub K} {junk : ℕ → ℕ → ℕ → K} {pos : List ℕ} {spins : List ℤ} {corr r : ℝ}
    {o : Option K} {w : K} (e : metropolis c junk s pos spins corr r = .ok (s', o, w)) :
    s'.verts = (if o.isSome then flipAll s.verts (pos.zip spins) else s.verts) ∧ s'.uid = s.uid ∧
      ∀ p ∈ pos, p < s.verts.length := by
  unfold metropolis at e
  rw [Res.bind_eq_ok] at e
  obtain ⟨⟨s1, det, f, w1⟩, e1, e⟩ := e
  have hlt : ∀ p ∈ pos, p < s.verts.length := by
    unfold Sub.trySpinFlip at e1
    simp only [Res.bind_eq_ok, Res.assert_eq_ok] at e1
    exact e1.choose_spec.2.choose_spec.2.choose_spec.1
  simp only [] at e
  split at e
  · rw [Res.bind_eq_ok] at e
    obtain ⟨s2, e2, e⟩ := e
    cases e
    have h := call_agree (c := c) (J := fun _ => junk) (call := .flip pos spins true) (absOf_agree s) (s' := s')
      (by unfold Sub.call; simp only [e1]; exact e2)
    exact ⟨h.1, h.2, hlt⟩
  · rw [Res.bind_eq_ok] at e
    obtain ⟨s2, e2, e⟩ := e
    cases e
    have h := call_agree (c := c) (J := fun _ => junk) (call := .flip pos spins false) (absOf_agree s) (s' := s')
      (by unfold Sub.call; simp only [e1]; exact e2)
    exact ⟨h.1, h.2, hlt⟩

/-! ## Counting interacting vertices -/

theorem interacting_append (a b : List Vert) : interacting (a ++ b) = interacting a ++ interacting b :=
  List.filter_append ..

theorem interacting_cons (v : Vert) (l : List Vert) :
    interacting (v :: l) = (if v.nonInt then interacting l else v :: interacting l) := by
  unfold interacting
  rw [List.filter_cons]
  cases v.nonInt <;> rfl

theorem interacting_fresh (k : ℕ) (l : List Vert) : interacting (fresh k l) = [] := by
  induction l generalizing k with
  | nil => rfl
  | cons v l ih => rw [fresh, interacting_cons, if_pos rfl, ih]

theorem interacting_all {l : List Vert} (h : ∀ v ∈ l, v.nonInt = false) : interacting l = l := by
  unfold interacting
  rw [List.filter_eq_self]
  intro v hv; rw [h v hv]; rfl

/-- Hiding vertex `i`. -/
theorem interacting_hide {l : List Vert} {i : ℕ} (hi : i < l.length) (h : (l[i]).nonInt = false) :
    (interacting l).Perm (l[i] :: interacting (l.modify i (flipTo · (-1)))) := by
  induction l generalizing i with
  | nil => simp at hi
  | cons v l ih =>
    cases i with
    | zero =>
      rw [List.getElem_cons_zero] at h ⊢
      rw [List.modify_zero_cons, interacting_cons, h, interacting_cons, if_pos (show (flipTo v (-1)).nonInt = true from rfl)]
      simp
    | succ i =>
      rw [List.getElem_cons_succ] at h ⊢
      rw [List.modify_succ_cons, interacting_cons, interacting_cons]
      have := ih (by simpa using hi) h
      cases v.nonInt
      · simp only [Bool.false_eq_true, if_false]
        exact (this.cons v).trans (List.Perm.swap ..)
      · simpa using this

/-- Showing vertex `i`. -/
theorem interacting_show {l : List Vert} {i : ℕ} (hi : i < l.length) (h : (l[i]).nonInt = true) {s : ℤ} (hs : s ≠ -1) :
    (interacting (l.modify i (flipTo · s))).Perm (flipTo l[i] s :: interacting l) := by
  have hf : (flipTo l[i] s).nonInt = false := by unfold flipTo; rw [if_neg hs]
  induction l generalizing i with
  | nil => simp at hi
  | cons v l ih =>
    cases i with
    | zero =>
      rw [List.getElem_cons_zero] at h hf ⊢
      rw [List.modify_zero_cons, interacting_cons, hf, interacting_cons, h]
      simp
    | succ i =>
      simp only [List.getElem_cons_succ] at h hf ⊢
      rw [List.modify_succ_cons, interacting_cons, interacting_cons]
      have := ih (by simpa using hi) h hf
      cases v.nonInt
      · simp only [Bool.false_eq_true, if_false]
        exact (this.cons v).trans (List.Perm.swap ..)
      · simpa using this

theorem interacting_modify_le (l : List Vert) (i : ℕ) (s : ℤ) :
    (interacting (l.modify i (flipTo · s))).length ≤ (interacting l).length + 1 ∧
      (s = -1 → (interacting (l.modify i (flipTo · s))).length ≤ (interacting l).length) := by
  induction l generalizing i with
  | nil => simp [interacting]
  | cons v l ih =>
    cases i with
    | zero =>
      rw [List.modify_zero_cons, interacting_cons, interacting_cons]
      constructor
      · split <;> split <;> (try simp only [List.length_cons]) <;> omega
      · rintro rfl
        rw [if_pos (show (flipTo v (-1)).nonInt = true from rfl)]
        split <;> simp
    | succ i =>
      rw [List.modify_succ_cons, interacting_cons, interacting_cons]
      obtain ⟨a, b⟩ := ih i
      constructor
      · split <;> (try simp only [List.length_cons]) <;> omega
      · intro hs
        have := b hs
        split <;> (try simp only [List.length_cons]) <;> omega

/-! ## Insertion and removal -/

theorem insertionStep_count {m : Mgr} {junk : ℕ → ℕ → ℕ → K} {u : ℕ → ℝ} {Us : ℝ} {s s' : Sub K} {b n p p' : ℕ}
    {o : Option K} (e : m.insertionStep c junk u Us s b n p = .ok (s', o, p')) :
    (interacting s'.verts).length ≤ (interacting s.verts).length + n := by
  unfold Mgr.insertionStep at e
  rw [Res.bind_eq_ok] at e
  obtain ⟨_, _, e⟩ := e
  split at e
  · cases e; omega
  · rename_i hn
    simp only [Res.bind_eq_ok] at e
    obtain ⟨_, _, corr, e1, ⟨s1, o1, w1⟩, e2, e⟩ := e
    cases e
    by_cases h1 : n = 1
    · subst h1
      rw [(metropolis_verts e2).1]
      split
      · simp only [List.range_one, List.map_cons, List.map_nil, List.zip_cons_cons, List.zip_nil_right, flipAll]
        exact (interacting_modify_le _ _ _).1
      · omega
    · rw [if_neg h1] at e1; cases e1

theorem removalStep_count {m : Mgr} {junk : ℕ → ℕ → ℕ → K} {u : ℕ → ℝ} {Us : ℝ} {s s' : Sub K} {p p' : ℕ}
    {o : Option K} (e : m.removalStep c junk u Us s p = .ok (s', o, p')) :
    (interacting s'.verts).length ≤ (interacting s.verts).length := by
  unfold Mgr.removalStep at e
  rw [Res.bind_eq_ok] at e
  obtain ⟨⟨i, corr, p1⟩, _, e⟩ := e
  cases i with
  | none => cases e; exact le_rfl
  | some i =>
    simp only [Res.bind_eq_ok] at e
    obtain ⟨_, _, ⟨s1, o1, w1⟩, e2, e⟩ := e
    cases e
    rw [(metropolis_verts e2).1]
    split
    · exact (interacting_modify_le _ _ _).2 rfl
    · exact le_rfl

theorem insRemTurn_count {m : Mgr} {J : ℕ → ℕ → ℕ → ℕ → ℕ → K} {u : ℕ → ℝ} {Us : ℝ} {posIns numIns : List ℕ}
    {tryIns : List Bool} {x x' : Mgr.InsRem K} {i : ℕ}
    (e : m.insRemTurn c J u Us posIns numIns tryIns x i = .ok x') (h : (interacting x.s.verts).length ≤ m.maxOrder) :
    (interacting x'.s.verts).length ≤ m.maxOrder := by
  unfold Mgr.insRemTurn at e
  rw [Res.bind_eq_ok] at e
  obtain ⟨b, _, e⟩ := e
  rw [Res.bind_eq_ok] at e
  obtain ⟨⟨s, o, p, ins⟩, e1, e⟩ := e
  cases e
  show (interacting s.verts).length ≤ _
  cases b with
  | true =>
    rw [if_pos rfl] at e1
    rw [Res.bind_eq_ok] at e1
    obtain ⟨q, _, e1⟩ := e1
    rw [Res.bind_eq_ok] at e1
    obtain ⟨n, _, e1⟩ := e1
    split at e1
    · cases e1; exact h
    · rename_i hle
      rw [Res.bind_eq_ok] at e1
      obtain ⟨⟨s1, o1, p1⟩, e2, e1⟩ := e1
      cases e1
      have := insertionStep_count e2
      unfold interacting at this ⊢
      omega
  | false =>
    rw [if_neg (by simp), Res.bind_eq_ok] at e1
    obtain ⟨⟨s1, o1, p1⟩, e2, e1⟩ := e1
    cases e1
    exact (removalStep_count e2).trans h

theorem insRem_fold {m : Mgr} {J : ℕ → ℕ → ℕ → ℕ → ℕ → K} {u : ℕ → ℝ} {Us : ℝ} {posIns numIns : List ℕ}
    {tryIns : List Bool} {P : Mgr.InsRem K → Prop}
    (hP : ∀ x x' i, P x → m.insRemTurn c J u Us posIns numIns tryIns x i = .ok x' → P x') {l : List ℕ}
    {x x' : Mgr.InsRem K} (e : Res.foldl (m.insRemTurn c J u Us posIns numIns tryIns) x l = .ok x') (h : P x) : P x' := by
  induction l generalizing x with
  | nil => cases e; exact h
  | cons i l ih =>
    rw [Res.foldl_cons, Res.bind_eq_ok] at e
    obtain ⟨x1, e1, e2⟩ := e
    exact ih e2 (hP _ _ _ h e1)

theorem doInsRem_count {m : Mgr} {J : ℕ → ℕ → ℕ → ℕ → ℕ → K} {u : ℕ → ℝ} {Us : ℝ} {s : Sub K} {st : AccStat} {p : ℕ}
    {x : Mgr.InsRem K} (e : m.doInsRem c J u Us s st p = .ok x) (h : s.verts.length ≤ m.maxOrder) :
    x.s.verts.length ≤ m.maxOrder ∧ ∀ v ∈ x.s.verts, v.nonInt = false := by
  unfold Mgr.doInsRem at e
  simp only [Res.bind_eq_ok] at e
  obtain ⟨g, _, s1, e1, y, e2, _, _, s2, e3, e⟩ := e
  cases e
  obtain ⟨a1, a2, a3⟩ := initUpdate_verts e1
  have h1 : (interacting s1.verts).length ≤ m.maxOrder := by
    rw [a1, interacting_append, interacting_fresh, interacting_all a3]; simpa using h
  have h2 : (interacting y.s.verts).length ≤ m.maxOrder :=
    insRem_fold (P := fun x => (interacting x.s.verts).length ≤ m.maxOrder) (fun x x' i hx ex => insRemTurn_count ex hx)
      e2 h1
  show s2.verts.length ≤ _ ∧ ∀ v ∈ s2.verts, _
  rw [(finalizeUpdate_verts e3).1]
  refine ⟨h2, fun v hv => ?_⟩
  unfold interacting at hv
  simpa using (List.mem_filter.mp hv).2

/-! ## Spin flips -/

theorem forall₂_modify {R : Vert → Vert → Prop} {l l' : List Vert} (h : List.Forall₂ R l l') {i : ℕ} {f : Vert → Vert}
    (hf : ∀ (a : i < l.length) (b : i < l'.length), R l[i] (f l'[i])) : List.Forall₂ R l (l'.modify i f) := by
  rw [List.forall₂_iff_get] at h ⊢
  refine ⟨by rw [List.length_modify]; exact h.1, fun j h1 h2 => ?_⟩
  simp only [List.get_eq_getElem]
  rw [List.getElem_modify]
  split
  · rename_i hij
    subst hij
    exact hf h1 (by rw [List.length_modify] at h2; exact h2)
  · exact h.2 j h1 (by rw [List.length_modify] at h2; exact h2)

theorem drawOther_ok {u : ℕ → ℝ} (hu : ∀ k, 0 ≤ u k ∧ u k < 1) {n : ℕ} {now : ℤ} {fuel p p' : ℕ} {x : ℤ}
    (e : Mgr.drawOther u n now fuel p = .ok (x, p')) : 0 ≤ x ∧ x ≤ n ∧ (0 < n → x < n) ∧ x ≠ now := by
  induction fuel generalizing p with
  | zero => cases e
  | succ fuel ih =>
    unfold Mgr.drawOther at e
    simp only [] at e
    split at e
    · exact ih e
    · rename_i hne
      cases e
      refine ⟨by positivity, ?_, ?_, hne⟩
      · have : ⌊u p * n⌋₊ ≤ n := by
          have h2 : u p * n ≤ n := by
            have := (hu p).2
            have hn : (0 : ℝ) ≤ n := by positivity
            nlinarith
          have := Nat.floor_le_floor h2
          rwa [Nat.floor_natCast] at this
        exact_mod_cast this
      · intro hn
        have hn' : (0 : ℝ) < n := by exact_mod_cast hn
        have h0 : (0 : ℝ) ≤ u p * n := mul_nonneg (hu p).1 hn'.le
        have : ⌊u p * n⌋₊ < n := by
          rw [Nat.floor_lt h0]
          have := (hu p).2
          nlinarith
        exact_mod_cast this

theorem spinFlipStep_verts {junk : ℕ → ℕ → ℕ → K} {u : ℕ → ℝ} (hu : ∀ k, 0 ≤ u k ∧ u k < 1) {fuel : ℕ} {s s' : Sub K}
    {i p p' : ℕ} {o : Option K} (e : Mgr.spinFlipStep c junk u fuel s i p = .ok (s', o, p')) :
    s'.uid = s.uid ∧ ∃ h : i < s.verts.length, s'.verts = s.verts ∨
      ∃ x : ℤ, 0 ≤ x ∧ x < (termOf c.tbl s.verts[i]).numAf ∧ x ≠ s.verts[i].af ∧
        s'.verts = s.verts.modify i (flipTo · x) := by
  unfold Mgr.spinFlipStep at e
  simp only [Run.bind_eq_ok, Run.lift_eq_ok, Res.get_eq_ok] at e
  obtain ⟨v, ev, d, ed, e⟩ := e
  obtain ⟨hi, rfl⟩ := List.getElem?_eq_some_iff.mp ev
  have hd : termOf c.tbl s.verts[i] = d := by
    unfold termOf; rw [List.getD_eq_getElem?_getD, ed]; rfl
  split at e
  · cases e
    exact ⟨rfl, hi, Or.inl rfl⟩
  · rename_i hn
    simp only [Run.bind_eq_ok, Run.lift_eq_ok] at e
    obtain ⟨⟨x, p1⟩, ex, ⟨s1, o1, w1⟩, em, e⟩ := e
    cases e
    obtain ⟨m1, m2, m3⟩ := metropolis_verts em
    obtain ⟨x1, _, x3, x4⟩ := drawOther_ok hu ex
    refine ⟨m2, hi, ?_⟩
    rw [m1]
    split
    · right
      exact ⟨x, x1, by rw [hd]; exact x3 (by omega), x4, rfl⟩
    · left; rfl

theorem spinFlipLoop_verts {J : ℕ → ℕ → ℕ → ℕ → ℕ → K} {u : ℕ → ℝ} (hu : ∀ k, 0 ≤ u k ∧ u k < 1) {fuel : ℕ}
    {l : List ℕ} {vs : List Vert} (hv : ∀ v ∈ vs, v.nonInt = false) {s s' : Sub K} {w w' : K} {p p' : ℕ}
    (h : List.Forall₂ (OnlyFieldChanged c.tbl) vs s.verts)
    (e : Mgr.spinFlipLoop c J u fuel l s w p = .ok (s', w', p')) :
    List.Forall₂ (OnlyFieldChanged c.tbl) vs s'.verts := by
  induction l generalizing s w p with
  | nil => cases e; exact h
  | cons i l ih =>
    unfold Mgr.spinFlipLoop at e
    rw [Run.bind_eq_ok] at e
    obtain ⟨⟨s1, o, p1⟩, e1, e⟩ := e
    refine ih ?_ e
    obtain ⟨_, hi, h1 | ⟨x, x1, x2, _, h1⟩⟩ := spinFlipStep_verts hu e1
    · rw [h1]; exact h
    · rw [h1]
      refine forall₂_modify h fun a b => ?_
      have hr := (List.forall₂_iff_get.mp h).2 i a b
      simp only [List.get_eq_getElem] at hr
      obtain ⟨y, ey, _⟩ := hr
      refine ⟨x, ?_, Or.inr ⟨x1, ?_⟩⟩
      · unfold flipTo
        rw [if_neg (by omega), ey]
        have := hv vs[i] (List.getElem_mem a)
        cases hvi : vs[i]
        simp only [hvi] at this ⊢
        rw [this]
      · rw [show (termOf c.tbl s.verts[i]) = termOf c.tbl vs[i] from by rw [ey]; rfl] at x2
        exact x2

theorem doSpinFlip_verts {m : Mgr} {J : ℕ → ℕ → ℕ → ℕ → ℕ → K} {u : ℕ → ℝ} (hu : ∀ k, 0 ≤ u k ∧ u k < 1) {fuel : ℕ}
    {s s' : Sub K} {w : K} {p p' : ℕ} (e : m.doSpinFlip c J u fuel s p = .ok (s', w, p')) :
    List.Forall₂ (OnlyFieldChanged c.tbl) s.verts s'.verts ∧ ∀ v ∈ s.verts, v.nonInt = false := by
  unfold Mgr.doSpinFlip at e
  simp only [Run.bind_eq_ok, Run.lift_eq_ok] at e
  obtain ⟨⟨l, p1⟩, _, s1, e1, ⟨s2, w2, p2⟩, e2, s3, e3, e⟩ := e
  cases e
  obtain ⟨a1, a2, a3⟩ := initUpdate_verts e1
  have h0 : List.Forall₂ (OnlyFieldChanged c.tbl) s.verts s1.verts := by
    rw [a1, show fresh s.uid [] = [] from rfl, List.append_nil, List.forall₂_same]
    exact fun v _ => ⟨v.af, rfl, Or.inl rfl⟩
  have h1 := spinFlipLoop_verts hu a3 h0 e2
  rw [(finalizeUpdate_verts e3).1]
  have h2 : ∀ v ∈ s2.verts, v.nonInt = false := by
    intro v hv
    obtain ⟨i, hi, rfl⟩ := List.getElem_of_mem hv
    have hl := h1.length_eq
    have hr := (List.forall₂_iff_get.mp h1).2 i (by omega) hi
    simp only [List.get_eq_getElem] at hr
    obtain ⟨y, ey, _⟩ := hr
    rw [ey]
    exact a3 s.verts[i] (List.getElem_mem _)
  rw [interacting_all h2]
  exact ⟨h1, a3⟩

/-! ## Shifts -/

/-- `v'` is a hidden copy of `v` with another time. -/
def HiddenCopy (beta step : ℝ) (v v' : Vert) : Prop :=
  ∃ (t : ℝ) (k : ℤ) (id : ℕ), v' = { v with time := t, uid := id, nonInt := true } ∧ 0 ≤ t ∧ t ≤ beta ∧
    |t - v.time - k * beta| ≤ step / 2

/-- The positions in `l` are distinct, their vertices are untouched, and the hidden copies follow from `k` on. -/
def ShiftReady (beta step : ℝ) (old L cfg : List Vert) : List ℕ → ℕ → Prop
  | [], _ => True
  | i :: l, k => (i ∉ l ∧ i < old.length ∧ cfg[i]? = old[i]? ∧ L[i]? = old[i]? ∧
      ∃ v v', old[i]? = some v ∧ cfg[k]? = some v' ∧ HiddenCopy beta step v v') ∧ ShiftReady beta step old L cfg l (k + 1)

theorem ShiftReady.mono {beta step : ℝ} {old L cfg L' cfg' : List Vert} {i k0 : ℕ} {l : List ℕ} {k : ℕ} (hk : k0 < k)
    (hik : old.length ≤ k0) (hi : i ∉ l) (hil : i < old.length)
    (hc : ∀ j, j ≠ i → j ≠ k0 → cfg'[j]? = cfg[j]?) (hL : ∀ j, j ≠ i → L'[j]? = L[j]?)
    (h : ShiftReady beta step old L cfg l k) : ShiftReady beta step old L' cfg' l k := by
  induction l generalizing k with
  | nil => trivial
  | cons a l ih =>
    obtain ⟨⟨h1, h2, h3, h4, v, v', h5, h6, h7⟩, h8⟩ := h
    simp only [List.mem_cons, not_or] at hi
    refine ⟨⟨h1, h2, ?_, ?_, v, v', h5, ?_, h7⟩, ih (by omega) hi.2 h8⟩
    · rw [hc a (by omega) (by omega), h3]
    · rw [hL a (by omega), h4]
    · rw [hc k (by omega) (by omega), h6]

theorem shiftNew_ok {m : Mgr} {u : ℕ → ℝ} {vs new : List Vert} {l : List ℕ} {p : ℕ}
    (hu : ∀ k, 0 ≤ u k ∧ u k < 1) (hb : 0 < m.beta) (hs : 0 ≤ m.shiftStep) (e : m.shiftNew u vs l p = .ok new) :
    List.Forall₂ (fun i v' => ∃ v, vs[i]? = some v ∧ HiddenCopy m.beta m.shiftStep v v' ∧ v'.uid = v.uid) l new := by
  induction l generalizing p new with
  | nil => cases e; exact .nil
  | cons i l ih =>
    unfold Mgr.shiftNew at e
    simp only [Res.bind_eq_ok, Res.get_eq_ok] at e
    obtain ⟨v, ev, r, er, e⟩ := e
    cases e
    refine .cons ⟨v, ev, ?_, rfl⟩ (ih er)
    obtain ⟨⟨k, hk⟩, h1, h2⟩ := C33_mymod (x := v.time + (u p - 1 / 2) * m.shiftStep) hb
    refine ⟨_, k, v.uid, rfl, ?_, ?_, ?_⟩
    · rcases le_or_gt 0 (v.time + (u p - 1 / 2) * m.shiftStep) with h | h
      · exact (h1 h).1
      · exact (h2 h).1.le
    · rcases le_or_gt 0 (v.time + (u p - 1 / 2) * m.shiftStep) with h | h
      · exact (h1 h).2.le
      · exact (h2 h).2
    · rw [hk, show v.time + (u p - 1 / 2) * m.shiftStep + k * m.beta - v.time - k * m.beta = (u p - 1 / 2) * m.shiftStep by ring,
        abs_mul, abs_of_nonneg hs]
      have : |u p - 1 / 2| ≤ 1 / 2 := by
        rw [abs_le]; have := hu p; constructor <;> linarith
      nlinarith

theorem HiddenCopy.uid {beta step : ℝ} {v v' : Vert} (h : HiddenCopy beta step v v') (id : ℕ) :
    HiddenCopy beta step v { v' with nonInt := true, uid := id } := by
  obtain ⟨t, k, _, rfl, h⟩ := h
  exact ⟨t, k, id, rfl, h⟩

theorem shiftReady_start {beta step : ℝ} {old rest new : List Vert} {l : List ℕ} {n : ℕ} (hnd : l.Nodup)
    (hf : List.Forall₂ (fun i v' => ∃ v, old[i]? = some v ∧ HiddenCopy beta step v v' ∧ v'.uid = v.uid) l new) :
    ShiftReady beta step old old (old ++ rest ++ fresh n new) l (old.length + rest.length) := by
  induction hf generalizing rest n with
  | nil => trivial
  | @cons i v' l new h hf ih =>
    obtain ⟨v, hv, hc, _⟩ := h
    rw [List.nodup_cons] at hnd
    have hi : i < old.length := (List.getElem?_eq_some_iff.mp hv).1
    refine ⟨⟨hnd.1, hi, ?_, rfl, v, _, hv, ?_, hc.uid (n + 1)⟩, ?_⟩
    · rw [List.append_assoc, List.getElem?_append_left hi]
    · rw [List.getElem?_append_right (by simp), fresh]
      simp
    · have := ih (rest := rest ++ [{ v' with nonInt := true, uid := n + 1 }]) (n := n + 1) hnd.2
      rw [List.length_append, List.length_singleton] at this
      rw [fresh]
      simpa [List.append_assoc, Nat.add_assoc] using this

theorem forall₂_set {R : Vert → Vert → Prop} {l l' : List Vert} (h : List.Forall₂ R l l') {i : ℕ} {x : Vert}
    (hf : ∀ (a : i < l.length), R l[i] x) : List.Forall₂ R l (l'.set i x) := by
  rw [List.forall₂_iff_get] at h ⊢
  refine ⟨by rw [List.length_set]; exact h.1, fun j h1 h2 => ?_⟩
  simp only [List.get_eq_getElem]
  rw [List.getElem_set]
  split
  · rename_i hij
    subst hij
    exact hf h1
  · exact h.2 j h1 (by rw [List.length_set] at h2; exact h2)

theorem shiftLoop_verts {beta step : ℝ} {J : ℕ → ℕ → ℕ → ℕ → ℕ → K} {u : ℕ → ℝ} {l : List ℕ} {old L : List Vert}
    (hold : ∀ v ∈ old, v.nonInt = false ∧ 0 ≤ v.af) {s s' : Sub K} {k : ℕ} (hk : old.length ≤ k) {w w' : K} {p : ℕ}
    (hf : List.Forall₂ (OnlyTimeChanged beta step) old L) (hp : (interacting s.verts).Perm L)
    (hr : ShiftReady beta step old L s.verts l k)
    (e : Mgr.shiftLoop c J u l k s w p = .ok (s', w')) :
    ∃ L', List.Forall₂ (OnlyTimeChanged beta step) old L' ∧ (interacting s'.verts).Perm L' := by
  induction l generalizing s L k w p with
  | nil => cases e; exact ⟨L, hf, hp⟩
  | cons i l ih =>
    unfold Mgr.shiftLoop at e
    simp only [Res.bind_eq_ok, Res.get_eq_ok] at e
    obtain ⟨v, ev, v', ev', _, _, ⟨s1, o, ur⟩, em, _, _, e⟩ := e
    obtain ⟨⟨q1, q2, q3, q4, v1, v2, q5, q6, q7⟩, q8⟩ := hr
    obtain ⟨m1, m2, m3⟩ := metropolis_verts em
    rw [q3, q5] at ev
    obtain rfl : v1 = v := by injection ev
    rw [q6] at ev'
    obtain rfl : v2 = v' := by injection ev'
    cases ho : o.isSome
    · rw [ho] at m1
      simp only [Bool.false_eq_true, if_false] at m1
      refine ih (by omega) hf (by rw [m1]; exact hp) (by rw [m1]; exact q8) e
    · rw [ho] at m1
      simp only [if_true, List.zip_cons_cons, List.zip_nil_right, flipAll] at m1
      obtain ⟨hio, eio⟩ := List.getElem?_eq_some_iff.mp q5
      obtain ⟨his, eis⟩ := List.getElem?_eq_some_iff.mp (q3.trans q5)
      obtain ⟨hks, eks⟩ := List.getElem?_eq_some_iff.mp q6
      obtain ⟨hiL, eiL⟩ := List.getElem?_eq_some_iff.mp (q4.trans q5)
      have hv := hold v1 (eio ▸ List.getElem_mem _)
      obtain ⟨t, kk, id, e2, t1, t2, t3⟩ := q7
      -- the interacting vertices afterwards
      have h1 := interacting_hide his (by rw [eis]; exact hv.1)
      rw [eis] at h1
      have hks' : k < (s.verts.modify i (flipTo · (-1))).length := by rw [List.length_modify]; exact hks
      have eks' : (s.verts.modify i (flipTo · (-1)))[k] = v2 := by
        rw [List.getElem_modify, if_neg (by omega), eks]
      have h2 := interacting_show hks' (by rw [eks', e2]) (s := v1.af) (by omega)
      rw [eks'] at h2
      have hx : flipTo v2 v1.af = { v1 with time := t, uid := id } := by
        unfold flipTo
        rw [if_neg (by omega), e2]
        cases hh : v1
        simp only [hh] at hv ⊢
        rw [hv.1]
      rw [hx] at h2
      refine ih (k := k + 1) (L := L.set i { v1 with time := t, uid := id }) (by omega) (forall₂_set hf fun a => ?_) ?_ ?_ e
      · rw [eio]; exact Or.inr ⟨t, kk, id, rfl, t1, t2, t3⟩
      · rw [m1]
        refine h2.trans ?_
        refine List.Perm.trans ?_ (List.set_perm_cons_eraseIdx hiL _).symm
        refine List.Perm.cons _ ?_
        have h3 : (v1 :: interacting (s.verts.modify i (flipTo · (-1)))).Perm (v1 :: L.eraseIdx i) := by
          refine h1.symm.trans (hp.trans ?_)
          have := (List.getElem_cons_eraseIdx_perm hiL).symm
          rwa [eiL] at this
        exact h3.cons_inv
      · rw [m1]
        refine q8.mono (i := i) (k0 := k) (by omega) hk q1 q2 ?_ ?_
        · intro j hj1 hj2
          rw [List.getElem?_modify, List.getElem?_modify]
          simp [show ¬ k = j by omega, show ¬ i = j by omega]
        · intro j hj
          rw [List.getElem?_set_ne (by omega)]

theorem doShift_verts {m : Mgr} {J : ℕ → ℕ → ℕ → ℕ → ℕ → K} {u : ℕ → ℝ} (hu : ∀ k, 0 ≤ u k ∧ u k < 1) (hb : 0 < m.beta)
    (hs : 0 ≤ m.shiftStep) {fuel : ℕ} {s s' : Sub K} (haf : ∀ v ∈ s.verts, 0 ≤ v.af) {w : K} {p p' : ℕ}
    (e : m.doShift c J u fuel s p = .ok (s', w, p')) :
    (∃ L, List.Forall₂ (OnlyTimeChanged m.beta m.shiftStep) s.verts L ∧ s'.verts.Perm L) ∧
      (∀ v ∈ s.verts, v.nonInt = false) := by
  unfold Mgr.doShift at e
  simp only [Run.bind_eq_ok, Run.lift_eq_ok] at e
  obtain ⟨⟨l, p1⟩, el, new, en, s1, e1, ⟨s2, w2⟩, e2, s3, e3, e⟩ := e
  cases e
  obtain ⟨a1, a2, a3⟩ := initUpdate_verts e1
  obtain ⟨_, hnd, _⟩ := C32_distinct el
  have hr := shiftReady_start (rest := []) (n := s.uid) hnd (shiftNew_ok hu hb hs en)
  rw [List.append_nil, List.length_nil, Nat.add_zero, ← a1] at hr
  have h0 : List.Forall₂ (OnlyTimeChanged m.beta m.shiftStep) s.verts s.verts := by
    rw [List.forall₂_same]; exact fun v _ => Or.inl rfl
  have hp : (interacting s1.verts).Perm s.verts := by
    rw [a1, interacting_append, interacting_fresh, interacting_all a3, List.append_nil]
  obtain ⟨L, h1, h2⟩ := shiftLoop_verts (fun v hv => ⟨a3 v hv, haf v hv⟩) le_rfl h0 hp hr e2
  rw [(finalizeUpdate_verts e3).1]
  exact ⟨⟨L, h1, h2⟩, a3⟩

end CTInt
