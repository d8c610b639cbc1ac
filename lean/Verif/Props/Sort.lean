import Verif.Model.Sort
import Verif.Spec.Sort
import Mathlib.Tactic.Ring
import Mathlib.Tactic.Linarith
import Mathlib.GroupTheory.Perm.Fin

/-!
# C20, C21: sorting and permutation signs
-/

set_option linter.all false

namespace CTInt

/-! ## C21 -/

section bubble
variable {α : Type} [LinearOrder α]

/-- The comparison used by `permutation`. -/
def ltb (a b : α) : Bool := decide (a < b)

theorem bubblePass_cons_cons (a b : α) (l : List α) :
    bubblePass ltb (a :: b :: l) = if a < b then
      (a :: (bubblePass ltb (b :: l)).1, (bubblePass ltb (b :: l)).2.1, (bubblePass ltb (b :: l)).2.2) else
      (b :: (bubblePass ltb (a :: l)).1, -1 * (bubblePass ltb (a :: l)).2.1, true) := by
  rw [bubblePass]
  unfold ltb
  by_cases h : a < b <;> simp [h]

theorem bubblePass_perm : ∀ l : List α, (bubblePass ltb l).1.Perm l
  | [] => by simp [bubblePass]
  | [a] => by simp [bubblePass]
  | a :: b :: l => by
    rw [bubblePass_cons_cons]
    split
    · exact (bubblePass_perm (b :: l)).cons a
    · exact ((bubblePass_perm (a :: l)).cons b).trans (List.Perm.swap a b l)
termination_by l => l.length

theorem below_perm {l l' : List α} (h : l.Perm l') (a : α) :
    (l.filter fun b => decide (b < a)).length = (l'.filter fun b => decide (b < a)).length :=
  (h.filter _).length_eq

theorem bubblePass_inv : ∀ l : List α, l.Nodup →
    (bubblePass ltb l).2.1 * (-1) ^ inversions (bubblePass ltb l).1 = (-1) ^ inversions l ∧
    inversions (bubblePass ltb l).1 ≤ inversions l ∧
    ((bubblePass ltb l).2.2 = true → inversions (bubblePass ltb l).1 < inversions l)
  | [], _ => by simp [bubblePass, inversions]
  | [a], _ => by simp [bubblePass, inversions]
  | a :: b :: l, h => by
    rw [bubblePass_cons_cons]
    split
    · rename_i hab
      obtain ⟨h1, h2, h3⟩ := bubblePass_inv (b :: l) (List.nodup_cons.mp h).2
      have hp := below_perm (bubblePass_perm (b :: l)) a
      rw [show inversions (a :: b :: l) = ((b :: l).filter fun x => decide (x < a)).length + inversions (b :: l) from rfl,
        show inversions (a :: (bubblePass ltb (b :: l)).1) =
          ((bubblePass ltb (b :: l)).1.filter fun x => decide (x < a)).length + inversions (bubblePass ltb (b :: l)).1
          from rfl, hp]
      refine ⟨?_, by omega, fun e => by have := h3 e; omega⟩
      rw [pow_add, pow_add, ← h1]; ring
    · rename_i hab
      have hne : a ≠ b := fun e => by subst e; simp at h
      have hba : b < a := lt_of_le_of_ne (not_lt.mp hab) (Ne.symm hne)
      have hnd : (a :: l).Nodup := by
        rw [List.nodup_cons] at h ⊢
        exact ⟨fun q => h.1 (by simp [q]), (List.nodup_cons.mp h.2).2⟩
      obtain ⟨h1, h2, _⟩ := bubblePass_inv (a :: l) hnd
      have hp := below_perm (bubblePass_perm (a :: l)) b
      have e1 : inversions (a :: b :: l) = inversions (b :: a :: l) + 1 := by
        simp only [inversions, List.filter_cons, hba, decide_true, if_true, List.length_cons, hab,
          decide_false, Bool.false_eq_true, if_false]
        omega
      have e2 : inversions (b :: a :: l) = ((a :: l).filter fun x => decide (x < b)).length + inversions (a :: l) := rfl
      rw [show inversions (b :: (bubblePass ltb (a :: l)).1) =
          ((bubblePass ltb (a :: l)).1.filter fun x => decide (x < b)).length + inversions (bubblePass ltb (a :: l)).1
          from rfl, hp, e1, e2]
      refine ⟨?_, by omega, fun _ => by omega⟩
      rw [pow_add, pow_add, pow_add, ← h1]; ring
termination_by l => l.length

/-- A pass without exchange leaves the list, which is strictly increasing. -/
theorem bubblePass_done : ∀ l : List α, (bubblePass ltb l).2.2 = false →
    (bubblePass ltb l).1 = l ∧ (bubblePass ltb l).2.1 = 1 ∧ l.Pairwise (· < ·)
  | [], _ => by simp [bubblePass]
  | [a], _ => by simp [bubblePass]
  | a :: b :: l, h => by
    rw [bubblePass_cons_cons] at h ⊢
    by_cases hab : a < b
    · rw [if_pos hab] at h ⊢
      obtain ⟨h1, h2, h3⟩ := bubblePass_done (b :: l) h
      refine ⟨by rw [h1], h2, ?_⟩
      rw [List.pairwise_cons] at h3 ⊢
      refine ⟨?_, List.pairwise_cons.mpr h3⟩
      intro x hx
      rcases List.mem_cons.mp hx with rfl | hx
      · exact hab
      · exact hab.trans (h3.1 x hx)
    · rw [if_neg hab] at h
      cases h
termination_by l => l.length

theorem inversions_sorted {l : List α} (h : l.Pairwise (· < ·)) : inversions l = 0 := by
  induction l with
  | nil => rfl
  | cons a l ih =>
    rw [List.pairwise_cons] at h
    rw [inversions, ih h.2, List.filter_eq_nil_iff.mpr]
    · rfl
    · intro x hx
      simpa using (h.1 x hx).le

theorem bubbleLoop_spec (l : List α) (h : l.Nodup) (p : Int) {fuel : ℕ} (hf : inversions l < fuel) :
    bubbleLoop ltb fuel l p = some (p * (-1) ^ inversions l) := by
  induction fuel generalizing l p with
  | zero => omega
  | succ n ih =>
    obtain ⟨h1, h2, h3⟩ := bubblePass_inv l h
    unfold bubbleLoop
    cases he : (bubblePass ltb l).2.2 with
    | false =>
      obtain ⟨q1, q2, q3⟩ := bubblePass_done l he
      simp only [he, Bool.not_false, if_true, q2, inversions_sorted q3, pow_zero]
    | true =>
      simp only [he, Bool.not_true, Bool.false_eq_true, if_false]
      rw [ih _ ((bubblePass_perm l).nodup_iff.mpr h) _ (by have := h3 he; omega), mul_assoc, h1]

/-- C21: for pairwise distinct elements the sign is -1 to the number of inversions. -/
theorem C21_sign {l : List α} (h : l.Nodup) :
    ∃ F, ∀ fuel ≥ F, permutationSign ltb fuel l = some ((-1) ^ inversions l) := by
  refine ⟨inversions l + 1, fun fuel hf => ?_⟩
  unfold permutationSign
  rw [bubbleLoop_spec l h 1 (by omega), one_mul]

/-- C21: with a repeated element the call does not return. -/
theorem C21_diverges {l : List α} (h : ¬ l.Nodup) (fuel : ℕ) : permutationSign ltb fuel l = none := by
  unfold permutationSign
  generalize (1 : Int) = p
  induction fuel generalizing l p with
  | zero => rfl
  | succ n ih =>
    unfold bubbleLoop
    cases he : (bubblePass ltb l).2.2 with
    | false =>
      obtain ⟨_, _, q3⟩ := bubblePass_done l he
      exact absurd (q3.imp fun hab => ne_of_lt hab) h
    | true =>
      simp only [he, Bool.not_true, Bool.false_eq_true, if_false]
      exact ih (fun q => h ((bubblePass_perm l).nodup_iff.mp q)) _

example : ([3, 1, 2] : List ℕ).Nodup ∧ inversions ([3, 1, 2] : List ℕ) = 2 := by decide
example : ¬ ([1, 2, 1] : List ℕ).Nodup := by decide

end bubble

/-! ## C20 -/

section comb
variable {α : Type} {cmp : α → α → Bool} {N : ℕ}

/-- Positions as an element of the symmetric group. -/
theorem exchange_rearranged (v : ℕ → α) {i j : ℕ} (hi : i < N) (hj : j < N) :
    RearrangedBy N v (exchange v i j) (Equiv.swap ⟨i, hi⟩ ⟨j, hj⟩) := by
  intro k
  unfold exchange
  by_cases h1 : (k : ℕ) = i
  · have : k = ⟨i, hi⟩ := Fin.ext h1
    rw [if_pos h1, this, Equiv.swap_apply_left]
  · by_cases h2 : (k : ℕ) = j
    · have : k = ⟨j, hj⟩ := Fin.ext h2
      rw [if_neg h1, if_pos h2, this, Equiv.swap_apply_right]
    · rw [if_neg h1, if_neg h2, Equiv.swap_apply_of_ne_of_ne (fun e => h1 (by rw [e])) fun e => h2 (by rw [e])]

theorem RearrangedBy.trans {u v w : ℕ → α} {σ τ : Equiv.Perm (Fin N)} (h : RearrangedBy N u v σ)
    (h' : RearrangedBy N v w τ) : RearrangedBy N u w (σ * τ) := fun i => by
  rw [h' i]
  exact h (τ i)

/-- Number of inversions by position. -/
def invN (cmp : α → α → Bool) (N : ℕ) (v : ℕ → α) : ℕ :=
  ((Finset.range N ×ˢ Finset.range N).filter fun p : ℕ × ℕ => p.1 < p.2 ∧ cmp (v p.2) (v p.1) = true).card

theorem invN_exchange (hs : StrictWeak cmp) {v : ℕ → α} {i : ℕ} (hi : i + 1 < N)
    (h : cmp (v (i + 1)) (v i) = true) : invN cmp N (exchange v i (i + 1)) < invN cmp N v := by
  classical
  have hasym : cmp (v i) (v (i + 1)) = false := by
    by_contra hc
    have hc : cmp (v i) (v (i + 1)) = true := by simpa using hc
    have := hs.trans _ _ _ h hc
    rw [hs.irrefl] at this
    cases this
  let f : ℕ → ℕ := fun k => if k = i then i + 1 else if k = i + 1 then i else k
  have hex : ∀ k, exchange v i (i + 1) k = v (f k) := by
    intro k
    unfold exchange
    show _ = v (if k = i then i + 1 else if k = i + 1 then i else k)
    split_ifs <;> rfl
  have hinj : ∀ a b, f a = f b → a = b := by
    intro a b hab
    simp only [f] at hab
    split_ifs at hab <;> omega
  have hlt : ∀ a, a < N → f a < N := by
    intro a ha
    simp only [f]; split_ifs <;> omega
  unfold invN
  have hsub : (((Finset.range N ×ˢ Finset.range N).filter fun p : ℕ × ℕ =>
      p.1 < p.2 ∧ cmp (exchange v i (i + 1) p.2) (exchange v i (i + 1) p.1) = true).image
        fun p => (f p.1, f p.2)) ⊂
      (Finset.range N ×ˢ Finset.range N).filter fun p : ℕ × ℕ => p.1 < p.2 ∧ cmp (v p.2) (v p.1) = true := by
    rw [Finset.ssubset_iff_of_subset]
    · refine ⟨(i, i + 1), ?_, ?_⟩
      · simp only [Finset.mem_filter, Finset.mem_product, Finset.mem_range]
        exact ⟨⟨by omega, hi⟩, by omega, h⟩
      · simp only [Finset.mem_image, Finset.mem_filter, Finset.mem_product, Finset.mem_range, Prod.mk.injEq, not_exists,
          not_and]
        rintro ⟨a, b⟩ ⟨_, hab, _⟩ e1 e2
        simp only [f] at e1 e2 hab
        split_ifs at e1 e2 <;> omega
    · intro p hp
      simp only [Finset.mem_image, Finset.mem_filter, Finset.mem_product, Finset.mem_range] at hp ⊢
      obtain ⟨⟨a, b⟩, ⟨⟨ha, hb⟩, hab, hc⟩, rfl⟩ := hp
      rw [hex, hex] at hc
      simp only at ha hb hab hc ⊢
      refine ⟨⟨hlt a ha, hlt b hb⟩, ?_, hc⟩
      by_contra hn
      have : a = i ∧ b = i + 1 := by
        simp only [f] at hn
        split_ifs at hn <;> omega
      obtain ⟨rfl, rfl⟩ := this
      have e1 : f a = a + 1 := by simp [f]
      have e2 : f (a + 1) = a := by simp [f]
      rw [e1, e2, hasym] at hc
      cases hc
  have hc := Finset.card_lt_card hsub
  rwa [Finset.card_image_of_injOn] at hc
  intro p _ q _ e
  simp only [Prod.mk.injEq] at e
  exact Prod.ext (hinj _ _ e.1) (hinj _ _ e.2)

theorem StrictWeak.neg_trans (hs : StrictWeak cmp) {a b c : α} (h1 : cmp b a = false) (h2 : cmp c b = false) :
    cmp c a = false := by
  by_contra hc
  have hc : cmp c a = true := by simpa using hc
  have h3 : cmp a b = false := by
    by_contra h
    have h : cmp a b = true := by simpa using h
    have := hs.trans _ _ _ hc h
    rw [h2] at this; cases this
  have h4 : cmp b c = false := by
    by_contra h
    have h : cmp b c = true := by simpa using h
    have := hs.trans _ _ _ h hc
    rw [h1] at this; cases this
  have := (hs.incomp a b c h3 h1 h4 h2).2
  rw [this] at hc; cases hc

theorem sortedBy_of_adjacent (hs : StrictWeak cmp) {w : ℕ → α}
    (h : ∀ i, i + 1 < N → cmp (w (i + 1)) (w i) = false) : SortedBy cmp N w := by
  intro i j hij hj
  obtain ⟨d, rfl⟩ : ∃ d, j = i + 1 + d := ⟨j - (i + 1), by omega⟩
  clear hij
  induction d with
  | zero => exact h i hj
  | succ d ih => exact hs.neg_trans (ih (by omega)) (h (i + 1 + d) hj)

/-- What is known after the first `m` steps of a pass. -/
structure PassInv (cmp : α → α → Bool) (N gap m : ℕ) (v : ℕ → α) (count : ℕ) (s : Comb α) : Prop where
  rearr : ∃ σ : Equiv.Perm (Fin N), RearrangedBy N v s.v σ ∧ (Equiv.Perm.sign σ : ℤ) * (-1) ^ count = (-1) ^ s.count
  idle : s.swapped = false → s.v = v ∧ s.count = count ∧ ∀ i < m, cmp (v (i + gap)) (v i) = false
  dec : gap = 1 → s.swapped = true → invN cmp N s.v < invN cmp N v

theorem combPass_inv (hs : StrictWeak cmp) {gap m : ℕ} (hm : m ≤ N - gap) (v : ℕ → α) (count : ℕ) :
    PassInv cmp N gap m v count ((List.range m).foldl (combStep cmp gap) ⟨v, count, false⟩) := by
  induction m with
  | zero =>
    exact ⟨⟨1, fun i => rfl, by simp⟩, fun _ => ⟨rfl, rfl, fun i hi => by omega⟩, fun _ h => by cases h⟩
  | succ m ih =>
    have ih := ih (by omega)
    rw [List.range_succ, List.foldl_append]
    generalize (List.range m).foldl (combStep cmp gap) ⟨v, count, false⟩ = s at ih ⊢
    show PassInv cmp N gap (m + 1) v count (combStep cmp gap s m)
    unfold combStep
    cases hc : cmp (s.v (m + gap)) (s.v m) with
    | false =>
      simp only [Bool.false_eq_true, if_false]
      refine ⟨ih.rearr, fun h => ?_, ih.dec⟩
      obtain ⟨q1, q2, q3⟩ := ih.idle h
      refine ⟨q1, q2, fun i hi => ?_⟩
      by_cases hi' : i < m
      · exact q3 i hi'
      · have : i = m := by omega
        subst this
        rw [← q1]; exact hc
    | true =>
      simp only [if_true]
      have hg : gap ≠ 0 := by
        intro h0
        subst h0
        rw [Nat.add_zero, hs.irrefl] at hc
        cases hc
      have h1 : m < N := by omega
      have h2 : m + gap < N := by omega
      obtain ⟨σ, r1, r2⟩ := ih.rearr
      refine ⟨⟨σ * Equiv.swap ⟨m, h1⟩ ⟨m + gap, h2⟩, r1.trans (exchange_rearranged _ h1 h2), ?_⟩, fun h => (by cases h),
        fun h _ => ?_⟩
      · have hne : (⟨m, h1⟩ : Fin N) ≠ ⟨m + gap, h2⟩ := by
          intro e; rw [Fin.mk.injEq] at e; omega
        rw [Equiv.Perm.sign_mul, Equiv.Perm.sign_swap hne]
        show _ = (-1) ^ (s.count + 1)
        rw [pow_succ, ← r2]
        push_cast
        ring
      · subst h
        have hd := invN_exchange hs h2 hc
        show invN cmp N (exchange s.v m (m + 1)) < _
        cases hsw : s.swapped with
        | false => rw [(ih.idle hsw).1] at hd ⊢; exact hd
        | true => exact hd.trans (ih.dec rfl hsw)

/-- What a finished loop guarantees. -/
def CombDone (cmp : α → α → Bool) (N : ℕ) (v : ℕ → α) (count : ℕ) (w : ℕ → α) (c : ℕ) : Prop :=
  SortedBy cmp N w ∧ ∃ σ : Equiv.Perm (Fin N), RearrangedBy N v w σ ∧ (Equiv.Perm.sign σ : ℤ) * (-1) ^ count = (-1) ^ c

theorem CombDone.step {v v' w : ℕ → α} {c c' d : ℕ} {gap : ℕ} {m : ℕ} {s : Comb α} (h : PassInv cmp N gap m v c s)
    (h' : CombDone cmp N s.v s.count w d) : CombDone cmp N v c w d := by
  obtain ⟨σ, r1, r2⟩ := h.rearr
  obtain ⟨hs, τ, t1, t2⟩ := h'
  refine ⟨hs, σ * τ, r1.trans t1, ?_⟩
  rw [Equiv.Perm.sign_mul, ← t2, ← r2]
  push_cast
  ring

theorem combLoop_one (hs : StrictWeak cmp) (shrink : ℕ → ℕ) (h1 : shrink 1 ≤ 1) (hN : 1 ≤ N) (v : ℕ → α) (count : ℕ) :
    ∃ F w c, (∀ fuel ≥ F, combLoop shrink cmp N fuel 1 v count = some (.ok (w, c))) ∧ CombDone cmp N v count w c := by
  induction hk : invN cmp N v using Nat.strong_induction_on generalizing v count with
  | _ k ih =>
    have hp := combPass_inv hs (le_refl (N - 1)) v count (gap := 1)
    rw [show (List.range (N - 1)).foldl (combStep cmp 1) ⟨v, count, false⟩ = combPass cmp N 1 v count from rfl] at hp
    cases hsw : (combPass cmp N 1 v count).swapped with
    | false =>
      refine ⟨1, (combPass cmp N 1 v count).v, (combPass cmp N 1 v count).count, ?_, ?_⟩
      · intro fuel hf
        obtain ⟨f, rfl⟩ : ∃ f, fuel = f + 1 := ⟨fuel - 1, by omega⟩
        unfold combLoop
        rw [if_neg (not_not.mpr hN)]
        simp only [hsw, Bool.not_false, BEq.rfl, Bool.and_self, if_true]
      · obtain ⟨q1, q2, q3⟩ := hp.idle hsw
        refine ⟨?_, hp.rearr⟩
        rw [q1]
        exact sortedBy_of_adjacent hs fun i hi => q3 i (by omega)
    | true =>
      have hd := hp.dec rfl hsw
      obtain ⟨F, w, c, e, hc⟩ := ih _ (by rw [← hk]; exact hd) (combPass cmp N 1 v count).v
        (combPass cmp N 1 v count).count rfl
      refine ⟨F + 1, w, c, ?_, CombDone.step (v' := v) (c' := 0) hp hc⟩
      intro fuel hf
      obtain ⟨f, rfl⟩ : ∃ f, fuel = f + 1 := ⟨fuel - 1, by omega⟩
      unfold combLoop
      rw [if_neg (not_not.mpr hN)]
      simp only [hsw, Bool.not_true, Bool.false_and, Bool.false_eq_true, if_false]
      rw [show max (shrink 1) 1 = 1 by omega]
      exact e f (by omega)

theorem combLoop_spec (hs : StrictWeak cmp) {shrink : ℕ → ℕ} (hle : ∀ n, shrink n ≤ n) (hlt : ∀ n, 2 ≤ n → shrink n < n)
    (hN : 1 ≤ N) {gap : ℕ} (hg : gap ≤ N) (v : ℕ → α) (count : ℕ) :
    ∃ F w c, (∀ fuel ≥ F, combLoop shrink cmp N fuel gap v count = some (.ok (w, c))) ∧ CombDone cmp N v count w c := by
  induction gap using Nat.strong_induction_on generalizing v count with
  | _ gap ih =>
    by_cases h1 : gap = 1
    · subst h1; exact combLoop_one hs shrink (hle 1) hN v count
    · have hp := combPass_inv hs (le_refl (N - gap)) v count
      rw [show (List.range (N - gap)).foldl (combStep cmp gap) ⟨v, count, false⟩ = combPass cmp N gap v count from rfl] at hp
      have key : ∃ F w c, (∀ fuel ≥ F, combLoop shrink cmp N fuel (max (shrink gap) 1) (combPass cmp N gap v count).v
          (combPass cmp N gap v count).count = some (.ok (w, c))) ∧
          CombDone cmp N (combPass cmp N gap v count).v (combPass cmp N gap v count).count w c := by
        by_cases h0 : gap = 0
        · subst h0
          have := hle 0
          rw [show max (shrink 0) 1 = 1 by omega]
          exact combLoop_one hs shrink (hle 1) hN _ _
        · have := hlt gap (by omega)
          exact ih _ (by omega) (by omega) _ _
      obtain ⟨F, w, c, e, hc⟩ := key
      refine ⟨F + 1, w, c, ?_, CombDone.step (v' := v) (c' := 0) hp hc⟩
      intro fuel hf
      obtain ⟨f, rfl⟩ : ∃ f, fuel = f + 1 := ⟨fuel - 1, by omega⟩
      unfold combLoop
      rw [if_neg (by simpa using hg)]
      have hb : (gap == 1) = false := by simpa using h1
      simp only [hb, Bool.and_false, Bool.false_eq_true, if_false]
      exact e f (by omega)

theorem parity_sign (c : ℕ) : (-1 : ℤ) ^ c = if c % 2 = 0 then 1 else -1 := by
  split
  · exact Even.neg_one_pow (Nat.even_iff.mpr (by assumption))
  · exact Odd.neg_one_pow (Nat.odd_iff.mpr (by omega))

/-- C20 (partial): for every strict weak order and every non-empty input the sort ends, leaves a sorted rearrangement
    and returns the sign of a permutation it applied.  `shrink n` stands for `int(n/1.3)`.
    Missing: the empty input, see `C20_empty_violation`. -/
theorem C20_comb_sort_partial (hs : StrictWeak cmp) {shrink : ℕ → ℕ} (hle : ∀ n, shrink n ≤ n)
    (hlt : ∀ n, 2 ≤ n → shrink n < n) (hN : 1 ≤ N) (v : ℕ → α) :
    ∃ F w σ, (∀ fuel ≥ F, combSort shrink cmp fuel v N = some (.ok (w, (Equiv.Perm.sign σ : ℤ)))) ∧
      RearrangedBy N v w σ ∧ SortedBy cmp N w := by
  obtain ⟨F, w, c, e, hS, σ, r1, r2⟩ := combLoop_spec hs hle hlt hN (hle N) v 0
  refine ⟨F, w, σ, fun fuel hf => ?_, r1, hS⟩
  unfold combSort
  rw [e fuel hf]
  simp only [Option.some.injEq, Res.ok.injEq, Prod.mk.injEq, true_and]
  rw [← parity_sign, ← r2, pow_zero, mul_one]

/-- If the elements are pairwise distinct and the order is total, the permutation of C20 is the only one that sorts. -/
theorem C20_unique (hs : StrictWeak cmp) {v w w' : ℕ → α} {σ σ' : Equiv.Perm (Fin N)}
    (htot : ∀ i < N, ∀ j < N, i ≠ j → cmp (v i) (v j) = true ∨ cmp (v j) (v i) = true)
    (h : RearrangedBy N v w σ) (h1 : SortedBy cmp N w) (h' : RearrangedBy N v w' σ') (h1' : SortedBy cmp N w') :
    σ = σ' := by
  -- `σ'⁻¹ * σ` is strictly increasing
  have key : ∀ {u : ℕ → α} {ρ : Equiv.Perm (Fin N)}, RearrangedBy N v u ρ → SortedBy cmp N u → ∀ i j : Fin N, i < j →
      cmp (v (ρ i)) (v (ρ j)) = true := by
    intro u ρ hr hsrt i j hij
    have h2 := hsrt i j hij j.2
    rw [hr i, hr j] at h2
    rcases htot (ρ i) (ρ i).2 (ρ j) (ρ j).2 (fun e => absurd (ρ.injective (Fin.ext e)) (ne_of_lt hij)) with q | q
    · exact q
    · rw [h2] at q; cases q
  have hmono : StrictMono (fun i : Fin N => σ'.symm (σ i)) := by
    intro i j hij
    by_contra hn
    have hle : σ'.symm (σ j) ≤ σ'.symm (σ i) := not_lt.mp hn
    have hne : σ'.symm (σ j) ≠ σ'.symm (σ i) := fun e =>
      absurd (σ.injective (σ'.symm.injective e)) (ne_of_gt hij)
    have a1 := key h' h1' _ _ (lt_of_le_of_ne hle hne)
    rw [Equiv.apply_symm_apply, Equiv.apply_symm_apply] at a1
    have a2 := key h h1 _ _ hij
    have := hs.trans _ _ _ a1 a2
    rw [hs.irrefl] at this
    cases this
  have hid : ∀ i : Fin N, σ'.symm (σ i) = i := by
    have hs : Function.Surjective (fun i : Fin N => σ'.symm (σ i)) := (σ'.symm.surjective).comp σ.surjective
    have := hmono.orderIsoOfSurjective _ hs
    intro i
    have h2 : (hmono.orderIsoOfSurjective _ hs) = OrderIso.refl (Fin N) := Subsingleton.elim _ _
    have h3 : (hmono.orderIsoOfSurjective _ hs) i = i := by rw [h2]; rfl
    exact h3
  ext i
  have := hid i
  rw [Equiv.symm_apply_eq] at this
  rw [this]

/-- C20, violation: on an empty range an iterator is advanced by one from the end. -/
theorem C20_empty_violation {shrink : ℕ → ℕ} (h0 : shrink 0 = 0) (v : ℕ → α) {fuel : ℕ} (hf : 2 ≤ fuel) :
    combSort shrink cmp fuel v 0 = some .ub := by
  obtain ⟨f, rfl⟩ : ∃ f, fuel = f + 2 := ⟨fuel - 2, by omega⟩
  unfold combSort
  rw [h0]
  simp [combLoop, h0]

/-- The hypotheses on `shrink` hold for the exact quotient. -/
example : (∀ n : ℕ, 10 * n / 13 ≤ n) ∧ (∀ n : ℕ, 2 ≤ n → 10 * n / 13 < n) ∧ 10 * 0 / 13 = 0 :=
  ⟨fun n => by omega, fun n h => by omega, rfl⟩

/-- Comparing natural numbers is a strict weak order. -/
example : StrictWeak fun a b : ℕ => decide (a < b) :=
  ⟨fun a => by simp, fun a b c h1 h2 => by simp only [decide_eq_true_eq] at *; omega,
    fun a b c h1 h2 h3 h4 => by simp only [decide_eq_false_iff_not] at *; omega⟩

end comb
end CTInt
