import Verif.Model.Util
import Mathlib.Data.Nat.Factorial.Basic
import Mathlib.Tactic.Ring
import Mathlib.Tactic.Linarith

/-!
# Helpers: C87
-/

set_option linter.all false

namespace CTInt

theorem foldl_mul_range' (a n r : ℕ) : (List.range' a n).foldl (fun r i => r * i) r = r * (a + n - 1).descFactorial n := by
  induction n generalizing r with
  | zero => simp
  | succ n ih =>
    rw [List.range'_concat, List.foldl_append, ih]
    simp only [List.foldl_cons, List.foldl_nil, Nat.one_mul]
    rw [show a + (n + 1) - 1 = a + n by omega]
    rcases Nat.eq_zero_or_pos (a + n) with h | h
    · obtain ⟨rfl, rfl⟩ : a = 0 ∧ n = 0 := by omega
      simp
    · obtain ⟨m, hm⟩ : ∃ m, a + n = m + 1 := ⟨a + n - 1, by omega⟩
      rw [hm, Nat.succ_descFactorial_succ, Nat.add_sub_cancel]
      ring

/-- C87: the number of ways to choose `k` of `N` things one after the other.  (Partial: `k ≤ N + 1`, see the violation.) -/
theorem C87_permutation_partial {N k : ℕ} (hk : 0 < k) (hN : N + 1 < 2 ^ 64) (h : k ≤ N + 1) :
    partialFactorial N k = .ok (N.descFactorial k) := by
  unfold partialFactorial
  rw [Res.assert_true hk]
  simp only [Res.bind_ok, Res.pure_eq]
  rw [foldl_mul_range', Nat.one_mul]
  have e : (N + 2 ^ 64 - k % 2 ^ 64 + 1) % 2 ^ 64 = N + 1 - k := by
    rw [Nat.mod_eq_of_lt (by omega : k < 2 ^ 64), show N + 2 ^ 64 - k + 1 = (N + 1 - k) + 2 ^ 64 by omega, Nat.add_mod_right,
      Nat.mod_eq_of_lt (by omega)]
  rw [e, show N + 1 - (N + 1 - k) = k by omega]
  congr 2
  omega

example : partialFactorial 5 2 = .ok 20 := C87_permutation_partial (by norm_num) (by norm_num) (by norm_num)

/-- C87 fails if more than `N + 1` things are chosen of `N`: the result is 1, there is no such way. -/
theorem C87_permutation_violation {N k : ℕ} (hN : 2 * N + 2 < 2 ^ 64) (h : N + 2 ≤ k) (hk : k + N < 2 ^ 64) :
    partialFactorial N k = .ok 1 ∧ N.descFactorial k = 0 := by
  refine ⟨?_, Nat.descFactorial_eq_zero_iff_lt.mpr (by omega)⟩
  unfold partialFactorial
  rw [Res.assert_true (by omega)]
  simp only [Res.bind_ok, Res.pure_eq]
  rw [Nat.mod_eq_of_lt (by omega : k < 2 ^ 64), Nat.mod_eq_of_lt (by omega : N + 2 ^ 64 - k + 1 < 2 ^ 64)]
  rw [show N + 1 - (N + 2 ^ 64 - k + 1) = 0 by omega]
  rfl

/-- C87: removal keeps the elements at the other positions, in their order. -/
theorem C87_remove {α : Type} (l : List α) (del : List ℤ) :
    removeElements del 0 l = (l.zipIdx.filter fun x => decide ((x.2 : ℤ) ∉ del)).map Prod.fst := by
  have key : ∀ i, removeElements del i l = ((l.zipIdx i).filter fun x => decide ((x.2 : ℤ) ∉ del)).map Prod.fst := by
    induction l with
    | nil => intro i; rfl
    | cons x l ih =>
      intro i
      rw [removeElements, List.zipIdx_cons, List.filter_cons]
      by_cases h : (i : ℤ) ∈ del
      · rw [if_pos h, ih]
        simp [h]
      · rw [if_neg h, ih]
        simp [h]
  exact key 0

theorem foldl_max_le {α : Type} (f : α → ℝ) (l : List α) (d eps : ℝ) :
    l.foldl (fun d p => max d (f p)) d ≤ eps ↔ d ≤ eps ∧ ∀ p ∈ l, f p ≤ eps := by
  induction l generalizing d with
  | nil => simp
  | cons p l ih =>
    rw [List.foldl_cons, ih, max_le_iff]
    simp [and_assoc]

/-- C87: the reported deviation is at most `eps` exactly if every element is that close to the identity's; a matrix that is not
    square is refused. -/
theorem C87_identity {K : Type} [RCLike K] (M : DMat K) :
    (M.cols ≠ M.rows → isIdentity M = .throw .runtimeError) ∧
    (M.cols = M.rows → ∃ d, isIdentity M = .ok d ∧ 0 ≤ d ∧
      ∀ eps, 0 ≤ eps → (d ≤ eps ↔ ∀ p < M.rows, ∀ q < M.cols, ‖M.val p q - if p = q then 1 else 0‖ ≤ eps)) := by
  constructor
  · intro h
    unfold isIdentity
    rw [Res.throwIf_true h]
    rfl
  · intro h
    unfold isIdentity
    rw [Res.throwIf_false (by simpa using h)]
    have hin : ∀ (q : ℕ) (d : ℝ), (List.range M.cols).foldl (fun d p =>
        if p = q then max d ‖M.val p q - 1‖ else max d ‖M.val p q‖) d =
        (List.range M.cols).foldl (fun d p => max d ‖M.val p q - if p = q then 1 else 0‖) d := by
      intro q d
      congr 1
      funext d p
      by_cases w : p = q <;> simp [w]
    have hout : ∀ (l : List ℕ) (d eps : ℝ), l.foldl (fun d q => (List.range M.cols).foldl (fun d p =>
        max d ‖M.val p q - if p = q then 1 else 0‖) d) d ≤ eps ↔
        d ≤ eps ∧ ∀ q ∈ l, ∀ p < M.cols, ‖M.val p q - if p = q then 1 else 0‖ ≤ eps := by
      intro l
      induction l with
      | nil => intro d eps; simp
      | cons q l ih =>
        intro d eps
        rw [List.foldl_cons, ih, foldl_max_le]
        simp only [List.mem_range, List.mem_cons, forall_eq_or_imp, and_assoc]
    have hnn : ∀ (l : List ℕ) (d : ℝ), d ≤ l.foldl (fun d q => (List.range M.cols).foldl (fun d p =>
        max d ‖M.val p q - if p = q then 1 else 0‖) d) d := fun l d => ((hout l d _).mp le_rfl).1
    simp only [hin]
    refine ⟨_, rfl, hnn _ _, fun eps he => ?_⟩
    rw [hout]
    simp only [List.mem_range]
    constructor
    · intro w p hp q hq
      exact w.2 q hq p (by omega)
    · intro w
      exact ⟨he, fun q hq p hp => w p (by omega) q hq⟩

/-- C87: the order of operator times is a strict total order that puts earlier times first; equal times are told apart by the
    small index. -/
theorem C87_order :
    (∀ a : OpTime, ¬ a.before a) ∧ (∀ a b c : OpTime, a.before b → b.before c → a.before c) ∧
    (∀ a b : OpTime, a.before b ∨ a = b ∨ b.before a) ∧ (∀ a b : OpTime, a.same b ↔ a = b) ∧
    (∀ a b : OpTime, a.time < b.time → a.before b) ∧ ∀ a b : OpTime, a.time = b.time → (a.before b ↔ a.small < b.small) := by
  refine ⟨fun a => by simp [OpTime.before], fun a b c => ?_, fun a b => ?_, fun a b => ?_, fun a b h => ?_, fun a b h => ?_⟩
  · unfold OpTime.before
    split_ifs with h1 h2 h3 h3 h3 h3
    all_goals intro x y
    all_goals first | omega | linarith | skip
    · exact absurd (h1.trans h2) h3
  · unfold OpTime.before
    by_cases h : a.time = b.time
    · rw [if_pos h, if_pos h.symm]
      rcases lt_trichotomy a.small b.small with w | w | w
      · exact Or.inl w
      · exact Or.inr (Or.inl (OpTime.ext h w))
      · exact Or.inr (Or.inr w)
    · rw [if_neg h, if_neg (Ne.symm h)]
      rcases lt_or_gt_of_ne h with w | w
      · exact Or.inl w
      · exact Or.inr (Or.inr w)
  · constructor
    · intro h; exact OpTime.ext h.1 h.2
    · rintro rfl; exact ⟨rfl, rfl⟩
  · unfold OpTime.before; rw [if_neg h.ne]; exact h
  · unfold OpTime.before; rw [if_pos h]

end CTInt
