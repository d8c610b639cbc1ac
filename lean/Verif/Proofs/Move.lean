import Verif.Proofs.Perm
import Verif.Spec.Deletion

/-!
# Moving rows to the end in order, and its parity (helper lemmas for C13)
-/

set_option linter.all false

open Matrix

namespace CTInt

variable {K : Type} [Field K]

/-- Parity of a list of exchanges. -/
def swapSign : List (ℕ × ℕ) → K
  | [] => 1
  | p :: l => (if p.1 = p.2 then 1 else -1) * swapSign l

theorem detN_rows_permOf {n : ℕ} {g : ℕ → ℕ → K} {l : List (ℕ × ℕ)}
    (hl : ∀ p ∈ l, p.1 < n ∧ p.2 < n) :
    detN n (fun i j => g (permOf l i) j) = swapSign l * detN n g := by
  induction l generalizing g with
  | nil => simp [swapSign]
  | cons p l ih =>
    have hp := hl p (by simp)
    have h1 := ih (g := fun i j => g (Equiv.swap p.1 p.2 i) j) (fun q hq => hl q (by simp [hq]))
    have e : (fun i j => g (permOf (p :: l) i) j) = fun i j =>
        (fun i j => g (Equiv.swap p.1 p.2 i) j) (permOf l i) j := by
      funext i j; rw [permOf_cons_apply]
    rw [e, h1, swapSign]
    by_cases hab : p.1 = p.2
    · rw [hab, Equiv.swap_self]; simp
    · rw [detN_swap_rows hp.1 hp.2 hab, if_neg hab]; ring

theorem detN_cols_permOf {n : ℕ} {g : ℕ → ℕ → K} {l : List (ℕ × ℕ)}
    (hl : ∀ p ∈ l, p.1 < n ∧ p.2 < n) :
    detN n (fun i j => g i (permOf l j)) = swapSign l * detN n g := by
  have h := detN_rows_permOf (g := fun i j => g j i) hl
  have t : ∀ f : ℕ → ℕ → K, detN n (fun i j => f j i) = detN n f := by
    intro f
    unfold detN
    rw [← Matrix.det_transpose]; rfl
  rw [t g, t (fun i j => g i (permOf l j))] at h
  exact h

theorem IsInvOf.rows_permOf {n : ℕ} {X : DMat K} {g : ℕ → ℕ → K} {l : List (ℕ × ℕ)}
    (hl : ∀ p ∈ l, p.1 < n ∧ p.2 < n) (h : IsInvOf X n g) :
    IsInvOf ⟨n, n, fun i j => X.val i (permOf l j)⟩ n (fun i j => g (permOf l i) j) := by
  induction l generalizing X g with
  | nil => exact ⟨rfl, rfl, h.2.2⟩
  | cons p l ih =>
    have hp := hl p (by simp)
    have := ih (fun q hq => hl q (by simp [hq])) (h.swapCol hp.1 hp.2)
    refine (this.congr fun i hi j hj => by rw [permOf_cons_apply]).congr_left rfl rfl ?_
    intro i hi j hj
    simp only [permOf_cons_apply]; rfl

theorem IsInvOf.cols_permOf {n : ℕ} {X : DMat K} {g : ℕ → ℕ → K} {l : List (ℕ × ℕ)}
    (hl : ∀ p ∈ l, p.1 < n ∧ p.2 < n) (h : IsInvOf X n g) :
    IsInvOf ⟨n, n, fun i j => X.val (permOf l i) j⟩ n (fun i j => g i (permOf l j)) := by
  induction l generalizing X g with
  | nil => exact ⟨rfl, rfl, h.2.2⟩
  | cons p l ih =>
    have hp := hl p (by simp)
    have := ih (fun q hq => hl q (by simp [hq])) (h.swapRow hp.1 hp.2)
    refine (this.congr fun i hi j hj => by rw [permOf_cons_apply]).congr_left rfl rfl ?_
    intro i hi j hj
    simp only [permOf_cons_apply]; rfl

/-- Exchanges `(r,r+1), (r+1,r+2), ..., (r+k-1,r+k)`. -/
def cycList (r : ℕ) : ℕ → List (ℕ × ℕ)
  | 0 => []
  | k + 1 => cycList r k ++ [(r + k, r + k + 1)]

theorem cycList_apply (r k i : ℕ) : permOf (cycList r k) i =
    if i < r then i else if i < r + k then i + 1 else if i = r + k then r else i := by
  induction k generalizing i with
  | zero => simp only [cycList, permOf_nil, Equiv.Perm.one_apply]; split_ifs <;> omega
  | succ k ih =>
    rw [cycList, permOf_append, Equiv.Perm.mul_apply, permOf_cons_apply, permOf_nil,
      Equiv.Perm.one_apply, ih]
    simp only [Equiv.swap_apply_def]
    split_ifs <;> omega

theorem cycList_bound {r k n : ℕ} (h : r + k < n) : ∀ p ∈ cycList r k, p.1 < n ∧ p.2 < n := by
  induction k with
  | zero => simp [cycList]
  | succ k ih =>
    intro p hp
    simp only [cycList, List.mem_append, List.mem_singleton] at hp
    rcases hp with hp | rfl
    · exact ih (by omega) p hp
    · constructor <;> simp <;> omega

theorem swapSign_append (l l' : List (ℕ × ℕ)) :
    (swapSign (l ++ l') : K) = swapSign l * swapSign l' := by
  induction l with
  | nil => simp [swapSign]
  | cons p l ih => simp [swapSign, ih, mul_assoc]

theorem swapSign_cycList (r k : ℕ) : (swapSign (cycList r k) : K) = (-1) ^ k := by
  induction k with
  | zero => simp [cycList, swapSign]
  | succ k ih =>
    rw [cycList, swapSign_append, ih, pow_succ]
    simp [swapSign]

/-- Exchanges that move a *descending* list of rows to the end, keeping all orders. -/
def mvList : List ℕ → ℕ → List (ℕ × ℕ)
  | [], _ => []
  | p :: ps, n => cycList p (n - 1 - p) ++ mvList ps (n - 1)

/-- Parity of the ordered move. -/
def mvSign : List ℕ → ℕ → K
  | [], _ => 1
  | p :: ps, n => (-1) ^ (n - 1 - p) * mvSign ps (n - 1)

theorem swapSign_mvList (ps : List ℕ) (n : ℕ) : (swapSign (mvList ps n) : K) = mvSign ps n := by
  induction ps generalizing n with
  | nil => rfl
  | cons p ps ih => rw [mvList, swapSign_append, swapSign_cycList, ih, mvSign]

/-- Skipping one position. -/
def skip (p i : ℕ) : ℕ := if i < p then i else i + 1

theorem filter_ne_range {n p : ℕ} (hp : p ≤ n) :
    (List.range (n + 1)).filter (fun k => k ≠ p) = (List.range n).map (skip p) := by
  induction n, hp using Nat.le_induction with
  | base =>
    rw [List.range_succ, List.filter_append]
    have h1 : (List.range p).filter (fun k => k ≠ p) = List.range p := by
      rw [List.filter_eq_self]; intro a ha; simp at ha ⊢; omega
    have h2 : (List.range p).map (skip p) = List.range p := by
      conv_rhs => rw [← List.map_id (List.range p)]
      apply List.map_congr_left
      intro a ha; simp at ha; simp [skip, ha]
    rw [h1, h2]; simp
  | succ n hn ih =>
    rw [List.range_succ (n := n + 1), List.filter_append, ih, List.range_succ (n := n), List.map_append]
    congr 1
    have : n + 1 ≠ p := by omega
    simp [this, skip]; omega

theorem kept_cons {n p : ℕ} {ps : List ℕ} (hp : p ≤ n) (hs : ∀ q ∈ ps, q < p) :
    kept (n + 1) (p :: ps) = (kept n ps).map (skip p) := by
  unfold kept
  have e : (fun k => decide (k ∉ p :: ps)) = fun k => (decide (k ∉ ps) && decide (k ≠ p)) := by
    funext k; simp [not_or, Bool.and_comm]
  rw [e, ← List.filter_filter, filter_ne_range hp, List.filter_map]
  congr 1
  apply List.filter_congr
  intro k _
  simp only [Function.comp, skip]
  split_ifs with h
  · rfl
  · have h1 : k ∉ ps := fun hm => by have := hs k hm; omega
    have h2 : k + 1 ∉ ps := fun hm => by have := hs _ hm; omega
    simp [h1, h2]

theorem kept_length {ps : List ℕ} {N : ℕ} (hs : ps.Pairwise (· > ·))
    (hb : ∀ p ∈ ps, p < N + ps.length) : (kept (N + ps.length) ps).length = N := by
  induction ps with
  | nil => simp [kept]
  | cons p ps ih =>
    rw [List.pairwise_cons] at hs
    have hp : p < N + ps.length + 1 := by have := hb p (by simp); simp at this; omega
    rw [show N + (p :: ps).length = N + ps.length + 1 by simp; omega,
      kept_cons (by omega) hs.1, List.length_map]
    exact ih hs.2 fun q hq => by have := hs.1 q hq; omega

theorem mvList_bound {ps : List ℕ} {n : ℕ} (hs : ps.Pairwise (· > ·)) (hb : ∀ p ∈ ps, p < n) :
    ∀ q ∈ mvList ps n, q.1 < n ∧ q.2 < n := by
  induction ps generalizing n with
  | nil => simp [mvList]
  | cons p ps ih =>
    rw [List.pairwise_cons] at hs
    have hp := hb p (by simp)
    intro q hq
    simp only [mvList, List.mem_append] at hq
    rcases hq with hq | hq
    · exact cycList_bound (by omega) q hq
    · have := ih (n := n - 1) hs.2 (fun q hq => by have := hs.1 q hq; omega) q hq
      omega

/-- The ordered move: removed rows end up in the last slots (ascending), the others are `kept`. -/
theorem permOf_mvList {ps : List ℕ} {N : ℕ} (hs : ps.Pairwise (· > ·))
    (hb : ∀ p ∈ ps, p < N + ps.length) :
    (∀ j (hj : j < ps.length), permOf (mvList ps (N + ps.length)) (N + ps.length - 1 - j) = ps[j]) ∧
    (∀ i < N, permOf (mvList ps (N + ps.length)) i = keptAt (N + ps.length) ps i) := by
  induction ps with
  | nil =>
    refine ⟨by simp, fun i hi => ?_⟩
    simp [mvList, keptAt, kept, hi]
  | cons p ps ih =>
    rw [List.pairwise_cons] at hs
    have hp : p < N + ps.length + 1 := by have := hb p (by simp); simp at this; omega
    have hb' : ∀ q ∈ ps, q < N + ps.length := by
      intro q hq
      have h1 := hs.1 q hq
      omega
    obtain ⟨ih1, ih2⟩ := ih hs.2 hb'
    have e : N + (p :: ps).length = N + ps.length + 1 := by simp; omega
    have e' : N + ps.length + 1 - 1 = N + ps.length := by omega
    have hbd := mvList_bound (n := N + ps.length) hs.2 hb'
    constructor
    · intro j hj
      rw [e]
      simp only [mvList, permOf_append, Equiv.Perm.mul_apply, e']
      cases j with
      | zero =>
        rw [Nat.sub_zero, permOf_ge hbd (le_refl _), cycList_apply]
        simp only [List.getElem_cons_zero]
        split_ifs <;> omega
      | succ j =>
        have hj' : j < ps.length := by simpa using hj
        have hq := hs.1 ps[j] (List.getElem_mem _)
        rw [show N + ps.length - (j + 1) = N + ps.length - 1 - j by omega, ih1 j hj', cycList_apply]
        simp only [List.getElem_cons_succ]
        rw [if_pos (by omega)]
    · intro i hi
      rw [e]
      simp only [mvList, permOf_append, Equiv.Perm.mul_apply, e']
      have hlt := permOf_lt hbd (show i < N + ps.length by omega)
      rw [cycList_apply]
      have hk : i < (kept (N + ps.length) ps).length := by rw [kept_length hs.2 hb']; exact hi
      rw [keptAt, kept_cons (by omega) hs.1, List.getD_eq_getElem _ _ (by simpa using hk),
        List.getElem_map]
      rw [ih2 i hi, keptAt, List.getD_eq_getElem _ _ hk] at hlt ⊢
      rw [skip]
      split_ifs <;> omega

/-- Parities of the row move and of the column move combine to the parity of the total distance. -/
theorem mvSign_mul {rs cs : List ℕ} {n : ℕ} (hlen : rs.length = cs.length)
    (hr : rs.Pairwise (· > ·)) (hc : cs.Pairwise (· > ·)) (hrb : ∀ r ∈ rs, r < n)
    (hcb : ∀ c ∈ cs, c < n) :
    (mvSign rs n * mvSign cs n : K) =
      (-1) ^ ((List.zipWith (fun (r c : ℕ) => ((r : ℤ) - (c : ℤ)).natAbs) rs cs).sum) := by
  induction rs generalizing cs n with
  | nil =>
    cases cs with
    | nil => simp [mvSign]
    | cons c cs => simp at hlen
  | cons r rs ih =>
    cases cs with
    | nil => simp at hlen
    | cons c cs =>
      rw [List.pairwise_cons] at hr hc
      have h1 := hrb r (by simp)
      have h2 := hcb c (by simp)
      have := ih (n := n - 1) (by simpa using hlen) hr.2 hc.2
        (fun q hq => by have := hr.1 q hq; omega) (fun q hq => by have := hc.1 q hq; omega)
      rw [List.zipWith_cons_cons, List.sum_cons, pow_add, ← this, mvSign, mvSign]
      have e : ((-1 : K)) ^ (n - 1 - r) * (-1) ^ (n - 1 - c) =
          (-1) ^ (((r : ℤ) - (c : ℤ)).natAbs) := by
        rw [← pow_add]
        rcases le_total r c with h | h
        · rw [show n - 1 - r + (n - 1 - c) = ((r : ℤ) - (c : ℤ)).natAbs + 2 * (n - 1 - c) by omega,
            pow_add, pow_mul]; simp
        · rw [show n - 1 - r + (n - 1 - c) = ((r : ℤ) - (c : ℤ)).natAbs + 2 * (n - 1 - r) by omega,
            pow_add, pow_mul]; simp
      rw [← e]; ring

end CTInt
