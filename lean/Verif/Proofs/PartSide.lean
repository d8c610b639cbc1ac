import Verif.Spec.Partitioned
import Verif.Proofs.DetSide
import Mathlib.Tactic.Ring
import Mathlib.Tactic.Linarith

/-!
# The members for one kind of operators in the partitioned determinant matrix (helper lemmas for C27, C60)
-/

set_option linter.all false

namespace CTInt

variable {T X : Type} [LinearOrder T]

/-- The table of the values of `g`. -/
def tab {Y : Type} (n : ℕ) (g : ℕ → Y) : List Y := (List.range n).map g

section
variable {Y : Type} {n k : ℕ} {g : ℕ → Y}

theorem tab_length : (tab n g).length = n := by simp [tab]

theorem tab_getElem? (h : k < n) : (tab n g)[k]? = some (g k) := by simp [tab, h]

theorem tab_get (h : k < n) : Res.get (tab n g) k = .ok (g k) := by
  unfold Res.get; rw [tab_getElem? h]

theorem tab_congr {g' : ℕ → Y} (h : ∀ k < n, g k = g' k) : tab n g = tab n g' :=
  List.map_congr_left fun k hk => h k (List.mem_range.mp hk)

theorem tab_set (v : Y) : (tab n g).set k v = tab n (fun i => if i = k then v else g i) := by
  refine List.ext_getElem? fun i => ?_
  rw [List.getElem?_set, tab_length]
  by_cases hi : i < n
  · rw [tab_getElem? hi, tab_getElem? hi]
    by_cases h : k = i
    · subst h; simp [hi]
    · rw [if_neg h, if_neg (Ne.symm h)]
  · rw [List.getElem?_eq_none (by rw [tab_length]; omega), List.getElem?_eq_none (by rw [tab_length]; omega)]
    split_ifs <;> first | rfl | omega

theorem tab_take (h : k ≤ n) : (tab n g).take k = tab k g := by
  unfold tab; rw [← List.map_take, List.take_range, Nat.min_eq_left h]

end

/-- The operators of sector `k`. -/
def inSec (σ : X → ℕ) (k : ℕ) (L : List X) : List X := L.filter fun x => decide (σ x = k)

theorem inSec_perm (σ : X → ℕ) (k : ℕ) {L L' : List X} (h : L.Perm L') : (inSec σ k L).Perm (inSec σ k L') := h.filter _

theorem inSec_nodup {τ : X → T} {L : List X} (σ : X → ℕ) (k : ℕ) (h : (L.map τ).Nodup) :
    ((inSec σ k L).map τ).Nodup := h.sublist (List.filter_sublist.map τ)

theorem inSec_append (σ : X → ℕ) (k : ℕ) (L L' : List X) : inSec σ k (L ++ L') = inSec σ k L ++ inSec σ k L' :=
  List.filter_append ..

theorem inSec_cons (σ : X → ℕ) (k : ℕ) (x : X) (L : List X) :
    inSec σ k (x :: L) = if σ x = k then x :: inSec σ k L else inSec σ k L := by
  unfold inSec; rw [List.filter_cons]; simp only [decide_eq_true_eq]

theorem inSec_all {σ : X → ℕ} {n : ℕ} {L : List X} (h : ∀ x ∈ L, σ x < n) :
    ((List.range n).flatMap fun k => inSec σ k L).Perm L := by
  induction L with
  | nil => simp [inSec]
  | cons x L ih =>
    have ih := ih fun y hy => h y (List.mem_cons_of_mem _ hy)
    have hx := h x (by simp)
    have e : (List.range n).Perm (σ x :: (List.range n).erase (σ x)) := List.perm_cons_erase (List.mem_range.mpr hx)
    refine (e.flatMap_right _).trans ?_
    refine List.Perm.trans ?_ (List.Perm.cons x (List.Perm.trans (e.flatMap_right _).symm ih))
    rw [List.flatMap_cons, List.flatMap_cons, inSec_cons, if_pos rfl, List.cons_append]
    refine List.Perm.cons x (List.Perm.append_left _ ?_)
    rw [List.flatMap_congr]
    intro k hk
    rw [inSec_cons, if_neg]
    intro e2
    subst e2
    exact (List.nodup_range.not_mem_erase) hk

theorem byTime_setOK {τ : X → T} {L : List X} (h : (L.map τ).Nodup) : SetOK τ (byTime τ L) L := by
  refine ⟨?_, byTime_perm τ L⟩
  have hn : ((byTime τ L).map τ).Nodup := ((byTime_perm τ L).map τ).nodup_iff.mpr h
  rw [List.Nodup, List.pairwise_map] at hn
  exact ((byTime_sorted τ L).and hn).imp fun h => lt_of_le_of_ne h.1 h.2

theorem byTime_insert {τ : X → T} {L : List X} {x : X} (h : ((x :: L).map τ).Nodup) :
    Side.setInsert τ (byTime τ L) x = byTime τ (x :: L) := by
  rw [List.map_cons, List.nodup_cons] at h
  exact ((byTime_setOK h.2).insert h.1).eq_byTime

theorem byTime_erase {τ : X → T} {L L' : List X} {x : X} (h : (L.map τ).Nodup) (hp : L.Perm (x :: L')) :
    Side.setErase τ (byTime τ L) x = byTime τ L' := ((byTime_setOK h).erase hp).eq_byTime

/-- Where an operator stands in an ordered list. -/
theorem byTime_split {τ : X → T} {L : List X} {x : X} (h : ((x :: L).map τ).Nodup) :
    ∃ a b, byTime τ (x :: L) = a ++ x :: b ∧ byTime τ L = a ++ b ∧ b.length = (byTime τ L).countP fun y => decide (τ x ≤ τ y) := by
  have hs := byTime_setOK h
  have hx : x ∈ byTime τ (x :: L) := (byTime_perm τ _).mem_iff.mpr (by simp)
  obtain ⟨a, b, e⟩ := List.append_of_mem hx
  have hs' := hs.sorted
  rw [e, List.pairwise_append, List.pairwise_cons] at hs'
  have e2 : byTime τ L = a ++ b := by
    rw [← byTime_erase h (.refl _), e]
    unfold Side.setErase
    rw [List.filter_append, List.filter_cons_of_neg (by simp), List.filter_eq_self.mpr, List.filter_eq_self.mpr]
    · intro y hy
      simp only [decide_eq_true_eq]
      exact (hs'.2.1.1 y hy).ne'
    · intro y hy
      simp only [decide_eq_true_eq]
      exact (hs'.2.2 y hy x (by simp)).ne
  refine ⟨a, b, e, e2, ?_⟩
  rw [e2, List.countP_append, List.countP_eq_zero.mpr, List.countP_eq_length.mpr, Nat.zero_add]
  · intro y hy
    simpa using (hs'.2.1.1 y hy).le
  · intro y hy
    simpa using (hs'.2.2 y hy x (by simp))

/-- Putting an operator into the middle. -/
theorem orderSign_middle {τ : X → T} (P Q : List X) (x : X) :
    orderSign τ (P ++ x :: Q) =
      orderSign τ (P ++ Q) * (-1) ^ (P.countP (fun y => decide (τ x < τ y)) + Q.countP fun y => decide (τ y < τ x)) := by
  rw [orderSign_append, orderSign_append, orderSign_cons, prod_pairSign, crossSign_cons_right, prod_pairSign', pow_add]
  ring

theorem parity_eq_pow (n : ℕ) : DM.parity n = (-1) ^ n := by
  unfold DM.parity
  split_ifs with h
  · rw [(Nat.even_iff.mpr h).neg_one_pow]
  · rw [(Nat.odd_iff.mpr (by omega)).neg_one_pow]

theorem neg_pow_congr {a b : ℕ} (h : a % 2 = b % 2) : (-1 : ℤ) ^ a = (-1) ^ b := by
  rw [neg_one_pow_eq_pow_mod_two, h, ← neg_one_pow_eq_pow_mod_two]

theorem countP_split {τ : X → T} {L : List X} {x : X} (h : τ x ∉ L.map τ) :
    L.countP (fun y => decide (τ x ≤ τ y)) + L.countP (fun y => decide (τ y < τ x)) = L.length ∧
    L.countP (fun y => decide (τ x < τ y)) = L.countP (fun y => decide (τ x ≤ τ y)) := by
  induction L with
  | nil => simp
  | cons y L ih =>
    rw [List.map_cons, List.mem_cons, not_or] at h
    have ih := ih h.2
    simp only [List.countP_cons, List.length_cons, decide_eq_true_eq]
    rcases lt_or_gt_of_ne h.1 with h1 | h1
    · rw [if_pos h1.le, if_neg (not_lt.mpr h1.le), if_pos h1]; omega
    · rw [if_neg (not_le.mpr h1), if_pos h1, if_neg (not_lt.mpr h1.le)]; omega

/-- The operators sector by sector, ordered by time inside each sector. -/
def secList (τ : X → T) (σ : X → ℕ) (n : ℕ) (L : List X) : List X := (tab n fun k => byTime τ (inSec σ k L)).flatten

/-- The sign that orders them by time. -/
def secSign (τ : X → T) (σ : X → ℕ) (n : ℕ) (L : List X) : ℤ := orderSign τ (secList τ σ n L)

theorem secList_perm {τ : X → T} {σ : X → ℕ} {n : ℕ} {L : List X} (h : ∀ x ∈ L, σ x < n) : (secList τ σ n L).Perm L := by
  refine List.Perm.trans ?_ (inSec_all h)
  unfold secList tab
  rw [← List.flatMap_def]
  exact List.Perm.flatMap_left _ fun k _ => byTime_perm τ _

theorem secList_congr {τ : X → T} {σ : X → ℕ} {n : ℕ} {L L' : List X} (hp : L.Perm L') (h : (L.map τ).Nodup) :
    secList τ σ n L = secList τ σ n L' := by
  unfold secList
  rw [tab_congr fun k _ => byTime_congr (inSec_perm σ k hp) (inSec_nodup σ k h)]

theorem secSign_sq (τ : X → T) (σ : X → ℕ) (n : ℕ) (L : List X) : secSign τ σ n L * secSign τ σ n L = 1 := orderSign_sq τ _

theorem tab_flatten_split {n k : ℕ} (g : ℕ → List X) (h : k < n) :
    (tab n g).flatten = (tab k g).flatten ++ (g k ++ ((tab n g).drop (k + 1)).flatten) := by
  conv_lhs => rw [← List.take_append_drop k (tab n g)]
  rw [List.drop_eq_getElem_cons (by rw [tab_length]; exact h), List.flatten_append, List.flatten_cons, tab_take h.le]
  simp [tab]

/-- `num_ops` of both functions, for an operator that is in the configuration or not. -/
theorem secSign_cons {τ : X → T} {σ : X → ℕ} {n : ℕ} {L : List X} {x : X} (h : ((x :: L).map τ).Nodup)
    (hL : ∀ y ∈ L, σ y < n) (hx : σ x < n) :
    secSign τ σ n (x :: L) = secSign τ σ n L * DM.parity ((byTime τ L).countP (fun y => decide (τ x ≤ τ y)) +
      (((tab n fun k => byTime τ (inSec σ k L)).drop (σ x + 1)).map List.length).sum +
      (byTime τ (inSec σ (σ x) L)).countP fun y => decide (τ x ≤ τ y)) := by
  have hn : ((x :: inSec σ (σ x) L).map τ).Nodup := by
    have := inSec_nodup σ (σ x) h
    rwa [inSec_cons, if_pos rfl] at this
  obtain ⟨a, b, e1, e2, e3⟩ := byTime_split hn
  have f1 : secList τ σ n L = ((tab (σ x) fun k => byTime τ (inSec σ k L)).flatten ++ a) ++
      (b ++ ((tab n fun k => byTime τ (inSec σ k L)).drop (σ x + 1)).flatten) := by
    unfold secList; rw [tab_flatten_split _ hx, e2]; simp only [List.append_assoc]
  have f2 : secList τ σ n (x :: L) = ((tab (σ x) fun k => byTime τ (inSec σ k L)).flatten ++ a) ++
      x :: (b ++ ((tab n fun k => byTime τ (inSec σ k L)).drop (σ x + 1)).flatten) := by
    unfold secList
    rw [tab_flatten_split _ hx, inSec_cons, if_pos rfl, e1]
    have g1 : tab (σ x) (fun k => byTime τ (inSec σ k (x :: L))) = tab (σ x) fun k => byTime τ (inSec σ k L) := by
      refine tab_congr fun k hk => ?_
      rw [inSec_cons, if_neg (by omega)]
    have g2 : (tab n fun k => byTime τ (inSec σ k (x :: L))).drop (σ x + 1) =
        (tab n fun k => byTime τ (inSec σ k L)).drop (σ x + 1) := by
      refine List.ext_getElem? fun i => ?_
      rw [List.getElem?_drop, List.getElem?_drop]
      by_cases hi : σ x + 1 + i < n
      · rw [tab_getElem? hi, tab_getElem? hi, inSec_cons, if_neg (by omega)]
      · rw [List.getElem?_eq_none (by rw [tab_length]; omega), List.getElem?_eq_none (by rw [tab_length]; omega)]
    rw [g1, g2]; simp only [List.append_assoc, List.cons_append]
  rw [List.map_cons, List.nodup_cons] at h
  have hp := secList_perm (τ := τ) hL
  have hfr : τ x ∉ (secList τ σ n L).map τ := fun hm => h.1 ((hp.map τ).mem_iff.mp hm)
  unfold secSign
  rw [f2, orderSign_middle, ← f1, parity_eq_pow, ← e3]
  congr 1
  refine neg_pow_congr ?_
  have c0 : (byTime τ L).countP (fun y => decide (τ x ≤ τ y)) = (secList τ σ n L).countP (fun y => decide (τ x ≤ τ y)) :=
    ((byTime_perm τ L).trans hp.symm).countP_eq _
  rw [c0, f1]
  rw [f1, List.map_append, List.mem_append, not_or] at hfr
  have c1 := countP_split hfr.1
  have c2 := countP_split hfr.2
  have c3 := (List.length_append (as := b) (bs := ((tab n fun k => byTime τ (inSec σ k L)).drop (σ x + 1)).flatten))
  rw [List.length_flatten] at c3
  rw [List.countP_append (l₁ := (tab (σ x) fun k => byTime τ (inSec σ k L)).flatten ++ a)]
  omega

end CTInt
