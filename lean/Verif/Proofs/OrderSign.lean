import Verif.Spec.DetMatrix
import Verif.Proofs.Perm
import Mathlib.Tactic.Ring
import Mathlib.Tactic.Linarith

/-!
# Signs of time orderings (helper lemmas for C24, C25)
-/

set_option linter.all false

namespace CTInt

variable {K Cd Co T X : Type} [LinearOrder T]

/-- The sign a pair contributes. -/
def pairSign (τ : X → T) (x y : X) : ℤ := if τ y < τ x then -1 else 1

theorem pairSign_swap {τ : X → T} {x y : X} (h : τ x ≠ τ y) : pairSign τ y x = - pairSign τ x y := by
  unfold pairSign
  rcases lt_or_gt_of_ne h with h1 | h1
  · rw [if_pos h1, if_neg (not_lt.mpr h1.le)]
  · rw [if_neg (not_lt.mpr h1.le), if_pos h1]; simp

theorem prod_pairSign (τ : X → T) (x : X) (l : List X) :
    (l.map (pairSign τ x)).prod = (-1) ^ l.countP (fun y => decide (τ y < τ x)) := by
  induction l with
  | nil => rfl
  | cons y l ih =>
    rw [List.map_cons, List.prod_cons, ih, List.countP_cons]
    unfold pairSign
    by_cases h : τ y < τ x
    · simp [h, pow_succ]
    · simp [h]

theorem prod_pairSign' (τ : X → T) (x : X) (l : List X) :
    (l.map (fun y => pairSign τ y x)).prod = (-1) ^ l.countP (fun y => decide (τ x < τ y)) := by
  induction l with
  | nil => rfl
  | cons y l ih =>
    rw [List.map_cons, List.prod_cons, ih, List.countP_cons]
    unfold pairSign
    by_cases h : τ x < τ y
    · simp [h, pow_succ]
    · simp [h]

theorem orderSign_nil (τ : X → T) : orderSign τ [] = 1 := rfl

theorem orderSign_cons (τ : X → T) (x : X) (l : List X) :
    orderSign τ (x :: l) = (l.map (pairSign τ x)).prod * orderSign τ l := by
  rw [prod_pairSign]; unfold orderSign; rw [outOfOrder, pow_add]

/-- The pairs between two lists. -/
def crossSign (τ : X → T) (a b : List X) : ℤ := (a.map fun x => (b.map (pairSign τ x)).prod).prod

theorem orderSign_append (τ : X → T) (a b : List X) :
    orderSign τ (a ++ b) = orderSign τ a * orderSign τ b * crossSign τ a b := by
  induction a with
  | nil => simp [orderSign_nil, crossSign]
  | cons x a ih =>
    rw [List.cons_append, orderSign_cons, orderSign_cons, ih, List.map_append, List.prod_append]
    simp only [crossSign, List.map_cons, List.prod_cons]; ring

theorem crossSign_cons_right (τ : X → T) (a : List X) (y : X) (b : List X) :
    crossSign τ a (y :: b) = (a.map fun x => pairSign τ x y).prod * crossSign τ a b := by
  induction a with
  | nil => simp [crossSign]
  | cons x a ih =>
    simp only [crossSign, List.map_cons, List.prod_cons] at ih ⊢
    rw [ih]; ring

theorem crossSign_append_right (τ : X → T) (a b c : List X) :
    crossSign τ a (b ++ c) = crossSign τ a b * crossSign τ a c := by
  induction a with
  | nil => simp [crossSign]
  | cons x a ih =>
    simp only [crossSign, List.map_cons, List.prod_cons, List.map_append, List.prod_append] at ih ⊢
    rw [ih]; ring

theorem crossSign_append_left (τ : X → T) (a b c : List X) :
    crossSign τ (a ++ b) c = crossSign τ a c * crossSign τ b c := by
  simp [crossSign]

theorem crossSign_nil_right (τ : X → T) (a : List X) : crossSign τ a [] = 1 := by
  induction a with
  | nil => rfl
  | cons x a ih => simp only [crossSign, List.map_cons, List.prod_cons, List.map_nil, List.prod_nil, one_mul] at ih ⊢; exact ih

theorem crossSign_perm_left (τ : X → T) {a a' : List X} (h : a.Perm a') (b : List X) :
    crossSign τ a b = crossSign τ a' b := (h.map _).prod_eq

theorem crossSign_perm_right (τ : X → T) (a : List X) {b b' : List X} (h : b.Perm b') :
    crossSign τ a b = crossSign τ a b' := by
  unfold crossSign
  congr 1
  refine List.map_congr_left fun x _ => ?_
  exact (h.map _).prod_eq

theorem orderSign_concat (τ : X → T) (l : List X) (x : X) :
    orderSign τ (l ++ [x]) = orderSign τ l * (-1) ^ l.countP (fun y => decide (τ x < τ y)) := by
  rw [orderSign_append, crossSign_cons_right, crossSign_nil_right, prod_pairSign', orderSign_cons, orderSign_nil]
  simp

theorem prod_neg_map (l : List X) (f : X → ℤ) : (l.map fun x => - f x).prod = (-1) ^ l.length * (l.map f).prod := by
  induction l with
  | nil => simp
  | cons x l ih => simp only [List.map_cons, List.prod_cons, ih, List.length_cons, pow_succ]; ring

/-- Exchanging two operators flips the sign. -/
theorem orderSign_exchange (τ : X → T) (p q r : List X) (x y : X) (h : ((p ++ x :: (q ++ y :: r)).map τ).Nodup) :
    orderSign τ (p ++ y :: (q ++ x :: r)) = - orderSign τ (p ++ x :: (q ++ y :: r)) := by
  have hp : (y :: (q ++ x :: r)).Perm (x :: (q ++ y :: r)) := by
    refine List.Perm.trans (List.Perm.cons y (List.perm_middle)) ?_
    refine List.Perm.trans (List.Perm.swap _ _ _) ?_
    exact List.Perm.cons x List.perm_middle.symm
  have hn : ((x :: (q ++ y :: r)).map τ).Nodup := by
    rw [List.map_append] at h; exact (List.nodup_append.mp h).2.1
  have hxq : ∀ v ∈ q, τ x ≠ τ v := by
    intro v hv e
    simp only [List.map_cons, List.nodup_cons] at hn
    exact hn.1 (by rw [e]; exact List.mem_map_of_mem (by simp [hv]))
  have hxy : τ x ≠ τ y := by
    intro e
    simp only [List.map_cons, List.nodup_cons] at hn
    exact hn.1 (by rw [e]; exact List.mem_map_of_mem (by simp))
  have hyq : ∀ v ∈ q, τ y ≠ τ v := by
    intro v hv e
    simp only [List.map_cons, List.nodup_cons, List.map_append] at hn
    have := (List.nodup_append.mp hn.2).2.2
    exact this (τ v) (List.mem_map_of_mem hv) (τ y) (by simp) e.symm
  rw [orderSign_append, orderSign_append, crossSign_perm_right τ p hp, orderSign_cons, orderSign_cons,
    orderSign_append, orderSign_append, orderSign_cons, orderSign_cons]
  simp only [List.map_append, List.map_cons, List.prod_append, List.prod_cons, crossSign_cons_right]
  have e1 : (q.map fun v => pairSign τ v x).prod = (-1) ^ q.length * (q.map (pairSign τ x)).prod := by
    rw [← prod_neg_map]; congr 1
    exact List.map_congr_left fun v hv => pairSign_swap (hxq v hv)
  have e2 : (q.map fun v => pairSign τ v y).prod = (-1) ^ q.length * (q.map (pairSign τ y)).prod := by
    rw [← prod_neg_map]; congr 1
    exact List.map_congr_left fun v hv => pairSign_swap (hyq v hv)
  rw [e1, e2, pairSign_swap hxy]
  ring

/-- Splitting a list at two positions. -/
theorem split_two {l : List X} {i j : ℕ} {a b : X} (hi : l[i]? = some a) (hj : l[j]? = some b) (hij : i < j) :
    ∃ p q r, l = p ++ a :: (q ++ b :: r) ∧ p.length = i ∧ p.length + 1 + q.length = j := by
  obtain ⟨h1, h2⟩ := List.getElem?_eq_some_iff.mp hi
  obtain ⟨h3, h4⟩ := List.getElem?_eq_some_iff.mp hj
  have e1 : l = l.take i ++ a :: l.drop (i + 1) := by
    conv_lhs => rw [← List.take_append_drop i l]
    rw [List.drop_eq_getElem_cons h1, h2]
  have hk : (l.drop (i + 1))[j - (i + 1)]? = some b := by
    rw [List.getElem?_drop, show i + 1 + (j - (i + 1)) = j by omega, hj]
  obtain ⟨h5, h6⟩ := List.getElem?_eq_some_iff.mp hk
  have e2 : l.drop (i + 1) = (l.drop (i + 1)).take (j - (i + 1)) ++ b :: (l.drop (i + 1)).drop (j - (i + 1) + 1) := by
    conv_lhs => rw [← List.take_append_drop (j - (i + 1)) (l.drop (i + 1))]
    rw [List.drop_eq_getElem_cons h5, h6]
  refine ⟨l.take i, (l.drop (i + 1)).take (j - (i + 1)), (l.drop (i + 1)).drop (j - (i + 1) + 1), ?_, ?_, ?_⟩
  · rw [← e2, ← e1]
  · simp; omega
  · simp at h5; simp; omega

theorem set_two {p q r : List X} {a b : X} : ((p ++ a :: (q ++ b :: r)).set p.length b).set (p.length + 1 + q.length) a =
    p ++ b :: (q ++ a :: r) := by
  rw [List.set_append_right _ _ (le_refl _)]
  simp only [Nat.sub_self, List.set_cons_zero]
  rw [List.set_append_right _ _ (by omega), show p.length + 1 + q.length - p.length = q.length + 1 by omega,
    List.set_cons_succ, List.set_append_right _ _ (le_refl _)]
  simp

theorem swap_two {l : List X} {i j : ℕ} {a b : X} (hi : l[i]? = some a) (hj : l[j]? = some b) (hij : i ≠ j) :
    ∃ p q r x y, l = p ++ x :: (q ++ y :: r) ∧ (l.set i b).set j a = p ++ y :: (q ++ x :: r) := by
  rcases lt_or_gt_of_ne hij with h | h
  · obtain ⟨p, q, r, e, e1, e2⟩ := split_two hi hj h
    refine ⟨p, q, r, a, b, e, ?_⟩
    rw [e, ← e1, ← e2]; exact set_two
  · obtain ⟨p, q, r, e, e1, e2⟩ := split_two hj hi h
    refine ⟨p, q, r, b, a, e, ?_⟩
    rw [List.set_comm _ _ hij, e, ← e1, ← e2]; exact set_two

theorem set_swap_perm {l : List X} {i j : ℕ} {a b : X} (hi : l[i]? = some a) (hj : l[j]? = some b) :
    ((l.set i b).set j a).Perm l := by
  by_cases hij : i = j
  · subst hij
    have hab : a = b := Option.some.inj (hi.symm.trans hj)
    subst hab
    have : l.set i a = l := by
      refine List.ext_getElem? fun k => ?_
      rw [List.getElem?_set]; split_ifs with h h2
      · rw [← h, hi]
      · rw [← h]; rw [List.getElem?_eq_none (by omega)]
      · rfl
    rw [this, this]
  · obtain ⟨p, q, r, x, y, e, e1⟩ := swap_two hi hj hij
    rw [e1, e]
    refine List.Perm.append_left p ?_
    refine List.Perm.trans (List.Perm.cons y (List.perm_middle)) ?_
    refine List.Perm.trans (List.Perm.swap _ _ _) ?_
    exact List.Perm.cons x List.perm_middle.symm

theorem orderSign_set_swap {τ : X → T} {l : List X} {i j : ℕ} {a b : X} (hi : l[i]? = some a) (hj : l[j]? = some b)
    (hij : i ≠ j) (h : (l.map τ).Nodup) : orderSign τ ((l.set i b).set j a) = - orderSign τ l := by
  obtain ⟨p, q, r, x, y, e, e1⟩ := swap_two hi hj hij
  rw [e1, e]; rw [e] at h
  exact orderSign_exchange τ p q r x y h

theorem getElem?_set_swap {l : List X} {i j : ℕ} {a b : X} (hi : l[i]? = some a) (hj : l[j]? = some b) (k : ℕ) :
    ((l.set i b).set j a)[k]? = l[Equiv.swap i j k]? := by
  obtain ⟨h1, -⟩ := List.getElem?_eq_some_iff.mp hi
  obtain ⟨h3, -⟩ := List.getElem?_eq_some_iff.mp hj
  rw [List.getElem?_set, List.length_set, List.getElem?_set, Equiv.swap_apply_def]
  by_cases h : k = j
  · subst h
    by_cases h' : k = i
    · subst h'; rw [if_pos rfl, if_pos h3, if_pos rfl, hj, ← hj, hi]
    · rw [if_pos rfl, if_pos h3, if_neg h', if_pos rfl, hi]
  · by_cases h' : k = i
    · subst h'; rw [if_neg (Ne.symm h), if_pos rfl, if_pos h1, if_pos rfl, hj]
    · rw [if_neg (Ne.symm h), if_neg (Ne.symm h'), if_neg h', if_neg h]

theorem orderSign_sorted {τ : X → T} {l : List X} (h : l.Pairwise fun a b => τ a ≤ τ b) : orderSign τ l = 1 := by
  have : outOfOrder τ l = 0 := by
    induction l with
    | nil => rfl
    | cons x l ih =>
      rw [List.pairwise_cons] at h
      rw [outOfOrder, ih h.2, Nat.add_zero, List.countP_eq_zero]
      intro y hy
      simpa using h.1 y hy
  rw [orderSign, this, pow_zero]

theorem orderSign_sq (τ : X → T) (l : List X) : orderSign τ l * orderSign τ l = 1 := by
  unfold orderSign; rw [← mul_pow]; simp

theorem byTime_perm (τ : X → T) (l : List X) : (byTime τ l).Perm l := List.perm_insertionSort _ _

theorem byTime_sorted (τ : X → T) (l : List X) : (byTime τ l).Pairwise fun a b => τ a ≤ τ b := by
  haveI : IsTrans X (fun a b => τ a ≤ τ b) := ⟨fun a b c h h' => le_trans h h'⟩
  haveI : Std.Total (fun a b : X => τ a ≤ τ b) := ⟨fun a b => le_total (τ a) (τ b)⟩
  exact List.pairwise_insertionSort _ _

/-- Ordered lists with the same operators at distinct times are equal. -/
theorem sorted_unique {τ : X → T} {l l' : List X} (hp : l.Perm l') (h : l.Pairwise fun a b => τ a ≤ τ b)
    (h' : l'.Pairwise fun a b => τ a ≤ τ b) (hn : (l.map τ).Nodup) : l = l' := by
  refine List.Perm.eq_of_pairwise (le := fun a b => τ a ≤ τ b) ?_ h h' hp
  intro a b ha hb h1 h2
  have hb' : b ∈ l := hp.symm.subset hb
  exact List.inj_on_of_nodup_map hn ha hb' (le_antisymm h1 h2)

theorem byTime_congr {τ : X → T} {l l' : List X} (hp : l.Perm l') (hn : (l.map τ).Nodup) : byTime τ l = byTime τ l' :=
  sorted_unique ((byTime_perm τ l).trans (hp.trans (byTime_perm τ l').symm)) (byTime_sorted τ l) (byTime_sorted τ l')
    ((((byTime_perm τ l).map τ).nodup_iff).mpr hn)

variable [Field K]

theorem entry_eq (G : Co → Cd → K) (cs : List Co) (cds : List Cd) : entry G cs cds = greenAt G cs cds := by
  funext i j
  unfold entry greenAt
  cases cs[i]? <;> cases cds[j]? <;> rfl

/-- Reordering the rows. -/
theorem det_rows (τ : Co → T) (G : Co → Cd → K) (A : List Cd) (n : ℕ) {l l' : List Co} (hp : l.Perm l') :
    ∀ p : List Co, ((p ++ l).map τ).Nodup → (p ++ l).length = n →
      (orderSign τ (p ++ l) : K) * detN n (greenAt G (p ++ l) A) =
      (orderSign τ (p ++ l') : K) * detN n (greenAt G (p ++ l') A) := by
  induction hp with
  | nil => intro p _ _; rfl
  | @cons x l1 l2 h ih =>
    intro p hn hl
    have := ih (p ++ [x]) (by simpa using hn) (by simpa using hl)
    simpa using this
  | swap x y l =>
    intro p hn hl
    have hn' : ((p ++ y :: ([] ++ x :: l)).map τ).Nodup := by simpa using hn
    have h1 := orderSign_exchange τ p [] l y x hn'
    simp only [List.nil_append] at h1
    have hlen : p.length + 1 < n := by rw [← hl]; simp
    have h2 : greenAt G (p ++ x :: y :: l) A = fun i j => greenAt G (p ++ y :: x :: l) A (Equiv.swap p.length (p.length + 1) i) j := by
      funext i j
      unfold greenAt
      have e1 : (p ++ y :: x :: l)[p.length]? = some y := by simp
      have e2 : (p ++ y :: x :: l)[p.length + 1]? = some x := by simp
      rw [← getElem?_set_swap e1 e2]
      have := set_two (p := p) (q := []) (r := l) (a := y) (b := x)
      simp only [List.nil_append, List.length_nil, Nat.add_zero] at this
      rw [this]
    rw [h1, h2, detN_swap_rows (by omega) hlen (by omega)]
    push_cast; ring
  | @trans l1 l2 l3 h1 h2 ih1 ih2 =>
    intro p hn hl
    rw [ih1 p hn hl]
    refine ih2 p ?_ ?_
    · exact (((h1.append_left p).map τ).nodup_iff).mp hn
    · rw [← hl]; simp [h1.length_eq]

theorem greenAt_transpose (G : Co → Cd → K) (cs : List Co) (cds : List Cd) :
    greenAt G cs cds = fun i j => greenAt (fun a b => G b a) cds cs j i := by
  funext i j
  unfold greenAt
  cases cs[i]? <;> cases cds[j]? <;> rfl

theorem detN_greenAt_transpose (G : Co → Cd → K) (cs : List Co) (cds : List Cd) (n : ℕ) :
    detN n (greenAt G cs cds) = detN n (greenAt (fun a b => G b a) cds cs) := by
  rw [greenAt_transpose]
  unfold detN
  rw [← Matrix.det_transpose]
  rfl

/-- The time-ordered determinant from operators in any order. -/
theorem det_ordered (o : OpSys K Cd Co T) {A : Conf Cd Co} {cs : List Co} {cds : List Cd} (hc : cs.Perm A.cs)
    (hcd : cds.Perm A.cds) (hl : A.cds.length = A.cs.length) (hn : A.Distinct o) :
    A.det o = (orderSign o.tcd cds : K) * (orderSign o.tc cs : K) * detN cds.length (greenAt o.G cs cds) := by
  have hn1 : (A.cds.map o.tcd).Nodup := (List.nodup_append.mp hn).1
  have hn2 : (A.cs.map o.tc).Nodup := (List.nodup_append.mp hn).2.1
  have hnc : (cs.map o.tc).Nodup := ((hc.map _).nodup_iff).mpr hn2
  have hncd : (cds.map o.tcd).Nodup := ((hcd.map _).nodup_iff).mpr hn1
  have p1 : cs.Perm (byTime o.tc A.cs) := hc.trans (byTime_perm _ _).symm
  have p2 : cds.Perm (byTime o.tcd A.cds) := hcd.trans (byTime_perm _ _).symm
  have r1 := det_rows o.tc o.G cds cds.length p1 [] (by simpa using hnc) (by simp [hcd.length_eq, hl, hc.length_eq])
  have r2 := det_rows o.tcd (fun a b => o.G b a) (byTime o.tc A.cs) cds.length p2 [] (by simpa using hncd) (by simp)
  simp only [List.nil_append] at r1 r2
  rw [orderSign_sorted (byTime_sorted _ _)] at r1 r2
  rw [← detN_greenAt_transpose o.G, ← detN_greenAt_transpose o.G] at r2
  push_cast at r1 r2
  rw [one_mul] at r1 r2
  unfold Conf.det
  rw [← hcd.length_eq, ← r2, ← r1]
  ring

theorem Conf.det_same (o : OpSys K Cd Co T) {A A' : Conf Cd Co} (h : A.Same A') (hn : A.Distinct o) : A.det o = A'.det o := by
  have hn1 : (A.cds.map o.tcd).Nodup := (List.nodup_append.mp hn).1
  have hn2 : (A.cs.map o.tc).Nodup := (List.nodup_append.mp hn).2.1
  unfold Conf.det
  rw [byTime_congr h.1 hn1, byTime_congr h.2 hn2, h.1.length_eq]

theorem Conf.Distinct.same {o : OpSys K Cd Co T} {A A' : Conf Cd Co} (hn : A.Distinct o) (h : A.Same A') :
    A'.Distinct o :=
  (((h.1.map _).append (h.2.map _)).nodup_iff).mp hn

theorem Conf.Same.symm {A A' : Conf Cd Co} (h : A.Same A') : A'.Same A := ⟨h.1.symm, h.2.symm⟩
theorem Conf.Same.trans {A A' A'' : Conf Cd Co} (h : A.Same A') (h' : A'.Same A'') : A.Same A'' :=
  ⟨h.1.trans h'.1, h.2.trans h'.2⟩
theorem Conf.Same.refl (A : Conf Cd Co) : A.Same A := ⟨.refl _, .refl _⟩

end CTInt
