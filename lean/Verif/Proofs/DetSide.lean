import Verif.Proofs.OrderSign

/-!
# The members for one kind of operators (helper lemmas for C24, C25, C27)
-/

set_option linter.all false

namespace CTInt

variable {T X : Type} [LinearOrder T]

/-- The map gives for every stored time the position of the operator. -/
structure PosOK (τ : X → T) (ops : List X) (pos : List (T × ℕ)) : Prop where
  keys : (pos.map Prod.fst).Nodup
  mem : ∀ t p, (t, p) ∈ pos ↔ ∃ x, ops[p]? = some x ∧ τ x = t

/-- The time-ordered set holds the operators of the list. -/
structure SetOK (τ : X → T) (set L : List X) : Prop where
  sorted : set.Pairwise fun a b => τ a < τ b
  perm : set.Perm L

theorem pair_unique {pos : List (T × ℕ)} (h : (pos.map Prod.fst).Nodup) {t : T} {p q : ℕ} (h1 : (t, p) ∈ pos)
    (h2 : (t, q) ∈ pos) : p = q :=
  congrArg Prod.snd (List.inj_on_of_nodup_map h h1 h2 rfl)

namespace PosOK

variable {τ : X → T} {ops : List X} {pos : List (T × ℕ)}

theorem nodup (h : PosOK τ ops pos) : (ops.map τ).Nodup := by
  rw [List.nodup_iff_getElem?_ne_getElem?]
  intro i j hij hj e
  rw [List.length_map] at hj
  have hi : i < ops.length := by omega
  rw [List.getElem?_map, List.getElem?_map, List.getElem?_eq_getElem hi, List.getElem?_eq_getElem hj] at e
  simp only [Option.map_some, Option.some.injEq] at e
  have h1 := (h.mem (τ ops[i]) i).mpr ⟨ops[i], List.getElem?_eq_getElem hi, rfl⟩
  have h2 := (h.mem (τ ops[i]) j).mpr ⟨ops[j], List.getElem?_eq_getElem hj, e.symm⟩
  have := pair_unique h.keys h1 h2
  omega

theorem key_iff (h : PosOK τ ops pos) (t : T) : t ∈ pos.map Prod.fst ↔ t ∈ ops.map τ := by
  constructor
  · intro ht
    obtain ⟨⟨t', p⟩, h1, rfl⟩ := List.mem_map.mp ht
    obtain ⟨x, hx, hx'⟩ := (h.mem _ _).mp h1
    exact List.mem_map.mpr ⟨x, List.mem_of_getElem? hx, hx'⟩
  · intro ht
    obtain ⟨x, hx, rfl⟩ := List.mem_map.mp ht
    obtain ⟨p, hp, e⟩ := List.getElem_of_mem hx
    exact List.mem_map.mpr ⟨(τ x, p), (h.mem _ _).mpr ⟨x, by rw [List.getElem?_eq_getElem hp, e], rfl⟩, rfl⟩

theorem keys_perm (h : PosOK τ ops pos) : (pos.map Prod.fst).Perm (ops.map τ) :=
  (List.perm_ext_iff_of_nodup h.keys h.nodup).mpr h.key_iff

theorem length_eq (h : PosOK τ ops pos) : pos.length = ops.length := by
  have := h.keys_perm.length_eq; simpa using this

theorem count (h : PosOK τ ops pos) (t : T) :
    pos.countP (fun e => decide (t ≤ e.1)) = ops.countP fun x => decide (t ≤ τ x) := by
  have := h.keys_perm.countP_eq (fun k => decide (t ≤ k))
  rw [List.countP_map, List.countP_map] at this
  exact this

theorem count_fresh (h : PosOK τ ops pos) {t : T} (ht : t ∉ ops.map τ) :
    pos.countP (fun e => decide (t ≤ e.1)) = ops.countP fun x => decide (t < τ x) := by
  rw [h.count]
  refine List.countP_congr fun x hx => ?_
  have : t ≠ τ x := fun e => ht (e ▸ List.mem_map_of_mem hx)
  simp only [decide_eq_true_eq]
  exact ⟨fun h => lt_of_le_of_ne h this, le_of_lt⟩

theorem find_eq (h : PosOK τ ops pos) {x : X} {p : ℕ} (hp : ops[p]? = some x) :
    pos.find? (fun e => decide (e.1 = τ x)) = some (τ x, p) := by
  have hm := (h.mem (τ x) p).mpr ⟨x, hp, rfl⟩
  cases e : pos.find? (fun e => decide (e.1 = τ x)) with
  | none =>
    rw [List.find?_eq_none] at e
    exact absurd (by simp : decide ((τ x, p).1 = τ x) = true) (e _ hm)
  | some q =>
    obtain ⟨t, q⟩ := q
    have h1 := List.find?_some e
    have h2 := List.mem_of_find?_eq_some e
    simp only [decide_eq_true_eq] at h1
    subst h1
    rw [pair_unique h.keys h2 hm]

theorem truncate {l r : List X} (h : PosOK τ (l ++ r) pos) :
    PosOK τ l (pos.filter fun e => decide (e.1 ∉ r.map τ)) := by
  have hn := h.nodup
  rw [List.map_append] at hn
  have hd := (List.nodup_append.mp hn).2.2
  refine ⟨?_, ?_⟩
  · exact h.keys.sublist ((List.filter_sublist).map _)
  · intro t p
    rw [List.mem_filter, h.mem, decide_eq_true_eq]
    constructor
    · rintro ⟨⟨x, hx, hx'⟩, hnr⟩
      refine ⟨x, ?_, hx'⟩
      by_cases hp : p < l.length
      · rwa [List.getElem?_append_left hp] at hx
      · rw [List.getElem?_append_right (by omega)] at hx
        exact absurd (List.mem_map.mpr ⟨x, List.mem_of_getElem? hx, hx'⟩) hnr
    · rintro ⟨x, hx, hx'⟩
      obtain ⟨hp, -⟩ := List.getElem?_eq_some_iff.mp hx
      refine ⟨⟨x, by rwa [List.getElem?_append_left hp], hx'⟩, fun hr => ?_⟩
      exact hd t (List.mem_map.mpr ⟨x, List.mem_of_getElem? hx, hx'⟩) t hr rfl

theorem dropLast {l : List X} {x : X} (h : PosOK τ (l ++ [x]) pos) : PosOK τ l (Side.mapErase pos (τ x)) := by
  have := h.truncate
  simpa [Side.mapErase] using this

theorem concat (h : PosOK τ ops pos) {x : X} (hx : τ x ∉ ops.map τ) : PosOK τ (ops ++ [x]) ((τ x, ops.length) :: pos) := by
  refine ⟨?_, ?_⟩
  · rw [List.map_cons, List.nodup_cons]
    exact ⟨fun hk => hx ((h.key_iff _).mp hk), h.keys⟩
  · intro t p
    rw [List.mem_cons, Prod.mk.injEq, h.mem]
    constructor
    · rintro (⟨rfl, rfl⟩ | ⟨y, hy, hy'⟩)
      · exact ⟨x, by simp, rfl⟩
      · obtain ⟨hp, -⟩ := List.getElem?_eq_some_iff.mp hy
        exact ⟨y, by rwa [List.getElem?_append_left hp], hy'⟩
    · rintro ⟨y, hy, hy'⟩
      by_cases hp : p < ops.length
      · rw [List.getElem?_append_left hp] at hy
        exact Or.inr ⟨y, hy, hy'⟩
      · rw [List.getElem?_append_right (by omega)] at hy
        obtain ⟨hp2, e⟩ := List.getElem?_eq_some_iff.mp hy
        simp only [List.length_singleton] at hp2
        have : p = ops.length := by omega
        subst this
        simp only [Nat.sub_self, List.getElem_cons_zero] at e
        subst e
        exact Or.inl ⟨hy'.symm, rfl⟩

theorem put_mem (l : List (T × ℕ)) (t : T) (p : ℕ) (u : T) (q : ℕ) :
    (u, q) ∈ Side.mapPut l t p ↔ (u = t ∧ q = p) ∨ ((u, q) ∈ l ∧ u ≠ t) := by
  unfold Side.mapPut Side.mapErase
  rw [List.mem_cons, Prod.mk.injEq, List.mem_filter, decide_eq_true_eq]

theorem put_keys {l : List (T × ℕ)} (h : (l.map Prod.fst).Nodup) (t : T) (p : ℕ) :
    ((Side.mapPut l t p).map Prod.fst).Nodup := by
  unfold Side.mapPut Side.mapErase
  rw [List.map_cons, List.nodup_cons]
  refine ⟨?_, h.sublist ((List.filter_sublist).map _)⟩
  intro hm
  obtain ⟨e, he, he'⟩ := List.mem_map.mp hm
  rw [List.mem_filter, decide_eq_true_eq] at he
  exact he.2 he'

theorem exchange (h : PosOK τ ops pos) {i j : ℕ} {a b : X} (hi : ops[i]? = some a) (hj : ops[j]? = some b) (hij : i ≠ j) :
    PosOK τ ((ops.set i b).set j a) (Side.mapPut (Side.mapPut pos (τ a) j) (τ b) i) := by
  have hab : τ a ≠ τ b := by
    intro e
    have h1 := (h.mem (τ a) i).mpr ⟨a, hi, rfl⟩
    have h2 := (h.mem (τ a) j).mpr ⟨b, hj, e.symm⟩
    exact hij (pair_unique h.keys h1 h2)
  refine ⟨put_keys (put_keys h.keys _ _) _ _, ?_⟩
  intro t p
  rw [put_mem, put_mem, h.mem, getElem?_set_swap hi hj]
  constructor
  · rintro (⟨rfl, rfl⟩ | ⟨⟨rfl, rfl⟩ | ⟨⟨x, hx, rfl⟩, hta⟩, htb⟩)
    · exact ⟨b, by rw [Equiv.swap_apply_left, hj], rfl⟩
    · exact ⟨a, by rw [Equiv.swap_apply_right, hi], rfl⟩
    · refine ⟨x, ?_, rfl⟩
      rw [Equiv.swap_apply_of_ne_of_ne]
      · exact hx
      · rintro rfl; rw [hi] at hx; exact hta (by rw [Option.some.inj hx])
      · rintro rfl; rw [hj] at hx; exact htb (by rw [Option.some.inj hx])
  · rintro ⟨x, hx, rfl⟩
    rw [Equiv.swap_apply_def] at hx
    split_ifs at hx with h1 h2
    · rw [hj] at hx; obtain rfl := Option.some.inj hx; exact Or.inl ⟨rfl, h1⟩
    · rw [hi] at hx; obtain rfl := Option.some.inj hx; exact Or.inr ⟨Or.inl ⟨rfl, h2⟩, hab⟩
    · have key : ∀ q y, ops[q]? = some y → p ≠ q → τ x ≠ τ y := by
        intro q y hy hpq e
        exact hpq (pair_unique h.keys ((h.mem (τ x) p).mpr ⟨x, hx, rfl⟩) ((h.mem (τ x) q).mpr ⟨y, hy, e.symm⟩))
      exact Or.inr ⟨Or.inr ⟨⟨x, hx, rfl⟩, key i a hi h1⟩, key j b hj h2⟩

theorem nil : PosOK τ ([] : List X) [] := ⟨by simp, by simp⟩

end PosOK

namespace SetOK

variable {τ : X → T} {set L : List X}

theorem nodup (h : SetOK τ set L) : (L.map τ).Nodup := by
  rw [← (h.perm.map τ).nodup_iff]
  rw [List.Nodup, List.pairwise_map]
  exact h.sorted.imp fun h => ne_of_lt h

theorem eq_byTime (h : SetOK τ set L) : set = byTime τ L :=
  sorted_unique (h.perm.trans (byTime_perm τ L).symm) (h.sorted.imp fun h => le_of_lt h) (byTime_sorted τ L)
    ((h.perm.map τ).nodup_iff.mpr h.nodup)

theorem congr (h : SetOK τ set L) {L' : List X} (hp : L.Perm L') : SetOK τ set L' := ⟨h.sorted, h.perm.trans hp⟩

theorem key_iff (h : SetOK τ set L) (t : T) : t ∈ set.map τ ↔ t ∈ L.map τ := (h.perm.map τ).mem_iff

theorem insert (h : SetOK τ set L) {x : X} (hx : τ x ∉ L.map τ) : SetOK τ (Side.setInsert τ set x) (x :: L) := by
  have hx' : τ x ∉ set.map τ := fun hm => hx ((h.key_iff _).mp hm)
  unfold Side.setInsert
  rw [if_neg hx']
  haveI : IsTrans X (fun a b => τ a ≤ τ b) := ⟨fun a b c h h' => le_trans h h'⟩
  haveI : Std.Total (fun a b : X => τ a ≤ τ b) := ⟨fun a b => le_total (τ a) (τ b)⟩
  have hp : (set.orderedInsert (fun a b => τ a ≤ τ b) x).Perm (x :: set) := List.perm_orderedInsert _ _ _
  have hs : (set.orderedInsert (fun a b => τ a ≤ τ b) x).Pairwise fun a b => τ a ≤ τ b :=
    List.Pairwise.orderedInsert x set (h.sorted.imp fun h => le_of_lt h)
  refine ⟨?_, hp.trans (h.perm.cons x)⟩
  have hn : ((set.orderedInsert (fun a b => τ a ≤ τ b) x).map τ).Nodup := by
    rw [(hp.map τ).nodup_iff, List.map_cons, List.nodup_cons]
    exact ⟨hx', (h.perm.map τ).nodup_iff.mpr h.nodup⟩
  rw [List.Nodup, List.pairwise_map] at hn
  exact (hs.and hn).imp fun h => lt_of_le_of_ne h.1 h.2

theorem erase (h : SetOK τ set L) {x : X} {L' : List X} (hx : L.Perm (x :: L')) : SetOK τ (Side.setErase τ set x) L' := by
  unfold Side.setErase
  refine ⟨h.sorted.sublist List.filter_sublist, ?_⟩
  have hp : set.Perm (x :: L') := h.perm.trans hx
  have hn : ((x :: L').map τ).Nodup := (hx.map τ).nodup_iff.mp h.nodup
  refine (hp.filter _).trans ?_
  rw [List.filter_cons_of_neg (by simp), List.filter_eq_self.mpr]
  intro y hy
  rw [List.map_cons, List.nodup_cons] at hn
  simp only [decide_eq_true_eq]
  intro e
  exact hn.1 (e ▸ List.mem_map_of_mem hy)

theorem erase_absent (h : SetOK τ set L) {x : X} (hx : τ x ∉ L.map τ) : Side.setErase τ set x = set := by
  unfold Side.setErase
  rw [List.filter_eq_self]
  intro y hy
  simp only [decide_eq_true_eq]
  intro e
  exact hx ((h.key_iff _).mp (e ▸ List.mem_map_of_mem hy))

theorem nil : SetOK τ ([] : List X) [] := ⟨by simp, by simp⟩

end SetOK

end CTInt
