import Verif.Proofs.DetSide
import Mathlib.Tactic.LinearCombination

/-!
# The private helpers of `DeterminantMatrix` (helper lemmas for C24, C25)
-/

set_option linter.all false

namespace CTInt

theorem Act.fold_range_inv {σ β : Type} (P : ℕ → β → σ → Prop) (f : β → ℕ → Act σ β) (n : ℕ) (b : β) (s : σ)
    (h0 : P 0 b s) (step : ∀ k < n, ∀ b s, P k b s → ∃ b' s', f b k s = (.ok b', s') ∧ P (k + 1) b' s') :
    ∃ b' s', Act.fold f b (List.range n) s = (.ok b', s') ∧ P n b' s' := by
  have key : ∀ m k b s, k + m = n → P k b s → ∃ b' s', Act.fold f b (List.range' k m) s = (.ok b', s') ∧ P n b' s' := by
    intro m
    induction m with
    | zero => intro k b s hk h; refine ⟨b, s, rfl, ?_⟩; rw [← hk]; exact h
    | succ m ih =>
      intro k b s hk h
      obtain ⟨b1, s1, e1, h1⟩ := step k (by omega) b s h
      obtain ⟨b2, s2, e2, h2⟩ := ih (k + 1) b1 s1 (by omega) h1
      refine ⟨b2, s2, ?_, h2⟩
      rw [List.range'_succ, Act.fold_cons, Act.bind_ok e1, e2]
  obtain ⟨b', s', e, h⟩ := key n 0 b s (by omega) h0
  exact ⟨b', s', by rw [List.range_eq_range']; exact e, h⟩

section lists
variable {X : Type}

/-- After `k` exchanges the last `k` operators are the last `k` marked ones, the other marked ones have not moved. -/
structure MoveInv (l0 : List X) (cols : List ℕ) (n k : ℕ) (l : List X) : Prop where
  len : l.length = n
  perm : l.Perm l0
  rest : ∀ i, i + k < cols.length → l[cols.getD i 0]? = l0[cols.getD i 0]?
  last : ∀ i < k, l[n - 1 - i]? = l0[cols.getD (cols.length - 1 - i) 0]?

theorem getD_asc {cols : List ℕ} (h : cols.Pairwise (· < ·)) {i j : ℕ} (hij : i < j) (hj : j < cols.length) :
    cols.getD i 0 < cols.getD j 0 := by
  rw [List.getD_eq_getElem _ _ (by omega), List.getD_eq_getElem _ _ hj]
  exact List.pairwise_iff_getElem.mp h i j (by omega) hj hij

theorem asc_bound {cols : List ℕ} (h : cols.Pairwise (· < ·)) {n : ℕ} (hb : ∀ p ∈ cols, p < n) :
    ∀ k < cols.length, cols.getD (cols.length - 1 - k) 0 + k < n := by
  intro k
  induction k with
  | zero =>
    intro hk
    rw [List.getD_eq_getElem _ _ (by omega)]
    exact hb _ (List.getElem_mem _)
  | succ k ih =>
    intro hk
    have h1 := ih (by omega)
    have h2 := getD_asc h (i := cols.length - 1 - (k + 1)) (j := cols.length - 1 - k) (by omega) (by omega)
    omega

theorem MoveInv.step {l0 l l' : List X} {cols : List ℕ} {n k : ℕ} (h : MoveInv l0 cols n k l)
    (ha : cols.Pairwise (· < ·)) (hb : ∀ p ∈ cols, p < n) (hk : k < cols.length) (hp : l'.Perm l)
    (hl : ∀ q, l'[q]? = l[Equiv.swap (cols.getD (cols.length - 1 - k) 0) (n - 1 - k) q]?) :
    MoveInv l0 cols n (k + 1) l' := by
  have hbk := asc_bound ha hb k hk
  refine ⟨hp.length_eq.trans h.len, hp.trans h.perm, ?_, ?_⟩
  · intro i hi
    rw [hl, ← h.rest i (by omega), Equiv.swap_apply_of_ne_of_ne]
    · exact ne_of_lt (getD_asc ha (by omega) (by omega))
    · have := getD_asc ha (i := i) (j := cols.length - 1 - k) (by omega) (by omega)
      omega
  · intro i hi
    rw [hl]
    by_cases e : i = k
    · subst e
      rw [Equiv.swap_apply_right]
      exact h.rest _ (by omega)
    · rw [← h.last i (by omega), Equiv.swap_apply_of_ne_of_ne]
      · omega
      · omega

theorem MoveInv.split {l0 l : List X} {cols : List ℕ} {n : ℕ} (h : MoveInv l0 cols n cols.length l) (hn : cols.length ≤ n) :
    ∃ F R, l = F ++ R ∧ R.length = cols.length ∧ R.map some = cols.map (l0[·]?) := by
  refine ⟨l.take (n - cols.length), l.drop (n - cols.length), (List.take_append_drop _ _).symm, ?_, ?_⟩
  · rw [List.length_drop, h.len]; omega
  · refine List.ext_getElem? fun i => ?_
    rw [List.getElem?_map, List.getElem?_map, List.getElem?_drop]
    by_cases hi : i < cols.length
    · have h1 := h.last (cols.length - 1 - i) (by omega)
      rw [show n - 1 - (cols.length - 1 - i) = n - cols.length + i by omega,
        show cols.length - 1 - (cols.length - 1 - i) = i by omega, List.getD_eq_getElem _ _ hi] at h1
      have hlt : n - cols.length + i < l.length := by rw [h.len]; omega
      rw [List.getElem?_eq_getElem hlt] at h1 ⊢
      rw [List.getElem?_eq_getElem hi]
      simp only [Option.map_some]
      rw [h1]
    · rw [List.getElem?_eq_none (by rw [h.len]; omega), List.getElem?_eq_none (by omega)]; rfl

theorem perm_of_map_some {l l' : List X} (h : (l.map some).Perm (l'.map some)) : l.Perm l' := by
  have := h.filterMap id
  simpa using this

end lists

variable {K Cd Co T : Type} [Field K] [DecidableEq K] [LinearOrder T] (o : OpSys K Cd Co T)

/-- Map and set of one side. -/
structure SideOK {X : Type} (τ : X → T) (S : Side X T) : Prop where
  pos : PosOK τ S.ops S.pos
  set : SetOK τ S.set S.ops

/-- The stored matrix, sign and positions belong to the stored operators. -/
structure Core (s : DM K Cd Co T) (n : ℕ) : Prop where
  lcd : s.cd.ops.length = n
  lc : s.c.ops.length = n
  pcd : PosOK o.tcd s.cd.ops s.cd.pos
  pc : PosOK o.tc s.c.ops s.c.pos
  perm : s.perm = orderSign o.tcd s.cd.ops * orderSign o.tc s.c.ops
  inv : IsInvOf s.inv n (greenAt o.G s.c.ops s.cd.ops)

theorem Side.swap_ok {X : Type} {τ : X → T} {S : Side X T} {i j : ℕ} {a b : X} (hi : S.ops[i]? = some a)
    (hj : S.ops[j]? = some b) :
    S.swap τ i j = .ok ⟨(S.ops.set i b).set j a, Side.mapPut (Side.mapPut S.pos (τ a) j) (τ b) i, S.set⟩ := by
  unfold Side.swap
  rw [Res.get_eq_ok.mpr hi, Res.bind_ok, Res.get_eq_ok.mpr hj, Res.bind_ok]; rfl

theorem swapCd_ok {s : DM K Cd Co T} {n i j : ℕ} (h : Core o s n) (hi : i < n) (hj : j < n) :
    ∃ S X p, DM.swapCd o i j s = (.ok (), { s with cd := S, inv := X, perm := p }) ∧
      Core o { s with cd := S, inv := X, perm := p } n ∧ S.set = s.cd.set ∧ S.ops.Perm s.cd.ops ∧
      ∀ q, S.ops[q]? = s.cd.ops[Equiv.swap i j q]? := by
  unfold DM.swapCd
  simp only [Act.get_bind]
  by_cases hij : i = j
  · subst hij
    rw [if_pos rfl]
    exact ⟨s.cd, s.inv, s.perm, rfl, h, rfl, .refl _, fun q => by simp⟩
  · rw [if_neg hij]
    have ei : s.cd.ops[i]? = some (s.cd.ops[i]'(by rw [h.lcd]; exact hi)) := List.getElem?_eq_getElem _
    have ej : s.cd.ops[j]? = some (s.cd.ops[j]'(by rw [h.lcd]; exact hj)) := List.getElem?_eq_getElem _
    rw [Side.swap_ok ei ej, Act.lift_ok_bind, Act.assert_pos ⟨by rw [h.inv.1]; exact hi, by rw [h.inv.1]; exact hj⟩]
    refine ⟨_, _, _, rfl, ?_, rfl, set_swap_perm ei ej, getElem?_set_swap ei ej⟩
    refine ⟨by simpa using h.lcd, h.lc, h.pcd.exchange ei ej hij, h.pc, ?_, ?_⟩
    · simp only
      rw [orderSign_set_swap ei ej hij h.pcd.nodup, h.perm]; ring
    · refine (h.inv.swapRow hi hj).congr fun a _ b _ => ?_
      unfold greenAt
      simp only [getElem?_set_swap ei ej]

theorem swapC_ok {s : DM K Cd Co T} {n i j : ℕ} (h : Core o s n) (hi : i < n) (hj : j < n) :
    ∃ S X p, DM.swapC o i j s = (.ok (), { s with c := S, inv := X, perm := p }) ∧
      Core o { s with c := S, inv := X, perm := p } n ∧ S.set = s.c.set ∧ S.ops.Perm s.c.ops ∧
      ∀ q, S.ops[q]? = s.c.ops[Equiv.swap i j q]? := by
  unfold DM.swapC
  simp only [Act.get_bind]
  by_cases hij : i = j
  · subst hij
    rw [if_pos rfl]
    exact ⟨s.c, s.inv, s.perm, rfl, h, rfl, .refl _, fun q => by simp⟩
  · rw [if_neg hij]
    have ei : s.c.ops[i]? = some (s.c.ops[i]'(by rw [h.lc]; exact hi)) := List.getElem?_eq_getElem _
    have ej : s.c.ops[j]? = some (s.c.ops[j]'(by rw [h.lc]; exact hj)) := List.getElem?_eq_getElem _
    rw [Side.swap_ok ei ej, Act.lift_ok_bind, Act.assert_pos ⟨by rw [h.inv.2.1]; exact hi, by rw [h.inv.2.1]; exact hj⟩]
    refine ⟨_, _, _, rfl, ?_, rfl, set_swap_perm ei ej, getElem?_set_swap ei ej⟩
    refine ⟨h.lcd, by simpa using h.lc, h.pcd, h.pc.exchange ei ej hij, ?_, ?_⟩
    · simp only
      rw [orderSign_set_swap ei ej hij h.pc.nodup, h.perm]; ring
    · refine (h.inv.swapCol hi hj).congr fun a _ b _ => ?_
      unfold greenAt
      simp only [getElem?_set_swap ei ej]

theorem parity_eq (n : ℕ) : DM.parity n = (-1) ^ n := by
  unfold DM.parity
  rcases Nat.even_or_odd n with h | h
  · rw [if_pos (Nat.even_iff.mp h), h.neg_one_pow]
  · rw [if_neg (by rw [Nat.odd_iff.mp h]; decide), h.neg_one_pow]

/-- One operator appended. -/
theorem SideOK.push {X : Type} {τ : X → T} {S : Side X T} (h : SideOK τ S) {x : X} (hx : τ x ∉ S.ops.map τ) :
    SideOK τ (S.push τ x S.ops.length) := by
  have hh : ¬ S.Has (τ x) := fun hh => hx ((h.pos.key_iff _).mp hh)
  unfold Side.push
  rw [if_neg hh]
  exact ⟨h.pos.concat hx, (h.set.insert hx).congr (List.perm_append_singleton x S.ops).symm⟩

theorem sign_cancel {x y z w v : ℤ} (k l : ℕ)
    (h : x * (y * (-1) ^ k * (-1) ^ l) = z * (-1) ^ k * (w * (-1) ^ l) * v) : x * y = z * w * v := by
  rcases neg_one_pow_eq_or ℤ k with e | e <;> rcases neg_one_pow_eq_or ℤ l with e' | e' <;> rw [e, e'] at h
  · linear_combination h
  · linear_combination -h
  · linear_combination -h
  · linear_combination h

/-- The loop of `add_new_operators`. -/
theorem addLoop_ok (ps : List (Cd × Co)) : ∀ (s : DM K Cd Co T) (n : ℕ), SideOK o.tcd s.cd → SideOK o.tc s.c →
    s.cd.ops.length = s.c.ops.length →
    ((s.cd.ops ++ ps.map Prod.fst).map o.tcd).Nodup → ((s.c.ops ++ ps.map Prod.snd).map o.tc).Nodup →
    ∃ S S' m, Act.fold (fun (n : ℕ) (p : Cd × Co) => (do
        let s ← Act.get
        let q := s.cd.ops.length
        let n := n + s.cd.after (o.tcd p.1)
        Act.modify fun s => { s with cd := s.cd.push o.tcd p.1 q }
        Act.throwIf (s.cd.Has (o.tcd p.1)) .runtimeError
        let n := n + s.c.after (o.tc p.2)
        Act.modify fun s => { s with c := s.c.push o.tc p.2 q }
        Act.throwIf (s.c.Has (o.tc p.2)) .runtimeError
        pure n : Act (DM K Cd Co T) ℕ)) n ps s = (.ok m, { s with cd := S, c := S' }) ∧
      S.ops = s.cd.ops ++ ps.map Prod.fst ∧ S'.ops = s.c.ops ++ ps.map Prod.snd ∧ SideOK o.tcd S ∧ SideOK o.tc S' ∧
      orderSign o.tcd S.ops * orderSign o.tc S'.ops * (-1) ^ n =
        orderSign o.tcd s.cd.ops * orderSign o.tc s.c.ops * (-1) ^ m := by
  induction ps with
  | nil =>
    intro s n h1 h2 hl hn1 hn2
    exact ⟨s.cd, s.c, n, rfl, by simp, by simp, h1, h2, rfl⟩
  | cons p ps ih =>
    intro s n h1 h2 hl hn1 hn2
    rw [List.map_cons, List.append_cons] at hn1 hn2
    have f1 : o.tcd p.1 ∉ s.cd.ops.map o.tcd := by
      rw [List.map_append, List.map_append] at hn1
      have := (List.nodup_append.mp (List.nodup_append.mp hn1).1).2.2
      intro hm
      exact this _ hm (o.tcd p.1) (by simp) rfl
    have f2 : o.tc p.2 ∉ s.c.ops.map o.tc := by
      rw [List.map_append, List.map_append] at hn2
      have := (List.nodup_append.mp (List.nodup_append.mp hn2).1).2.2
      intro hm
      exact this _ hm (o.tc p.2) (by simp) rfl
    have g1 : ¬ s.cd.Has (o.tcd p.1) := fun hh => f1 ((h1.pos.key_iff _).mp hh)
    have g2 : ¬ s.c.Has (o.tc p.2) := fun hh => f2 ((h2.pos.key_iff _).mp hh)
    have k1 := h1.push f1
    have k2 : SideOK o.tc (s.c.push o.tc p.2 s.cd.ops.length) := by rw [hl]; exact h2.push f2
    obtain ⟨S, S', m, e, e1, e2, e3, e4, e5⟩ := ih
      { s with cd := s.cd.push o.tcd p.1 s.cd.ops.length, c := s.c.push o.tc p.2 s.cd.ops.length }
      (n + s.cd.after (o.tcd p.1) + s.c.after (o.tc p.2)) k1 k2 (by simp [Side.push, hl])
      (by simpa [Side.push] using hn1) (by simpa [Side.push] using hn2)
    refine ⟨S, S', m, ?_, by simpa [Side.push] using e1, by simpa [Side.push] using e2, e3, e4, ?_⟩
    · rw [Act.fold_cons, Act.bind_ok (a := n + s.cd.after (o.tcd p.1) + s.c.after (o.tc p.2)) (s' :=
        { s with cd := s.cd.push o.tcd p.1 s.cd.ops.length, c := s.c.push o.tc p.2 s.cd.ops.length })]
      · exact e
      · simp only [Act.get_bind, Act.modify_bind, Act.throwIf_neg g1, Act.throwIf_neg g2]
        rfl
    · have c1 : s.cd.after (o.tcd p.1) = s.cd.ops.countP (fun y => decide (o.tcd p.1 < o.tcd y)) :=
        h1.pos.count_fresh f1
      have c2 : s.c.after (o.tc p.2) = s.c.ops.countP (fun y => decide (o.tc p.2 < o.tc y)) :=
        h2.pos.count_fresh f2
      have d1 := orderSign_concat o.tcd s.cd.ops p.1
      have d2 := orderSign_concat o.tc s.c.ops p.2
      rw [← c1] at d1
      rw [← c2] at d2
      simp only [Side.push] at e5
      rw [d1, d2, pow_add, pow_add] at e5
      exact sign_cancel _ _ e5

theorem sign_eq_of_mul {a b c : ℤ} (hb : b * b = 1) (h : a = b * c) : c = b * a := by
  rw [h, ← mul_assoc, hb, one_mul]

/-- `add_new_operators` appends the pairs and returns the change of the sign. -/
theorem addNew_ok {s : DM K Cd Co T} (ps : List (Cd × Co)) (h1 : SideOK o.tcd s.cd) (h2 : SideOK o.tc s.c)
    (hl : s.cd.ops.length = s.c.ops.length) (hn1 : ((s.cd.ops ++ ps.map Prod.fst).map o.tcd).Nodup)
    (hn2 : ((s.c.ops ++ ps.map Prod.snd).map o.tc).Nodup) :
    ∃ S S', DM.addNew o ps s = (.ok (orderSign o.tcd s.cd.ops * orderSign o.tc s.c.ops *
        (orderSign o.tcd S.ops * orderSign o.tc S'.ops)), { s with cd := S, c := S' }) ∧
      S.ops = s.cd.ops ++ ps.map Prod.fst ∧ S'.ops = s.c.ops ++ ps.map Prod.snd ∧ SideOK o.tcd S ∧ SideOK o.tc S' := by
  obtain ⟨S, S', m, e, e1, e2, e3, e4, e5⟩ := addLoop_ok o ps s 0 h1 h2 hl hn1 hn2
  refine ⟨S, S', ?_, e1, e2, e3, e4⟩
  unfold DM.addNew
  rw [Act.bind_ok e, Act.run_pure, parity_eq]
  rw [pow_zero, mul_one] at e5
  have hsq : (orderSign o.tcd s.cd.ops * orderSign o.tc s.c.ops) * (orderSign o.tcd s.cd.ops * orderSign o.tc s.c.ops) = 1 := by
    rw [mul_mul_mul_comm, orderSign_sq, orderSign_sq, one_mul]
  rw [sign_eq_of_mul hsq e5]

/-- A side without its last operators. -/
def cutSide {X : Type} (τ : X → T) (S : Side X T) (F R : List X) : Side X T :=
  ⟨F, S.pos.filter (fun e => decide (e.1 ∉ R.map τ)), S.set.filter (fun y => decide (τ y ∉ R.map τ))⟩

theorem SetOK.truncate {X : Type} {τ : X → T} {set F R : List X} (h : SetOK τ set (F ++ R)) :
    SetOK τ (set.filter (fun y => decide (τ y ∉ R.map τ))) F := by
  refine ⟨h.sorted.sublist List.filter_sublist, ?_⟩
  refine (h.perm.filter _).trans ?_
  have hn := h.nodup
  rw [List.map_append] at hn
  have hd := (List.nodup_append.mp hn).2.2
  rw [List.filter_append]
  have e1 : F.filter (fun y => decide (τ y ∉ R.map τ)) = F := by
    rw [List.filter_eq_self]
    intro y hy
    simp only [decide_eq_true_eq]
    intro hm
    exact hd _ (List.mem_map_of_mem hy) _ hm rfl
  have e2 : R.filter (fun y => decide (τ y ∉ R.map τ)) = [] := by
    rw [List.filter_eq_nil_iff]
    intro y hy
    simp only [decide_eq_true_eq, not_not]
    exact List.mem_map_of_mem hy
  rw [e1, e2, List.append_nil]

theorem SetOK.filter_absent {X : Type} {τ : X → T} {set F R : List X} (h : SetOK τ set F)
    (hd : ∀ x ∈ F, τ x ∉ R.map τ) : set.filter (fun y => decide (τ y ∉ R.map τ)) = set := by
  rw [List.filter_eq_self]
  intro y hy
  simp only [decide_eq_true_eq]
  exact hd y (h.perm.subset hy)

theorem cutSide_nil {X : Type} {τ : X → T} {S : Side X T} : cutSide τ S S.ops [] = S := by
  unfold cutSide; simp

theorem cutSide_pop {X : Type} {τ : X → T} {S : Side X T} {F R : List X} {x : X} (h : S.ops = F ++ (R ++ [x])) :
    ∃ S', S.pop τ = .ok (S.after (τ x), S') ∧ S'.ops = F ++ R ∧ cutSide τ S' F R = cutSide τ S F (R ++ [x]) ∧
      S' = cutSide τ S (F ++ R) [x] := by
  refine ⟨⟨F ++ R, Side.mapErase S.pos (τ x), Side.setErase τ S.set x⟩, ?_, rfl, ?_, ?_⟩
  · unfold Side.pop
    rw [h, ← List.append_assoc, List.getLast?_concat]
    simp [List.dropLast_concat]
  · unfold cutSide Side.mapErase Side.setErase
    simp only [List.filter_filter, List.map_append, List.map_cons, List.map_nil, List.mem_append, List.mem_singleton,
      not_or, Bool.decide_and]
  · unfold cutSide Side.mapErase Side.setErase
    simp

theorem after_last {X : Type} {τ : X → T} {S : Side X T} {F : List X} {x : X} (h : PosOK τ S.ops S.pos)
    (e : S.ops = F ++ [x]) : orderSign τ S.ops = orderSign τ F * (-1) ^ (S.after (τ x) + 1) := by
  unfold Side.after
  have hd := h.nodup
  rw [h.count, e, orderSign_concat, List.countP_append]
  rw [e, List.map_append] at hd
  have hd' := (List.nodup_append.mp hd).2.2
  have : F.countP (fun y => decide (τ x < τ y)) = F.countP (fun y => decide (τ x ≤ τ y)) := by
    refine List.countP_congr fun y hy => ?_
    have : τ y ≠ τ x := hd' _ (List.mem_map_of_mem hy) _ (by simp)
    simp only [decide_eq_true_eq]
    exact ⟨le_of_lt, fun h => lt_of_le_of_ne h (Ne.symm this)⟩
  rw [this]
  simp [pow_add]

/-- The loop of `remove_last_operators`. -/
theorem removeLoop_ok (l : List ℕ) : ∀ (s : DM K Cd Co T) (n : ℕ) (FA : List Cd) (FB : List Co) (ps : List (Cd × Co)),
    l.length = ps.length → s.cd.ops = FA ++ ps.map Prod.fst → s.c.ops = FB ++ ps.map Prod.snd →
    PosOK o.tcd s.cd.ops s.cd.pos → PosOK o.tc s.c.ops s.c.pos →
    ∃ m, Act.fold (fun (n : ℕ) (_ : ℕ) => (do
        let s ← Act.get
        let (a, S) ← Act.lift (s.c.pop o.tc)
        let (b, S') ← Act.lift (s.cd.pop o.tcd)
        Act.modify fun s => { s with c := S, cd := S' }
        pure (n + a + b) : Act (DM K Cd Co T) ℕ)) n l s =
          (.ok m, { s with c := cutSide o.tc s.c FB (ps.map Prod.snd), cd := cutSide o.tcd s.cd FA (ps.map Prod.fst) }) ∧
      orderSign o.tcd s.cd.ops * orderSign o.tc s.c.ops * (-1) ^ n =
        orderSign o.tcd FA * orderSign o.tc FB * (-1) ^ m := by
  induction l with
  | nil =>
    intro s n FA FB ps hl hA hB h1 h2
    have : ps = [] := List.eq_nil_of_length_eq_zero (by simpa using hl.symm)
    subst this
    simp only [List.map_nil, List.append_nil] at hA hB
    refine ⟨n, ?_, by rw [hA, hB]⟩
    rw [← hA, ← hB]
    simp only [List.map_nil, cutSide_nil]
    rfl
  | cons a l ih =>
    intro s n FA FB ps hl hA hB h1 h2
    rcases List.eq_nil_or_concat ps with rfl | ⟨ps', p, rfl⟩
    · simp at hl
    · simp only [List.concat_eq_append, List.map_append, List.map_cons, List.map_nil] at hA hB hl ⊢
      obtain ⟨S', e1, e2, e3, e4⟩ := cutSide_pop (τ := o.tcd) hA
      obtain ⟨S, f1, f2, f3, f4⟩ := cutSide_pop (τ := o.tc) hB
      have q1 : PosOK o.tcd S'.ops S'.pos := by
        rw [e4]; rw [hA, ← List.append_assoc] at h1; exact h1.truncate
      have q2 : PosOK o.tc S.ops S.pos := by
        rw [f4]; rw [hB, ← List.append_assoc] at h2; exact h2.truncate
      obtain ⟨m, g1, g2⟩ := ih { s with c := S, cd := S' } (n + s.c.after (o.tc p.2) + s.cd.after (o.tcd p.1)) FA FB ps'
        (by simpa using hl) e2 f2 q1 q2
      refine ⟨m, ?_, ?_⟩
      · rw [Act.fold_cons, Act.bind_ok (a := n + s.c.after (o.tc p.2) + s.cd.after (o.tcd p.1))
          (s' := { s with c := S, cd := S' })]
        · rw [g1]
          simp only [e3, f3]
        · simp only [Act.get_bind, f1, e1, Act.lift_ok_bind, Act.modify_bind]
          rfl
      · rw [after_last h1 (by rw [hA, List.append_assoc] : s.cd.ops = (FA ++ ps'.map Prod.fst) ++ [p.1]),
          after_last h2 (by rw [hB, List.append_assoc] : s.c.ops = (FB ++ ps'.map Prod.snd) ++ [p.2])]
        simp only [e2, f2] at g2
        rw [← g2]
        simp only [pow_add, pow_one]; ring

/-- `remove_last_operators` cuts off the last pairs and returns the change of the sign. -/
theorem removeLast_ok {s : DM K Cd Co T} {FA : List Cd} {FB : List Co} (ps : List (Cd × Co))
    (hA : s.cd.ops = FA ++ ps.map Prod.fst) (hB : s.c.ops = FB ++ ps.map Prod.snd)
    (h1 : PosOK o.tcd s.cd.ops s.cd.pos) (h2 : PosOK o.tc s.c.ops s.c.pos) :
    DM.removeLast o (ps.length : ℤ) s = (.ok (orderSign o.tcd s.cd.ops * orderSign o.tc s.c.ops *
        (orderSign o.tcd FA * orderSign o.tc FB)),
      { s with c := cutSide o.tc s.c FB (ps.map Prod.snd), cd := cutSide o.tcd s.cd FA (ps.map Prod.fst) }) := by
  obtain ⟨m, e, e'⟩ := removeLoop_ok o (List.range ps.length) s 0 FA FB ps (by simp) hA hB h1 h2
  unfold DM.removeLast
  rw [Act.get_bind, Act.throwIf_neg (by rw [hA]; simp)]
  rw [Int.toNat_natCast, Act.bind_ok e, Act.run_pure, parity_eq]
  rw [pow_zero, mul_one] at e'
  have hsq : (orderSign o.tcd FA * orderSign o.tc FB) * (orderSign o.tcd FA * orderSign o.tc FB) = 1 := by
    rw [mul_mul_mul_comm, orderSign_sq, orderSign_sq, one_mul]
  rw [sign_eq_of_mul hsq e', mul_comm]

end CTInt
