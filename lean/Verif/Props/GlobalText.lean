import Verif.Model.GlobalText
import Verif.Spec.GlobalText
import Verif.Props.Global
import Verif.Props.GreenText

/-!
# C93: the file of global updates, word by word
-/

set_option linter.all false

namespace CTInt

/-! ## The set of moves -/

theorem mem_insertMove {g h : List ℕ} {l : List (List ℕ)} : h ∈ insertMove g l ↔ h = g ∨ h ∈ l := by
  induction l with
  | nil => simp [insertMove]
  | cons a l ih =>
    unfold insertMove
    split
    · simp
    · split
      · simp only [List.mem_cons, ih]
        tauto
      · rename_i h1 h2
        have e : g = a := le_antisymm (not_lt.mp h2) (not_lt.mp h1)
        subst e
        simp

theorem insertMove_sorted {g : List ℕ} {l : List (List ℕ)} (h : l.Pairwise (· < ·)) : (insertMove g l).Pairwise (· < ·) := by
  induction l with
  | nil => simp [insertMove]
  | cons a l ih =>
    have h' := List.pairwise_cons.mp h
    unfold insertMove
    split
    · rename_i hg
      refine List.pairwise_cons.mpr ⟨fun x hx => ?_, h⟩
      rcases List.mem_cons.mp hx with rfl | hx
      · exact hg
      · exact lt_trans hg (h'.1 x hx)
    · split
      · rename_i hg
        refine List.pairwise_cons.mpr ⟨fun x hx => ?_, ih h'.2⟩
        rcases mem_insertMove.mp hx with rfl | hx
        · exact hg
        · exact h'.1 x hx
      · exact h

/-- The moves and their reverses, inserted one after the other. -/
def collectMoves (n : ℕ) (set : List (List ℕ)) (ds : List (List ℕ)) : List (List ℕ) :=
  ds.foldl (fun s g => insertMove (reverseMove n g) (insertMove g s)) set

theorem mem_collect {n : ℕ} {g : List ℕ} {ds set : List (List ℕ)} :
    g ∈ collectMoves n set ds ↔ g ∈ set ∨ ∃ d ∈ ds, g = d ∨ g = reverseMove n d := by
  induction ds generalizing set with
  | nil => simp [collectMoves]
  | cons d ds ih =>
    show g ∈ collectMoves n (insertMove (reverseMove n d) (insertMove d set)) ds ↔ _
    rw [ih, mem_insertMove, mem_insertMove]
    simp only [List.mem_cons, exists_eq_or_imp]
    generalize (∃ d ∈ ds, g = d ∨ g = reverseMove n d) = q
    generalize reverseMove n d = p
    tauto

theorem collect_sorted {n : ℕ} {ds set : List (List ℕ)} (h : set.Pairwise (· < ·)) :
    (collectMoves n set ds).Pairwise (· < ·) := by
  induction ds generalizing set with
  | nil => exact h
  | cons d ds ih => exact ih (insertMove_sorted (insertMove_sorted h))

/-! ## Lines -/

theorem into_int (z : ℤ) (l : List Tok) (o : Option ℤ) : Tok.into 0 Tok.asInt (some (.int z :: l)) o = (some z, some l) := rfl

theorem line_forward {n i d : ℕ} (hd : d < n) (w : List Tok) (a b : Option ℤ) (l : List ℕ) :
    readLineM n (⟨some (.int i :: .int d :: w), a, b⟩, l) i = .ok (⟨some w, some i, some d⟩, l ++ [d]) := by
  unfold readLineM
  simp only [into_int, Res.val, Res.bind_ok]
  rw [Res.throwIf_false (by rintro (q | q | q) <;> omega)]
  simp

/-- What an accepted line leaves. -/
theorem line_ok {n i : ℕ} {v v' : MoveVars} {l l' : List ℕ} (h : readLineM n (v, l) i = .ok (v', l')) :
    v'.src = some (i : ℤ) ∧ ∃ d, d < n ∧ v'.dst = some (d : ℤ) ∧ l' = l ++ [d] := by
  unfold readLineM at h
  rcases hs : Tok.into 0 Tok.asInt v.s v.src with ⟨src, s⟩
  rcases hd : Tok.into 0 Tok.asInt s v.dst with ⟨dst, s'⟩
  simp only [hs, hd] at h
  rcases src with _ | x
  · simp [Res.val] at h
  rcases dst with _ | y
  · simp [Res.val] at h
  simp only [Res.val, Res.bind_ok] at h
  by_cases c : x ≠ i ∨ y < 0 ∨ y ≥ n
  · rw [Res.throwIf_true c] at h
    simp at h
  · rw [Res.throwIf_false c] at h
    simp only [Res.bind_ok, Res.pure_eq, Res.ok.injEq, Prod.mk.injEq] at h
    obtain ⟨rfl, rfl⟩ := h
    push Not at c
    obtain ⟨c1, c2, c3⟩ := c
    refine ⟨by simp [c1], y.toNat, by omega, by simp [Int.toNat_of_nonneg c2], rfl⟩

/-- If the stream is good after an accepted line, the line was there. -/
theorem line_good {n i d : ℕ} {v v' : MoveVars} {l : List ℕ} {w : List Tok}
    (h : readLineM n (v, l) i = .ok (v', l ++ [d])) (hw : v'.s = some w) : v.s = some (.int i :: .int d :: w) := by
  obtain ⟨h1, e, _, h2, h3⟩ := line_ok h
  obtain rfl : d = e := by simpa using h3
  unfold readLineM at h
  rcases hs : Tok.into 0 Tok.asInt v.s v.src with ⟨src, s⟩
  rcases hd : Tok.into 0 Tok.asInt s v.dst with ⟨dst, s'⟩
  simp only [hs, hd] at h
  obtain ⟨x, _, h⟩ := Res.bind_eq_ok.mp h
  obtain ⟨y, _, h⟩ := Res.bind_eq_ok.mp h
  obtain ⟨_, _, h⟩ := Res.bind_eq_ok.mp h
  simp only [Res.pure_eq, Res.ok.injEq, Prod.mk.injEq] at h
  obtain ⟨rfl, _⟩ := h
  simp only at h1 h2 hw
  subst h1 h2 hw
  obtain ⟨z, rfl, ez⟩ := into_int_good hd
  obtain ⟨z', e', ez'⟩ := into_int_good hs
  rw [e']
  simp_all

/-- Without a line in the stream, the number of the line before does not fit. -/
theorem line_first {n i d : ℕ} {v v' : MoveVars} {l : List ℕ} (hi : i ≠ 0)
    (hv : v.src ≠ some (i : ℤ)) (h : readLineM n (v, l) i = .ok (v', l ++ [d])) : ∃ w, v.s = some (.int i :: w) := by
  obtain ⟨h1, _⟩ := line_ok h
  unfold readLineM at h
  rcases hs : Tok.into 0 Tok.asInt v.s v.src with ⟨src, s⟩
  rcases hd : Tok.into 0 Tok.asInt s v.dst with ⟨dst, s'⟩
  simp only [hs, hd] at h
  obtain ⟨x, _, h⟩ := Res.bind_eq_ok.mp h
  obtain ⟨y, _, h⟩ := Res.bind_eq_ok.mp h
  obtain ⟨_, _, h⟩ := Res.bind_eq_ok.mp h
  simp only [Res.pure_eq, Res.ok.injEq, Prod.mk.injEq] at h
  obtain ⟨rfl, _⟩ := h
  simp only at h1
  subst h1
  rcases e : v.s with _ | (_ | ⟨t, w⟩)
  · rw [e] at hs
    simp only [Tok.into, Prod.mk.injEq] at hs
    exact absurd hs.1 hv
  · rw [e] at hs
    simp only [Tok.into, Prod.mk.injEq] at hs
    exact absurd hs.1 hv
  · rw [e] at hs
    cases t with
    | int z =>
      simp only [Tok.into, Tok.asInt, Prod.mk.injEq, Option.some.injEq] at hs
      exact ⟨w, by rw [hs.1]⟩
    | _ =>
      simp only [Tok.into, Tok.asInt, Prod.mk.injEq, Option.some.injEq] at hs
      exact absurd hs.1.symm (by exact_mod_cast hi)

/-- The lines of the types `is` are accepted with the destinations `ds`. -/
inductive Reads (n : ℕ) : MoveVars → List ℕ → List ℕ → MoveVars → Prop where
  | nil (v) : Reads n v [] [] v
  | cons {v v1 v' i is d ds} : readLineM n (v, []) i = .ok (v1, [d]) → Reads n v1 is ds v' → Reads n v (i :: is) (d :: ds) v'

theorem line_acc {n i : ℕ} (v : MoveVars) (l : List ℕ) :
    readLineM n (v, l) i = readLineM n (v, []) i >>= fun p => .ok (p.1, l ++ p.2) := by
  unfold readLineM
  rcases Tok.into 0 Tok.asInt v.s v.src with ⟨src, s⟩
  simp only
  rcases Tok.into 0 Tok.asInt s v.dst with ⟨dst, s'⟩
  simp only
  rcases src with _ | x
  · rfl
  rcases dst with _ | y
  · rfl
  simp only [Res.val, Res.bind_ok]
  by_cases c : x ≠ i ∨ y < 0 ∨ y ≥ n
  · rw [Res.throwIf_true c]; rfl
  · rw [Res.throwIf_false c]; simp

theorem fold_reads {n : ℕ} {is l l' : List ℕ} {v v' : MoveVars} :
    Res.foldl (readLineM n) (v, l) is = .ok (v', l') ↔ ∃ ds, l' = l ++ ds ∧ Reads n v is ds v' := by
  induction is generalizing v l with
  | nil =>
    simp only [Res.foldl_nil, Res.ok.injEq, Prod.mk.injEq]
    constructor
    · rintro ⟨rfl, rfl⟩
      exact ⟨[], by simp, .nil _⟩
    · rintro ⟨ds, rfl, h⟩
      cases h
      exact ⟨rfl, by simp⟩
  | cons i is ih =>
    rw [Res.foldl_cons, line_acc]
    constructor
    · intro h
      obtain ⟨⟨v1, l1⟩, h1, h⟩ := Res.bind_eq_ok.mp h
      obtain ⟨⟨v2, l2⟩, h2, h1⟩ := Res.bind_eq_ok.mp h1
      simp only [Res.ok.injEq, Prod.mk.injEq] at h1
      obtain ⟨rfl, rfl⟩ := h1
      obtain ⟨ds, e, hr⟩ := ih.mp h
      obtain ⟨_, d, _, _, rfl⟩ := line_ok h2
      exact ⟨d :: ds, by simpa using e, .cons h2 hr⟩
    · rintro ⟨ds, rfl, h⟩
      cases h with
      | @cons _ v1 _ _ _ d ds h1 h2 =>
        rw [h1]
        simp only [Res.bind_ok]
        exact ih.mpr ⟨ds, by simp, h2⟩

theorem Reads.length {n : ℕ} {is ds : List ℕ} {v v' : MoveVars} (h : Reads n v is ds v') : ds.length = is.length := by
  induction h with
  | nil => rfl
  | cons _ _ ih => simp [ih]

theorem Reads.lt {n : ℕ} {is ds : List ℕ} {v v' : MoveVars} (h : Reads n v is ds v') : ∀ d ∈ ds, d < n := by
  induction h with
  | nil => simp
  | cons h1 _ ih =>
    obtain ⟨_, d, hd, _, e⟩ := line_ok h1
    obtain rfl := by simpa using e
    intro x hx
    rcases List.mem_cons.mp hx with rfl | hx
    · exact hd
    · exact ih x hx

theorem Reads.append {n : ℕ} {is ds is' ds' : List ℕ} {v v1 v' : MoveVars} (h : Reads n v is ds v1)
    (h' : Reads n v1 is' ds' v') : Reads n v (is ++ is') (ds ++ ds') v' := by
  induction h with
  | nil => exact h'
  | cons h1 _ ih => exact .cons h1 (ih h')

/-- The words of the lines are accepted. -/
theorem reads_text {n : ℕ} {is ds : List ℕ} (hl : is.length = ds.length) (hd : ∀ d ∈ ds, d < n) (w : List Tok)
    (a b : Option ℤ) : ∃ v', Reads n ⟨some (linesText (is.zip ds) ++ w), a, b⟩ is ds v' ∧ v'.s = some w := by
  induction is generalizing ds a b with
  | nil =>
    obtain rfl : ds = [] := List.length_eq_zero_iff.mp hl.symm
    exact ⟨_, .nil _, rfl⟩
  | cons i is ih =>
    rcases ds with _ | ⟨d, ds⟩
    · simp at hl
    obtain ⟨v', h1, h2⟩ := ih (ds := ds) (by simpa using hl) (fun x hx => hd x (List.mem_cons_of_mem _ hx)) (some i) (some d)
    refine ⟨v', .cons ?_ h1, h2⟩
    exact line_forward (hd d (by simp)) _ _ _ _

/-- Lines that are accepted are in the stream, up to the last destination. -/
theorem reads_back {n : ℕ} {is ds : List ℕ} {v v' : MoveVars} (h : Reads n v is ds v') (hne : is ≠ [])
    (hc : is.IsChain (· ≠ ·)) (hlast : is.getLast hne ≠ 0) (hv : ∀ i, is.head? = some i → v.src ≠ some (i : ℤ)) :
    ∃ w, v.s = some w ∧ (linesText (is.zip ds)).dropLast <+: w := by
  induction h with
  | nil => exact absurd rfl hne
  | @cons v v1 v' i is d ds h1 h2 ih =>
    rcases is with _ | ⟨i', is⟩
    · cases h2
      obtain ⟨w, hw⟩ := line_first (l := []) (by simpa using hlast) (hv i rfl) h1
      exact ⟨_, hw, ⟨w, rfl⟩⟩
    · rcases ds with _ | ⟨d', ds⟩
      · cases h2
      have hc' := List.isChain_cons_cons.mp hc
      obtain ⟨w, hw, hp⟩ := ih (by simp) hc'.2 (by simpa using hlast) (by
        intro j hj
        simp only [List.head?_cons, Option.some.injEq] at hj
        subst hj
        rw [(line_ok h1).1]
        intro e
        exact hc'.1 (by exact_mod_cast (Option.some.inj e)))
      have hg := line_good (l := []) h1 hw
      refine ⟨_, hg, ?_⟩
      have : (linesText ((i :: i' :: is).zip (d :: d' :: ds))).dropLast =
          .int i :: .int d :: (linesText ((i' :: is).zip (d' :: ds))).dropLast := rfl
      rw [this]
      exact List.cons_prefix_cons.mpr ⟨rfl, List.cons_prefix_cons.mpr ⟨rfl, hp⟩⟩

/-! ## Moves -/

theorem fold_moves {n : ℕ} {k : List ℕ} {v v' : MoveVars} {set set' : List (List ℕ)} :
    Res.foldl (readMoveM n) (v, set) k = .ok (v', set') ↔
      ∃ ds : List (List ℕ), ds.length = k.length ∧ (∀ d ∈ ds, MoveOf n d) ∧ set' = collectMoves n set ds ∧
        Reads n v (List.replicate k.length (List.range n)).flatten ds.flatten v' := by
  induction k generalizing v set with
  | nil =>
    simp only [Res.foldl_nil, Res.ok.injEq, Prod.mk.injEq, List.length_nil]
    constructor
    · rintro ⟨rfl, rfl⟩
      exact ⟨[], rfl, by simp, rfl, .nil _⟩
    · rintro ⟨ds, hl, _, rfl, h⟩
      obtain rfl := List.length_eq_zero_iff.mp hl
      cases h
      exact ⟨rfl, rfl⟩
  | cons x k ih =>
    rw [Res.foldl_cons]
    unfold readMoveM
    simp only [List.length_cons, List.replicate_succ, List.flatten_cons]
    constructor
    · intro h
      obtain ⟨⟨v1, s1⟩, h1, h⟩ := Res.bind_eq_ok.mp h
      obtain ⟨⟨v2, g⟩, h2, h1⟩ := Res.bind_eq_ok.mp h1
      simp only [Res.pure_eq, Res.ok.injEq, Prod.mk.injEq] at h1
      obtain ⟨rfl, rfl⟩ := h1
      obtain ⟨d, e, hr⟩ := fold_reads.mp h2
      rw [List.nil_append] at e
      rw [e] at h
      obtain ⟨ds, hl, hm, rfl, hr'⟩ := ih.mp h
      refine ⟨d :: ds, by simp [hl], ?_, rfl, hr.append hr'⟩
      intro y hy
      rcases List.mem_cons.mp hy with rfl | hy
      · exact ⟨by simpa using hr.length, hr.lt⟩
      · exact hm y hy
    · rintro ⟨ds, hl, hm, rfl, h⟩
      rcases ds with _ | ⟨d, ds⟩
      · simp at hl
      have split : ∀ {is ds is' ds' : List ℕ} {v v' : MoveVars}, is.length = ds.length → Reads n v (is ++ is') (ds ++ ds') v' →
          ∃ v1, Reads n v is ds v1 ∧ Reads n v1 is' ds' v' := by
        intro is
        induction is with
        | nil =>
          intro ds is' ds' v v' hl h
          obtain rfl : ds = [] := List.length_eq_zero_iff.mp hl.symm
          exact ⟨v, .nil _, h⟩
        | cons i is ih =>
          intro ds is' ds' v v' hl h
          rcases ds with _ | ⟨d, ds⟩
          · simp at hl
          cases h with
          | cons h1 h2 =>
            obtain ⟨v1, q1, q2⟩ := ih (by simpa using hl) h2
            exact ⟨v1, .cons h1 q1, q2⟩
      obtain ⟨v1, q1, q2⟩ := split (by simp [(hm d (by simp)).len]) h
      rw [fold_reads.mpr ⟨d, rfl, q1⟩]
      simp only [Res.bind_ok, List.nil_append]
      exact ih.mpr ⟨ds, by simpa using hl, fun y hy => hm y (List.mem_cons_of_mem _ hy), rfl, q2⟩

theorem linesText_append (a b : List (ℕ × ℕ)) : linesText (a ++ b) = linesText a ++ linesText b := by
  simp [linesText]

theorem moves_lines {n : ℕ} {ds : List (List ℕ)} (h : ∀ d ∈ ds, MoveOf n d) :
    ds.flatMap moveText = linesText ((List.replicate ds.length (List.range n)).flatten.zip ds.flatten) := by
  induction ds with
  | nil => rfl
  | cons d ds ih =>
    have hd := (h d (by simp)).len
    rw [List.flatMap_cons, ih fun x hx => h x (List.mem_cons_of_mem _ hx), List.length_cons, List.replicate_succ,
      List.flatten_cons, List.flatten_cons, List.zip_append (by simp [hd]), linesText_append]
    unfold moveText
    rw [hd]

theorem readMovesText_num {n : ℕ} {N : ℤ} {l : List Tok} {moves : List (List ℕ)} :
    readMovesText n (some (.int N :: l)) = .ok moves ↔ ∃ v', Res.foldl (readMoveM n) (⟨some l, none, none⟩, []) (List.range N.toNat) = .ok (v', moves) := by
  unfold readMovesText
  simp only [into_int, Res.val, Res.bind_ok]
  rw [Res.bind_eq_ok]
  constructor
  · rintro ⟨⟨v, m⟩, h, e⟩
    simp only [Res.pure_eq, Res.ok.injEq] at e
    subst e
    exact ⟨v, h⟩
  · rintro ⟨v, h⟩
    exact ⟨(v, moves), h, rfl⟩

theorem readText_of {n : ℕ} {ds : List (List ℕ)} (h : ∀ d ∈ ds, MoveOf n d) (rest : List Tok) :
    readMovesText n (some (movesText ds ++ rest)) = .ok (collectMoves n [] ds) := by
  unfold movesText
  rw [List.cons_append, moves_lines h]
  refine readMovesText_num.mpr ?_
  obtain ⟨v', h1, _⟩ := reads_text (n := n) (is := (List.replicate ds.length (List.range n)).flatten) (ds := ds.flatten) (by
    simp only [List.length_flatten, List.map_replicate, List.length_range, List.sum_replicate]
    have : ds.map List.length = List.replicate ds.length n := by
      rw [List.eq_replicate_iff]
      refine ⟨by simp, fun x hx => ?_⟩
      obtain ⟨d, hd, rfl⟩ := List.mem_map.mp hx
      exact (h d hd).len
    rw [this, List.sum_replicate]) (by
    intro x hx
    obtain ⟨d, hd, hx⟩ := List.mem_flatten.mp hx
    exact (h d hd).lt x hx) rest none none
  exact ⟨v', fold_moves.mpr ⟨ds, by simp, h, rfl, by simpa using h1⟩⟩

theorem reverseMove_length (n : ℕ) (g : List ℕ) : (reverseMove n g).length = n := by
  unfold reverseMove
  have : ∀ (l : List ℕ) (r : List ℕ), (l.foldl (fun rev iv => rev.set (g.getD iv 0) iv) r).length = r.length := by
    intro l
    induction l with
    | nil => intro r; rfl
    | cons a l ih => intro r; rw [List.foldl_cons, ih, List.length_set]
  rw [this, List.length_replicate]

/-- C93: a file that holds the number of moves and, for every move, a permutation of the types, is read as it is written,
    whatever follows: every move of the file is in the list, everything in the list is a move of the file or undoes one,
    everything in the list is undone by something in the list, and the list is in strictly increasing lexicographic
    order. -/
theorem C93_text {n : ℕ} {ds : List (List ℕ)} (h : ∀ d ∈ ds, MoveOf n d) (hinj : ∀ d ∈ ds, d.Nodup) (rest : List Tok) :
    ∃ moves, readMovesText n (some (movesText ds ++ rest)) = .ok moves ∧ moves.Pairwise (· < ·) ∧ (∀ d ∈ ds, d ∈ moves) ∧
      (∀ g ∈ moves, g ∈ ds ∨ ∃ d ∈ ds, g.length = n ∧ Undoes n d g) ∧ ∀ g ∈ moves, ∃ k ∈ moves, Undoes n g k := by
  have und : ∀ d ∈ ds, Undoes n d (reverseMove n d) := fun d hd =>
    reverse_undoes (h d hd).len (fun t ht => by
      rw [List.getD_eq_getElem _ _ (by rw [(h d hd).len]; exact ht)]
      exact (h d hd).lt _ (List.getElem_mem _)) (hinj d hd)
  refine ⟨_, readText_of h rest, collect_sorted List.Pairwise.nil, fun d hd => mem_collect.mpr (.inr ⟨d, hd, .inl rfl⟩), ?_, ?_⟩
  · intro g hg
    rcases mem_collect.mp hg with hg | ⟨d, hd, rfl | rfl⟩
    · simp at hg
    · exact .inl hd
    · exact .inr ⟨d, hd, reverseMove_length _ _, und d hd⟩
  · intro g hg
    rcases mem_collect.mp hg with hg | ⟨d, hd, rfl | rfl⟩
    · simp at hg
    · exact ⟨_, mem_collect.mpr (.inr ⟨g, hd, .inr rfl⟩), und g hd⟩
    · exact ⟨d, mem_collect.mpr (.inr ⟨d, hd, .inl rfl⟩), (und d hd).symm⟩

/-- Two moves of three types, one of them a three-cycle. -/
example : (∀ d ∈ [[1, 2, 0], [1, 0, 2]], MoveOf 3 d) ∧ (∀ d ∈ [[1, 2, 0], [1, 0, 2]], d.Nodup) ∧
    movesText [[1, 2, 0], [1, 0, 2]] = [.int 2, .int 0, .int 1, .int 1, .int 2, .int 2, .int 0, .int 0, .int 1, .int 1, .int 0, .int 2, .int 2] := by
  refine ⟨?_, by decide, rfl⟩
  intro d hd
  simp only [List.mem_cons, List.not_mem_nil, or_false] at hd
  rcases hd with rfl | rfl <;> exact ⟨rfl, by decide⟩

theorem types_chain {n : ℕ} (hn : 2 ≤ n) (N : ℕ) : (List.replicate N (List.range n)).flatten.IsChain (· ≠ ·) ∧
    ∀ x ∈ (List.replicate N (List.range n)).flatten.head?, x = 0 := by
  obtain ⟨m, rfl⟩ : ∃ m, n = m + 1 := ⟨n - 1, by omega⟩
  have hr : (List.range (m + 1)).IsChain (· ≠ ·) := by
    rw [List.isChain_iff_getElem]
    intro i hi
    simp
  induction N with
  | zero => simp
  | succ N ih =>
    rw [List.replicate_succ, List.flatten_cons]
    refine ⟨List.isChain_append.mpr ⟨hr, ih.1, ?_⟩, ?_⟩
    · intro x hx y hy
      rw [ih.2 y hy]
      rw [List.range_succ] at hx
      simp only [List.getLast?_append, List.getLast?_singleton, Option.mem_def, Option.or_some, Option.getD_none,
        Option.some_or, Option.some.injEq] at hx
      omega
    · intro x hx
      rw [List.range_succ_eq_map] at hx
      simpa [eq_comm] using hx

/-- C93: if there are at least two types, a file that announces `N > 0` moves is accepted only if it holds all of them: `N` moves
    with one destination per type, each type announced by its number, up to the very last word; and the list holds these moves.
    (Partial: the last word may be missing or unreadable, see `C93_cut_violation`.) -/
theorem C93_incomplete_partial {n : ℕ} (hn : 2 ≤ n) {N : ℤ} (hN : 0 < N) {l : List Tok} {moves : List (List ℕ)}
    (h : readMovesText n (some (.int N :: l)) = .ok moves) :
    ∃ ds : List (List ℕ), (ds.length : ℤ) = N ∧ (∀ d ∈ ds, MoveOf n d) ∧ (movesText ds).dropLast <+: .int N :: l ∧
      (∀ d ∈ ds, d ∈ moves) ∧ moves.Pairwise (· < ·) := by
  obtain ⟨v', h⟩ := readMovesText_num.mp h
  obtain ⟨ds, hl, hm, rfl, hr⟩ := fold_moves.mp h
  rw [List.length_range] at hl hr
  obtain ⟨M, hM⟩ : ∃ M, N.toNat = M + 1 := ⟨N.toNat - 1, by omega⟩
  have hne : (List.replicate N.toNat (List.range n)).flatten ≠ [] := by
    rw [hM, List.replicate_succ, List.flatten_cons]
    intro e
    have := (List.append_eq_nil_iff.mp e).1
    rw [List.range_eq_nil] at this
    omega
  have hlast : (List.replicate N.toNat (List.range n)).flatten.getLast hne ≠ 0 := by
    have e : (List.replicate N.toNat (List.range n)).flatten = ((List.replicate M (List.range n)).flatten ++ List.range (n - 1)) ++ [n - 1] := by
      rw [hM, List.replicate_succ', List.flatten_append, List.flatten_singleton, List.append_assoc, ← List.range_succ]
      congr 2
      omega
    rw [List.getLast_congr _ (by simp) e, List.getLast_concat]
    omega
  obtain ⟨w, hw, hp⟩ := reads_back hr hne (types_chain hn _).1 hlast (by intro i _; simp)
  simp only [Option.some.injEq] at hw
  subst hw
  refine ⟨ds, by omega, hm, ?_, fun d hd => mem_collect.mpr (.inr ⟨d, hd, .inl rfl⟩), collect_sorted List.Pairwise.nil⟩
  unfold movesText
  rw [moves_lines hm, hl]
  have hne' : linesText ((List.replicate N.toNat (List.range n)).flatten.zip ds.flatten) ≠ [] := by
    have hlen := hr.length
    rcases hx : (List.replicate N.toNat (List.range n)).flatten with _ | ⟨a, as⟩
    · exact absurd hx hne
    rcases hy : ds.flatten with _ | ⟨b, bs⟩
    · rw [hx, hy] at hlen
      simp at hlen
    simp [linesText]
  rw [List.dropLast_cons_of_ne_nil hne']
  refine List.cons_prefix_cons.mpr ⟨?_, hp⟩
  rw [Int.toNat_of_nonneg hN.le]

/-- Such a file. -/
example : ∃ moves, readMovesText 2 (some [.int 1, .int 0, .int 1, .int 1, .int 0]) = .ok moves :=
  ⟨_, readText_of (ds := [[1, 0]]) (by
    intro d hd
    obtain rfl := List.mem_singleton.mp hd
    exact ⟨rfl, by decide⟩) []⟩

/-- C93 fails in the last word: a file without it is accepted, the last type gets the destination of the type before, and no move
    can undo the move that is put into the list. -/
theorem C93_cut_violation {n : ℕ} {ds : List (List ℕ)} {d : List ℕ} {x y : ℕ} (h : ∀ d ∈ ds, MoveOf n d)
    (hd : MoveOf n (d ++ [x, y])) :
    ∃ moves, readMovesText n (some (movesText (ds ++ [d ++ [x, y]])).dropLast) = .ok moves ∧ d ++ [x, x] ∈ moves ∧
      ∀ g, ¬ Undoes n (d ++ [x, x]) g := by
  have hlen := hd.len
  obtain ⟨m, rfl, rfl⟩ : ∃ m, n = m + 2 ∧ d.length = m := ⟨d.length, by simpa using hlen.symm, rfl⟩
  have hx : x < d.length + 2 := hd.lt x (by simp)
  have hd' : MoveOf (d.length + 2) (d ++ [x, x]) := ⟨by simp, fun z hz => hd.lt z (by simp at hz ⊢; tauto)⟩
  have hall : ∀ e ∈ ds ++ [d ++ [x, y]], MoveOf (d.length + 2) e := by
    intro e he
    rcases List.mem_append.mp he with he | he
    · exact h e he
    · obtain rfl := List.mem_singleton.mp he
      exact hd
  have hall' : ∀ e ∈ ds ++ [d ++ [x, x]], MoveOf (d.length + 2) e := by
    intro e he
    rcases List.mem_append.mp he with he | he
    · exact h e he
    · obtain rfl := List.mem_singleton.mp he
      exact hd'
  have hrange : List.range (d.length + 2) = List.range d.length ++ [d.length, d.length + 1] := by
    rw [List.range_succ, List.range_succ, List.append_assoc]
    rfl
  set P := (List.replicate ds.length (List.range (d.length + 2))).flatten ++ List.range d.length with hP
  have hPl : P.length = (ds.flatten ++ d).length := by
    rw [hP]
    simp only [List.length_append, List.length_flatten, List.map_replicate, List.length_range, List.sum_replicate]
    have : ds.map List.length = List.replicate ds.length (d.length + 2) := by
      rw [List.eq_replicate_iff]
      refine ⟨by simp, fun z hz => ?_⟩
      obtain ⟨e, he, rfl⟩ := List.mem_map.mp hz
      exact (h e he).len
    rw [this, List.sum_replicate]
  have his : (List.replicate (ds ++ [d ++ [x, y]]).length (List.range (d.length + 2))).flatten = P ++ [d.length, d.length + 1] := by
    rw [List.length_append, List.length_singleton, List.replicate_succ', List.flatten_append, List.flatten_singleton, hP,
      List.append_assoc, ← hrange]
  have htext : (movesText (ds ++ [d ++ [x, y]])).dropLast = .int ((ds ++ [d ++ [x, y]]).length : ℕ) ::
      (linesText (P.zip (ds.flatten ++ d)) ++ [.int (d.length : ℕ), .int (x : ℕ), .int ((d.length + 1 : ℕ) : ℤ)]) := by
    unfold movesText
    rw [moves_lines hall, his, List.flatten_append, List.flatten_singleton, ← List.append_assoc, List.zip_append hPl,
      linesText_append]
    have e : linesText ([d.length, d.length + 1].zip [x, y]) = [.int (d.length : ℕ), .int (x : ℕ), .int ((d.length + 1 : ℕ) : ℤ), .int (y : ℕ)] := rfl
    rw [e, List.dropLast_cons_of_ne_nil (by simp), List.dropLast_append_of_ne_nil (by simp)]
    rfl
  obtain ⟨v1, q1, e1⟩ := reads_text (n := d.length + 2) hPl (by
    intro z hz
    rcases List.mem_append.mp hz with hz | hz
    · obtain ⟨e, he, hz⟩ := List.mem_flatten.mp hz
      exact (h e he).lt z hz
    · exact hd.lt z (by simp [hz])) [.int (d.length : ℕ), .int (x : ℕ), .int ((d.length + 1 : ℕ) : ℤ)] none none
  have q2 : Reads (d.length + 2) v1 [d.length, d.length + 1] [x, x] ⟨none, some ((d.length + 1 : ℕ) : ℤ), some (x : ℤ)⟩ := by
    obtain ⟨s, a, b⟩ := v1
    simp only at e1
    subst e1
    refine .cons (line_forward hx _ _ _ _) (.cons ?_ (.nil _))
    unfold readLineM
    have e : Tok.into 0 Tok.asInt (some []) (some (x : ℤ)) = (some (x : ℤ), none) := rfl
    simp only [into_int, e, Res.val, Res.bind_ok]
    rw [Res.throwIf_false (by rintro (q | q | q) <;> omega)]
    simp
  have hf := fold_moves (n := d.length + 2) (k := List.range (ds ++ [d ++ [x, y]]).length)
    (v := ⟨some (linesText (P.zip (ds.flatten ++ d)) ++ [.int (d.length : ℕ), .int (x : ℕ), .int ((d.length + 1 : ℕ) : ℤ)]), none, none⟩)
    (set := []) |>.mpr ⟨ds ++ [d ++ [x, x]], by simp, hall', rfl, by
      rw [List.length_range, his, List.flatten_append, List.flatten_singleton, ← List.append_assoc]
      exact q1.append q2⟩
  refine ⟨collectMoves (d.length + 2) [] (ds ++ [d ++ [x, x]]), ?_, mem_collect.mpr (.inr ⟨d ++ [x, x], by simp, .inl rfl⟩), ?_⟩
  · rw [htext]
    exact readMovesText_num.mpr ⟨_, hf⟩
  · intro g hu
    have a := (hu d.length (by omega)).1
    have b := (hu (d.length + 1) (by omega)).1
    have e1 : (d ++ [x, x]).getD d.length 0 = x := by simp [List.getD_eq_getElem?_getD]
    have e2 : (d ++ [x, x]).getD (d.length + 1) 0 = x := by simp [List.getD_eq_getElem?_getD]
    rw [e1] at a
    rw [e2] at b
    omega

/-- The exchange of two types, without its last word. -/
example : ∃ moves, readMovesText 2 (some [.int 1, .int 0, .int 1, .int 1]) = .ok moves ∧ [1, 1] ∈ moves := by
  obtain ⟨moves, h, hm, _⟩ := C93_cut_violation (n := 2) (ds := []) (d := []) (x := 1) (y := 0) (by simp)
    ⟨rfl, by decide⟩
  exact ⟨moves, h, hm⟩

/-- C93 fails at the start: without a file, with an empty one, and with one that ends before its first line is complete, variables
    without a value are used; a file that does not start with a number counts as one without moves. -/
theorem C93_start_violation {n : ℕ} (hn : 1 ≤ n) {N : ℤ} (hN : 0 < N) (z : ℤ) (l : List Tok) :
    readMovesText n none = .ub ∧ readMovesText n (some []) = .ub ∧ readMovesText n (some [.int N]) = .ub ∧
      readMovesText n (some [.int N, .int z]) = .ub ∧ readMovesText n (some (.word :: l)) = .ok [] := by
  obtain ⟨M, hM⟩ : ∃ M, N.toNat = M + 1 := ⟨N.toNat - 1, by omega⟩
  obtain ⟨m, rfl⟩ : ∃ m, n = m + 1 := ⟨n - 1, by omega⟩
  have key : ∀ l : List Tok, (Tok.into 0 Tok.asInt (Tok.into 0 Tok.asInt (some l) none).2 none).1 = none →
      readMovesText (m + 1) (some (.int N :: l)) = .ub := by
    intro l hl
    unfold readMovesText
    simp only [into_int, Res.val, Res.bind_ok]
    rw [hM, List.range_succ_eq_map, Res.foldl_cons]
    unfold readMoveM
    rw [List.range_succ_eq_map, Res.foldl_cons]
    have e : readLineM (m + 1) (⟨some l, none, none⟩, []) 0 = .ub := by
      unfold readLineM
      simp only
      rcases hs : Tok.into 0 Tok.asInt (some l) none with ⟨src, s⟩
      rw [hs] at hl
      simp only at hl ⊢
      rcases hd : Tok.into 0 Tok.asInt s none with ⟨dst, s'⟩
      rw [hd] at hl
      simp only at hl ⊢
      subst hl
      rcases src with _ | x
      · rfl
      · rfl
    rw [e]
    rfl
  exact ⟨rfl, rfl, key _ rfl, key _ rfl, rfl⟩

/-- C93: once the first line is complete no variable without a value is used, whatever follows. -/
theorem C93_defined (n : ℕ) (N a b : ℤ) (l : List Tok) : readMovesText n (some (.int N :: .int a :: .int b :: l)) ≠ .ub := by
  let D : MoveVars → Prop := fun v => (v.src.isSome ∧ v.dst.isSome) ∨ ∃ a b w, v.s = some (.int a :: .int b :: w)
  have line : ∀ (i : ℕ) (v : MoveVars) (g : List ℕ), D v →
      readLineM n (v, g) i ≠ .ub ∧ ∀ p, readLineM n (v, g) i = .ok p → D p.1 := by
    intro i v g hv
    have hs : ∃ x s, Tok.into 0 Tok.asInt v.s v.src = (some x, s) ∧ ∃ y s', Tok.into 0 Tok.asInt s v.dst = (some y, s') := by
      rcases hv with ⟨h1, h2⟩ | ⟨a, b, w, hw⟩
      · have : ∀ (s : TokS) (o : Option ℤ), o.isSome → ∃ x s', Tok.into 0 Tok.asInt s o = (some x, s') := by
          intro s o ho
          obtain ⟨z, rfl⟩ := Option.isSome_iff_exists.mp ho
          rcases s with _ | (_ | ⟨t, s⟩)
          · exact ⟨_, _, rfl⟩
          · exact ⟨_, _, rfl⟩
          · cases t <;> exact ⟨_, _, rfl⟩
        obtain ⟨x, s, e⟩ := this v.s v.src h1
        exact ⟨x, s, e, this s v.dst h2⟩
      · exact ⟨a, _, by rw [hw]; rfl, b, _, rfl⟩
    obtain ⟨x, s, e1, y, s', e2⟩ := hs
    unfold readLineM
    simp only [e1, e2, Res.val, Res.bind_ok]
    by_cases c : x ≠ i ∨ y < 0 ∨ y ≥ n
    · rw [Res.throwIf_true c]
      exact ⟨by simp, by simp⟩
    · rw [Res.throwIf_false c]
      refine ⟨by simp, fun p hp => ?_⟩
      simp only [Res.bind_ok, Res.pure_eq, Res.ok.injEq] at hp
      subst hp
      exact .inl ⟨rfl, rfl⟩
  have lines : ∀ (is : List ℕ) (v : MoveVars) (g : List ℕ), D v →
      Res.foldl (readLineM n) (v, g) is ≠ .ub ∧ ∀ p, Res.foldl (readLineM n) (v, g) is = .ok p → D p.1 := by
    intro is
    induction is with
    | nil =>
      intro v g hv
      refine ⟨by simp, fun p hp => ?_⟩
      simp only [Res.foldl_nil, Res.ok.injEq] at hp
      subst hp
      exact hv
    | cons i is ih =>
      intro v g hv
      obtain ⟨q1, q2⟩ := line i v g hv
      rw [Res.foldl_cons]
      rcases hx : readLineM n (v, g) i with ⟨v1, g1⟩ | e | _
      · exact ih v1 g1 (q2 _ hx)
      · exact ⟨by simp, by simp⟩
      · exact absurd hx q1
  have moves : ∀ (k : List ℕ) (v : MoveVars) (g : List (List ℕ)), D v → Res.foldl (readMoveM n) (v, g) k ≠ .ub := by
    intro k
    induction k with
    | nil => intro v g _; simp
    | cons i k ih =>
      intro v g hv
      obtain ⟨q1, q2⟩ := lines (List.range n) v [] hv
      rw [Res.foldl_cons]
      unfold readMoveM
      rcases hx : Res.foldl (readLineM n) (v, []) (List.range n) with ⟨v1, g1⟩ | e | _
      · exact ih v1 _ (q2 _ hx)
      · simp
      · exact absurd hx q1
  unfold readMovesText
  simp only [into_int, Res.val, Res.bind_ok]
  have := moves (List.range N.toNat) ⟨some (.int a :: .int b :: l), none, none⟩ [] (.inr ⟨a, b, l, rfl⟩)
  rcases hx : Res.foldl (readMoveM n) (⟨some (.int a :: .int b :: l), none, none⟩, []) (List.range N.toNat) with ⟨p⟩ | e | _
  · simp
  · simp
  · exact absurd hx this

/-- C93: once the first line is complete, a file whose text is not that of `N` moves up to its last word is refused, with runtime_error. -/
theorem C93_refused_partial {n : ℕ} (hn : 2 ≤ n) {N a b : ℤ} (hN : 0 < N) {l : List Tok}
    (h : ∀ ds : List (List ℕ), (ds.length : ℤ) = N → (∀ d ∈ ds, MoveOf n d) → ¬ (movesText ds).dropLast <+: .int N :: .int a :: .int b :: l) :
    readMovesText n (some (.int N :: .int a :: .int b :: l)) = .throw .runtimeError := by
  have line : ∀ st i e, readLineM n st i = .throw e → e = .runtimeError := by
    intro st i e h
    unfold readLineM at h
    simp only [] at h
    rcases hx : (Tok.into 0 Tok.asInt st.1.s st.1.src).1 with _ | x
    · simp only [hx, Res.val] at h; cases h
    rcases hy : (Tok.into 0 Tok.asInt (Tok.into 0 Tok.asInt st.1.s st.1.src).2 st.1.dst).1 with _ | y
    · simp only [hx, hy, Res.val] at h; cases h
    simp only [hx, hy, Res.val, Res.bind_ok] at h
    by_cases c : x ≠ i ∨ y < 0 ∨ y ≥ n
    · rw [Res.throwIf_true c] at h; cases h; rfl
    · rw [Res.throwIf_false c] at h; cases h
  have fold : ∀ {α β : Type} (f : β → α → Res β), (∀ st i e, f st i = .throw e → e = .runtimeError) →
      ∀ (is : List α) st e, Res.foldl f st is = .throw e → e = .runtimeError := by
    intro α β f hf is
    induction is with
    | nil => intro st e h; cases h
    | cons i is ih =>
      intro st e h
      rw [Res.foldl_cons] at h
      rcases hx : f st i with p | e' | _
      · rw [hx] at h; exact ih _ _ h
      · rw [hx] at h; cases h; exact hf _ _ _ hx
      · rw [hx] at h; cases h
  have move : ∀ st i e, readMoveM n st i = .throw e → e = .runtimeError := by
    intro st i e h
    unfold readMoveM at h
    rcases hx : Res.foldl (readLineM n) (st.1, []) (List.range n) with p | e' | _
    · rw [hx] at h; cases h
    · rw [hx] at h; cases h; exact fold _ line _ _ _ hx
    · rw [hx] at h; cases h
  rcases hx : readMovesText n (some (.int N :: .int a :: .int b :: l)) with moves | e | _
  · obtain ⟨ds, h1, h2, h3, _⟩ := C93_incomplete_partial hn hN hx
    exact absurd h3 (h ds h1 h2)
  · unfold readMovesText at hx
    have e0 : Tok.into 0 Tok.asInt (some (.int N :: .int a :: .int b :: l)) none = (some N, some (.int a :: .int b :: l)) := rfl
    simp only [e0, Res.val, Res.bind_ok] at hx
    rcases hy : Res.foldl (readMoveM n) (⟨some (.int a :: .int b :: l), none, none⟩, []) (List.range N.toNat) with p | e' | _
    · rw [hy] at hx; cases hx
    · rw [hy] at hx; cases hx; rw [fold _ move _ _ _ hy]
    · rw [hy] at hx; cases hx
  · exact absurd hx (C93_defined n N a b l)

/-- A file that is cut after the first line of its only move: refused. -/
example : readMovesText 3 (some [.int 1, .int 0, .int 2]) = .throw .runtimeError := by
  refine C93_refused_partial (by omega) (by omega) fun ds h1 h2 h3 => ?_
  obtain ⟨d, rfl⟩ := List.length_eq_one_iff.mp (by exact_mod_cast h1)
  have := h3.length_le
  have hl := (h2 d (by simp)).len
  obtain ⟨x, y, z, rfl⟩ : ∃ x y z, d = [x, y, z] := by
    rcases d with _ | ⟨x, _ | ⟨y, _ | ⟨z, _ | _⟩⟩⟩ <;> simp at hl ⊢
  simp [movesText, moveText, linesText] at this

end CTInt
