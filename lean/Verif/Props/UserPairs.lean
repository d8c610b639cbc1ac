import Verif.Model.UserPairs
import Verif.Props.Quantum

/-!
# Pairs of types given by the user: C86
-/

set_option linter.all false

namespace CTInt

/-- The text that lists pairs. -/
def pairText (ps : List (ℕ × ℕ)) : List Tok := ps.flatMap fun q => [.int q.1, .int q.2]

/-- A list of pairs in which no pair occurs twice, in whatever order of its two types. -/
def Unordered (l : List (ℕ × ℕ)) : Prop := l.Pairwise fun p q => p ≠ q ∧ p ≠ q.swap

theorem takePair_ok {N a b : ℕ} (ha : a < N) (hb : b < N) (st : List (ℕ × ℕ) × (ℕ → ℕ → Bool)) :
    takePair N a b st = .ok (if st.2 a b = true then st else (st.1 ++ [(a, b)], fun x y =>
      if (x = a ∧ y = b) ∨ (x = b ∧ y = a) then true else st.2 x y)) := by
  unfold takePair
  rw [Res.throwIf_false (by omega)]
  simp only [Res.bind_ok, Int.toNat_natCast]
  split <;> rfl

theorem readPairs_cons (N : ℕ) (q : ℕ × ℕ) (l : List Tok) (old : Option ℤ) (st : List (ℕ × ℕ) × (ℕ → ℕ → Bool)) :
    readPairs N (.int q.1 :: .int q.2 :: l) old st = (do let st ← takePair N q.1 q.2 st; readPairs N l (some q.2) st) := by
  rw [readPairs]

theorem readPairs_spec {N : ℕ} (ps : List (ℕ × ℕ)) (hps : ∀ q ∈ ps, q.1 < N ∧ q.2 < N) (old : Option ℤ)
    (pairs0 : List (ℕ × ℕ)) (flags0 : ℕ → ℕ → Bool)
    (hd : Unordered pairs0) (hf : ∀ a < N, ∀ b < N, flags0 a b = true ↔ (a, b) ∈ pairs0 ∨ (b, a) ∈ pairs0) :
    ∃ new flags, (∀ rest, readPairs N (pairText ps ++ rest) old (pairs0, flags0) =
        readPairs N rest ((ps.getLast?.map fun q => (q.2 : ℤ)).or old) (pairs0 ++ new, flags)) ∧
      Unordered (pairs0 ++ new) ∧ (∀ q ∈ new, q ∈ ps) ∧ (∀ q ∈ ps, q ∈ pairs0 ++ new ∨ q.swap ∈ pairs0 ++ new) ∧
      ∀ a < N, ∀ b < N, flags a b = true ↔ (a, b) ∈ pairs0 ++ new ∨ (b, a) ∈ pairs0 ++ new := by
  induction ps generalizing pairs0 flags0 old with
  | nil => exact ⟨[], flags0, by simp [pairText], by simpa using hd, by simp, by simp, by simpa using hf⟩
  | cons q ps ih =>
    obtain ⟨ha, hb⟩ := hps q (by simp)
    have hps' : ∀ r ∈ ps, r.1 < N ∧ r.2 < N := fun r hr => hps r (by simp [hr])
    have hstep : ∀ rest, readPairs N (pairText (q :: ps) ++ rest) old (pairs0, flags0) = readPairs N (pairText ps ++ rest) (some q.2)
        (if flags0 q.1 q.2 = true then (pairs0, flags0) else (pairs0 ++ [(q.1, q.2)], fun x y =>
          if (x = q.1 ∧ y = q.2) ∨ (x = q.2 ∧ y = q.1) then true else flags0 x y)) := by
      intro rest
      rw [show pairText (q :: ps) ++ rest = .int q.1 :: .int q.2 :: (pairText ps ++ rest) from rfl, readPairs_cons,
        takePair_ok ha hb]
      rfl
    simp only [hstep]
    have hlast : ((q :: ps).getLast?.map fun q => (q.2 : ℤ)).or old = (ps.getLast?.map fun q => (q.2 : ℤ)).or (some (q.2 : ℤ)) := by
      rw [List.getLast?_cons]
      cases ps.getLast? <;> rfl
    simp only [hlast]
    by_cases h : flags0 q.1 q.2 = true
    · simp only [if_pos h]
      obtain ⟨new, flags, e, h1, h2, h3, h4⟩ := ih hps' (some (q.2 : ℤ)) pairs0 flags0 hd hf
      refine ⟨new, flags, e, h1, fun r hr => List.mem_cons_of_mem _ (h2 r hr), fun r hr => ?_, h4⟩
      rcases List.mem_cons.mp hr with rfl | hr
      · rcases (hf _ ha _ hb).mp h with w | w
        · exact Or.inl (List.mem_append_left _ w)
        · exact Or.inr (List.mem_append_left _ w)
      · exact h3 r hr
    · simp only [if_neg h]
      have hn : ¬ ((q.1, q.2) ∈ pairs0 ∨ (q.2, q.1) ∈ pairs0) := fun w => h ((hf _ ha _ hb).mpr w)
      push Not at hn
      obtain ⟨new, flags, e, h1, h2, h3, h4⟩ := ih hps' (some (q.2 : ℤ)) (pairs0 ++ [(q.1, q.2)])
        (fun x y => if (x = q.1 ∧ y = q.2) ∨ (x = q.2 ∧ y = q.1) then true else flags0 x y) (by
          unfold Unordered at *
          rw [List.pairwise_append]
          refine ⟨hd, List.pairwise_singleton _ _, fun p hp r hr => ?_⟩
          rw [List.mem_singleton.mp hr]
          refine ⟨fun w => hn.1 (w ▸ hp), fun w => hn.2 ?_⟩
          rw [w] at hp
          exact hp) (by
          intro a ha' b hb'
          simp only [List.mem_append, List.mem_singleton, Prod.mk.injEq]
          by_cases w : (a = q.1 ∧ b = q.2) ∨ (a = q.2 ∧ b = q.1)
          · rw [if_pos w]
            simp only [true_iff]
            rcases w with w | w
            · exact Or.inl (Or.inr w)
            · exact Or.inr (Or.inr ⟨w.2, w.1⟩)
          · rw [if_neg w, hf a ha' b hb']
            constructor
            · rintro (x | x)
              exacts [Or.inl (Or.inl x), Or.inr (Or.inl x)]
            · rintro ((x | x) | (x | x))
              exacts [Or.inl x, absurd (Or.inl x) w, Or.inr x, absurd (Or.inr ⟨x.2, x.1⟩) w])
      refine ⟨(q.1, q.2) :: new, flags, ?_, ?_, ?_, ?_, ?_⟩
      · intro rest; simpa using e rest
      · simpa using h1
      · intro r hr
        rcases List.mem_cons.mp hr with rfl | hr
        · simp
        · exact List.mem_cons_of_mem _ (h2 r hr)
      · intro r hr
        rcases List.mem_cons.mp hr with rfl | hr
        · exact Or.inl (by simp)
        · simpa using h3 r hr
      · simpa using h4

theorem Opposite.symm {qn : List (List (List ℤ))} {a b : ℕ} (h : Opposite qn a b) : Opposite qn b a := by
  obtain ⟨⟨i, hi⟩, hs⟩ := h
  refine ⟨⟨i, fun w => hi ?_⟩, fun j => by rw [add_comm]; exact hs j⟩
  have := hs i
  rwa [w, add_zero] at this

theorem Opposite.ne {qn : List (List (List ℤ))} {a b : ℕ} (h : Opposite qn a b) : a ≠ b := by
  rintro rfl
  obtain ⟨⟨i, hi⟩, hs⟩ := h
  have := hs i
  omega

theorem found_pairs {qn : List (List (List ℤ))} {L : ℕ} (hne : qn ≠ [])
    (hq : ∀ t < qn.length, qn.getD t [] ≠ [] ∧ (numsOf qn t).length = L) :
    ∃ pairs flags, findValidPairs (fun _ _ => false) qn = .ok (pairs, flags) ∧ Unordered pairs ∧
      (∀ t1 t2, (t1, t2) ∈ pairs ↔ t1 < t2 ∧ t2 < qn.length ∧ Opposite qn t1 t2) ∧
      ∀ a < qn.length, ∀ b < qn.length, flags a b = true ↔ (a, b) ∈ pairs ∨ (b, a) ∈ pairs := by
  obtain ⟨pairs, flags, e, hnd, hm, hfl⟩ := C82_valid_pairs hne hq
  refine ⟨pairs, flags, e, ?_, hm, ?_⟩
  · unfold Unordered
    refine List.Pairwise.imp_of_mem ?_ hnd
    intro p q hp hq' hpq
    refine ⟨hpq, fun w => ?_⟩
    have h1 := (hm p.1 p.2).mp hp
    have h2 := (hm q.1 q.2).mp hq'
    rw [w] at h1
    simp only [Prod.fst_swap, Prod.snd_swap] at h1
    omega
  · intro a ha b hb
    rw [hfl a ha b hb, hm, hm]
    constructor
    · intro h
      rcases Nat.lt_or_gt_of_ne h.ne with w | w
      · exact Or.inl ⟨w, hb, h⟩
      · exact Or.inr ⟨w, ha, h.symm⟩
    · rintro (⟨_, _, h⟩ | ⟨_, _, h⟩)
      · exact h
      · exact h.symm

/-- C86: with a list of pairs within the table, the pairs for double updates are those whose quantum numbers cancel, then those of
    the list, none of them twice in whatever order; the table of flags says which pairs there are. -/
theorem C86_pairs {qn : List (List (List ℤ))} {L : ℕ} (hne : qn ≠ [])
    (hq : ∀ t < qn.length, qn.getD t [] ≠ [] ∧ (numsOf qn t).length = L) (ps : List (ℕ × ℕ))
    (hps : ∀ q ∈ ps, q.1 < qn.length ∧ q.2 < qn.length) :
    ∃ found new flags, allPairs (fun _ _ => false) qn (some (pairText ps)) = .ok (found ++ new, flags) ∧
      (∃ flags0, allPairs (fun _ _ => false) qn none = .ok (found, flags0)) ∧
      (∀ a b, (a, b) ∈ found ↔ a < b ∧ b < qn.length ∧ Opposite qn a b) ∧ (∀ q ∈ new, q ∈ ps) ∧
      (∀ q ∈ ps, q ∈ found ++ new ∨ q.swap ∈ found ++ new) ∧ Unordered (found ++ new) ∧
      ∀ a < qn.length, ∀ b < qn.length, flags a b = true ↔ (a, b) ∈ found ++ new ∨ (b, a) ∈ found ++ new := by
  obtain ⟨found, flags0, e, hd, hm, hf⟩ := found_pairs hne hq
  obtain ⟨new, flags, e2, h1, h2, h3, h4⟩ := readPairs_spec ps hps none found flags0 hd hf
  refine ⟨found, new, flags, ?_, ⟨flags0, ?_⟩, hm, h2, h3, h1, h4⟩
  · unfold allPairs
    rw [e]
    simp only [Res.bind_ok]
    have e2 := e2 []
    rw [List.append_nil] at e2
    rw [e2, readPairs]
    · rfl
    all_goals simp
  · unfold allPairs
    rw [e]
    rfl

/-- C86: a pair outside of the table is refused. -/
theorem C86_refused {qn : List (List (List ℤ))} {L : ℕ} (hne : qn ≠ [])
    (hq : ∀ t < qn.length, qn.getD t [] ≠ [] ∧ (numsOf qn t).length = L) (ps : List (ℕ × ℕ))
    (hps : ∀ q ∈ ps, q.1 < qn.length ∧ q.2 < qn.length) (a b : ℤ) (hab : a < 0 ∨ b < 0 ∨ qn.length ≤ a ∨ qn.length ≤ b)
    (rest : List Tok) :
    allPairs (fun _ _ => false) qn (some (pairText ps ++ .int a :: .int b :: rest)) = .throw .runtimeError := by
  obtain ⟨found, flags0, e, hd, hm, hf⟩ := found_pairs hne hq
  obtain ⟨new, flags, e2, -⟩ := readPairs_spec ps hps none found flags0 hd hf
  unfold allPairs
  rw [e]
  simp only [Res.bind_ok]
  rw [e2, readPairs, takePair, Res.throwIf_true (by omega)]
  rfl

/-- Three types of which the first two have opposite numbers; a list that repeats that pair in the other order and adds another. -/
example : allPairs (fun _ _ => false) [[[1, 0]], [[-1, 0]], [[0, 0]]] (some (pairText [(1, 0), (0, 2), (2, 0)])) =
    .ok ([(0, 1), (0, 2)], fun x y => if (x = 0 ∧ y = 2) ∨ (x = 2 ∧ y = 0) then true
      else if x = 1 ∧ y = 1 then false else if x = 1 ∧ y = 0 then true else if x = 0 ∧ y = 1 then true
      else if x = 0 ∧ y = 0 then false else false) := rfl

/-- C86 fails if the list has an odd number of entries: a single number uses a variable that was never set, and otherwise the last
    number makes a pair with the second number of the pair before. -/
theorem C86_odd_violation {qn : List (List (List ℤ))} {L : ℕ} (hne : qn ≠ [])
    (hq : ∀ t < qn.length, qn.getD t [] ≠ [] ∧ (numsOf qn t).length = L) (a : ℕ) (ha : a < qn.length) :
    allPairs (fun _ _ => false) qn (some [.int a]) = .ub ∧
    ∀ (ps : List (ℕ × ℕ)) (q : ℕ × ℕ), (∀ r ∈ ps ++ [q], r.1 < qn.length ∧ r.2 < qn.length) →
      allPairs (fun _ _ => false) qn (some (pairText (ps ++ [q]) ++ [.int a])) =
        allPairs (fun _ _ => false) qn (some (pairText (ps ++ [q, (a, q.2)]))) := by
  obtain ⟨found, flags0, e, hd, hm, hf⟩ := found_pairs hne hq
  constructor
  · unfold allPairs
    rw [e]
    rfl
  · intro ps q hps
    obtain ⟨new, flags, e2, -⟩ := readPairs_spec (ps ++ [q]) hps none found flags0 hd hf
    have ht : pairText (ps ++ [q, (a, q.2)]) = pairText (ps ++ [q]) ++ [.int a, .int q.2] := by
      unfold pairText
      simp
    unfold allPairs
    rw [e]
    simp only [Res.bind_ok]
    rw [ht, e2, e2, List.getLast?_concat]
    simp only [Option.map_some, Option.some_or]
    rw [readPairs, readPairs]
    cases takePair qn.length (a : ℤ) (q.2 : ℤ) (found ++ new, flags) <;> rfl

/-- C86 fails if the second entry of a pair is not a number: the pair with type 0 is taken instead, and the rest is not read. -/
theorem C86_word_violation {qn : List (List (List ℤ))} {L : ℕ} (hne : qn ≠ [])
    (hq : ∀ t < qn.length, qn.getD t [] ≠ [] ∧ (numsOf qn t).length = L) (ps : List (ℕ × ℕ))
    (hps : ∀ r ∈ ps, r.1 < qn.length ∧ r.2 < qn.length) (a : ℕ) (rest : List Tok) :
    allPairs (fun _ _ => false) qn (some (pairText ps ++ .int a :: .word :: rest)) =
      allPairs (fun _ _ => false) qn (some (pairText (ps ++ [(a, 0)]))) := by
  obtain ⟨found, flags0, e, hd, hm, hf⟩ := found_pairs hne hq
  obtain ⟨new, flags, e2, -⟩ := readPairs_spec ps hps none found flags0 hd hf
  have ht : pairText (ps ++ [(a, 0)]) = pairText ps ++ [.int a, .int 0] := by
    unfold pairText
    simp
  unfold allPairs
  rw [e]
  simp only [Res.bind_ok]
  rw [ht, e2, e2]
  rw [readPairs, readPairs]
  · cases takePair qn.length (a : ℤ) 0 (found ++ new, flags) <;> rfl
  · intro v2 h; cases h

/-- C86 fails for pairs the user gives in the wrong order, with the same type twice, or with a density-density type: they are taken,
    but no insertion of such a pair ever succeeds: it fails an assert, or throws. -/
theorem C86_useless_violation {K : Type} [RCLike K] [DecidableEq K] {tbl : List (VDef K)} {t1 t2 : ℕ}
    (h : t2 ≤ t1 ∨ (tbl.getD t1 default).isDensity = true ∨ (tbl.getD t2 default).isDensity = true) (P : ℝ → ℝ) (beta : ℝ)
    (u : ℕ → ℝ) (fuel p : ℕ) (r : List Vert × ℕ) : generatePair2 tbl t1 t2 P beta u fuel p ≠ .ok r := by
  intro e
  unfold generatePair2 at e
  rw [Run.bind_eq_ok] at e
  obtain ⟨⟨x, p1⟩, -, e⟩ := e
  rw [Run.bind_eq_ok] at e
  obtain ⟨_, e1, e⟩ := e
  have hlt := Run.assert_eq_ok.mp e1
  rw [Run.bind_eq_ok] at e
  obtain ⟨⟨v, p2⟩, e2, e⟩ := e
  rw [Run.bind_eq_ok] at e
  obtain ⟨⟨w, p3⟩, e3, -⟩ := e
  have key : ∀ {t : ℕ} {time : ℝ} {p : ℕ} {z : Vert × ℕ}, Run.lift (pairVertex tbl u t time p) = .ok z →
      (tbl.getD t default).isDensity ≠ true := by
    intro t time p z hz hden
    have hz := Run.lift_eq_ok.mp hz
    unfold pairVertex at hz
    rw [Res.bind_eq_ok] at hz
    obtain ⟨d, hd, hz⟩ := hz
    have hd := Res.get_eq_ok.mp hd
    rw [List.getD_eq_getElem?_getD, hd] at hden
    have hden : d.isDensity = true := hden
    rw [Res.throwIf_true hden] at hz
    cases hz
  rcases h with h | h | h
  · omega
  · exact key e2 h
  · exact key e3 h

theorem pairCandidates_same (vs : List Vert) (t : ℕ) : (pairCandidates vs t t).2 = [] := by
  unfold pairCandidates
  generalize hl : List.range vs.length = l
  clear hl
  have key : ∀ x : List ℕ × List ℕ, x.2 = [] → (l.foldl (fun (x : List ℕ × List ℕ) i =>
      let v := vs.getD i default
      if v.nonInt then x
      else if v.type = t then (x.1 ++ [i], x.2)
      else if v.type = t then (x.1, x.2 ++ [i])
      else x) x).2 = [] := by
    induction l with
    | nil => intro x hx; exact hx
    | cons i l ih =>
      intro x hx
      rw [List.foldl_cons]
      apply ih
      simp only
      split_ifs <;> exact hx
  exact key _ rfl

/-- C86 fails for a pair of the same type twice: whatever the configuration, the correction factor of its insertion throws, also
    without asserts. -/
theorem C86_same_violation {d : PairDist} {beta : ℝ} {draw : List ℝ → ℕ} {vs : List Vert} {i j : ℕ} (hi : i < vs.length)
    (hj : j < vs.length) (h : vs[i].type = vs[j].type) : Mgr.pairCorrIns d beta draw vs i j = .throw .logicError := by
  unfold Mgr.pairCorrIns
  rw [Res.get_of_lt hi, Res.get_of_lt hj]
  simp only [Res.bind_ok]
  unfold pickPair
  rw [h]
  generalize (List.modify (List.modify vs i fun v => { v with nonInt := false }) j fun v => { v with nonInt := false }) = ws
  have := pairCandidates_same ws vs[j].type
  generalize pairCandidates ws vs[j].type vs[j].type = z at this
  obtain ⟨z1, z2⟩ := z
  simp only at this
  subst this
  simp

/-- A pair in the wrong order is taken: the hypotheses of `C86_useless_violation` are met. -/
example : allPairs (fun _ _ => false) [[[0]], [[0]]] (some (pairText [(1, 0)])) = .ok ([(1, 0)], fun x y =>
    if (x = 1 ∧ y = 0) ∨ (x = 0 ∧ y = 1) then true else false) := rfl

end CTInt
