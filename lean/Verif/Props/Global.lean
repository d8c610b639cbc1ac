import Verif.Props.Balance
import Verif.Model.Global
import Verif.Spec.Global

/-!
# Global updates: C41, C54
-/

set_option linter.all false

namespace CTInt

variable {K : Type} [RCLike K] [DecidableEq K]
variable {c : Ctx K}

/-! ## The set of moves -/

theorem reverse_fold {n : ℕ} {g : List ℕ} (hl : g.length = n) (hlt : ∀ t < n, g.getD t 0 < n) (hinj : g.Nodup) {m : ℕ} (hm : m ≤ n) :
    ((List.range m).foldl (fun rev iv => rev.set (g.getD iv 0) iv) (List.replicate n 0)).length = n ∧
    ∀ t < m, ((List.range m).foldl (fun rev iv => rev.set (g.getD iv 0) iv) (List.replicate n 0)).getD (g.getD t 0) 0 = t := by
  induction m with
  | zero => exact ⟨by simp, fun t ht => by omega⟩
  | succ m ih =>
    obtain ⟨h1, h2⟩ := ih (by omega)
    rw [List.range_succ, List.foldl_append]
    simp only [List.foldl_cons, List.foldl_nil]
    generalize ((List.range m).foldl (fun rev iv => rev.set (g.getD iv 0) iv) (List.replicate n 0)) = rev at h1 h2
    refine ⟨by rw [List.length_set, h1], fun t ht => ?_⟩
    have hgt := hlt t (by omega)
    have hgm := hlt m (by omega)
    rw [List.getD_eq_getElem _ _ (by rw [List.length_set, h1]; exact hgt), List.getElem_set]
    split
    · rename_i e
      rw [List.getD_eq_getElem _ _ (by omega), List.getD_eq_getElem _ _ (by omega)] at e
      exact (hinj.getElem_inj_iff.mp e)
    · rename_i e
      have : t ≠ m := fun q => e (by rw [q])
      have := h2 t (by omega)
      rw [List.getD_eq_getElem _ _ (by rw [h1]; exact hgt)] at this
      exact this

theorem Undoes.symm {n : ℕ} {g h : List ℕ} (u : Undoes n g h) : Undoes n h g := fun t ht => (u t ht).symm

theorem reverse_undoes {n : ℕ} {g : List ℕ} (hl : g.length = n) (hlt : ∀ t < n, g.getD t 0 < n) (hinj : g.Nodup) :
    Undoes n g (reverseMove n g) := by
  have h := (reverse_fold hl hlt hinj le_rfl).2
  have hsurj : Function.Surjective (fun t : Fin n => (⟨g.getD t 0, hlt t t.2⟩ : Fin n)) := by
    apply Finite.injective_iff_surjective.mp
    intro a b e
    simp only [Fin.mk.injEq] at e
    rw [List.getD_eq_getElem _ _ (by omega), List.getD_eq_getElem _ _ (by omega)] at e
    exact Fin.ext (hinj.getElem_inj_iff.mp e)
  intro t ht
  refine ⟨h t ht, ?_⟩
  obtain ⟨s, hs⟩ := hsurj ⟨t, ht⟩
  have hs : g.getD s 0 = t := congrArg Fin.val hs
  have := h s s.2
  rw [hs] at this
  show g.getD ((reverseMove n g).getD t 0) 0 = t
  unfold reverseMove
  rw [this, hs]

theorem readMove_perm {n : ℕ} {lines : List (ℤ × ℤ)} {g : List ℕ} (h : PermFile n lines g) : readMove n lines = .ok g := by
  have key : ∀ m ≤ n, Res.foldl (fun l iv => do
      let (src, dst) ← Res.get lines iv
      Res.throwIf (src ≠ iv ∨ dst < 0 ∨ dst ≥ n) .runtimeError
      pure (l ++ [dst.toNat])) [] (List.range m) = .ok (g.take m) := by
    intro m
    induction m with
    | zero => intro _; simp [Res.foldl]
    | succ m ih =>
      intro hm
      rw [List.range_succ, Res.foldl_append, ih (by omega)]
      simp only [Res.bind_ok]
      rw [Res.foldl_cons, Res.get_eq_ok.mpr (h.lines m (by omega))]
      have hlt := h.lt m (by omega)
      simp only [Res.bind_ok]
      rw [Res.throwIf_false (by
        rintro (q | q | q)
        · exact q rfl
        · omega
        · omega)]
      have hm' : m < g.length := by rw [h.len]; omega
      rw [List.take_add_one, List.getElem?_eq_getElem hm', List.getD_eq_getElem _ _ hm']
      simp
  unfold readMove
  rw [key n le_rfl, ← h.len, List.take_length]

/-- C41: if every move of the file is a permutation of the vertex types, the list of moves contains with every move one
    that undoes it, and every move of the file.  (Partial: other files are accepted too, see `C41_moves_violation`.) -/
theorem C41_moves_partial {n : ℕ} {file : List (List (ℤ × ℤ))} (hf : ∀ lines ∈ file, ∃ g, PermFile n lines g) :
    ∃ moves, readMoves n file = .ok moves ∧ (∀ g ∈ moves, ∃ h ∈ moves, Undoes n g h) ∧
      ∀ lines ∈ file, ∀ g, PermFile n lines g → g ∈ moves := by
  have key : ∀ (fs : List (List (ℤ × ℤ))) (l : List (List ℕ)), (∀ lines ∈ fs, ∃ g, PermFile n lines g) →
      (∀ g ∈ l, ∃ h ∈ l, Undoes n g h) →
      ∃ l', Res.foldl (fun (l : List (List ℕ)) lines => do
        let m ← readMove n lines
        pure (l ++ [m, reverseMove n m])) l fs = .ok l' ∧ (∀ g ∈ l', ∃ h ∈ l', Undoes n g h) ∧ (∀ g ∈ l, g ∈ l') ∧
        ∀ lines ∈ fs, ∀ g, PermFile n lines g → g ∈ l' := by
    intro fs
    induction fs with
    | nil => intro l _ hl; exact ⟨l, rfl, hl, fun _ h => h, by simp⟩
    | cons f fs ih =>
      intro l hfs hl
      obtain ⟨g, hg⟩ := hfs f (by simp)
      have hu := reverse_undoes hg.len hg.lt hg.inj
      obtain ⟨l', e, q1, q2, q3⟩ := ih (l ++ [g, reverseMove n g]) (fun x hx => hfs x (List.mem_cons_of_mem _ hx)) (by
        intro x hx
        rcases List.mem_append.mp hx with hx | hx
        · obtain ⟨y, hy, hxy⟩ := hl x hx
          exact ⟨y, List.mem_append_left _ hy, hxy⟩
        · simp only [List.mem_cons, List.not_mem_nil, or_false] at hx
          rcases hx with rfl | rfl
          · exact ⟨_, List.mem_append_right _ (by simp), hu⟩
          · exact ⟨g, List.mem_append_right _ (by simp), hu.symm⟩)
      refine ⟨l', ?_, q1, fun x hx => q2 x (List.mem_append_left _ hx), ?_⟩
      · rw [Res.foldl_cons, readMove_perm hg]
        exact e
      · intro x hx g' hg'
        rcases List.mem_cons.mp hx with rfl | hx
        · have e1 := readMove_perm hg
          rw [readMove_perm hg'] at e1
          obtain rfl : g' = g := by injection e1
          exact q2 _ (List.mem_append_right _ (by simp))
        · exact q3 x hx g' hg'
  obtain ⟨l, e, q1, _, q3⟩ := key file [] hf (by simp)
  refine ⟨l.dedup, ?_, ?_, ?_⟩
  · unfold readMoves
    rw [e]
    rfl
  · intro g hg
    obtain ⟨h, hh, hu⟩ := q1 g (List.mem_dedup.mp hg)
    exact ⟨h, List.mem_dedup.mpr hh, hu⟩
  · intro lines hl g hg
    exact List.mem_dedup.mpr (q3 lines hl g hg)

/-- A file with a three-cycle. -/
example : ∃ moves, readMoves 3 [[(0, 1), (1, 2), (2, 0)]] = .ok moves ∧ [1, 2, 0] ∈ moves ∧ [2, 0, 1] ∈ moves :=
  ⟨_, rfl, by decide, by decide⟩

example : PermFile 3 [(0, 1), (1, 2), (2, 0)] [1, 2, 0] where
  len := rfl
  lt := by intro t ht; rcases t with _ | _ | _ | t <;> first | decide | omega
  inj := by decide
  lines := by intro t ht; rcases t with _ | _ | _ | t <;> first | rfl | omega

/-- C41 fails for the set of moves: a file that maps both of two types to the first is accepted, and no move in the
    resulting list undoes it. -/
theorem C41_moves_violation : ∃ moves, readMoves 2 [[(0, 0), (1, 0)]] = .ok moves ∧
    [0, 0] ∈ moves ∧ ∀ h ∈ moves, ¬ Undoes 2 [0, 0] h := by
  refine ⟨_, rfl, by decide, fun h _ hu => ?_⟩
  have h0 := (hu 0 (by omega)).1
  have h1 := (hu 1 (by omega)).1
  have h0 : h.getD 0 0 = 0 := h0
  have h1 : h.getD 0 0 = 1 := h1
  omega

/-! ## The decision -/

theorem transformAll_spec {map : List ℕ} {vs : List Vert} (h : ∀ v ∈ vs, v.type < map.length) :
    transformAll map vs = .ok (relabel (fun t => map.getD t 0) vs) := by
  induction vs with
  | nil => rfl
  | cons v vs ih =>
    have hv := h v (by simp)
    unfold transformAll
    rw [Res.get_of_lt hv, ih (fun w hw => h w (List.mem_cons_of_mem _ hw))]
    simp only [Res.bind_ok, relabel, List.map_cons, List.getD_eq_getElem _ _ hv]
    rfl

theorem transformAll_ok {map : List ℕ} {vs new : List Vert} (h : transformAll map vs = .ok new) :
    (∀ v ∈ vs, v.type < map.length) ∧ new = relabel (fun t => map.getD t 0) vs := by
  have : ∀ v ∈ vs, v.type < map.length := by
    induction vs generalizing new with
    | nil => simp
    | cons v vs ih =>
      unfold transformAll at h
      simp only [Res.bind_eq_ok] at h
      obtain ⟨t, h1, r, h2, h3⟩ := h
      intro w hw
      rcases List.mem_cons.mp hw with rfl | hw
      · rw [Res.get_eq_ok] at h1
        exact (List.getElem?_eq_some_iff.mp h1).1
      · exact ih h2 w hw
  refine ⟨this, ?_⟩
  rw [transformAll_spec this] at h
  injection h with h
  exact h.symm

/-- A configuration the weight routine accepts: valid interacting vertices that record the rank of their type. -/
structure Plain (c : Ctx K) (vs : List Vert) : Prop where
  ok : ∀ v ∈ vs, VertOK c.tbl v
  int : ∀ v ∈ vs, v.nonInt = false
  rank : ∀ v ∈ vs, v.rank = (termOf c.tbl v).rank

/-- C41: one global move is accepted exactly if the random number is below the ratio of the weights of the transformed
    and the present configuration; if accepted the configuration afterwards is the transformed one. -/
theorem C41_decision (ht : TblOK c.NI c.nf c.tbl) {map : List ℕ} {vs : List Vert} (hv : Plain c vs)
    (hm : ∀ v ∈ vs, v.type < map.length) (hnew : Plain c (relabel (fun t => map.getD t 0) vs))
    (hw : weight c.NI c.nf c.G0 c.tbl vs ≠ 0) (r : ℝ) :
    (r < ‖weight c.NI c.nf c.G0 c.tbl (relabel (fun t => map.getD t 0) vs) / weight c.NI c.nf c.G0 c.tbl vs‖ →
      globalImpl c map r (vs, weight c.NI c.nf c.G0 c.tbl vs) =
        .ok (relabel (fun t => map.getD t 0) vs, weight c.NI c.nf c.G0 c.tbl (relabel (fun t => map.getD t 0) vs))) ∧
    (¬ r < ‖weight c.NI c.nf c.G0 c.tbl (relabel (fun t => map.getD t 0) vs) / weight c.NI c.nf c.G0 c.tbl vs‖ →
      globalImpl c map r (vs, weight c.NI c.nf c.G0 c.tbl vs) = .ok (vs, weight c.NI c.nf c.G0 c.tbl vs)) := by
  unfold globalImpl
  rw [transformAll_spec hm]
  simp only [Res.bind_ok]
  rw [C05_compute_weight ht hnew.ok hnew.int hnew.rank]
  simp only [Res.bind_ok]
  rw [Res.assert_true hw]
  simp only [Res.bind_ok]
  constructor
  · intro h; rw [if_pos h]; rfl
  · intro h; rw [if_neg h]; rfl

/-- **C41, all moves.**  The moves are tried in turn, each with its own random number; the loop ends with the configuration they lead
    to and its weight. -/
theorem C41_loop (ht : TblOK c.NI c.nf c.tbl) {moves : List (List ℕ)} {u : ℕ → ℝ} (hu : ∀ k, 0 ≤ u k)
    (hm : ∀ map ∈ moves, ∀ vs, Plain c vs → (∀ v ∈ vs, v.type < map.length) ∧ Plain c (relabel (fun t => map.getD t 0) vs))
    {vs0 : List Vert} (hv : Plain c vs0) (hw : weight c.NI c.nf c.G0 c.tbl vs0 ≠ 0) (p : ℕ) :
    ∃ vs : ℕ → List Vert, vs 0 = vs0 ∧ TriedInTurn (weight c.NI c.nf c.G0 c.tbl) moves (fun i => u (p + i)) vs ∧
      globalLoop c u moves p (vs0, weight c.NI c.nf c.G0 c.tbl vs0) = .ok (vs moves.length, weight c.NI c.nf c.G0 c.tbl (vs moves.length)) := by
  induction moves generalizing vs0 p with
  | nil => exact ⟨fun _ => vs0, rfl, ⟨fun i h => absurd h (Nat.not_lt_zero i), fun i h => absurd h (Nat.not_lt_zero i)⟩, rfl⟩
  | cons map l ih =>
    obtain ⟨h1, h2⟩ := hm map (by simp) vs0 hv
    obtain ⟨d1, d2⟩ := C41_decision ht hv h1 h2 hw (u p)
    have step : ∀ vs1, Plain c vs1 → weight c.NI c.nf c.G0 c.tbl vs1 ≠ 0 →
        globalImpl c map (u p) (vs0, weight c.NI c.nf c.G0 c.tbl vs0) = .ok (vs1, weight c.NI c.nf c.G0 c.tbl vs1) →
        (u p < ‖weight c.NI c.nf c.G0 c.tbl (relabel (fun t => map.getD t 0) vs0) / weight c.NI c.nf c.G0 c.tbl vs0‖ →
          vs1 = relabel (fun t => map.getD t 0) vs0) →
        (¬ u p < ‖weight c.NI c.nf c.G0 c.tbl (relabel (fun t => map.getD t 0) vs0) / weight c.NI c.nf c.G0 c.tbl vs0‖ → vs1 = vs0) →
        ∃ vs : ℕ → List Vert, vs 0 = vs0 ∧ TriedInTurn (weight c.NI c.nf c.G0 c.tbl) (map :: l) (fun i => u (p + i)) vs ∧
          globalLoop c u (map :: l) p (vs0, weight c.NI c.nf c.G0 c.tbl vs0) =
            .ok (vs (map :: l).length, weight c.NI c.nf c.G0 c.tbl (vs (map :: l).length)) := by
      intro vs1 g1 g2 g3 g4 g5
      obtain ⟨vs, e0, e1, e2⟩ := ih (fun map' h' => hm map' (List.mem_cons_of_mem _ h')) g1 g2 (p + 1)
      refine ⟨fun i => match i with | 0 => vs0 | i + 1 => vs i, rfl, ⟨?_, ?_⟩, ?_⟩
      · intro i hi hlt
        cases i with
        | zero => exact e0.trans (g4 hlt)
        | succ i =>
          refine e1.taken i (by simpa using hi) ?_
          show u (p + 1 + i) < _
          rw [show p + 1 + i = p + (i + 1) by ring]
          exact hlt
      · intro i hi hlt
        cases i with
        | zero => exact e0.trans (g5 hlt)
        | succ i =>
          refine e1.left i (by simpa using hi) ?_
          show ¬ u (p + 1 + i) < _
          rw [show p + 1 + i = p + (i + 1) by ring]
          exact hlt
      · unfold globalLoop
        rw [g3, Res.bind_ok]
        exact e2
    by_cases hc : u p < ‖weight c.NI c.nf c.G0 c.tbl (relabel (fun t => map.getD t 0) vs0) / weight c.NI c.nf c.G0 c.tbl vs0‖
    · refine step _ h2 (fun h0 => ?_) (d1 hc) (fun _ => rfl) fun h => absurd hc h
      rw [h0, zero_div, norm_zero] at hc
      exact absurd (hu p) (not_le.2 hc)
    · exact step _ hv hw (d2 hc) (fun h => absurd h hc) fun _ => rfl

/-! ## The effect -/

/-- The object a call of `global_updates` builds holds the configuration the loop ended with. -/
theorem C41_built_object {moves : List (List ℕ)} {u : ℕ → ℝ} {p : ℕ} {x x' : Solver K} (hm : moves ≠ [])
    (e : globalUpdates c moves u p x = .ok x') :
    ∃ s w vs w' s', x.walker = some s ∧ computeWeight c s.verts = .ok w ∧
      globalLoop c u moves p (s.verts, w) = .ok (vs, w') ∧ x'.heap = x.heap ++ [s'] ∧ s'.verts = numbered 0 vs := by
  unfold globalUpdates at e
  rw [if_neg (by simpa using hm)] at e
  simp only [Res.bind_eq_ok] at e
  obtain ⟨s, e1, w, e2, ⟨vs, w'⟩, e3, s', e4, e⟩ := e
  cases e
  exact ⟨s, w, vs, w', s', Res.get_eq_ok.mp e1, e2, e3, rfl, (create_agree e4).1⟩

/-- C41 fails: whatever moves are accepted, the solver works with the same object, and so the same configuration, as
    before the call. -/
theorem C41_no_effect {moves : List (List ℕ)} {u : ℕ → ℝ} {p : ℕ} {x x' : Solver K} (hx : x.ptr < x.heap.length)
    (e : globalUpdates c moves u p x = .ok x') : x'.walker = x.walker := by
  unfold globalUpdates at e
  split at e
  · cases e; rfl
  · simp only [Res.bind_eq_ok] at e
    obtain ⟨s, e1, w, e2, ⟨vs, w'⟩, e3, s', e4, e⟩ := e
    cases e
    unfold Solver.walker
    simp only []
    rw [List.getElem?_append_left hx]

/-! ## Concrete moves -/

/-- The term of `exCtx` with a free coupling. -/
noncomputable def exTermU (U : ℝ) : VDef ℝ := ⟨2, [0, 1], [0, 0, 0, 0], 2, U, fun s r => if s = r then 2 else -1⟩

/-- Three types that differ in the coupling. -/
noncomputable def exCtx3 : Ctx ℝ := ⟨100, 2, fun _ _ => 1 / 2, [exTermU 1, exTermU 2, exTermU 3]⟩

theorem ex3_mem {d : VDef ℝ} (hd : d ∈ exCtx3.tbl) : ∃ U : ℝ, U ≠ 0 ∧ d = exTermU U := by
  simp only [exCtx3, List.mem_cons, List.not_mem_nil, or_false] at hd
  rcases hd with rfl | rfl | rfl
  · exact ⟨1, by norm_num, rfl⟩
  · exact ⟨2, by norm_num, rfl⟩
  · exact ⟨3, by norm_num, rfl⟩

theorem ex_tbl3 : TblOK exCtx3.NI exCtx3.nf exCtx3.tbl where
  fl := by intro d hd; obtain ⟨U, _, rfl⟩ := ex3_mem hd; rfl
  si := by intro d hd; obtain ⟨U, _, rfl⟩ := ex3_mem hd; rfl
  lt := by
    intro d hd f hf
    obtain ⟨U, _, rfl⟩ := ex3_mem hd
    simp only [exTermU, List.mem_cons, List.not_mem_nil, or_false] at hf
    show f < 2
    omega
  U := by intro d hd; obtain ⟨U, hU, rfl⟩ := ex3_mem hd; exact hU
  al := by
    intro d hd s _ r _
    obtain ⟨U, _, rfl⟩ := ex3_mem hd
    exact ex_alpha s r

theorem ex_weightU {tbl : List (VDef ℝ)} {U : ℝ} {v : Vert} (ht : termOf tbl v = exTermU U) (h2 : v.nonInt = false)
    (h3 : v.af = 0) : weight 100 2 (fun _ _ => 1 / 2) tbl [v] = 9 / 4 * U := by
  have hi : interacting [v] = [v] := by simp [interacting, h2]
  have r0 : rowsOf 100 tbl [v] 0 = [rowOf 100 tbl v 0] := by
    simp [rowsOf, rowsV, ht, exTermU, flavorOf, List.range_succ, List.filter_cons]
  have r1 : rowsOf 100 tbl [v] 1 = [rowOf 100 tbl v 1] := by
    simp [rowsOf, rowsV, ht, exTermU, flavorOf, List.range_succ, List.filter_cons]
  unfold weight detWeight uWeight
  rw [hi]
  rw [Finset.prod_range_succ, Finset.prod_range_succ, Finset.prod_range_zero, r0, r1]
  simp only [List.length_singleton, List.map_cons, List.map_nil, List.prod_cons, List.prod_nil, ht]
  unfold detN
  rw [Matrix.det_fin_one, Matrix.det_fin_one]
  simp only [toM_apply, rowG, specG, Fin.val_zero, if_true, List.getD_cons_zero, rowOf, fieldOf, h2, ht, h3,
    Bool.false_eq_true, if_false, Int.toNat_zero]
  simp only [exTermU]
  norm_num

/-- One vertex of type `t`. -/
noncomputable def ex3 (t : ℕ) : List Vert := [⟨t, 0, 2, 1, true, false, 1⟩]

theorem ex3_weight {t : ℕ} (ht : t < 3) : weight exCtx3.NI exCtx3.nf exCtx3.G0 exCtx3.tbl (ex3 t) = 9 / 4 * (t + 1) := by
  unfold ex3
  rcases t with _ | _ | _ | t
  · rw [show ((0 : ℕ) : ℝ) + 1 = 1 by norm_num]; exact ex_weightU rfl rfl rfl
  · rw [show ((0 + 1 : ℕ) : ℝ) + 1 = 2 by norm_num]; exact ex_weightU rfl rfl rfl
  · rw [show ((0 + 1 + 1 : ℕ) : ℝ) + 1 = 3 by norm_num]; exact ex_weightU rfl rfl rfl
  · omega

theorem ex3_plain {t : ℕ} (ht : t < 3) : Plain exCtx3 (ex3 t) := by
  refine ⟨?_, ?_, ?_⟩ <;> intro v hv <;> rw [ex3, List.mem_singleton] at hv <;> subst hv
  · rcases t with _ | _ | _ | t
    · exact ⟨by show 0 < 3; omega, fun _ => ⟨le_rfl, by show (0 : ℤ) < 2; omega⟩⟩
    · exact ⟨by show 1 < 3; omega, fun _ => ⟨le_rfl, by show (0 : ℤ) < 2; omega⟩⟩
    · exact ⟨by show 2 < 3; omega, fun _ => ⟨le_rfl, by show (0 : ℤ) < 2; omega⟩⟩
    · omega
  · rfl
  · rcases t with _ | _ | _ | t
    · rfl
    · rfl
    · rfl
    · omega

theorem ex3_relabel (t : ℕ) (map : List ℕ) : relabel (fun t => map.getD t 0) (ex3 t) = ex3 (map.getD t 0) := rfl

theorem ex3_relabel_plain {map : List ℕ} (hl : map.length = 3) (hlt : ∀ t < 3, map.getD t 0 < 3) {vs : List Vert} (hv : Plain exCtx3 vs) :
    (∀ v ∈ vs, v.type < map.length) ∧ Plain exCtx3 (relabel (fun t => map.getD t 0) vs) := by
  have h3 : ∀ v ∈ vs, v.type < 3 := fun v h => (hv.ok v h).1
  have ht : ∀ v : Vert, v.type < 3 → (termOf exCtx3.tbl v).rank = 2 ∧ (termOf exCtx3.tbl v).numAf = 2 := by
    intro v h
    obtain ⟨t, a, b, e, f, g, k⟩ := v
    have h : t < 3 := h
    rcases t with _ | _ | _ | t
    · exact ⟨rfl, rfl⟩
    · exact ⟨rfl, rfl⟩
    · exact ⟨rfl, rfl⟩
    · omega
  refine ⟨fun v h => by rw [hl]; exact h3 v h, ?_, ?_, ?_⟩ <;> intro v hm <;> unfold relabel at hm <;>
    obtain ⟨w, hw, rfl⟩ := List.mem_map.1 hm
  · refine ⟨hlt _ (h3 w hw), fun h => ?_⟩
    obtain ⟨q1, q2⟩ := (hv.ok w hw).2 h
    rw [(ht w (h3 w hw)).2] at q2
    rw [(ht _ (hlt _ (h3 w hw))).2]
    exact ⟨q1, q2⟩
  · exact hv.int w hw
  · rw [(ht _ (hlt _ (h3 w hw))).1]
    have q := hv.rank w hw
    rw [(ht w (h3 w hw)).1] at q
    exact q

/-- `C41_loop` is not vacuous: two moves, the second decided by the second random number. -/
example {u : ℕ → ℝ} (hu : ∀ k, 0 ≤ u k) :
    ∃ vs : ℕ → List Vert, vs 0 = ex3 0 ∧
      TriedInTurn (weight exCtx3.NI exCtx3.nf exCtx3.G0 exCtx3.tbl) [[1, 0, 2], [0, 2, 1]] (fun i => u (0 + i)) vs ∧
      globalLoop exCtx3 u [[1, 0, 2], [0, 2, 1]] 0 (ex3 0, weight exCtx3.NI exCtx3.nf exCtx3.G0 exCtx3.tbl (ex3 0)) =
        .ok (vs 2, weight exCtx3.NI exCtx3.nf exCtx3.G0 exCtx3.tbl (vs 2)) := by
  refine C41_loop ex_tbl3 hu (fun map h vs hv => ?_) (ex3_plain (by omega)) (by rw [ex3_weight (by omega)]; positivity) 0
  simp only [List.mem_cons, List.not_mem_nil, or_false] at h
  rcases h with rfl | rfl
  · exact ex3_relabel_plain rfl (by intro t ht; rcases t with _ | _ | _ | t <;> first | decide | omega) hv
  · exact ex3_relabel_plain rfl (by intro t ht; rcases t with _ | _ | _ | t <;> first | decide | omega) hv

theorem ex3_global {t : ℕ} (ht : t < 3) {map : List ℕ} (hl : map.length = 3) (hlt : ∀ t < 3, map.getD t 0 < 3) (r : ℝ) :
    globalImpl exCtx3 map r (ex3 t, 9 / 4 * (t + 1)) =
      (open Classical in if r < ((map.getD t 0 : ℝ) + 1) / (t + 1) then .ok (ex3 (map.getD t 0), 9 / 4 * ((map.getD t 0 : ℝ) + 1))
       else .ok (ex3 t, 9 / 4 * (t + 1))) := by
  have h := C41_decision ex_tbl3 (ex3_plain ht) (map := map)
    (by intro v hv; rw [ex3, List.mem_singleton] at hv; subst hv; show t < _; omega)
    (by rw [ex3_relabel]; exact ex3_plain (hlt t ht)) (by rw [ex3_weight ht]; positivity) r
  rw [ex3_relabel, ex3_weight ht, ex3_weight (hlt t ht)] at h
  have e : ‖(9 / 4 * (((map.getD t 0 : ℕ) : ℝ) + 1) / (9 / 4 * ((t : ℝ) + 1)) : ℝ)‖ = (((map.getD t 0 : ℕ) : ℝ) + 1) / (t + 1) := by
    rw [Real.norm_of_nonneg (by positivity)]
    field_simp
  rw [e] at h
  split
  · rename_i q; exact h.1 q
  · rename_i q; exact h.2 q

/-- C41 fails: a valid interaction with three types, one vertex of the first type, and the move that exchanges the first
    two types.  The move is accepted (for every random number in [0,1)), the object built for the transformed configuration
    is right, but the solver goes on with the configuration it had. -/
theorem C41_violation {r : ℝ} (hr : r < 1) :
    ∃ s0 s1 x', Sub.create exCtx3 (ex3 0) = .ok s0 ∧ s0.verts = ex3 0 ∧
      globalUpdates exCtx3 [[1, 0, 2]] (fun _ => r) 0 ⟨[s0], 0⟩ = .ok x' ∧
      x'.heap = [s0, s1] ∧ s1.verts = ex3 1 ∧ x'.walker = some s0 := by
  have good : ∀ t < 3, GoodStart exCtx3.NI exCtx3.nf exCtx3.G0 exCtx3.tbl (ex3 t) := fun t ht =>
    ⟨(ex3_plain ht).int, (ex3_plain ht).ok, by
      rw [show numbered 0 (ex3 t) = ex3 t from rfl, ex3_weight ht]; positivity⟩
  obtain ⟨s0, e0, m0⟩ := create_means ex_tbl3 (good 0 (by omega))
  obtain ⟨s1, e1, m1⟩ := create_means ex_tbl3 (good 1 (by omega))
  have v0 : s0.verts = ex3 0 := m0.cfg
  have v1 : s1.verts = ex3 1 := m1.cfg
  refine ⟨s0, s1, ⟨[s0, s1], 0⟩, e0, v0, ?_, rfl, v1, rfl⟩
  unfold globalUpdates
  rw [if_neg (by simp)]
  simp only [Res.get, List.getElem?_cons_zero, Res.bind_ok]
  rw [v0, C05_compute_weight ex_tbl3 (ex3_plain (by omega)).ok (ex3_plain (by omega)).int (ex3_plain (by omega)).rank]
  simp only [Res.bind_ok]
  rw [ex3_weight (by omega)]
  unfold globalLoop
  rw [ex3_global (by omega) rfl (by intro t ht; rcases t with _ | _ | _ | t <;> first | decide | omega)]
  rw [if_pos (by show r < ((1 : ℕ) + 1 : ℝ) / ((0 : ℕ) + 1); norm_num; linarith)]
  simp only [Res.bind_ok]
  unfold globalLoop
  simp only [Res.bind_ok]
  rw [show ([1, 0, 2] : List ℕ).getD 0 0 = 1 from rfl, e1]
  rfl

/-! ## C54 -/

/-- The probability that one move leads from `vs` to `new`. -/
noncomputable def moveProb (c : Ctx K) (map : List ℕ) (vs new : List Vert) : ENNReal :=
  prob1 fun r => ∃ w, globalImpl c map r (vs, weight c.NI c.nf c.G0 c.tbl vs) = .ok (new, w)

theorem relabel_involution {map : List ℕ} {vs : List Vert} (hinv : ∀ v ∈ vs, map.getD (map.getD v.type 0) 0 = v.type) :
    relabel (fun t => map.getD t 0) (relabel (fun t => map.getD t 0) vs) = vs := by
  unfold relabel
  rw [List.map_map]
  conv_rhs => rw [← List.map_id vs]
  apply List.map_congr_left
  intro v hv
  simp only [Function.comp_apply, id]
  rw [hinv v hv]

theorem moveProb_eq (ht : TblOK c.NI c.nf c.tbl) {map : List ℕ} {vs : List Vert} (hv : Plain c vs)
    (hm : ∀ v ∈ vs, v.type < map.length) (hnew : Plain c (relabel (fun t => map.getD t 0) vs))
    (hw : weight c.NI c.nf c.G0 c.tbl vs ≠ 0) (hne : relabel (fun t => map.getD t 0) vs ≠ vs) :
    moveProb c map vs (relabel (fun t => map.getD t 0) vs) =
      ENNReal.ofReal (min 1 ‖weight c.NI c.nf c.G0 c.tbl (relabel (fun t => map.getD t 0) vs) / weight c.NI c.nf c.G0 c.tbl vs‖) := by
  rw [← prob1_lt _ (norm_nonneg _)]
  unfold moveProb prob1
  congr 1
  ext r
  simp only [Set.mem_setOf_eq]
  refine and_congr_right fun _ => and_congr_right fun _ => ?_
  obtain ⟨h1, h2⟩ := C41_decision ht hv hm hnew hw r
  constructor
  · rintro ⟨w, e⟩
    by_contra hn
    rw [h2 hn] at e
    injection e with e
    injection e with e _
    exact hne e.symm
  · intro h; exact ⟨_, h1 h⟩

/-- C54: a move that is its own inverse is reversible with respect to the modulus of the weight.  (Partial: the loop
    applies every move of the list once, also those that are not their own inverse, see `C54_violation`.) -/
theorem C54_involution_partial (ht : TblOK c.NI c.nf c.tbl) {map : List ℕ} {vs : List Vert} (hv : Plain c vs)
    (hm : ∀ v ∈ vs, v.type < map.length) (hnew : Plain c (relabel (fun t => map.getD t 0) vs))
    (hm' : ∀ v ∈ relabel (fun t => map.getD t 0) vs, v.type < map.length)
    (hinv : ∀ v ∈ vs, map.getD (map.getD v.type 0) 0 = v.type)
    (hw : weight c.NI c.nf c.G0 c.tbl vs ≠ 0)
    (hw' : weight c.NI c.nf c.G0 c.tbl (relabel (fun t => map.getD t 0) vs) ≠ 0)
    (hne : relabel (fun t => map.getD t 0) vs ≠ vs) :
    ENNReal.ofReal ‖weight c.NI c.nf c.G0 c.tbl vs‖ * moveProb c map vs (relabel (fun t => map.getD t 0) vs) =
      ENNReal.ofReal ‖weight c.NI c.nf c.G0 c.tbl (relabel (fun t => map.getD t 0) vs)‖ *
        moveProb c map (relabel (fun t => map.getD t 0) vs) vs := by
  have hback := relabel_involution hinv
  have e1 := moveProb_eq ht hv hm hnew hw hne
  have e2 := moveProb_eq ht hnew hm' (by rw [hback]; exact hv) hw' (by rw [hback]; exact hne.symm)
  rw [hback] at e2
  rw [e1, e2, ← ENNReal.ofReal_mul (norm_nonneg _), ← ENNReal.ofReal_mul (norm_nonneg _), norm_div, norm_div]
  congr 1
  have hA := norm_pos_iff.mpr hw
  have hB := norm_pos_iff.mpr hw'
  have := metropolis_balance hA hB (q := 1) (q' := 1) one_pos one_pos
  simpa using this

/-- The hypotheses of `C54_involution_partial` hold for the exchange of the first two types. -/
example : ENNReal.ofReal ‖weight exCtx3.NI exCtx3.nf exCtx3.G0 exCtx3.tbl (ex3 0)‖ * moveProb exCtx3 [1, 0, 2] (ex3 0) (ex3 1) =
    ENNReal.ofReal ‖weight exCtx3.NI exCtx3.nf exCtx3.G0 exCtx3.tbl (ex3 1)‖ * moveProb exCtx3 [1, 0, 2] (ex3 1) (ex3 0) := by
  refine C54_involution_partial (vs := ex3 0) (map := [1, 0, 2]) ex_tbl3 (ex3_plain (by omega)) ?_ (ex3_plain (t := 1) (by omega)) ?_ ?_ ?_ ?_ ?_
  · intro v hv; rw [ex3, List.mem_singleton] at hv; subst hv; show 0 < 3; omega
  · intro v hv
    have hv : v ∈ ex3 1 := hv
    rw [ex3, List.mem_singleton] at hv; subst hv; show 1 < 3; omega
  · intro v hv; rw [ex3, List.mem_singleton] at hv; subst hv; rfl
  · rw [ex3_weight (by omega)]; positivity
  · show weight exCtx3.NI exCtx3.nf exCtx3.G0 exCtx3.tbl (ex3 1) ≠ 0
    rw [ex3_weight (by omega)]; positivity
  · intro e
    have : (ex3 1).map (·.type) = (ex3 0).map (·.type) := congrArg (List.map (·.type)) e
    simp [ex3] at this

/-- C54 fails: the cyclic exchange of three types, a permutation, applied to one vertex.  Its three configurations have
    weights 9/4, 9/2, 27/4; the mass that reaches the second one in a step, starting from the stationary masses, is 9/4. -/
theorem C54_violation :
    ENNReal.ofReal ‖weight exCtx3.NI exCtx3.nf exCtx3.G0 exCtx3.tbl (ex3 0)‖ * moveProb exCtx3 [1, 2, 0] (ex3 0) (ex3 1) +
      ENNReal.ofReal ‖weight exCtx3.NI exCtx3.nf exCtx3.G0 exCtx3.tbl (ex3 1)‖ * moveProb exCtx3 [1, 2, 0] (ex3 1) (ex3 1) +
      ENNReal.ofReal ‖weight exCtx3.NI exCtx3.nf exCtx3.G0 exCtx3.tbl (ex3 2)‖ * moveProb exCtx3 [1, 2, 0] (ex3 2) (ex3 1) ≠
    ENNReal.ofReal ‖weight exCtx3.NI exCtx3.nf exCtx3.G0 exCtx3.tbl (ex3 1)‖ := by
  have hne : ∀ a b : ℕ, a ≠ b → ex3 a ≠ ex3 b := by
    intro a b hab e
    have : (ex3 a).map (·.type) = (ex3 b).map (·.type) := congrArg (List.map (·.type)) e
    simp [ex3] at this
    exact hab this
  have hmap : ∀ t < 3, ([1, 2, 0] : List ℕ).getD t 0 < 3 := by
    intro t ht; rcases t with _ | _ | _ | t <;> first | decide | omega
  have p0 : moveProb exCtx3 [1, 2, 0] (ex3 0) (ex3 1) ≤ 1 := by
    unfold moveProb prob1
    refine (MeasureTheory.measure_mono (t := Set.Ico 0 1) ?_).trans (by rw [Real.volume_Ico]; simp)
    intro r hr; exact ⟨hr.1, hr.2.1⟩
  have p1 : moveProb exCtx3 [1, 2, 0] (ex3 1) (ex3 1) = 0 := by
    unfold moveProb prob1
    rw [show {r : ℝ | _} = (∅ : Set ℝ) from ?_, MeasureTheory.measure_empty]
    ext r
    simp only [Set.mem_setOf_eq, Set.mem_empty_iff_false, iff_false]
    rintro ⟨h0, h1, w, e⟩
    rw [ex3_weight (by omega), ex3_global (by omega) rfl hmap,
      if_pos (by show r < ((2 : ℕ) + 1 : ℝ) / ((1 : ℕ) + 1); norm_num; linarith)] at e
    injection e with e
    injection e with e _
    exact hne 2 1 (by omega) e
  have p2 : moveProb exCtx3 [1, 2, 0] (ex3 2) (ex3 1) = 0 := by
    unfold moveProb prob1
    rw [show {r : ℝ | _} = (∅ : Set ℝ) from ?_, MeasureTheory.measure_empty]
    ext r
    simp only [Set.mem_setOf_eq, Set.mem_empty_iff_false, iff_false]
    rintro ⟨h0, h1, w, e⟩
    rw [ex3_weight (by omega), ex3_global (by omega) rfl hmap] at e
    split at e
    · injection e with e
      injection e with e _
      exact hne 0 1 (by omega) e
    · injection e with e
      injection e with e _
      exact hne 2 1 (by omega) e
  rw [p1, p2, mul_zero, mul_zero, add_zero, add_zero, ex3_weight (by omega), ex3_weight (by omega)]
  apply ne_of_lt
  refine lt_of_le_of_lt (mul_le_of_le_one_right' p0) ?_
  rw [ENNReal.ofReal_lt_ofReal_iff (by norm_num)]
  norm_num

end CTInt
