import Verif.Model.Select
import Verif.Props.Random
import Verif.Props.Streams
import Verif.Spec.Config
import Verif.Proofs.ManagerRun
import Mathlib.Tactic.NormNum

/-!
# C83: selection of vertices by kind
-/

set_option linter.all false

namespace CTInt

open MeasureTheory Set

variable {K : Type} [RCLike K] [DecidableEq K]

/-- A window is one that starts in [0,beta] and has a width in (0,beta]. -/
def Kind.Good (beta : ℝ) : Kind → Prop
  | .window x => ∃ ts w, 0 ≤ ts ∧ ts ≤ beta ∧ 0 < w ∧ w ≤ beta ∧ Window.create ts w beta = .ok x
  | _ => True

/-- What a kind asks of the density flag. -/
def Kind.takes : Kind → Bool → Prop
  | .all, _ => True
  | .density, b => b = true
  | _, b => b = false

theorem kind_time {k : Kind} {beta : ℝ} (hb : 0 < beta) (hk : k.Good beta) {r : ℝ} (hr : 0 ≤ r ∧ r < 1) :
    ∃ t, k.time beta r = .ok t ∧ 0 ≤ t ∧ t ≤ beta ∧
      ∀ v : Vert, v.time = t → k.takes v.isDensity → k.accepts v := by
  have plain : Res.assert (0 ≤ r ∧ r ≤ 1) = .ok () := Res.assert_true ⟨hr.1, hr.2.le⟩
  have h0 : 0 ≤ r * beta := mul_nonneg hr.1 hb.le
  have h1 : r * beta ≤ beta := by nlinarith [hr.2]
  cases k with
  | all => exact ⟨r * beta, by simp [Kind.time, plain], h0, h1, fun v _ _ => trivial⟩
  | density => exact ⟨r * beta, by simp [Kind.time, plain], h0, h1, fun v _ h => h⟩
  | nonDensity => exact ⟨r * beta, by simp [Kind.time, plain], h0, h1, fun v _ h => h⟩
  | window x =>
    obtain ⟨ts, w, a, b, c, d, e⟩ := hk
    obtain ⟨x', t, e', f, g, h, i⟩ := C35_time_in_window a b c d hr.1 hr.2.le
    rw [e] at e'
    obtain rfl : x = x' := by injection e'
    exact ⟨t, f, g, h, fun v hv hd => i v hd hv⟩

theorem kind_types {k : Kind} {tbl : List (VDef K)} {t : ℕ} (ht : t ∈ k.types tbl) :
    ∃ h : t < tbl.length, k.takes tbl[t].isDensity := by
  cases k <;> simp only [Kind.types, List.mem_filter, List.mem_range] at ht
  · exact ⟨ht, trivial⟩
  all_goals
    refine ⟨ht.1, ?_⟩
    unfold Kind.takes
    have := ht.2
    rw [List.getD_eq_getElem _ _ ht.1] at this
    simpa using this

/-- C83: `generate_itime_vertices` gives the number of vertices asked for, each of an existing type and with an existing state
    of the auxiliary field, interacting, at a time in [0,beta], and of the kind asked for; if no type is of that kind it gives
    none. -/
theorem C83_generate {k : Kind} {tbl : List (VDef K)} {beta : ℝ} {u : ℕ → ℝ} (hb : 0 < beta) (hk : k.Good beta)
    (haf : ∀ d ∈ tbl, 0 < d.numAf) (hu : ∀ i, 0 ≤ u i ∧ u i < 1) (n p : ℕ) :
    (k.types tbl = [] → generateVertices k tbl beta u n p = .ok ([], p)) ∧
    (k.types tbl ≠ [] → ∃ l, generateVertices k tbl beta u n p = .ok (l, p + 3 * n) ∧ l.length = n ∧
      ∀ v ∈ l, VertOK tbl v ∧ v.nonInt = false ∧ 0 ≤ v.time ∧ v.time ≤ beta ∧ k.accepts v ∧
        v.isDensity = (termOf tbl v).isDensity ∧ v.rank = (termOf tbl v).rank) := by
  constructor
  · intro h
    unfold generateVertices
    rw [if_pos (by rw [h]; rfl)]
    rfl
  · intro h
    have hpos : 0 < (k.types tbl).length := List.length_pos_of_ne_nil h
    unfold generateVertices
    rw [if_neg (by omega)]
    induction n generalizing p with
    | zero => exact ⟨[], rfl, rfl, fun v hv => absurd hv List.not_mem_nil⟩
    | succ n ih =>
      obtain ⟨l, e, hl, hv⟩ := ih (p + 3)
      obtain ⟨t, et, t0, t1, hacc⟩ := kind_time hb hk (hu p)
      have hi : ⌊u (p + 1) * (k.types tbl).length⌋₊ < (k.types tbl).length := floor_mul_lt (hu _) hpos
      obtain ⟨htl, hkd⟩ := kind_types (List.getElem_mem hi)
      set ty := (k.types tbl)[⌊u (p + 1) * (k.types tbl).length⌋₊]
      unfold genLoop
      rw [et, Res.bind_ok, Res.get_of_lt hi, Res.bind_ok, Res.get_of_lt htl, Res.bind_ok, e, Res.bind_ok]
      have e3 : p + 3 * (n + 1) = p + 3 + 3 * n := by ring
      rw [e3]
      refine ⟨_, rfl, by rw [List.length_cons, hl], ?_⟩
      intro v hvm
      rcases List.mem_cons.mp hvm with rfl | hvm
      · have hterm : termOf tbl ⟨ty, (⌊u (p + 2) * (tbl[ty]).numAf⌋₊ : ℤ), ((tbl[ty]).rank : ℤ), t, (tbl[ty]).isDensity, false, 0⟩ = tbl[ty] := by
          unfold termOf
          rw [List.getD_eq_getElem _ _ htl]
        refine ⟨⟨htl, fun _ => ⟨by simp, ?_⟩⟩, rfl, t0, t1, hacc _ rfl hkd, by rw [hterm], by rw [hterm]⟩
        rw [hterm]
        have := floor_mul_lt (hu (p + 2)) (haf _ (List.getElem_mem htl))
        show (⌊u (p + 2) * (tbl[ty]).numAf⌋₊ : ℤ) < _
        exact_mod_cast this
      · exact hv v hvm

/-- C83: `generate_valid_vertex_pair` takes the pair of types with number ⌊u p · n⌋ and gives two vertices of
    these types of the kind asked for; it throws if it comes to a type that is a density; without pairs it gives none. -/
theorem C83_generate_pair {k : Kind} {tbl : List (VDef K)} {pairs : List (ℕ × ℕ)} {beta : ℝ} {u : ℕ → ℝ} (hb : 0 < beta)
    (hk : k.Good beta) (hkd : k ≠ .density) (haf : ∀ d ∈ tbl, 0 < d.numAf) (hu : ∀ i, 0 ≤ u i ∧ u i < 1) (p : ℕ)
    (hp : ∀ q ∈ pairs, q.1 < tbl.length ∧ q.2 < tbl.length) :
    (pairs = [] → generatePair k tbl pairs beta u p = .ok ([], p)) ∧
    ∀ i, (hi : i < pairs.length) → ⌊u p * pairs.length⌋₊ = i →
      ((tbl.getD pairs[i].1 default).isDensity = true ∨ (tbl.getD pairs[i].2 default).isDensity = true →
        generatePair k tbl pairs beta u p = .throw .logicError) ∧
      ((tbl.getD pairs[i].1 default).isDensity = false → (tbl.getD pairs[i].2 default).isDensity = false →
        ∃ v w, generatePair k tbl pairs beta u p = .ok ([v, w], p + 5) ∧ v.type = pairs[i].1 ∧ w.type = pairs[i].2 ∧
          ∀ x ∈ [v, w], VertOK tbl x ∧ x.nonInt = false ∧ 0 ≤ x.time ∧ x.time ≤ beta ∧ k.accepts x ∧ x.rank = (termOf tbl x).rank) := by
  constructor
  · rintro rfl
    rfl
  · intro i hi hidx
    obtain ⟨ta, ea, a0, a1, aacc⟩ := kind_time hb hk (hu (p + 1))
    obtain ⟨tb, eb, b0, b1, bacc⟩ := kind_time hb hk (hu (p + 3))
    obtain ⟨h1, h2⟩ := hp _ (List.getElem_mem hi)
    have hpos : ¬ pairs.length = 0 := by omega
    have hpv : ∀ t (ht : t < tbl.length) time p, (tbl[t].isDensity = true → pairVertex tbl u t time p = .throw .logicError) ∧
        (tbl[t].isDensity = false → pairVertex tbl u t time p =
          .ok (⟨t, (⌊u p * tbl[t].numAf⌋₊ : ℤ), (tbl[t].rank : ℤ), time, false, false, 0⟩, p + 1)) := by
      intro t ht time p
      unfold pairVertex
      rw [Res.get_of_lt ht, Res.bind_ok]
      constructor
      · intro h; rw [Res.throwIf_true h]; rfl
      · intro h; rw [Res.throwIf_false (by simp [h]), Res.bind_ok]; rfl
    have hgood : ∀ t (ht : t < tbl.length) time p, tbl[t].isDensity = false → 0 ≤ time → time ≤ beta →
        (∀ v : Vert, v.time = time → v.isDensity = false → k.accepts v) →
        ∀ x : Vert, x = ⟨t, (⌊u p * tbl[t].numAf⌋₊ : ℤ), (tbl[t].rank : ℤ), time, false, false, 0⟩ →
          VertOK tbl x ∧ x.nonInt = false ∧ 0 ≤ x.time ∧ x.time ≤ beta ∧ k.accepts x ∧ x.rank = (termOf tbl x).rank := by
      rintro t ht time p hd h0 h1 hacc x rfl
      have hterm : termOf tbl ⟨t, (⌊u p * tbl[t].numAf⌋₊ : ℤ), (tbl[t].rank : ℤ), time, false, false, 0⟩ = tbl[t] := by
        unfold termOf
        rw [List.getD_eq_getElem _ _ ht]
      refine ⟨⟨ht, fun _ => ⟨by simp, ?_⟩⟩, rfl, h0, h1, hacc _ rfl rfl, by rw [hterm]⟩
      rw [hterm]
      have := floor_mul_lt (hu p) (haf _ (List.getElem_mem ht))
      show (⌊u p * tbl[t].numAf⌋₊ : ℤ) < _
      exact_mod_cast this
    have hk' : ∀ {time : ℝ}, (∀ v : Vert, v.time = time →
        k.takes v.isDensity → k.accepts v) →
        ∀ v : Vert, v.time = time → v.isDensity = false → k.accepts v := by
      intro time h v hv hd
      apply h v hv
      cases k with
      | all => trivial
      | density => exact absurd rfl hkd
      | nonDensity => exact hd
      | window x => exact hd
    have start : generatePair k tbl pairs beta u p = (do
        let (v, p) ← pairVertex tbl u pairs[i].1 ta (p + 2)
        let t2 ← k.time beta (u p)
        let (w, p) ← pairVertex tbl u pairs[i].2 t2 (p + 1)
        pure ([v, w], p)) := by
      unfold generatePair
      rw [if_neg hpos, hidx, Res.get_of_lt hi, Res.bind_ok, ea, Res.bind_ok]
    rw [start, List.getD_eq_getElem _ _ h1, List.getD_eq_getElem _ _ h2]
    cases hd1 : (tbl[pairs[i].1]).isDensity with
    | true =>
      refine ⟨fun _ => ?_, fun h => by cases h⟩
      rw [(hpv _ h1 _ _).1 hd1]
      rfl
    | false =>
      rw [(hpv _ h1 _ _).2 hd1, Res.bind_ok]
      simp only []
      rw [eb, Res.bind_ok]
      cases hd2 : (tbl[pairs[i].2]).isDensity with
      | true =>
        refine ⟨fun _ => ?_, fun _ h => by cases h⟩
        rw [(hpv _ h2 _ _).1 hd2]
        rfl
      | false =>
        refine ⟨fun h => (by simp at h), fun _ _ => ?_⟩
        rw [(hpv _ h2 _ _).2 hd2, Res.bind_ok]
        refine ⟨_, _, rfl, rfl, rfl, fun x hx => ?_⟩
        rcases List.mem_cons.mp hx with hx | hx
        · exact hgood _ h1 _ _ hd1 a0 a1 (hk' aacc) x hx
        · exact hgood _ h2 _ _ hd2 b0 b1 (hk' bacc) x (List.mem_singleton.mp hx)

/-! ## Picking positions -/

theorem filter_range_count {vs : List Vert} (q : Vert → Bool) : ∀ m ≤ vs.length,
    ((List.range m).filter fun i => q (vs.getD i default)).length = (vs.take m).countP q := by
  intro m
  induction m with
  | zero => intro _; simp
  | succ m ih =>
    intro hm
    have hml : m < vs.length := by omega
    rw [List.range_succ, List.filter_append, List.length_append, ih (by omega), List.take_add_one, List.countP_append,
      List.getElem?_eq_getElem hml, List.filter_singleton]
    simp only [List.getD_eq_getElem vs default hml, Option.toList_some, List.countP_singleton]
    cases q vs[m] <;> simp

open Classical in
/-- The positions of the vertices of a kind. -/
noncomputable def kindPositions (k : Kind) (vs : List Vert) : List ℕ :=
  (List.range vs.length).filter fun i => decide (k.accepts (vs.getD i default))

open Classical in
theorem activePositions_ok (k : Kind) (vs : List Vert) :
    activePositions k vs (vs.countP fun v => decide (k.accepts v)) = .ok (kindPositions k vs) := by
  unfold activePositions kindPositions
  suffices h : ∀ m ≤ vs.length, Res.foldl (fun pos iv => (do
      let v ← Res.get vs iv
      if k.accepts v then do
        Res.assert (pos.length < vs.countP fun v => decide (k.accepts v))
        pure (pos ++ [iv])
      else pure pos : Res (List ℕ))) [] (List.range m) = .ok ((List.range m).filter fun i => decide (k.accepts (vs.getD i default))) from
    h _ le_rfl
  intro m
  induction m with
  | zero => intro _; rfl
  | succ m ih =>
    intro hm
    have hml : m < vs.length := by omega
    rw [List.range_succ, Res.foldl_append, ih (by omega), Res.bind_ok, Res.foldl_cons, Res.get_of_lt hml, Res.bind_ok,
      List.filter_append, List.filter_singleton]
    simp only [List.getD_eq_getElem vs default hml]
    by_cases h : k.accepts vs[m]
    · have hlt : ((List.range m).filter fun i => decide (k.accepts (vs.getD i default))).length <
          vs.countP fun v => decide (k.accepts v) := by
        rw [filter_range_count (fun v => decide (k.accepts v)) m (by omega)]
        have h1 : (vs.take (m + 1)).countP (fun v => decide (k.accepts v)) ≤ vs.countP fun v => decide (k.accepts v) :=
          (List.take_sublist _ _).countP_le
        rw [List.take_add_one, List.countP_append, List.getElem?_eq_getElem hml] at h1
        simp only [Option.toList_some, List.countP_singleton, h, decide_true, if_true] at h1
        omega
      rw [if_pos h, Res.assert_true hlt]
      simp [h]
    · rw [if_neg h]
      simp [h]

theorem kindPositions_mem {k : Kind} {vs : List Vert} {i : ℕ} : i ∈ kindPositions k vs ↔ ∃ h : i < vs.length, k.accepts vs[i] := by
  unfold kindPositions
  rw [List.mem_filter, List.mem_range]
  constructor
  · rintro ⟨h, e⟩
    rw [List.getD_eq_getElem _ _ h] at e
    exact ⟨h, by simpa using e⟩
  · rintro ⟨h, e⟩
    rw [List.getD_eq_getElem _ _ h]
    exact ⟨h, by simpa using e⟩

theorem kindPositions_nodup (k : Kind) (vs : List Vert) : (kindPositions k vs).Nodup := List.nodup_range.filter _

open Classical in
theorem kindPositions_length (k : Kind) (vs : List Vert) : (kindPositions k vs).length = vs.countP fun v => decide (k.accepts v) := by
  unfold kindPositions
  rw [filter_range_count (fun v => decide (k.accepts v)) _ le_rfl, List.take_length]

theorem run_assert_true {p : Prop} {inst : Decidable p} (h : p) : @Run.assert p inst = .ok () := by
  unfold Run.assert
  rw [if_pos h]

theorem pickVertices_few {k : Kind} {vs : List Vert} {u : ℕ → ℝ} {fuel n p : ℕ} (h : (kindPositions k vs).length < n) :
    pickVertices k vs u fuel n p = .ok ([], p) := by
  rw [kindPositions_length] at h
  unfold pickVertices
  rw [if_pos h]

theorem pickVertices_eq {k : Kind} {vs : List Vert} {u : ℕ → ℝ} {fuel n p : ℕ} (h : n ≤ (kindPositions k vs).length) :
    pickVertices k vs u fuel n p = (pickNumbers u fuel (kindPositions k vs).length n p >>= fun r =>
      .ok (r.1.map fun i => (kindPositions k vs).getD i 0, r.2)) := by
  have hl := kindPositions_length k vs
  unfold pickVertices
  rw [if_neg (by rw [← hl]; omega), activePositions_ok, ← hl]
  simp only [Run.lift_ok, Run.bind_ok]
  rw [run_assert_true trivial]
  simp only [Run.bind_ok]
  cases hp : pickNumbers u fuel (kindPositions k vs).length n p with
  | ub => rfl
  | more => rfl
  | throw e => rfl
  | ok r =>
    obtain ⟨l, p'⟩ := r
    obtain ⟨-, -, hlt, -⟩ := C32_distinct hp
    simp only [Run.bind_ok]
    rw [Res.mapM_ok (g := fun i => (kindPositions k vs).getD i 0) (fun i hi => by
      rw [Res.get_of_lt (hlt i hi), List.getD_eq_getElem _ _ (hlt i hi)])]
    simp only [Run.lift_ok, Run.bind_ok]
    rw [Res.mapM_ok (g := fun _ => ()) (fun i hi => by
      obtain ⟨j, hj, rfl⟩ := List.mem_map.mp hi
      rw [List.getD_eq_getElem _ _ (hlt j hj)]
      obtain ⟨h1, h2⟩ := kindPositions_mem.mp (List.getElem_mem (hlt j hj))
      rw [Res.get_of_lt h1, Res.bind_ok]
      unfold Res.assert
      rw [if_pos h2])]
    rfl

/-- C83: `pick_up_itime_vertices` gives nothing if there are fewer vertices of the kind than asked for; otherwise as many
    different positions as asked for, all of vertices of the kind, none of its asserts fails, and it returns on every stream
    that keeps producing every index. -/
theorem C83_pick {k : Kind} {vs : List Vert} {u : ℕ → ℝ} (n p : ℕ) :
    ((kindPositions k vs).length < n → ∀ fuel, pickVertices k vs u fuel n p = .ok ([], p)) ∧
    (n ≤ (kindPositions k vs).length →
      (∀ fuel l p', pickVertices k vs u fuel n p = .ok (l, p') →
        l.length = n ∧ l.Nodup ∧ ∀ i ∈ l, ∃ h : i < vs.length, k.accepts vs[i]) ∧
      ((∀ i, 0 ≤ u i ∧ u i < 1) → (∀ x < (kindPositions k vs).length, ∀ m, ∃ j ≥ m, ⌊u j * (kindPositions k vs).length⌋₊ = x) →
        ∃ F r, ∀ fuel ≥ F, pickVertices k vs u fuel n p = .ok r)) := by
  refine ⟨fun h fuel => pickVertices_few h, fun h => ⟨fun fuel l p' e => ?_, fun hu hf => ?_⟩⟩
  · rw [pickVertices_eq h, Run.bind_eq_ok] at e
    obtain ⟨⟨l', q⟩, e1, e2⟩ := e
    obtain ⟨a, b, c, -⟩ := C32_distinct e1
    obtain ⟨rfl, rfl⟩ : l'.map (fun i => (kindPositions k vs).getD i 0) = l ∧ q = p' := by
      injection e2 with e2
      exact ⟨congrArg Prod.fst e2, congrArg Prod.snd e2⟩
    refine ⟨by simp [a], ?_, ?_⟩
    · refine List.Nodup.map_on ?_ b
      intro x hx y hy hxy
      rw [List.getD_eq_getElem _ _ (c x hx), List.getD_eq_getElem _ _ (c y hy)] at hxy
      exact (List.Nodup.getElem_inj_iff (kindPositions_nodup k vs)).mp hxy
    · intro i hi
      obtain ⟨j, hj, rfl⟩ := List.mem_map.mp hi
      rw [List.getD_eq_getElem _ _ (c j hj)]
      exact kindPositions_mem.mp (List.getElem_mem (c j hj))
  · obtain ⟨F, r, hF⟩ := C32_returns hu hf h p
    exact ⟨F, _, fun fuel hfu => by rw [pickVertices_eq h, hF fuel hfu]; rfl⟩

/-- C83: all lists of `n` different vertices of the kind are picked with the same probability. -/
theorem C83_pick_law {k : Kind} {vs : List Vert} {L : List ℕ} (hnd : L.Nodup) (hL : ∀ i ∈ L, ∃ h : i < vs.length, k.accepts vs[i]) :
    streams {u | ∃ p, Returns (fun fuel => pickVertices k vs u fuel L.length 0) (L, p)} =
      ENNReal.ofReal (1 / ((kindPositions k vs).length.descFactorial L.length : ℝ)) := by
  set P := kindPositions k vs with hP
  have hmem : ∀ i ∈ L, i ∈ P := fun i hi => kindPositions_mem.mpr (hL i hi)
  have hlen : L.length ≤ P.length := (List.subperm_of_subset hnd hmem).length_le
  have hg : ∀ i ∈ L, P.getD (P.idxOf i) 0 = i := by
    intro i hi
    rw [List.getD_eq_getElem _ _ (List.idxOf_lt_length_of_mem (hmem i hi)), List.getElem_idxOf]
  have hmap : (L.map fun i => P.idxOf i).map (fun i => P.getD i 0) = L := by
    rw [List.map_map]
    conv_rhs => rw [← List.map_id L]
    exact List.map_congr_left fun i hi => hg i hi
  have h := C32_uniform (N := P.length) (L := L.map fun i => P.idxOf i) (List.Nodup.map_on (by
      intro x hx y hy hxy
      rw [← hg x hx, ← hg y hy, hxy]) hnd) (by
      intro x hx
      obtain ⟨i, hi, rfl⟩ := List.mem_map.mp hx
      exact List.idxOf_lt_length_of_mem (hmem i hi))
  rw [List.length_map] at h
  rw [← h]
  congr 1
  ext u
  constructor
  · rintro ⟨p, F, hF⟩
    refine ⟨p, F, fun fuel hfu => ?_⟩
    have e := hF fuel hfu
    simp only [] at e
    rw [pickVertices_eq hlen, Run.bind_eq_ok] at e
    obtain ⟨⟨l', q⟩, e1, e2⟩ := e
    obtain ⟨a, b, c, -⟩ := C32_distinct e1
    obtain ⟨e3, rfl⟩ : l'.map (fun i => P.getD i 0) = L ∧ q = p := by
      injection e2 with e2
      exact ⟨congrArg Prod.fst e2, congrArg Prod.snd e2⟩
    have : L.map (fun i => P.idxOf i) = l' := by
      rw [← e3, List.map_map]
      conv_rhs => rw [← List.map_id l']
      refine List.map_congr_left fun i hi => ?_
      simp only [Function.comp_apply, id_eq]
      rw [List.getD_eq_getElem _ _ (c i hi), List.Nodup.idxOf_getElem (kindPositions_nodup k vs)]
    rw [this]
    exact e1
  · rintro ⟨p, F, hF⟩
    refine ⟨p, F, fun fuel hfu => ?_⟩
    have e := hF fuel hfu
    simp only [] at e ⊢
    rw [pickVertices_eq hlen, e]
    simp only [Run.bind_ok]
    rw [hmap]

/-! ## Counting and picking flagged pairs -/

theorem foldl_flat {α β : Type} {F : List β → α → Res (List β)} {g : α → List β} : ∀ {L : List α} {l0 : List β},
    (∀ l, ∀ a ∈ L, F l a = .ok (l ++ g a)) → Res.foldl F l0 L = .ok (l0 ++ L.flatMap g)
  | [], l0, _ => by simp
  | a :: L, l0, h => by
    rw [Res.foldl_cons, h l0 a List.mem_cons_self, Res.bind_ok,
      foldl_flat (L := L) fun l b hb => h l b (List.mem_cons_of_mem _ hb), List.flatMap_cons, List.append_assoc]

/-- The pairs the double loop keeps. -/
def keptPairs (flag : ℕ → ℕ → Bool) (win : List ℕ) : List (ℕ × ℕ) :=
  (List.range win.length).flatMap fun iv => (List.range win.length).flatMap fun iv2 =>
    if iv2 < iv ∧ flag (win.getD iv 0) (win.getD iv2 0) = true then [(iv, iv2)] else []

theorem flaggedPairs_ok {flag : ℕ → ℕ → Bool} {nt : ℕ} {win : List ℕ} (hw : ∀ t ∈ win, t < nt) :
    flaggedPairs flag nt win = .ok (keptPairs flag win) := by
  unfold flaggedPairs keptPairs
  rw [foldl_flat (g := fun iv => (List.range win.length).flatMap fun iv2 =>
    if iv2 < iv ∧ flag (win.getD iv 0) (win.getD iv2 0) = true then [(iv, iv2)] else [])]
  · rfl
  · intro l iv hiv
    rw [List.mem_range] at hiv
    refine foldl_flat fun l iv2 hiv2 => ?_
    rw [List.mem_range] at hiv2
    by_cases h : iv ≤ iv2
    · rw [if_pos h, if_neg (fun h' => by omega), List.append_nil]; rfl
    · have ha : win[iv] < nt ∧ win[iv2] < nt := ⟨hw _ (List.getElem_mem _), hw _ (List.getElem_mem _)⟩
      rw [if_neg h, Res.get_of_lt hiv, Res.bind_ok, Res.get_of_lt hiv2, Res.bind_ok, Res.assert_true ha, Res.bind_ok,
        List.getD_eq_getElem _ _ hiv, List.getD_eq_getElem _ _ hiv2]
      have h' : iv2 < iv := by omega
      cases flag win[iv] win[iv2] <;> simp [h']

theorem keptPairs_mem {flag : ℕ → ℕ → Bool} {win : List ℕ} {q : ℕ × ℕ} :
    q ∈ keptPairs flag win ↔ q.2 < q.1 ∧ q.1 < win.length ∧ flag (win.getD q.1 0) (win.getD q.2 0) = true := by
  unfold keptPairs
  simp only [List.mem_flatMap, List.mem_range]
  constructor
  · rintro ⟨iv, h1, iv2, h2, h⟩
    split at h
    · rename_i hc
      rw [List.mem_singleton.mp h]
      exact ⟨hc.1, h1, hc.2⟩
    · simp at h
  · rintro ⟨h1, h2, h3⟩
    refine ⟨q.1, h2, q.2, by omega, ?_⟩
    rw [if_pos ⟨h1, h3⟩]
    simp

theorem keptPairs_nodup (flag : ℕ → ℕ → Bool) (win : List ℕ) : (keptPairs flag win).Nodup := by
  unfold keptPairs
  have inner : ∀ iv, ∀ x ∈ (List.range win.length).flatMap (fun iv2 =>
      if iv2 < iv ∧ flag (win.getD iv 0) (win.getD iv2 0) = true then [(iv, iv2)] else []), x.1 = iv := by
    intro iv x hx
    simp only [List.mem_flatMap, List.mem_range] at hx
    obtain ⟨iv2, -, h⟩ := hx
    split at h
    · rw [List.mem_singleton.mp h]
    · simp at h
  rw [List.nodup_flatMap]
  constructor
  · intro iv _
    rw [List.nodup_flatMap]
    constructor
    · intro iv2 _
      split <;> simp
    · refine List.Pairwise.imp (R := fun a b => a ≠ b) ?_ List.nodup_range
      intro a b hab x hx hy
      apply hab
      have h1 : ∀ c, x ∈ (if c < iv ∧ flag (win.getD iv 0) (win.getD c 0) = true then [(iv, c)] else []) → x.2 = c := by
        intro c h
        split at h
        · rw [List.mem_singleton.mp h]
        · simp at h
      exact (h1 a hx).symm.trans (h1 b hy)
  · refine List.Pairwise.imp (R := fun a b => a ≠ b) ?_ List.nodup_range
    intro a b hab x hx hy
    exact hab ((inner a x hx).symm.trans (inner b x hy))

/-- C83 fails: `count_valid_vertex_pair` writes into an empty vector as soon as there is a vertex to be counted; it only
    returns (zero) if there is none. -/
theorem C83_count_violation (k : Kind) (flag : ℕ → ℕ → Bool) (nt : ℕ) (vs : List Vert) :
    ((∃ v ∈ vs, k.accepts v ∧ v.isDensity = false) → countPairs k flag nt vs = .ub) ∧
    ((∀ v ∈ vs, ¬ (k.accepts v ∧ v.isDensity = false)) → countPairs k flag nt vs = .ok 0) := by
  have key : ∀ vs : List Vert, ((∃ v ∈ vs, k.accepts v ∧ v.isDensity = false) → countWindow k vs = .ub) ∧
    ((∀ v ∈ vs, ¬ (k.accepts v ∧ v.isDensity = false)) → countWindow k vs = .ok []) := by
    intro vs
    unfold countWindow
    induction vs with
    | nil => exact ⟨fun ⟨v, h, _⟩ => absurd h List.not_mem_nil, fun _ => rfl⟩
    | cons v vs ih =>
      rw [Res.foldl_cons]
      by_cases h : k.accepts v ∧ v.isDensity = false
      · rw [if_pos h]
        exact ⟨fun _ => rfl, fun h' => absurd h (h' v List.mem_cons_self)⟩
      · rw [if_neg h]
        constructor
        · rintro ⟨w, hw, hw'⟩
          rcases List.mem_cons.mp hw with rfl | hw
          · exact absurd hw' h
          · exact ih.1 ⟨w, hw, hw'⟩
        · intro h'
          exact ih.2 fun w hw => h' w (List.mem_cons_of_mem _ hw)
  unfold countPairs
  constructor
  · intro h; rw [(key vs).1 h]; rfl
  · intro h; rw [(key vs).2 h]; rfl

/-- Two vertices of the kind, neither a density, the second before the first in the list, whose types have the flag set. -/
def FlaggedPair (k : Kind) (flag : ℕ → ℕ → Bool) (vs : List Vert) (i j : ℕ) : Prop :=
  j < i ∧ ∃ (hi : i < vs.length) (hj : j < vs.length), (k.accepts vs[i] ∧ vs[i].isDensity = false) ∧
    (k.accepts vs[j] ∧ vs[j].isDensity = false) ∧ flag vs[i].type vs[j].type = true

open Classical in
/-- The positions `pick_up_valid_vertex_pair` looks at. -/
noncomputable def windowPositions (k : Kind) (vs : List Vert) : List ℕ :=
  (List.range vs.length).filter fun i => decide (k.accepts (vs.getD i default) ∧ (vs.getD i default).isDensity = false)

open Classical in
theorem windowPositions_mem {k : Kind} {vs : List Vert} {i : ℕ} :
    i ∈ windowPositions k vs ↔ ∃ h : i < vs.length, k.accepts vs[i] ∧ vs[i].isDensity = false := by
  unfold windowPositions
  rw [List.mem_filter, List.mem_range]
  constructor
  · rintro ⟨h, e⟩
    rw [List.getD_eq_getElem _ _ h] at e
    exact ⟨h, of_decide_eq_true e⟩
  · rintro ⟨h, e⟩
    rw [List.getD_eq_getElem _ _ h]
    exact ⟨h, decide_eq_true e⟩

theorem windowPositions_sorted (k : Kind) (vs : List Vert) : (windowPositions k vs).Pairwise (· < ·) :=
  List.Pairwise.filter _ List.pairwise_lt_range

open Classical in
theorem pairWindow_ok (k : Kind) (vs : List Vert) :
    pairWindow k vs = .ok ((windowPositions k vs).map fun i => (vs.getD i default).type, windowPositions k vs) := by
  unfold pairWindow windowPositions
  have h : ∀ m ≤ vs.length, Res.foldl (fun (x : List ℕ × List ℕ) idx => (do
      let v ← Res.get vs idx
      pure (if k.accepts v ∧ v.isDensity = false then (x.1 ++ [v.type], x.2 ++ [idx]) else x) : Res (List ℕ × List ℕ)))
      ([], []) (List.range m) =
      .ok (((List.range m).filter fun i => decide (k.accepts (vs.getD i default) ∧ (vs.getD i default).isDensity = false)).map fun i => (vs.getD i default).type,
        (List.range m).filter fun i => decide (k.accepts (vs.getD i default) ∧ (vs.getD i default).isDensity = false)) := by
    intro m
    induction m with
    | zero => intro _; rfl
    | succ m ih =>
      intro hm
      have hml : m < vs.length := by omega
      rw [List.range_succ, Res.foldl_append, ih (by omega), Res.bind_ok, Res.foldl_cons, Res.get_of_lt hml, Res.bind_ok,
        List.filter_append, List.filter_singleton, List.map_append]
      have hg : vs.getD m default = vs[m] := List.getD_eq_getElem _ _ hml
      by_cases h : k.accepts vs[m] ∧ vs[m].isDensity = false
      · have hd : decide (k.accepts (vs.getD m default) ∧ (vs.getD m default).isDensity = false) = true :=
          decide_eq_true (by rw [hg]; exact h)
        rw [if_pos h, hd]
        simp only [if_true, cond_true, Res.pure_eq, Res.bind_ok, Res.foldl_nil, List.map_cons, List.map_nil, hg]
      · have hd : decide (k.accepts (vs.getD m default) ∧ (vs.getD m default).isDensity = false) = false :=
          decide_eq_false (by rw [hg]; exact h)
        rw [if_neg h, hd]
        simp
  exact h _ le_rfl

/-- The pairs of positions `pick_up_valid_vertex_pair` chooses from. -/
theorem pickValidPair_ok {k : Kind} {flag : ℕ → ℕ → Bool} {nt : ℕ} {vs : List Vert} (hv : ∀ v ∈ vs, v.type < nt) :
    ∃ l : List (ℕ × ℕ), l.Nodup ∧ (∀ i j, (i, j) ∈ l ↔ FlaggedPair k flag vs i j) ∧ ∀ (u : ℕ → ℝ) (p : ℕ), 0 ≤ u p ∧ u p < 1 →
      pickValidPair k flag nt vs u p = if l.length = 0 then .ok ([], 0, p) else
        .ok ([(l.getD ⌊u p * l.length⌋₊ default).1, (l.getD ⌊u p * l.length⌋₊ default).2], l.length, p + 1) := by
  set W := windowPositions k vs with hW
  have hs : W.Pairwise (· < ·) := windowPositions_sorted k vs
  have hnd : W.Nodup := hs.imp fun h => Nat.ne_of_lt h
  have hlt : ∀ a b (ha : a < W.length) (hb : b < W.length), W[b] < W[a] ↔ b < a := by
    intro a b ha hb
    constructor
    · intro h
      by_contra hc
      rcases Nat.lt_or_ge a b with h' | h'
      · have := List.pairwise_iff_getElem.mp hs a b ha hb h'; omega
      · obtain rfl : a = b := by omega
        omega
    · intro h; exact List.pairwise_iff_getElem.mp hs b a hb ha h
  set win := W.map fun i => (vs.getD i default).type with hwin
  have hwl : win.length = W.length := by simp [hwin]
  have hwt : ∀ t ∈ win, t < nt := by
    intro t ht
    obtain ⟨i, hi, rfl⟩ := List.mem_map.mp ht
    obtain ⟨h, -⟩ := windowPositions_mem.mp hi
    rw [List.getD_eq_getElem _ _ h]
    exact hv _ (List.getElem_mem h)
  have hwg : ∀ a (ha : a < W.length), win.getD a 0 = (vs.getD W[a] default).type := by
    intro a ha
    rw [List.getD_eq_getElem _ _ (by rw [hwl]; exact ha)]
    simp [hwin]
  have hk := fun q => keptPairs_mem (flag := flag) (win := win) (q := q)
  set g : ℕ × ℕ → ℕ × ℕ := fun q => (W.getD q.1 0, W.getD q.2 0) with hg
  have hbd : ∀ q ∈ keptPairs flag win, q.1 < W.length ∧ q.2 < W.length := by
    intro q hq
    obtain ⟨h1, h2, -⟩ := (hk q).mp hq
    rw [hwl] at h2
    exact ⟨h2, by omega⟩
  have hmem : ∀ i j, (i, j) ∈ (keptPairs flag win).map g ↔ FlaggedPair k flag vs i j := by
    intro i j
    rw [List.mem_map]
    constructor
    · rintro ⟨q, hq, e⟩
      obtain ⟨b1, b2⟩ := hbd q hq
      obtain ⟨h1, h2, h3⟩ := (hk q).mp hq
      rw [hwg _ b1, hwg _ b2] at h3
      simp only [hg] at e
      rw [List.getD_eq_getElem _ _ b1, List.getD_eq_getElem _ _ b2] at e
      obtain ⟨rfl, rfl⟩ := Prod.mk.inj e
      obtain ⟨m1, m1'⟩ := windowPositions_mem.mp (List.getElem_mem b1)
      obtain ⟨m2, m2'⟩ := windowPositions_mem.mp (List.getElem_mem b2)
      rw [List.getD_eq_getElem _ _ m1, List.getD_eq_getElem _ _ m2] at h3
      exact ⟨(hlt _ _ b1 b2).mpr h1, m1, m2, m1', m2', h3⟩
    · rintro ⟨h1, m1, m2, a1, a2, h3⟩
      obtain ⟨a, ha, rfl⟩ := List.mem_iff_getElem.mp (windowPositions_mem.mpr ⟨m1, a1⟩)
      obtain ⟨b, hb, rfl⟩ := List.mem_iff_getElem.mp (windowPositions_mem.mpr ⟨m2, a2⟩)
      refine ⟨(a, b), (hk _).mpr ⟨(hlt _ _ ha hb).mp h1, by rw [hwl]; exact ha, ?_⟩, ?_⟩
      · rw [hwg _ ha, hwg _ hb, List.getD_eq_getElem _ _ m1, List.getD_eq_getElem _ _ m2]
        exact h3
      · simp only [hg]
        rw [List.getD_eq_getElem _ _ ha, List.getD_eq_getElem _ _ hb]
  refine ⟨(keptPairs flag win).map g, ?_, hmem, fun u p hu => ?_⟩
  · refine List.Nodup.map_on ?_ (keptPairs_nodup flag win)
    intro x hx y hy hxy
    obtain ⟨x1, x2⟩ := hbd x hx
    obtain ⟨y1, y2⟩ := hbd y hy
    simp only [hg] at hxy
    rw [List.getD_eq_getElem _ _ x1, List.getD_eq_getElem _ _ x2, List.getD_eq_getElem _ _ y1, List.getD_eq_getElem _ _ y2] at hxy
    obtain ⟨e1, e2⟩ := Prod.mk.inj hxy
    exact Prod.ext ((List.Nodup.getElem_inj_iff hnd).mp e1) ((List.Nodup.getElem_inj_iff hnd).mp e2)
  · unfold pickValidPair
    rw [pairWindow_ok, Res.bind_ok]
    simp only []
    rw [flaggedPairs_ok hwt, Res.bind_ok, Res.mapM_ok (g := g) (fun q hq => by
      obtain ⟨b1, b2⟩ := hbd q hq
      rw [Res.get_of_lt b1, Res.bind_ok, Res.get_of_lt b2, Res.bind_ok]
      simp only [hg]
      rw [List.getD_eq_getElem _ _ b1, List.getD_eq_getElem _ _ b2]
      rfl), Res.bind_ok]
    by_cases h0 : ((keptPairs flag win).map g).length = 0
    · rw [if_pos h0, if_pos h0]; rfl
    · rw [if_neg h0, if_neg h0]
      have hi : ⌊u p * ((keptPairs flag win).map g).length⌋₊ < ((keptPairs flag win).map g).length := floor_mul_lt hu (by omega)
      rw [Res.get_of_lt hi, Res.bind_ok, List.getD_eq_getElem _ _ hi]
      have hq := List.getElem_mem hi
      generalize ((keptPairs flag win).map g)[⌊u p * ((keptPairs flag win).map g).length⌋₊] = q at hq
      obtain ⟨-, m1, m2, a1, a2, -⟩ := (hmem q.1 q.2).mp hq
      rw [Res.get_of_lt m1, Res.bind_ok, Res.assert_true a1.2, Res.bind_ok, Res.get_of_lt m2, Res.bind_ok, Res.assert_true a2.2]
      rfl

/-- C83: `pick_up_valid_vertex_pair` reports the number of flagged pairs of positions, and gives nothing if there is none;
    otherwise every one of them comes up, with the same probability, and nothing else does. -/
theorem C83_pick_pair {k : Kind} {flag : ℕ → ℕ → Bool} {nt : ℕ} {vs : List Vert} (hv : ∀ v ∈ vs, v.type < nt) :
    ∃ N : ℕ, Set.ncard {q : ℕ × ℕ | FlaggedPair k flag vs q.1 q.2} = N ∧
      (∀ (u : ℕ → ℝ) p, 0 ≤ u p ∧ u p < 1 →
        (N = 0 → pickValidPair k flag nt vs u p = .ok ([], 0, p)) ∧
        (0 < N → ∃ i j, FlaggedPair k flag vs i j ∧ pickValidPair k flag nt vs u p = .ok ([i, j], N, p + 1))) ∧
      ∀ i j, FlaggedPair k flag vs i j →
        streams {u | pickValidPair k flag nt vs u 0 = .ok ([i, j], N, 1)} = ENNReal.ofReal (1 / N) := by
  obtain ⟨l, hnd, hmem, hrun⟩ := pickValidPair_ok (k := k) (flag := flag) hv
  refine ⟨l.length, ?_, fun u p hu => ⟨fun h => ?_, fun h => ?_⟩, fun i j hij => ?_⟩
  · have : {q : ℕ × ℕ | FlaggedPair k flag vs q.1 q.2} = (l.toFinset : Set (ℕ × ℕ)) := by
      ext q
      simp only [Set.mem_setOf_eq, List.coe_toFinset]
      exact (hmem q.1 q.2).symm
    rw [this, Set.ncard_coe_finset, List.toFinset_card_of_nodup hnd]
  · rw [hrun u p hu, if_pos h]
  · have hi := floor_mul_lt hu h
    refine ⟨(l[⌊u p * (l.length : ℝ)⌋₊]).1, (l[⌊u p * (l.length : ℝ)⌋₊]).2, (hmem _ _).mp (List.getElem_mem hi), ?_⟩
    rw [hrun u p hu, if_neg (by omega), List.getD_eq_getElem _ _ hi]
  · obtain ⟨n, hn, e⟩ := List.mem_iff_getElem.mp ((hmem i j).mpr hij)
    rw [← uniform01_floor hn, ← mul_one (uniform01 _), ← measure_univ (μ := streams), ← streams_and]
    refine measure_congr ?_
    filter_upwards [ae_range] with u hu
    show (_ = _) = (_ ∧ _)
    have hi := floor_mul_lt (hu 0) (show 0 < l.length by omega)
    rw [hrun u 0 (hu 0), if_neg (by omega), List.getD_eq_getElem _ _ hi]
    simp only [mem_univ, and_true, mem_setOf_eq, eq_iff_iff]
    constructor
    · intro h
      injection h with h
      have h2 := (Prod.mk.inj h).1
      have h3 : l[⌊u 0 * (l.length : ℝ)⌋₊] = l[n] := by
        rw [e]
        simp only [List.cons.injEq, and_true] at h2
        exact Prod.ext h2.1 h2.2
      exact (List.Nodup.getElem_inj_iff hnd).mp h3
    · intro h
      have h3 : l[⌊u 0 * (l.length : ℝ)⌋₊] = (i, j) := by
        rw [← e]
        exact (List.Nodup.getElem_inj_iff hnd).mpr h
      rw [h3]

/-! ## The law of the vertices drawn -/

theorem genLoop_drop (k : Kind) (tbl : List (VDef K)) (beta : ℝ) (u : ℕ → ℝ) (a : ℕ) : ∀ (n p : ℕ) (l : List Vert),
    (∃ p', genLoop k tbl beta (dropS a u) n p = .ok (l, p')) ↔ ∃ p', genLoop k tbl beta u n (a + p) = .ok (l, p') := by
  intro n
  induction n with
  | zero =>
    intro p l
    unfold genLoop
    constructor
    · rintro ⟨p', h⟩
      injection h with h
      exact ⟨a + p, by rw [← (Prod.mk.inj h).1]; rfl⟩
    · rintro ⟨p', h⟩
      injection h with h
      exact ⟨p, by rw [← (Prod.mk.inj h).1]; rfl⟩
  | succ n ih =>
    intro p l
    unfold genLoop
    simp only [Res.bind_eq_ok]
    have e1 : dropS a u p = u (a + p) := rfl
    have e2 : dropS a u (p + 1) = u (a + p + 1) := rfl
    have e3 : dropS a u (p + 2) = u (a + p + 2) := rfl
    rw [e1, e2, e3]
    constructor
    · rintro ⟨p', t, h1, ty, h2, d, h3, ⟨l', q⟩, h4, h5⟩
      obtain ⟨q', h6⟩ := (ih (p + 3) l').mp ⟨q, h4⟩
      injection h5 with h5
      obtain ⟨rfl, -⟩ := Prod.mk.inj h5
      exact ⟨q', t, h1, ty, h2, d, h3, ⟨l', q'⟩, h6, rfl⟩
    · rintro ⟨p', t, h1, ty, h2, d, h3, ⟨l', q⟩, h4, h5⟩
      obtain ⟨q', h6⟩ := (ih (p + 3) l').mpr ⟨q, h4⟩
      injection h5 with h5
      obtain ⟨rfl, -⟩ := Prod.mk.inj h5
      exact ⟨q', t, h1, ty, h2, d, h3, ⟨l', q'⟩, h6, rfl⟩

/-- A vertex of type `t` in state `s` with a time in `T`. -/
def DrawnAs (v : Vert) (q : ℕ × ℕ × Set ℝ) : Prop := v.type = q.1 ∧ v.af = (q.2.1 : ℤ) ∧ v.time ∈ q.2.2

/-- The event that the vertices drawn have the listed types and states and times in the listed sets. -/
def drawnAll (k : Kind) (tbl : List (VDef K)) (beta : ℝ) (L : List (ℕ × ℕ × Set ℝ)) : Set (ℕ → ℝ) :=
  {u | ∃ l p', genLoop k tbl beta u L.length 0 = .ok (l, p') ∧ List.Forall₂ DrawnAs l L}

theorem kind_types_nodup (k : Kind) (tbl : List (VDef K)) : (k.types tbl).Nodup := by
  cases k
  · exact List.nodup_range
  all_goals exact List.nodup_range.filter _

theorem drawnAll_law {k : Kind} {tbl : List (VDef K)} {beta : ℝ} (hb : 0 < beta) (hk : k.Good beta) : ∀ {L : List (ℕ × ℕ × Set ℝ)},
    (∀ q ∈ L, q.1 ∈ k.types tbl ∧ q.2.1 < (tbl.getD q.1 default).numAf) →
    streams (drawnAll k tbl beta L) = (L.map fun q => uniform01 {r | ∃ t, k.time beta r = .ok t ∧ t ∈ q.2.2} *
      (ENNReal.ofReal (1 / (k.types tbl).length) * ENNReal.ofReal (1 / (tbl.getD q.1 default).numAf))).prod := by
  intro L
  induction L with
  | nil =>
    intro _
    have : drawnAll k tbl beta [] = univ := by
      ext u
      simp only [mem_univ, iff_true]
      exact ⟨[], 0, rfl, List.Forall₂.nil⟩
    rw [this, measure_univ]
    rfl
  | cons q L ih =>
    intro h
    obtain ⟨h1, h2⟩ := h q List.mem_cons_self
    obtain ⟨htl, -⟩ := kind_types h1
    obtain ⟨n, hn, en⟩ := List.mem_iff_getElem.mp h1
    rw [List.map_cons, List.prod_cons, ← ih fun q' hq' => h q' (List.mem_cons_of_mem _ hq'), ← uniform01_floor hn, ← uniform01_floor h2,
      mul_assoc, mul_assoc, ← streams_and, ← streams_and, ← streams_and]
    refine measure_congr ?_
    filter_upwards [ae_range] with u hu
    have hi : ⌊u 1 * (k.types tbl).length⌋₊ < (k.types tbl).length := floor_mul_lt (hu 1) (by omega)
    refine propext ?_
    show (∃ l p', genLoop k tbl beta u (L.length + 1) 0 = .ok (l, p') ∧ List.Forall₂ DrawnAs l (q :: L)) ↔
      (∃ t, k.time beta (u 0) = .ok t ∧ t ∈ q.2.2) ∧ ⌊u 1 * (k.types tbl).length⌋₊ = n ∧
        ⌊u 2 * (tbl.getD q.1 default).numAf⌋₊ = q.2.1 ∧ dropS 1 (dropS 1 (dropS 1 u)) ∈ drawnAll k tbl beta L
    rw [dropS_drop, dropS_drop]
    unfold genLoop
    simp only [Res.bind_eq_ok]
    constructor
    · rintro ⟨l, p', ⟨t, e1, ty, e2, d, e3, ⟨l', r⟩, e4, e5⟩, hf⟩
      injection e5 with e5
      obtain ⟨rfl, -⟩ := Prod.mk.inj e5
      obtain ⟨⟨d1, d2, d3⟩, hf'⟩ := List.forall₂_cons.mp hf
      simp only [] at d1 d2 d3
      rw [Res.get_of_lt hi] at e2
      injection e2 with e2
      have e6 : ⌊u 1 * (k.types tbl).length⌋₊ = n := by
        have e0 : (k.types tbl)[⌊u 1 * (k.types tbl).length⌋₊] = (k.types tbl)[n] := by
          rw [en, ← d1]; exact e2
        exact (List.Nodup.getElem_inj_iff (kind_types_nodup k tbl)).mp e0
      have e7 : d = tbl.getD q.1 default := by
        rw [d1, Res.get_of_lt htl] at e3
        injection e3 with e3
        rw [List.getD_eq_getElem _ _ htl, e3]
      refine ⟨⟨t, e1, d3⟩, e6, ?_, ?_⟩
      · rw [e7] at d2
        exact_mod_cast d2
      · obtain ⟨r', e8⟩ := (genLoop_drop k tbl beta u 3 L.length 0 l').mpr ⟨r, e4⟩
        exact ⟨l', r', e8, hf'⟩
    · rintro ⟨⟨t, e1, e2⟩, e3, e4, l', r, e5, hf⟩
      obtain ⟨r', e8⟩ := (genLoop_drop k tbl beta u 3 L.length 0 l').mp ⟨r, e5⟩
      have e9 : Res.get (k.types tbl) ⌊u (0 + 1) * (k.types tbl).length⌋₊ = .ok q.1 := by
        show Res.get (k.types tbl) ⌊u 1 * (k.types tbl).length⌋₊ = _
        rw [e3, Res.get_of_lt hn, en]
      refine ⟨_, r', ⟨t, e1, q.1, e9, tbl.getD q.1 default, by rw [Res.get_of_lt htl, List.getD_eq_getElem _ _ htl], ⟨l', r'⟩, e8, rfl⟩,
        List.forall₂_cons.mpr ⟨⟨rfl, ?_, e2⟩, hf⟩⟩
      show ((⌊u 2 * (tbl.getD q.1 default).numAf⌋₊ : ℕ) : ℤ) = _
      rw [e4]

/-- C83: the vertices drawn are independent; for each of them the type is uniform among the types of the kind, the state is
    uniform among the states of the type, and the time, unless there is a window, is uniform on [0,beta). -/
theorem C83_generate_law {k : Kind} {tbl : List (VDef K)} {beta : ℝ} (hb : 0 < beta) (hk : ∀ x, k ≠ .window x) {L : List (ℕ × ℕ × ℝ × ℝ)}
    (hne : k.types tbl ≠ [])
    (hL : ∀ q ∈ L, q.1 ∈ k.types tbl ∧ q.2.1 < (tbl.getD q.1 default).numAf ∧ 0 ≤ q.2.2.1 ∧ q.2.2.1 ≤ q.2.2.2 ∧ q.2.2.2 ≤ beta) :
    streams {u | ∃ l p', generateVertices k tbl beta u L.length 0 = .ok (l, p') ∧
        List.Forall₂ (fun (v : Vert) q => v.type = q.1 ∧ v.af = (q.2.1 : ℤ) ∧ q.2.2.1 ≤ v.time ∧ v.time < q.2.2.2) l L} =
      (L.map fun q => ENNReal.ofReal ((q.2.2.2 - q.2.2.1) / beta) * (ENNReal.ofReal (1 / (k.types tbl).length) *
        ENNReal.ofReal (1 / (tbl.getD q.1 default).numAf))).prod := by
  have hg : k.Good beta := by
    cases k with
    | window x => exact absurd rfl (hk x)
    | _ => trivial
  have hgen : ∀ u n p, generateVertices k tbl beta u n p = genLoop k tbl beta u n p := by
    intro u n p
    unfold generateVertices
    rw [if_neg (by have := List.length_pos_of_ne_nil hne; omega)]
  have h := drawnAll_law (L := L.map fun q => (q.1, q.2.1, Ico q.2.2.1 q.2.2.2)) hb hg (by
    intro q hq
    obtain ⟨q', hq', rfl⟩ := List.mem_map.mp hq
    exact ⟨(hL q' hq').1, (hL q' hq').2.1⟩)
  have e : {u | ∃ l p', generateVertices k tbl beta u L.length 0 = .ok (l, p') ∧
      List.Forall₂ (fun (v : Vert) q => v.type = q.1 ∧ v.af = (q.2.1 : ℤ) ∧ q.2.2.1 ≤ v.time ∧ v.time < q.2.2.2) l L} =
      drawnAll k tbl beta (L.map fun q => (q.1, q.2.1, Ico q.2.2.1 q.2.2.2)) := by
    ext u
    simp only [drawnAll, mem_setOf_eq, hgen, List.length_map, List.forall₂_map_right_iff]
    rfl
  rw [e, h, List.map_map]
  congr 1
  refine List.map_congr_left fun q hq => ?_
  obtain ⟨-, -, h0, h1, h2⟩ := hL q hq
  simp only [Function.comp_apply]
  congr 1
  have hset : {r | ∃ t, k.time beta r = .ok t ∧ t ∈ Ico q.2.2.1 q.2.2.2} = Icc 0 1 ∩ Ico (q.2.2.1 / beta) (q.2.2.2 / beta) := by
    have ht : ∀ r, k.time beta r = (do Res.assert (0 ≤ r ∧ r ≤ 1); pure (r * beta)) := by
      intro r
      cases k with
      | window x => exact absurd rfl (hk x)
      | _ => rfl
    ext r
    simp only [mem_setOf_eq, mem_inter_iff, mem_Icc, mem_Ico, ht, Res.bind_eq_ok, Res.assert_eq_ok, Res.pure_eq, Res.ok.injEq, div_le_iff₀ hb,
      lt_div_iff₀ hb]
    constructor
    · rintro ⟨t, ⟨x, a, rfl⟩, b⟩; exact ⟨a, b⟩
    · rintro ⟨a, b⟩; exact ⟨_, ⟨(), a, rfl⟩, b⟩
  rw [hset]
  unfold uniform01
  rw [Measure.restrict_apply (measurableSet_Icc.inter measurableSet_Ico)]
  have hset2 : Icc (0 : ℝ) 1 ∩ Ico (q.2.2.1 / beta) (q.2.2.2 / beta) ∩ Ico 0 1 = Ico (q.2.2.1 / beta) (q.2.2.2 / beta) := by
    have a0 : 0 ≤ q.2.2.1 / beta := div_nonneg h0 hb.le
    have a1 : q.2.2.2 / beta ≤ 1 := by rw [div_le_one hb]; exact h2
    ext r
    simp only [mem_inter_iff, mem_Icc, mem_Ico]
    constructor
    · rintro ⟨⟨-, h⟩, -⟩; exact h
    · rintro ⟨b, c⟩
      exact ⟨⟨⟨by linarith, by linarith⟩, b, c⟩, by linarith, by linarith⟩
  rw [hset2, Real.volume_Ico, sub_div]

/-- C83: a kind draws from all the definitions it accepts, each once: all of them, those of density type, or the others. -/
theorem C83_types (k : Kind) (tbl : List (VDef K)) :
    (k.types tbl).Nodup ∧ ∀ t, t ∈ k.types tbl ↔ ∃ h : t < tbl.length, k.takes tbl[t].isDensity := by
  refine ⟨kind_types_nodup k tbl, fun t => ?_⟩
  have hd : ∀ h : t < tbl.length, tbl.getD t default = tbl[t] := fun h => List.getD_eq_getElem _ _ h
  cases k with
  | all => simp [Kind.types, Kind.takes]
  | density =>
    simp only [Kind.types, Kind.takes, List.mem_filter, List.mem_range]
    exact ⟨fun ⟨h, e⟩ => ⟨h, by rwa [hd h] at e⟩, fun ⟨h, e⟩ => ⟨h, by rwa [hd h]⟩⟩
  | nonDensity =>
    simp only [Kind.types, Kind.takes, List.mem_filter, List.mem_range, Bool.not_eq_true']
    exact ⟨fun ⟨h, e⟩ => ⟨h, by rwa [hd h] at e⟩, fun ⟨h, e⟩ => ⟨h, by rwa [hd h]⟩⟩
  | window x =>
    simp only [Kind.types, Kind.takes, List.mem_filter, List.mem_range, Bool.not_eq_true']
    exact ⟨fun ⟨h, e⟩ => ⟨h, by rwa [hd h] at e⟩, fun ⟨h, e⟩ => ⟨h, by rwa [hd h]⟩⟩

/-- The times of a window of width `w` that starts at `ts`, on the circle of circumference `beta`. -/
def windowTimes (ts w beta : ℝ) : Set ℝ := {t | 0 ≤ t ∧ t ≤ beta ∧ ∃ s, 0 ≤ s ∧ s ≤ w ∧ (t = ts + s ∨ t = ts + s - beta)}

theorem volume_affine {w c : ℝ} (hw : 0 < w) (T : Set ℝ) : volume {r : ℝ | r * w + c ∈ T} = volume T / ENNReal.ofReal w := by
  have e : {r : ℝ | r * w + c ∈ T} = (fun r => r * w) ⁻¹' ((fun x => x + c) ⁻¹' T) := rfl
  rw [e, Real.volume_preimage_mul_right hw.ne', measure_preimage_add_right, abs_of_pos (inv_pos.mpr hw), ENNReal.ofReal_inv_of_pos hw,
    ENNReal.div_eq_inv_mul]

theorem window_time_law {ts w beta : ℝ} {x : Window} (h0 : 0 ≤ ts) (h1 : ts ≤ beta) (hw : 0 < w) (hwb : w ≤ beta)
    (hx : Window.create ts w beta = .ok x) {T : Set ℝ} (hT : MeasurableSet T) :
    uniform01 {r | ∃ t, (Kind.window x).time beta r = .ok t ∧ t ∈ T} = volume (T ∩ windowTimes ts w beta) / ENNReal.ofReal w := by
  have hf : x.ts = ts ∧ x.w = w ∧ x.beta = beta := by
    unfold Window.create at hx
    rw [Res.assert_true hwb, Res.bind_ok] at hx
    split at hx <;> (injection hx with hx; subst hx; exact ⟨rfl, rfl, rfl⟩)
  obtain ⟨f1, f2, f3⟩ := hf
  set A : Set ℝ := T ∩ (Ico ts (ts + w) ∩ Iic beta) with hA
  set B : Set ℝ := T ∩ (Ico (ts - beta) (ts - beta + w) ∩ Ioi 0) with hB
  have mA : MeasurableSet A := hT.inter (measurableSet_Ico.inter measurableSet_Iic)
  have mB : MeasurableSet B := hT.inter (measurableSet_Ico.inter measurableSet_Ioi)
  have hset : {r | ∃ t, (Kind.window x).time beta r = .ok t ∧ t ∈ T} ∩ Ico 0 1 =
      {r : ℝ | r * w + ts ∈ A} ∪ {r : ℝ | r * w + (ts - beta) ∈ B} := by
    have ht : ∀ r, (Kind.window x).time beta r = x.randomTime r beta := fun r => rfl
    ext r
    simp only [mem_setOf_eq, mem_inter_iff, ht, Window.randomTime, Res.bind_eq_ok, Res.assert_eq_ok, Res.pure_eq, Res.ok.injEq, f1, f2, f3,
      mem_union, hA, hB, mem_Ico, mem_Iic, mem_Ioi]
    constructor
    · rintro ⟨⟨t, ⟨_, -, _, -, _, -, rfl⟩, b⟩, r0, r1⟩
      by_cases h : r * w + ts > beta
      · rw [if_pos h] at b
        right
        rw [show r * w + (ts - beta) = r * w + ts - beta by ring]
        exact ⟨b, ⟨by nlinarith, by nlinarith⟩, by linarith⟩
      · rw [if_neg h] at b
        left
        exact ⟨b, ⟨by nlinarith, by nlinarith⟩, by linarith⟩
    · rintro (⟨b, ⟨c, d⟩, e⟩ | ⟨b, ⟨c, d⟩, e⟩)
      · have r0 : 0 ≤ r := by by_contra h; nlinarith
        have r1 : r < 1 := by by_contra h; nlinarith
        exact ⟨⟨_, ⟨(), ⟨r0, r1.le⟩, (), trivial, (), hw, rfl⟩, by rw [if_neg (by linarith)]; exact b⟩, r0, r1⟩
      · have r0 : 0 ≤ r := by by_contra h; nlinarith
        have r1 : r < 1 := by by_contra h; nlinarith
        refine ⟨⟨_, ⟨(), ⟨r0, r1.le⟩, (), trivial, (), hw, rfl⟩, ?_⟩, r0, r1⟩
        rw [if_pos (by linarith), show r * w + ts - beta = r * w + (ts - beta) by ring]
        exact b
  unfold uniform01
  rw [Measure.restrict_apply₀' measurableSet_Ico.nullMeasurableSet, hset, measure_union, volume_affine hw, volume_affine hw]
  · rw [← ENNReal.add_div, ← measure_union _ mB]
    · congr 1
      refine measure_congr ?_
      have hfin : (({ts + w, 0, ts - beta + w} : Set ℝ)).Finite := by simp
      have hnull : ∀ᵐ t : ℝ, t ∉ ({ts + w, 0, ts - beta + w} : Set ℝ) := by
        rw [MeasureTheory.ae_iff]
        simp only [not_not]
        exact hfin.measure_zero volume
      filter_upwards [hnull] with t ht
      simp only [mem_insert_iff, mem_singleton_iff, not_or] at ht
      obtain ⟨n1, n2, n3⟩ := ht
      refine propext ?_
      show (t ∈ T ∧ ((ts ≤ t ∧ t < ts + w) ∧ t ≤ beta) ∨ t ∈ T ∧ ((ts - beta ≤ t ∧ t < ts - beta + w) ∧ 0 < t)) ↔
        t ∈ T ∧ (0 ≤ t ∧ t ≤ beta ∧ ∃ s, 0 ≤ s ∧ s ≤ w ∧ (t = ts + s ∨ t = ts + s - beta))
      constructor
      · rintro (⟨a, ⟨b, c⟩, d⟩ | ⟨a, ⟨b, c⟩, d⟩)
        · exact ⟨a, by linarith, d, t - ts, by linarith, by linarith, Or.inl (by ring)⟩
        · exact ⟨a, d.le, by linarith, t - ts + beta, by linarith, by linarith, Or.inr (by ring)⟩
      · rintro ⟨a, b, c, s, s0, s1, rfl | rfl⟩
        · exact Or.inl ⟨a, ⟨by linarith, lt_of_le_of_ne (by linarith) n1⟩, c⟩
        · exact Or.inr ⟨a, ⟨by linarith, lt_of_le_of_ne (by linarith) n3⟩, lt_of_le_of_ne b (Ne.symm n2)⟩
    · rw [Set.disjoint_left]
      rintro t ⟨-, ⟨a, -⟩, -⟩ ⟨-, ⟨-, b⟩, -⟩
      linarith
  · rw [Set.disjoint_left]
    rintro r ⟨-, -, a⟩ ⟨-, -, b⟩
    simp only [mem_Iic, mem_Ioi] at a b
    linarith
  · exact (((measurable_id.mul_const w).add_const _) mB)

/-- C83: inside a window too the vertices drawn are independent, the type is uniform among the types of the kind, the state
    uniform among the states of the type and the time uniform on the window (also where it goes around the end of [0,beta]). -/
theorem C83_window_law {ts w beta : ℝ} {x : Window} (h0 : 0 ≤ ts) (h1 : ts ≤ beta) (hw : 0 < w) (hwb : w ≤ beta)
    (hx : Window.create ts w beta = .ok x) {tbl : List (VDef K)} {L : List (ℕ × ℕ × Set ℝ)}
    (hL : ∀ q ∈ L, (∃ h : q.1 < tbl.length, tbl[q.1].isDensity = false ∧ q.2.1 < tbl[q.1].numAf) ∧ MeasurableSet q.2.2)
    (hne : L ≠ []) :
    streams {u | ∃ l p', generateVertices (.window x) tbl beta u L.length 0 = .ok (l, p') ∧
        List.Forall₂ (fun (v : Vert) q => v.type = q.1 ∧ v.af = (q.2.1 : ℤ) ∧ v.time ∈ q.2.2) l L} =
      (L.map fun q => volume (q.2.2 ∩ windowTimes ts w beta) / ENNReal.ofReal w *
        (ENNReal.ofReal (1 / (tbl.countP fun d => !d.isDensity)) * ENNReal.ofReal (1 / (tbl.getD q.1 default).numAf))).prod := by
  have hb : 0 < beta := by linarith
  have hg : (Kind.window x).Good beta := ⟨ts, w, h0, h1, hw, hwb, hx⟩
  have hmem : ∀ q ∈ L, q.1 ∈ (Kind.window x).types tbl := by
    intro q hq
    obtain ⟨⟨h, hd, -⟩, -⟩ := hL q hq
    exact ((C83_types (.window x) tbl).2 q.1).mpr ⟨h, hd⟩
  have hlen : ((Kind.window x).types tbl).length = tbl.countP fun d => !d.isDensity := by
    show ((List.range tbl.length).filter fun i => !(tbl.getD i default).isDensity).length = _
    have : ∀ m ≤ tbl.length, ((List.range m).filter fun i => !(tbl.getD i default).isDensity).length =
        (tbl.take m).countP fun d => !d.isDensity := by
      intro m
      induction m with
      | zero => intro _; simp
      | succ m ih =>
        intro hm
        have hml : m < tbl.length := by omega
        rw [List.range_succ, List.filter_append, List.length_append, ih (by omega), List.take_add_one, List.countP_append,
          List.getElem?_eq_getElem hml, List.filter_singleton]
        simp only [List.getD_eq_getElem tbl default hml, Option.toList_some, List.countP_singleton]
        cases tbl[m].isDensity <;> simp
    rw [this _ le_rfl, List.take_length]
  have hgen : ∀ u n p, generateVertices (.window x) tbl beta u n p = genLoop (.window x) tbl beta u n p := by
    intro u n p
    unfold generateVertices
    obtain ⟨q, hq⟩ := List.exists_mem_of_ne_nil _ hne
    rw [if_neg (by have := List.length_pos_of_mem (hmem q hq); omega)]
  have h := drawnAll_law (L := L) hb hg (fun q hq => ⟨hmem q hq, by
    obtain ⟨⟨h, -, ha⟩, -⟩ := hL q hq
    rwa [List.getD_eq_getElem _ _ h]⟩)
  simp only [hgen]
  refine h.trans ?_
  congr 1
  refine List.map_congr_left fun q hq => ?_
  rw [window_time_law h0 h1 hw hwb hx (hL q hq).2, hlen]

/-- The window itself is drawn with certainty: its length is `w`. -/
theorem windowTimes_volume {ts w beta : ℝ} (h0 : 0 ≤ ts) (h1 : ts ≤ beta) (hw : 0 < w) (hwb : w ≤ beta) :
    volume (windowTimes ts w beta) = ENNReal.ofReal w := by
  obtain ⟨x, hx⟩ : ∃ x, Window.create ts w beta = .ok x := by
    unfold Window.create
    rw [Res.assert_true hwb, Res.bind_ok]
    split <;> exact ⟨_, rfl⟩
  have h := window_time_law h0 h1 hw hwb hx MeasurableSet.univ
  rw [univ_inter] at h
  have e : uniform01 {r | ∃ t, (Kind.window x).time beta r = .ok t ∧ t ∈ univ} = 1 := by
    rw [← measure_univ (μ := uniform01)]
    refine measure_congr ?_
    have : ∀ᵐ r ∂uniform01, r ∈ Ico (0 : ℝ) 1 := ae_restrict_mem measurableSet_Ico
    filter_upwards [this] with r hr
    obtain ⟨t, ht, -⟩ := kind_time (k := .window x) (by linarith) ⟨ts, w, h0, h1, hw, hwb, hx⟩ (r := r) ⟨hr.1, hr.2⟩
    exact propext ⟨fun _ => trivial, fun _ => ⟨t, ht, trivial⟩⟩
  rw [e] at h
  rw [eq_comm, ENNReal.div_eq_one_iff (by simpa using hw) ENNReal.ofReal_ne_top] at h
  exact h

/-! ## Examples -/

/-- A density term and a term that is none. -/
def exKinds : List (VDef ℝ) := [⟨2, [0, 1], [0, 0, 0, 0], 2, 1, fun _ _ => 0⟩, ⟨2, [0, 1], [0, 1, 1, 0], 2, 1, fun _ _ => 0⟩]

theorem exKinds_types : Kind.nonDensity.types exKinds = [1] ∧ Kind.density.types exKinds = [0] := by
  constructor <;> decide

/-- The hypotheses of `C83_generate` and `C83_generate_law`: two vertices of the term that is no density term. -/
example : (∀ d ∈ exKinds, 0 < d.numAf) ∧ Kind.nonDensity.types exKinds ≠ [] ∧
    ∀ q ∈ [((1 : ℕ), (0 : ℕ), (0 : ℝ), (1 / 2 : ℝ)), (1, 1, 1 / 4, 1)], q.1 ∈ Kind.nonDensity.types exKinds ∧
      q.2.1 < (exKinds.getD q.1 default).numAf ∧ 0 ≤ q.2.2.1 ∧ q.2.2.1 ≤ q.2.2.2 ∧ q.2.2.2 ≤ 1 := by
  refine ⟨by simp [exKinds], by simp [exKinds_types.1], ?_⟩
  rw [exKinds_types.1]
  simp only [List.forall_mem_cons]
  refine ⟨⟨by simp, by simp [exKinds], by norm_num, by norm_num, by norm_num⟩, ⟨by simp, by simp [exKinds], by norm_num, by norm_num,
    by norm_num⟩, by simp⟩

/-- The hypotheses of `C83_window_law`: a window around the end of [0,1]; half of it lies after zero. -/
example : (∃ x, Window.create (3 / 4) (1 / 2) 1 = .ok x) ∧
    (∀ q ∈ [((1 : ℕ), (0 : ℕ), Icc (0 : ℝ) (1 / 4))], (∃ h : q.1 < exKinds.length, exKinds[q.1].isDensity = false ∧
      q.2.1 < exKinds[q.1].numAf) ∧ MeasurableSet q.2.2) ∧ Icc (0 : ℝ) (1 / 4) ⊆ windowTimes (3 / 4) (1 / 2) 1 := by
  refine ⟨?_, ?_, ?_⟩
  · unfold Window.create
    rw [Res.assert_true (by norm_num), Res.bind_ok]
    split <;> exact ⟨_, rfl⟩
  · intro q hq
    rw [List.mem_singleton.mp hq]
    exact ⟨⟨by decide, by decide, by decide⟩, measurableSet_Icc⟩
  · rintro t ⟨a, b⟩
    exact ⟨a, by linarith, t + 1 / 4, by linarith, by linarith, Or.inr (by ring)⟩

/-- The hypotheses of `C83_generate_pair`, with a pair of terms that are no density terms and one with a density term. -/
example : (∀ q ∈ [((1 : ℕ), (1 : ℕ)), (0, 1)], q.1 < exKinds.length ∧ q.2 < exKinds.length) ∧
    (exKinds.getD 1 default).isDensity = false ∧ (exKinds.getD 0 default).isDensity = true := by
  refine ⟨by simp [exKinds], by decide, by decide⟩

/-- Three vertices, the second of density type. -/
noncomputable def exKindVerts : List Vert :=
  [⟨1, 0, 2, 1 / 4, false, false, 0⟩, ⟨0, 1, 2, 1 / 2, true, false, 0⟩, ⟨1, 1, 2, 3 / 4, false, false, 0⟩]

/-- The hypotheses of `C83_pick` and `C83_pick_law`: the two vertices that are not of density type, in either order. -/
example : [2, 0].Nodup ∧ (∀ i ∈ [2, 0], ∃ h : i < exKindVerts.length, Kind.nonDensity.accepts exKindVerts[i]) ∧
    [2, 0].length ≤ (kindPositions .nonDensity exKindVerts).length := by
  have h : ∀ i ∈ [2, 0], ∃ h : i < exKindVerts.length, Kind.nonDensity.accepts exKindVerts[i] := by
    intro i hi
    simp only [List.mem_cons, List.not_mem_nil, or_false] at hi
    rcases hi with rfl | rfl <;> exact ⟨by simp [exKindVerts], rfl⟩
  refine ⟨by decide, h, ?_⟩
  exact (List.subperm_of_subset (by decide) fun i hi => kindPositions_mem.mpr (h i hi)).length_le

/-- The hypotheses of `C83_pick_pair` and of the first part of `C83_count_violation`. -/
example : (∀ v ∈ exKindVerts, v.type < 2) ∧ FlaggedPair .all (fun _ _ => true) exKindVerts 2 0 ∧
    ∃ v ∈ exKindVerts, Kind.all.accepts v ∧ v.isDensity = false := by
  refine ⟨by simp [exKindVerts], ⟨by norm_num, by simp [exKindVerts], by simp [exKindVerts], ⟨trivial, rfl⟩, ⟨trivial, rfl⟩, rfl⟩,
    ⟨_, List.mem_cons_self, trivial, rfl⟩⟩

end CTInt
