import Verif.Props.UMatrix
import Mathlib.Algebra.Order.Archimedean.Real.Basic

/-!
# C30, C31: configuration files and the vertex container
-/

set_option linter.all false

namespace CTInt

variable {K : Type} [RCLike K] [DecidableEq K]

/-! ### numbers in text form -/

/-- `x` has at most `p` significant decimal digits. -/
def ShortDecimal (p : ℕ) (x : ℝ) : Prop := ∃ m k : ℤ, |m| < 10 ^ p ∧ x = m * (10 : ℝ) ^ k

theorem log10_eq {r : ℝ} (hr : 0 < r) {k : ℤ} (h1 : (10 : ℝ) ^ k ≤ r) (h2 : r < (10 : ℝ) ^ (k + 1)) : Int.log 10 r = k := by
  have a := (Int.zpow_le_iff_le_log (b := 10) (by norm_num) hr (x := k)).1 (by exact_mod_cast h1)
  have b := (Int.lt_zpow_iff_log_lt (b := 10) (by norm_num) hr (x := k + 1)).1 (by exact_mod_cast h2)
  omega

/-- Printing keeps numbers that are short enough. -/
theorem printed_short {p : ℕ} (hp : 0 < p) {x : ℝ} (h : ShortDecimal p x) : printed p x = x := by
  unfold printed
  split
  · next h0 => exact h0.symm
  next h0 =>
  obtain ⟨m, k, hm, rfl⟩ := h
  set x := (m : ℝ) * (10 : ℝ) ^ k with hx
  have hpos : 0 < |x| := abs_pos.2 h0
  set L := Int.log 10 |x| with hL
  have hlow : (10 : ℝ) ^ L ≤ |x| := by
    have := Int.zpow_log_le_self (b := 10) (by norm_num) hpos
    exact_mod_cast this
  have hm' : |(m : ℝ)| < (10 : ℝ) ^ (p : ℤ) := by
    have : ((|m| : ℤ) : ℝ) < ((10 ^ p : ℤ) : ℝ) := by exact_mod_cast hm
    simpa using this
  have habs : |x| = |(m : ℝ)| * (10 : ℝ) ^ k := by
    rw [hx, abs_mul, abs_of_pos (by positivity : (0 : ℝ) < 10 ^ k)]
  have hlt : (10 : ℝ) ^ L < (10 : ℝ) ^ ((p : ℤ) + k) := by
    rw [zpow_add₀ (by norm_num)]
    calc (10 : ℝ) ^ L ≤ |x| := hlow
      _ = |(m : ℝ)| * (10 : ℝ) ^ k := habs
      _ < _ := by gcongr
  have hLk : L < p + k := (zpow_lt_zpow_iff_right₀ (by norm_num : (1 : ℝ) < 10)).1 hlt
  obtain ⟨n, hn⟩ := Int.eq_ofNat_of_zero_le (by omega : 0 ≤ k + ((p : ℤ) - 1 - L))
  have hint : x * (10 : ℝ) ^ ((p : ℤ) - 1 - L) = ((m * 10 ^ n : ℤ) : ℝ) := by
    rw [hx, mul_assoc, ← zpow_add₀ (by norm_num : (10 : ℝ) ≠ 0), hn]
    push_cast
    rw [zpow_natCast]
  dsimp only
  rw [hint, round_intCast, ← hint]
  field_simp

/-- Printing changes a number by at most half a unit in the last printed digit. -/
theorem printed_close {p : ℕ} (hp : 0 < p) (x : ℝ) : |printed p x - x| ≤ 5 * (10 : ℝ) ^ (-(p : ℤ)) * |x| := by
  unfold printed
  split
  · next h0 => simp [h0]
  next h0 =>
  have hpos : 0 < |x| := abs_pos.2 h0
  set L := Int.log 10 |x| with hL
  have hlow : (10 : ℝ) ^ L ≤ |x| := by
    have := Int.zpow_log_le_self (b := 10) (by norm_num) hpos
    exact_mod_cast this
  dsimp only
  set e : ℤ := (p : ℤ) - 1 - L with he
  have hE : (0 : ℝ) < (10 : ℝ) ^ e := by positivity
  have hr := abs_sub_round (x * (10 : ℝ) ^ e)
  have : (round (x * (10 : ℝ) ^ e) : ℝ) / (10 : ℝ) ^ e - x = -(x * (10 : ℝ) ^ e - round (x * (10 : ℝ) ^ e)) / (10 : ℝ) ^ e := by
    field_simp; ring
  rw [this, abs_div, abs_neg, abs_of_pos hE, div_le_iff₀ hE]
  refine hr.trans ?_
  have hkey : 5 * (10 : ℝ) ^ (-(p : ℤ)) * (10 : ℝ) ^ L * (10 : ℝ) ^ e = 1 / 2 := by
    rw [mul_assoc, mul_assoc, ← zpow_add₀ (by norm_num), ← zpow_add₀ (by norm_num),
      (by omega : -(p : ℤ) + (L + e) = -1)]
    norm_num
  calc (1 / 2 : ℝ) = 5 * (10 : ℝ) ^ (-(p : ℤ)) * (10 : ℝ) ^ L * (10 : ℝ) ^ e := hkey.symm
    _ ≤ 5 * (10 : ℝ) ^ (-(p : ℤ)) * |x| * (10 : ℝ) ^ e := by gcongr

/-! ### C30 -/

/-- The words of the vertices `vs`, numbered from `k` on. -/
noncomputable def dumpFrom : ℕ → List Vert → List Tok
  | _, [] => []
  | k, v :: vs => [Tok.int k, Tok.int v.type, Tok.int v.af, Tok.dec (printed 6 v.time)] ++ dumpFrom (k + 1) vs

theorem dumpConfig_eq (vs : List Vert) : dumpConfig vs = Tok.int vs.length :: dumpFrom 0 vs := by
  have key : ∀ (vs : List Vert) (k : ℕ) (w : List Vert), k = w.length →
      (List.range' k vs.length).flatMap (fun (i : ℕ) =>
        [Tok.int i, Tok.int ((w ++ vs).getD i default).type, Tok.int ((w ++ vs).getD i default).af,
          Tok.dec (printed 6 ((w ++ vs).getD i default).time)]) = dumpFrom k vs := by
    intro vs
    induction vs with
    | nil => intro k w _; simp [dumpFrom]
    | cons v vs ih =>
      intro k w hk
      subst hk
      have h1 := ih (w.length + 1) (w ++ [v]) (by simp)
      rw [List.append_assoc, List.singleton_append] at h1
      rw [List.length_cons, List.range'_succ, List.flatMap_cons, h1, dumpFrom]
      simp [List.getD]
  have := key vs 0 [] rfl
  rw [← List.range_eq_range'] at this
  unfold dumpConfig
  rw [← this]; rfl

/-- What the reader makes of a vertex that was written. -/
noncomputable def reread (tbl : List (UDef K)) (v : Vert) : Vert :=
  ⟨v.type, v.af, ((tbl.getD v.type default).d.rank : ℤ), printed 6 v.time, (tbl.getD v.type default).d.isDensity, false, 0⟩

theorem load_dump (tbl : List (UDef K)) (vs : List Vert) (hv : ∀ v ∈ vs, v.type < tbl.length) (rest : List Tok)
    (junk : ℕ → ℤ) (junkT : ℕ → ℝ) :
    loadConfig Tok.stream tbl (some (dumpConfig vs ++ rest)) junk junkT = .ok (vs.map (reread tbl), some rest) := by
  have key : ∀ (vs : List Vert) (hv : ∀ v ∈ vs, v.type < tbl.length) (k : ℕ) (acc : List Vert),
      Res.foldl (fun (x : List Vert × TokS) i => do
        let (_, s) := Tok.stream.int x.2 (junk (3 * i + 1))
        let (type, s) := Tok.stream.int s (junk (3 * i + 2))
        let (af, s) := Tok.stream.int s (junk (3 * i + 3))
        let (time, s) := Tok.stream.dbl s (junkT i)
        Res.assert (0 ≤ type)
        let d ← Res.get tbl type.toNat
        pure (x.1 ++ [⟨type.toNat, af, (d.d.rank : ℤ), time, d.d.isDensity, false, 0⟩], s))
        (acc, some (dumpFrom k vs ++ rest)) (List.range' k vs.length) = .ok (acc ++ vs.map (reread tbl), some rest) := by
    intro vs
    induction vs with
    | nil => intro _ k acc; simp [dumpFrom]
    | cons v vs ih =>
      intro hv k acc
      have ht := hv v (by simp)
      rw [List.length_cons, List.range'_succ, Res.foldl_cons, dumpFrom]
      simp only [List.cons_append, List.nil_append, tok_int, tok_dbl]
      rw [Res.assert_true (by omega)]
      simp only [Res.bind_ok, Int.toNat_natCast]
      rw [Res.get_of_lt ht]
      simp only [Res.bind_ok, Res.pure_eq]
      have := ih (fun w hw => hv w (by simp [hw])) (k + 1) (acc ++ [reread tbl v])
      have hr : reread tbl v = ⟨v.type, v.af, (tbl[v.type].d.rank : ℤ), printed 6 v.time, tbl[v.type].d.isDensity, false, 0⟩ := by
        simp [reread, List.getD, ht]
      rw [hr] at this
      refine this.trans ?_
      simp [hr]
  unfold loadConfig
  rw [dumpConfig_eq]
  simp only [List.cons_append, tok_int]
  have := key vs hv 0 []
  rw [← List.range_eq_range'] at this
  simpa using this

/-- **C30**: a file written by hand, or with enough digits, is read as it is: the vertices come in file order with the
    types, fields and exact times written there, whether a time is written as `1` or as `1.0`, and whatever the row
    labels (`p.1`) are; what follows in the file is left alone. -/
theorem C30_written (tbl : List (UDef K)) (rows : List (ℤ × Vert × Tok)) (hv : ∀ p ∈ rows, p.2.1.type < tbl.length)
    (hs : ∀ p ∈ rows, p.2.2.Spells p.2.1.time ∧ ∀ z, p.2.2 ≠ .cplx z) (rest : List Tok) (junk : ℕ → ℤ) (junkT : ℕ → ℝ) :
    ∃ ws : List Vert, loadConfig Tok.stream tbl (some (Tok.int rows.length ::
        rows.flatMap (fun p => [Tok.int p.1, Tok.int p.2.1.type, Tok.int p.2.1.af, p.2.2]) ++ rest)) junk junkT =
          .ok (ws, some rest) ∧ ws.length = rows.length ∧
      ∀ (i : ℕ) (p : ℤ × Vert × Tok), rows[i]? = some p → ∃ w : Vert, ws[i]? = some w ∧ w.type = p.2.1.type ∧
        w.af = p.2.1.af ∧ w.time = p.2.1.time ∧ w.nonInt = false ∧ w.rank = ((tbl.getD w.type default).d.rank : ℤ) ∧
        w.isDensity = (tbl.getD w.type default).d.isDensity := by
  let rd : ℤ × Vert × Tok → Vert := fun p => ⟨p.2.1.type, p.2.1.af, ((tbl.getD p.2.1.type default).d.rank : ℤ),
    p.2.1.time, (tbl.getD p.2.1.type default).d.isDensity, false, 0⟩
  have key : ∀ (rows : List (ℤ × Vert × Tok)) (hv : ∀ p ∈ rows, p.2.1.type < tbl.length)
      (hs : ∀ p ∈ rows, p.2.2.Spells p.2.1.time ∧ ∀ z, p.2.2 ≠ .cplx z) (k : ℕ) (acc : List Vert),
      Res.foldl (fun (x : List Vert × TokS) i => do
        let (_, s) := Tok.stream.int x.2 (junk (3 * i + 1))
        let (type, s) := Tok.stream.int s (junk (3 * i + 2))
        let (af, s) := Tok.stream.int s (junk (3 * i + 3))
        let (time, s) := Tok.stream.dbl s (junkT i)
        Res.assert (0 ≤ type)
        let d ← Res.get tbl type.toNat
        pure (x.1 ++ [⟨type.toNat, af, (d.d.rank : ℤ), time, d.d.isDensity, false, 0⟩], s))
        (acc, some (rows.flatMap (fun p => [Tok.int p.1, Tok.int p.2.1.type, Tok.int p.2.1.af, p.2.2]) ++ rest))
        (List.range' k rows.length) = .ok (acc ++ rows.map rd, some rest) := by
    intro rows
    induction rows with
    | nil => intro _ _ k acc; simp
    | cons p rows ih =>
      intro hv hs k acc
      have ht := hv p (by simp)
      rw [List.length_cons, List.range'_succ, Res.foldl_cons, List.flatMap_cons]
      simp only [List.cons_append, List.nil_append, tok_int, tok_dbl_spelled (hs p (by simp)).1 (hs p (by simp)).2]
      rw [Res.assert_true (by omega)]
      simp only [Res.bind_ok, Int.toNat_natCast]
      rw [Res.get_of_lt ht]
      simp only [Res.bind_ok, Res.pure_eq]
      have hr : rd p = ⟨p.2.1.type, p.2.1.af, (tbl[p.2.1.type].d.rank : ℤ), p.2.1.time, tbl[p.2.1.type].d.isDensity, false, 0⟩ := by
        simp [rd, List.getD, ht]
      have := ih (fun w hw => hv w (by simp [hw])) (fun w hw => hs w (by simp [hw])) (k + 1) (acc ++ [rd p])
      rw [hr] at this
      refine this.trans ?_
      simp [hr]
  refine ⟨rows.map rd, ?_, by simp, ?_⟩
  · unfold loadConfig
    simp only [List.cons_append, tok_int]
    have := key rows hv hs 0 []
    rw [← List.range_eq_range'] at this
    simpa using this
  · intro i p hi
    exact ⟨rd p, by simp [hi], rfl, rfl, rfl, rfl, rfl, rfl⟩

/-- Non-vacuity: a row with the time written `1` and one with the time written `0.25`. -/
example : ∃ rows : List (ℤ × Vert × Tok), rows.length = 2 ∧ (∀ p ∈ rows, p.2.1.type < 2) ∧
    ∀ p ∈ rows, p.2.2.Spells p.2.1.time ∧ ∀ z, p.2.2 ≠ .cplx z :=
  ⟨[(0, ⟨0, 1, 2, 1, true, false, 0⟩, .int 1), (7, ⟨1, 0, 2, 1 / 4, true, false, 0⟩, .dec (1 / 4))], rfl, by simp, by
    intro p hp
    simp only [List.mem_cons, List.not_mem_nil, or_false] at hp
    rcases hp with rfl | rfl
    · exact ⟨Or.inl ⟨1, rfl, by norm_num⟩, by simp⟩
    · exact ⟨Or.inr (Or.inl ⟨1 / 4, rfl, rfl⟩), by simp⟩⟩

/-- **C30**: a word that is not a number where a time is due leaves a vertex at time 0 and a stream that has failed,
    and nothing is reported: the vertices that should follow are lost. -/
theorem C30_garbled (tbl : List (UDef K)) (n : ℤ) (hn : 0 < n) (l : ℤ) (v : Vert) (hv : v.type < tbl.length)
    (rest : List Tok) (junk : ℕ → ℤ) (junkT : ℕ → ℝ) (hj : ∀ k, 0 ≤ junk k ∧ junk k < tbl.length) :
    ∃ ws : List Vert, loadConfig Tok.stream tbl (some ([Tok.int n, Tok.int l, Tok.int v.type, Tok.int v.af, Tok.word] ++ rest))
        junk junkT = .ok (ws, none) ∧ (ws.length : ℤ) = n ∧ ∃ w, ws[0]? = some w ∧ w.type = v.type ∧ w.af = v.af ∧ w.time = 0 ∧
        ∀ (i : ℕ) (w : Vert), 0 < i → ws[i]? = some w → (w.type : ℤ) = junk (3 * i + 2) ∧ w.time = junkT i := by
  have key : ∀ (m k : ℕ) (acc : List Vert), ∃ ws : List Vert,
      Res.foldl (fun (x : List Vert × TokS) i => do
        let (_, s) := Tok.stream.int x.2 (junk (3 * i + 1))
        let (type, s) := Tok.stream.int s (junk (3 * i + 2))
        let (af, s) := Tok.stream.int s (junk (3 * i + 3))
        let (time, s) := Tok.stream.dbl s (junkT i)
        Res.assert (0 ≤ type)
        let d ← Res.get tbl type.toNat
        pure (x.1 ++ [⟨type.toNat, af, (d.d.rank : ℤ), time, d.d.isDensity, false, 0⟩], s))
        (acc, none) (List.range' k m) = .ok (acc ++ ws, none) ∧ ws.length = m ∧
      ∀ (i : ℕ) (w : Vert), ws[i]? = some w → (w.type : ℤ) = junk (3 * (k + i) + 2) ∧ w.time = junkT (k + i) := by
    intro m
    induction m with
    | zero => intro k acc; exact ⟨[], by simp, rfl, by simp⟩
    | succ m ih =>
      intro k acc
      rw [List.range'_succ, Res.foldl_cons]
      have hi : ∀ old, Tok.stream.int none old = (old, none) := fun _ => rfl
      have hd : ∀ old, Tok.stream.dbl none old = (old, none) := fun _ => rfl
      simp only [hi, hd]
      obtain ⟨h0, h1⟩ := hj (3 * k + 2)
      rw [Res.assert_true h0]
      simp only [Res.bind_ok]
      rw [Res.get_of_lt (by omega : (junk (3 * k + 2)).toNat < tbl.length)]
      simp only [Res.bind_ok, Res.pure_eq]
      obtain ⟨ws, e, hl, hw⟩ := ih (k + 1) (acc ++ [⟨(junk (3 * k + 2)).toNat, junk (3 * k + 3),
        (tbl[(junk (3 * k + 2)).toNat].d.rank : ℤ), junkT k, tbl[(junk (3 * k + 2)).toNat].d.isDensity, false, 0⟩])
      refine ⟨_ :: ws, e.trans (by simp; rfl), by simp [hl], ?_⟩
      rintro (_ | i) w hi
      · simp only [List.getElem?_cons_zero, Option.some.injEq] at hi
        subst hi
        exact ⟨by simp [h0], by simp⟩
      · rw [List.getElem?_cons_succ] at hi
        have := hw i w hi
        rwa [show k + 1 + i = k + (i + 1) by ring] at this
  obtain ⟨m, hm⟩ : ∃ m : ℕ, n = m + 1 := ⟨(n - 1).toNat, by omega⟩
  subst hm
  obtain ⟨ws, e, hl, hw⟩ := key m 1 [⟨v.type, v.af, (tbl[v.type].d.rank : ℤ), 0, tbl[v.type].d.isDensity, false, 0⟩]
  refine ⟨(⟨v.type, v.af, (tbl[v.type].d.rank : ℤ), 0, tbl[v.type].d.isDensity, false, 0⟩ : Vert) :: ws, ?_, by simp [hl],
    _, rfl, rfl, rfl, rfl, ?_⟩
  · unfold loadConfig
    simp only [List.cons_append, List.nil_append, tok_int]
    rw [show ((m : ℤ) + 1).toNat = m + 1 by omega, List.range_eq_range', List.range'_succ, Res.foldl_cons]
    have hd : ∀ old, Tok.stream.dbl (some (Tok.word :: rest)) old = (0, none) := fun _ => rfl
    simp only [tok_int, hd]
    rw [Res.assert_true (by omega)]
    simp only [Res.bind_ok, Int.toNat_natCast]
    rw [Res.get_of_lt hv]
    simp only [Res.bind_ok, Res.pure_eq, List.nil_append]
    simpa using e
  · rintro (_ | i) w h0 hi
    · omega
    · rw [List.getElem?_cons_succ] at hi
      have := hw i w hi
      rwa [show 1 + i = i + 1 by ring] at this

/-- Non-vacuity. -/
example : ∃ (tbl : List (UDef ℝ)) (junk : ℕ → ℤ) (v : Vert), tbl.length = 2 ∧ v.type < tbl.length ∧
    ∀ k, 0 ≤ junk k ∧ junk k < tbl.length :=
  ⟨[⟨⟨2, [0, 1], [0, 0, 0, 0], 2, 4, fun _ _ => 0⟩, 0⟩, ⟨⟨2, [0, 1], [1, 1, 1, 1], 2, 4, fun _ _ => 0⟩, 1⟩], fun _ => 1,
    ⟨1, 0, 2, 1 / 2, true, false, 0⟩, rfl, by simp, by simp⟩

/-- **C30**, partial: loading what was dumped restores number, order, types and auxiliary fields of the vertices, and
    their times up to a relative error of 5·10⁻⁶; times with at most six significant digits come back exactly.
    Missing: other times, which the file does not hold with enough digits (`C30_violation`). -/
theorem C30_round_trip_partial (tbl : List (UDef K)) (vs : List Vert) (hv : ∀ v ∈ vs, v.type < tbl.length)
    (junk : ℕ → ℤ) (junkT : ℕ → ℝ) :
    ∃ ws : List Vert, loadConfig Tok.stream tbl (some (dumpConfig vs)) junk junkT = .ok (ws, some []) ∧ ws.length = vs.length ∧
      ∀ (i : ℕ) (v : Vert), vs[i]? = some v → ∃ w : Vert, ws[i]? = some w ∧ w.type = v.type ∧ w.af = v.af ∧ w.nonInt = false ∧
        |w.time - v.time| ≤ 5 / 10 ^ 6 * |v.time| ∧ (ShortDecimal 6 v.time → w.time = v.time) := by
  refine ⟨vs.map (reread tbl), by simpa using load_dump tbl vs hv [] junk junkT, by simp, ?_⟩
  intro i v hi
  refine ⟨reread tbl v, by simp [hi], rfl, rfl, rfl, ?_, fun h => printed_short (by norm_num) h⟩
  have := printed_close (p := 6) (by norm_num) v.time
  refine this.trans (le_of_eq ?_)
  norm_num

/-- If every time has at most six significant digits, the same configuration comes back (`rank` and density flag are
    those of the table in any configuration the walker makes; ids are assigned anew). -/
theorem C30_same_partial (tbl : List (UDef K)) (vs : List Vert) (hv : ∀ v ∈ vs, v.type < tbl.length)
    (ht : ∀ v ∈ vs, ShortDecimal 6 v.time)
    (hc : ∀ v ∈ vs, v.nonInt = false ∧ v.uid = 0 ∧ v.rank = ((tbl.getD v.type default).d.rank : ℤ) ∧
      v.isDensity = (tbl.getD v.type default).d.isDensity) (junk : ℕ → ℤ) (junkT : ℕ → ℝ) :
    loadConfig Tok.stream tbl (some (dumpConfig vs)) junk junkT = .ok (vs, some []) := by
  have := load_dump tbl vs hv [] junk junkT
  rw [List.append_nil] at this
  rw [this]
  congr 2
  conv_rhs => rw [← List.map_id vs]
  refine List.map_congr_left fun v hm => ?_
  obtain ⟨h1, h2, h3, h4⟩ := hc v hm
  simp only [reread, printed_short (by norm_num) (ht v hm), ← h3, ← h4, id]
  cases v
  simp_all

/-- The printed form of 0.123456x. -/
theorem printed_ex {x : ℝ} (h1 : 1234560 ≤ x * 10000000) (h2 : x * 10000000 < 1234565) : printed 6 x = 123456 / 1000000 := by
  have hx : 0 < x := by linarith
  have hl : Int.log 10 |x| = -1 := by
    rw [abs_of_pos hx]
    exact log10_eq hx (by norm_num; linarith) (by norm_num; linarith)
  unfold printed
  rw [if_neg hx.ne', hl]
  have : round (x * (10 : ℝ) ^ ((6 : ℕ) - 1 - (-1) : ℤ)) = 123456 := by
    rw [round_eq_iff]
    norm_num
    constructor <;> linarith
  simp only [this]
  norm_num

/-- **C30 is violated**: two vertices at different times come back at the same, wrong, time. -/
theorem C30_violation (tbl : List (UDef K)) (h : tbl ≠ []) (junk : ℕ → ℤ) (junkT : ℕ → ℝ) :
    ∃ v1 v2 w1 w2 : Vert, v1.time ≠ v2.time ∧ v1.type < tbl.length ∧ v2.type < tbl.length ∧
      loadConfig Tok.stream tbl (some (dumpConfig [v1, v2])) junk junkT = .ok ([w1, w2], some []) ∧
      w1.time ≠ v1.time ∧ w1.time = w2.time := by
  have hl : 0 < tbl.length := List.length_pos_iff.2 h
  refine ⟨⟨0, 0, 2, 1234561 / 10000000, true, false, 0⟩, ⟨0, 0, 2, 1234562 / 10000000, true, false, 0⟩,
    reread tbl ⟨0, 0, 2, 1234561 / 10000000, true, false, 0⟩, reread tbl ⟨0, 0, 2, 1234562 / 10000000, true, false, 0⟩,
    by norm_num, hl, hl, ?_, ?_, ?_⟩
  · have := load_dump tbl [⟨0, 0, 2, 1234561 / 10000000, true, false, 0⟩, ⟨0, 0, 2, 1234562 / 10000000, true, false, 0⟩]
      (by simpa using hl) [] junk junkT
    simpa using this
  · simp only [reread]
    rw [printed_ex (by norm_num) (by norm_num)]
    norm_num
  · simp only [reread]
    rw [printed_ex (by norm_num) (by norm_num), printed_ex (by norm_num) (by norm_num)]

/-- Non-vacuity of `C30_same_partial`: two vertices of the on-site model. -/
example : ∃ t, UTable.onsite (K := ℝ) 2 2 4 (1 / 100) = .ok t ∧
    ∀ junk junkT, loadConfig Tok.stream t.list (some (dumpConfig [⟨0, 1, 2, 1 / 4, true, false, 0⟩, ⟨1, 0, 2, 3 / 2, true, false, 0⟩]))
      junk junkT = .ok ([⟨0, 1, 2, 1 / 4, true, false, 0⟩, ⟨1, 0, 2, 3 / 2, true, false, 0⟩], some []) := by
  obtain ⟨t, e, hl, -, -, h, hd, -⟩ := C28_two_flavors (K := ℝ) 2 4 (1 / 100)
  refine ⟨t, e, fun junk junkT => C30_same_partial t.list _ ?_ ?_ ?_ junk junkT⟩
  · simp [hl]
  · intro v hv
    simp only [List.mem_cons, List.not_mem_nil, or_false] at hv
    rcases hv with rfl | rfl
    · exact ⟨25, -2, by norm_num, by norm_num⟩
    · exact ⟨15, -1, by norm_num, by norm_num⟩
  · have hden : ∀ s < 2, (t.list.getD s default).d.rank = 2 ∧ (t.list.getD s default).d.isDensity = true := by
      intro s hs
      obtain ⟨v, ev, hv⟩ := h s hs
      have : t.list.getD s default = v := by simp [List.getD, ev]
      rw [this]
      refine ⟨hv.rank, ?_⟩
      rw [isDensity_iff]
      intro r hr
      rw [hv.rank] at hr
      rw [hv.sites]
      interval_cases r <;> rfl
    intro v hv
    simp only [List.mem_cons, List.not_mem_nil, or_false] at hv
    rcases hv with rfl | rfl
    · exact ⟨rfl, rfl, by rw [(hden 0 (by norm_num)).1]; rfl, (hden 0 (by norm_num)).2.symm⟩
    · exact ⟨rfl, rfl, by rw [(hden 1 (by norm_num)).1]; rfl, (hden 1 (by norm_num)).2.symm⟩

/-! ### C31 -/

/-- **C31 is violated**: inserting at an occupied time succeeds without an error and changes the container. -/
theorem C31_violation (vs : List Vert) (x : Vert) (h : ∃ v ∈ vs, v.time = x.time) :
    ∃ ws, pushVert vs x = .ok ws ∧ ws ≠ vs ∧ ¬ (ws.map (·.time)).Nodup := by
  refine ⟨vs ++ [x], rfl, fun hc => by simpa using congrArg List.length hc, ?_⟩
  obtain ⟨v, hv, e⟩ := h
  rw [List.map_append, List.nodup_append]
  rintro ⟨-, -, hd⟩
  exact hd v.time (List.mem_map.2 ⟨v, hv, rfl⟩) x.time (by simp) e

/-- Non-vacuity. -/
example : ∃ (vs : List Vert) (x : Vert), ∃ v ∈ vs, v.time = x.time :=
  ⟨[⟨0, 0, 2, 1 / 2, true, false, 0⟩], ⟨1, 1, 2, 1 / 2, true, false, 0⟩, _, List.mem_singleton_self _, rfl⟩

/-- **C31**, partial: at a free time the vertex is appended and the times stay distinct.  Missing: the refusal of an
    occupied time (`C31_violation`). -/
theorem C31_free_time_partial (vs : List Vert) (x : Vert) (h : ∀ v ∈ vs, v.time ≠ x.time)
    (hn : (vs.map (·.time)).Nodup) :
    ∃ ws, pushVert vs x = .ok ws ∧ ws = vs ++ [x] ∧ (ws.map (·.time)).Nodup ∧
      numInteracting ws = numInteracting vs + if x.nonInt then 0 else 1 := by
  refine ⟨vs ++ [x], rfl, rfl, ?_, ?_⟩
  · rw [List.map_append, List.nodup_append]
    refine ⟨hn, by simp, ?_⟩
    intro a ha b hb
    obtain ⟨v, hv, rfl⟩ := List.mem_map.1 ha
    simp at hb
    subst hb
    exact h v hv
  · unfold numInteracting
    rw [List.foldl_append]
    cases h : x.nonInt <;> simp [h]

/-- `num_interacting` counts the vertices of the configuration the weight is taken over. -/
theorem numInteracting_eq (vs : List Vert) : numInteracting vs = (interacting vs).length := by
  have key : ∀ (vs : List Vert) (c : ℕ), vs.foldl (fun c v => if !v.nonInt then c + 1 else c) c =
      c + (vs.filter fun v => !v.nonInt).length := by
    intro vs
    induction vs with
    | nil => simp
    | cons v vs ih =>
      intro c
      rw [List.foldl_cons, ih]
      cases h : v.nonInt <;> simp [h] <;> omega
  simpa [numInteracting, interacting] using key vs 0

end CTInt
