import Verif.Proofs.GreenText
import Verif.Props.GreenRead

/-!
# C92: the file with the bare Green function, word by word
-/

set_option linter.all false

namespace CTInt

variable {K : Type} [RCLike K]

theorem into_dbl_spelled {t : Tok} {x : ℝ} (h : t.Spells x) (hc : ∀ z, t ≠ .cplx z) (l : List Tok) (old : Option ℝ) :
    Tok.into 0 Tok.asDbl (some (t :: l)) old = (some x, some l) := by
  rcases h with ⟨n, rfl, e⟩ | ⟨y, rfl, e⟩ | e
  · have : x = n := by exact_mod_cast e
    simp [Tok.into, Tok.asDbl, this]
  · have : x = y := by exact_mod_cast e
    simp [Tok.into, Tok.asDbl, this]
  · exact absurd e (hc _)

theorem next_writes {r : GRow} {l : List Tok} (h : r.Writes l) (v : GVars) (rest : List Tok) :
    v.next (some (l ++ rest)) = (GVars.of r, some rest) := by
  obtain ⟨a, b, rfl, ha, hb, hc⟩ := h
  have hi : ∀ (z : ℤ) (l : List Tok) (o : Option ℤ), Tok.into 0 Tok.asInt (some (.int z :: l)) o = (some z, some l) :=
    fun _ _ _ => rfl
  simp [GVars.next, hi, into_dbl_spelled ha (fun z => (hc z).1), into_dbl_spelled hb (fun z => (hc z).2), GVars.of]

theorem into_failed {α : Type} (zero : α) (rd : Tok → Option α) (o : Option α) : Tok.into zero rd none o = (o, none) := rfl

theorem next_failed (v : GVars) : v.next none = (v, none) := by
  simp [GVars.next, into_failed]

theorem into_int_good {s : TokS} {o a : Option ℤ} {l : List Tok} (h : Tok.into 0 Tok.asInt s o = (a, some l)) :
    ∃ z, s = some (.int z :: l) ∧ a = some z := by
  rcases s with _ | (_ | ⟨t, l'⟩)
  · simp [Tok.into] at h
  · simp [Tok.into] at h
  · cases t <;> simp [Tok.into, Tok.asInt] at h
    obtain ⟨rfl, rfl⟩ := h
    exact ⟨_, rfl, rfl⟩

theorem into_dbl_good {s : TokS} {o a : Option ℝ} {l : List Tok} (h : Tok.into 0 Tok.asDbl s o = (a, some l)) :
    ∃ t x, s = some (t :: l) ∧ a = some x ∧ t.Spells x ∧ ∀ z, t ≠ .cplx z := by
  rcases s with _ | (_ | ⟨t, l'⟩)
  · simp [Tok.into] at h
  · simp [Tok.into] at h
  · cases t <;> simp [Tok.into, Tok.asDbl] at h
    · obtain ⟨rfl, rfl⟩ := h
      exact ⟨_, _, rfl, rfl, Or.inl ⟨_, rfl, by simp⟩, by simp⟩
    · obtain ⟨rfl, rfl⟩ := h
      exact ⟨_, _, rfl, rfl, Or.inr (Or.inl ⟨_, rfl, rfl⟩), by simp⟩

/-- If the stream is good after a line then there was a line. -/
theorem next_good {v w : GVars} {s : TokS} {rest : List Tok} (h : v.next s = (w, some rest)) :
    ∃ (r : GRow) (l : List Tok), s = some (l ++ rest) ∧ r.Writes l := by
  unfold GVars.next at h
  dsimp only at h
  obtain ⟨t6, x6, e6, -, a6, b6⟩ := into_dbl_good (Prod.ext rfl (congrArg Prod.snd h :) :
    Tok.into 0 Tok.asDbl _ v.im = (_, some rest))
  obtain ⟨t5, x5, e5, -, a5, b5⟩ := into_dbl_good (Prod.ext rfl e6 : Tok.into 0 Tok.asDbl _ v.re = (_, some _))
  obtain ⟨z4, e4, -⟩ := into_int_good (Prod.ext rfl e5 : Tok.into 0 Tok.asInt _ v.t = (_, some _))
  obtain ⟨z3, e3, -⟩ := into_int_good (Prod.ext rfl e4 : Tok.into 0 Tok.asInt _ v.j = (_, some _))
  obtain ⟨z2, e2, -⟩ := into_int_good (Prod.ext rfl e3 : Tok.into 0 Tok.asInt _ v.i = (_, some _))
  obtain ⟨z1, e1, -⟩ := into_int_good (Prod.ext rfl e2 : Tok.into 0 Tok.asInt _ v.f = (_, some _))
  exact ⟨⟨z1, z2, z3, z4, x5, x6⟩, [.int z1, .int z2, .int z3, .int z4, t5, t6], by rw [e1]; rfl, t5, t6, rfl, a5, a6,
    fun z => ⟨b5 z, b6 z⟩⟩

theorem seen_failed (m : ℕ) (v : GVars) : seen m v none = List.replicate m v.row := by
  induction m with
  | zero => rfl
  | succ m ih => rw [seen, next_failed, ih]; rfl

theorem seen_rows {rows : List GRow} {b : List Tok} (h : WritesRows rows b) (m : ℕ) (v : GVars) (rest : List Tok) :
    seen (rows.length + m) v (some (b ++ rest)) = rows ++ seen m ((rows.getLast?.map GVars.of).getD v) (some rest) := by
  obtain ⟨ls, rfl, h⟩ := h
  induction h generalizing v with
  | nil => simp
  | @cons r l rows ls hr hrs ih =>
    rw [List.length_cons, show rows.length + 1 + m = (rows.length + m) + 1 by omega, List.flatten_cons, List.append_assoc,
      seen, next_writes hr, ih]
    cases h : rows.getLast? with
    | none => simp [List.getLast?_eq_none_iff.1 h]
    | some a => simp [List.getLast?_cons, h]

theorem seen_take {rows : List GRow} {b : List Tok} (h : WritesRows rows b) {m : ℕ} (hm : m ≤ rows.length) (v : GVars)
    (rest : List Tok) : seen m v (some (b ++ rest)) = rows.take m := by
  obtain ⟨ls, rfl, h⟩ := h
  induction h generalizing v m with
  | nil =>
    obtain rfl : m = 0 := by simpa using hm
    rfl
  | @cons r l rows ls hr hrs ih =>
    cases m with
    | zero => rfl
    | succ m =>
      rw [List.flatten_cons, List.append_assoc, seen, next_writes hr, ih (by simpa using hm)]
      simp

/-- The first line gives all variables a value. -/
theorem first_line {rows : List GRow} {b : List Tok} (h : WritesRows rows b) (hr : rows ≠ []) (v : GVars) (rest : List Tok) :
    ∃ r, (v.next (some (b ++ rest))).1 = GVars.of r := by
  obtain ⟨ls, rfl, h⟩ := h
  cases h with
  | nil => exact absurd rfl hr
  | @cons r l rows ls hw hrs =>
    rw [List.flatten_cons, List.append_assoc, next_writes hw]
    exact ⟨r, rfl⟩

/-- In an ordered file the last index of line `k` is `k` modulo the number of grid points. -/
theorem ordered_at {file : GFile} (h : file.Ordered) {k : ℕ} (hk : k < file.size) :
    ∃ row, file.rows[k]? = some row ∧ row.t = (k % file.ntau.toNat : ℕ) := by
  unfold GFile.size at hk
  have hT : 0 < file.ntau.toNat := by
    rcases Nat.eq_zero_or_pos file.ntau.toNat with e | e
    · rw [e] at hk; simp at hk
    · exact e
  have hS : 0 < file.ns.toNat := by
    rcases Nat.eq_zero_or_pos file.ns.toNat with e | e
    · rw [e] at hk; simp at hk
    · exact e
  have hF : k / file.ntau.toNat / file.ns.toNat / file.ns.toNat < file.nf.toNat := by
    rw [Nat.div_div_eq_div_mul, Nat.div_div_eq_div_mul, Nat.div_lt_iff_lt_mul (by positivity)]
    refine hk.trans_eq ?_
    ring
  have h1 := Nat.mod_lt (k / file.ntau.toNat / file.ns.toNat) hS
  have h2 := Nat.mod_lt (k / file.ntau.toNat) hS
  have h3 := Nat.mod_lt k hT
  obtain ⟨row, e, -, -, -, et⟩ := h (k / file.ntau.toNat / file.ns.toNat / file.ns.toNat)
    (k / file.ntau.toNat / file.ns.toNat % file.ns.toNat) (k / file.ntau.toNat % file.ns.toNat) (k % file.ntau.toNat)
    (Int.lt_toNat.1 hF) (Int.lt_toNat.1 h1) (Int.lt_toNat.1 h2) (Int.lt_toNat.1 h3)
  refine ⟨row, ?_, et⟩
  unfold GFile.line at e
  rwa [Nat.div_add_mod', Nat.div_add_mod', Nat.div_add_mod'] at e

/-- Two lines in a row with the same last index are not in order. -/
theorem not_ordered {file : GFile} (hT : 3 ≤ file.ntau) {k : ℕ} (hk : k + 1 < file.size) {a b : GRow}
    (ha : file.rows[k]? = some a) (hb : file.rows[k + 1]? = some b) (e : a.t = b.t) : ¬ file.Ordered := by
  intro h
  obtain ⟨a', ha', ta⟩ := ordered_at h (by omega : k < file.size)
  obtain ⟨b', hb', tb⟩ := ordered_at h hk
  rw [ha] at ha'
  rw [hb] at hb'
  cases ha'; cases hb'
  rw [ta, tb] at e
  have e' : k % file.ntau.toNat = (k + 1) % file.ntau.toNat := by exact_mod_cast e
  have hT' : 3 ≤ file.ntau.toNat := by omega
  have h1 := Nat.mod_lt k (by omega : 0 < file.ntau.toNat)
  rw [Nat.add_mod, Nat.mod_eq_of_lt (by omega : 1 < file.ntau.toNat)] at e'
  by_cases hc : k % file.ntau.toNat + 1 < file.ntau.toNat
  · rw [Nat.mod_eq_of_lt hc] at e'; omega
  · have : k % file.ntau.toNat + 1 = file.ntau.toNat := by omega
    rw [this, Nat.mod_self] at e'
    omega

theorem short_not_ordered {file : GFile} (hs : file.rows.length < file.size) : ¬ file.Ordered := by
  intro h
  obtain ⟨row, e, -⟩ := ordered_at h hs
  simp at e

/-- **C92.**  Reading a file word by word is reading it line by line, however its numbers are written; what follows the
    lines that are needed does not matter. -/
theorem C92_text (file : GFile) {l : List Tok} (hl : file.Writes l) (rest : List Tok) (β : ℝ) (F S : ℕ) (hβ : 0 < β)
    (hT : 3 ≤ file.ntau) (hR : file.rows ≠ []) (hx : file.size ≤ file.rows.length ∨ rest = []) :
    (Green.readText (some (l ++ rest)) β F S : Res (Green K)) = Green.read (some file) β F S := by
  obtain ⟨h, b, rfl, hh, hb⟩ := hl
  rw [List.append_assoc, readText_eq file hh (b ++ rest) β F S (file.rows.drop file.size) (first_line hb hR _ _)]
  by_cases hm : file.nf = F ∧ file.ns = S
  · obtain ⟨rfl, rfl⟩ : F = file.nf.toNat ∧ S = file.ns.toNat := by omega
    change Green.read (some ⟨file.nf, file.ns, file.ntau, file.beta, seen file.size _ _ ++ _⟩) _ _ _ = _
    by_cases hs : file.size ≤ file.rows.length
    · rw [seen_take hb hs, List.take_append_drop]
    · obtain rfl : rest = [] := hx.resolve_left hs
      rw [C56_reject file β _ _ hβ hT hR (Or.inr (Or.inr (Or.inr (short_not_ordered (by omega)))))]
      obtain ⟨m, hm'⟩ : ∃ m, file.size = file.rows.length + (m + 1) := ⟨file.size - file.rows.length - 1, by omega⟩
      rw [hm', seen_rows hb]
      obtain ⟨r, hr⟩ : ∃ r, file.rows.getLast? = some r := by
        cases e : file.rows.getLast? with
        | none => exact absurd (List.getLast?_eq_none_iff.1 e) hR
        | some r => exact ⟨r, rfl⟩
      have hpos : 0 < file.rows.length := List.length_pos_iff.2 hR
      have hr' : file.rows[file.rows.length - 1]? = some r := by rw [← List.getLast?_eq_getElem?]; exact hr
      have hsz : ∀ rows, (⟨file.nf, file.ns, file.ntau, file.beta, rows⟩ : GFile).size = file.size := fun _ => rfl
      refine C56_reject _ β _ _ hβ hT (by simp [hR]) (Or.inr (Or.inr (Or.inr ?_)))
      refine not_ordered (k := file.rows.length - 1) (a := r) (b := r) hT (by rw [hsz]; omega) ?_ ?_ rfl
      · simp only
        rw [List.append_assoc, List.getElem?_append_left (by omega)]
        exact hr'
      · simp only
        rw [List.append_assoc, List.getElem?_append_right (by omega), hr]
        have e0 : GVars.next (GVars.of r) (some []) = (GVars.of r, none) := by
          simp [GVars.next, Tok.into, GVars.of]
        rw [show file.rows.length - 1 + 1 - file.rows.length = 0 by omega]
        simp [seen, e0]
  · have : file.nf ≠ F ∨ file.ns ≠ S := by tauto
    have hne : ∀ rows : List GRow, (Green.read (some ⟨file.nf, file.ns, file.ntau, file.beta, rows⟩) β F S : Res (Green K)) =
        .throw .runtimeError := by
      intro rows
      unfold Green.read
      simp only
      rw [Res.throwIf_true (by rcases this with h | h; exact Or.inl (Ne.symm h); exact Or.inr (Ne.symm h))]
      rfl
    exact (hne _).trans (hne file.rows).symm

/-- A head that does not fit the request is refused. -/
theorem read_head {file : GFile} {β : ℝ} {F S : ℕ} (h : file.nf ≠ F ∨ file.ns ≠ S) (rows : List GRow) :
    (Green.read (some ⟨file.nf, file.ns, file.ntau, file.beta, rows⟩) β F S : Res (Green K)) = .throw .runtimeError := by
  unfold Green.read
  simp only
  rw [Res.throwIf_true (by rcases h with h | h; exact Or.inl (Ne.symm h); exact Or.inr (Ne.symm h))]
  rfl

theorem last_of_ne {rows : List GRow} (h : rows ≠ []) : ∃ r, rows.getLast? = some r ∧ rows[rows.length - 1]? = some r := by
  cases e : rows.getLast? with
  | none => exact absurd (List.getLast?_eq_none_iff.1 e) h
  | some r => exact ⟨r, rfl, by rw [← List.getLast?_eq_getElem?]; exact e⟩

/-- **C92.**  If, after at least one line, the file goes on with anything that is not a line (it ends, possibly within the
    line, or holds a word that is not a number) before the last line, it is refused.
    Missing: the numbers of the last line (`C92_cut_violation`) and the first line of data (`C92_first_line_violation`). -/
theorem C92_incomplete_partial (file : GFile) {l : List Tok} (hl : file.Writes l) (tail : List Tok)
    (ht : ∀ (r : GRow) (w rest : List Tok), r.Writes w → tail ≠ w ++ rest) (β : ℝ) (F S : ℕ) (hβ : 0 < β)
    (hT : 3 ≤ file.ntau) (hR : file.rows ≠ []) (hs : file.rows.length + 1 < file.size) :
    (Green.readText (some (l ++ tail)) β F S : Res (Green K)) = .throw .runtimeError := by
  obtain ⟨h, b, rfl, hh, hb⟩ := hl
  rw [List.append_assoc, readText_eq file hh (b ++ tail) β F S [] (first_line hb hR _ _)]
  by_cases hm : file.nf = F ∧ file.ns = S
  · obtain ⟨rfl, rfl⟩ : F = file.nf.toNat ∧ S = file.ns.toNat := by omega
    change Green.read (some ⟨file.nf, file.ns, file.ntau, file.beta, seen file.size _ _ ++ _⟩) _ _ _ = _
    obtain ⟨m, hm'⟩ : ∃ m, file.size = file.rows.length + (m + 2) := ⟨file.size - file.rows.length - 2, by omega⟩
    rw [hm', seen_rows hb, List.append_nil]
    obtain ⟨r, hr, -⟩ := last_of_ne hR
    rw [hr]
    obtain ⟨w, e⟩ : ∃ w, GVars.next (GVars.of r) (some tail) = (w, none) := by
      cases e : (GVars.next (GVars.of r) (some tail)).2 with
      | none => exact ⟨_, Prod.ext rfl e⟩
      | some rest =>
        obtain ⟨r', w, e', hw⟩ := next_good (Prod.ext rfl e : GVars.next (GVars.of r) (some tail) = (_, some rest))
        exact absurd (Option.some.inj e') (ht r' w rest hw)
    have hsz : ∀ rows, (⟨file.nf, file.ns, file.ntau, file.beta, rows⟩ : GFile).size = file.size := fun _ => rfl
    refine C56_reject _ β _ _ hβ hT (by simp [hR]) (Or.inr (Or.inr (Or.inr ?_)))
    refine not_ordered (k := file.rows.length) (a := w.row) (b := w.row) hT (by rw [hsz]; omega) ?_ ?_ rfl
    · simp [seen, e]
    · simp [seen, e, next_failed]
  · exact read_head (by tauto) _

/-- The last index after words that do not begin with four integers. -/
theorem next_no_index {r : GRow} {tail : List Tok} (ht : ∀ (a b c d : ℤ) (rest : List Tok),
      tail ≠ .int a :: .int b :: .int c :: .int d :: rest) :
    (GVars.next (GVars.of r) (some tail)).1.t = some 0 ∨ (GVars.next (GVars.of r) (some tail)).1.t = some r.t := by
  have key : ∀ (s : TokS) (o : Option ℤ), (∃ z l, s = some (.int z :: l) ∧ Tok.into 0 Tok.asInt s o = (some z, some l)) ∨
      (Tok.into 0 Tok.asInt s o).2 = none ∧ ((Tok.into 0 Tok.asInt s o).1 = some 0 ∨ (Tok.into 0 Tok.asInt s o).1 = o) := by
    intro s o
    rcases s with _ | (_ | ⟨t, l'⟩)
    · exact Or.inr ⟨rfl, Or.inr rfl⟩
    · exact Or.inr ⟨rfl, Or.inr rfl⟩
    · cases t
      · exact Or.inl ⟨_, _, rfl, rfl⟩
      all_goals exact Or.inr ⟨rfl, Or.inl rfl⟩
  simp only [GVars.next, GVars.of]
  rcases key (some tail) (some r.f) with ⟨a, l1, e1, e1'⟩ | ⟨e1, -⟩
  swap
  · rw [e1]; simp [into_failed]
  rw [e1']
  simp only
  rcases key (some l1) (some r.i) with ⟨b, l2, e2, e2'⟩ | ⟨e2, -⟩
  swap
  · rw [e2]; simp [into_failed]
  rw [e2']
  simp only
  rcases key (some l2) (some r.j) with ⟨c, l3, e3, e3'⟩ | ⟨e3, -⟩
  swap
  · rw [e3]; simp [into_failed]
  rw [e3']
  simp only
  rcases key (some l3) (some r.t) with ⟨d, l4, e4, e4'⟩ | ⟨-, e4⟩
  · cases e1; cases e2; cases e3; cases e4
    exact absurd rfl (ht a b c d l4)
  · exact e4

/-- **C92.**  The same if the four indices of a line are missing or not numbers, also in the last line. -/
theorem C92_index_partial (file : GFile) {l : List Tok} (hl : file.Writes l) (tail : List Tok)
    (ht : ∀ (a b c d : ℤ) (rest : List Tok), tail ≠ .int a :: .int b :: .int c :: .int d :: rest) (β : ℝ) (F S : ℕ)
    (hβ : 0 < β) (hT : 3 ≤ file.ntau) (hR : file.rows ≠ []) (hs : file.rows.length < file.size) :
    (Green.readText (some (l ++ tail)) β F S : Res (Green K)) = .throw .runtimeError := by
  by_cases hlast : file.rows.length + 1 < file.size
  · refine C92_incomplete_partial file hl tail ?_ β F S hβ hT hR hlast
    rintro r w rest ⟨a, b, rfl, -⟩ e
    exact ht _ _ _ _ _ e
  obtain ⟨h, b, rfl, hh, hb⟩ := hl
  rw [List.append_assoc, readText_eq file hh (b ++ tail) β F S [] (first_line hb hR _ _)]
  by_cases hm : file.nf = F ∧ file.ns = S
  · obtain ⟨rfl, rfl⟩ : F = file.nf.toNat ∧ S = file.ns.toNat := by omega
    change Green.read (some ⟨file.nf, file.ns, file.ntau, file.beta, seen file.size _ _ ++ _⟩) _ _ _ = _
    rw [show file.size = file.rows.length + 1 by omega, seen_rows hb, List.append_nil]
    obtain ⟨r, hr, hr'⟩ := last_of_ne hR
    have hpos : 0 < file.rows.length := List.length_pos_iff.2 hR
    rw [hr]
    have hsz : ∀ rows, (⟨file.nf, file.ns, file.ntau, file.beta, rows⟩ : GFile).size = file.size := fun _ => rfl
    refine C56_reject _ β _ _ hβ hT (by simp [hR]) (Or.inr (Or.inr (Or.inr fun ho => ?_)))
    obtain ⟨x, hx, tx⟩ := ordered_at ho (k := file.rows.length) (by rw [hsz]; omega)
    obtain ⟨y, hy, ty⟩ := ordered_at ho (k := file.rows.length - 1) (by rw [hsz]; omega)
    have hT' : 3 ≤ file.ntau.toNat := by omega
    have hsize : ∃ q, file.rows.length + 1 = q * file.ntau.toNat := by
      refine ⟨file.nf.toNat * (file.ns.toNat * file.ns.toNat), ?_⟩
      have : file.rows.length + 1 = file.size := by omega
      rw [this, GFile.size]; ring
    obtain ⟨q, hq⟩ := hsize
    have hq0 : q ≠ 0 := by rintro rfl; simp at hq
    have m1 : file.rows.length % file.ntau.toNat = file.ntau.toNat - 1 := by
      obtain ⟨q, rfl⟩ := Nat.exists_eq_succ_of_ne_zero hq0
      rw [show file.rows.length = file.ntau.toNat - 1 + file.ntau.toNat * q by rw [Nat.succ_mul] at hq; rw [mul_comm]; omega,
        Nat.add_mul_mod_self_left, Nat.mod_eq_of_lt (by omega)]
    have m2 : (file.rows.length - 1) % file.ntau.toNat = file.ntau.toNat - 2 := by
      obtain ⟨q, rfl⟩ := Nat.exists_eq_succ_of_ne_zero hq0
      rw [show file.rows.length - 1 = file.ntau.toNat - 2 + file.ntau.toNat * q by
        rw [Nat.succ_mul] at hq; rw [mul_comm]; omega, Nat.add_mul_mod_self_left, Nat.mod_eq_of_lt (by omega)]
    simp only at hx hy tx ty
    rw [List.getElem?_append_left (by omega), hr'] at hy
    cases hy
    rw [List.getElem?_append_right (le_refl _)] at hx
    simp only [Option.map_some, Option.getD_some, seen, Nat.sub_self, List.getElem?_cons_zero, Option.some.injEq] at hx
    rw [m1] at tx
    rw [m2] at ty
    rcases next_no_index (r := r) ht with e | e
    · rw [← hx] at tx
      simp only [GVars.row, e, Option.getD_some] at tx
      omega
    · rw [← hx] at tx
      simp only [GVars.row, e, Option.getD_some] at tx
      omega
  · exact read_head (by tauto) _

/-- What is read of a file whose last line stops after its four indices: the numbers of the line before. -/
theorem C92_stale (file : GFile) {l : List Tok} (hl : file.Writes l) {q : GRow} (hq : file.rows.getLast? = some q) (a b c d : ℤ)
    (β : ℝ) (F S : ℕ) (hs : file.size ≤ file.rows.length + 1) :
    (Green.readText (some (l ++ [.int a, .int b, .int c, .int d])) β F S : Res (Green K)) =
      Green.read (some ⟨file.nf, file.ns, file.ntau, file.beta, file.rows ++ [⟨a, b, c, d, q.re, q.im⟩]⟩) β F S := by
  obtain ⟨h, w, rfl, hh, hb⟩ := hl
  have hR : file.rows ≠ [] := by rintro e; rw [e] at hq; simp at hq
  have hn : GVars.next (GVars.of q) (some [.int a, .int b, .int c, .int d]) = (GVars.of ⟨a, b, c, d, q.re, q.im⟩, none) := rfl
  by_cases hm : file.nf = F ∧ file.ns = S
  · obtain ⟨rfl, rfl⟩ : F = file.nf.toNat ∧ S = file.ns.toNat := by omega
    by_cases hlt : file.size = file.rows.length + 1
    · rw [List.append_assoc, readText_eq file hh _ β _ _ [] (first_line hb hR _ _)]
      change Green.read (some ⟨file.nf, file.ns, file.ntau, file.beta, seen file.size _ _ ++ _⟩) _ _ _ = _
      rw [hlt, seen_rows hb, hq]
      simp [seen, hn]
    · rw [List.append_assoc, readText_eq file hh _ β _ _ (file.rows.drop file.size ++ [⟨a, b, c, d, q.re, q.im⟩])
        (first_line hb hR _ _)]
      change Green.read (some ⟨file.nf, file.ns, file.ntau, file.beta, seen file.size _ _ ++ _⟩) _ _ _ = _
      rw [seen_take hb (by omega), ← List.append_assoc, List.take_append_drop]
  · rw [List.append_assoc, readText_eq file hh _ β F S [] (first_line hb hR _ _), read_head (by tauto), read_head (by tauto)]

/-- The position of the last line determines its indices. -/
theorem last_position {F S T f s1 s2 t : ℕ} (h2 : s2 < S) (h1 : s1 < S) (ht : t < T)
    (e : ((f * S + s1) * S + s2) * T + t + 1 = F * (S * (S * T))) : t + 1 = T ∧ s2 + 1 = S ∧ s1 + 1 = S := by
  have a : t + 1 = T := by
    have : (t + 1) % T = 0 := by
      have := congrArg (· % T) e
      rw [show F * (S * (S * T)) = T * (F * (S * S)) by ring, Nat.mul_mod_right, Nat.add_assoc, Nat.add_comm,
        Nat.add_mul_mod_self_right] at this
      exact this
    rcases Nat.lt_or_ge (t + 1) T with h | h
    · rw [Nat.mod_eq_of_lt h] at this; omega
    · omega
  have hT : 0 < T := by omega
  have e2 : ((f * S + s1) * S + s2) + 1 = F * (S * S) := by
    have : (((f * S + s1) * S + s2) + 1) * T = F * (S * S) * T := by
      rw [Nat.add_mul, Nat.one_mul, show F * (S * S) * T = F * (S * (S * T)) by ring, ← e]
      omega
    exact Nat.eq_of_mul_eq_mul_right hT this
  have b : s2 + 1 = S := by
    have : (s2 + 1) % S = 0 := by
      have := congrArg (· % S) e2
      rw [show F * (S * S) = S * (F * S) by ring, Nat.mul_mod_right, Nat.add_assoc, Nat.add_comm,
        Nat.add_mul_mod_self_right] at this
      exact this
    rcases Nat.lt_or_ge (s2 + 1) S with h | h
    · rw [Nat.mod_eq_of_lt h] at this; omega
    · omega
  have hS : 0 < S := by omega
  have e1 : (f * S + s1) + 1 = F * S := by
    have : ((f * S + s1) + 1) * S = F * S * S := by
      rw [Nat.add_mul, Nat.one_mul, show F * S * S = F * (S * S) by ring, ← e2]
      omega
    exact Nat.eq_of_mul_eq_mul_right hS this
  have c : s1 + 1 = S := by
    have : (s1 + 1) % S = 0 := by
      have := congrArg (· % S) e1
      rw [Nat.mul_mod_left, Nat.add_assoc, Nat.add_comm, Nat.add_mul_mod_self_right] at this
      exact this
    rcases Nat.lt_or_ge (s1 + 1) S with h | h
    · rw [Nat.mod_eq_of_lt h] at this; omega
    · omega
  exact ⟨a, b, c⟩

/-- **C92 is violated.**  Whatever complete, ordered, Hermitian file is cut after the indices of its last line (so that the value
    at `β` for the last flavour and site is missing), it is accepted, and the value of the grid point before is taken for the
    missing one. -/
theorem C92_cut_violation (file : GFile) {l : List Tok} {r : GRow} {rows : List GRow} (hrows : file.rows = rows ++ [r])
    (hl : GFile.Writes ⟨file.nf, file.ns, file.ntau, file.beta, rows⟩ l) (β : ℝ) (F S : ℕ) (hβ : 0 < β) (hT : 3 ≤ file.ntau)
    (h1 : file.nf = F) (h2 : file.ns = S) (h3 : |file.beta - β| ≤ 1e-8) (h4 : file.Ordered)
    (h5 : ∀ f s1 s2 t : ℕ, f < F → s1 < S → s2 < S → (t : ℤ) < file.ntau →
      (file.value f s1 s2 t : K) = starRingEnd K (file.value f s2 s1 t)) (h6 : file.rows.length = file.size) :
    ∃ g : Green K, Green.readText (some (l ++ [.int r.f, .int r.i, .int r.j, .int r.t])) β F S = .ok g ∧
      g.interpolate (F - 1) (S - 1) (S - 1) β = .ok (file.value (F - 1) (S - 1) (S - 1) (file.ntau.toNat - 2)) := by
  obtain ⟨rfl, rfl⟩ : F = file.nf.toNat ∧ S = file.ns.toNat := by omega
  set F := file.nf.toNat with hF
  set S := file.ns.toNat with hS
  set T := file.ntau.toNat with hTT
  have hT' : 3 ≤ T := by omega
  have hlen : rows.length + 1 = F * (S * (S * T)) := by
    rw [← GFile.size.eq_1, ← h6, hrows]; simp
  have hF0 : 0 < F := by rcases Nat.eq_zero_or_pos F with e | e; (rw [e] at hlen; simp at hlen); exact e
  have hS0 : 0 < S := by rcases Nat.eq_zero_or_pos S with e | e; (rw [e] at hlen; simp at hlen); exact e
  have hbig : T ≤ rows.length + 1 := by
    rw [hlen, show F * (S * (S * T)) = F * S * S * T by ring]
    exact Nat.le_mul_of_pos_left _ (by positivity)
  have hR : rows ≠ [] := by rintro rfl; simp at hbig; omega
  obtain ⟨q, hq, hq'⟩ := last_of_ne hR
  have hstale := C92_stale (K := K) ⟨file.nf, file.ns, file.ntau, file.beta, rows⟩ hl hq r.f r.i r.j r.t β F S
    (by show F * (S * (S * T)) ≤ _; simp only; omega)
  set file' : GFile := ⟨file.nf, file.ns, file.ntau, file.beta, rows ++ [⟨r.f, r.i, r.j, r.t, q.re, q.im⟩]⟩ with hfile'
  -- the two files differ in the last line only
  have hline : ∀ f s1 s2 t : ℕ, ((f * S + s1) * S + s2) * T + t < rows.length → file'.line f s1 s2 t = file.line f s1 s2 t := by
    intro f s1 s2 t h
    simp only [GFile.line, hfile', hrows, ← hS, ← hTT]
    rw [List.getElem?_append_left h, List.getElem?_append_left h]
  have hpos : ∀ f s1 s2 t : ℕ, f < F → s1 < S → s2 < S → t < T → ((f * S + s1) * S + s2) * T + t ≤ rows.length := by
    intro f s1 s2 t hf a b c
    have x1 : f * S + s1 + 1 ≤ F * S := by nlinarith
    have x2 : (f * S + s1) * S + s2 + 1 ≤ F * S * S := by nlinarith
    have x3 : ((f * S + s1) * S + s2) * T + t + 1 ≤ F * S * S * T := by nlinarith
    rw [show F * S * S * T = F * (S * (S * T)) by ring, ← hlen] at x3
    omega
  have hlast : ∀ f s1 s2 t : ℕ, ((f * S + s1) * S + s2) * T + t = rows.length →
      file'.line f s1 s2 t = some ⟨r.f, r.i, r.j, r.t, q.re, q.im⟩ ∧ file.line f s1 s2 t = some r := by
    intro f s1 s2 t h
    simp only [GFile.line, hfile', hrows, ← hS, ← hTT, h]
    simp
  have hO : file'.Ordered := by
    intro f s1 s2 t hf a b c
    have hp := hpos f s1 s2 t (by rw [hF]; exact Int.lt_toNat.2 hf) (by rw [hS]; exact Int.lt_toNat.2 a)
      (by rw [hS]; exact Int.lt_toNat.2 b) (by rw [hTT]; exact Int.lt_toNat.2 c)
    obtain ⟨row, e, hrow⟩ := h4 f s1 s2 t hf a b c
    rcases Nat.lt_or_eq_of_le hp with h | h
    · exact ⟨row, by rw [hline _ _ _ _ h, e], hrow⟩
    · obtain ⟨e1, e2⟩ := hlast _ _ _ _ h
      rw [e] at e2
      cases e2
      exact ⟨_, e1, hrow⟩
  have hval : ∀ f s1 s2 t : ℕ, ((f * S + s1) * S + s2) * T + t < rows.length →
      (file'.value f s1 s2 t : K) = file.value f s1 s2 t := by
    intro f s1 s2 t h
    simp only [GFile.value, hline _ _ _ _ h]
  have hvlast : ∀ f s1 s2 t : ℕ, s1 < S → s2 < S → t < T → ((f * S + s1) * S + s2) * T + t = rows.length →
      (file'.value f s1 s2 t : K) = file.value f s1 s2 (T - 2) ∧ s1 = s2 ∧ t + 1 = T := by
    intro f s1 s2 t a b c h
    obtain ⟨x, y, z⟩ := last_position b a c (by rw [h, hlen])
    refine ⟨?_, by omega, x⟩
    have e1 := (hlast _ _ _ _ h).1
    have e2 : file.line f s1 s2 (T - 2) = some q := by
      simp only [GFile.line, hrows, ← hS, ← hTT]
      rw [show ((f * S + s1) * S + s2) * T + (T - 2) = rows.length - 1 by omega,
        List.getElem?_append_left (by omega)]
      exact hq'
    simp only [GFile.value, e1, e2]
  have hH : ∀ f s1 s2 t : ℕ, f < F → s1 < S → s2 < S → (t : ℤ) < file'.ntau →
      (file'.value f s1 s2 t : K) = starRingEnd K (file'.value f s2 s1 t) := by
    intro f s1 s2 t hf a b c
    have c' : t < T := by rw [hTT]; exact Int.lt_toNat.2 c
    rcases Nat.lt_or_eq_of_le (hpos f s1 s2 t hf a b c') with h | h
    · rcases Nat.lt_or_eq_of_le (hpos f s2 s1 t hf b a c') with h' | h'
      · rw [hval _ _ _ _ h, hval _ _ _ _ h']
        exact h5 f s1 s2 t hf a b c
      · obtain ⟨-, e, -⟩ := hvlast f s2 s1 t b a c' h'
        subst e
        omega
    · obtain ⟨e, e', -⟩ := hvlast f s1 s2 t a b c' h
      subst e'
      rw [e]
      exact h5 f s1 s1 (T - 2) hf a a (by omega)
  obtain ⟨g, hg⟩ := C56_accept (K := K) file' β F S hβ hT h1 h2 h3 hO hH
  refine ⟨g, hstale.trans hg, ?_⟩
  obtain ⟨-, -, -, -, G, hG⟩ := C56_read file' β F S g hg
  obtain ⟨g1, g2, -⟩ := hG (F - 1) (by omega) (S - 1) (by omega) (S - 1) (by omega)
  have hgrid : file'.grid β (T - 1) = β := by
    have e : ((T - 1 : ℕ) : ℝ) = (file'.ntau : ℝ) - 1 := by
      have : (file'.ntau : ℤ) = T := by show file.ntau = _; omega
      rw [this, Nat.cast_sub (by omega)]
      simp
    have hne : (file'.ntau : ℝ) - 1 ≠ 0 := by
      rw [← e]; exact_mod_cast (by omega : T - 1 ≠ 0)
    rw [GFile.grid, e]
    field_simp
  have := g2 (T - 1) (by show ((T - 1 : ℕ) : ℤ) < file.ntau; omega)
  rw [hgrid] at this
  rw [g1 β hβ.le (le_refl β), this]
  congr 1
  refine (hvlast (F - 1) (S - 1) (S - 1) (T - 1) (by omega) (by omega) (by omega) ?_).1
  have x1 : (F - 1) * S + (S - 1) + 1 = F * S := by
    have e : F - 1 + 1 = F := by omega
    have := Nat.add_mul (F - 1) 1 S
    rw [e, Nat.one_mul] at this
    omega
  have x2 : ((F - 1) * S + (S - 1)) * S + (S - 1) + 1 = F * S * S := by
    rw [← x1, Nat.add_mul _ 1, Nat.one_mul]; omega
  have x3 : (((F - 1) * S + (S - 1)) * S + (S - 1)) * T + (T - 1) + 1 = F * S * S * T := by
    rw [← x2, Nat.add_mul _ 1 T, Nat.one_mul]; omega
  rw [show F * S * S * T = F * (S * (S * T)) by ring, ← hlen] at x3
  omega

/-- **C92 is violated.**  An empty file, and one that ends within its first line of data, is undefined behaviour. -/
theorem C92_empty_violation (β : ℝ) (F S : ℕ) : (Green.readText (some []) β F S : Res (Green K)) = .ub := rfl

/-- See above. -/
theorem C92_first_line_violation (T : ℕ) (hT : 0 < T) (β : ℝ) :
    (Green.readText (some [.int 1, .int 1, .int T, .dec β, .int 0, .int 0]) β 1 1 : Res (Green K)) = .ub := by
  obtain ⟨m, rfl⟩ := Nat.exists_eq_succ_of_ne_zero hT.ne'
  unfold Green.readText
  simp only [Tok.into, Tok.asInt, Tok.asDbl, Res.val, Res.bind_ok]
  have hb : ¬ (|β - β| > 1e-8) := by rw [sub_self, abs_zero]; norm_num
  have hm : (1 : ℤ) ≤ ((m.succ : ℕ) : ℤ) := by push_cast; omega
  simp only [Nat.cast_one, ne_eq, not_true_eq_false, not_false_eq_true, Res.throwIf_false, Res.bind_ok, hb, Res.assert_true hm]
  simp only [List.range_one, Res.foldl_cons, Res.foldl_nil, Green.readPairT, Int.toNat_natCast]
  rw [List.range_succ_eq_map, Res.foldl_cons]
  simp [Green.readLineT, GVars.next, GVars.unset, Tok.into, Tok.asInt, Tok.asDbl, Res.val, Res.throwIf]

/-- A file with one flavour, one site and three grid points. -/
noncomputable def exText : GFile :=
  ⟨1, 1, 3, 1, [⟨0, 0, 0, 0, -1 / 2, 0⟩, ⟨0, 0, 0, 1, -1 / 4, 0⟩, ⟨0, 0, 0, 2, -1 / 2, 0⟩]⟩

theorem exText_row (k : ℤ) (x : ℝ) : GRow.Writes ⟨0, 0, 0, k, x, 0⟩ [.int 0, .int 0, .int 0, .int k, .dec x, .int 0] :=
  ⟨.dec x, .int 0, rfl, Or.inr (Or.inl ⟨x, rfl, rfl⟩), Or.inl ⟨0, rfl, by simp⟩, by simp⟩

theorem exText_head (rows : List GRow) : GFile.WritesHead ⟨1, 1, 3, 1, rows⟩ [.int 1, .int 1, .int 3, .dec 1] :=
  ⟨.dec 1, rfl, Or.inr (Or.inl ⟨1, rfl, rfl⟩), by simp⟩

/-- Non-vacuity of `C92_text`. -/
example : ∃ l : List Tok, l.length = 22 ∧ exText.Writes l ∧ 3 ≤ exText.ntau ∧ exText.rows ≠ [] ∧
    exText.size ≤ exText.rows.length :=
  ⟨_, rfl, ⟨_, _, rfl, exText_head _, _, rfl, .cons (exText_row 0 _) (.cons (exText_row 1 _) (.cons (exText_row 2 _) .nil))⟩,
    by norm_num [exText], by simp [exText], by simp [exText, GFile.size]⟩

/-- Non-vacuity of `C92_incomplete_partial` and `C92_index_partial`: the file ends within its second line. -/
example : ∃ (file : GFile) (l : List Tok), file.Writes l ∧ 3 ≤ file.ntau ∧ file.rows ≠ [] ∧ file.rows.length + 1 < file.size ∧
    (∀ (r : GRow) (w rest : List Tok), r.Writes w → [Tok.int 0, .int 0, .int 0] ≠ w ++ rest) ∧
    ∀ (a b c d : ℤ) (rest : List Tok), [Tok.int 0, .int 0, .int 0] ≠ .int a :: .int b :: .int c :: .int d :: rest :=
  ⟨⟨1, 1, 3, 1, [⟨0, 0, 0, 0, -1 / 2, 0⟩]⟩, _, ⟨_, _, rfl, exText_head _, _, rfl, .cons (exText_row 0 _) .nil⟩, by norm_num,
    by simp, by simp [GFile.size], by rintro r w rest ⟨a, b, rfl, -⟩; simp, by simp⟩

/-- Non-vacuity of `C92_cut_violation`: the value -1/2 at the end of the interval is cut off, -1/4 is taken. -/
example : ∃ (l : List Tok) (g : Green ℝ), Green.readText (some (l ++ [.int 0, .int 0, .int 0, .int 2])) 1 1 1 = .ok g ∧
    g.interpolate 0 0 0 1 = .ok (-1 / 4) := by
  have hl : GFile.Writes ⟨1, 1, 3, 1, [⟨0, 0, 0, 0, -1 / 2, 0⟩, ⟨0, 0, 0, 1, -1 / 4, 0⟩]⟩ _ :=
    ⟨_, _, rfl, exText_head _, _, rfl, .cons (exText_row 0 _) (.cons (exText_row 1 _) .nil)⟩
  obtain ⟨g, e, h⟩ := C92_cut_violation (K := ℝ) exText (r := ⟨0, 0, 0, 2, -1 / 2, 0⟩) rfl hl 1 1 1 (by norm_num)
    (by norm_num [exText]) rfl rfl (by norm_num [exText]) (by
      intro f s1 s2 t hf h1 h2 ht
      simp only [exText] at hf h1 h2 ht
      obtain ⟨rfl, rfl, rfl⟩ : f = 0 ∧ s1 = 0 ∧ s2 = 0 := by omega
      rcases (by omega : t = 0 ∨ t = 1 ∨ t = 2) with rfl | rfl | rfl <;> exact ⟨_, rfl, rfl, rfl, rfl, rfl⟩) (by
      intro f s1 s2 t hf h1 h2 _
      obtain ⟨rfl, rfl⟩ : s1 = 0 ∧ s2 = 0 := by omega
      simp) (by simp [exText, GFile.size])
  refine ⟨_, g, e, ?_⟩
  have hv : (exText.value 0 0 0 1 : ℝ) = -1 / 4 := by
    simp [GFile.value, GFile.line, exText]
  have h' : g.interpolate 0 0 0 1 = .ok (exText.value 0 0 0 1) := h
  rw [h', hv]

end CTInt
