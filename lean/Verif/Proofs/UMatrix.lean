import Verif.Spec.UMatrix
import Verif.Props.GreenRead
import Mathlib.Tactic.Ring
import Mathlib.Tactic.Linarith

set_option linter.all false

namespace CTInt

variable {K : Type} [RCLike K] [DecidableEq K]

/-! ### classification -/

theorem classify_eq (ns nf nz : ℕ) (l : List (UDef K)) :
    UTable.classify ns nf nz [] l = ⟨ns, nf, nz, l, l.filter (fun v => !v.d.isDensity), l.filter (fun v => v.d.isDensity),
      l.map (fun v => v.d.isDensity), l.map (fun v => v.d.isTrulyNonDensity)⟩ := by
  have key : ∀ (l : List (UDef K)) (a b : List (UDef K)) (c d : List Bool),
      l.foldl (fun (x : List (UDef K) × List (UDef K) × List Bool × List Bool) v =>
        if !v.d.isDensity then (x.1 ++ [v], x.2.1, x.2.2.1 ++ [v.d.isDensity], x.2.2.2 ++ [v.d.isTrulyNonDensity])
        else (x.1, x.2.1 ++ [v], x.2.2.1 ++ [v.d.isDensity], x.2.2.2 ++ [v.d.isTrulyNonDensity])) (a, b, c, d) =
      (a ++ l.filter (fun v => !v.d.isDensity), b ++ l.filter (fun v => v.d.isDensity),
        c ++ l.map (fun v => v.d.isDensity), d ++ l.map (fun v => v.d.isTrulyNonDensity)) := by
    intro l
    induction l with
    | nil => simp
    | cons v l ih =>
      intro a b c d
      rw [List.foldl_cons]
      cases h : v.d.isDensity
      · simp only [Bool.not_false, if_true]
        rw [ih]; simp [h]
      · simp only [Bool.not_true, Bool.false_eq_true, if_false]
        rw [ih]; simp [h]
  unfold UTable.classify
  rw [key]; simp

theorem isDensity_iff (d : VDef K) : d.isDensity = true ↔ DensityLike d := by
  simp [VDef.isDensity, DensityLike]

theorem isTruly_iff {K : Type} (d : VDef K) : d.isTrulyNonDensity = true ↔
    ∀ r < d.rank, d.sites.getD (2 * r) 0 ≠ d.sites.getD (2 * r + 1) 0 := by
  have key : ∀ (l : List ℕ) (p : ℕ → Bool) (b : Bool),
      l.foldl (fun flag r => flag && p r) b = true ↔ b = true ∧ ∀ r ∈ l, p r = true := by
    intro l p
    induction l with
    | nil => simp
    | cons a l ih => intro b; simp [ih, and_assoc]
  unfold VDef.isTrulyNonDensity
  rw [key]; simp

/-! ### the loops that read lists of indices -/

/-- The common form of `readSites` and `readFlavors`. -/
def readIx {S : Type} (rd : S → ℕ → ℕ × S) (bound n : ℕ) (s : S) (l : List ℕ) : Res (S × List ℕ) :=
  Res.foldl (fun (x : S × List ℕ) i => do
    let old ← Res.get x.2 i
    let (v, s) := rd x.1 old
    Res.throwIf (bound ≤ v) .runtimeError
    pure (s, x.2.set i v)) (s, l) (List.range n)

theorem readSites_eq {S : Type} (is : IStream S) (ns n : ℕ) (s : S) (l : List ℕ) :
    readSites is ns n s l = readIx is.size ns n s l := rfl

theorem readFlavors_eq {S : Type} (is : IStream S) (nf n : ℕ) (s : S) (l : List ℕ) :
    readFlavors is nf n s l = readIx is.uint nf n s l := rfl

theorem readIx_fine {S : Type} (rd : S → ℕ → ℕ × S) (bound : ℕ) (s : S) (l : List ℕ) :
    Green.Fine (readIx rd bound l.length s l) ∧
    ∀ x, readIx rd bound l.length s l = .ok x → x.2.length = l.length ∧ ∀ v ∈ x.2, v < bound := by
  have step : ∀ i < l.length, ∀ x : S × List ℕ, (x.2.length = l.length ∧ ∀ j < i, x.2.getD j 0 < bound) →
      Green.Fine (do
        let old ← Res.get x.2 i
        let (v, s) := rd x.1 old
        Res.throwIf (bound ≤ v) .runtimeError
        pure (s, x.2.set i v) : Res (S × List ℕ)) ∧
      ∀ x', (do
        let old ← Res.get x.2 i
        let (v, s) := rd x.1 old
        Res.throwIf (bound ≤ v) .runtimeError
        pure (s, x.2.set i v) : Res (S × List ℕ)) = .ok x' →
        x'.2.length = l.length ∧ ∀ j < i + 1, x'.2.getD j 0 < bound := by
    rintro i hi x ⟨hl, hx⟩
    rw [Res.get_of_lt (by omega : i < x.2.length)]
    simp only [Res.bind_ok]
    constructor
    · exact Green.Fine.throwIf.bind fun _ _ => Or.inl ⟨_, rfl⟩
    · intro x' hx'
      rw [Res.bind_eq_ok] at hx'
      obtain ⟨u, h1, h2⟩ := hx'
      rw [Res.throwIf_eq_ok] at h1
      have h2 := Res.ok.inj h2
      subst h2
      refine ⟨by simp [hl], fun j hj => ?_⟩
      by_cases hji : j = i
      · subst hji
        simp only [List.getD, List.getElem?_set_self (by omega : j < x.2.length), Option.getD_some]
        omega
      · have := hx j (by omega)
        simpa [List.getD, List.getElem?_set_ne (Ne.symm hji)] using this
  refine ⟨Green.Fine.loop (fun i (x : S × List ℕ) => x.2.length = l.length ∧ ∀ j < i, x.2.getD j 0 < bound) l.length
    (s, l) ⟨rfl, by simp⟩ step, ?_⟩
  intro x hx
  have := Res.foldl_range_post (fun i (x : S × List ℕ) => x.2.length = l.length ∧ ∀ j < i, x.2.getD j 0 < bound)
    l.length (s, l) x ⟨rfl, by simp⟩ (fun i hi a b ha hb => (step i hi a ha).2 b hb) hx
  refine ⟨this.1, fun v hv => ?_⟩
  obtain ⟨j, hj, rfl⟩ := List.getElem_of_mem hv
  have := this.2 j (by omega)
  simpa [List.getD, hj] using this

theorem resizeL_length (l : List ℕ) (n : ℕ) : (resizeL l n).length = n := by
  simp [resizeL]; omega

/-! ### one entry of the file, any stream -/

variable {S : Type} (is : IStream S)

theorem loadEntry_fine (dbg : Bool) (cast : ℂ → K) (ns nf idx junk : ℕ) (v : LoadVars S) :
    (dbg = false → Green.Fine (loadEntry is dbg cast ns nf idx junk v)) ∧
    ∀ x, loadEntry is dbg cast ns nf idx junk v = .ok x → x.2.id = idx ∧ GoodDef ns nf x.2.d := by
  obtain ⟨fs, fu, fi, fd, fc⟩ := is
  simp only [loadEntry, readSites_eq, readFlavors_eq]
  rcases fs v.s junk with ⟨itmp, s0⟩
  rcases fs s0 v.rank with ⟨rank, s1⟩
  rcases fs s1 v.numAf with ⟨naf, s2⟩
  rcases fc s2 v.U with ⟨U, s3⟩
  have hs := readIx_fine fs ns s3 (resizeL v.sites (2 * rank))
  rw [resizeL_length] at hs
  constructor
  · intro hd
    subst hd
    simp only [Bool.false_eq_true, false_imp_iff, Res.assert_true, Res.bind_ok]
    refine hs.1.bind fun x hx => ?_
    obtain ⟨sl, sm⟩ := hs.2 x hx
    have hf := readIx_fine fu nf x.1 (resizeL v.flavors rank)
    rw [resizeL_length] at hf
    refine hf.1.bind fun y hy => ?_
    obtain ⟨fl, fm⟩ := hf.2 y hy
    simp only [UDef.create, sl, fl, Res.assert_true, Res.bind_ok]
    exact Or.inl ⟨_, rfl⟩
  · intro z hz
    simp only [Res.bind_eq_ok, Res.assert_eq_ok] at hz
    obtain ⟨_, _, _, _, x, hx, y, hy, d, hd, hz⟩ := hz
    obtain ⟨sl, sm⟩ := hs.2 x hx
    have hf := readIx_fine fu nf x.1 (resizeL v.flavors rank)
    rw [resizeL_length] at hf
    obtain ⟨fl, fm⟩ := hf.2 y hy
    simp only [UDef.create, sl, fl, Res.assert_true, Res.bind_ok] at hd
    have hd := Res.ok.inj hd
    have hz := Res.ok.inj hz
    subst hz hd
    exact ⟨rfl, fl, sl, fm, sm⟩

/-! ### text streams -/

theorem tok_size (n : ℕ) (l : List Tok) (old : ℕ) : Tok.stream.size (some (.int n :: l)) old = (n, some l) := by
  simp [Tok.stream, Tok.extract]

theorem tok_uint (n : ℕ) (l : List Tok) (old : ℕ) : Tok.stream.uint (some (.int n :: l)) old = (n, some l) := by
  simp [Tok.stream, Tok.extract]

theorem tok_int (z : ℤ) (l : List Tok) (old : ℤ) : Tok.stream.int (some (.int z :: l)) old = (z, some l) := by
  simp [Tok.stream, Tok.extract]

theorem tok_cplx {t : Tok} {z : ℂ} (h : t.Spells z) (l : List Tok) (old : ℂ) :
    Tok.stream.cplx (some (t :: l)) old = (z, some l) := by
  rcases h with ⟨n, rfl, rfl⟩ | ⟨x, rfl, rfl⟩ | rfl <;> simp [Tok.stream, Tok.extract]

theorem spells_cplx (z : ℂ) : (Tok.cplx z).Spells z := Or.inr (Or.inr rfl)

theorem tok_dbl (x : ℝ) (l : List Tok) (old : ℝ) : Tok.stream.dbl (some (.dec x :: l)) old = (x, some l) := by
  simp [Tok.stream, Tok.extract]

theorem tok_dbl_spelled {t : Tok} {x : ℝ} (h : t.Spells x) (hc : ∀ z, t ≠ .cplx z) (l : List Tok) (old : ℝ) :
    Tok.stream.dbl (some (t :: l)) old = (x, some l) := by
  rcases h with ⟨n, rfl, e⟩ | ⟨y, rfl, e⟩ | h
  · have : x = n := by exact_mod_cast e
    subst this; simp [Tok.stream, Tok.extract]
  · have : x = y := by exact_mod_cast e
    subst this; simp [Tok.stream, Tok.extract]
  · exact absurd h (hc _)

theorem readIx_text {rd : TokS → ℕ → ℕ × TokS} (hrd : ∀ (n : ℕ) l old, rd (some (.int n :: l)) old = (n, some l))
    (bound : ℕ) (rest : List Tok) (vs l : List ℕ) (hl : l.length = vs.length) :
    readIx rd bound vs.length (some (vs.map (fun s => .int (s : ℤ)) ++ rest)) l =
      if ∀ v ∈ vs, v < bound then .ok (some rest, vs) else .throw .runtimeError := by
  have key : ∀ (vs : List ℕ) (k : ℕ) (l : List ℕ), l.length = k + vs.length →
      Res.foldl (fun (x : TokS × List ℕ) i => do
        let old ← Res.get x.2 i
        let (v, s) := rd x.1 old
        Res.throwIf (bound ≤ v) .runtimeError
        pure (s, x.2.set i v)) (some (vs.map (fun s => .int (s : ℤ)) ++ rest), l) (List.range' k vs.length) =
      if ∀ v ∈ vs, v < bound then .ok (some rest, l.take k ++ vs) else .throw .runtimeError := by
    intro vs
    induction vs with
    | nil => intro k l hl; simp at hl; simp [← hl]
    | cons v vs ih =>
      intro k l hl
      simp only [List.length_cons] at hl
      rw [List.length_cons, List.range'_succ, Res.foldl_cons, Res.get_of_lt (by omega : k < l.length)]
      simp only [Res.bind_ok, List.map_cons, List.cons_append, hrd]
      by_cases h : v < bound
      · rw [Res.throwIf_false (by omega), Res.bind_ok, Res.pure_eq, Res.bind_ok,
          ih (k + 1) (l.set k v) (by simp; omega)]
        have : (l.set k v).take (k + 1) = l.take k ++ [v] := by
          rw [List.take_add_one, List.take_set_of_le (le_refl k)]
          simp [(by omega : k < l.length)]
        simp [h, this]
      · rw [Res.throwIf_true (by omega)]
        simp [h]
  have := key vs 0 l (by omega)
  rw [← List.range_eq_range'] at this
  simpa [readIx] using this

theorem readAlpha_text {sp : ℂ → Tok} (hsp : ∀ z, (sp z).Spells z) (rank naf : ℕ) (f : ℕ → ℕ → ℂ) (rest : List Tok) (al : ℕ → ℕ → ℂ) :
    ∃ al', readAlpha Tok.stream rank naf
      (some ((List.range rank).flatMap (fun r => (List.range naf).map fun a => sp (f a r)) ++ rest)) al =
        (some rest, al') ∧ ∀ a < naf, ∀ r < rank, al' a r = f a r := by
  have inner : ∀ (m : ℕ) (r : ℕ) (rest : List Tok) (al : ℕ → ℕ → ℂ),
      ∃ al', (List.range m).foldl (fun (x : TokS × (ℕ → ℕ → ℂ)) a =>
        let (v, s) := Tok.stream.cplx x.1 (x.2 a r)
        (s, fun i j => if i = a ∧ j = r then v else x.2 i j))
        (some ((List.range m).map (fun a => sp (f a r)) ++ rest), al) = (some rest, al') ∧
        (∀ a < m, al' a r = f a r) ∧ ∀ a r', r' ≠ r → al' a r' = al a r' := by
    intro m r
    induction m with
    | zero => intro rest al; exact ⟨al, by simp, by simp, by simp⟩
    | succ m ih =>
      intro rest al
      obtain ⟨al1, e, h1, h2⟩ := ih (sp (f m r) :: rest) al
      rw [List.range_succ, List.foldl_append, List.map_append, List.append_assoc]
      simp only [List.map_cons, List.map_nil, List.cons_append, List.nil_append]
      rw [e]
      simp only [List.foldl_cons, List.foldl_nil, tok_cplx (hsp _)]
      refine ⟨_, rfl, ?_, ?_⟩
      · intro a ha
        by_cases h : a = m
        · subst h; simp
        · simp only [h, false_and, if_false]; exact h1 a (by omega)
      · intro a r' hr
        simp only [hr, and_false, if_false]; exact h2 a r' hr
  induction rank generalizing rest with
  | zero => exact ⟨al, by simp [readAlpha], by simp⟩
  | succ n ih =>
    obtain ⟨al1, e, h1⟩ := ih ((List.range naf).map (fun a => sp (f a n)) ++ rest)
    obtain ⟨al2, e2, h2, h3⟩ := inner naf n rest al1
    refine ⟨al2, ?_, ?_⟩
    · unfold readAlpha at e ⊢
      rw [List.range_succ, List.foldl_append, List.flatMap_append, List.append_assoc]
      simp only [List.flatMap_cons, List.flatMap_nil, List.append_nil]
      rw [e]
      simpa using e2
    · intro a ha r hr
      by_cases h : r = n
      · subst h; exact h2 a ha
      · rw [h3 a r h]; exact h1 a ha r (by omega)

/-- One well-formed entry. -/
theorem loadEntry_text {sp : ℂ → Tok} (hsp : ∀ z, (sp z).Spells z) (dbg : Bool) (cast : ℂ → K) (ns nf idx junk : ℕ) (e : Entry) (he : e.Shape)
    (hd : dbg = true → e.rank = 2) (rest : List Tok) (v : LoadVars TokS) (hv : v.s = some (e.text idx sp ++ rest)) :
    (e.InRange ns nf → ∃ v' d, loadEntry Tok.stream dbg cast ns nf idx junk v = .ok (v', d) ∧ v'.s = some rest ∧
      v'.rank = e.rank ∧ v'.numAf = e.numAf ∧ v'.U = e.U ∧ v'.sites = e.sites ∧ v'.flavors = e.flavors ∧
      v'.shape = (e.numAf, e.rank) ∧ (∀ a < e.numAf, ∀ r < e.rank, v'.al a r = e.alpha a r) ∧
      d.id = idx ∧ SaysSame cast e d.d) ∧
    (¬ e.InRange ns nf → loadEntry Tok.stream dbg cast ns nf idx junk v = .throw .runtimeError) := by
  obtain ⟨al, ea, ha⟩ := readAlpha_text hsp e.rank e.numAf e.alpha rest (resizeA v.shape (e.numAf, e.rank) v.al)
  have h1 := readIx_text (rd := Tok.stream.size) tok_size ns
    (e.flavors.map (fun f => .int (f : ℤ)) ++ ((List.range e.rank).flatMap (fun r => (List.range e.numAf).map
      fun a => sp (e.alpha a r)) ++ rest)) e.sites (resizeL v.sites (2 * e.rank))
      (by rw [resizeL_length, he.si])
  have h2 := readIx_text (rd := Tok.stream.uint) tok_uint nf
    ((List.range e.rank).flatMap (fun r => (List.range e.numAf).map
      fun a => sp (e.alpha a r)) ++ rest) e.flavors (resizeL v.flavors e.rank)
      (by rw [resizeL_length, he.fl])
  rw [he.si] at h1
  rw [he.fl] at h2
  unfold loadEntry
  simp only [hv, Entry.text, List.cons_append, List.nil_append, List.append_assoc, tok_size, tok_cplx (hsp _),
    readSites_eq, readFlavors_eq, imp_true_iff, Res.assert_true, Res.bind_ok]
  rw [Res.assert_true hd, Res.bind_ok, h1]
  constructor
  · intro hr
    rw [if_pos hr.site]
    simp only [Res.bind_ok]
    rw [h2, if_pos hr.flavor]
    simp only [Res.bind_ok, ea, UDef.create, he.si, he.fl, Res.assert_true, Res.pure_eq]
    refine ⟨_, _, rfl, rfl, rfl, rfl, rfl, rfl, rfl, rfl, ha, rfl, rfl, rfl, rfl, rfl, rfl, ?_⟩
    intro a ha' r hr'
    simp only [ha', hr', and_self, if_true, ha a ha' r hr']
  · intro hr
    by_cases hs : ∀ v ∈ e.sites, v < ns
    · rw [if_pos hs]
      simp only [Res.bind_ok]
      rw [h2, if_neg fun hf => hr ⟨hs, hf⟩]
      rfl
    · rw [if_neg hs]; rfl

/-- Well-formed entries, one after the other. -/
theorem load_text {sp : ℂ → Tok} (hsp : ∀ z, (sp z).Spells z) (dbg : Bool) (cast : ℂ → K) (ns nf : ℕ) (junk : ℕ → ℕ) (es : List Entry) (hs : ∀ e ∈ es, e.Shape)
    (hd : dbg = true → ∀ e ∈ es, e.rank = 2) (rest : List Tok) (k : ℕ) (v : LoadVars TokS) (acc : List (UDef K))
    (hv : v.s = some (entriesText k es sp ++ rest)) :
    ((∀ e ∈ es, e.InRange ns nf) → ∃ v' ds, Res.foldl (fun (x : LoadVars TokS × List (UDef K)) idx => do
        let (v, d) ← loadEntry Tok.stream dbg cast ns nf idx (junk (3 + idx)) x.1
        pure (v, x.2 ++ [d])) (v, acc) (List.range' k es.length) = .ok (v', acc ++ ds) ∧ v'.s = some rest ∧
      ds.length = es.length ∧ ∀ i e, es[i]? = some e → ∃ d, ds[i]? = some d ∧ d.id = k + i ∧ SaysSame cast e d.d) ∧
    (¬ (∀ e ∈ es, e.InRange ns nf) → Res.foldl (fun (x : LoadVars TokS × List (UDef K)) idx => do
        let (v, d) ← loadEntry Tok.stream dbg cast ns nf idx (junk (3 + idx)) x.1
        pure (v, x.2 ++ [d])) (v, acc) (List.range' k es.length) = .throw .runtimeError) := by
  induction es generalizing k v acc with
  | nil => exact ⟨fun _ => ⟨v, [], by simp, by simpa [entriesText] using hv, rfl, by simp⟩, by simp⟩
  | cons e es ih =>
    rw [entriesText, List.append_assoc] at hv
    obtain ⟨ho, ht⟩ := loadEntry_text hsp dbg cast ns nf k (junk (3 + k)) e (hs e (by simp))
      (fun h => hd h e (by simp)) (entriesText (k + 1) es sp ++ rest) v hv
    rw [List.length_cons, List.range'_succ]
    simp only [Res.foldl_cons]
    by_cases hr : e.InRange ns nf
    · obtain ⟨v1, d, e1, hv1, -, -, -, -, -, -, -, hid, hd1⟩ := ho hr
      rw [e1]
      simp only [Res.bind_ok, Res.pure_eq]
      obtain ⟨io, it⟩ := ih (fun e he => hs e (by simp [he])) (fun h e he => hd h e (by simp [he])) (k + 1) v1
        (acc ++ [d]) hv1
      constructor
      · intro h
        obtain ⟨v', ds, e2, h2, h3, h4⟩ := io fun e he => h e (by simp [he])
        refine ⟨v', d :: ds, e2.trans (by simp), h2, by simp [h3], ?_⟩
        rintro (_ | i) e' he'
        · simp only [List.getElem?_cons_zero, Option.some.injEq] at he' ⊢
          subst he'
          exact ⟨d, rfl, hid, hd1⟩
        · rw [List.getElem?_cons_succ] at he'
          obtain ⟨d', h5, h6, h7⟩ := h4 i e' he'
          exact ⟨d', by simpa using h5, by rw [h6]; omega, h7⟩
      · intro h
        refine it fun h' => h ?_
        intro e' he'
        rcases List.mem_cons.1 he' with rfl | he'
        · exact hr
        · exact h' e' he'
    · rw [ht hr]
      exact ⟨fun h => absurd (h e (by simp)) hr, fun _ => rfl⟩

end CTInt
