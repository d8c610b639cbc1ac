import Verif.Proofs.UMatrix
import Verif.Spec.Config
import Mathlib.Tactic.NormNum
import Mathlib.Tactic.Positivity
import Mathlib.Tactic.FieldSimp
import Mathlib.Tactic.IntervalCases
import Mathlib.Tactic.LinearCombination

/-!
# C28, C29, C30, C31, C59: interaction tables and configuration files
-/

set_option linter.all false

namespace CTInt

variable {K : Type} [RCLike K] [DecidableEq K]

/-! ### C28 -/

/-- The on-site term of physical site `s`: two operator pairs, one per spin. -/
structure OnsiteTerm (U δ : K) (s : ℕ) (sites flavors : List ℕ) (v : UDef K) : Prop where
  id : v.id = s
  rank : v.d.rank = 2
  numAf : v.d.numAf = 2
  U : v.d.U = U
  sites : v.d.sites = sites
  flavors : v.d.flavors = flavors
  up : v.d.alpha 0 0 = 1 + δ ∧ v.d.alpha 0 1 = -δ
  down : v.d.alpha 1 0 = v.d.alpha 0 1 ∧ v.d.alpha 1 1 = v.d.alpha 0 0

theorem onsite_list (nf n : ℕ) (U δ : K) :
    ∃ l, Res.foldl (fun l site => do
        let v ← onsiteVertex nf U δ site
        pure (l ++ [v])) [] (List.range n) = .ok l ∧ l.length = n ∧
      ∀ s < n, ∀ v, l[s]? = some v →
        (nf = 1 → OnsiteTerm U δ s [2 * s, 2 * s, 2 * s + 1, 2 * s + 1] [0, 0] v) ∧
        (nf ≠ 1 → OnsiteTerm U δ s [s, s, s, s] [0, 1] v) := by
  refine Res.foldl_range_inv (fun n (l : List (UDef K)) => l.length = n ∧ ∀ s < n, ∀ v, l[s]? = some v →
        (nf = 1 → OnsiteTerm U δ s [2 * s, 2 * s, 2 * s + 1, 2 * s + 1] [0, 0] v) ∧
        (nf ≠ 1 → OnsiteTerm U δ s [s, s, s, s] [0, 1] v)) n [] ⟨rfl, by simp⟩ ?_
  rintro i hi l ⟨hl, h⟩
  have hv : ∃ v, onsiteVertex nf U δ i = .ok v ∧
        (nf = 1 → OnsiteTerm U δ i [2 * i, 2 * i, 2 * i + 1, 2 * i + 1] [0, 0] v) ∧
        (nf ≠ 1 → OnsiteTerm U δ i [i, i, i, i] [0, 1] v) := by
    unfold onsiteVertex
    by_cases h1 : nf = 1
    · rw [if_pos h1]
      exact ⟨_, by simp [UDef.create]; rfl, fun _ => ⟨rfl, rfl, rfl, rfl, rfl, rfl, ⟨rfl, rfl⟩, ⟨rfl, rfl⟩⟩, fun h => absurd h1 h⟩
    · rw [if_neg h1]
      exact ⟨_, by simp [UDef.create]; rfl, fun h => absurd h h1, fun _ => ⟨rfl, rfl, rfl, rfl, rfl, rfl, ⟨rfl, rfl⟩, ⟨rfl, rfl⟩⟩⟩
  obtain ⟨v, ev, hv⟩ := hv
  refine ⟨l ++ [v], by rw [ev]; rfl, by simp [hl], ?_⟩
  intro s hs w hw
  by_cases hsi : s < i
  · rw [List.getElem?_append_left (by omega)] at hw
    exact h s hsi w hw
  · obtain rfl : s = i := by omega
    rw [List.getElem?_append_right (by omega), hl] at hw
    simp at hw
    subst hw
    exact hv

/-- **C28**, two flavors: one term per site, in order, coupling the two flavors on that site. -/
theorem C28_two_flavors (ns : ℕ) (U δ : K) :
    ∃ t, UTable.onsite ns 2 U δ = .ok t ∧ t.list.length = ns ∧ t.ns = ns ∧ t.nf = 2 ∧
      (∀ s < ns, ∃ v, t.list[s]? = some v ∧ OnsiteTerm U δ s [s, s, s, s] [0, 1] v) ∧
      t.dens = t.list ∧ t.nonDens = [] := by
  obtain ⟨l, el, hl, h⟩ := onsite_list 2 ns U δ
  have hh : ∀ s < ns, ∃ v, l[s]? = some v ∧ OnsiteTerm U δ s [s, s, s, s] [0, 1] v := fun s hs =>
    ⟨l[s], by simp, (h s hs l[s] (by simp)).2 (by norm_num)⟩
  have hd : ∀ v ∈ l, v.d.isDensity = true := by
    intro v hv
    obtain ⟨s, hs, rfl⟩ := List.getElem_of_mem hv
    obtain ⟨v, e, hv⟩ := hh s (by omega)
    rw [List.getElem?_eq_getElem hs] at e
    cases e
    rw [isDensity_iff]
    intro r hr
    rw [hv.rank] at hr
    rw [hv.sites]
    interval_cases r <;> rfl
  refine ⟨UTable.classify ns 2 ns [] l, ?_, ?_⟩
  · simp only [UTable.onsite]
    rw [Res.throwIf_false (by norm_num), Res.bind_ok, if_pos trivial, el]; rfl
  · rw [classify_eq]
    refine ⟨hl, rfl, rfl, hh, by simpa using hd, ?_⟩
    simp only [List.filter_eq_nil_iff]
    intro v hv; simp [hd v hv]

/-- **C28**, one flavor: the two spins of physical site `s` are the sites `2s` and `2s+1`. -/
theorem C28_one_flavor (ns : ℕ) (U δ : K) :
    ∃ t, UTable.onsite ns 1 U δ = .ok t ∧ t.list.length = ns / 2 ∧ t.ns = ns ∧ t.nf = 1 ∧
      (∀ s < ns / 2, ∃ v, t.list[s]? = some v ∧
        OnsiteTerm U δ s [2 * s, 2 * s, 2 * s + 1, 2 * s + 1] [0, 0] v ∧ 2 * s + 1 < ns) ∧
      t.dens = t.list ∧ t.nonDens = [] := by
  obtain ⟨l, el, hl, h⟩ := onsite_list 1 (ns / 2) U δ
  have hh : ∀ s < ns / 2, ∃ v, l[s]? = some v ∧
      OnsiteTerm U δ s [2 * s, 2 * s, 2 * s + 1, 2 * s + 1] [0, 0] v := fun s hs =>
    ⟨l[s], by simp, (h s hs l[s] (by simp)).1 rfl⟩
  have hd : ∀ v ∈ l, v.d.isDensity = true := by
    intro v hv
    obtain ⟨s, hs, rfl⟩ := List.getElem_of_mem hv
    obtain ⟨v, e, hv⟩ := hh s (by omega)
    rw [List.getElem?_eq_getElem hs] at e
    cases e
    rw [isDensity_iff]
    intro r hr
    rw [hv.rank] at hr
    rw [hv.sites]
    interval_cases r <;> rfl
  refine ⟨UTable.classify ns 1 ns [] l, ?_, ?_⟩
  · simp only [UTable.onsite]
    rw [Res.throwIf_false (by norm_num), Res.bind_ok, if_neg (by norm_num), el]; rfl
  · rw [classify_eq]
    refine ⟨hl, rfl, rfl, fun s hs => ?_, by simpa using hd, ?_⟩
    · obtain ⟨v, e, hv⟩ := hh s hs
      exact ⟨v, e, hv, by omega⟩
    simp only [List.filter_eq_nil_iff]
    intro v hv; simp [hd v hv]

/-- **C28**: any other number of flavors is refused. -/
theorem C28_refused (ns nf : ℕ) (U δ : K) (h1 : nf ≠ 1) (h2 : nf ≠ 2) :
    UTable.onsite ns nf U δ = .throw .runtimeError := by
  simp only [UTable.onsite]
  rw [Res.throwIf_true ⟨h1, h2⟩]; rfl

/-- **C28**, what the fields are for: averaged over the two auxiliary states the term is the Hubbard interaction
    about half filling, up to a constant. -/
theorem C28_decoupling (U δ : K) {s : ℕ} {si fl : List ℕ} {v : UDef K} (h : OnsiteTerm U δ s si fl v) (x y : K) :
    (∑ a ∈ Finset.range v.d.numAf, v.d.U * (x - v.d.alpha a 0) * (y - v.d.alpha a 1)) / v.d.numAf =
      U * ((x - 1 / 2) * (y - 1 / 2) - (δ + 1 / 2) ^ 2) := by
  rw [h.numAf, h.U, Finset.sum_range_succ, Finset.sum_range_one, h.down.1, h.down.2, h.up.1, h.up.2]
  push_cast
  ring

/-- The table fits the updates: with U ≠ 0 and an admissible shift it satisfies the demands made on interaction
    tables by the theorems on the walker. -/
theorem onsite_usable (NI : K) (ns nf : ℕ) (U δ : K) (hU : U ≠ 0) (h0 : δ ≠ 0) (h1 : δ ≠ -1) (hn : 1 + δ ≠ NI)
    (hn' : -δ ≠ NI) (t : UTable K) (ht : UTable.onsite ns nf U δ = .ok t) :
    TblOK NI nf (t.list.map (·.d)) ∧ ∀ d ∈ t.list.map (·.d), GoodDef ns nf d := by
  have hg : ∀ s si fl (v : UDef K), OnsiteTerm U δ s si fl v → ∀ a < 2, ∀ r < 2, GoodAlpha NI (v.d.alpha a r) := by
    intro s si fl v hv a ha r hr
    have ga : GoodAlpha NI (1 + δ) := ⟨hn, fun h => h1 (by linear_combination h), fun h => h0 (by linear_combination h)⟩
    have gb : GoodAlpha NI (-δ) := ⟨hn', by simpa using h0, fun h => h1 (by linear_combination -h)⟩
    have e1 := hv.up; have e2 := hv.down
    rw [e1.1, e1.2] at e2
    interval_cases a <;> interval_cases r <;> simp only [e1.1, e1.2, e2.1, e2.2] <;> assumption
  by_cases c2 : nf = 2
  · subst c2
    obtain ⟨t', e, hl, -, -, h, -⟩ := C28_two_flavors ns U δ
    obtain rfl : t' = t := Res.ok.inj (e.symm.trans ht)
    have hh : ∀ d ∈ t'.list.map (·.d), ∃ s < ns, ∃ v : UDef K, v.d = d ∧ OnsiteTerm U δ s [s, s, s, s] [0, 1] v := by
      intro d hd
      obtain ⟨v, hv, rfl⟩ := List.mem_map.1 hd
      obtain ⟨s, hs, rfl⟩ := List.getElem_of_mem hv
      obtain ⟨v, e, hv⟩ := h s (by omega)
      rw [List.getElem?_eq_getElem hs] at e
      cases e
      exact ⟨s, by omega, _, rfl, hv⟩
    constructor
    · constructor
      all_goals intro d hd; obtain ⟨s, hs, v, rfl, hv⟩ := hh d hd
      · rw [hv.flavors, hv.rank]; rfl
      · rw [hv.sites, hv.rank]; rfl
      · rw [hv.flavors]; simp
      · rw [hv.U]; exact hU
      · rw [hv.numAf, hv.rank]; exact hg _ _ _ _ hv
    · intro d hd
      obtain ⟨s, hs, v, rfl, hv⟩ := hh d hd
      refine ⟨?_, ?_, ?_, ?_⟩
      · rw [hv.flavors, hv.rank]; rfl
      · rw [hv.sites, hv.rank]; rfl
      · rw [hv.flavors]; simp
      · rw [hv.sites]; simpa using hs
  by_cases c1 : nf = 1
  · subst c1
    obtain ⟨t', e, hl, -, -, h, -⟩ := C28_one_flavor ns U δ
    obtain rfl : t' = t := Res.ok.inj (e.symm.trans ht)
    have hh : ∀ d ∈ t'.list.map (·.d), ∃ s, 2 * s + 1 < ns ∧ ∃ v : UDef K, v.d = d ∧
        OnsiteTerm U δ s [2 * s, 2 * s, 2 * s + 1, 2 * s + 1] [0, 0] v := by
      intro d hd
      obtain ⟨v, hv, rfl⟩ := List.mem_map.1 hd
      obtain ⟨s, hs, rfl⟩ := List.getElem_of_mem hv
      obtain ⟨v, e, hv, hb⟩ := h s (by omega)
      rw [List.getElem?_eq_getElem hs] at e
      cases e
      exact ⟨s, hb, _, rfl, hv⟩
    constructor
    · constructor
      all_goals intro d hd; obtain ⟨s, hs, v, rfl, hv⟩ := hh d hd
      · rw [hv.flavors, hv.rank]; rfl
      · rw [hv.sites, hv.rank]; rfl
      · rw [hv.flavors]; simp
      · rw [hv.U]; exact hU
      · rw [hv.numAf, hv.rank]; exact hg _ _ _ _ hv
    · intro d hd
      obtain ⟨s, hs, v, rfl, hv⟩ := hh d hd
      refine ⟨?_, ?_, ?_, ?_⟩
      · rw [hv.flavors, hv.rank]; rfl
      · rw [hv.sites, hv.rank]; rfl
      · rw [hv.flavors]; simp
      · rw [hv.sites]; simp; omega
  · rw [C28_refused ns nf U δ c1 c2] at ht; cases ht

/-- Non-vacuity: the shift used by the code, and a table with three sites. -/
example : ∃ t, UTable.onsite (K := ℝ) 3 2 4 (1 / 100) = .ok t ∧ t.list.length = 3 ∧
    TblOK (1000000 : ℝ) 2 (t.list.map (·.d)) := by
  obtain ⟨t, e, h, -⟩ := C28_two_flavors (K := ℝ) 3 4 (1 / 100)
  exact ⟨t, e, h, (onsite_usable _ 3 2 4 (1 / 100) (by norm_num) (by norm_num) (by norm_num) (by norm_num)
    (by norm_num) t e).1⟩

/-! ### C29 -/

variable {S : Type} (is : IStream S)

/-- **C29**: whatever the file contains, a table that comes out of the reader has all indices in range, is numbered
    consecutively, and every term is listed as exactly one of density and non-density type, in file order. -/
theorem C29_in_range (dbg : Bool) (cast : ℂ → K) (ns nf : ℕ) (isOpen : Bool) (s : S) (junk : ℕ → ℕ) (t : UTable K)
    (h : UTable.load is dbg cast ns nf isOpen s junk = .ok t) :
    isOpen = true ∧ t.ns = ns ∧ t.nf = nf ∧ t.list.length = (is.uint s (junk 0)).1 ∧
    (∀ (i : ℕ) (v : UDef K), t.list[i]? = some v → v.id = i ∧ GoodDef ns nf v.d) ∧
    (∀ (i : ℕ) (v : UDef K), t.list[i]? = some v →
      (DensityLike v.d → v ∈ t.dens ∧ v ∉ t.nonDens ∧ t.isDens[i]? = some true) ∧
      (¬ DensityLike v.d → v ∉ t.dens ∧ v ∈ t.nonDens ∧ t.isDens[i]? = some false)) ∧
    (∀ v, v ∈ t.dens ∨ v ∈ t.nonDens → v ∈ t.list) ∧
    t.dens.length + t.nonDens.length = t.list.length ∧
    (t.dens.map (·.id)).Pairwise (· < ·) ∧ (t.nonDens.map (·.id)).Pairwise (· < ·) := by
  unfold UTable.load at h
  rw [Res.bind_eq_ok] at h
  obtain ⟨u, hu, h⟩ := h
  rw [Res.throwIf_eq_ok] at hu
  rcases hn : is.uint s (junk 0) with ⟨n, s1⟩
  simp only [hn] at h
  rw [Res.bind_eq_ok] at h
  obtain ⟨⟨v, l⟩, hl, h⟩ := h
  have h := Res.ok.inj h
  rw [classify_eq] at h
  subst h
  have hpost := Res.foldl_range_post (fun n (x : LoadVars S × List (UDef K)) => x.2.length = n ∧
    ∀ (i : ℕ) (v : UDef K), x.2[i]? = some v → v.id = i ∧ GoodDef ns nf v.d) n _ _ ⟨rfl, by simp⟩
    (by
      rintro i hi ⟨v1, l1⟩ ⟨v2, l2⟩ ⟨h1, h2⟩ hs
      rw [Res.bind_eq_ok] at hs
      obtain ⟨⟨v3, d⟩, e3, hs⟩ := hs
      have hs := Res.ok.inj hs
      simp only [Prod.mk.injEq] at hs
      obtain ⟨rfl, rfl⟩ := hs
      have hd := (loadEntry_fine is dbg cast ns nf i (junk (3 + i)) v1).2 _ e3
      dsimp only at h1 h2 hd ⊢
      refine ⟨by simp [h1], fun j w hw => ?_⟩
      by_cases hj : j < l1.length
      · rw [List.getElem?_append_left hj] at hw
        exact h2 j w hw
      · rw [List.getElem?_append_right (by omega)] at hw
        have : j - l1.length = 0 := by
          by_contra hc
          rw [List.getElem?_eq_none (by simp; omega)] at hw
          cases hw
        rw [this] at hw
        simp at hw
        subst hw
        exact ⟨by rw [hd.1]; omega, hd.2⟩) hl
  obtain ⟨hlen, hall⟩ := hpost
  dsimp only at hlen hall
  have hord : (l.map (·.id)).Pairwise (· < ·) := by
    have : l.map (·.id) = List.range l.length := by
      apply List.ext_getElem?
      intro i
      rw [List.getElem?_map]
      by_cases hi : i < l.length
      · rw [List.getElem?_eq_getElem hi, List.getElem?_range hi]
        simp [(hall i l[i] (by simp)).1]
      · rw [List.getElem?_eq_none (by omega), List.getElem?_eq_none (by simp; omega)]; rfl
    rw [this]
    exact List.pairwise_lt_range
  refine ⟨by simpa using hu, rfl, rfl, hlen, hall, ?_, ?_, ?_, ?_, ?_⟩
  · intro i v hv
    have hm : v ∈ l := List.mem_of_getElem? hv
    dsimp only
    rw [List.getElem?_map, hv]
    simp only [List.mem_filter, hm, true_and, Option.map_some, Option.some.injEq]
    rw [← isDensity_iff]
    cases v.d.isDensity <;> simp
  · rintro v (h | h) <;> exact (List.mem_filter.1 h).1
  · dsimp only
    have : ∀ l : List (UDef K), (l.filter fun v => v.d.isDensity).length + (l.filter fun v => !v.d.isDensity).length =
        l.length := by
      intro l
      induction l with
      | nil => rfl
      | cons a l ih => cases h : a.d.isDensity <;> simp [h] <;> omega
    exact this l
  · exact hord.sublist (List.filter_sublist.map _)
  · exact hord.sublist (List.filter_sublist.map _)

/-- **C29**: in a release build the reader never runs into undefined behaviour; it returns a table or throws
    `runtime_error`. -/
theorem C29_total (cast : ℂ → K) (ns nf : ℕ) (isOpen : Bool) (s : S) (junk : ℕ → ℕ) :
    (∃ t, UTable.load is false cast ns nf isOpen s junk = .ok t) ∨
      UTable.load is false cast ns nf isOpen s junk = .throw .runtimeError := by
  change Green.Fine _
  unfold UTable.load
  refine Green.Fine.throwIf.bind fun _ _ => ?_
  dsimp only
  refine Green.Fine.bind ?_ fun _ _ => Or.inl ⟨_, rfl⟩
  refine Green.Fine.loop (fun _ _ => True) _ _ trivial fun i hi x _ => ⟨?_, fun _ _ => trivial⟩
  exact ((loadEntry_fine is false cast ns nf i (junk (3 + i)) x.1).1 rfl).bind fun _ _ => Or.inl ⟨_, rfl⟩

/-- **C29**: a well-formed file all of whose indices are in range is read as it is, in file order,
    however its numbers are written (`4`, `4.0` or `(4,0)`); a well-formed file
    with any site or flavor out of range is refused.  (With assertions compiled in, the rank must be 2.) -/
theorem C29_file {sp : ℂ → Tok} (hsp : ∀ z, (sp z).Spells z) (dbg : Bool) (cast : ℂ → K) (ns nf : ℕ)
    (es : List Entry) (hs : ∀ e ∈ es, e.Shape)
    (hd : dbg = true → ∀ e ∈ es, e.rank = 2) (junk : ℕ → ℕ) :
    ((∀ e ∈ es, e.InRange ns nf) →
      ∃ t, UTable.load Tok.stream dbg cast ns nf true (some (fileText es sp)) junk = .ok t ∧
        t.list.length = es.length ∧
        ∀ i e, es[i]? = some e → ∃ v : UDef K, t.list[i]? = some v ∧ v.id = i ∧ SaysSame cast e v.d) ∧
    ((∃ e ∈ es, ¬ e.InRange ns nf) →
      UTable.load Tok.stream dbg cast ns nf true (some (fileText es sp)) junk = .throw .runtimeError) := by
  obtain ⟨ho, ht⟩ := load_text hsp dbg cast ns nf junk es hs hd [] 0
    ⟨some (entriesText 0 es sp), junk 1, junk 2, 0, [], [], (0, 0), fun _ _ => 0⟩ [] (by simp)
  rw [← List.range_eq_range'] at ho ht
  unfold UTable.load
  rw [Res.throwIf_false (by simp)]
  simp only [Res.bind_ok, fileText, tok_uint]
  constructor
  · intro h
    obtain ⟨v', ds, e, -, h2, h3⟩ := ho h
    refine ⟨UTable.classify ns nf es.length [] ds, ?_, ?_⟩
    · refine (congrArg (· >>= _) e).trans ?_
      simp
    · rw [classify_eq]
      refine ⟨h2, fun i e he => ?_⟩
      obtain ⟨d, h4, h5, h6⟩ := h3 i e he
      exact ⟨d, h4, by omega, h6⟩
  · rintro ⟨e, he, hr⟩
    refine (congrArg (· >>= _) (ht fun h => hr (h e he))).trans ?_
    rfl

/-- A non-density term: hopping from site 1 to site 0 while site 2 is occupied. -/
noncomputable def exEntry : Entry := ⟨2, 2, 4, [0, 1, 2, 2], [0, 1], fun a r => a + r⟩

theorem exEntry_shape : exEntry.Shape := ⟨rfl, rfl⟩

/-- Non-vacuity: a file that writes integers as integers, real numbers with a decimal point and the others as pairs. -/
example : ∃ sp : ℂ → Tok, (∀ z, (sp z).Spells z) ∧ sp 4 = .int 4 ∧ sp (1 / 2) = .dec (1 / 2) ∧
    sp Complex.I = .cplx Complex.I := by
  classical
  refine ⟨fun z => if h : ∃ n : ℤ, z = n then .int h.choose else if z = (z.re : ℂ) then .dec z.re else .cplx z, ?_, ?_, ?_, ?_⟩
  · intro z
    by_cases h : ∃ n : ℤ, z = n
    · exact Or.inl ⟨h.choose, dif_pos h, h.choose_spec⟩
    · by_cases h' : z = (z.re : ℂ)
      · exact Or.inr (Or.inl ⟨z.re, by simp only [h, dite_false]; rw [if_pos h'], h'⟩)
      · exact Or.inr (Or.inr (by simp only [h, dite_false]; rw [if_neg h']))
  · have h : ∃ n : ℤ, (4 : ℂ) = n := ⟨4, by norm_num⟩
    have h4 : h.choose = 4 := by
      have := h.choose_spec
      exact_mod_cast this.symm
    simp only [h, dite_true, h4]
  · have h : ¬ ∃ n : ℤ, (1 / 2 : ℂ) = n := by
      rintro ⟨n, hn⟩
      have h2 : (1 : ℂ) = 2 * n := by rw [← hn]; norm_num
      have h3 : (1 : ℤ) = 2 * n := by exact_mod_cast h2
      omega
    simp only [h, dite_false]
    rw [if_pos (by apply Complex.ext <;> simp)]
    simp
  · have h : ¬ ∃ n : ℤ, Complex.I = n := by
      rintro ⟨n, hn⟩
      simpa using congrArg Complex.im hn
    simp only [h, dite_false]
    rw [if_neg (by intro hc; simpa using congrArg Complex.im hc)]

/-- Non-vacuity: both outcomes occur. -/
example : exEntry.InRange 3 2 ∧ ¬ exEntry.InRange 2 2 ∧ ¬ DensityLike (K := ℝ) ⟨2, [0, 1], [0, 1, 2, 2], 2, 4, fun _ _ => 0⟩ := by
  refine ⟨⟨by simp [exEntry], by simp [exEntry]⟩, fun h => absurd (h.site 2 (by simp [exEntry])) (by norm_num), ?_⟩
  intro h
  exact absurd (h 0 (by norm_num)) (by norm_num)

/-! ### C59: truncated files -/

/-- **C59 is violated**: a file that announces `n` terms but ends after the first one is accepted; the missing terms
    become copies of the first. -/
theorem C59_violation (cast : ℂ → K) (ns nf n : ℕ) (e : Entry) (he : e.Shape) (hr : e.InRange ns nf) (hn : 0 < n)
    (junk : ℕ → ℕ) :
    ∃ t, UTable.load Tok.stream false cast ns nf true (some (.int n :: e.text 0)) junk = .ok t ∧
      t.list.length = n ∧ ∀ i < n, ∃ v : UDef K, t.list[i]? = some v ∧ v.id = i ∧ SaysSame cast e v.d := by
  obtain ⟨v0, d0, e0, s0, r0, a0, u0, si0, f0, sh0, al0, id0, ss0⟩ := (loadEntry_text spells_cplx false cast ns nf 0 (junk 3) e he
    (by simp) [] ⟨some (e.text 0), junk 1, junk 2, 0, [], [], (0, 0), fun _ _ => 0⟩ (by simp)).1 hr
  have nil_size : ∀ s : TokS, (s = some [] ∨ s = none) → ∀ old, Tok.stream.size s old = (old, none) := by
    rintro s (rfl | rfl) old <;> rfl
  have nil_uint : ∀ s : TokS, (s = some [] ∨ s = none) → ∀ old, Tok.stream.uint s old = (old, none) := by
    rintro s (rfl | rfl) old <;> rfl
  have nil_cplx : ∀ s : TokS, (s = some [] ∨ s = none) → ∀ old, Tok.stream.cplx s old = (old, none) := by
    rintro s (rfl | rfl) old <;> rfl
  have hix : ∀ (rd : TokS → ℕ → ℕ × TokS) (hrd : ∀ old, rd none old = (old, none)) (b : ℕ) (l : List ℕ),
      (∀ x ∈ l, x < b) → readIx rd b l.length none l = .ok (none, l) := by
    intro rd hrd b l hb
    have := Res.foldl_range_inv (f := fun (x : TokS × List ℕ) i => do
      let old ← Res.get x.2 i
      let (v, s) := rd x.1 old
      Res.throwIf (b ≤ v) .runtimeError
      pure (s, x.2.set i v)) (fun _ x => x = (none, l)) l.length (none, l) rfl (by
        rintro i hi x rfl
        refine ⟨(none, l), ?_, rfl⟩
        rw [Res.get_of_lt hi]
        simp only [Res.bind_ok, hrd]
        rw [Res.throwIf_false (by have := hb l[i] (by simp); omega)]
        simp)
    obtain ⟨s', e', rfl⟩ := this
    exact e'
  have hre : ∀ (l : List ℕ) (m : ℕ), l.length = m → resizeL l m = l := by
    rintro l m rfl; simp [resizeL]
  have hal : ∀ (r a : ℕ) (al : ℕ → ℕ → ℂ), readAlpha Tok.stream r a none al = (none, al) := by
    intro r a al
    unfold readAlpha
    have : ∀ (L : List ℕ) (r : ℕ), L.foldl (fun (x : TokS × (ℕ → ℕ → ℂ)) a =>
      let (v, s) := Tok.stream.cplx x.1 (x.2 a r)
      (s, fun i j => if i = a ∧ j = r then v else x.2 i j)) (none, al) = (none, al) := by
      intro L r
      induction L with
      | nil => rfl
      | cons b L ih =>
        rw [List.foldl_cons]
        simp only [nil_cplx none (Or.inr rfl)]
        have : (fun i j => if i = b ∧ j = r then al b r else al i j) = al := by
          funext i j; split
          · next h => rw [h.1, h.2]
          · rfl
        rw [this]; exact ih
    induction List.range r with
    | nil => rfl
    | cons b L ih => rw [List.foldl_cons, this]; exact ih
  have hstep : ∀ i < n, ∀ x : LoadVars TokS × List (UDef K),
      (x.2.length = i ∧ (i = 0 → x.1.s = some (e.text 0)) ∧ (0 < i → (x.1.s = some [] ∨ x.1.s = none) ∧ x.1.rank = e.rank ∧
        x.1.numAf = e.numAf ∧ x.1.U = e.U ∧ x.1.sites = e.sites ∧ x.1.flavors = e.flavors ∧
        x.1.shape = (e.numAf, e.rank) ∧ ∀ a < e.numAf, ∀ r < e.rank, x.1.al a r = e.alpha a r) ∧
        ∀ j < i, ∃ v : UDef K, x.2[j]? = some v ∧ v.id = j ∧ SaysSame cast e v.d) →
      ∃ x', (do
        let (v, d) ← loadEntry Tok.stream false cast ns nf i (junk (3 + i)) x.1
        pure (v, x.2 ++ [d]) : Res (LoadVars TokS × List (UDef K))) = .ok x' ∧
      (x'.2.length = i + 1 ∧ (i + 1 = 0 → x'.1.s = some (e.text 0)) ∧ (0 < i + 1 → (x'.1.s = some [] ∨ x'.1.s = none) ∧
        x'.1.rank = e.rank ∧
        x'.1.numAf = e.numAf ∧ x'.1.U = e.U ∧ x'.1.sites = e.sites ∧ x'.1.flavors = e.flavors ∧
        x'.1.shape = (e.numAf, e.rank) ∧ ∀ a < e.numAf, ∀ r < e.rank, x'.1.al a r = e.alpha a r) ∧
        ∀ j < i + 1, ∃ v : UDef K, x'.2[j]? = some v ∧ v.id = j ∧ SaysSame cast e v.d) := by
    rintro i hi ⟨v, l⟩ ⟨hl, h0, hp, hv⟩
    dsimp only at hl h0 hp hv ⊢
    have key : ∃ v' d, loadEntry Tok.stream false cast ns nf i (junk (3 + i)) v = .ok (v', d) ∧
        (v'.s = some [] ∨ v'.s = none) ∧ v'.rank = e.rank ∧ v'.numAf = e.numAf ∧ v'.U = e.U ∧ v'.sites = e.sites ∧
        v'.flavors = e.flavors ∧ v'.shape = (e.numAf, e.rank) ∧
        (∀ a < e.numAf, ∀ r < e.rank, v'.al a r = e.alpha a r) ∧ d.id = i ∧ SaysSame cast e d.d := by
      rcases Nat.eq_zero_or_pos i with rfl | hi0
      · obtain ⟨v0, d0, e0, s0, h⟩ := (loadEntry_text spells_cplx false cast ns nf 0 (junk (3 + 0)) e he
          (by simp) [] v (by simpa using h0 rfl)).1 hr
        exact ⟨v0, d0, e0, Or.inl s0, h⟩
      · obtain ⟨hs, h1, h2, h3, h4, h5, h6, h7⟩ := hp hi0
        have hres : ∀ a < e.numAf, ∀ r < e.rank, resizeA v.shape (e.numAf, e.rank) v.al a r = e.alpha a r := by
          intro a ha r hr'
          simp only [resizeA, h6, min_self, ha, hr', and_self, if_true]
          exact h7 a ha r hr'
        unfold loadEntry
        simp only [nil_size _ hs, nil_size none (Or.inr rfl), nil_cplx none (Or.inr rfl), Bool.false_eq_true,
          false_imp_iff, Res.assert_true, Res.bind_ok, readSites_eq, readFlavors_eq, h1, h2, h3, h4, h5]
        rw [hre e.sites _ he.si, hre e.flavors _ he.fl, ← he.si,
          hix _ (nil_size none (Or.inr rfl)) ns e.sites hr.site]
        simp only [Res.bind_ok]
        nth_rw 1 [← he.fl]
        rw [hix _ (nil_uint none (Or.inr rfl)) nf e.flavors hr.flavor]
        simp only [Res.bind_ok, hal, UDef.create, he.si, he.fl, Res.assert_true, Res.pure_eq]
        refine ⟨_, _, rfl, Or.inr rfl, rfl, rfl, rfl, rfl, rfl, rfl, hres, rfl, rfl, rfl, rfl, rfl, rfl, ?_⟩
        intro a ha r hr'
        simp only [ha, hr', and_self, if_true, hres a ha r hr']
    obtain ⟨v', d, ek, k1, k2, k3, k4, k5, k6, k7, k8, k9, k10⟩ := key
    refine ⟨(v', l ++ [d]), by rw [ek]; rfl, by simp [hl], by omega, fun _ => ⟨k1, k2, k3, k4, k5, k6, k7, k8⟩, ?_⟩
    intro j hj
    by_cases hji : j < i
    · obtain ⟨w, hw, hw'⟩ := hv j hji
      exact ⟨w, by rw [List.getElem?_append_left (by omega)]; exact hw, hw'⟩
    · obtain rfl : j = i := by omega
      exact ⟨d, by rw [List.getElem?_append_right (by omega), hl]; simp, k9, k10⟩
  obtain ⟨x, ex, hx1, -, -, hx2⟩ := Res.foldl_range_inv _ n
    ((⟨some (e.text 0), junk 1, junk 2, 0, [], [], (0, 0), fun _ _ => 0⟩, []) : LoadVars TokS × List (UDef K))
    ⟨rfl, fun _ => rfl, by omega, by omega⟩ hstep
  refine ⟨UTable.classify ns nf n [] x.2, ?_, ?_⟩
  · unfold UTable.load
    rw [Res.throwIf_false (by simp)]
    simp only [Res.bind_ok, tok_uint]
    refine (congrArg (· >>= _) ex).trans ?_
    rfl
  · rw [classify_eq]
    exact ⟨hx1, hx2⟩

/-- Non-vacuity of `C59_violation`: a file announcing three terms with one term in it. -/
example : ∃ t : UTable ℝ, UTable.load Tok.stream false Complex.re 3 2 true (some (.int 3 :: exEntry.text 0)) (fun _ => 7) =
    .ok t ∧ t.list.length = 3 := by
  obtain ⟨t, h, h', -⟩ := C59_violation (K := ℝ) Complex.re 3 2 3 exEntry exEntry_shape
    ⟨by simp [exEntry], by simp [exEntry]⟩ (by norm_num) (fun _ => 7)
  exact ⟨t, h, h'⟩

end CTInt
