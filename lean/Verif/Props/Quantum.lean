import Verif.Proofs.Quantum
import Verif.Props.Green
import Mathlib.Tactic.NormNum
import Mathlib.Tactic.IntervalCases

/-!
# C82: quantum numbers of the vertices and the pairs found with them
-/

set_option linter.all false

namespace CTInt

variable {K : Type} [RCLike K]

/-- The group of a site, given which sites of a flavor are not connected. -/
def groupOf (ns : ℕ) (z : ℕ → ℕ → ℕ → Bool) (f s : ℕ) : ℕ := (makeGroups ns fun i j => !z i j f).map.getD s 0

theorem groupOf_same {ns nf : ℕ} {z : ℕ → ℕ → ℕ → Bool} (hsym : ∀ f < nf, ∀ i j, z i j f = z j i f)
    (htr : ∀ f < nf, ∀ i j k, z i j f = false → z j k f = false → z i k f = false) {f i j : ℕ} (hf : f < nf) (hi : i < ns) (hj : j < ns)
    (hne : groupOf ns z f i ≠ groupOf ns z f j) : z i j f = true := by
  by_contra hz
  have hz : z i j f = false := by simpa using hz
  have hlen : (makeGroups ns fun i j => !z i j f).map.length = ns := (C23_partition ns _).1
  have h := (C23_chains_partial ns (fun i j => !z i j f) (fun a b hab => by rw [hsym f hf b a]; exact hab) i j (by rw [hlen]; exact hi)
    (by rw [hlen]; exact hj)).2 ?_ (Relation.EqvGen.rel _ _ ⟨hi, hj, by simp [hz]⟩)
  · apply hne
    unfold groupOf
    rw [List.getD_eq_getElem _ _ (by rw [hlen]; exact hi), List.getD_eq_getElem _ _ (by rw [hlen]; exact hj), h]
  · intro a ha b c hb hc h1 h2
    refine Relation.EqvGen.rel _ _ ⟨hb, hc, ?_⟩
    simp only [Bool.not_eq_true'] at h1 h2 ⊢
    exact htr f hf b a c (by rw [hsym f hf b a]; exact h1) h2

/-- C82: `make_quantum_numbers` gives for each term and each of its auxiliary-field states, each flavor and each group of
    sites, the number of creators minus the number of annihilators; the groups are those of `make_groups` (C23) for what
    `gf.is_zero(site1, site2, flavor)` answers. -/
theorem C82_numbers {zero : ℕ → ℕ → ℕ → Res Bool} {z : ℕ → ℕ → ℕ → Bool} {ns nf : ℕ} {tbl : List (VDef K)}
    (hz : ∀ a < ns, ∀ b < ns, ∀ f < nf, zero a b f = .ok (z a b f)) (hnf : 0 < nf) (hg : ∀ d ∈ tbl, GoodDef ns nf d) :
    ∃ Q : Quantum, makeQuantumNumbers zero ns nf tbl = .ok Q ∧ (∀ f < nf, ∀ s < ns, groupOf ns z f s < Q.dim) ∧ Q.qn.length = tbl.length ∧
      ∀ (t : ℕ) (d : VDef K), tbl[t]? = some d → ∃ qs : List (List ℤ), Q.qn[t]? = some qs ∧ qs.length = d.numAf ∧ ∀ q ∈ qs, q.length = Q.dim * nf ∧
        ∀ f < nf, ∀ k < Q.dim, q.getD (Q.dim * f + k) 0 = charge (groupOf ns z) d f k := by
  have hgs := groups_ok hz
  set gs := (List.range nf).map fun f => makeGroups ns fun i j => !z i j f with hgsd
  have hlen : gs.length = nf := by simp [hgsd]
  obtain ⟨dim, hdim, hmax⟩ := maxElement_ok (l := gs.map fun g => g.groups.length) (by
    intro e
    have := congrArg List.length e
    simp [hlen] at this
    omega)
  have hm : ∀ f (hf : f < gs.length), (gs[f]).map.length = ns ∧
      ∀ s (hs : s < (gs[f]).map.length), (gs[f]).map[s] = groupOf ns z f s := by
    intro f hf
    have e : gs[f] = makeGroups ns fun i j => !z i j f := by simp [hgsd]
    rw [e]
    refine ⟨(C23_partition ns _).1, fun s hs => ?_⟩
    unfold groupOf
    rw [List.getD_eq_getElem _ _ hs]
  have hd : ∀ f < nf, ∀ s < ns, groupOf ns z f s < dim := by
    intro f hf s hs
    obtain ⟨p1, -, p3, -⟩ := C23_partition ns fun i j => !z i j f
    have h1 : groupOf ns z f s < (makeGroups ns fun i j => !z i j f).groups.length := by
      unfold groupOf
      rw [List.getD_eq_getElem _ _ (by rw [p1]; exact hs)]
      exact p3 _ (List.getElem_mem _)
    refine lt_of_lt_of_le h1 (hmax _ ?_)
    rw [hgsd, List.map_map]
    exact List.mem_map.mpr ⟨f, List.mem_range.mpr hf, rfl⟩
  have hq : ∀ d ∈ tbl, ∀ af, ∃ q, Res.foldl (qnPair dim gs d af) (List.replicate (dim * nf) 0) (List.range d.rank) = .ok q ∧
      q.length = dim * nf ∧ ∀ f < nf, ∀ k < dim, q.getD (dim * f + k) 0 = charge (groupOf ns z) d f k :=
    fun d hdm af => qn_fold hlen hm hd (hg d hdm) af d.rank le_rfl
  have hq' : ∀ d : VDef K, ∀ af, ∃ q, d ∈ tbl → Res.foldl (qnPair dim gs d af) (List.replicate (dim * nf) 0) (List.range d.rank) = .ok q ∧
      q.length = dim * nf ∧ ∀ f < nf, ∀ k < dim, q.getD (dim * f + k) 0 = charge (groupOf ns z) d f k := by
    intro d af
    by_cases h : d ∈ tbl
    · obtain ⟨q, h1⟩ := hq d h af
      exact ⟨q, fun _ => h1⟩
    · exact ⟨[], fun h' => absurd h' h⟩
  choose Q hQ using hq'
  refine ⟨⟨dim, gs, tbl.map fun d => (List.range d.numAf).map (Q d)⟩, ?_, hd, by simp, fun t d ht => ?_⟩
  · unfold makeQuantumNumbers
    rw [hgs, Res.bind_ok, hdim, Res.bind_ok]
    rw [Res.mapM_ok (g := fun d => (List.range d.numAf).map (Q d)) fun d hdm => Res.mapM_ok fun af _ => (hQ d af hdm).1]
    rfl
  · have hmem : d ∈ tbl := List.mem_of_getElem? ht
    refine ⟨(List.range d.numAf).map (Q d), by simp [ht], by simp, fun q hq => ?_⟩
    obtain ⟨af, -, rfl⟩ := List.mem_map.mp hq
    exact (hQ d af hmem).2

/-- C82: the numbers are conserved.  Let `gf.is_zero` tell exactly between which sites there is no propagation, let being
    connected be symmetric and transitive, and let pairs of operators on unconnected sites have no auxiliary field.  Then the
    quantum numbers of the vertices of a configuration with non-zero weight add up to zero. -/
theorem C82_conserved [DecidableEq K] {zero : ℕ → ℕ → ℕ → Res Bool} {z : ℕ → ℕ → ℕ → Bool} {ns nf : ℕ} {tbl : List (VDef K)} {NI : K}
    {G0 : Op → Op → K} (hz : ∀ a < ns, ∀ b < ns, ∀ f < nf, zero a b f = .ok (z a b f)) (hg : ∀ d ∈ tbl, GoodDef ns nf d)
    (hsym : ∀ f < nf, ∀ i j, z i j f = z j i f) (htr : ∀ f < nf, ∀ i j k, z i j f = false → z j k f = false → z i k f = false)
    (hG : ∀ a b : Op, a.flavor = b.flavor → a.flavor < nf → a.site < ns → b.site < ns → z a.site b.site a.flavor = true → G0 a b = 0)
    (hal : ∀ d ∈ tbl, ∀ s < d.numAf, ∀ r < d.rank, z (d.sites.getD (2 * r) 0) (d.sites.getD (2 * r + 1) 0) (d.flavors.getD r 0) = true →
      d.alpha s r = 0)
    {Q : Quantum} (hQ : makeQuantumNumbers zero ns nf tbl = .ok Q) {vs : List Vert} (hv : ∀ v ∈ vs, VertOK tbl v)
    (hw : weight NI nf G0 tbl vs ≠ 0) (i : ℕ) :
    ((interacting vs).map fun v => ((Q.qn.getD v.type []).getD 0 []).getD i 0).sum = 0 := by
  have hnf : 0 < nf := by
    by_contra h
    obtain rfl : nf = 0 := by omega
    unfold makeQuantumNumbers at hQ
    cases hQ
  obtain ⟨Q', e, hdim, hlen, hq⟩ := C82_numbers (K := K) hz hnf hg
  rw [hQ] at e
  obtain rfl : Q = Q' := by injection e
  have hs : Separated G0 nf ns (groupOf ns z) := fun a b hab ha h1 h2 hne => hG a b hab ha h1 h2 (groupOf_same hsym htr ha h1 h2 hne)
  have hf : FieldsWithin (groupOf ns z) tbl := by
    intro d hd s hs' r hr hne
    have hgd := hg d hd
    have hsite : ∀ i < 2 * d.rank, d.sites.getD i 0 < ns := by
      intro i hi
      rw [List.getD_eq_getElem _ _ (by rw [hgd.si]; exact hi)]
      exact hgd.site _ (List.getElem_mem _)
    refine hal d hd s hs' r hr (groupOf_same hsym htr ?_ (hsite _ (by omega)) (hsite _ (by omega)) hne)
    rw [List.getD_eq_getElem _ _ (by rw [hgd.fl]; exact hr)]
    exact hgd.flavor _ (List.getElem_mem _)
  have hnum : ∀ v ∈ interacting vs, (((Q.qn.getD v.type []).getD 0 []).length = Q.dim * nf ∧
      ∀ f < nf, ∀ k < Q.dim, ((Q.qn.getD v.type []).getD 0 []).getD (Q.dim * f + k) 0 = charge (groupOf ns z) (termOf tbl v) f k) := by
    intro v hvi
    unfold interacting at hvi
    simp only [List.mem_filter, Bool.not_eq_true'] at hvi
    obtain ⟨ht, haf⟩ := hv v hvi.1
    obtain ⟨h0, h1⟩ := haf hvi.2
    have hterm : tbl[v.type]? = some (termOf tbl v) := by
      unfold termOf
      rw [List.getD_eq_getElem _ _ ht, List.getElem?_eq_getElem ht]
    obtain ⟨qs, e1, e2, e3⟩ := hq _ _ hterm
    have hpos : 0 < qs.length := by rw [e2]; omega
    have e5 : Q.qn.getD v.type [] = qs := by rw [List.getD_eq_getElem?_getD, e1]; rfl
    have e4 : (Q.qn.getD v.type []).getD 0 [] = qs[0] := by rw [e5, List.getD_eq_getElem _ _ hpos]
    rw [e4]
    exact e3 _ (List.getElem_mem _)
  by_cases hi : i < Q.dim * nf
  · have hdp : 0 < Q.dim := Nat.pos_of_ne_zero (by rintro h; rw [h] at hi; omega)
    have hik : i = Q.dim * (i / Q.dim) + i % Q.dim := (Nat.div_add_mod i Q.dim).symm
    have hfn : i / Q.dim < nf := Nat.div_lt_of_lt_mul hi
    have hkn : i % Q.dim < Q.dim := Nat.mod_lt _ hdp
    refine Eq.trans (congrArg List.sum (List.map_congr_left fun v hvi => ?_)) (conserved (NI := NI) hg hs hf hv hw hfn (i % Q.dim))
    have h := (hnum v hvi).2 _ hfn _ hkn
    rwa [← hik] at h
  · refine List.sum_eq_zero fun x hx => ?_
    obtain ⟨v, hvi, rfl⟩ := List.mem_map.mp hx
    rw [List.getD_eq_default _ _ (by rw [(hnum v hvi).1]; omega)]

/-! ## Valid pairs -/

/-- The quantum numbers of a vertex type (of its first auxiliary-field state; they are the same for all of them). -/
def numsOf (qn : List (List (List ℤ))) (t : ℕ) : List ℤ := (qn.getD t []).getD 0 []

/-- Two types whose quantum numbers are not zero and cancel. -/
def Opposite (qn : List (List (List ℤ))) (t1 t2 : ℕ) : Prop :=
  (∃ i, (numsOf qn t1).getD i 0 ≠ 0) ∧ ∀ i, (numsOf qn t1).getD i 0 + (numsOf qn t2).getD i 0 = 0

theorem allZero_iff {q : List ℤ} : allZero q = true ↔ ∀ i, q.getD i 0 = 0 := by
  unfold allZero
  simp only [List.all_eq_true, decide_eq_true_eq]
  constructor
  · intro h i
    by_cases hi : i < q.length
    · rw [List.getD_eq_getElem _ _ hi]; exact h _ (List.getElem_mem _)
    · rw [List.getD_eq_default _ _ (by omega)]
  · intro h x hx
    obtain ⟨i, hi, rfl⟩ := List.mem_iff_getElem.mp hx
    have := h i
    rwa [List.getD_eq_getElem _ _ hi] at this

theorem zipWith_zero {a b : List ℤ} (h : a.length = b.length) :
    allZero (List.zipWith (· + ·) a b) = true ↔ ∀ i, a.getD i 0 + b.getD i 0 = 0 := by
  rw [allZero_iff]
  refine forall_congr' fun i => ?_
  by_cases hi : i < a.length
  · rw [List.getD_eq_getElem _ _ (by rw [List.length_zipWith]; omega), List.getD_eq_getElem _ _ hi,
      List.getD_eq_getElem _ _ (by omega), List.getElem_zipWith]
  · rw [List.getD_eq_default _ _ (by rw [List.length_zipWith]; omega), List.getD_eq_default _ _ (by omega),
      List.getD_eq_default _ _ (by omega)]
    simp

theorem inner_pairs {qn : List (List (List ℤ))} {L : ℕ} (hq : ∀ t < qn.length, qn.getD t [] ≠ [] ∧ (numsOf qn t).length = L)
    {v1 : ℕ} (h1 : v1 < qn.length) (st : List (ℕ × ℕ) × (ℕ → ℕ → Bool)) : ∀ m ≤ qn.length,
    Res.foldl (pairTurn qn v1 (numsOf qn v1)) st (List.range m) = .ok
      (st.1 ++ ((List.range m).filter fun v2 => decide (v1 < v2) && !allZero (numsOf qn v2) &&
        allZero (List.zipWith (· + ·) (numsOf qn v1) (numsOf qn v2))).map fun v2 => (v1, v2),
       fun x y => if x = v1 ∧ y < m ∧ allZero (numsOf qn y) = false then
        allZero (List.zipWith (· + ·) (numsOf qn v1) (numsOf qn y)) else st.2 x y) := by
  intro m
  induction m with
  | zero => intro _; simp
  | succ m ih =>
    intro hm
    rw [List.range_succ, Res.foldl_append, ih (by omega), Res.bind_ok]
    simp only [Res.foldl_cons, Res.foldl_nil]
    have hml : m < qn.length := by omega
    have e1 : Res.get qn m = .ok (qn.getD m []) := by rw [Res.get_of_lt hml, List.getD_eq_getElem _ _ hml]
    have hpos : 0 < (qn.getD m []).length := List.length_pos_of_ne_nil (hq m hml).1
    have e2 : Res.get (qn.getD m []) 0 = .ok (numsOf qn m) := by
      unfold numsOf
      rw [Res.get_of_lt hpos, List.getD_eq_getElem (qn.getD m []) _ hpos]
    unfold pairTurn
    rw [e1, Res.bind_ok, e2, Res.bind_ok, List.filter_append, List.map_append]
    by_cases hz : allZero (numsOf qn m) = true
    · rw [if_pos hz]
      simp only [Res.pure_eq, Res.bind_ok]
      congr 2
      · simp [hz]
      · funext x y
        by_cases hy : y = m
        · subst hy; simp [hz]
        · congr 1
          simp only [eq_iff_iff]
          constructor
          · rintro ⟨a, b, c⟩; exact ⟨a, by omega, c⟩
          · rintro ⟨a, b, c⟩; exact ⟨a, by omega, c⟩
    · have hz' : allZero (numsOf qn m) = false := by simpa using hz
      rw [if_neg hz, Res.assert_true (by rw [(hq v1 h1).2, (hq m hml).2]), Res.bind_ok]
      simp only [Res.pure_eq, Res.bind_ok]
      congr 2
      · by_cases hc : v1 < m ∧ allZero (List.zipWith (· + ·) (numsOf qn v1) (numsOf qn m)) = true
        · rw [if_pos hc]; simp [hz', hc.1, hc.2, List.append_assoc]
        · rw [if_neg hc]
          by_cases hlt : v1 < m
          · have : allZero (List.zipWith (· + ·) (numsOf qn v1) (numsOf qn m)) = false := by simpa [hlt] using hc
            simp [this]
          · simp [hlt]
      · funext x y
        by_cases hy : y = m
        · subst hy
          by_cases hx : x = v1
          · simp [hx, hz']
          · simp [hx]
        · have h2 : ¬ (x = v1 ∧ y = m) := fun h => hy h.2
          rw [if_neg h2]
          congr 1
          simp only [eq_iff_iff]
          constructor
          · rintro ⟨a, b, c⟩; exact ⟨a, by omega, c⟩
          · rintro ⟨a, b, c⟩; exact ⟨a, by omega, c⟩

/-- C82: `find_valid_pair_multi_vertex_update` lists exactly the pairs of different types, the smaller first, whose quantum
    numbers are not zero and cancel, each once; the flags say the same of all pairs. -/
theorem C82_valid_pairs {qn : List (List (List ℤ))} {L : ℕ} (hne : qn ≠ [])
    (hq : ∀ t < qn.length, qn.getD t [] ≠ [] ∧ (numsOf qn t).length = L) :
    ∃ pairs flags, findValidPairs (fun _ _ => false) qn = .ok (pairs, flags) ∧ pairs.Nodup ∧
      (∀ t1 t2, (t1, t2) ∈ pairs ↔ t1 < t2 ∧ t2 < qn.length ∧ Opposite qn t1 t2) ∧
      ∀ t1 < qn.length, ∀ t2 < qn.length, flags t1 t2 = true ↔ Opposite qn t1 t2 := by
  have hget : ∀ t < qn.length, Res.get qn t = .ok (qn.getD t []) ∧ Res.get (qn.getD t []) 0 = .ok (numsOf qn t) := by
    intro t ht
    have hpos : 0 < (qn.getD t []).length := List.length_pos_of_ne_nil (hq t ht).1
    refine ⟨by rw [Res.get_of_lt ht, List.getD_eq_getElem _ _ ht], ?_⟩
    unfold numsOf
    rw [Res.get_of_lt hpos, List.getD_eq_getElem (qn.getD t []) _ hpos]
  have houter : ∀ m ≤ qn.length, Res.foldl (fun st v1 => do
      let q ← Res.get qn v1
      let a ← Res.get q 0
      if allZero a then pure st else Res.foldl (pairTurn qn v1 a) st (List.range qn.length))
      (([], fun _ _ => false) : List (ℕ × ℕ) × (ℕ → ℕ → Bool)) (List.range m) = .ok
      ((List.range m).flatMap fun v1 => if allZero (numsOf qn v1) then [] else
        ((List.range qn.length).filter fun v2 => decide (v1 < v2) && !allZero (numsOf qn v2) &&
        allZero (List.zipWith (· + ·) (numsOf qn v1) (numsOf qn v2))).map fun v2 => (v1, v2),
       fun x y => decide (x < m) && (!allZero (numsOf qn x) && (decide (y < qn.length) && (!allZero (numsOf qn y) &&
        allZero (List.zipWith (· + ·) (numsOf qn x) (numsOf qn y)))))) := by
    intro m
    induction m with
    | zero => intro _; simp
    | succ m ih =>
      intro hm
      have hml : m < qn.length := by omega
      rw [List.range_succ, Res.foldl_append, ih (by omega), Res.bind_ok]
      simp only [Res.foldl_cons, Res.foldl_nil]
      rw [(hget m hml).1, Res.bind_ok, (hget m hml).2, Res.bind_ok, List.flatMap_append]
      by_cases hz : allZero (numsOf qn m) = true
      · rw [if_pos hz]
        simp only [Res.pure_eq, Res.bind_ok]
        congr 2
        · simp [hz]
        · funext x y
          by_cases hx : x = m
          · subst hx; simp [hz]
          · have : (x < m) ↔ (x < m + 1) := by omega
            simp only [this]
      · have hz' : allZero (numsOf qn m) = false := by simpa using hz
        rw [if_neg hz, inner_pairs hq hml _ _ le_rfl]
        simp only [Res.bind_ok]
        congr 2
        · simp [hz']
        · funext x y
          by_cases hx : x = m
          · subst hx
            by_cases hy : y < qn.length
            · cases h : allZero (numsOf qn y) <;> simp [hz', hy, h]
            · simp [hy]
          · have : (x < m) ↔ (x < m + 1) := by omega
            simp only [hx, false_and, if_false, this]
  have hopp : ∀ t1 < qn.length, ∀ t2 < qn.length, (allZero (numsOf qn t1) = false ∧ allZero (numsOf qn t2) = false ∧
      allZero (List.zipWith (· + ·) (numsOf qn t1) (numsOf qn t2)) = true) ↔ Opposite qn t1 t2 := by
    intro t1 h1 t2 h2
    rw [zipWith_zero ((hq t1 h1).2.trans (hq t2 h2).2.symm)]
    have hnz : ∀ t, allZero (numsOf qn t) = false ↔ ∃ i, (numsOf qn t).getD i 0 ≠ 0 := by
      intro t
      rw [← Bool.not_eq_true, allZero_iff, not_forall]
    rw [hnz, hnz]
    unfold Opposite
    constructor
    · rintro ⟨a, -, c⟩; exact ⟨a, c⟩
    · rintro ⟨⟨i, hi⟩, c⟩
      refine ⟨⟨i, hi⟩, ⟨i, fun h => hi ?_⟩, c⟩
      have := c i
      rw [h] at this
      simpa using this
  have hpos : 0 < qn.length := List.length_pos_of_ne_nil hne
  have hfv : findValidPairs (fun _ _ => false) qn = Res.foldl (fun st v1 => do
      let q ← Res.get qn v1
      let a ← Res.get q 0
      if allZero a then pure st else Res.foldl (pairTurn qn v1 a) st (List.range qn.length))
      (([], fun _ _ => false) : List (ℕ × ℕ) × (ℕ → ℕ → Bool)) (List.range qn.length) := by
    unfold findValidPairs
    rw [(hget 0 hpos).1, Res.bind_ok, (hget 0 hpos).2, Res.bind_ok]
  refine ⟨_, _, hfv.trans (houter _ le_rfl), ?_, ?_, ?_⟩
  · rw [List.nodup_flatMap]
    constructor
    · intro v hv
      split
      · exact List.nodup_nil
      · exact (List.nodup_range.filter _).map (fun a b h => (Prod.mk.inj h).2)
    · refine List.Pairwise.imp (R := fun a b => a ≠ b) ?_ List.nodup_range
      intro a b hab x hx hy
      apply hab
      have h1 : ∀ v, x ∈ (if allZero (numsOf qn v) then [] else
        ((List.range qn.length).filter fun v2 => decide (v < v2) && !allZero (numsOf qn v2) &&
        allZero (List.zipWith (· + ·) (numsOf qn v) (numsOf qn v2))).map fun v2 => (v, v2)) → x.1 = v := by
        intro v h
        split at h
        · simp at h
        · obtain ⟨v2, -, rfl⟩ := List.mem_map.mp h; rfl
      exact (h1 a hx).symm.trans (h1 b hy)
  · intro t1 t2
    simp only [List.mem_flatMap, List.mem_range]
    constructor
    · rintro ⟨v, hv, h⟩
      split at h
      · simp at h
      · rename_i hz
        obtain ⟨v2, h2, e⟩ := List.mem_map.mp h
        obtain ⟨rfl, rfl⟩ := Prod.mk.inj e
        simp only [List.mem_filter, List.mem_range, Bool.and_eq_true, decide_eq_true_eq, Bool.not_eq_true'] at h2
        exact ⟨h2.2.1.1, h2.1, (hopp _ hv _ h2.1).mp ⟨by simpa using hz, h2.2.1.2, h2.2.2⟩⟩
    · rintro ⟨h1, h2, h3⟩
      obtain ⟨a, b, c⟩ := (hopp t1 (by omega) t2 h2).mpr h3
      refine ⟨t1, by omega, ?_⟩
      rw [if_neg (by simp [a])]
      exact List.mem_map.mpr ⟨t2, by simp [h1, h2, b, c], rfl⟩
  · intro t1 h1 t2 h2
    rw [← hopp t1 h1 t2 h2]
    simp [h1, h2]

theorem interacting_append (a b : List Vert) : interacting (a ++ b) = interacting a ++ interacting b := by
  unfold interacting
  rw [List.filter_append]

/-- C82: why pairs are looked for.  To a configuration of non-zero weight, under the conditions of `C82_conserved`, a vertex
    whose quantum numbers are not zero cannot be added alone, and two vertices of different types with such numbers can only be
    added together if their types, the smaller first, are one of the pairs found. -/
theorem C82_pairs_needed [DecidableEq K] {zero : ℕ → ℕ → ℕ → Res Bool} {z : ℕ → ℕ → ℕ → Bool} {ns nf : ℕ} {tbl : List (VDef K)} {NI : K}
    {G0 : Op → Op → K} (hz : ∀ a < ns, ∀ b < ns, ∀ f < nf, zero a b f = .ok (z a b f)) (hg : ∀ d ∈ tbl, GoodDef ns nf d)
    (hsym : ∀ f < nf, ∀ i j, z i j f = z j i f) (htr : ∀ f < nf, ∀ i j k, z i j f = false → z j k f = false → z i k f = false)
    (hG : ∀ a b : Op, a.flavor = b.flavor → a.flavor < nf → a.site < ns → b.site < ns → z a.site b.site a.flavor = true → G0 a b = 0)
    (hal : ∀ d ∈ tbl, ∀ s < d.numAf, ∀ r < d.rank, z (d.sites.getD (2 * r) 0) (d.sites.getD (2 * r + 1) 0) (d.flavors.getD r 0) = true →
      d.alpha s r = 0) (haf : ∀ d ∈ tbl, 0 < d.numAf)
    {Q : Quantum} (hQ : makeQuantumNumbers zero ns nf tbl = .ok Q) {pairs : List (ℕ × ℕ)} {flags : ℕ → ℕ → Bool}
    (hp : findValidPairs (fun _ _ => false) Q.qn = .ok (pairs, flags))
    {vs : List Vert} (hv : ∀ v ∈ vs, VertOK tbl v) (hw : weight NI nf G0 tbl vs ≠ 0) {v w : Vert} (hvo : VertOK tbl v) (hwo : VertOK tbl w)
    (hvi : v.nonInt = false) (hwi : w.nonInt = false) {i : ℕ} (hi : (numsOf Q.qn v.type).getD i 0 ≠ 0) :
    weight NI nf G0 tbl (vs ++ [v]) = 0 ∧
      (weight NI nf G0 tbl (vs ++ [v, w]) ≠ 0 → v.type ≠ w.type → (min v.type w.type, max v.type w.type) ∈ pairs) := by
  have h0 := C82_conserved (NI := NI) hz hg hsym htr hG hal hQ hv hw
  constructor
  · by_contra hne
    have h1 := C82_conserved (NI := NI) hz hg hsym htr hG hal hQ (vs := vs ++ [v]) (by
      intro x hx
      rcases List.mem_append.mp hx with h | h
      · exact hv x h
      · rw [List.mem_singleton.mp h]; exact hvo) hne i
    have e : interacting [v] = [v] := by simp [interacting, hvi]
    rw [interacting_append, List.map_append, List.sum_append, h0 i, e] at h1
    exact hi (by simpa [numsOf] using h1)
  · intro hne hty
    have h1 := C82_conserved (NI := NI) hz hg hsym htr hG hal hQ (vs := vs ++ [v, w]) (by
      intro x hx
      rcases List.mem_append.mp hx with h | h
      · exact hv x h
      · rcases List.mem_cons.mp h with rfl | h
        · exact hvo
        · rw [List.mem_singleton.mp h]; exact hwo) hne
    have e : interacting [v, w] = [v, w] := by simp [interacting, hvi, hwi]
    have hsum : ∀ j, (numsOf Q.qn v.type).getD j 0 + (numsOf Q.qn w.type).getD j 0 = 0 := by
      intro j
      have := h1 j
      rw [interacting_append, List.map_append, List.sum_append, h0 j, e] at this
      simpa [numsOf] using this
    have ho1 : Opposite Q.qn v.type w.type := ⟨⟨i, hi⟩, hsum⟩
    have ho2 : Opposite Q.qn w.type v.type := by
      refine ⟨⟨i, fun h => hi ?_⟩, fun j => by rw [add_comm]; exact hsum j⟩
      have := hsum i
      rwa [h, add_zero] at this
    have hnf : 0 < nf := by
      by_contra h
      obtain rfl : nf = 0 := by omega
      unfold makeQuantumNumbers at hQ
      cases hQ
    obtain ⟨Q', e, -, hlen, hq⟩ := C82_numbers (K := K) hz hnf hg
    rw [hQ] at e
    obtain rfl : Q = Q' := by injection e
    have hshape : ∀ t < Q.qn.length, Q.qn.getD t [] ≠ [] ∧ (numsOf Q.qn t).length = Q.dim * nf := by
      intro t ht
      have ht' : t < tbl.length := by rw [← hlen]; exact ht
      obtain ⟨qs, e1, e2, e3⟩ := hq t tbl[t] (List.getElem?_eq_getElem ht')
      have hpos : 0 < qs.length := by rw [e2]; exact haf _ (List.getElem_mem _)
      have e5 : Q.qn.getD t [] = qs := by rw [List.getD_eq_getElem?_getD, e1]; rfl
      unfold numsOf
      rw [e5, List.getD_eq_getElem qs _ hpos]
      exact ⟨List.ne_nil_of_length_pos hpos, (e3 _ (List.getElem_mem _)).1⟩
    have htv : v.type < Q.qn.length := by rw [hlen]; exact hvo.1
    have htw : w.type < Q.qn.length := by rw [hlen]; exact hwo.1
    obtain ⟨p', f', e', -, hmem, -⟩ := C82_valid_pairs (List.ne_nil_of_length_pos (by omega)) hshape
    rw [hp] at e'
    obtain ⟨rfl, rfl⟩ : pairs = p' ∧ flags = f' := by
      injection e' with e'
      exact ⟨congrArg Prod.fst e', congrArg Prod.snd e'⟩
    rcases lt_or_gt_of_ne hty with h | h
    · rw [min_eq_left h.le, max_eq_right h.le]
      exact (hmem _ _).mpr ⟨h, htw, ho1⟩
    · rw [min_eq_right h.le, max_eq_left h.le]
      exact (hmem _ _).mpr ⟨h, htv, ho2⟩

/-- The hypotheses of `C82_pairs_needed` (and of `C82_numbers`, `C82_valid_pairs` and `C82_conserved`) are met: two sites
    without propagation between them, a term that moves a particle from site 1 to site 0 and one that moves it back. -/
def exQHop (a b : ℕ) : VDef ℝ := ⟨1, [0], [a, b], 1, 1, fun _ _ => 0⟩

/-- Different sites are not connected. -/
def exSitesApart (a b _ : ℕ) : Bool := a != b

/-- The flavor read as a site. -/
def exFlavorAsSite (_ b c : ℕ) : Bool := b != c

noncomputable def exQHopG (a b : Op) : ℝ := if a.site = b.site then 1 else 0

example : ∃ (Q : Quantum) (pairs : List (ℕ × ℕ)) (flags : ℕ → ℕ → Bool),
    (∀ d ∈ [exQHop 0 1, exQHop 1 0], GoodDef 2 1 d ∧ 0 < d.numAf) ∧
    makeQuantumNumbers (fun a b c => .ok (exSitesApart a b c)) 2 1 [exQHop 0 1, exQHop 1 0] = .ok Q ∧
    findValidPairs (fun _ _ => false) Q.qn = .ok (pairs, flags) ∧ (0, 1) ∈ pairs ∧ (∃ i, (numsOf Q.qn 0).getD i 0 ≠ 0) ∧
    (∀ v ∈ [(⟨0, 0, 1, 0.5, false, false, 0⟩ : Vert), ⟨1, 0, 1, 0.7, false, false, 1⟩], VertOK [exQHop 0 1, exQHop 1 0] v) ∧
    weight (K := ℝ) 7 1 exQHopG [exQHop 0 1, exQHop 1 0] [] ≠ 0 ∧
    weight (K := ℝ) 7 1 exQHopG [exQHop 0 1, exQHop 1 0] [⟨0, 0, 1, 0.5, false, false, 0⟩, ⟨1, 0, 1, 0.7, false, false, 1⟩] ≠ 0 := by
  have hg : ∀ d ∈ [exQHop 0 1, exQHop 1 0], GoodDef 2 1 d := by
    intro d hd
    simp only [List.mem_cons, List.not_mem_nil, or_false] at hd
    rcases hd with rfl | rfl <;> exact ⟨rfl, rfl, by simp [exQHop], by simp [exQHop]⟩
  obtain ⟨Q, e, hdim, hlen, hq⟩ := C82_numbers (zero := fun a b c => .ok (exSitesApart a b c)) (z := exSitesApart) (ns := 2)
    (nf := 1) (fun a _ b _ f _ => rfl) (by norm_num) hg
  have g0 : groupOf 2 exSitesApart 0 0 = 0 := by decide
  have g1 : groupOf 2 exSitesApart 0 1 = 1 := by decide
  have hd2 : 1 < Q.dim := by have := hdim 0 (by norm_num) 1 (by norm_num); rwa [g1] at this
  have hnum : ∀ t (d : VDef ℝ), [exQHop 0 1, exQHop 1 0][t]? = some d → d.numAf = 1 → Q.qn.getD t [] ≠ [] ∧ (numsOf Q.qn t).length = Q.dim * 1 ∧
      ∀ k < Q.dim, (numsOf Q.qn t).getD k 0 = charge (groupOf 2 exSitesApart) d 0 k := by
    intro t d ht hd
    obtain ⟨qs, e1, e2, e3⟩ := hq t d ht
    have hpos : 0 < qs.length := by rw [e2, hd]; norm_num
    have e5 : Q.qn.getD t [] = qs := by rw [List.getD_eq_getElem?_getD, e1]; rfl
    unfold numsOf
    rw [e5, List.getD_eq_getElem qs _ hpos]
    obtain ⟨h1, h2⟩ := e3 _ (List.getElem_mem hpos)
    refine ⟨List.ne_nil_of_length_pos hpos, h1, fun k hk => ?_⟩
    have := h2 0 (by norm_num) k hk
    rwa [Nat.mul_zero, Nat.zero_add] at this
  obtain ⟨n1, l1, c1⟩ := hnum 0 _ rfl rfl
  obtain ⟨n2, l2, c2⟩ := hnum 1 _ rfl rfl
  have hsh : ∀ t < Q.qn.length, Q.qn.getD t [] ≠ [] ∧ (numsOf Q.qn t).length = Q.dim * 1 := by
    intro t ht
    rw [hlen] at ht
    simp only [List.length_cons, List.length_nil] at ht
    interval_cases t
    · exact ⟨n1, l1⟩
    · exact ⟨n2, l2⟩
  obtain ⟨pairs, flags, hp, -, hm, -⟩ := C82_valid_pairs (List.ne_nil_of_length_pos (by rw [hlen]; simp)) hsh
  have hne : (numsOf Q.qn 0).getD 0 0 ≠ 0 := by
    rw [c1 0 (by omega)]
    simp [charge, exQHop, g0, g1]
  refine ⟨Q, pairs, flags, fun d hd => ⟨hg d hd, ?_⟩, e, hp, (hm _ _).mpr ⟨by norm_num, by rw [hlen]; simp, ⟨⟨0, hne⟩, fun k => ?_⟩⟩,
    ⟨0, hne⟩, ?_, ?_, ?_⟩
  · simp only [List.mem_cons, List.not_mem_nil, or_false] at hd
    rcases hd with rfl | rfl <;> simp [exQHop]
  · by_cases hk : k < Q.dim
    · rw [c1 k hk, c2 k hk]
      simp [charge, exQHop, g0, g1]
    · rw [List.getD_eq_default _ _ (by omega), List.getD_eq_default _ _ (by omega)]; rfl
  · intro v hv
    simp only [List.mem_cons, List.not_mem_nil, or_false] at hv
    rcases hv with rfl | rfl <;> exact ⟨by simp, fun _ => by simp [termOf, exQHop]⟩
  · simp only [weight, detWeight, uWeight]
    rw [Finset.prod_range_one]
    have hr : rowsOf (7 : ℝ) [exQHop 0 1, exQHop 1 0] (interacting []) 0 = [] := rfl
    rw [hr]
    simp [detN, interacting]
  · simp only [weight, detWeight, uWeight]
    rw [Finset.prod_range_one]
    have hr : rowsOf (7 : ℝ) [exQHop 0 1, exQHop 1 0] (interacting [⟨0, 0, 1, 0.5, false, false, 0⟩, ⟨1, 0, 1, 0.7, false, false, 1⟩]) 0 =
        [⟨⟨0, 0, 0.5, 0⟩, ⟨0, 1, 0.5, 0⟩, 0, ⟨0, 0, 0⟩⟩, ⟨⟨0, 1, 0.7, 0⟩, ⟨0, 0, 0.7, 0⟩, 0, ⟨1, 0, 1⟩⟩] := by
      simp [rowsOf, interacting, rowsV, termOf, flavorOf, rowOf, fieldOf, exQHop]
    rw [hr]
    simp [detN, Matrix.det_fin_two, toM, rowG, specG, exQHopG, interacting, termOf, exQHop]

/-! ## The order of the arguments of `is_zero` -/

theorem assert_cases (p : Prop) [Decidable p] : (Res.assert p = .ub ∧ ¬ p) ∨ (Res.assert p = .ok () ∧ p) := by
  by_cases h : p
  · exact Or.inr ⟨Res.assert_true h, h⟩
  · exact Or.inl ⟨Res.assert_false h, h⟩

theorem interpolate_bounds (g : Green K) (f s1 s2 : ℕ) (tau : ℝ) :
    g.interpolate f s1 s2 tau = .ub ∨ f < g.nf ∧ ∃ x, g.interpolate f s1 s2 tau = .ok x := by
  unfold Green.interpolate
  rcases assert_cases (0 ≤ tau ∧ tau ≤ g.beta) with ⟨e, -⟩ | ⟨e, -⟩
  · exact Or.inl (by rw [e]; rfl)
  rw [e, Res.bind_ok]
  simp only []
  generalize (if ⌊tau * g.invDtau⌋₊ = g.ntau - 1 then g.ntau - 2 else ⌊tau * g.invDtau⌋₊) = idx
  rcases assert_cases (idx < g.ntau - 1) with ⟨e, -⟩ | ⟨e, -⟩
  · exact Or.inl (by rw [e]; rfl)
  rw [e, Res.bind_ok]
  rcases assert_cases (f < g.nf ∧ s1 < g.ns ∧ s2 < g.ns) with ⟨e, -⟩ | ⟨e, h⟩
  · exact Or.inl (by rw [e]; rfl)
  rw [e, Res.bind_ok]
  exact Or.inr ⟨h.1, _, rfl⟩

theorem isZero_cases (g : Green K) (f s1 s2 : ℕ) (eps : ℝ) : g.isZero f s1 s2 eps = .ub ∨ ∃ x, g.isZero f s1 s2 eps = .ok x := by
  unfold Green.isZero
  rcases interpolate_bounds g f s1 s2 (g.beta * 1e-5) with h | ⟨-, x, h⟩ <;> rw [h]
  · exact Or.inl rfl
  · rw [Res.bind_ok]
    split_ifs
    · rcases interpolate_bounds g f s1 s2 (g.beta * (1 - 1e-5)) with h | ⟨-, y, h⟩ <;> rw [h]
      · exact Or.inl rfl
      · exact Or.inr ⟨_, rfl⟩
    · exact Or.inr ⟨_, rfl⟩

theorem isZero_ub (g : Green K) {f : ℕ} (hf : g.nf ≤ f) (s1 s2 : ℕ) (eps : ℝ) : g.isZero f s1 s2 eps = .ub := by
  have : g.interpolate f s1 s2 (g.beta * 1e-5) = .ub := by
    rcases interpolate_bounds g f s1 s2 (g.beta * 1e-5) with h | ⟨h, -⟩
    · exact h
    · omega
  unfold Green.isZero
  rw [this]
  rfl

theorem mapM_cases {α β : Type} {f : α → Res β} : ∀ {l : List α}, (∀ a ∈ l, f a = .ub ∨ ∃ x, f a = .ok x) →
    (Res.mapM f l = .ub ∨ ∃ x, Res.mapM f l = .ok x) ∧ ((∃ a ∈ l, f a = .ub) → Res.mapM f l = .ub)
  | [], _ => ⟨Or.inr ⟨[], rfl⟩, fun ⟨a, h, _⟩ => absurd h List.not_mem_nil⟩
  | a :: l, h => by
    obtain ⟨h1, h2⟩ := mapM_cases (l := l) fun b hb => h b (List.mem_cons_of_mem _ hb)
    rw [Res.mapM_cons]
    rcases h a List.mem_cons_self with e | ⟨x, e⟩ <;> rw [e]
    · exact ⟨Or.inl rfl, fun _ => rfl⟩
    · rw [Res.bind_ok]
      constructor
      · rcases h1 with e1 | ⟨y, e1⟩ <;> rw [e1]
        · exact Or.inl rfl
        · exact Or.inr ⟨_, rfl⟩
      · rintro ⟨b, hb, eb⟩
        rcases List.mem_cons.mp hb with rfl | hb
        · rw [e] at eb; cases eb
        · rw [h2 ⟨b, hb, eb⟩]; rfl

/-- C82 fails as called: `make_quantum_numbers` passes `(site1, site2, flavor)` where `green_function::is_zero` takes
    `(flavor, site1, site2)`.  With more sites than flavors the Green function is read outside its range, whatever it is. -/
theorem C82_order_ub_violation (g : Green K) (eps : ℝ) (tbl : List (VDef K)) (hnf : 0 < g.nf) (hns : g.nf < g.ns) :
    makeQuantumNumbers (fun a b c => g.isZero a b c eps) g.ns g.nf tbl = .ub := by
  have hin : ∀ flavor site1, (Res.mapM (fun site2 => do
      let z ← g.isZero site1 site2 flavor eps
      pure (!z)) (List.range g.ns) = .ub ∨ ∃ x, Res.mapM (fun site2 => do
      let z ← g.isZero site1 site2 flavor eps
      pure (!z)) (List.range g.ns) = .ok x) ∧ (g.nf ≤ site1 → Res.mapM (fun site2 => do
      let z ← g.isZero site1 site2 flavor eps
      pure (!z)) (List.range g.ns) = .ub) := by
    intro flavor site1
    have h := mapM_cases (f := fun site2 => (do
      let z ← g.isZero site1 site2 flavor eps
      pure (!z) : Res Bool)) (l := List.range g.ns) (by
        intro site2 _
        rcases isZero_cases g site1 site2 flavor eps with e | ⟨x, e⟩ <;> simp only [e]
        · exact Or.inl rfl
        · exact Or.inr ⟨_, rfl⟩)
    refine ⟨h.1, fun hle => h.2 ⟨0, List.mem_range.mpr (by omega), ?_⟩⟩
    simp only [isZero_ub g hle]
    rfl
  have htab : ∀ flavor, connectedTable (fun a b c => g.isZero a b c eps) g.ns flavor = .ub := by
    intro flavor
    unfold connectedTable
    exact (mapM_cases fun site1 _ => (hin flavor site1).1).2 ⟨g.nf, List.mem_range.mpr hns, (hin flavor g.nf).2 le_rfl⟩
  unfold makeQuantumNumbers
  have : Res.mapM (fun flavor => do
      let t ← connectedTable (fun a b c => g.isZero a b c eps) g.ns flavor
      pure (makeGroups g.ns fun i j => (t.getD i []).getD j false)) (List.range g.nf) = .ub := by
    refine (mapM_cases fun flavor _ => Or.inl ?_).2 ⟨0, List.mem_range.mpr hnf, ?_⟩ <;> (simp only [htab]; rfl)
  rw [this]
  rfl

/-- Two sites and two flavors, no propagation between the sites. -/
noncomputable def exQDiag : Green ℝ := ⟨2, 2, 2, 1, 1, 1, fun _ _ _ _ => 0, fun _ s1 s2 _ p => if p = 0 ∧ s1 = s2 then 1 else 0⟩

theorem exQDiag_interpolate {f s1 s2 : ℕ} (hf : f < 2) (h1 : s1 < 2) (h2 : s2 < 2) {t : ℝ} (h0 : 0 ≤ t) (ht : t < 1) :
    exQDiag.interpolate f s1 s2 t = .ok (if s1 = s2 then 1 else 0) := by
  have hfl : ⌊t * 1⌋₊ = 0 := by rw [Nat.floor_eq_zero]; linarith
  have hI : exQDiag.invDtau = 1 := rfl
  have hN : exQDiag.ntau = 2 := rfl
  have hA : 0 ≤ t ∧ t ≤ exQDiag.beta := ⟨h0, ht.le⟩
  have hC : f < exQDiag.nf ∧ s1 < exQDiag.ns ∧ s2 < exQDiag.ns := ⟨hf, h1, h2⟩
  unfold Green.interpolate
  rw [Res.assert_true hA, Res.assert_true hC, hI, hN]
  simp only [hfl]
  rw [Res.assert_true (by norm_num : (if 0 = 2 - 1 then 2 - 2 else 0) < 2 - 1)]
  simp only [Res.bind_ok, Res.pure_eq]
  congr 1
  by_cases h : s1 = s2 <;> simp [h, mycast, exQDiag]

theorem exQDiag_isZero {f s1 s2 : ℕ} (hf : f < 2) (h1 : s1 < 2) (h2 : s2 < 2) {eps : ℝ} (h0 : 0 < eps) (h3 : eps ≤ 1) :
    exQDiag.isZero f s1 s2 eps = .ok (s1 != s2) := by
  have hb : exQDiag.beta = 1 := rfl
  unfold Green.isZero
  rw [hb, exQDiag_interpolate hf h1 h2 (by norm_num) (by norm_num), exQDiag_interpolate hf h1 h2 (by norm_num) (by norm_num)]
  by_cases h : s1 = s2
  · simp [h, Res.bind_ok, not_lt.mpr h3]
  · simp [h, Res.bind_ok, h0]

/-- Moves a particle of flavor 0 from site 1 to site 0 and counts the one of flavor 1 on site 1. -/
def exQMove : VDef ℝ := ⟨2, [0, 1], [0, 1, 1, 1], 1, 1, fun _ _ => 0⟩

/-- C82 fails as called: even where the Green function is read inside its range the numbers can be wrong.  Without propagation
    between the sites a term that moves a particle between them has quantum numbers that are not zero, as the function finds
    with the arguments in the order of `is_zero`; in the order in which they are passed it finds only zeros. -/
theorem C82_order_value_violation {eps : ℝ} (h0 : 0 < eps) (h1 : eps ≤ 1) :
    (∃ Q, makeQuantumNumbers (fun a b c => exQDiag.isZero c a b eps) 2 2 [exQMove] = .ok Q ∧ ∃ i, (numsOf Q.qn 0).getD i 0 ≠ 0) ∧
    ∃ Q, makeQuantumNumbers (fun a b c => exQDiag.isZero a b c eps) 2 2 [exQMove] = .ok Q ∧ ∀ i, (numsOf Q.qn 0).getD i 0 = 0 := by
  have hg : ∀ d ∈ [exQMove], GoodDef 2 2 d := by
    intro d hd
    rw [List.mem_singleton.mp hd]
    exact ⟨rfl, rfl, by simp [exQMove], by simp [exQMove]⟩
  have key : ∀ {zero : ℕ → ℕ → ℕ → Res Bool} {z : ℕ → ℕ → ℕ → Bool}, (∀ a < 2, ∀ b < 2, ∀ f < 2, zero a b f = .ok (z a b f)) →
      ∃ Q, makeQuantumNumbers zero 2 2 [exQMove] = .ok Q ∧ (∀ f < 2, ∀ s < 2, groupOf 2 z f s < Q.dim) ∧
        (numsOf Q.qn 0).length = Q.dim * 2 ∧
        ∀ f < 2, ∀ k < Q.dim, (numsOf Q.qn 0).getD (Q.dim * f + k) 0 = charge (groupOf 2 z) exQMove f k := by
    intro zero z hz
    obtain ⟨Q, e, hdim, hlen, hq⟩ := C82_numbers hz (by norm_num) hg
    obtain ⟨qs, e1, e2, e3⟩ := hq 0 exQMove rfl
    have hpos : 0 < qs.length := by rw [e2]; simp [exQMove]
    have e5 : Q.qn.getD 0 [] = qs := by rw [List.getD_eq_getElem?_getD, e1]; rfl
    refine ⟨Q, e, hdim, ?_⟩
    unfold numsOf
    rw [e5, List.getD_eq_getElem qs _ hpos]
    exact e3 _ (List.getElem_mem hpos)
  constructor
  · obtain ⟨Q, e, hdim, -, hq⟩ := key (zero := fun a b c => exQDiag.isZero c a b eps) (z := exSitesApart)
      fun a ha b hb f hf => exQDiag_isZero hf ha hb h0 h1
    have g0 : groupOf 2 exSitesApart 0 0 = 0 := by decide
    have g1 : groupOf 2 exSitesApart 0 1 = 1 := by decide
    have hd := hdim 0 (by norm_num) 0 (by norm_num)
    refine ⟨Q, e, Q.dim * 0 + 0, ?_⟩
    rw [hq 0 (by norm_num) 0 (by omega)]
    simp [charge, exQMove, g0, g1, List.range_succ]
  · obtain ⟨Q, e, hdim, hlen, hq⟩ := key (zero := fun a b c => exQDiag.isZero a b c eps) (z := exFlavorAsSite)
      fun a ha b hb f hf => exQDiag_isZero ha hb hf h0 h1
    have g0 : groupOf 2 exFlavorAsSite 0 0 = 0 := by decide
    have g1 : groupOf 2 exFlavorAsSite 0 1 = 0 := by decide
    refine ⟨Q, e, fun i => ?_⟩
    by_cases hi : i < Q.dim * 2
    · have hdp : 0 < Q.dim := Nat.pos_of_ne_zero (by rintro h; rw [h] at hi; omega)
      have hfn : i / Q.dim < 2 := Nat.div_lt_of_lt_mul hi
      rw [← Nat.div_add_mod i Q.dim, hq _ hfn _ (Nat.mod_lt _ hdp)]
      generalize i / Q.dim = f at hfn
      interval_cases f <;> simp [charge, exQMove, g0, g1, List.range_succ]
    · rw [List.getD_eq_default _ _ (by omega)]

end CTInt
