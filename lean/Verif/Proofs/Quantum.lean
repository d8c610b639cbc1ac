import Verif.Model.Quantum
import Verif.Spec.Quantum
import Verif.Props.Clustering
import Mathlib.LinearAlgebra.Matrix.Determinant.Basic

/-!
# Quantum numbers: proofs
-/

set_option linter.all false

namespace CTInt

/-- A matrix with a determinant has, for each label, as many rows as columns, if it vanishes between different labels. -/
theorem det_labels {K : Type} [Field K] {n : ℕ} {M : Matrix (Fin n) (Fin n) K} (hd : M.det ≠ 0) {r c : Fin n → ℕ}
    (h0 : ∀ i j, r i ≠ c j → M i j = 0) (k : ℕ) :
    ∑ j, (if c j = k then (1 : ℤ) else 0) = ∑ i, if r i = k then (1 : ℤ) else 0 := by
  rw [Matrix.det_apply] at hd
  obtain ⟨σ, -, hσ⟩ := Finset.exists_ne_zero_of_sum_ne_zero hd
  have hp : ∏ i, M (σ i) i ≠ 0 := fun e => hσ (by rw [e, smul_zero])
  have hl : ∀ i, r (σ i) = c i := by
    intro i
    by_contra hne
    exact Finset.prod_ne_zero_iff.mp hp i (Finset.mem_univ i) (h0 _ _ hne)
  rw [← Equiv.sum_comp σ (fun i => if r i = k then (1 : ℤ) else 0)]
  exact Finset.sum_congr rfl fun i _ => by rw [hl i]

theorem sum_map_fin {α : Type} (l : List α) (f : α → ℤ) : (l.map f).sum = ∑ i : Fin l.length, f l[i] := by
  rw [← List.sum_ofFn]
  exact congrArg List.sum (List.ofFn_getElem_eq_map l f).symm

section conserve

variable {K : Type} [Field K] [DecidableEq K] {NI : K} {nf ns : ℕ} {lab : ℕ → ℕ → ℕ} {G0 : Op → Op → K} {tbl : List (VDef K)}

/-- The particles that the operator pairs of a configuration add to a group. -/
theorem rows_charge (vs : List Vert) (f k : ℕ) :
    ((rowsOf NI tbl vs f).map fun x => (if lab f x.cr.site = k then (1 : ℤ) else 0) - if lab f x.an.site = k then 1 else 0).sum =
      (vs.map fun v => charge lab (termOf tbl v) f k).sum := by
  unfold rowsOf
  induction vs with
  | nil => rfl
  | cons v vs ih =>
    rw [List.flatMap_cons, List.map_append, List.sum_append, ih, List.map_cons, List.sum_cons]
    congr 1
    unfold rowsV charge flavorOf
    rw [List.map_map]
    rfl

theorem conserved (hg : ∀ d ∈ tbl, GoodDef ns nf d) (hs : Separated G0 nf ns lab) (hf : FieldsWithin lab tbl)
    {vs : List Vert} (hv : ∀ v ∈ vs, VertOK tbl v) (hw : weight NI nf G0 tbl vs ≠ 0) {f : ℕ} (hfl : f < nf) (k : ℕ) :
    ((interacting vs).map fun v => charge lab (termOf tbl v) f k).sum = 0 := by
  have hd : detN (rowsOf NI tbl (interacting vs) f).length (rowG G0 (rowsOf NI tbl (interacting vs) f)) ≠ 0 := by
    unfold weight detWeight at hw
    exact Finset.prod_ne_zero_iff.mp (left_ne_zero_of_mul hw) f (Finset.mem_range.mpr hfl)
  rw [← rows_charge (NI := NI)]
  set l := rowsOf NI tbl (interacting vs) f with hl
  have hmem : ∀ x ∈ l, ∃ d ∈ tbl, ∃ s < d.numAf, ∃ r < d.rank, x.cr.flavor = f ∧ x.an.flavor = f ∧ d.flavors.getD r 0 = f ∧
      x.cr.site = d.sites.getD (2 * r) 0 ∧ x.an.site = d.sites.getD (2 * r + 1) 0 ∧ x.cr.site < ns ∧ x.an.site < ns ∧
      x.al = d.alpha s r := by
    intro x hx
    rw [hl] at hx
    unfold rowsOf rowsV at hx
    simp only [List.mem_flatMap, List.mem_map, List.mem_filter, List.mem_range, decide_eq_true_eq] at hx
    obtain ⟨v, hvi, r, ⟨hr, hfr⟩, rfl⟩ := hx
    unfold interacting at hvi
    simp only [List.mem_filter, Bool.not_eq_true'] at hvi
    obtain ⟨hvm, hni⟩ := hvi
    obtain ⟨ht, haf⟩ := hv v hvm
    obtain ⟨ha0, ha1⟩ := haf hni
    have hd : termOf tbl v ∈ tbl := by
      unfold termOf
      rw [List.getD_eq_getElem _ _ ht]
      exact List.getElem_mem _
    have hgd := hg _ hd
    have hsite : ∀ i < 2 * (termOf tbl v).rank, (termOf tbl v).sites.getD i 0 < ns := by
      intro i hi
      rw [List.getD_eq_getElem _ _ (by rw [hgd.si]; exact hi)]
      exact hgd.site _ (List.getElem_mem _)
    refine ⟨termOf tbl v, hd, v.af.toNat, by omega, r, hr, hfr, hfr, hfr, rfl, rfl, hsite _ (by omega), hsite _ (by omega), ?_⟩
    show fieldOf NI tbl v r = _
    unfold fieldOf
    rw [hni]
    rfl
  have key := det_labels (M := toM l.length l.length (rowG G0 l)) hd (r := fun i => lab f (l[i]).an.site)
    (c := fun j => lab f (l[j]).cr.site) (fun i j hij => ?_) k
  · have hsub : (l.map fun x => (if lab f x.cr.site = k then (1 : ℤ) else 0) - if lab f x.an.site = k then 1 else 0).sum =
        (∑ j : Fin l.length, (if lab f (l[j]).cr.site = k then (1 : ℤ) else 0)) - ∑ i : Fin l.length, if lab f (l[i]).an.site = k then (1 : ℤ) else 0 := by
      rw [sum_map_fin, ← Finset.sum_sub_distrib]
    rw [hsub, key, sub_self]
  · have ei : l.getD i.1 default = l[i] := List.getD_eq_getElem _ _ i.2
    have ej : l.getD j.1 default = l[j] := List.getD_eq_getElem _ _ j.2
    show rowG G0 l i.1 j.1 = 0
    unfold rowG specG
    simp only [ei, ej]
    obtain ⟨d, -, s, -, r, -, -, a2, -, -, -, -, a7, -⟩ := hmem l[i] (List.getElem_mem _)
    obtain ⟨d', -, s', -, r', -, b1, -, -, -, -, b6, -, -⟩ := hmem l[j] (List.getElem_mem _)
    rw [hs _ _ (a2.trans b1.symm) (by rw [a2]; exact hfl) a7 b6 (by rw [a2]; exact hij)]
    by_cases hii : i.1 = j.1
    · have hii' : i = j := Fin.ext hii
      subst hii'
      obtain ⟨d, hd, s, hs', r, hr, a1, a2, a3, a4, a5, a6, a7, a8⟩ := hmem l[i] (List.getElem_mem _)
      rw [if_pos rfl, a8, hf d hd s hs' r hr (by rw [a3, ← a4, ← a5]; exact fun e => hij e.symm), sub_zero]
    · rw [if_neg hii, sub_zero]

end conserve

/-! ## The computation -/

theorem makeGroups_congr {N : ℕ} {R R' : ℕ → ℕ → Bool} (h : ∀ i < N, ∀ j < i, R i j = R' i j) : makeGroups N R = makeGroups N R' := by
  unfold makeGroups
  have : ∀ m ≤ N, (List.range m).foldl (groupStep R) ⟨[], []⟩ = (List.range m).foldl (groupStep R') ⟨[], []⟩ := by
    intro m hm
    induction m with
    | zero => rfl
    | succ m ih =>
      rw [List.range_succ, List.foldl_append, List.foldl_append, ih (by omega)]
      simp only [List.foldl_cons, List.foldl_nil]
      unfold groupStep
      have e : (List.range m).find? (fun s => R m s) = (List.range m).find? fun s => R' m s := by
        refine List.find?_congr fun s hs => ?_
        exact h m (by omega) s (List.mem_range.mp hs)
      rw [e]
  exact this N le_rfl

theorem connectedTable_ok {zero : ℕ → ℕ → ℕ → Res Bool} {z : ℕ → ℕ → ℕ → Bool} {ns f : ℕ}
    (h : ∀ a < ns, ∀ b < ns, zero a b f = .ok (z a b f)) :
    connectedTable zero ns f = .ok ((List.range ns).map fun a => (List.range ns).map fun b => !z a b f) := by
  unfold connectedTable
  refine Res.mapM_ok fun a ha => Res.mapM_ok fun b hb => ?_
  rw [h a (List.mem_range.mp ha) b (List.mem_range.mp hb)]
  rfl

theorem groups_ok {zero : ℕ → ℕ → ℕ → Res Bool} {z : ℕ → ℕ → ℕ → Bool} {ns nf : ℕ}
    (h : ∀ a < ns, ∀ b < ns, ∀ f < nf, zero a b f = .ok (z a b f)) :
    Res.mapM (fun flavor => do
      let t ← connectedTable zero ns flavor
      pure (makeGroups ns fun i j => (t.getD i []).getD j false)) (List.range nf) =
    .ok ((List.range nf).map fun f => makeGroups ns fun i j => !z i j f) := by
  refine Res.mapM_ok fun f hf => ?_
  rw [connectedTable_ok fun a ha b hb => h a ha b hb f (List.mem_range.mp hf)]
  show Res.ok _ = Res.ok _
  congr 1
  refine makeGroups_congr fun i hi j hj => ?_
  have hj' : j < ns := by omega
  simp [List.getD_eq_getElem?_getD, hi, hj']

theorem maxElement_ok {l : List ℕ} (hl : l ≠ []) : ∃ m, maxElement l = .ok m ∧ ∀ x ∈ l, x ≤ m := by
  cases l with
  | nil => exact absurd rfl hl
  | cons a l =>
    refine ⟨_, rfl, ?_⟩
    have : ∀ (l : List ℕ) (a : ℕ), a ≤ l.foldl max a ∧ ∀ x ∈ l, x ≤ l.foldl max a := by
      intro l
      induction l with
      | nil => simp
      | cons b l ih =>
        intro a
        obtain ⟨h1, h2⟩ := ih (max a b)
        refine ⟨le_trans (le_max_left a b) h1, fun x hx => ?_⟩
        rcases List.mem_cons.mp hx with rfl | hx
        · exact le_trans (le_max_right a x) h1
        · exact h2 x hx
    intro x hx
    rcases List.mem_cons.mp hx with rfl | hx
    · exact (this l x).1
    · exact (this l a).2 x hx

/-- The charge of the first `n` operator pairs. -/
def chargeN {K : Type} (lab : ℕ → ℕ → ℕ) (d : VDef K) (f k n : ℕ) : ℤ :=
  (((List.range n).filter fun r => decide (d.flavors.getD r 0 = f)).map fun r =>
    (if lab f (d.sites.getD (2 * r) 0) = k then (1 : ℤ) else 0) - if lab f (d.sites.getD (2 * r + 1) 0) = k then 1 else 0).sum

theorem chargeN_succ {K : Type} (lab : ℕ → ℕ → ℕ) (d : VDef K) (f k n : ℕ) : chargeN lab d f k (n + 1) = chargeN lab d f k n +
    if d.flavors.getD n 0 = f then (if lab f (d.sites.getD (2 * n) 0) = k then (1 : ℤ) else 0) -
      (if lab f (d.sites.getD (2 * n + 1) 0) = k then 1 else 0) else 0 := by
  unfold chargeN
  rw [List.range_succ, List.filter_append, List.map_append, List.sum_append]
  congr 1
  by_cases h : d.flavors.getD n 0 = f
  · rw [if_pos h]; simp only [List.filter_cons, List.filter_nil, decide_eq_true_eq]; rw [if_pos h]; simp
  · rw [if_neg h]; simp only [List.filter_cons, List.filter_nil, decide_eq_true_eq]; rw [if_neg h]; rfl

theorem pos_iff {dim f f' k k' : ℕ} (hk : k < dim) (hk' : k' < dim) : dim * f + k = dim * f' + k' ↔ f = f' ∧ k = k' := by
  constructor
  · intro h
    have h1 : (dim * f + k) / dim = f := by
      rw [Nat.mul_add_div (by omega), Nat.div_eq_of_lt hk, add_zero]
    have h2 : (dim * f' + k') / dim = f' := by
      rw [Nat.mul_add_div (by omega), Nat.div_eq_of_lt hk', add_zero]
    have : f = f' := by rw [← h1, h, h2]
    subst this
    exact ⟨rfl, by omega⟩
  · rintro ⟨rfl, rfl⟩; rfl

theorem pos_lt {dim f k nf : ℕ} (hk : k < dim) (hf : f < nf) : dim * f + k < dim * nf := by
  calc dim * f + k < dim * f + dim := by omega
    _ = dim * (f + 1) := by ring
    _ ≤ dim * nf := Nat.mul_le_mul_left _ hf

variable {K : Type} [RCLike K]

theorem qnPair_ok {dim nf ns : ℕ} {gs : List Groups} {lab : ℕ → ℕ → ℕ} (hl : gs.length = nf)
    (hm : ∀ f (hf : f < gs.length), (gs[f]).map.length = ns ∧ ∀ s (hs : s < (gs[f]).map.length), (gs[f]).map[s] = lab f s)
    (hd : ∀ f < nf, ∀ s < ns, lab f s < dim) {d : VDef K} (hg : GoodDef ns nf d) (af : ℕ) {q : List ℤ} (hq : q.length = dim * nf)
    {r : ℕ} (hr : r < d.rank) :
    ∃ q', qnPair dim gs d af q r = .ok q' ∧ q'.length = dim * nf ∧ ∀ f < nf, ∀ k < dim, q'.getD (dim * f + k) 0 =
      q.getD (dim * f + k) 0 + if d.flavors.getD r 0 = f then (if lab f (d.sites.getD (2 * r) 0) = k then (1 : ℤ) else 0) -
        (if lab f (d.sites.getD (2 * r + 1) 0) = k then 1 else 0) else 0 := by
  have h1 : r < d.flavors.length := by rw [hg.fl]; exact hr
  have h2 : 2 * r < d.sites.length := by rw [hg.si]; omega
  have h3 : 2 * r + 1 < d.sites.length := by rw [hg.si]; omega
  have hf : d.flavors[r] < nf := hg.flavor _ (List.getElem_mem _)
  have hs1 : d.sites[2 * r] < ns := hg.site _ (List.getElem_mem _)
  have hs2 : d.sites[2 * r + 1] < ns := hg.site _ (List.getElem_mem _)
  have hfl : d.flavors[r] < gs.length := by rw [hl]; exact hf
  obtain ⟨m1, m2⟩ := hm _ hfl
  have ea : Res.get (gs[d.flavors[r]]).map (d.sites[2 * r]) = .ok (lab d.flavors[r] d.sites[2 * r]) := by
    rw [Res.get_of_lt (by rw [m1]; exact hs1), m2]
  have eb : Res.get (gs[d.flavors[r]]).map (d.sites[2 * r + 1]) = .ok (lab d.flavors[r] d.sites[2 * r + 1]) := by
    rw [Res.get_of_lt (by rw [m1]; exact hs2), m2]
  have la := hd _ hf _ hs1
  have lb := hd _ hf _ hs2
  rw [List.getD_eq_getElem _ _ h1, List.getD_eq_getElem _ _ h2, List.getD_eq_getElem _ _ h3]
  generalize hF : d.flavors[r] = F at *
  generalize hA : d.sites[2 * r] = A at *
  generalize hB : d.sites[2 * r + 1] = B at *
  unfold qnPair
  rw [Res.get_of_lt h1, Res.bind_ok, Res.get_of_lt h2, Res.bind_ok, Res.get_of_lt h3, Res.bind_ok, hF, hA, hB]
  simp only []
  rw [Res.get_of_lt hfl, Res.bind_ok, ea, Res.bind_ok, Res.assert_true (by rw [hq]; exact pos_lt la hf), Res.bind_ok, eb, Res.bind_ok,
    Res.assert_true (by rw [List.length_modify, hq]; exact pos_lt lb hf), Res.bind_ok]
  refine ⟨_, rfl, by rw [List.length_modify, List.length_modify, hq], fun f hf' k hk => ?_⟩
  have hlt : dim * f + k < q.length := by rw [hq]; exact pos_lt hk hf'
  rw [List.getD_eq_getElem _ _ (by rw [List.length_modify, List.length_modify]; exact hlt), List.getD_eq_getElem _ _ hlt,
    List.getElem_modify, List.getElem_modify]
  have e1 : dim * F + lab F B = dim * f + k ↔ F = f ∧ lab F B = k := pos_iff lb hk
  have e2 : dim * F + lab F A = dim * f + k ↔ F = f ∧ lab F A = k := pos_iff la hk
  simp only [e1, e2]
  by_cases hFf : F = f
  · subst hFf
    simp only [true_and, if_true]
    by_cases hAB : A = B
    · subst hAB
      simp only [if_true, sub_self, add_zero]
      by_cases hk' : lab F A = k
      · simp [hk']
      · simp [hk']
    · rw [if_neg hAB]
      split <;> split <;> simp <;> ring
  · simp [hFf]

theorem qn_fold {dim nf ns : ℕ} {gs : List Groups} {lab : ℕ → ℕ → ℕ} (hl : gs.length = nf)
    (hm : ∀ f (hf : f < gs.length), (gs[f]).map.length = ns ∧ ∀ s (hs : s < (gs[f]).map.length), (gs[f]).map[s] = lab f s)
    (hd : ∀ f < nf, ∀ s < ns, lab f s < dim) {d : VDef K} (hg : GoodDef ns nf d) (af : ℕ) :
    ∀ n ≤ d.rank, ∃ q, Res.foldl (qnPair dim gs d af) (List.replicate (dim * nf) 0) (List.range n) = .ok q ∧
      q.length = dim * nf ∧ ∀ f < nf, ∀ k < dim, q.getD (dim * f + k) 0 = chargeN lab d f k n := by
  intro n
  induction n with
  | zero =>
    intro _
    refine ⟨_, rfl, by simp, fun f hf k hk => ?_⟩
    have := pos_lt hk hf
    rw [List.getD_eq_getElem _ _ (by simpa using this)]
    simp [chargeN]
  | succ n ih =>
    intro hn
    obtain ⟨q, e, h1, h2⟩ := ih (by omega)
    obtain ⟨q', e', h1', h2'⟩ := qnPair_ok hl hm hd hg af h1 (show n < d.rank by omega)
    refine ⟨q', ?_, h1', fun f hf k hk => ?_⟩
    · rw [List.range_succ, Res.foldl_append, e, Res.bind_ok]
      simp only [Res.foldl_cons, Res.foldl_nil]
      rw [e']; rfl
    · rw [h2' f hf k hk, h2 f hf k hk, chargeN_succ]

end CTInt
