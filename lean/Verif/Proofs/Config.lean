import Verif.Proofs.Rows
import Mathlib.Algebra.BigOperators.Group.Finset.Basic
import Mathlib.Algebra.BigOperators.Group.Finset.Sigma

/-!
# Configurations: operator pairs, weights, flips
-/

set_option linter.all false

open Matrix

namespace CTInt

variable {K : Type} [Field K] [DecidableEq K] {NI : K} {nf : ℕ} {G0 : Op → Op → K} {tbl : List (VDef K)}

theorem termOf_mem {v : Vert} (h : v.type < tbl.length) : termOf tbl v ∈ tbl := by
  unfold termOf
  rw [List.getD_eq_getElem _ _ h]
  exact List.getElem_mem _

theorem fieldOf_NI {v : Vert} (h : v.nonInt = true) (r : ℕ) : fieldOf NI tbl v r = NI := by
  simp [fieldOf, h]

theorem fieldOf_good (ht : TblOK NI nf tbl) {v : Vert} (hv : VertOK tbl v) (h : v.nonInt = false) {r : ℕ}
    (hr : r < (termOf tbl v).rank) : GoodAlpha NI (fieldOf NI tbl v r) := by
  obtain ⟨h1, h2⟩ := hv
  obtain ⟨h3, h4⟩ := h2 h
  simp only [fieldOf, h]
  exact ht.al _ (termOf_mem h1) _ (by omega) r hr

theorem fieldOf_ok (ht : TblOK NI nf tbl) {v : Vert} (hv : VertOK tbl v) {r : ℕ}
    (hr : r < (termOf tbl v).rank) : OkAlpha NI (fieldOf NI tbl v r) := by
  cases h : v.nonInt with
  | true => exact Or.inl (fieldOf_NI h r)
  | false => exact Or.inr (fieldOf_good ht hv h hr)

theorem flavorOf_lt (ht : TblOK NI nf tbl) {v : Vert} (hv : v.type < tbl.length) {r : ℕ}
    (hr : r < (termOf tbl v).rank) : flavorOf tbl v r < nf := by
  have hm := termOf_mem hv
  unfold flavorOf
  rw [List.getD_eq_getElem _ _ (by rw [ht.fl _ hm]; exact hr)]
  exact ht.lt _ hm _ (List.getElem_mem _)

theorem mem_rowsV {fl : ℕ} {v : Vert} {x : OpRow K} :
    x ∈ rowsV NI tbl fl v ↔ ∃ r < (termOf tbl v).rank, flavorOf tbl v r = fl ∧ x = rowOf NI tbl v r := by
  unfold rowsV
  rw [List.mem_map]
  constructor
  · rintro ⟨r, hr, rfl⟩
    rw [List.mem_filter, List.mem_range] at hr
    exact ⟨r, hr.1, by simpa using hr.2, rfl⟩
  · rintro ⟨r, hr, h, rfl⟩
    exact ⟨r, by rw [List.mem_filter, List.mem_range]; exact ⟨hr, by simpa using h⟩, rfl⟩

theorem mem_rowsOf {fl : ℕ} {vs : List Vert} {x : OpRow K} :
    x ∈ rowsOf NI tbl vs fl ↔
      ∃ v ∈ vs, ∃ r < (termOf tbl v).rank, flavorOf tbl v r = fl ∧ x = rowOf NI tbl v r := by
  unfold rowsOf
  rw [List.mem_flatMap]
  simp only [mem_rowsV]

theorem rowsOf_ok (ht : TblOK NI nf tbl) {vs : List Vert} (hv : ∀ v ∈ vs, VertOK tbl v) {fl : ℕ} {x : OpRow K}
    (hx : x ∈ rowsOf NI tbl vs fl) : OkAlpha NI x.al := by
  obtain ⟨v, hm, r, hr, _, rfl⟩ := mem_rowsOf.mp hx
  exact fieldOf_ok ht (hv v hm) hr

/-- The pairs of the interacting vertices are the pairs whose field is not the marker. -/
theorem rowsOf_interacting (ht : TblOK NI nf tbl) {vs : List Vert} (hv : ∀ v ∈ vs, VertOK tbl v) (fl : ℕ) :
    (rowsOf NI tbl vs fl).filter (fun r => decide (r.al ≠ NI)) = rowsOf NI tbl (interacting vs) fl := by
  induction vs with
  | nil => rfl
  | cons v vs ih =>
    have ih := ih fun w hw => hv w (by simp [hw])
    have e : rowsOf NI tbl (v :: vs) fl = rowsV NI tbl fl v ++ rowsOf NI tbl vs fl := rfl
    rw [e, List.filter_append, ih]
    cases h : v.nonInt with
    | true =>
      have e2 : interacting (v :: vs) = interacting vs := by simp [interacting, h]
      rw [e2]
      have : (rowsV NI tbl fl v).filter (fun r => decide (r.al ≠ NI)) = [] := by
        rw [List.filter_eq_nil_iff]
        intro x hx
        obtain ⟨r, _, _, rfl⟩ := mem_rowsV.mp hx
        simp [rowOf, fieldOf_NI h]
      rw [this]; rfl
    | false =>
      have e2 : interacting (v :: vs) = v :: interacting vs := by simp [interacting, h]
      rw [e2]
      have : (rowsV NI tbl fl v).filter (fun r => decide (r.al ≠ NI)) = rowsV NI tbl fl v := by
        rw [List.filter_eq_self]
        intro x hx
        obtain ⟨r, hr, _, rfl⟩ := mem_rowsV.mp hx
        have := (fieldOf_good ht (hv v (by simp)) h hr).1
        simpa [rowOf] using this
      rw [this]; rfl

/-- ∏ over the pairs of a vertex of (1-f). -/
def vF (NI : K) (tbl : List (VDef K)) (v : Vert) : K :=
  ∏ r ∈ Finset.range (termOf tbl v).rank, oneMinusF NI (fieldOf NI tbl v r)

/-- ∏ over all pairs of all vertices of (1-f). -/
def fAll (NI : K) (tbl : List (VDef K)) (vs : List Vert) : K := (vs.map (vF NI tbl)).prod

theorem vF_ne_zero (ht : TblOK NI nf tbl) {v : Vert} (hv : VertOK tbl v) : vF NI tbl v ≠ 0 :=
  Finset.prod_ne_zero_iff.mpr fun r hr => oneMinusF_ne_zero (fieldOf_ok ht hv (Finset.mem_range.mp hr))

theorem fAll_ne_zero (ht : TblOK NI nf tbl) {vs : List Vert} (hv : ∀ v ∈ vs, VertOK tbl v) :
    fAll NI tbl vs ≠ 0 := by
  unfold fAll
  apply List.prod_ne_zero
  intro h
  obtain ⟨v, hm, e⟩ := List.mem_map.mp h
  exact vF_ne_zero ht (hv v hm) e

theorem range_filter_prod {f : ℕ → K} (p : ℕ → Prop) [DecidablePred p] (n : ℕ) :
    (((List.range n).filter fun r => decide (p r)).map f).prod = ∏ r ∈ (Finset.range n).filter p, f r := by
  rw [Finset.prod_filter]
  induction n with
  | zero => simp
  | succ n ih =>
    rw [List.range_succ, List.filter_append, List.map_append, List.prod_append, ih, Finset.prod_range_succ]
    congr 1
    by_cases h : p n <;> simp [h]

theorem prod_rowsV (ht : TblOK NI nf tbl) {v : Vert} (hv : VertOK tbl v) :
    ∏ fl ∈ Finset.range nf, ((rowsV NI tbl fl v).map fun r => oneMinusF NI r.al).prod = vF NI tbl v := by
  have e : ∀ fl, ((rowsV NI tbl fl v).map fun r => oneMinusF NI r.al).prod =
      ∏ r ∈ (Finset.range (termOf tbl v).rank).filter (fun r => flavorOf tbl v r = fl),
        oneMinusF NI (fieldOf NI tbl v r) := by
    intro fl
    unfold rowsV
    rw [List.map_map]
    exact range_filter_prod (fun r => flavorOf tbl v r = fl) _
  simp only [e]
  unfold vF
  exact Finset.prod_fiberwise_of_maps_to
    (fun r hr => Finset.mem_range.mpr (flavorOf_lt ht hv.1 (Finset.mem_range.mp hr))) _

theorem prod_rowsOf (ht : TblOK NI nf tbl) {vs : List Vert} (hv : ∀ v ∈ vs, VertOK tbl v) :
    ∏ fl ∈ Finset.range nf, ((rowsOf NI tbl vs fl).map fun r => oneMinusF NI r.al).prod = fAll NI tbl vs := by
  induction vs with
  | nil => simp [rowsOf, fAll]
  | cons v vs ih =>
    have e : ∀ fl, rowsOf NI tbl (v :: vs) fl = rowsV NI tbl fl v ++ rowsOf NI tbl vs fl := fun _ => rfl
    simp only [e, List.map_append, List.prod_append, Finset.prod_mul_distrib]
    rw [prod_rowsV ht (hv v (by simp)), ih fun w hw => hv w (by simp [hw])]
    simp [fAll]

/-- det A of everything is ∏ det(G0 - α) of the interacting part times ∏(1-f). -/
theorem detAll_eq (ht : TblOK NI nf tbl) {vs : List Vert} (hv : ∀ v ∈ vs, VertOK tbl v) :
    detAll NI nf G0 tbl vs = detWeight NI nf G0 tbl vs * fAll NI tbl vs := by
  unfold detAll detWeight
  rw [← prod_rowsOf ht hv, ← Finset.prod_mul_distrib]
  refine Finset.prod_congr rfl fun fl _ => ?_
  rw [detA_rows NI G0 fun r hr => rowsOf_ok ht hv hr, rowsOf_interacting ht hv]

theorem interacting_idem (vs : List Vert) : interacting (interacting vs) = interacting vs := by
  simp [interacting]

theorem detWeight_interacting (vs : List Vert) :
    detWeight NI nf G0 tbl (interacting vs) = detWeight NI nf G0 tbl vs := by
  unfold detWeight; rw [interacting_idem]

theorem weight_interacting (vs : List Vert) :
    weight NI nf G0 tbl (interacting vs) = weight NI nf G0 tbl vs := by
  unfold weight uWeight; rw [detWeight_interacting, interacting_idem]

theorem fAll_interacting (vs : List Vert) : fAll NI tbl (interacting vs) = fAll NI tbl vs := by
  induction vs with
  | nil => rfl
  | cons v vs ih =>
    cases h : v.nonInt with
    | true =>
      have e : vF NI tbl v = 1 := by
        unfold vF
        refine Finset.prod_eq_one fun r _ => ?_
        rw [fieldOf_NI h]; simp [oneMinusF]
      have e2 : interacting (v :: vs) = interacting vs := by simp [interacting, h]
      rw [e2, ih]
      simp [fAll, e]
    | false =>
      have e2 : interacting (v :: vs) = v :: interacting vs := by simp [interacting, h]
      rw [e2]
      unfold fAll at ih ⊢
      simp [ih]

/-- The factor of one vertex in ∏(-U). -/
def vU (tbl : List (VDef K)) (v : Vert) : K := if v.nonInt then 1 else - (termOf tbl v).U

theorem vU_ne_zero (ht : TblOK NI nf tbl) {v : Vert} (hv : VertOK tbl v) : vU tbl v ≠ 0 := by
  unfold vU
  split
  · exact one_ne_zero
  · exact neg_ne_zero.mpr (ht.U _ (termOf_mem hv.1))

theorem uWeight_eq (vs : List Vert) : uWeight tbl vs = (vs.map (vU tbl)).prod := by
  induction vs with
  | nil => rfl
  | cons v vs ih =>
    unfold uWeight at ih ⊢
    cases h : v.nonInt with
    | true =>
      have e2 : interacting (v :: vs) = interacting vs := by simp [interacting, h]
      rw [e2, ih]; simp [vU, h]
    | false =>
      have e2 : interacting (v :: vs) = v :: interacting vs := by simp [interacting, h]
      rw [e2]; simp [vU, h, ih]

theorem uWeight_ne_zero (ht : TblOK NI nf tbl) {vs : List Vert} (hv : ∀ v ∈ vs, VertOK tbl v) :
    uWeight tbl vs ≠ 0 := by
  rw [uWeight_eq]
  apply List.prod_ne_zero
  intro h
  obtain ⟨v, hm, e⟩ := List.mem_map.mp h
  exact vU_ne_zero ht (hv v hm) e

/-! ### Same vertices with other fields -/

/-- Same vertex, possibly in another auxiliary-field state. -/
structure SameVertex (a b : Vert) : Prop where
  type : b.type = a.type
  time : b.time = a.time
  uid : b.uid = a.uid

theorem SameVertex.refl (a : Vert) : SameVertex a a := ⟨rfl, rfl, rfl⟩

theorem SameVertex.trans {a b c : Vert} (h : SameVertex a b) (h' : SameVertex b c) : SameVertex a c :=
  ⟨h'.type.trans h.type, h'.time.trans h.time, h'.uid.trans h.uid⟩

theorem SameVertex.flip (a : Vert) (s : ℤ) : SameVertex a (flipTo a s) := by
  unfold flipTo; split <;> exact ⟨rfl, rfl, rfl⟩

theorem SameVertex.term {a b : Vert} (h : SameVertex a b) : termOf tbl b = termOf tbl a := by
  unfold termOf; rw [h.type]

theorem SameVertex.flavor {a b : Vert} (h : SameVertex a b) (r : ℕ) : flavorOf tbl b r = flavorOf tbl a r := by
  unfold flavorOf; rw [h.term]

theorem SameVertex.row {a b : Vert} (h : SameVertex a b) (r : ℕ) :
    rowOf NI tbl b r = { rowOf NI tbl a r with al := fieldOf NI tbl b r } := by
  unfold rowOf
  rw [h.flavor, h.term, h.time, h.uid, h.type]

/-- The current field of the pair described by `vi`, looked up in a configuration. -/
def curF (NI : K) (tbl : List (VDef K)) (vs : List Vert) (vi : VInfo) : K :=
  match vs.find? (fun v => decide (v.uid = vi.uid)) with
  | some v => fieldOf NI tbl v vi.rank
  | none => NI

theorem curF_mem {vs : List Vert} (nd : (vs.map Vert.uid).Nodup) {v : Vert} (hv : v ∈ vs) (t r : ℕ) :
    curF NI tbl vs ⟨t, r, v.uid⟩ = fieldOf NI tbl v r := by
  unfold curF
  have : vs.find? (fun w => decide (w.uid = v.uid)) = some v := by
    induction vs with
    | nil => simp at hv
    | cons w vs ih =>
      rw [List.map_cons, List.nodup_cons] at nd
      rw [List.find?_cons]
      rcases List.mem_cons.mp hv with rfl | hm
      · simp
      · have : w.uid ≠ v.uid := fun e => nd.1 (e ▸ List.mem_map_of_mem hm)
        simp only [this, decide_false]
        exact ih nd.2 hm
  simp only [this]

theorem map_rowsV_cur {cur : VInfo → K} {a b : Vert} (h : SameVertex a b)
    (hc : ∀ t r, cur ⟨t, r, b.uid⟩ = fieldOf NI tbl b r) (fl : ℕ) :
    (rowsV NI tbl fl a).map (fun x => { x with al := cur x.vi }) = rowsV NI tbl fl b := by
  unfold rowsV
  rw [h.term, List.map_map]
  simp only [h.flavor]
  refine List.map_congr_left fun r _ => ?_
  rw [h.row]
  simp only [Function.comp, rowOf]
  rw [← h.uid, hc]

theorem map_rowsOf_cur {cur : VInfo → K} {vs0 vs : List Vert} (h : List.Forall₂ SameVertex vs0 vs)
    (hc : ∀ v ∈ vs, ∀ t r, cur ⟨t, r, v.uid⟩ = fieldOf NI tbl v r) (fl : ℕ) :
    (rowsOf NI tbl vs0 fl).map (fun x => { x with al := cur x.vi }) = rowsOf NI tbl vs fl := by
  induction h with
  | nil => rfl
  | @cons a b l m hab hlm ih =>
    have e : ∀ v (l : List Vert), rowsOf NI tbl (v :: l) fl = rowsV NI tbl fl v ++ rowsOf NI tbl l fl :=
      fun _ _ => rfl
    rw [e, e, List.map_append, ih fun v hv => hc v (by simp [hv]), map_rowsV_cur hab (hc b (by simp))]

/-- With the current fields, the pairs recorded for the starting configuration are those of the current one. -/
theorem rowCur_perm {A : InvA K} {vs0 vs : List Vert} {fl : ℕ} (h : List.Forall₂ SameVertex vs0 vs)
    (nd : (vs.map Vert.uid).Nodup) (hp : A.rowList.Perm (rowsOf NI tbl vs0 fl)) :
    (A.rowCur fun i => curF NI tbl vs (A.vi.getD i default)).Perm (rowsOf NI tbl vs fl) := by
  have e : (A.rowCur fun i => curF NI tbl vs (A.vi.getD i default)) =
      A.rowList.map fun x => { x with al := curF NI tbl vs x.vi } := by
    unfold InvA.rowCur InvA.rowList
    rw [List.map_map]; rfl
  rw [e, ← map_rowsOf_cur h (fun v hv t r => curF_mem nd hv t r) fl]
  exact hp.map _

theorem detAF_cur {A : InvA K} {n : ℕ} (hA : A.Aligned n) {vs0 vs : List Vert} {fl : ℕ}
    (h : List.Forall₂ SameVertex vs0 vs) (nd : (vs.map Vert.uid).Nodup)
    (hp : A.rowList.Perm (rowsOf NI tbl vs0 fl)) :
    detAF NI G0 A n (fun i => curF NI tbl vs (A.vi.getD i default)) =
      detN (rowsOf NI tbl vs fl).length (rowA NI G0 (rowsOf NI tbl vs fl)) := by
  rw [detAF_rows NI G0 hA, detA_perm NI G0 (rowCur_perm h nd hp)]

/-! ### Pairs are identified by vertex id and rank -/

/-- What identifies a pair. -/
def rowKey (x : OpRow K) : ℕ × ℕ := (x.vi.uid, x.vi.rank)

theorem rowsOf_key_nodup {vs : List Vert} (nd : (vs.map Vert.uid).Nodup) (fl : ℕ) :
    ((rowsOf NI tbl vs fl).map rowKey).Nodup := by
  induction vs with
  | nil => simp [rowsOf]
  | cons v vs ih =>
    rw [List.map_cons, List.nodup_cons] at nd
    have e : rowsOf NI tbl (v :: vs) fl = rowsV NI tbl fl v ++ rowsOf NI tbl vs fl := rfl
    rw [e, List.map_append, List.nodup_append]
    refine ⟨?_, ih nd.2, ?_⟩
    · unfold rowsV
      rw [List.map_map]
      refine List.Nodup.map ?_ (List.nodup_range.filter _)
      intro a b hab
      simpa [rowKey, rowOf] using hab
    · intro a ha b hb hab
      obtain ⟨x, hx, rfl⟩ := List.mem_map.mp ha
      obtain ⟨y, hy, rfl⟩ := List.mem_map.mp hb
      obtain ⟨r, _, _, rfl⟩ := mem_rowsV.mp hx
      obtain ⟨w, hw, q, _, _, rfl⟩ := mem_rowsOf.mp hy
      apply nd.1
      have : v.uid = w.uid := by
        have := congrArg Prod.fst hab
        simpa [rowKey, rowOf] using this
      rw [this]; exact List.mem_map_of_mem hw

theorem findRowCol_spec {A : InvA K} (nd : (A.rowList.map rowKey).Nodup) {i : ℕ} (hi : i < A.cr.length)
    {u r : ℕ} (h : rowKey (A.rowAt i) = (u, r)) : A.findRowCol u r = some i := by
  unfold InvA.findRowCol
  rw [List.find?_range_eq_some]
  have key : ∀ k, rowKey (A.rowAt k) = ((A.vi.getD k default).uid, (A.vi.getD k default).rank) := fun _ => rfl
  rw [key] at h
  refine ⟨?_, List.mem_range.mpr hi, ?_⟩
  · simp only [Prod.mk.injEq] at h
    simpa using h
  · intro j hj
    simp only [Bool.not_eq_true', decide_eq_false_iff_not]
    intro h2
    have hk : rowKey (A.rowAt j) = rowKey (A.rowAt i) := by
      rw [key, key, h, h2.1, h2.2]
    have : A.rowList.map rowKey = (List.range A.cr.length).map fun k => rowKey (A.rowAt k) := by
      unfold InvA.rowList; rw [List.map_map]; rfl
    rw [this] at nd
    have := List.inj_on_of_nodup_map nd (List.mem_range.mpr (by omega)) (List.mem_range.mpr hi) hk
    omega

/-! ### Flips -/

theorem flipAll_length (vs : List Vert) (ps : List (ℕ × ℤ)) : (flipAll vs ps).length = vs.length := by
  induction ps generalizing vs with
  | nil => rfl
  | cons x ps ih => rw [flipAll, ih, List.length_modify]

theorem modify_getElem? {α : Type} (l : List α) (p : ℕ) (f : α → α) (i : ℕ) :
    (l.modify p f)[i]? = if p = i then l[i]?.map f else l[i]? := by
  rw [List.getElem?_modify]
  split <;> simp

theorem flipAll_off (vs : List Vert) (ps : List (ℕ × ℤ)) {i : ℕ} (h : i ∉ ps.map Prod.fst) :
    (flipAll vs ps)[i]? = vs[i]? := by
  induction ps generalizing vs with
  | nil => rfl
  | cons x ps ih =>
    rw [List.map_cons, List.mem_cons, not_or] at h
    rw [flipAll, ih _ h.2, modify_getElem?, if_neg (fun e => h.1 e.symm)]

theorem flipAll_on (vs : List Vert) {ps : List (ℕ × ℤ)} (nd : (ps.map Prod.fst).Nodup) {p : ℕ} {s : ℤ}
    (h : (p, s) ∈ ps) : (flipAll vs ps)[p]? = vs[p]?.map (flipTo · s) := by
  induction ps generalizing vs with
  | nil => simp at h
  | cons x ps ih =>
    rw [List.map_cons, List.nodup_cons] at nd
    rcases List.mem_cons.mp h with rfl | hm
    · rw [flipAll, flipAll_off _ _ nd.1, modify_getElem?, if_pos rfl]
    · have hne : x.1 ≠ p := fun e => nd.1 (e ▸ List.mem_map_of_mem hm)
      rw [flipAll, ih _ nd.2 hm, modify_getElem?, if_neg hne]

theorem flipAll_same (vs : List Vert) (ps : List (ℕ × ℤ)) : List.Forall₂ SameVertex vs (flipAll vs ps) := by
  induction ps generalizing vs with
  | nil => exact List.forall₂_same.mpr fun v _ => SameVertex.refl v
  | cons x ps ih =>
    have h1 : List.Forall₂ SameVertex vs (vs.modify x.1 (flipTo · x.2)) := by
      rw [List.forall₂_iff_get]
      refine ⟨by rw [List.length_modify], fun i h1 h2 => ?_⟩
      simp only [List.get_eq_getElem, List.getElem_modify]
      split
      · exact SameVertex.flip _ _
      · exact SameVertex.refl _
    have := ih (vs.modify x.1 (flipTo · x.2))
    rw [flipAll]
    rw [List.forall₂_iff_get] at h1 this ⊢
    refine ⟨h1.1.trans this.1, fun i h2 h3 => ?_⟩
    exact (h1.2 i h2 (h1.1 ▸ h2)).trans (this.2 i (h1.1 ▸ h2) h3)

theorem Forall₂_uids {vs0 vs : List Vert} (h : List.Forall₂ SameVertex vs0 vs) :
    vs.map Vert.uid = vs0.map Vert.uid := by
  induction h with
  | nil => rfl
  | cons h _ ih => rw [List.map_cons, List.map_cons, ih, h.uid]

/-- A product over the vertices after a flip. -/
theorem prod_flipAll (F : Vert → K) (vs : List Vert) {ps : List (ℕ × ℤ)} (nd : (ps.map Prod.fst).Nodup)
    (hlt : ∀ x ∈ ps, x.1 < vs.length) :
    ((flipAll vs ps).map F).prod * (ps.map fun x => F (vs.getD x.1 default)).prod =
      (vs.map F).prod * (ps.map fun x => F (flipTo (vs.getD x.1 default) x.2)).prod := by
  induction ps generalizing vs with
  | nil => rfl
  | cons x ps ih =>
    rw [List.map_cons, List.nodup_cons] at nd
    have hx := hlt x (by simp)
    have h1 := ih (vs.modify x.1 (flipTo · x.2)) nd.2 (fun y hy => by
      rw [List.length_modify]; exact hlt y (by simp [hy]))
    have e : ∀ y ∈ ps, (vs.modify x.1 (flipTo · x.2)).getD y.1 default = vs.getD y.1 default := by
      intro y hy
      have hne : x.1 ≠ y.1 := fun e => nd.1 (e ▸ List.mem_map_of_mem hy)
      simp only [List.getD_eq_getElem?_getD, modify_getElem?, if_neg hne]
    have e1 : (ps.map fun y => F ((vs.modify x.1 (flipTo · x.2)).getD y.1 default)) =
        ps.map fun y => F (vs.getD y.1 default) := List.map_congr_left fun y hy => by rw [e y hy]
    have e2 : (ps.map fun y => F (flipTo ((vs.modify x.1 (flipTo · x.2)).getD y.1 default) y.2)) =
        ps.map fun y => F (flipTo (vs.getD y.1 default) y.2) := List.map_congr_left fun y hy => by rw [e y hy]
    rw [e1, e2] at h1
    have h2 : ((vs.modify x.1 (flipTo · x.2)).map F).prod * F (vs.getD x.1 default) =
        (vs.map F).prod * F (flipTo (vs.getD x.1 default) x.2) := by
      obtain ⟨a, b, hab, hl⟩ : ∃ a b, vs = a ++ vs.getD x.1 default :: b ∧ a.length = x.1 := by
        refine ⟨vs.take x.1, vs.drop (x.1 + 1), ?_, by simp; omega⟩
        rw [List.getD_eq_getElem _ _ hx, List.getElem_cons_drop, List.take_append_drop]
      generalize hv : vs.getD x.1 default = w at hab ⊢
      subst hab
      have : (a ++ w :: b).modify x.1 (flipTo · x.2) = a ++ flipTo w x.2 :: b := by
        rw [← hl]
        simp [List.modify_eq_take_drop]
      rw [this]
      simp only [List.map_append, List.map_cons, List.prod_append, List.prod_cons]
      ring
    rw [flipAll, List.map_cons, List.prod_cons, List.map_cons, List.prod_cons]
    linear_combination F (vs.getD x.1 default) * h1 +
      (ps.map fun x => F (flipTo (vs.getD x.1 default) x.2)).prod * h2

end CTInt
