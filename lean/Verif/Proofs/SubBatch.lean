import Verif.Proofs.SubStep
import Verif.Proofs.Batch
import Verif.Props.Flavor

/-!
# Construction, start and end of a batch in `SubmatrixUpdate`
-/

set_option linter.all false

open Matrix

namespace CTInt

variable {K : Type} [RCLike K] [DecidableEq K]
variable {c : Ctx K} {s : Sub K}

/-- The invariant between batches. -/
structure ReadyInv (c : Ctx K) (s : Sub K) : Prop where
  idle : s.trying = false
  int : ∀ v ∈ s.verts, v.nonInt = false
  uids : (s.verts.map Vert.uid).Nodup
  uidle : ∀ v ∈ s.verts, v.uid ≤ s.uid
  ok : ∀ v ∈ s.verts, VertOK c.tbl v
  al : ∀ fl < c.nf, (s.invA fl).Aligned (s.invA fl).cr.length
  inv : ∀ fl < c.nf, IsInvOf (s.invA fl).mat (s.invA fl).cr.length
    (flavorA c.NI c.G0 (s.invA fl).an (s.invA fl).cr (s.invA fl).al)
  rows : ∀ fl < c.nf, (s.invA fl).rowList.Perm (rowsOf c.NI c.tbl s.verts fl)
  gamr : ∀ fl < c.nf, (s.gam fl).mat.rows = 0
  gamc : ∀ fl < c.nf, (s.gam fl).mat.cols = 0
  gami : ∀ fl < c.nf, (s.gam fl).info = []
  sgnA : s.signDetA = mysign (detAll c.NI c.nf c.G0 c.tbl s.verts)
  sgn : s.sign = mysign (weight c.NI c.nf c.G0 c.tbl s.verts)

/-! ### Pushing operators -/

/-- `A'` is `A` with the pairs `l` appended to the four vectors. -/
structure Pushed (A A' : InvA K) (l : List (OpRow K)) : Prop where
  mat : A'.mat = A.mat
  cr : A'.cr = A.cr ++ l.map OpRow.cr
  an : A'.an = A.an ++ l.map OpRow.an
  al : A'.al = A.al ++ l.map OpRow.al
  vi : A'.vi = A.vi ++ l.map OpRow.vi

theorem Pushed.refl (A : InvA K) : Pushed A A [] := ⟨rfl, by simp, by simp, by simp, by simp⟩

theorem Pushed.trans {A B C : InvA K} {l m : List (OpRow K)} (h : Pushed A B l) (h' : Pushed B C m) :
    Pushed A C (l ++ m) := by
  refine ⟨h'.mat.trans h.mat, ?_, ?_, ?_, ?_⟩
  · rw [h'.cr, h.cr, List.map_append, List.append_assoc]
  · rw [h'.an, h.an, List.map_append, List.append_assoc]
  · rw [h'.al, h.al, List.map_append, List.append_assoc]
  · rw [h'.vi, h.vi, List.map_append, List.append_assoc]

theorem Pushed.aligned {A B : InvA K} {l : List (OpRow K)} {n : ℕ} (h : Pushed A B l) (hA : A.Aligned n) :
    B.Aligned (n + l.length) := by
  refine ⟨?_, ?_, ?_, ?_⟩
  · rw [h.cr, List.length_append, List.length_map, hA.cr]
  · rw [h.an, List.length_append, List.length_map, hA.an]
  · rw [h.al, List.length_append, List.length_map, hA.al]
  · rw [h.vi, List.length_append, List.length_map, hA.vi]

theorem getD_append_lt {α : Type} (l m : List α) (d : α) {i : ℕ} (h : i < l.length) :
    (l ++ m).getD i d = l.getD i d := by
  rw [List.getD_eq_getElem?_getD, List.getD_eq_getElem?_getD, List.getElem?_append_left h]

theorem getD_append_ge {α : Type} (l m : List α) (d : α) (i : ℕ) :
    (l ++ m).getD (l.length + i) d = m.getD i d := by
  rw [List.getD_eq_getElem?_getD, List.getD_eq_getElem?_getD, List.getElem?_append_right (by omega)]
  congr 2
  omega

theorem Pushed.rowAt_lt {A B : InvA K} {l : List (OpRow K)} {n : ℕ} (h : Pushed A B l) (hA : A.Aligned n) {i : ℕ}
    (hi : i < n) : B.rowAt i = A.rowAt i := by
  unfold InvA.rowAt
  rw [h.cr, h.an, h.al, h.vi, getD_append_lt _ _ _ (by rw [hA.cr]; exact hi),
    getD_append_lt _ _ _ (by rw [hA.an]; exact hi), getD_append_lt _ _ _ (by rw [hA.al]; exact hi),
    getD_append_lt _ _ _ (by rw [hA.vi]; exact hi)]

theorem Pushed.rowAt_ge {A B : InvA K} {l : List (OpRow K)} {n : ℕ} (h : Pushed A B l) (hA : A.Aligned n) {i : ℕ}
    (hi : i < l.length) : B.rowAt (n + i) = l.getD i default := by
  have e1 := getD_append_ge A.cr (l.map OpRow.cr) default i
  have e2 := getD_append_ge A.an (l.map OpRow.an) default i
  have e3 := getD_append_ge A.al (l.map OpRow.al) 0 i
  have e4 := getD_append_ge A.vi (l.map OpRow.vi) default i
  rw [hA.cr] at e1
  rw [hA.an] at e2
  rw [hA.al] at e3
  rw [hA.vi] at e4
  unfold InvA.rowAt
  rw [h.cr, h.an, h.al, h.vi, e1, e2, e3, e4]
  simp [hi]

theorem Pushed.rowList {A B : InvA K} {l : List (OpRow K)} {n : ℕ} (h : Pushed A B l) (hA : A.Aligned n) :
    B.rowList = A.rowList ++ l := by
  have hB := h.aligned hA
  apply List.ext_getElem
  · rw [List.length_append, rowList_length, rowList_length, hB.cr, hA.cr]
  intro i h1 h2
  rw [rowList_getElem B (by rw [rowList_length] at h1; exact h1)]
  rw [rowList_length, hB.cr] at h1
  by_cases hi : i < n
  · rw [h.rowAt_lt hA hi, List.getElem_append_left (by rw [rowList_length, hA.cr]; exact hi),
      rowList_getElem A (by rw [hA.cr]; exact hi)]
  · obtain ⟨k, rfl⟩ : ∃ k, i = n + k := ⟨i - n, by omega⟩
    rw [h.rowAt_ge hA (by omega), List.getElem_append_right (by rw [rowList_length, hA.cr]; omega),
      List.getD_eq_getElem _ _ (by omega)]
    congr 1
    rw [rowList_length, hA.cr]; omega

theorem pushRank_spec (ht : TblOK c.NI c.nf c.tbl) {v : Vert} (hv : VertOK c.tbl v) {r : ℕ}
    (hr : r < (termOf c.tbl v).rank) {I : ℕ → InvA K} (hI : ∀ fl < c.nf, ∃ n, (I fl).Aligned n) :
    ∃ I', pushRank c (termOf c.tbl v) v I r = .ok I' ∧
      ∀ fl, Pushed (I fl) (I' fl) (if flavorOf c.tbl v r = fl then [rowOf c.NI c.tbl v r] else []) := by
  have hm := termOf_mem hv.1
  have hfl : r < (termOf c.tbl v).flavors.length := by rw [ht.fl _ hm]; exact hr
  have hs1 : 2 * r < (termOf c.tbl v).sites.length := by rw [ht.si _ hm]; omega
  have hs2 : 2 * r + 1 < (termOf c.tbl v).sites.length := by rw [ht.si _ hm]; omega
  have ef : Res.get (termOf c.tbl v).flavors r = .ok (flavorOf c.tbl v r) := by
    rw [Res.get_of_lt hfl]; unfold flavorOf; rw [List.getD_eq_getElem _ _ hfl]
  have e1 : Res.get (termOf c.tbl v).sites (2 * r) = .ok ((termOf c.tbl v).sites.getD (2 * r) 0) := by
    rw [Res.get_of_lt hs1, List.getD_eq_getElem _ _ hs1]
  have e2 : Res.get (termOf c.tbl v).sites (2 * r + 1) = .ok ((termOf c.tbl v).sites.getD (2 * r + 1) 0) := by
    rw [Res.get_of_lt hs2, List.getD_eq_getElem _ _ hs2]
  have hlt := flavorOf_lt ht hv.1 hr
  obtain ⟨n, hA⟩ := hI _ hlt
  unfold pushRank
  rw [ef, Res.bind_ok, Res.assert_true hlt, Res.bind_ok, e1, Res.bind_ok, e2, Res.bind_ok, alphaOf_eq hv hr,
    Res.bind_ok]
  unfold InvA.pushBackOp
  rw [Res.assert_true (by rw [hA.an, hA.cr]), Res.bind_ok, Res.assert_true (by rw [hA.an, hA.al]), Res.bind_ok,
    Res.assert_true (by rw [hA.an, hA.vi]), Res.bind_ok]
  simp only [Res.pure_eq, Res.bind_ok]
  refine ⟨_, rfl, fun fl => ?_⟩
  by_cases h : flavorOf c.tbl v r = fl
  · subst h
    rw [if_pos rfl, Function.update_self]
    exact ⟨rfl, rfl, rfl, rfl, rfl⟩
  · rw [if_neg h, Function.update_of_ne (fun e => h e.symm)]
    exact Pushed.refl _

theorem pushRanks_spec (ht : TblOK c.NI c.nf c.tbl) {v : Vert} (hv : VertOK c.tbl v) (l : List ℕ)
    (hl : ∀ r ∈ l, r < (termOf c.tbl v).rank) {I : ℕ → InvA K} (hI : ∀ fl < c.nf, ∃ n, (I fl).Aligned n) :
    ∃ I', Res.foldl (pushRank c (termOf c.tbl v) v) I l = .ok I' ∧
      ∀ fl, Pushed (I fl) (I' fl) ((l.filter fun r => decide (flavorOf c.tbl v r = fl)).map (rowOf c.NI c.tbl v)) := by
  induction l generalizing I with
  | nil => exact ⟨I, rfl, fun fl => Pushed.refl _⟩
  | cons r l ih =>
    obtain ⟨I1, e1, p1⟩ := pushRank_spec ht hv (hl r (by simp)) hI
    obtain ⟨I2, e2, p2⟩ := ih (fun r hr => hl r (by simp [hr])) (I := I1) (fun fl hfl => by
      obtain ⟨n, hA⟩ := hI fl hfl
      exact ⟨_, (p1 fl).aligned hA⟩)
    refine ⟨I2, by rw [Res.foldl_cons, e1, Res.bind_ok, e2], fun fl => ?_⟩
    have := (p1 fl).trans (p2 fl)
    convert this using 1
    rw [List.filter_cons]
    by_cases h : flavorOf c.tbl v r = fl <;> simp [h]

theorem pushVertices_spec (ht : TblOK c.NI c.nf c.tbl) {vs : List Vert} (hv : ∀ v ∈ vs, VertOK c.tbl v)
    {I : ℕ → InvA K} (hI : ∀ fl < c.nf, ∃ n, (I fl).Aligned n) :
    ∃ I', Res.foldl (pushVertex c) I vs = .ok I' ∧ ∀ fl, Pushed (I fl) (I' fl) (rowsOf c.NI c.tbl vs fl) := by
  induction vs generalizing I with
  | nil => exact ⟨I, rfl, fun fl => Pushed.refl _⟩
  | cons v vs ih =>
    have hv0 := hv v (by simp)
    obtain ⟨I1, e1, p1⟩ := pushRanks_spec ht hv0 (List.range (termOf c.tbl v).rank)
      (fun r hr => List.mem_range.mp hr) hI
    obtain ⟨I2, e2, p2⟩ := ih (fun w hw => hv w (by simp [hw])) (I := I1) (fun fl hfl => by
      obtain ⟨n, hA⟩ := hI fl hfl
      exact ⟨_, (p1 fl).aligned hA⟩)
    have et : Res.get c.tbl v.type = .ok (termOf c.tbl v) := by
      have hlt : v.type < c.tbl.length := hv0.1
      rw [Res.get_of_lt hlt]; unfold termOf; rw [List.getD_eq_getElem _ _ hlt]
    have : pushVertex c I v = .ok I1 := by
      unfold pushVertex
      rw [et, Res.bind_ok, e1]
    refine ⟨I2, by rw [Res.foldl_cons, this, Res.bind_ok, e2], fun fl => ?_⟩
    exact (p1 fl).trans (p2 fl)

/-! ### Ids -/

theorem withIds_length (vs : List Vert) (k : ℕ) : (Sub.withIds vs k).length = vs.length := by
  induction vs generalizing k with
  | nil => rfl
  | cons v vs ih => simp [Sub.withIds, ih]

theorem withIds_uid (vs : List Vert) (k : ℕ) : (Sub.withIds vs k).map Vert.uid = (List.range vs.length).map (k + 1 + ·) := by
  induction vs generalizing k with
  | nil => rfl
  | cons v vs ih =>
    rw [Sub.withIds, List.map_cons, ih, List.length_cons, List.range_succ_eq_map, List.map_cons, List.map_map]
    congr 1
    refine List.map_congr_left fun i _ => ?_
    simp only [Function.comp]
    omega

theorem withIds_mem {vs : List Vert} {k : ℕ} {v : Vert} (h : v ∈ Sub.withIds vs k) :
    ∃ w ∈ vs, ∃ u, v = { w with uid := u } := by
  induction vs generalizing k with
  | nil => simp [Sub.withIds] at h
  | cons w vs ih =>
    rw [Sub.withIds, List.mem_cons] at h
    rcases h with rfl | h
    · exact ⟨w, by simp, _, rfl⟩
    · obtain ⟨w', hw, u, e⟩ := ih h
      exact ⟨w', by simp [hw], u, e⟩

theorem withIds_nodup {vs ns : List Vert} {k : ℕ} (h : (vs.map Vert.uid).Nodup) (hle : ∀ v ∈ vs, v.uid ≤ k) :
    ((vs ++ Sub.withIds ns k).map Vert.uid).Nodup ∧ ∀ v ∈ vs ++ Sub.withIds ns k, v.uid ≤ k + ns.length := by
  have hu : ∀ v ∈ Sub.withIds ns k, k < v.uid ∧ v.uid ≤ k + ns.length := by
    intro v hv
    have : v.uid ∈ (Sub.withIds ns k).map Vert.uid := List.mem_map_of_mem hv
    rw [withIds_uid, List.mem_map] at this
    obtain ⟨i, hi, e⟩ := this
    have := List.mem_range.mp hi
    omega
  refine ⟨?_, ?_⟩
  · rw [List.map_append]
    refine List.Nodup.append h ?_ ?_
    · rw [withIds_uid]
      exact List.Nodup.map (fun a b h => by simpa using h) List.nodup_range
    · intro u h1 h2
      obtain ⟨v, hv, rfl⟩ := List.mem_map.mp h1
      obtain ⟨w, hw, e⟩ := List.mem_map.mp h2
      have := hle v hv
      have := (hu w hw).1
      omega
  · intro v hv
    rcases List.mem_append.mp hv with hv | hv
    · have := hle v hv; omega
    · exact (hu v hv).2

/-! ### Starting a batch -/

theorem interacting_append_NI {vs ns : List Vert} (h : ∀ v ∈ ns, v.nonInt = true) :
    interacting (vs ++ ns) = interacting vs := by
  unfold interacting
  rw [List.filter_append]
  have : ns.filter (fun v => !v.nonInt) = [] := by
    rw [List.filter_eq_nil_iff]
    intro v hv
    simp [h v hv]
  rw [this, List.append_nil]

theorem weight_of_interacting {vs ws : List Vert} (h : interacting vs = interacting ws) :
    weight c.NI c.nf c.G0 c.tbl vs = weight c.NI c.nf c.G0 c.tbl ws := by
  rw [← weight_interacting, h, weight_interacting]

theorem detAll_of_interacting (ht : TblOK c.NI c.nf c.tbl) {vs ws : List Vert} (hv : ∀ v ∈ vs, VertOK c.tbl v)
    (hw : ∀ v ∈ ws, VertOK c.tbl v) (h : interacting vs = interacting ws) :
    detAll c.NI c.nf c.G0 c.tbl vs = detAll c.NI c.nf c.G0 c.tbl ws := by
  rw [detAll_eq ht hv, detAll_eq ht hw, ← detWeight_interacting, ← fAll_interacting, h, detWeight_interacting,
    fAll_interacting]

theorem interacting_self {vs : List Vert} (h : ∀ v ∈ vs, v.nonInt = false) : interacting vs = vs := by
  unfold interacting
  rw [List.filter_eq_self]
  intro v hv
  simp [h v hv]

/-- Fields recorded at the positions of one flavor. -/
theorem al_of_rows {A : InvA K} {vs : List Vert} {fl : ℕ} (h : A.rowList.Perm (rowsOf c.NI c.tbl vs fl)) {i : ℕ}
    (hi : i < A.cr.length) : ∃ v ∈ vs, ∃ r < (termOf c.tbl v).rank, flavorOf c.tbl v r = fl ∧
      A.rowAt i = rowOf c.NI c.tbl v r := by
  have hm : A.rowAt i ∈ A.rowList := List.mem_map_of_mem (List.mem_range.mpr hi)
  rw [h.mem_iff] at hm
  exact mem_rowsOf.mp hm

theorem flavorA_congr {NI : K} {G0 : Op → Op → K} {A B : InvA K} {n : ℕ} (h : ∀ i < n, B.rowAt i = A.rowAt i)
    {i j : ℕ} (hi : i < n) (hj : j < n) :
    flavorA NI G0 B.an B.cr B.al i j = flavorA NI G0 A.an A.cr A.al i j := by
  have e1 := congrArg OpRow.an (h i hi)
  have e2 := congrArg OpRow.cr (h j hj)
  have e3 := congrArg OpRow.al (h j hj)
  simp only [InvA.rowAt] at e1 e2 e3
  unfold flavorA specA specG0
  simp only []
  rw [e1, e2, e3]

theorem IsInvOf.congr' {X : DMat K} {n : ℕ} {g g' : ℕ → ℕ → K} (h : IsInvOf X n g)
    (e : ∀ i < n, ∀ j < n, g' i j = g i j) : IsInvOf X n g' := by
  obtain ⟨h1, h2, h3⟩ := h
  refine ⟨h1, h2, ?_⟩
  rw [toM_congr e]
  exact h3

/-- `init_update`: the batch starts in a state meeting the batch invariant, with the new vertices appended as
    non-interacting ones with fresh ids. -/
theorem initUpdate_spec (ht : TblOK c.NI c.nf c.tbl) (h : ReadyInv c s) {new : List Vert}
    (hnew : ∀ v ∈ new, v.type < c.tbl.length) (j1 j2 j3 : ℕ → ℕ → ℕ → K) :
    ∃ s', Sub.initUpdate c j1 j2 j3 new s = .ok s' ∧ TryInv c s' ∧
      s'.verts = s.verts ++ Sub.withIds (new.map fun v => { v with nonInt := true }) s.uid ∧
      s'.verts0 = s'.verts ∧ s'.uid = s.uid + new.length := by
  set ns := Sub.withIds (new.map fun v => { v with nonInt := true }) s.uid with hns
  have hnsNI : ∀ v ∈ ns, v.nonInt = true := by
    intro v hv
    obtain ⟨w, hw, u, rfl⟩ := withIds_mem hv
    obtain ⟨w', _, rfl⟩ := List.mem_map.mp hw
    rfl
  have hnsOk : ∀ v ∈ ns, VertOK c.tbl v := by
    intro v hv
    refine ⟨?_, fun e => by rw [hnsNI v hv] at e; cases e⟩
    obtain ⟨w, hw, u, rfl⟩ := withIds_mem hv
    obtain ⟨w', hw', rfl⟩ := List.mem_map.mp hw
    exact hnew w' hw'
  have hlen : ns.length = new.length := by rw [hns, withIds_length, List.length_map]
  have hok : ∀ v ∈ s.verts ++ ns, VertOK c.tbl v := by
    intro v hv
    rcases List.mem_append.mp hv with hv | hv
    · exact h.ok v hv
    · exact hnsOk v hv
  obtain ⟨nd, nle⟩ := withIds_nodup (ns := new.map fun v => { v with nonInt := true }) h.uids h.uidle
  rw [← hns] at nd nle
  rw [List.length_map] at nle
  -- the matrices after appending
  have hI : ∃ I1, (if s.verts.length < (s.verts ++ ns).length then
        addNonInt c j1 j2 (s.verts ++ ns) s.verts.length s.invA else pure s.invA) = .ok I1 ∧
      ∀ fl < c.nf, (I1 fl).Aligned (I1 fl).cr.length ∧
        IsInvOf (I1 fl).mat (I1 fl).cr.length (flavorA c.NI c.G0 (I1 fl).an (I1 fl).cr (I1 fl).al) ∧
        (I1 fl).rowList.Perm (rowsOf c.NI c.tbl (s.verts ++ ns) fl) ∧
        ((∃ i < (I1 fl).cr.length, (I1 fl).al.getD i 0 = c.NI) → CacheOK c.G0 (I1 fl) (I1 fl).cr.length) := by
    by_cases hz : s.verts.length < (s.verts ++ ns).length
    · rw [if_pos hz]
      unfold addNonInt
      rw [List.drop_left, Res.assert_true hnsNI, Res.bind_ok]
      obtain ⟨I1, e1, p1⟩ := pushVertices_spec ht hnsOk (I := s.invA) (fun fl hfl => ⟨_, h.al fl hfl⟩)
      rw [e1, Res.bind_ok]
      obtain ⟨I2, e2, p2, _⟩ := forFlavors_spec (nf := c.nf)
        (f := fun fl A => A.extend c.NI c.G0 (j1 fl) (j2 fl)) (x := I1)
        (P := fun fl A => A.Aligned A.cr.length ∧
          IsInvOf A.mat A.cr.length (flavorA c.NI c.G0 A.an A.cr A.al) ∧
          A.rowList.Perm (rowsOf c.NI c.tbl (s.verts ++ ns) fl) ∧
          ((∃ i < A.cr.length, A.al.getD i 0 = c.NI) → CacheOK c.G0 A A.cr.length))
        (fun fl hfl => by
          have hA := h.al fl hfl
          have hA1 := (p1 fl).aligned hA
          have hX : IsInvOf (I1 fl).mat (s.invA fl).cr.length
              (flavorA c.NI c.G0 (I1 fl).an (I1 fl).cr (I1 fl).al) := by
            rw [(p1 fl).mat]
            exact (h.inv fl hfl).congr' fun i hi j hj =>
              flavorA_congr (fun i hi => (p1 fl).rowAt_lt hA hi) hi hj
          obtain ⟨A', q1, q2, q3, q4, q5, q6, q7, _, q9⟩ := extend_spec hA1 hX (fun j hj hj' => by
            obtain ⟨k, rfl⟩ : ∃ k, j = (s.invA fl).cr.length + k := ⟨j - (s.invA fl).cr.length, by omega⟩
            have hk : k < (rowsOf c.NI c.tbl ns fl).length := by omega
            have := congrArg OpRow.al ((p1 fl).rowAt_ge hA hk)
            rw [List.getD_eq_getElem _ _ hk] at this
            obtain ⟨v, hv, r, _, _, e⟩ := mem_rowsOf.mp (List.getElem_mem hk)
            rw [e] at this
            exact this.trans (fieldOf_NI (hnsNI v hv) r)) (j1 fl) (j2 fl)
          have q2' := q2.cr
          refine ⟨A', q1, ?_, ?_, ?_, ?_⟩
          · rw [q2']; exact q2
          · rw [q2', q3, q4, q5]; exact q7
          · have : A'.rowList = (I1 fl).rowList := by
              unfold InvA.rowList InvA.rowAt
              rw [q3, q4, q5, q6]
            rw [this, (p1 fl).rowList hA]
            have e : rowsOf c.NI c.tbl (s.verts ++ ns) fl = rowsOf c.NI c.tbl s.verts fl ++ rowsOf c.NI c.tbl ns fl := by
              unfold rowsOf; rw [List.flatMap_append]
            rw [e]
            exact (h.rows fl hfl).append_right _
          · intro _; rw [q2']; exact q9)
      exact ⟨I2, e2, p2⟩
    · have hn0 : ns = [] := by
        rw [List.length_append] at hz
        exact List.length_eq_zero_iff.mp (by omega)
      rw [if_neg hz, hn0, List.append_nil]
      refine ⟨s.invA, rfl, fun fl hfl => ⟨h.al fl hfl, h.inv fl hfl, h.rows fl hfl, ?_⟩⟩
      rintro ⟨i, hi, e⟩
      exfalso
      obtain ⟨v, hv, r, hr, _, e2⟩ := al_of_rows (h.rows fl hfl) hi
      have := congrArg OpRow.al e2
      have e3 : (s.invA fl).al.getD i 0 = fieldOf c.NI c.tbl v r := this
      rw [e] at e3
      exact (fieldOf_good ht (h.ok v hv) (h.int v hv) hr).1 e3.symm
  obtain ⟨I1, e1, p1⟩ := hI
  obtain ⟨I2, e2, p2, _⟩ := forFlavors_spec (nf := c.nf)
    (f := fun fl A => A.updateTildeG c.NI c.G0 (j3 fl)) (x := I1)
    (P := fun fl A => Setup c.NI c.G0 A A.cr.length ∧ A.rowList.Perm (rowsOf c.NI c.tbl (s.verts ++ ns) fl))
    (fun fl hfl => by
      obtain ⟨q1, q2, q3, q4⟩ := p1 fl hfl
      obtain ⟨A', r1, r2, r3, r4, r5, r6, r7⟩ := updateTildeG_spec q1 q2 (fun i hi => by
        obtain ⟨v, hv, r, hr, _, e⟩ := al_of_rows q3 hi
        have := congrArg OpRow.al e
        have e3 : (I1 fl).al.getD i 0 = fieldOf c.NI c.tbl v r := this
        rw [e3]
        exact fieldOf_ok ht (hok v hv) hr) q4 (j3 fl)
      refine ⟨A', r1, by rw [r3]; exact r7, ?_⟩
      have : A'.rowList = (I1 fl).rowList := by
        unfold InvA.rowList InvA.rowAt
        rw [r3, r4, r5, r6]
      rw [this]; exact q3)
  unfold Sub.initUpdate
  rw [Res.assert_true h.idle, Res.bind_ok]
  simp only [← hns]
  rw [Res.assert_true h.int, Res.bind_ok, e1, Res.bind_ok, e2]
  simp only [Res.bind_ok, Res.pure_eq]
  refine ⟨_, rfl, ?_, rfl, rfl, rfl⟩
  have hint : interacting (s.verts ++ ns) = interacting s.verts := interacting_append_NI hnsNI
  exact {
    trying := rfl
    same := List.forall₂_same.mpr fun v _ => SameVertex.refl v
    uids := nd
    uidle := nle
    ok0 := hok
    ok := hok
    flav := fun fl hfl => by
      obtain ⟨q1, q2⟩ := p2 fl hfl
      have hcur : ∀ i < (I2 fl).cr.length, c.cur (I2 fl) (s.verts ++ ns) i = (I2 fl).al.getD i 0 := by
        intro i hi
        obtain ⟨v, hv, r, hr, _, e⟩ := al_of_rows q2 hi
        have e3 : (I2 fl).al.getD i 0 = fieldOf c.NI c.tbl v r := congrArg OpRow.al e
        have e4 : (I2 fl).vi.getD i default = ⟨v.type, r, v.uid⟩ := congrArg OpRow.vi e
        unfold Ctx.cur
        rw [e3, e4, curF_mem nd hv]
      have hgi : (s.gam fl).info = [] := h.gami fl hfl
      refine ⟨q1, ?_, ?_, ?_⟩
      · show InfoOK _ _ _ (s.gam fl).info
        rw [hgi]
        exact ⟨by simp, by simp, by simp, by simp, by simp, fun i hi _ => hcur i hi⟩
      · intro i hi
        show OkAlpha c.NI (c.cur (I2 fl) (s.verts ++ ns) i)
        rw [hcur i hi]
        exact q1.ok i hi
      · show IsInvOf (s.gam fl).mat (s.gam fl).info.length _
        rw [hgi]
        refine ⟨h.gamr fl hfl, h.gamc fl hfl, ?_⟩
        ext i; exact absurd i.2 (by simp)
    rows := fun fl hfl => (p2 fl hfl).2
    sgnA := by
      show s.signDetA = mysign _
      rw [h.sgnA, detAll_of_interacting ht hok h.ok hint]
    sgn := by
      show s.sign = mysign _
      rw [h.sgn, weight_of_interacting hint] }

end CTInt
