import Verif.Proofs.Gamma

/-!
# Start and end of a batch of trials on one flavor
-/

set_option linter.all false

open Matrix

namespace CTInt

variable {K : Type} [Field K] [DecidableEq K] {NI : K} {G0 : Op → Op → K} {A : InvA K} {n : ℕ}

/-- Appending operators of non-interacting vertices. -/
theorem extend_spec {a : ℕ} (hA : A.Aligned (n + a)) (hX : IsInvOf A.mat n (flavorA NI G0 A.an A.cr A.al))
    (hNI : ∀ j, n ≤ j → j < n + a → A.al.getD j 0 = NI) (j1 j2 : ℕ → ℕ → K) :
    ∃ A', A.extend NI G0 j1 j2 = .ok A' ∧ A'.Aligned (n + a) ∧
      A'.cr = A.cr ∧ A'.an = A.an ∧ A'.al = A.al ∧ A'.vi = A.vi ∧
      IsInvOf A'.mat (n + a) (flavorA NI G0 A.an A.cr A.al) ∧
      detN (n + a) (flavorA NI G0 A.an A.cr A.al) = detN n (flavorA NI G0 A.an A.cr A.al) ∧
      CacheOK G0 A' (n + a) := by
  obtain ⟨hr, hc, hm⟩ := id hX
  unfold InvA.extend
  simp only [hr, hc, hA.cr, hA.an, hA.al, Res.assert_true (show n ≤ n + a by omega), Res.bind_ok,
    show n + a - n = a by omega]
  rw [Res.assert_true (show True ∧ n + a ≤ n + a ∧ n ≤ n + a from ⟨trivial, le_rfl, by omega⟩)]
  simp only [Res.bind_ok, Res.pure_eq]
  refine ⟨_, rfl, ⟨hA.cr, hA.an, hA.al, hA.vi⟩, rfl, rfl, rfl, rfl, ?_⟩
  rw [← and_assoc]
  refine ⟨extend_blocks hX (fun i hi j hj hj' => flavorA_col_NI (hNI j hj hj')) rfl rfl ?_ ?_ ?_ ?_, ?_⟩
  · intro i hi j hj
    rw [DMat.setBlock_out (by omega)]
    simp only [if_neg (show ¬ (n ≤ i ∧ i = j) by omega), if_neg (show ¬ (n ≤ i ∨ n ≤ j) by omega)]
    exact DMat.conservativeResize_val (by omega)
  · intro i hi j hj
    rw [DMat.setBlock_out (by omega)]
    simp only [if_neg (show ¬ (n ≤ i ∧ i = n + j) by omega), if_pos (show (n ≤ i ∨ n ≤ n + j) by omega)]
  · intro i hi j hj
    rw [DMat.setBlock_out (by simp)]
    by_cases e : i = j
    · subst e; simp
    · simp [e]
  · intro i hi j hj
    rw [DMat.setBlock_in (by simp [DMat.neg]; omega)]
    rw [DMat.mul_val, ← Finset.sum_neg_distrib]
    refine Finset.sum_congr rfl fun k hk => ?_
    have hk' : k < n := Finset.mem_range.mp hk
    simp only [DMat.neg_val, DMat.block_val, zero_add, Nat.sub_zero, show n + i - n + n = n + i by omega,
      if_neg (show ¬ (n ≤ k ∧ k = j) by omega), if_neg (show ¬ (n ≤ k ∨ n ≤ j) by omega)]
    rw [DMat.conservativeResize_val (by omega)]
    unfold flavorA specA specG0
    rw [if_neg (by omega), evalF_eq]
    ring
  · refine ⟨by simp, rfl, fun c hc' h0 => ?_⟩
    exfalso
    simp only [List.getD_replicate _ hc'] at h0
    omega

/-- `update_tildeG` stores A⁻¹ G0. -/
theorem updateTildeG_spec (hA : A.Aligned n) (hX : IsInvOf A.mat n (flavorA NI G0 A.an A.cr A.al))
    (hok : ∀ i < n, OkAlpha NI (A.al.getD i 0))
    (hC : (∃ i < n, A.al.getD i 0 = NI) → CacheOK G0 A n) (junk : ℕ → ℕ → K) :
    ∃ A', A.updateTildeG NI G0 junk = .ok A' ∧ A'.mat = A.mat ∧ A'.cr = A.cr ∧ A'.an = A.an ∧ A'.al = A.al ∧
      A'.vi = A.vi ∧ Setup NI G0 A' n := by
  obtain ⟨hr, hc, hm⟩ := id hX
  set slow := (List.range n).filter fun c => decide (A.al.getD c 0 = NI) with hslow
  obtain ⟨A1, gs, e1, s1, _, l1, g1⟩ := slowCols_spec (cs := slow) (junk := junk) hA hr
    (fun h => by
      obtain ⟨c, hc'⟩ := List.exists_mem_of_ne_nil _ h
      rw [hslow, List.mem_filter] at hc'
      exact hC ⟨c, List.mem_range.mp hc'.1, by simpa using hc'.2⟩)
    (fun c hc' => by rw [hslow, List.mem_filter] at hc'; exact List.mem_range.mp hc'.1)
  unfold InvA.updateTildeG InvA.evalGij
  simp only [hr, hc]
  rw [Res.assert_true (show True ∧ (∀ c ∈ List.range n, c < A.cr.length ∧ c < A.al.length ∧ c < n) ∧
    ∀ r ∈ List.range n, r < n from ⟨trivial, fun c h => by
      rw [hA.cr, hA.al]; have := List.mem_range.mp h; exact ⟨this, this, this⟩, fun c h => List.mem_range.mp h⟩)]
  simp only [Res.bind_ok, ← hslow, e1, Res.pure_eq]
  refine ⟨_, rfl, s1.mat, s1.cr, s1.an, s1.al, s1.vi, ?_⟩
  refine ⟨⟨s1.cr ▸ hA.cr, s1.an ▸ hA.an, s1.al ▸ hA.al, s1.vi ▸ hA.vi⟩, ?_, by simp, by simp, ?_, ?_⟩
  · simp only [s1.mat, s1.cr, s1.an, s1.al]; exact hX
  · intro i hi j hj
    simp only [s1.mat, s1.cr, s1.an]
    have ei : (List.range n).getD i 0 = i := by rw [List.getD_eq_getElem _ _ (by simpa)]; simp
    have ej : (List.range n).getD j 0 = j := by rw [List.getD_eq_getElem _ _ (by simpa)]; simp
    rw [ei, ej]
    by_cases hNI : A.al.getD j 0 = NI
    · rw [if_neg (by simpa using hNI)]
      refine Finset.sum_congr rfl fun k hk => ?_
      congr 1
      obtain ⟨hk2, e2⟩ := filter_take_getElem (fun c => decide (A.al.getD c 0 = NI)) (List.range n) j (by simpa)
        (by rw [List.getElem_range]; simpa using hNI)
      have := g1 _ hk2 k (Finset.mem_range.mp hk)
      rw [this, e2, List.getElem_range]
      rfl
    · rw [if_pos hNI, evalGijColPart_eq]
      have hj' : GoodAlpha NI (A.al.getD j 0) := (hok j hj).resolve_left hNI
      exact fast_column (f := fun j => specF NI (A.al.getD j 0)) hX hi hj hj'.specF_ne_one
  · simp only [s1.al]; exact hok

theorem foldl_range_getD {α β : Type} (f : β → α → β) (b : β) (l : List α) (d : α) :
    (List.range l.length).foldl (fun b k => f b (l.getD k d)) b = l.foldl f b := by
  conv_rhs => rw [← range_map_getD l d, List.foldl_map]

theorem set_fold_spec {n : ℕ} (info : List (GInfo K)) (nd : (info.map GInfo.pos).Nodup) (al : List K)
    (hl : ∀ r ∈ info, r.pos < al.length) :
    (info.foldl (fun al r => al.set r.pos r.a) al).length = al.length ∧
    (∀ r ∈ info, (info.foldl (fun al r => al.set r.pos r.a) al).getD r.pos 0 = r.a) ∧
    (∀ i, i ∉ info.map GInfo.pos → (info.foldl (fun al r => al.set r.pos r.a) al).getD i 0 = al.getD i 0) := by
  induction info generalizing al with
  | nil => simp
  | cons r info ih =>
    rw [List.map_cons, List.nodup_cons] at nd
    obtain ⟨i1, i2, i3⟩ := ih nd.2 (al.set r.pos r.a) (fun q hq => by
      rw [List.length_set]; exact hl q (by simp [hq]))
    simp only [List.foldl_cons]
    refine ⟨by rw [i1, List.length_set], ?_, ?_⟩
    · intro q hq
      rcases List.mem_cons.mp hq with rfl | hq
      · rw [i3 _ nd.1, List.getD_eq_getElem _ _ (by rw [List.length_set]; exact hl q (by simp))]
        simp
      · exact i2 q hq
    · intro i hi
      rw [List.map_cons, List.mem_cons, not_or] at hi
      rw [i3 i hi.2, List.getD_eq_getElem?_getD, List.getD_eq_getElem?_getD,
        List.getElem?_set_ne (fun e => hi.1 e.symm)]

theorem scale_fold_spec (c : GInfo K → K) (info : List (GInfo K)) (nd : (info.map GInfo.pos).Nodup) (X : DMat K) :
    let Y := info.foldl (fun (X : DMat K) r =>
      (⟨X.rows, X.cols, fun i j => if i = r.pos then X.val i j * c r else X.val i j⟩ : DMat K)) X
    Y.rows = X.rows ∧ Y.cols = X.cols ∧ (∀ r ∈ info, ∀ j, Y.val r.pos j = X.val r.pos j * c r) ∧
    (∀ i, i ∉ info.map GInfo.pos → ∀ j, Y.val i j = X.val i j) := by
  induction info generalizing X with
  | nil => simp
  | cons r info ih =>
    rw [List.map_cons, List.nodup_cons] at nd
    obtain ⟨i0, i1, i2, i3⟩ := ih nd.2
      (⟨X.rows, X.cols, fun i j => if i = r.pos then X.val i j * c r else X.val i j⟩ : DMat K)
    simp only [List.foldl_cons]
    refine ⟨i0, i1, ?_, ?_⟩
    · intro q hq j
      rcases List.mem_cons.mp hq with rfl | hq
      · rw [i3 _ nd.1]; simp
      · rw [i2 q hq]
        have : q.pos ≠ r.pos := fun e => nd.1 (e ▸ List.mem_map_of_mem hq)
        simp [this]
    · intro i hi j
      rw [List.map_cons, List.mem_cons, not_or] at hi
      rw [i3 i hi.2]; simp [hi.1]

/-- Folding Gamma into A⁻¹. -/
theorem updateMatrix_spec {G : Gamma K} {cur : ℕ → K} (hF : FlavInv NI G0 A G n cur) (junk : ℕ → ℕ → K) :
    ∃ A', A.updateMatrix NI junk G = .ok A' ∧ A'.Aligned n ∧ A'.cr = A.cr ∧ A'.an = A.an ∧ A'.vi = A.vi ∧
      (∀ i < n, A'.al.getD i 0 = cur i) ∧ IsInvOf A'.mat n (flavorA NI G0 A'.an A'.cr A'.al) := by
  obtain ⟨hS, hI, hok, hinv⟩ := hF
  obtain ⟨hr, hc, hm⟩ := id hS.inv
  unfold InvA.updateMatrix
  simp only [hinv.1, hinv.2.1, hc, hr]
  have hA := hS.aligned
  by_cases h0 : G.info.length = 0
  · rw [if_pos h0]
    have hcur : ∀ i < n, A.al.getD i 0 = cur i := by
      intro i hi
      have : G.info = [] := List.length_eq_zero_iff.mp h0
      exact (hI.cover i hi (by simp [this])).symm
    exact ⟨A, rfl, hA, rfl, rfl, rfl, hcur, hS.inv⟩
  rw [if_neg h0]
  have hpos : ∀ l < G.info.length, G.info.getD l default ∈ G.info := by
    intro l hl; rw [List.getD_eq_getElem _ _ hl]; exact List.getElem_mem _
  rw [Res.assert_true (show True ∧ G.info.length ≤ G.info.length ∧ True from ⟨trivial, le_rfl, trivial⟩)]
  simp only [Res.bind_ok]
  rw [Res.assert_true (show ∀ l < G.info.length, (G.info.getD l default).pos < n ∧
    (G.info.getD l default).pos < A.cr.length ∧ (G.info.getD l default).pos < A.al.length from fun l hl => by
      have := hI.lt _ (hpos l hl)
      rw [hA.cr, hA.al]; exact ⟨this, this, this⟩)]
  simp only [Res.bind_ok]
  rw [Res.assert_true (show n ≤ A.tG.rows ∧ ∀ l < G.info.length, (G.info.getD l default).pos < A.tG.cols from
    ⟨hS.tGr.ge, fun l hl => by rw [hS.tGc]; exact hI.lt _ (hpos l hl)⟩)]
  simp only [Res.bind_ok]
  rw [Res.throwIf_false (by
    rintro ⟨l, hl, e⟩
    exact hI.ne _ (hpos l (List.mem_range.mp hl)) e)]
  simp only [Res.bind_ok, Res.pure_eq]
  set X1 := A.mat.add ((DMat.mul (DMat.neg ⟨n, G.info.length, fun i l => A.tG.val i (G.info.getD l default).pos⟩)
    G.mat).mul ⟨G.info.length, n, fun l j => A.mat.val (G.info.getD l default).pos j⟩) with hX1
  rw [foldl_range_getD (fun (X : DMat K) r => (⟨X.rows, X.cols, fun i j =>
    if i = r.pos then X.val i j * (1 / (1 + Gamma.gam NI r)) else X.val i j⟩ : DMat K)) X1 G.info default]
  rw [foldl_range_getD (fun al (r : GInfo K) => al.set r.pos r.a) A.al G.info default]
  obtain ⟨s1, s2, s3⟩ := set_fold_spec (n := n) G.info hI.nodup A.al (fun r hr => by rw [hA.al]; exact hI.lt r hr)
  obtain ⟨y0, y1, y2, y3⟩ := scale_fold_spec (fun r => 1 / (1 + Gamma.gam NI r)) G.info hI.nodup X1
  set al' := G.info.foldl (fun al (r : GInfo K) => al.set r.pos r.a) A.al
  set Y := G.info.foldl (fun (X : DMat K) r => (⟨X.rows, X.cols, fun i j =>
    if i = r.pos then X.val i j * (1 / (1 + Gamma.gam NI r)) else X.val i j⟩ : DMat K)) X1
  have hcur : ∀ i < n, al'.getD i 0 = cur i := by
    intro i hi
    by_cases hm : i ∈ G.info.map GInfo.pos
    · obtain ⟨r, hr, rfl⟩ := List.mem_map.mp hm
      rw [s2 r hr, hI.a r hr]
    · rw [s3 i hm, hI.cover i hi hm]
  refine ⟨_, rfl, ⟨hA.cr, hA.an, by rw [← hA.al]; exact s1, hA.vi⟩, rfl, rfl, rfl, hcur, ?_⟩
  have hb : ∀ p ∈ G.info.map GInfo.pos, p < n := by
    intro p hp; obtain ⟨r, hr, rfl⟩ := List.mem_map.mp hp; exact hI.lt r hr
  have hl : ∀ l < G.info.length, (G.info.map GInfo.pos).getD l 0 = (G.info.getD l default).pos := by
    intro k hk
    rw [List.getD_eq_getElem _ _ (by simpa using hk), List.getD_eq_getElem _ _ hk]; simp
  have key := invA_change (Z := Y) (Y := G.mat) (f1 := fun i => specF NI (cur i)) hS.inv hS.tG hI.nodup hb
    (fun i hi hn => by simp only [hI.cover i hi hn])
    (fun p hp => (hS.ok p (hb p hp)).specF_ne_zero)
    (fun p hp he => by
      obtain ⟨r, hr, rfl⟩ := List.mem_map.mp hp
      have := OkAlpha.specF_inj (hok _ (hI.lt r hr)) (hS.ok _ (hI.lt r hr)) he
      exact hI.ne r hr (by rw [hI.a r hr, hI.a0 r hr]; exact this))
    (fun p hp => (hok p (hb p hp)).specF_ne_zero)
    (by
      rw [List.length_map]
      exact hinv.congr fun i hi j hj => gamI_eq_gamF hI _ hi hj)
    (y0.trans hr) (y1.trans hc)
    (by
      intro i hi j hj
      have hx : X1.val i j = A.mat.val i j - ∑ l ∈ Finset.range (G.info.map GInfo.pos).length,
          (∑ l' ∈ Finset.range (G.info.map GInfo.pos).length, A.tG.val i ((G.info.map GInfo.pos).getD l' 0) *
            G.mat.val l' l) * A.mat.val ((G.info.map GInfo.pos).getD l 0) j := by
        rw [hX1, DMat.add_val, DMat.mul_val, sub_eq_add_neg, ← Finset.sum_neg_distrib]
        congr 1
        have hc1 : ((DMat.neg ⟨n, G.info.length, fun i l => A.tG.val i (G.info.getD l default).pos⟩).mul
          G.mat).cols = (G.info.map GInfo.pos).length := by simp [hinv.2.1]
        rw [hc1]
        refine Finset.sum_congr rfl fun l hl' => ?_
        have hl'' : l < G.info.length := by simpa using hl'
        rw [hl l hl'', DMat.mul_val, ← neg_mul, ← Finset.sum_neg_distrib]
        congr 1
        rw [List.length_map]
        refine Finset.sum_congr rfl fun l' hl' => ?_
        have hl3 : l' < G.info.length := by simpa using hl'
        rw [hl l' hl3, DMat.neg_val]; ring
      by_cases hmi : i ∈ G.info.map GInfo.pos
      · obtain ⟨r, hr, rfl⟩ := List.mem_map.mp hmi
        rw [y2 r hr j, hx, mul_comm]
        congr 1
        simp only [Gamma.gam, gammaFunc, evalF_eq, hI.a r hr, hI.a0 r hr]
      · rw [y3 i hmi j, hx, hI.cover i hi hmi]
        simp)
  refine key.congr fun i hi j hj => ?_
  unfold flavorA specA
  simp only [hcur j hj]

/-! ### Removing by vertex id -/

/-- The operators with everything recorded about them, in order. -/
noncomputable def InvA.rowList (A : InvA K) : List (OpRow K) := (List.range A.cr.length).map A.rowAt

theorem findRowCols_ok {A : InvA K} {u : ℕ} (h : ∃ i < A.cr.length, (A.vi.getD i default).uid = u) :
    A.findRowCols u = .ok ((List.range A.cr.length).filter fun i => decide ((A.vi.getD i default).uid = u)) := by
  obtain ⟨i, hi, e⟩ := h
  unfold InvA.findRowCols
  rw [if_neg]
  intro h0
  have : i ∈ (List.range A.cr.length).filter fun i => decide ((A.vi.getD i default).uid = u) := by
    rw [List.mem_filter]; exact ⟨List.mem_range.mpr hi, by simpa using e⟩
  rw [List.length_eq_zero_iff.mp h0] at this
  simp at this

theorem findRowCols_throw {A : InvA K} {u : ℕ} (h : ∀ i < A.cr.length, (A.vi.getD i default).uid ≠ u) :
    A.findRowCols u = .throw .logicError := by
  unfold InvA.findRowCols
  rw [if_pos]
  rw [List.length_eq_zero_iff, List.filter_eq_nil_iff]
  intro i hi
  simpa using h i (List.mem_range.mp hi)

theorem removeUids_spec (hA : A.Aligned n) (hX : IsInvOf A.mat n (flavorA NI G0 A.an A.cr A.al))
    {uids : List ℕ} (nd : uids.Nodup) (hex : ∀ u ∈ uids, ∃ i < n, (A.vi.getD i default).uid = u)
    (hNI : ∀ i < n, (A.vi.getD i default).uid ∈ uids → A.al.getD i 0 = NI) (junk : ℕ → ℕ → K) :
    ∃ A' N, A.removeUids junk uids = .ok A' ∧ A'.Aligned N ∧
      IsInvOf A'.mat N (flavorA NI G0 A'.an A'.cr A'.al) ∧
      detN N (flavorA NI G0 A'.an A'.cr A'.al) = detN n (flavorA NI G0 A.an A.cr A.al) ∧
      A'.rowList.Perm (A.rowList.filter fun r => decide (r.vi.uid ∉ uids)) := by
  unfold InvA.removeUids
  rw [Res.mapM_ok (g := fun u => (List.range A.cr.length).filter fun i =>
    decide ((A.vi.getD i default).uid = u)) (fun u hu => findRowCols_ok (by rw [hA.cr]; exact hex u hu))]
  simp only [Res.bind_ok, hA.cr]
  set ps := (uids.map fun u => (List.range n).filter fun i => decide ((A.vi.getD i default).uid = u)).flatten with hps
  have hmem : ∀ i, i ∈ ps ↔ i < n ∧ (A.vi.getD i default).uid ∈ uids := by
    intro i
    rw [hps, List.mem_flatten]
    constructor
    · rintro ⟨l, hl, hi⟩
      obtain ⟨u, hu, rfl⟩ := List.mem_map.mp hl
      rw [List.mem_filter] at hi
      have e : (A.vi.getD i default).uid = u := by simpa using hi.2
      exact ⟨List.mem_range.mp hi.1, e ▸ hu⟩
    · rintro ⟨hi, hu⟩
      exact ⟨_, List.mem_map_of_mem hu, by rw [List.mem_filter]; exact ⟨List.mem_range.mpr hi, by simp⟩⟩
  have hnd : ps.Nodup := by
    rw [hps, List.nodup_flatten]
    constructor
    · intro l hl
      obtain ⟨u, _, rfl⟩ := List.mem_map.mp hl
      exact List.nodup_range.filter _
    · rw [List.pairwise_map]
      refine nd.imp fun {a b} hab => ?_
      intro x hx hy
      rw [List.mem_filter] at hx hy
      exact hab (by rw [← (by simpa using hx.2 : (A.vi.getD x default).uid = a)]; simpa using hy.2)
  have hfilt : A.rowList.filter (fun r => decide (r.vi.uid ∉ uids)) = (kept n ps).map A.rowAt := by
    unfold InvA.rowList kept
    rw [hA.cr, List.filter_map]
    congr 1
    refine List.filter_congr fun i hi => ?_
    have : i ∉ ps ↔ (A.rowAt i).vi.uid ∉ uids := by
      rw [hmem, not_and]
      exact ⟨fun h => h (List.mem_range.mp hi), fun h _ => h⟩
    simp only [Function.comp, this]
  rw [hfilt]
  by_cases h0 : ps.length = 0
  · rw [if_pos h0]
    refine ⟨A, n, rfl, hA, hX, rfl, ?_⟩
    rw [List.length_eq_zero_iff.mp h0]
    unfold InvA.rowList kept
    rw [hA.cr]; simp
  · rw [if_neg h0]
    have hasc := ascending_mergeSort hnd (fun x hx => ((hmem x).mp hx).1)
    set qs := ps.mergeSort (· ≤ ·) with hqs
    have hql : qs.length = ps.length := List.length_mergeSort _
    have hqm : ∀ i, i ∈ qs ↔ i ∈ ps := fun i => (List.mergeSort_perm _ _).mem_iff
    obtain ⟨N, hN⟩ : ∃ N, n = N + qs.length := by
      refine ⟨n - qs.length, ?_⟩
      have : qs.length ≤ n := by
        have h0 : qs.Nodup := (List.mergeSort_perm _ _).nodup_iff.mpr hnd
        have h1 := (h0.subperm (l₂ := List.range n)
          (fun x hx => List.mem_range.mpr (hasc.2 x hx))).length_le
        simpa using h1
      omega
    clear_value qs
    clear_value ps
    subst hN
    obtain ⟨A', e, hA', hinv, hdet, hrow⟩ := removeRowsCols_spec (junk := junk) hA hX rfl hasc
      (fun p hp => hNI p (hasc.2 p hp) ((hmem p).mp ((hqm p).mp hp)).2)
    refine ⟨A', N, e, hA', hinv, hdet, ?_⟩
    have hk : kept (N + qs.length) ps = kept (N + qs.length) qs := by
      unfold kept
      refine List.filter_congr fun i _ => ?_
      simp only [hqm]
    rw [hk]
    have h3 := (C14_swap_to_end rfl hasc A.rowAt).2
    refine List.Perm.trans (List.Perm.of_eq ?_) h3
    unfold InvA.rowList
    rw [hA'.cr]
    refine List.map_congr_left fun i hi => ?_
    rw [exchangeAll_eq]
    exact hrow i (List.mem_range.mp hi)

/-- An id with no operator on this flavor makes the removal throw. -/
theorem removeUids_throw {uids us : List ℕ} {u : ℕ} (hu : uids = u :: us)
    (h : ∀ i < A.cr.length, (A.vi.getD i default).uid ≠ u) (junk : ℕ → ℕ → K) :
    A.removeUids junk uids = .throw .logicError := by
  unfold InvA.removeUids
  rw [hu, Res.mapM_cons, findRowCols_throw h]
  rfl

end CTInt
