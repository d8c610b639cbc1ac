import Verif.Proofs.InvARemove
import Verif.Props.FastUpdate
import Verif.Props.Removal
import Verif.Props.Replace
import Mathlib.Algebra.BigOperators.Ring.List

/-!
# The Gamma matrix of one flavor
-/

set_option linter.all false

open Matrix

namespace CTInt

variable {K : Type} [Field K] [DecidableEq K]

/-- det A from scratch for the fields `cur` of the listed operators. -/
noncomputable def detAF (NI : K) (G0 : Op → Op → K) (A : InvA K) (n : ℕ) (cur : ℕ → K) : K :=
  detN n (specA (fun j => specF NI (cur j)) (specG0 G0 A.an A.cr))

/-- Entries of Gamma from its row records. -/
def gamI (NI : K) (tG : ℕ → ℕ → K) (info : List (GInfo K)) : ℕ → ℕ → K := fun i j =>
  tG (info.getD i default).pos (info.getD j default).pos -
    if i = j then specF NI (info.getD i default).a /
      (specF NI (info.getD i default).a - specF NI (info.getD i default).a0) else 0

/-- Product of -γ over row records. -/
def gamP (NI : K) (info : List (GInfo K)) : K :=
  (info.map fun r => - ((specF NI r.a - specF NI r.a0) / specF NI r.a0)).prod

theorem gamP_append (NI : K) (a b : List (GInfo K)) : gamP NI (a ++ b) = gamP NI a * gamP NI b := by
  simp [gamP]

theorem gamP_perm (NI : K) {a b : List (GInfo K)} (h : a.Perm b) : gamP NI a = gamP NI b :=
  (h.map _).prod_eq

/-- The row records describe the change from `al` to `cur`. -/
structure InfoOK (n : ℕ) (al cur : ℕ → K) (info : List (GInfo K)) : Prop where
  nodup : (info.map GInfo.pos).Nodup
  lt : ∀ r ∈ info, r.pos < n
  a0 : ∀ r ∈ info, r.a0 = al r.pos
  a : ∀ r ∈ info, r.a = cur r.pos
  ne : ∀ r ∈ info, r.a ≠ r.a0
  cover : ∀ i < n, i ∉ info.map GInfo.pos → cur i = al i

theorem InfoOK.perm {n : ℕ} {al cur : ℕ → K} {a b : List (GInfo K)} (h : InfoOK n al cur a) (hp : a.Perm b) :
    InfoOK n al cur b where
  nodup := ((hp.map _).nodup_iff).mp h.nodup
  lt := fun r hr => h.lt r (hp.mem_iff.mpr hr)
  a0 := fun r hr => h.a0 r (hp.mem_iff.mpr hr)
  a := fun r hr => h.a r (hp.mem_iff.mpr hr)
  ne := fun r hr => h.ne r (hp.mem_iff.mpr hr)
  cover := fun i hi hn => h.cover i hi (fun hm => hn ((hp.map _).mem_iff.mp hm))

/-- What is fixed during a batch of trials. -/
structure Setup (NI : K) (G0 : Op → Op → K) (A : InvA K) (n : ℕ) : Prop where
  aligned : A.Aligned n
  inv : IsInvOf A.mat n (flavorA NI G0 A.an A.cr A.al)
  tGr : A.tG.rows = n
  tGc : A.tG.cols = n
  tG : IsTG A.tG.val A.mat n (specG0 G0 A.an A.cr)
  ok : ∀ i < n, OkAlpha NI (A.al.getD i 0)

/-- The invariant of one flavor during a batch. -/
structure FlavInv (NI : K) (G0 : Op → Op → K) (A : InvA K) (G : Gamma K) (n : ℕ) (cur : ℕ → K) : Prop where
  setup : Setup NI G0 A n
  info : InfoOK n (fun i => A.al.getD i 0) cur G.info
  ok : ∀ i < n, OkAlpha NI (cur i)
  inv : IsInvOf G.mat G.info.length (gamI NI A.tG.val G.info)

section algebra
variable {NI : K} {G0 : Op → Op → K} {A : InvA K} {n : ℕ} {cur : ℕ → K} {info : List (GInfo K)}

theorem gamI_eq_gamF (h : InfoOK n (fun i => A.al.getD i 0) cur info) (tG : ℕ → ℕ → K) {i j : ℕ}
    (hi : i < info.length) (hj : j < info.length) :
    gamI NI tG info i j = gamF tG (fun i => specF NI (A.al.getD i 0)) (fun i => specF NI (cur i))
      (info.map GInfo.pos) i j := by
  have e : ∀ k (hk : k < info.length), (info.map GInfo.pos).getD k 0 = (info.getD k default).pos := by
    intro k hk
    rw [List.getD_eq_getElem _ _ (by simpa using hk), List.getD_eq_getElem _ _ hk]; simp
  unfold gamI gamF
  rw [e i hi, e j hj]
  have hm : info.getD i default ∈ info := by rw [List.getD_eq_getElem _ _ hi]; exact List.getElem_mem _
  rw [h.a _ hm, h.a0 _ hm]

/-- det A of the current fields. -/
theorem detAF_eq (hS : Setup NI G0 A n) (h : InfoOK n (fun i => A.al.getD i 0) cur info)
    (hok : ∀ i < n, OkAlpha NI (cur i)) :
    detAF NI G0 A n cur = detN n (flavorA NI G0 A.an A.cr A.al) *
      (gamP NI info * detN info.length (gamI NI A.tG.val info)) := by
  have hb : ∀ p ∈ info.map GInfo.pos, p < n := by
    intro p hp; obtain ⟨r, hr, rfl⟩ := List.mem_map.mp hp; exact h.lt r hr
  have := detA_change (f1 := fun i => specF NI (cur i)) hS.inv hS.tG h.nodup hb
    (fun i hi hn => by simp only [h.cover i hi hn])
    (fun p hp => (hS.ok p (hb p hp)).specF_ne_zero)
    (fun p hp he => by
      obtain ⟨r, hr, rfl⟩ := List.mem_map.mp hp
      have := OkAlpha.specF_inj (hok _ (h.lt r hr)) (hS.ok _ (h.lt r hr)) he
      exact h.ne r hr (by rw [h.a r hr, h.a0 r hr]; exact this))
  unfold detAF
  rw [this]
  unfold flavorA
  congr 2
  · unfold gamP
    rw [List.map_map]
    congr 1
    refine List.map_congr_left fun r hr => ?_
    simp only [Function.comp, h.a r hr, h.a0 r hr]
  · rw [List.length_map]
    unfold detN
    congr 1
    exact toM_congr fun i hi j hj => (gamI_eq_gamF h _ hi hj).symm

theorem gamP_ne_zero (hS : Setup NI G0 A n) (h : InfoOK n (fun i => A.al.getD i 0) cur info)
    (hok : ∀ i < n, OkAlpha NI (cur i)) : gamP NI info ≠ 0 := by
  unfold gamP
  refine List.prod_ne_zero ?_
  intro hz
  obtain ⟨r, hr, e⟩ := List.mem_map.mp hz
  have h0 : OkAlpha NI r.a0 := by rw [h.a0 r hr]; exact hS.ok _ (h.lt r hr)
  have h1 : OkAlpha NI r.a := by rw [h.a r hr]; exact hok _ (h.lt r hr)
  rw [neg_eq_zero, div_eq_zero_iff, sub_eq_zero] at e
  rcases e with e | e
  · exact h.ne r hr (OkAlpha.specF_inj h1 h0 e)
  · exact h0.specF_ne_zero e

theorem gammaDiag {f0 f1 : K} (h0 : f0 ≠ 0) (h : f1 ≠ f0) :
    (1 + gammaFunc f1 f0) / gammaFunc f1 f0 = f1 / (f1 - f0) := by
  have := sub_ne_zero.mpr h
  unfold gammaFunc
  field_simp
  ring

theorem evalGammaij_eq (hS : Setup NI G0 A n) (h : InfoOK n (fun i => A.al.getD i 0) cur info)
    (hok : ∀ i < n, OkAlpha NI (cur i)) {i j : ℕ} (hi : i < info.length) :
    Gamma.evalGammaij NI A.tG info i j = gamI NI A.tG.val info i j := by
  have hm : info.getD i default ∈ info := by rw [List.getD_eq_getElem _ _ hi]; exact List.getElem_mem _
  have h0 : OkAlpha NI (info.getD i default).a0 := by rw [h.a0 _ hm]; exact hS.ok _ (h.lt _ hm)
  have h1 : OkAlpha NI (info.getD i default).a := by rw [h.a _ hm]; exact hok _ (h.lt _ hm)
  unfold Gamma.evalGammaij gamI
  by_cases e : i = j
  · subst e
    simp only [if_true, Gamma.gam, evalF_eq]
    rw [gammaDiag h0.specF_ne_zero fun e => h.ne _ hm (OkAlpha.specF_inj h1 h0 e)]
  · simp [e]

end algebra

/-! ### Trials -/

/-- The operators of a trial that changes the fields from `cur` to `cur'`. -/
structure OpsOK (n : ℕ) (al cur cur' : ℕ → K) (ops : List (OpU K)) : Prop where
  nodup : (ops.map OpU.pos).Nodup
  lt : ∀ o ∈ ops, o.pos < n
  a0 : ∀ o ∈ ops, o.a0 = al o.pos
  cu : ∀ o ∈ ops, o.cur = cur o.pos
  new : ∀ o ∈ ops, o.new = cur' o.pos
  off : ∀ i < n, i ∉ ops.map OpU.pos → cur' i = cur i

theorem InfoOK.add {n : ℕ} {al cur cur' : ℕ → K} {info : List (GInfo K)} {ops : List (OpU K)}
    (h : InfoOK n al cur info) (ho : OpsOK n al cur cur' ops) (h1 : ∀ o ∈ ops, o.cur = o.a0)
    (h2 : ∀ o ∈ ops, o.new ≠ o.a0) :
    InfoOK n al cur' (info ++ ops.map fun o => ⟨o.pos, o.a0, o.new⟩) := by
  have hdis : ∀ p ∈ info.map GInfo.pos, p ∉ ops.map OpU.pos := by
    intro p hp hq
    obtain ⟨r, hr, rfl⟩ := List.mem_map.mp hp
    obtain ⟨o, ho', e⟩ := List.mem_map.mp hq
    apply h.ne r hr
    rw [h.a r hr, h.a0 r hr, ← e, ← ho.cu o ho', ← ho.a0 o ho', h1 o ho']
  have hmm : (ops.map fun o : OpU K => (⟨o.pos, o.a0, o.new⟩ : GInfo K)).map GInfo.pos = ops.map OpU.pos := by
    rw [List.map_map]; rfl
  refine ⟨?_, ?_, ?_, ?_, ?_, ?_⟩
  · rw [List.map_append, hmm, List.nodup_append]
    exact ⟨h.nodup, ho.nodup, fun a ha b hb e => hdis a ha (e ▸ hb)⟩
  · intro r hr
    rcases List.mem_append.mp hr with hr | hr
    · exact h.lt r hr
    · obtain ⟨o, ho', rfl⟩ := List.mem_map.mp hr; exact ho.lt o ho'
  · intro r hr
    rcases List.mem_append.mp hr with hr | hr
    · exact h.a0 r hr
    · obtain ⟨o, ho', rfl⟩ := List.mem_map.mp hr; exact ho.a0 o ho'
  · intro r hr
    rcases List.mem_append.mp hr with hr | hr
    · rw [h.a r hr, ho.off _ (h.lt r hr) (hdis _ (List.mem_map_of_mem hr))]
    · obtain ⟨o, ho', rfl⟩ := List.mem_map.mp hr; exact ho.new o ho'
  · intro r hr
    rcases List.mem_append.mp hr with hr | hr
    · exact h.ne r hr
    · obtain ⟨o, ho', rfl⟩ := List.mem_map.mp hr; exact h2 o ho'
  · intro i hi hn
    rw [List.map_append, hmm, List.mem_append, not_or] at hn
    rw [ho.off i hi hn.2, h.cover i hi hn.1]

theorem gammaProd_new (NI : K) (ops : List (OpU K)) :
    Gamma.gammaProd NI OpU.new ops = gamP NI (ops.map fun o => ⟨o.pos, o.a0, o.new⟩) := by
  unfold Gamma.gammaProd gamP
  rw [List.map_map]; rfl

theorem ratio_up_aux {D P p d d' : K} (hD : D ≠ 0) (hP : P ≠ 0) (hd : d ≠ 0) :
    p * (d' / d) = D * (P * p * d') / (D * (P * d)) := by
  field_simp

section add
variable {NI : K} {G0 : Op → Op → K} {A : InvA K} {G : Gamma K} {n : ℕ} {cur cur' : ℕ → K}
  {ops : List (OpU K)}

theorem gamI_append_left (tG : ℕ → ℕ → K) (a b : List (GInfo K)) {i j : ℕ} (hi : i < a.length)
    (hj : j < a.length) : gamI NI tG (a ++ b) i j = gamI NI tG a i j := by
  have e : ∀ k < a.length, (a ++ b).getD k default = a.getD k default := by
    intro k hk
    rw [List.getD_append _ _ _ _ hk]
  unfold gamI
  rw [e i hi, e j hj]

/-- Adding rows to Gamma. -/
theorem tryAdd_spec (hF : FlavInv NI G0 A G n cur) (ho : OpsOK n (fun i => A.al.getD i 0) cur cur' ops)
    (hok : ∀ i < n, OkAlpha NI (cur' i)) (h1 : ∀ o ∈ ops, o.cur = o.a0) (h2 : ∀ o ∈ ops, o.new ≠ o.a0)
    (hne : ops ≠ []) (junk : ℕ → ℕ → K) :
    ∃ G', G.tryAdd NI A ops = .ok (G', detAF NI G0 A n cur' / detAF NI G0 A n cur) ∧
      G'.mat = G.mat ∧ G'.rejectAdd.mat = G.mat ∧ G'.rejectAdd.info = G.info ∧
      (detAF NI G0 A n cur' ≠ 0 → ∃ G'', G'.performAdd junk = .ok G'' ∧ FlavInv NI G0 A G'' n cur') := by
  obtain ⟨hS, hI, hokc, hinv⟩ := hF
  obtain ⟨hr, hc, _⟩ := id hinv
  have hM : 0 < ops.length := List.length_pos_iff.mpr hne
  set N := G.info.length with hN
  have hI' := hI.add ho h1 h2
  set info' := G.info ++ ops.map fun o => (⟨o.pos, o.a0, o.new⟩ : GInfo K) with hinfo'
  have hlen : info'.length = N + ops.length := by simp [hinfo', hN]
  have hd := detAF_eq hS hI hokc
  have hd' := detAF_eq hS hI' hok
  have hP := gamP_ne_zero hS hI hokc
  set Gnj : DMat K := ⟨ops.length, N, fun i j => A.tG.val (info'.getD (N + i) default).pos
    (info'.getD j default).pos⟩ with hGnj
  set Gjn : DMat K := ⟨N, ops.length, fun i j => A.tG.val (info'.getD i default).pos
    (info'.getD (N + j) default).pos⟩ with hGjn
  set Gnn : DMat K := ⟨ops.length, ops.length, fun i j => A.tG.val (info'.getD (N + i) default).pos
    (info'.getD (N + j) default).pos - if i = j then
      (1 + Gamma.gam NI (info'.getD (N + i) default)) / Gamma.gam NI (info'.getD (N + i) default) else 0⟩ with hGnn
  have hb : UpBlocks N ops.length (gamI NI A.tG.val info') Gjn Gnj Gnn := by
    refine ⟨rfl, rfl, rfl, rfl, rfl, rfl, ?_, ?_, ?_⟩
    · intro i hi j hj
      unfold gamI
      rw [if_neg (by omega), sub_zero]
    · intro i hi j hj
      unfold gamI
      rw [if_neg (by omega), sub_zero]
    · intro i hi j hj
      rw [← evalGammaij_eq hS hI' hok (by omega)]
      unfold Gamma.evalGammaij
      simp only [hGnn]
      by_cases e : i = j
      · subst e; simp
      · simp [e]
  have hinv' : IsInvOf G.mat N (gamI NI A.tG.val info') :=
    hinv.congr fun i hi j hj => (gamI_append_left _ _ _ hi hj).symm
  have hdN : detN N (gamI NI A.tG.val info') = detN N (gamI NI A.tG.val G.info) := by
    unfold detN; congr 1
    exact toM_congr fun i hi j hj => gamI_append_left _ _ _ hi hj
  have hup := C11_src_detRatioUp hM hb hinv'
  refine ⟨{ G with info := info', Gnn := Gnn, Gnj := Gnj, Gjn := Gjn }, ?_, rfl, rfl, ?_, ?_⟩
  · unfold Gamma.tryAdd
    simp only [hc, Res.assert_true (show ∀ o ∈ ops, o.a0 = o.cur from fun o hm => (h1 o hm).symm),
      Res.assert_true (show N ≤ G.info.length from le_rfl), Res.bind_ok]
    rw [← hinfo']
    rw [Res.assert_true (show ∀ r ∈ info', r.pos < A.tG.rows ∧ r.pos < A.tG.cols from
      fun r hr => by rw [hS.tGr, hS.tGc]; exact ⟨hI'.lt r hr, hI'.lt r hr⟩)]
    simp only [Res.bind_ok, ← hGnj, ← hGjn, ← hGnn, hup, Res.pure_eq]
    congr 2
    have hP' : gamP NI info' = gamP NI G.info * gamP NI (ops.map fun o => ⟨o.pos, o.a0, o.new⟩) :=
      gamP_append _ _ _
    rw [gammaProd_new, hd, hd', hP', hlen, hdN]
    exact ratio_up_aux hS.inv.det_ne_zero hP hinv.det_ne_zero
  · show info'.take G.mat.cols = G.info
    rw [hc, hinfo', List.take_left' rfl]
  · intro hnz
    have hnz' : detN (N + ops.length) (gamI NI A.tG.val info') ≠ 0 := by
      rw [hd', hlen] at hnz
      intro h; apply hnz; rw [h]; simp
    obtain ⟨Y, e, hY⟩ := C11_src_inverseUp2 junk hM hb hinv' hnz'
    unfold Gamma.performAdd
    simp only [e, Res.bind_ok, Res.pure_eq]
    exact ⟨_, rfl, hS, hI', hok, by rw [hlen]; exact hY⟩

end add

/-! ### Removing rows -/

theorem ascending_mergeSort {n : ℕ} {l : List ℕ} (nd : l.Nodup) (hb : ∀ x ∈ l, x < n) :
    Ascending n (l.mergeSort (· ≤ ·)) := by
  have hp := List.mergeSort_perm l (fun a b => decide (a ≤ b))
  refine ⟨?_, fun x hx => hb x (hp.mem_iff.mp hx)⟩
  have h1 := List.pairwise_mergeSort (le := fun a b : ℕ => decide (a ≤ b))
    (fun a b c h1 h2 => by simp at *; omega) (fun a b => by simp; omega) l
  have h2 : (l.mergeSort (fun a b => decide (a ≤ b))).Nodup := hp.nodup_iff.mpr nd
  refine (h1.and h2).imp ?_
  rintro a b ⟨h, h'⟩
  simp at h
  omega

theorem find_spec {G : Gamma K} {p : ℕ} (h : p ∈ G.info.map GInfo.pos) :
    ∃ k, G.find p = .ok k ∧ k < G.info.length ∧ (G.info.getD k default).pos = p := by
  unfold Gamma.find
  cases e : (List.range G.info.length).find? fun i => decide ((G.info.getD i default).pos = p) with
  | none =>
    rw [List.find?_eq_none] at e
    obtain ⟨r, hr, rfl⟩ := List.mem_map.mp h
    obtain ⟨k, hk, rfl⟩ := List.getElem_of_mem hr
    have := e k (List.mem_range.mpr hk)
    rw [List.getD_eq_getElem _ _ hk] at this
    simp at this
  | some k =>
    have h1 := List.find?_some e
    have h2 := List.mem_of_find?_eq_some e
    exact ⟨k, rfl, List.mem_range.mp h2, by simpa using h1⟩

theorem range_map_getD {α : Type} (l : List α) (d : α) : (List.range l.length).map (fun k => l.getD k d) = l := by
  apply List.ext_getElem
  · simp
  · intro i h1 h2
    rw [List.getElem_map, List.getElem_range, List.getD_eq_getElem _ _ h2]

/-- Value-wise and position-wise deletion agree. -/
theorem kept_map_eq {info : List (GInfo K)} {rs : List ℕ} {q : List ℕ}
    (h : ∀ k < info.length, k ∈ rs ↔ (info.getD k default).pos ∈ q) :
    (kept info.length rs).map (fun k => info.getD k default) = info.filter fun r => decide (r.pos ∉ q) := by
  conv_rhs => rw [← range_map_getD info default]
  rw [List.filter_map]
  unfold kept
  congr 1
  refine List.filter_congr fun k hk => ?_
  simp only [Function.comp, h k (List.mem_range.mp hk)]

theorem InfoOK.mem_pos {n : ℕ} {al cur cur' : ℕ → K} {info : List (GInfo K)} {ops : List (OpU K)}
    (h : InfoOK n al cur info) (ho : OpsOK n al cur cur' ops) (h1 : ∀ o ∈ ops, o.cur ≠ o.a0) {o : OpU K}
    (hm : o ∈ ops) : o.pos ∈ info.map GInfo.pos := by
  by_contra hn
  have := h.cover _ (ho.lt o hm) hn
  exact h1 o hm (by rw [ho.cu o hm, ho.a0 o hm, this])

theorem InfoOK.remove {n : ℕ} {al cur cur' : ℕ → K} {info : List (GInfo K)} {ops : List (OpU K)}
    (h : InfoOK n al cur info) (ho : OpsOK n al cur cur' ops) (h1 : ∀ o ∈ ops, o.cur ≠ o.a0)
    (h2 : ∀ o ∈ ops, o.new = o.a0) :
    InfoOK n al cur' (info.filter fun r => decide (r.pos ∉ ops.map OpU.pos)) ∧
    info.Perm ((info.filter fun r => decide (r.pos ∉ ops.map OpU.pos)) ++
      ops.map fun o => ⟨o.pos, o.a0, o.cur⟩) := by
  have hmem : ∀ r, r ∈ (info.filter fun r => decide (r.pos ∉ ops.map OpU.pos)) ↔
      r ∈ info ∧ r.pos ∉ ops.map OpU.pos := by
    intro r; simp [List.mem_filter]
  constructor
  · refine ⟨?_, ?_, ?_, ?_, ?_, ?_⟩
    · exact h.nodup.sublist (List.filter_sublist.map _)
    · exact fun r hr => h.lt r ((hmem r).mp hr).1
    · exact fun r hr => h.a0 r ((hmem r).mp hr).1
    · intro r hr
      obtain ⟨h3, h4⟩ := (hmem r).mp hr
      rw [h.a r h3, ho.off _ (h.lt r h3) h4]
    · exact fun r hr => h.ne r ((hmem r).mp hr).1
    · intro i hi hn
      by_cases hio : i ∈ ops.map OpU.pos
      · obtain ⟨o, ho', rfl⟩ := List.mem_map.mp hio
        rw [← ho.new o ho', h2 o ho', ho.a0 o ho']
      · rw [ho.off i hi hio]
        refine h.cover i hi fun hm => hn ?_
        obtain ⟨r, hr, rfl⟩ := List.mem_map.mp hm
        exact List.mem_map_of_mem ((hmem r).mpr ⟨hr, hio⟩)
  · have hp := (List.filter_append_perm (fun r : GInfo K => decide (r.pos ∉ ops.map OpU.pos)) info).symm
    refine hp.trans (List.Perm.append_left _ ?_)
    have hnd : info.Nodup := List.Nodup.of_map _ h.nodup
    rw [List.perm_ext_iff_of_nodup (hnd.filter _)]
    · intro r
      simp only [List.mem_filter, List.mem_map]
      constructor
      · rintro ⟨hr, hq⟩
        have hq : r.pos ∈ ops.map OpU.pos := by simpa using hq
        obtain ⟨o, ho', e⟩ := List.mem_map.mp hq
        refine ⟨o, ho', ?_⟩
        have e1 := h.a r hr
        have e2 := h.a0 r hr
        rw [ho.cu o ho', ho.a0 o ho', e, ← e1, ← e2]
      · rintro ⟨o, ho', rfl⟩
        have hm := h.mem_pos ho h1 ho'
        obtain ⟨r, hr, e⟩ := List.mem_map.mp hm
        have e1 := h.a r hr
        have e2 := h.a0 r hr
        have : (⟨o.pos, o.a0, o.cur⟩ : GInfo K) = r := by
          rw [ho.cu o ho', ho.a0 o ho', ← e, ← e1, ← e2]
        refine ⟨this ▸ hr, ?_⟩
        have : o.pos ∈ ops.map OpU.pos := List.mem_map_of_mem ho'
        simpa using this
    · refine List.Nodup.of_map GInfo.pos ?_
      rw [List.map_map]
      exact ho.nodup

theorem gammaProd_cur (NI : K) (ops : List (OpU K)) :
    Gamma.gammaProd NI OpU.cur ops = gamP NI (ops.map fun o => ⟨o.pos, o.a0, o.cur⟩) := by
  unfold Gamma.gammaProd gamP
  rw [List.map_map]; rfl

theorem ratio_down_aux {D P p d d' : K} (hD : D ≠ 0) (hP : P * p ≠ 0) (hd : d ≠ 0) :
    d' / d / p = D * (P * d') / (D * (P * p * d)) := by
  have h1 : P ≠ 0 := left_ne_zero_of_mul hP
  have h2 : p ≠ 0 := right_ne_zero_of_mul hP
  field_simp

/-- The positions in Gamma of the removed operators. -/
theorem rows_spec {n : ℕ} {al cur cur' : ℕ → K} {G : Gamma K} {ops : List (OpU K)}
    (h : InfoOK n al cur G.info) (ho : OpsOK n al cur cur' ops) (h1 : ∀ o ∈ ops, o.cur ≠ o.a0) :
    ∃ rows, Res.mapM (fun o : OpU K => G.find o.pos) ops = .ok rows ∧
      (rows.mergeSort (· ≤ ·)).length = ops.length ∧
      Ascending G.info.length (rows.mergeSort (· ≤ ·)) ∧
      ∀ k < G.info.length, k ∈ rows.mergeSort (· ≤ ·) ↔ (G.info.getD k default).pos ∈ ops.map OpU.pos := by
  have hex : ∀ o ∈ ops, ∃ k, G.find o.pos = .ok k ∧ k < G.info.length ∧ (G.info.getD k default).pos = o.pos :=
    fun o hm => find_spec (h.mem_pos ho h1 hm)
  choose! f hf using hex
  have hnd : (ops.map f).Nodup := by
    refine List.Nodup.of_map (fun k => (G.info.getD k default).pos) ?_
    rw [List.map_map]
    have : ops.map ((fun k => (G.info.getD k default).pos) ∘ f) = ops.map OpU.pos :=
      List.map_congr_left fun o hm => (hf o hm).2.2
    rw [this]; exact ho.nodup
  refine ⟨ops.map f, Res.mapM_ok fun o hm => (hf o hm).1, by simp [List.length_mergeSort],
    ascending_mergeSort hnd (fun x hx => by
      obtain ⟨o, hm, rfl⟩ := List.mem_map.mp hx; exact (hf o hm).2.1), ?_⟩
  intro k hk
  rw [(List.mergeSort_perm _ _).mem_iff]
  constructor
  · intro hx
    obtain ⟨o, hm, rfl⟩ := List.mem_map.mp hx
    rw [(hf o hm).2.2]; exact List.mem_map_of_mem hm
  · intro hx
    obtain ⟨o, hm, e⟩ := List.mem_map.mp hx
    have e2 := (hf o hm).2.2
    have : k = f o := by
      have h3 := (hf o hm).2.1
      rw [e, List.getD_eq_getElem _ _ h3, List.getD_eq_getElem _ _ hk] at e2
      have := (h.nodup.getElem_inj_iff (i := f o) (j := k) (hi := by simpa using h3) (hj := by simpa using hk)).mp
        (by simpa using e2)
      exact this.symm
    rw [this]; exact List.mem_map_of_mem hm

theorem gamI_reindex (NI : K) (tG : ℕ → ℕ → K) {a b : List (GInfo K)} {σ : ℕ → ℕ} {n : ℕ}
    (hσ : ∀ i < n, ∀ j < n, σ i = σ j ↔ i = j)
    (h : ∀ i < n, b.getD i default = a.getD (σ i) default) {i j : ℕ} (hi : i < n) (hj : j < n) :
    gamI NI tG b i j = gamI NI tG a (σ i) (σ j) := by
  unfold gamI
  simp only [h i hi, h j hj, hσ i hi j hj]

theorem keptAt_inj {n : ℕ} {rs : List ℕ} {N : ℕ} (hl : (kept n rs).length = N) {i j : ℕ} (hi : i < N)
    (hj : j < N) : keptAt n rs i = keptAt n rs j ↔ i = j := by
  have nd : (kept n rs).Nodup := List.nodup_range.filter _
  unfold keptAt
  rw [List.getD_eq_getElem _ _ (by omega), List.getD_eq_getElem _ _ (by omega), nd.getElem_inj_iff]

theorem kept_length_asc {N M : ℕ} {rs : List ℕ} (hl : rs.length = M) (h : Ascending (N + M) rs) :
    (kept (N + M) rs).length = N := by
  subst hl
  have := kept_length (N := N) h.rev.1 (by simpa using h.rev.2)
  have e : kept (N + rs.length) rs.reverse = kept (N + rs.length) rs := by simp [kept]
  rwa [List.length_reverse, e] at this

section remove
variable {NI : K} {G0 : Op → Op → K} {A : InvA K} {G : Gamma K} {n : ℕ} {cur cur' : ℕ → K}
  {ops : List (OpU K)}

/-- After the swaps, the leading records are the kept ones. -/
theorem swapInfo_take_perm {α : Type} {v : List α} {N M : ℕ} {rs : List ℕ} (hv : v.length = N + M)
    (hl : rs.length = M) (h : Ascending (N + M) rs) (d : α) :
    ((swapAll (Src.swapList M (N + M) rs) v).take N).Perm ((kept (N + M) rs).map fun k => v.getD k d) := by
  have h3 := (C14_swap_to_end hl h (fun k => v.getD k d)).2
  refine List.Perm.trans (List.Perm.of_eq ?_) h3
  subst hl
  obtain ⟨h0, _, _⟩ := sw_ascending h
  apply List.ext_getElem
  · simp [swapAll_length, hv]
  · intro i h1 h2
    have hi : i < N := by simpa using h2
    rw [List.getElem_take, List.getElem_map, List.getElem_range, exchangeAll_eq,
      ← List.getD_eq_getElem _ d (by rw [swapAll_length]; omega), swapAll_getD (by rw [hv]; exact h0)]

theorem tryRemove_spec (hF : FlavInv NI G0 A G n cur) (ho : OpsOK n (fun i => A.al.getD i 0) cur cur' ops)
    (h1 : ∀ o ∈ ops, o.cur ≠ o.a0) (h2 : ∀ o ∈ ops, o.new = o.a0)
    (hne : ops ≠ []) (junk : ℕ → ℕ → K) :
    ∃ G', G.tryRemove NI ops = .ok (G', detAF NI G0 A n cur' / detAF NI G0 A n cur) ∧
      G'.mat = G.mat ∧ G'.info = G.info ∧
      (detAF NI G0 A n cur' ≠ 0 → ∃ G'', G'.performRemove junk = .ok G'' ∧ FlavInv NI G0 A G'' n cur') := by
  obtain ⟨hS, hI, hokc, hinv⟩ := hF
  have hM : 0 < ops.length := List.length_pos_iff.mpr hne
  obtain ⟨rows, er, hlen, hasc, hmemr⟩ := rows_spec hI ho h1
  obtain ⟨hI', hperm⟩ := hI.remove ho h1 h2
  set rs := rows.mergeSort (· ≤ ·) with hrs
  set infoK := G.info.filter fun r => decide (r.pos ∉ ops.map OpU.pos) with hK
  have hkm := kept_map_eq hmemr
  have hok : ∀ i < n, OkAlpha NI (cur' i) := by
    intro i hi
    by_cases hm : i ∈ ops.map OpU.pos
    · obtain ⟨o, hm', rfl⟩ := List.mem_map.mp hm
      rw [← ho.new o hm', h2 o hm', ho.a0 o hm']; exact hS.ok _ hi
    · rw [ho.off i hi hm]; exact hokc i hi
  obtain ⟨N, hNM⟩ : ∃ N, G.info.length = N + ops.length := by
    refine ⟨infoK.length, ?_⟩
    have := hperm.length_eq
    simpa using this
  have hKl : infoK.length = N := by
    have := hperm.length_eq
    simp at this; omega
  rw [hNM] at hasc hinv hkm
  have hkl : (kept (N + ops.length) rs).length = N := kept_length_asc hlen hasc
  have hgk : ∀ i < N, ∀ j < N, gamI NI A.tG.val infoK i j =
      gamI NI A.tG.val G.info (keptAt (N + ops.length) rs i) (keptAt (N + ops.length) rs j) := by
    intro i hi j hj
    refine gamI_reindex (n := N) NI _ (fun i hi j hj => keptAt_inj hkl hi hj) (fun k hk => ?_) hi hj
    rw [hK, ← hkm, List.getD_eq_getElem _ _ (by simpa [hkl] using hk), List.getElem_map]
    unfold keptAt
    rw [List.getD_eq_getElem (kept _ _) _ (by omega)]
  have hdK : detN N (fun i j => gamI NI A.tG.val G.info (keptAt (N + ops.length) rs i)
      (keptAt (N + ops.length) rs j)) = detN N (gamI NI A.tG.val infoK) := by
    unfold detN; congr 1
    exact toM_congr fun i hi j hj => (hgk i hi j hj).symm
  have hd := detAF_eq hS hI hokc
  have hd' := detAF_eq hS hI' hok
  have hP := gamP_ne_zero hS hI hokc
  have hPeq : gamP NI G.info = gamP NI infoK * gamP NI (ops.map fun o => ⟨o.pos, o.a0, o.cur⟩) := by
    rw [gamP_perm NI hperm, gamP_append]
  have hdown := C12_src_detRatioDown hM hinv hlen hasc
  refine ⟨{ G with removed := rs }, ?_, rfl, rfl, ?_⟩
  · unfold Gamma.tryRemove
    simp only [er, Res.bind_ok, ← hrs, hdown, Res.pure_eq]
    congr 2
    rw [gammaProd_cur, hdK, hd, hd', hPeq, hKl, hNM]
    rw [hPeq] at hP
    exact ratio_down_aux hS.inv.det_ne_zero hP hinv.det_ne_zero
  · intro hnz
    have hnz' : detN N (gamI NI A.tG.val infoK) ≠ 0 := by
      rw [hd', hKl] at hnz
      intro h; apply hnz; rw [h]; simp
    obtain ⟨Y, e, hY⟩ := C12_src_inverseDown junk hM hinv hlen hasc (by rw [hdK]; exact hnz')
    unfold Gamma.performRemove
    simp only [hlen, e, Res.bind_ok, Res.pure_eq, hinv.1, show N + ops.length - ops.length = N by omega]
    have hb := (sw_ascending (N := N) (rs := rs) (by rw [hlen]; exact hasc)).1
    rw [hlen] at hb
    rw [Res.assert_true (by rw [hNM]; exact hb)]
    simp only [Res.bind_ok]
    have hpm := swapInfo_take_perm (v := G.info) hNM hlen hasc default
    rw [hkm] at hpm
    have hl2 : ((Gamma.swapInfo (Src.swapList ops.length (N + ops.length) rs) G.info).take N).length = N := by
      have := hpm.length_eq
      rw [hKl] at this
      exact this
    refine ⟨_, rfl, hS, hI'.perm hpm.symm, hok, ?_⟩
    show IsInvOf Y ((Gamma.swapInfo (Src.swapList ops.length (N + ops.length) rs) G.info).take N).length _
    rw [hl2]
    refine hY.congr fun i hi j hj => ?_
    rw [exchangeAll_eq, exchangeAll_eq]
    refine (gamI_reindex (n := N) NI _ (fun i _ j _ => (permOf _).injective.eq_iff) (fun k hk => ?_) hi hj).symm
    rw [take_getD hk]
    exact swapAll_getD (by rw [hNM]; exact hb) _ _

/-- Swapping rows of Gamma together with the records keeps the invariant. -/
theorem FlavInv.swaps (hF : FlavInv NI G0 A G n cur) {sl : List (ℕ × ℕ)}
    (hb : ∀ p ∈ sl, p.1 < G.info.length ∧ p.2 < G.info.length) {G' : Gamma K}
    (hm : G'.mat = Src.applySwaps sl G.mat) (hi : G'.info = Gamma.swapInfo sl G.info) :
    FlavInv NI G0 A G' n cur := by
  obtain ⟨hS, hI, hokc, hinv⟩ := hF
  have hl : G'.info.length = G.info.length := by rw [hi]; exact swapAll_length _ _
  have hg : ∀ k, G'.info.getD k default = G.info.getD (permOf sl k) default := by
    intro k; rw [hi]; exact swapAll_getD hb _ _
  have hperm : G.info.Perm G'.info := by
    have : G'.info = ((List.range G.info.length).map (permOf sl)).map fun k => G.info.getD k default := by
      rw [List.map_map]
      apply List.ext_getElem
      · simp [hl]
      · intro i h1 h2
        rw [← List.getD_eq_getElem _ default h1, hg]; simp
    rw [this]
    conv_lhs => rw [← range_map_getD G.info default]
    apply List.Perm.map
    refine (((List.nodup_range (n := G.info.length)).map (permOf sl).injective).subperm ?_).perm_of_length_le
      (by simp) |>.symm
    intro x hx
    obtain ⟨i, hi, rfl⟩ := List.mem_map.mp hx
    exact List.mem_range.mpr (permOf_lt hb (List.mem_range.mp hi))
  refine ⟨hS, hI.perm hperm, hokc, ?_⟩
  rw [hl, hm]
  refine (hinv.applySwaps hb).congr fun i hi j hj => ?_
  exact (gamI_reindex (n := G.info.length) NI _ (fun i _ j _ => (permOf sl).injective.eq_iff)
    (fun k _ => hg k) hi hj).symm

end remove

section addremove
variable {NI : K} {G0 : Op → Op → K} {A : InvA K} {G : Gamma K} {n : ℕ} {cur cur' : ℕ → K}
  {ins rem : List (OpU K)}

theorem ratio_replace_aux {D P pr pa d d' : K} (hD : D ≠ 0) (hP : P * pr ≠ 0) (hd : d ≠ 0) :
    pa / pr * (d' / d) = D * (P * pa * d') / (D * (P * pr * d)) := by
  have h1 : P ≠ 0 := left_ne_zero_of_mul hP
  have h2 : pr ≠ 0 := right_ne_zero_of_mul hP
  field_simp

/-- Replacing rows of Gamma: the ratio, and what a rejection leaves. -/
theorem detRatioReplace_ok {N M Mo : ℕ} {g gold : ℕ → ℕ → K} {X Q R S : DMat K} (w1 w2 : DMat K)
    (hX : IsInvOf X (N + Mo) gold) (hb : UpBlocks N M g Q R S) :
    ∃ r Mm T, Src.detRatioReplace X Q R S w1 w2 = .ok (r, Mm, T) := by
  unfold Src.detRatioReplace
  simp only [hX.1, hX.2.1, hb.Cc, hb.Cr, hb.Br, hb.Bc, hb.Dr, hb.Dc, Res.assert_true trivial,
      Res.assert_true (show N ≤ N + Mo by omega), and_self, Res.bind_ok, Res.pure_eq]
  by_cases hN : N = 0
  · rw [if_pos hN]; exact ⟨_, _, _, rfl⟩
  · rw [if_neg hN]; exact ⟨_, _, _, rfl⟩

theorem detRatioReplace_singular {N M Mo : ℕ} {g gold : ℕ → ℕ → K} {X Q R S w1 w2 Mm T : DMat K} {r : K}
    (hX : IsInvOf X (N + Mo) gold) (hb : UpBlocks N M g Q R S) (h : detN N gold = 0)
    (e : Src.detRatioReplace X Q R S w1 w2 = .ok (r, Mm, T)) : r = 0 := by
  have hN : N ≠ 0 := by rintro rfl; simp [detN] at h
  unfold Src.detRatioReplace at e
  simp only [hX.1, hX.2.1, hb.Cc, hb.Cr, hb.Br, hb.Bc, hb.Dr, hb.Dc, Res.assert_true trivial,
      Res.assert_true (show N ≤ N + Mo by omega), and_self, Res.bind_ok, Res.pure_eq, if_neg hN,
      show N + Mo - N = Mo by omega, detN_down hX, h, zero_div, zero_mul] at e
  cases e
  rfl

/-- A trial that adds and removes.  Rejecting it always restores the invariant; the ratio is exact if det A with only
    the removals done is not zero. -/
theorem tryAddRemove_all {cm : ℕ → K} (hF : FlavInv NI G0 A G n cur)
    (hr : OpsOK n (fun i => A.al.getD i 0) cur cm rem) (hi : OpsOK n (fun i => A.al.getD i 0) cm cur' ins)
    (hok : ∀ i < n, OkAlpha NI (cur' i))
    (r1 : ∀ o ∈ rem, o.cur ≠ o.a0) (r2 : ∀ o ∈ rem, o.new = o.a0)
    (i1 : ∀ o ∈ ins, o.cur = o.a0) (i2 : ∀ o ∈ ins, o.new ≠ o.a0) (junk : ℕ → ℕ → K) :
    ∃ G' r, G.tryAddRemove NI A ins rem = .ok (G', r) ∧
      FlavInv NI G0 A G'.rejectAdd n cur ∧
      (detAF NI G0 A n cm ≠ 0 → r = detAF NI G0 A n cur' / detAF NI G0 A n cur) ∧
      (G.info.length = rem.length → detAF NI G0 A n cur' ≠ 0 → ∃ G'', G'.performAddRemove junk = .ok G'' ∧
        FlavInv NI G0 A G'' n cur') ∧
      (detAF NI G0 A n cm = 0 → r = 0) := by
  obtain ⟨hS, hI, hokc, hinv⟩ := id hF
  obtain ⟨rows, er, hlen, hasc, hmemr⟩ := rows_spec hI hr r1
  obtain ⟨hIm, hperm⟩ := hI.remove hr r1 r2
  set rs := rows.mergeSort (· ≤ ·) with hrs
  set infoK := G.info.filter fun r => decide (r.pos ∉ rem.map OpU.pos) with hK
  have hkm := kept_map_eq hmemr
  have hokm : ∀ i < n, OkAlpha NI (cm i) := by
    intro i hi'
    by_cases hm : i ∈ rem.map OpU.pos
    · obtain ⟨o, hm', rfl⟩ := List.mem_map.mp hm
      rw [← hr.new o hm', r2 o hm', hr.a0 o hm']; exact hS.ok _ hi'
    · rw [hr.off i hi' hm]; exact hokc i hi'
  obtain ⟨N, hNM⟩ : ∃ N, G.info.length = N + rem.length := by
    refine ⟨infoK.length, ?_⟩
    have := hperm.length_eq
    simpa using this
  have hKl : infoK.length = N := by
    have := hperm.length_eq
    simp at this; omega
  rw [hNM] at hasc hkm
  have hb := (sw_ascending (N := N) (rs := rs) (by rw [hlen]; exact hasc)).1
  rw [hlen] at hb
  set sl := Src.swapList rem.length (N + rem.length) rs with hsl
  set infoS := Gamma.swapInfo sl G.info with hinfoS
  have hSl : infoS.length = N + rem.length := by rw [← hNM]; exact swapAll_length _ _
  have hpm : (infoS.take N).Perm infoK := by
    have := swapInfo_take_perm (v := G.info) hNM hlen hasc default
    rw [hkm] at this
    exact this
  have htl : (infoS.take N).length = N := by rw [List.length_take, hSl]; omega
  have hIt := hIm.perm hpm.symm
  have hI' := hIt.add hi i1 i2
  set added := ins.map fun o => (⟨o.pos, o.a0, o.new⟩ : GInfo K) with hadded
  have hl' : (infoS.take N ++ added).length = N + ins.length := by
    rw [List.length_append, htl, hadded, List.length_map]
  -- the object after the swaps
  have hFs : FlavInv NI G0 A { G with mat := Src.applySwaps sl G.mat, info := infoS } n cur :=
    hF.swaps (by rw [hNM]; exact hb) rfl rfl
  have hinvS : IsInvOf (Src.applySwaps sl G.mat) (N + rem.length) (gamI NI A.tG.val infoS) := by
    have := hFs.inv
    simpa only [hSl] using this
  -- new blocks
  have hkeepE : detAF NI G0 A n cm = detN n (flavorA NI G0 A.an A.cr A.al) *
      (gamP NI (infoS.take N) * detN N (gamI NI A.tG.val infoS)) := by
    have e := detAF_eq hS hIt hokm
    have : detN N (gamI NI A.tG.val (infoS.take N)) = detN N (gamI NI A.tG.val infoS) := by
      unfold detN; congr 1
      refine toM_congr fun i hi j hj => ?_
      unfold gamI
      rw [take_getD hi, take_getD hj]
    rw [htl, this] at e
    exact e
  have hkeepD : detAF NI G0 A n cm ≠ 0 → detN N (gamI NI A.tG.val infoS) ≠ 0 := by
    intro hkeep h
    apply hkeep
    rw [hkeepE, h]; simp
  have hkeepZ : detAF NI G0 A n cm = 0 → detN N (gamI NI A.tG.val infoS) = 0 := by
    intro h
    rw [hkeepE] at h
    rcases mul_eq_zero.mp h with h | h
    · exact absurd h hS.inv.det_ne_zero
    · rcases mul_eq_zero.mp h with h | h
      · exact absurd h (gamP_ne_zero hS hIt hokm)
      · exact h
  have hnew : ∀ k, k < N → (infoS ++ added).getD k default = (infoS.take N ++ added).getD k default := by
    intro k hk
    rw [List.getD_append _ _ _ _ (by omega), List.getD_append _ _ _ _ (by omega), take_getD hk]
  have hnew2 : ∀ k, (infoS ++ added).getD (N + rem.length + k) default =
      (infoS.take N ++ added).getD (N + k) default := by
    intro k
    rw [List.getD_append_right _ _ _ _ (by omega), List.getD_append_right _ _ _ _ (by omega), hSl, htl]
    congr 1; omega
  set Gnj : DMat K := ⟨ins.length, N, fun i j =>
    Gamma.evalGammaij NI A.tG (infoS ++ added) (N + rem.length + i) j⟩ with hGnj
  set Gjn : DMat K := ⟨N, ins.length, fun i j =>
    Gamma.evalGammaij NI A.tG (infoS ++ added) i (N + rem.length + j)⟩ with hGjn
  set Gnn : DMat K := ⟨ins.length, ins.length, fun i j =>
    Gamma.evalGammaij NI A.tG (infoS ++ added) (N + rem.length + i) (N + rem.length + j)⟩ with hGnn
  have hblk : UpBlocks N ins.length (gamI NI A.tG.val (infoS.take N ++ added)) Gjn Gnj Gnn := by
    refine ⟨rfl, rfl, rfl, rfl, rfl, rfl, ?_, ?_, ?_⟩
    · intro i hi j hj
      rw [← evalGammaij_eq hS hI' hok (by omega)]
      simp only [hGjn, Gamma.evalGammaij, hnew i hi, hnew2, if_neg (show ¬ i = N + rem.length + j by omega),
        if_neg (show ¬ i = N + j by omega)]
    · intro i hi j hj
      rw [← evalGammaij_eq hS hI' hok (by omega)]
      simp only [hGnj, Gamma.evalGammaij, hnew j hj, hnew2, if_neg (show ¬ N + rem.length + i = j by omega),
        if_neg (show ¬ N + i = j by omega)]
    · intro i hi j hj
      rw [← evalGammaij_eq hS hI' hok (by omega)]
      simp only [hGnn, Gamma.evalGammaij, hnew2]
      by_cases e : i = j
      · subst e; simp
      · rw [if_neg (by omega), if_neg (by omega)]
  have hagree : ∀ i < N, ∀ j < N, gamI NI A.tG.val (infoS.take N ++ added) i j = gamI NI A.tG.val infoS i j := by
    intro i hi j hj
    unfold gamI
    rw [← hnew i hi, ← hnew j hj, List.getD_append _ _ _ _ (by omega), List.getD_append _ _ _ _ (by omega)]
  obtain ⟨rr, Mm, T, hrat⟩ := detRatioReplace_ok G.Mmat G.invtSp hinvS hblk
  have hd := detAF_eq hS hFs.info hokc
  have hd' := detAF_eq hS hI' hok
  have hP := gamP_ne_zero hS hI hokc
  have hPS : gamP NI infoS = gamP NI infoK * gamP NI (rem.map fun o => ⟨o.pos, o.a0, o.cur⟩) := by
    have h1 : gamP NI infoS = gamP NI G.info := by
      have hx := detAF_eq hS hI hokc
      have hp2 : G.info.Perm infoS := by
        have a := hFs.info.nodup
        refine List.Perm.symm ?_
        refine ((List.Nodup.of_map _ a).subperm ?_).perm_of_length_le (by rw [hSl, hNM])
        intro r hr
        obtain ⟨k, hk, rfl⟩ := List.getElem_of_mem hr
        have hk' : k < N + rem.length := by rw [← hSl]; exact hk
        rw [← List.getD_eq_getElem _ default hk, hinfoS]
        have := swapAll_getD (sl := sl) (v := G.info) (by rw [hNM]; exact hb) k default
        unfold Gamma.swapInfo
        rw [show List.foldl (fun v p => InvA.swapAt v p.1 p.2) G.info sl = swapAll sl G.info from rfl, this]
        have hlt : permOf sl k < G.info.length := by rw [hNM]; exact permOf_lt hb hk'
        rw [List.getD_eq_getElem _ _ hlt]
        exact List.getElem_mem _
      exact (gamP_perm NI hp2).symm
    rw [h1, gamP_perm NI hperm, gamP_append]
  refine ⟨{ G with mat := Src.applySwaps sl G.mat, info := infoS ++ added, removed := rs, Gnn := Gnn, Gnj := Gnj, Gjn := Gjn, Mmat := Mm, invtSp := T },
    Gamma.gammaProd NI OpU.new ins / Gamma.gammaProd NI OpU.cur rem * rr, ?_, ?_, ?_, ?_, ?_⟩
  · unfold Gamma.tryAddRemove
    simp only [er, Res.bind_ok, hinv.1, hinv.2.1, ← hrs]
    rw [Res.assert_true (show rem.length ≤ G.info.length ∧ True ∧ True from ⟨by omega, trivial, trivial⟩)]
    simp only [Res.bind_ok, hNM]
    rw [Res.assert_true (show ∀ r ∈ rs, r < N + rem.length from hasc.2)]
    simp only [Res.bind_ok, ← hsl, ← hinfoS, ← hadded]
    rw [Res.assert_true (show ∀ r ∈ infoS ++ added, r.pos < A.tG.rows ∧ r.pos < A.tG.cols from fun r hr => by
      rw [hS.tGr, hS.tGc]
      rcases List.mem_append.mp hr with h | h
      · exact ⟨hFs.info.lt r h, hFs.info.lt r h⟩
      · have := hI'.lt r (List.mem_append_right _ h)
        exact ⟨this, this⟩)]
    simp only [Res.bind_ok, show N + rem.length - rem.length = N by omega, ← hGnj, ← hGjn, ← hGnn, hrat, Res.pure_eq]
  · have : (infoS ++ added).take (Src.applySwaps sl G.mat).cols = infoS := by
      rw [hinvS.2.1, List.take_left' hSl]
    refine ⟨hS, ?_, hokc, ?_⟩
    · show InfoOK n _ cur ((infoS ++ added).take (Src.applySwaps sl G.mat).cols)
      rw [this]; exact hFs.info
    · show IsInvOf (Src.applySwaps sl G.mat) ((infoS ++ added).take (Src.applySwaps sl G.mat).cols).length
        (gamI NI A.tG.val ((infoS ++ added).take (Src.applySwaps sl G.mat).cols))
      rw [this]; exact hFs.inv
  · intro hkeep
    obtain ⟨Mm', T', hrat', _⟩ := C15_src_detRatioReplace_partial G.Mmat G.invtSp hinvS hagree hblk (hkeepD hkeep)
    rw [hrat] at hrat'
    cases hrat'
    rw [gammaProd_new, gammaProd_cur, hd, hd', hPS, ← hadded, gamP_append, gamP_perm NI hpm, hl']
    show _ = _ / (_ * (_ * detN infoS.length _))
    rw [hSl]
    rw [gamP_perm NI hperm, gamP_append] at hP
    exact ratio_replace_aux hS.inv.det_ne_zero hP hinvS.det_ne_zero
  · intro hall hnz
    have hN0 : N = 0 := by omega
    subst hN0
    have hnz' : detN (0 + ins.length) (gamI NI A.tG.val (infoS.take 0 ++ added)) ≠ 0 := by
      rw [hd', hl'] at hnz
      intro h; apply hnz; rw [h]; simp
    obtain ⟨Y, e, hY⟩ := C15_src_inverseReplace_partial (X := Src.applySwaps sl G.mat) (Mm := Mm) (T := T) junk
      (by rw [hinvS.1, hinvS.2.1]) hblk hnz'
    unfold Gamma.performAddRemove
    simp only [e, Res.bind_ok, hinvS.1, show Gnn.cols = ins.length from rfl, show Gjn.rows = 0 from rfl]
    rw [Res.assert_true hY.2.1]
    simp only [Res.bind_ok]
    rw [Res.assert_true (show 0 ≤ (infoS ++ added).length ∧ 0 + rem.length + ins.length ≤ (infoS ++ added).length by
      rw [List.length_append, hSl, hadded, List.length_map]; omega)]
    simp only [Res.bind_ok, Res.pure_eq]
    have e2 : (infoS ++ added).take 0 ++ ((infoS ++ added).drop (0 + rem.length)).take ins.length =
        infoS.take 0 ++ added := by
      simp only [List.take_zero, List.nil_append]
      rw [List.drop_left' hSl]
      exact List.take_of_length_le (by rw [hadded, List.length_map])
    rw [e2]
    exact ⟨_, rfl, hS, hI', hok, by rw [hl']; exact hY⟩
  · intro h
    rw [detRatioReplace_singular hinvS hblk (hkeepZ h) hrat, mul_zero]

theorem tryAddRemove_spec {cm : ℕ → K} (hF : FlavInv NI G0 A G n cur)
    (hr : OpsOK n (fun i => A.al.getD i 0) cur cm rem) (hi : OpsOK n (fun i => A.al.getD i 0) cm cur' ins)
    (hok : ∀ i < n, OkAlpha NI (cur' i))
    (r1 : ∀ o ∈ rem, o.cur ≠ o.a0) (r2 : ∀ o ∈ rem, o.new = o.a0)
    (i1 : ∀ o ∈ ins, o.cur = o.a0) (i2 : ∀ o ∈ ins, o.new ≠ o.a0)
    (hkeep : detAF NI G0 A n cm ≠ 0) (junk : ℕ → ℕ → K) :
    ∃ G', G.tryAddRemove NI A ins rem = .ok (G', detAF NI G0 A n cur' / detAF NI G0 A n cur) ∧
      FlavInv NI G0 A G'.rejectAdd n cur ∧
      (G.info.length = rem.length → detAF NI G0 A n cur' ≠ 0 → ∃ G'', G'.performAddRemove junk = .ok G'' ∧
        FlavInv NI G0 A G'' n cur') := by
  obtain ⟨G', r, e, g1, g2, g3, _⟩ := tryAddRemove_all hF hr hi hok r1 r2 i1 i2 junk
  exact ⟨G', by rw [e, g2 hkeep], g1, g3⟩

end addremove
end CTInt
