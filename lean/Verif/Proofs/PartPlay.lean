import Verif.Proofs.PartMark
import Verif.Proofs.PartDet
import Verif.Proofs.PartSane
import Verif.Proofs.DetPlay
import Mathlib.Tactic.FieldSimp

/-!
# Trials and histories of the partitioned determinant matrix (helper lemmas for C27, C60)
-/

set_option linter.all false

namespace CTInt

variable {K Cd Co T : Type} [Field K] [DecidableEq K] [LinearOrder T]

theorem Act.fold_append {σ α β : Type} (f : β → α → Act σ β) (l l' : List α) : ∀ (b : β),
    Act.fold f b (l ++ l') = (Act.fold f b l >>= fun b' => Act.fold f b' l') := by
  induction l with
  | nil => intro b; rfl
  | cons a l ih =>
    intro b
    rw [List.cons_append, Act.fold_cons, Act.fold_cons]
    funext s
    rw [Act.run_bind, Act.run_bind, Act.run_bind]
    cases h : f b a s with
    | mk r t =>
      cases r with
      | ok c => simp only; rw [ih c, Act.run_bind]
      | throw e => rfl
      | ub => rfl

/-- A loop over the blocks. -/
theorem fold_blocks {β : Type} {n : ℕ} {m m1 : ℕ → DM K Cd Co T} {f : β → ℕ → Act (PDM K Cd Co T) β} {g : β → ℕ → β}
    {s : PDM K Cd Co T} (hs : s.mats = tab n m)
    (hf : ∀ (m' : ℕ → DM K Cd Co T) (b : β) (k : ℕ), k < n → m' k = m k →
      f b k { s with mats := tab n m' } = (.ok (g b k), { s with mats := (tab n m').set k (m1 k) })) (b : β) :
    ∀ j ≤ n, Act.fold f b (List.range j) s =
      (.ok ((List.range j).foldl g b), { s with mats := tab n fun i => if i < j then m1 i else m i }) := by
  intro j
  induction j with
  | zero =>
    intro _
    rw [List.range_zero, Act.fold_nil, Act.run_pure]
    congr 1
    cases s
    simp only at hs
    simp [hs]
  | succ j ih =>
    intro hj
    rw [List.range_succ, Act.fold_append, Act.bind_ok (ih (by omega)), Act.fold_cons]
    rw [Act.bind_ok (hf _ _ j (by omega) (by simp)), Act.fold_nil, Act.run_pure, List.foldl_append]
    congr 2
    rw [tab_set]
    refine tab_congr fun i _ => ?_
    by_cases h1 : i = j
    · subst h1; simp
    · rw [if_neg h1]
      by_cases h2 : i < j
      · rw [if_pos h2, if_pos (by omega)]
      · rw [if_neg h2, if_neg (by omega)]

theorem fold_blocks_all {β : Type} {n : ℕ} {m m1 : ℕ → DM K Cd Co T} {f : β → ℕ → Act (PDM K Cd Co T) β} {g : β → ℕ → β}
    {s : PDM K Cd Co T} (hs : s.mats = tab n m)
    (hf : ∀ (m' : ℕ → DM K Cd Co T) (b : β) (k : ℕ), k < n → m' k = m k →
      f b k { s with mats := tab n m' } = (.ok (g b k), { s with mats := (tab n m').set k (m1 k) })) (b : β) :
    Act.fold f b (List.range n) s = (.ok ((List.range n).foldl g b), { s with mats := tab n m1 }) := by
  rw [fold_blocks hs hf b n le_rfl]
  congr 2
  exact tab_congr fun i hi => if_pos hi

theorem onBlock_ok {α : Type} {n k : ℕ} {m' : ℕ → DM K Cd Co T} {a : Act (DM K Cd Co T) α} {s : PDM K Cd Co T} {r : Res α}
    {t : DM K Cd Co T} (hk : k < n) (h : a (m' k) = (r, t)) (hs : s.mats = tab n m') :
    PDM.onBlock k a s = (r, { s with mats := s.mats.set k t }) := by
  unfold PDM.onBlock
  rw [hs, tab_getElem? hk]
  dsimp only
  rw [h]

variable (o : OpSys K Cd Co T) (fl : FlSys Cd Co)

/-- The sector numbers as stored. -/
structure Lay (n : ℕ) (lab : ℕ → ℕ) (lst : List ℕ) : Prop where
  get : ∀ f < fl.nf, Res.get lst f = .ok (lab f)
  lt : ∀ f < fl.nf, lab f < n
  le : n ≤ fl.nf

/-- A state between two trials. -/
structure PGood (n : ℕ) (lab : ℕ → ℕ) (lst : List ℕ) (m : ℕ → DM K Cd Co T) (s : PDM K Cd Co T) (A : Conf Cd Co) : Prop where
  ns : s.ns = n
  sector : s.sector = lst
  mats : s.mats = tab n m
  good : ∀ k < n, Good o (m k) (A.sec fl lab k)
  cd : s.cd = sideOf o.tcd (fun a => lab (fl.fcd a)) n fl.nf ((tab n fun k => (m k).cd.ops).flatten) A.cds [] []
  c : s.c = sideOf o.tc (fun b => lab (fl.fc b)) n fl.nf ((tab n fun k => (m k).c.ops).flatten) A.cs [] []
  perm : s.perm = secSign o.tcd (fun a => lab (fl.fcd a)) n A.cds * secSign o.tc (fun b => lab (fl.fc b)) n A.cs
  flavCd : ∀ a ∈ A.cds, fl.fcd a < fl.nf
  flavC : ∀ b ∈ A.cs, fl.fc b < fl.nf
  timesCd : (A.cds.map o.tcd).Nodup
  timesC : (A.cs.map o.tc).Nodup

/-- What a block does with its part of a change. -/
def Outcome (dbg : Bool) (junk : ℕ → ℕ → K) (ch : Change Cd Co) (s : DM K Cd Co T) (A A' : Conf Cd Co) (v : K)
    (s1 sp sr : DM K Cd Co T) : Prop :=
  DM.tryUpdate o dbg junk ch s = (.ok v, s1) ∧
    (v ≠ 0 → DM.performUpdate o dbg junk s1 = (.ok (), sp) ∧ Good o sp A') ∧
    DM.rejectUpdate o dbg s1 = (.ok (), sr) ∧ Good o sr A

variable {o fl}

theorem outcome_valid (dbg : Bool) (junk : ℕ → ℕ → K) {ch : Change Cd Co} {s : DM K Cd Co T} {A A' : Conf Cd Co}
    (h : Good o s A) (hv : Valid o A ch A') : ∃ s1 sp sr, Outcome o dbg junk ch s A A' (A'.det o / A.det o) s1 sp sr := by
  obtain ⟨s1, e1, e2, s2, e3, e4⟩ := update_ok dbg junk h hv
  by_cases hz : A'.det o = 0
  · refine ⟨s1, s1, s2, e1, fun hne => absurd ?_ hne, e3, e4⟩
    rw [hz, zero_div]
  · obtain ⟨sp, e5, e6⟩ := e2 hz
    exact ⟨s1, sp, s2, e1, fun _ => ⟨e5, e6⟩, e3, e4⟩

theorem outcome_uneven (dbg : Bool) (junk : ℕ → ℕ → K) {ch : Change Cd Co} {s : DM K Cd Co T} {A : Conf Cd Co} (A' : Conf Cd Co)
    (h : Good o s A) (hv : ch.Uneven) : ∃ s1 sp sr, Outcome o dbg junk ch s A A' 0 s1 sp sr := by
  obtain ⟨s1, e1, e2, -, e3⟩ := uneven_ok dbg junk h hv
  exact ⟨s1, s1, s1, e1, fun hne => absurd rfl hne, e2, e3⟩

theorem outcome_clash (dbg : Bool) (junk : ℕ → ℕ → K) {ch : Change Cd Co} {s : DM K Cd Co T} {A : Conf Cd Co} (A' : Conf Cd Co)
    (h : Good o s A) (hv : Clash o A ch) : ∃ s1 sp sr, Outcome o dbg junk ch s A A' 0 s1 sp sr := by
  obtain ⟨s1, s2, e1, e2, e3⟩ := clash_ok dbg junk h hv
  exact ⟨s1, s1, s2, e1, fun hne => absurd rfl hne, e2, e3⟩

theorem outcome_singular (dbg : Bool) (junk : ℕ → ℕ → K) {ch : Change Cd Co} {s : DM K Cd Co T} {A A' : Conf Cd Co}
    (h : Good o s A) (hv : Singular o A ch A') : ∃ s1 sp sr, Outcome o dbg junk ch s A A' 0 s1 sp sr := by
  obtain ⟨s1, s2, e1, e2, e3⟩ := singular_ok dbg junk h hv
  exact ⟨s1, s1, s2, e1, fun hne => absurd rfl hne, e2, e3⟩

theorem foldl_prod (v : ℕ → K) (n : ℕ) : (List.range n).foldl (fun d k => d * v k) 1 = ∏ k ∈ Finset.range n, v k := by
  induction n with
  | zero => rfl
  | succ n ih => rw [List.range_succ, List.foldl_append, ih, Finset.prod_range_succ]; rfl

variable {n : ℕ} {lab : ℕ → ℕ} {lst : List ℕ} {m m1 mp mr : ℕ → DM K Cd Co T} {s : PDM K Cd Co T} {A A' R : Conf Cd Co}
  {ch : Change Cd Co} {v : ℕ → K}

local notation "σcd" => fun a => lab (fl.fcd a)
local notation "σc" => fun b => lab (fl.fc b)

/-- The members after a trial. -/
def trialState (o : OpSys K Cd Co T) (fl : FlSys Cd Co) (n : ℕ) (lab : ℕ → ℕ) (m m1 : ℕ → DM K Cd Co T) (s : PDM K Cd Co T)
    (ch : Change Cd Co) (A' : Conf Cd Co) : PDM K Cd Co T :=
  { s with
    mats := tab n m1
    newPerm := secSign o.tcd (fun a => lab (fl.fcd a)) n A'.cds * secSign o.tc (fun b => lab (fl.fc b)) n A'.cs
    cd := sideOf o.tcd (fun a => lab (fl.fcd a)) n fl.nf ((tab n fun k => (m k).cd.ops).flatten) A'.cds ch.addCd ch.remCd
    c := sideOf o.tc (fun b => lab (fl.fc b)) n fl.nf ((tab n fun k => (m k).c.ops).flatten) A'.cs ch.addC ch.remC }

theorem ptry_ok (dbg : Bool) (junk : ℕ → ℕ → K) (hl : Lay fl n lab lst) (h : PGood o fl n lab lst m s A) (ht : PTakes o fl A ch A')
    (hv : ∀ k < n, DM.tryUpdate o dbg junk (ch.sec fl lab k) (m k) = (.ok (v k), m1 k)) :
    PDM.tryUpdate o fl dbg junk ch s =
      (.ok ((∏ k ∈ Finset.range n, v k) * ((secSign o.tcd (σcd) n A.cds * secSign o.tc (σc) n A.cs *
        (secSign o.tcd (σcd) n A'.cds * secSign o.tc (σc) n A'.cs) : ℤ) : K)),
        trialState o fl n lab m m1 s ch A') := by
  obtain ⟨R, tk⟩ := ht.takes
  have hns := h.ns
  have hsec := h.sector
  subst hns hsec
  have gRcd : ∀ a ∈ ch.remCd, fl.fcd a < fl.nf := fun a ha => h.flavCd a (tk.oldCds.mem_iff.mpr (by simp [ha]))
  have gRc : ∀ a ∈ ch.remC, fl.fc a < fl.nf := fun a ha => h.flavC a (tk.oldCs.mem_iff.mpr (by simp [ha]))
  have fR : ∀ a ∈ R.cds, fl.fcd a < fl.nf := fun a ha => h.flavCd a (tk.oldCds.mem_iff.mpr (by simp [ha]))
  have fR' : ∀ a ∈ R.cs, fl.fc a < fl.nf := fun a ha => h.flavC a (tk.oldCs.mem_iff.mpr (by simp [ha]))
  have n1 : ((R.cds ++ ch.addCd).map o.tcd).Nodup := (tk.newCds.map _).nodup_iff.mp ht.timesCd
  have n2 : ((R.cs ++ ch.addC).map o.tc).Nodup := (tk.newCs.map _).nodup_iff.mp ht.timesC
  unfold PDM.tryUpdate
  rw [Act.get_bind, h.cd]
  unfold PSide.marks
  rw [marksRem_ok hl.le ch.remCd (fun a ha => hl.get _ (gRcd a ha)) A.cds R.cds [] tk.oldCds h.timesCd
    (fun a ha => hl.lt _ (h.flavCd a ha)) 1, Act.lift_ok_bind]
  dsimp only
  rw [Act.modify_bind, Act.get_bind]
  dsimp only
  rw [h.c, marksRem_ok hl.le ch.remC (fun a ha => hl.get _ (gRc a ha)) A.cs R.cs [] tk.oldCs h.timesC
    (fun a ha => hl.lt _ (h.flavC a ha)) 1, Act.lift_ok_bind]
  dsimp only
  rw [Act.modify_bind, Act.get_bind]
  dsimp only
  rw [marksAdd_ok hl.le ch.addCd (fun a ha => ⟨hl.get _ (ht.flavCd a ha), hl.lt _ (ht.flavCd a ha)⟩) R.cds []
    n1 (fun a ha => hl.lt _ (fR a ha)) 1, Act.lift_ok_bind]
  dsimp only
  rw [Act.modify_bind, Act.get_bind]
  dsimp only
  rw [marksAdd_ok hl.le ch.addC (fun a ha => ⟨hl.get _ (ht.flavC a ha), hl.lt _ (ht.flavC a ha)⟩) R.cs []
    n2 (fun a ha => hl.lt _ (fR' a ha)) 1, Act.lift_ok_bind]
  dsimp only
  rw [Act.modify_bind, Act.modify_bind, Act.get_bind]
  dsimp only
  simp only [List.nil_append, one_mul]
  have q1 := secSign_sq o.tcd (σcd) s.ns R.cds
  have q2 := secSign_sq o.tc (σc) s.ns R.cs
  have q3 := secSign_sq o.tcd (σcd) s.ns A.cds
  have q4 := secSign_sq o.tc (σc) s.ns A.cs
  rw [secSign_congr tk.newCds.symm n1, secSign_congr tk.newCs.symm n2, sideOf_congr tk.newCds.symm n1,
    sideOf_congr tk.newCs.symm n2]
  have er : secSign o.tcd (σcd) s.ns A.cds * secSign o.tcd (σcd) s.ns R.cds * (secSign o.tc (σc) s.ns A.cs * secSign o.tc (σc) s.ns R.cs) *
      (secSign o.tcd (σcd) s.ns R.cds * secSign o.tcd (σcd) s.ns A'.cds) * (secSign o.tc (σc) s.ns R.cs * secSign o.tc (σc) s.ns A'.cs) =
      secSign o.tcd (σcd) s.ns A.cds * secSign o.tc (σc) s.ns A.cs * (secSign o.tcd (σcd) s.ns A'.cds * secSign o.tc (σc) s.ns A'.cs) := by
    calc _ = secSign o.tcd (σcd) s.ns A.cds * secSign o.tc (σc) s.ns A.cs * (secSign o.tcd (σcd) s.ns A'.cds * secSign o.tc (σc) s.ns A'.cs) *
        (secSign o.tcd (σcd) s.ns R.cds * secSign o.tcd (σcd) s.ns R.cds) * (secSign o.tc (σc) s.ns R.cs * secSign o.tc (σc) s.ns R.cs) := by ring
      _ = _ := by rw [q1, q2, mul_one, mul_one]
  have er' : secSign o.tcd (σcd) s.ns A.cds * secSign o.tcd (σcd) s.ns R.cds * (secSign o.tc (σc) s.ns A.cs * secSign o.tc (σc) s.ns R.cs) *
      (secSign o.tcd (σcd) s.ns R.cds * secSign o.tcd (σcd) s.ns A'.cds) * (secSign o.tc (σc) s.ns R.cs * secSign o.tc (σc) s.ns A'.cs) *
      s.perm = secSign o.tcd (σcd) s.ns A'.cds * secSign o.tc (σc) s.ns A'.cs := by
    rw [er, h.perm]
    calc _ = (secSign o.tcd (σcd) s.ns A.cds * secSign o.tcd (σcd) s.ns A.cds) * (secSign o.tc (σc) s.ns A.cs * secSign o.tc (σc) s.ns A.cs) *
        (secSign o.tcd (σcd) s.ns A'.cds * secSign o.tc (σc) s.ns A'.cs) := by ring
      _ = _ := by rw [q3, q4, one_mul, one_mul]
  rw [er', er]
  have hfold := fold_blocks_all (n := s.ns) (m := m) (m1 := m1) (g := fun (d : K) k => d * v k)
    (f := fun (d : K) (k : ℕ) => do
      let a ← Act.lift (Res.get (sideOf o.tcd (σcd) s.ns fl.nf ((tab s.ns fun k => (m k).cd.ops).flatten) A'.cds ch.addCd ch.remCd).rem k)
      let b ← Act.lift (Res.get (sideOf o.tc (σc) s.ns fl.nf ((tab s.ns fun k => (m k).c.ops).flatten) A'.cs ch.addC ch.remC).rem k)
      let a' ← Act.lift (Res.get (sideOf o.tcd (σcd) s.ns fl.nf ((tab s.ns fun k => (m k).cd.ops).flatten) A'.cds ch.addCd ch.remCd).add k)
      let b' ← Act.lift (Res.get (sideOf o.tc (σc) s.ns fl.nf ((tab s.ns fun k => (m k).c.ops).flatten) A'.cs ch.addC ch.remC).add k)
      let q ← PDM.onBlock k (DM.tryUpdate o dbg junk ⟨a, b, a', b'⟩)
      pure (d * q))
    (s := { s with
      newPerm := secSign o.tcd (σcd) s.ns A'.cds * secSign o.tc (σc) s.ns A'.cs
      cd := sideOf o.tcd (σcd) s.ns fl.nf ((tab s.ns fun k => (m k).cd.ops).flatten) A'.cds ch.addCd ch.remCd
      c := sideOf o.tc (σc) s.ns fl.nf ((tab s.ns fun k => (m k).c.ops).flatten) A'.cs ch.addC ch.remC }) h.mats
    (by
      intro m' d k hk hm
      have hk' : k < fl.nf := by have := hl.le; omega
      have r1 : Res.get (sideOf o.tcd (σcd) s.ns fl.nf ((tab s.ns fun k => (m k).cd.ops).flatten) A'.cds ch.addCd ch.remCd).rem k =
        .ok (inSec (σcd) k ch.remCd) := tab_get hk'
      have r2 : Res.get (sideOf o.tc (σc) s.ns fl.nf ((tab s.ns fun k => (m k).c.ops).flatten) A'.cs ch.addC ch.remC).rem k =
        .ok (inSec (σc) k ch.remC) := tab_get hk'
      have r3 : Res.get (sideOf o.tcd (σcd) s.ns fl.nf ((tab s.ns fun k => (m k).cd.ops).flatten) A'.cds ch.addCd ch.remCd).add k =
        .ok (inSec (σcd) k ch.addCd) := tab_get hk'
      have r4 : Res.get (sideOf o.tc (σc) s.ns fl.nf ((tab s.ns fun k => (m k).c.ops).flatten) A'.cs ch.addC ch.remC).add k =
        .ok (inSec (σc) k ch.addC) := tab_get hk'
      dsimp only
      rw [r1, r2, r3, r4, Act.lift_ok_bind, Act.lift_ok_bind, Act.lift_ok_bind, Act.lift_ok_bind]
      have e := hv k hk
      rw [← hm] at e
      exact Act.bind_ok (onBlock_ok hk e rfl)) 1
  rw [foldl_prod] at hfold
  exact Act.bind_ok hfold

theorem flatMap_tab {Y : Type} (g : DM K Cd Co T → List Y) : (tab n m).flatMap g = (tab n fun k => g (m k)).flatten := by
  unfold tab; rw [List.flatMap_def, List.map_map]; rfl

theorem reconstruct_ok (dbg : Bool) {s : PDM K Cd Co T} (h1 : s.ns = n) (h2 : s.mats = tab n m)
    (h3 : dbg = true → (tab n fun k => (m k).cd.ops).flatten.length = s.cd.set.length)
    (h4 : dbg = true → (tab n fun k => (m k).c.ops).flatten.length = s.cd.set.length) :
    PDM.reconstruct dbg s = (.ok (), { s with
      cd := { s.cd with order := (tab n fun k => (m k).cd.ops).flatten }
      c := { s.c with order := (tab n fun k => (m k).c.ops).flatten } }) := by
  unfold PDM.reconstruct
  rw [Act.get_bind, Act.assert_pos (by rw [h1, h2, tab_length]), Act.modify_bind, h1, h2, tab_take le_rfl, flatMap_tab, flatMap_tab,
    Act.get_bind, Act.assert_pos h3]
  unfold Act.assert
  rw [Res.assert_true h4]
  rfl

/-- In the debug build lists of another length than the set stop the program. -/
theorem reconstruct_ub {s : PDM K Cd Co T} (h1 : s.ns = n) (h2 : s.mats = tab n m)
    (h3 : (tab n fun k => (m k).cd.ops).flatten.length ≠ s.cd.set.length) : (PDM.reconstruct true s).1 = .ub := by
  unfold PDM.reconstruct
  rw [Act.get_bind, Act.assert_pos (by rw [h1, h2, tab_length]), Act.modify_bind, h1, h2, tab_take le_rfl, flatMap_tab, flatMap_tab,
    Act.get_bind]
  unfold Act.assert
  rw [Res.assert_false (fun h => h3 (h rfl))]
  rfl

/-- The list of the operators of the blocks. -/
theorem order_perm {X : Type} {σ : X → ℕ} {L : List X} (hL : ∀ x ∈ L, σ x < n) {g : ℕ → List X} (hg : ∀ k < n, (g k).Perm (inSec σ k L)) :
    (tab n g).flatten.Perm L := by
  refine List.Perm.trans ?_ (inSec_all hL)
  unfold tab
  rw [← List.flatMap_def]
  exact List.Perm.flatMap_left _ fun k hk => hg k (List.mem_range.mp hk)

theorem orders_perm (hl : Lay fl n lab lst) (hg : ∀ k < n, Good o (m k) (A.sec fl lab k)) (f1 : ∀ a ∈ A.cds, fl.fcd a < fl.nf)
    (f2 : ∀ b ∈ A.cs, fl.fc b < fl.nf) :
    (tab n fun k => (m k).cd.ops).flatten.Perm A.cds ∧ (tab n fun k => (m k).c.ops).flatten.Perm A.cs ∧
      (tab n fun k => (m k).cd.ops).flatten.length = (tab n fun k => (m k).c.ops).flatten.length ∧
      ((tab n m).map fun M => M.inv.rows).sum = (tab n fun k => (m k).cd.ops).flatten.length := by
  refine ⟨order_perm (σ := σcd) (fun a ha => hl.lt _ (f1 a ha)) fun k hk => (hg k hk).pcds,
    order_perm (σ := σc) (fun a ha => hl.lt _ (f2 a ha)) fun k hk => (hg k hk).pcs, ?_, ?_⟩
  · rw [List.length_flatten, List.length_flatten]
    unfold tab
    rw [List.map_map, List.map_map]
    congr 1
    refine List.map_congr_left fun k hk => ?_
    have g := (hg k (List.mem_range.mp hk)).core
    show (m k).cd.ops.length = (m k).c.ops.length
    rw [g.lcd, g.lc]
  · rw [List.length_flatten]
    unfold tab
    rw [List.map_map, List.map_map]
    congr 1
    refine List.map_congr_left fun k hk => ?_
    have g := (hg k (List.mem_range.mp hk)).core
    show (m k).inv.rows = (m k).cd.ops.length
    rw [g.lcd, g.inv.1]

theorem psanity_ok (dbg : Bool) (hl : Lay fl n lab lst) (h : PGood o fl n lab lst m s A) (hne : dbg = true → A.cds ≠ []) :
    PDM.sanityCheck o fl dbg s = (.ok (), s) := by
  unfold PDM.sanityCheck
  cases dbg with
  | false => rfl
  | true =>
    obtain ⟨p1, p2, p3, p4⟩ := orders_perm hl h.good h.flavCd h.flavC
    have hns := h.ns
    have hsec := h.sector
    subst hns hsec
    have n1 : A.cds ≠ [] := hne rfl
    have n2 : A.cs ≠ [] := by
      intro e
      have := p2.length_eq
      rw [e, ← p3, p1.length_eq] at this
      exact n1 (List.length_eq_zero_iff.mp this)
    have g1 : ∀ a ∈ A.cds, lab (fl.fcd a) < s.ns := fun a ha => hl.lt _ (h.flavCd a ha)
    have g2 : ∀ b ∈ A.cs, lab (fl.fc b) < s.ns := fun a ha => hl.lt _ (h.flavC a ha)
    have b1 : ∀ b ∈ (tab s.ns m).map (fun M => (M.inv.rows, M.cd.ops)), b.1 = b.2.length := by
      intro b hb
      unfold tab at hb
      obtain ⟨M, hM, rfl⟩ := List.mem_map.mp hb
      obtain ⟨k, hk, rfl⟩ := List.mem_map.mp hM
      have g := (h.good k (List.mem_range.mp hk)).core
      show (m k).inv.rows = (m k).cd.ops.length
      rw [g.lcd, g.inv.1]
    have b2 : ∀ b ∈ (tab s.ns m).map (fun M => (M.inv.rows, M.c.ops)), b.1 = b.2.length := by
      intro b hb
      unfold tab at hb
      obtain ⟨M, hM, rfl⟩ := List.mem_map.mp hb
      obtain ⟨k, hk, rfl⟩ := List.mem_map.mp hM
      have g := (h.good k (List.mem_range.mp hk)).core
      show (m k).inv.rows = (m k).c.ops.length
      rw [g.lc, g.inv.1]
    rw [if_pos rfl, Act.get_bind, h.cd, h.c, h.mats,
      checkSets_ok h.timesCd g1 p1, Act.lift_ok_bind, checkSets_ok h.timesC g2 p2, Act.lift_ok_bind,
      checkSectors_ok (fun a ha => hl.get _ (h.flavCd a ha)), Act.lift_ok_bind,
      checkSectors_ok (fun a ha => hl.get _ (h.flavC a ha)), Act.lift_ok_bind,
      Act.assert_pos (by rw [tab_length]), tab_take le_rfl,
      Act.assert_pos (by
        rw [p4, p1.length_eq]
        exact (byTime_perm o.tcd A.cds).length_eq),
      checkSign_ok (fun a ha => hl.get _ (h.flavCd a ha)) h.timesCd g1 n1, Act.lift_ok_bind,
      checkSign_ok (fun a ha => hl.get _ (h.flavC a ha)) h.timesC g2 n2, Act.lift_ok_bind,
      Act.assert_pos h.perm, checkOrder_ok b1 (by rw [List.flatMap_map]; exact (flatMap_tab (fun M => M.cd.ops)).symm), Act.lift_ok_bind,
      checkOrder_ok b2 (by rw [List.flatMap_map]; exact (flatMap_tab (fun M => M.c.ops)).symm)]
    rfl

/-- In the debug build an empty matrix does not pass. -/
theorem psanity_empty (hl : Lay fl n lab lst) (h : PGood o fl n lab lst m s A) (he : A.cds = []) :
    (PDM.sanityCheck o fl true s).1 = .ub := by
  unfold PDM.sanityCheck
  obtain ⟨p1, p2, p3, p4⟩ := orders_perm hl h.good h.flavCd h.flavC
  have hns := h.ns
  have hsec := h.sector
  subst hns hsec
  have g1 : ∀ a ∈ A.cds, lab (fl.fcd a) < s.ns := fun a ha => hl.lt _ (h.flavCd a ha)
  have g2 : ∀ b ∈ A.cs, lab (fl.fc b) < s.ns := fun a ha => hl.lt _ (h.flavC a ha)
  have e : (sideOf o.tcd (σcd) s.ns fl.nf ((tab s.ns fun k => (m k).cd.ops).flatten) A.cds [] []).set = [] := by
    rw [he]; rfl
  rw [if_pos rfl, Act.get_bind, h.cd, h.c, h.mats,
    checkSets_ok h.timesCd g1 p1, Act.lift_ok_bind, checkSets_ok h.timesC g2 p2, Act.lift_ok_bind,
    checkSectors_ok (fun a ha => hl.get _ (h.flavCd a ha)), Act.lift_ok_bind,
    checkSectors_ok (fun a ha => hl.get _ (h.flavC a ha)), Act.lift_ok_bind,
    Act.assert_pos (by rw [tab_length]), tab_take le_rfl,
    Act.assert_pos (by
      rw [p4, p1.length_eq]
      exact (byTime_perm o.tcd A.cds).length_eq),
    checkSign_empty e, Act.lift_ub_bind]

theorem clearWork_ok {s : PDM K Cd Co T} (hn : n ≤ fl.nf) (h1 : s.ns = n) {od : List Cd} {oc : List Co} (h2 : s.cd = sideOf o.tcd (σcd) n fl.nf od A.cds ch.addCd ch.remCd)
    (h3 : s.c = sideOf o.tc (σc) n fl.nf oc A.cs ch.addC ch.remC) (g1 : ∀ a ∈ ch.addCd, lab (fl.fcd a) < n)
    (g2 : ∀ a ∈ ch.addC, lab (fl.fc a) < n) (g3 : ∀ a ∈ ch.remCd, lab (fl.fcd a) < n) (g4 : ∀ a ∈ ch.remC, lab (fl.fc a) < n) :
    PDM.clearWork s = (.ok (), { s with
      cd := sideOf o.tcd (σcd) n fl.nf od A.cds [] []
      c := sideOf o.tc (σc) n fl.nf oc A.cs [] [] }) := by
  unfold PDM.clearWork
  subst h1
  rw [Act.get_bind, h2, h3, clear_ok hn g1 g3, Act.lift_ok_bind, clear_ok hn g2 g4, Act.lift_ok_bind, Act.run_modify]

theorem pperform_ok (dbg : Bool) (junk : ℕ → ℕ → K) (hl : Lay fl n lab lst) (h : PGood o fl n lab lst m s A)
    (ht : PTakes o fl A ch A') (hp : ∀ k < n, DM.performUpdate o dbg junk (m1 k) = (.ok (), mp k) ∧ Good o (mp k) (A'.sec fl lab k)) :
    ∃ s2, PDM.performUpdate o fl dbg junk (trialState o fl n lab m m1 s ch A') = PDM.sanityCheck o fl dbg s2 ∧
      PGood o fl n lab lst mp s2 A' := by
  obtain ⟨R, tk⟩ := ht.takes
  have hns := h.ns
  have hsec := h.sector
  subst hns hsec
  have f1 : ∀ a ∈ A'.cds, fl.fcd a < fl.nf := by
    intro a ha
    rcases List.mem_append.mp (tk.newCds.mem_iff.mp ha) with hx | hx
    · exact h.flavCd a (tk.oldCds.mem_iff.mpr (by simp [hx]))
    · exact ht.flavCd a hx
  have f2 : ∀ a ∈ A'.cs, fl.fc a < fl.nf := by
    intro a ha
    rcases List.mem_append.mp (tk.newCs.mem_iff.mp ha) with hx | hx
    · exact h.flavC a (tk.oldCs.mem_iff.mpr (by simp [hx]))
    · exact ht.flavC a hx
  unfold PDM.performUpdate
  rw [Act.get_bind]
  have e0 : (trialState o fl s.ns lab m m1 s ch A').ns = s.ns := rfl
  rw [e0]
  have hf := fold_blocks_all (n := s.ns) (m := m1) (m1 := mp) (g := fun (_ : Unit) (_ : ℕ) => ())
    (f := fun (_ : Unit) (k : ℕ) => PDM.onBlock k (DM.performUpdate o dbg junk))
    (s := trialState o fl s.ns lab m m1 s ch A') rfl
    (by
      intro m' _ k hk hm
      have e := (hp k hk).1
      rw [← hm] at e
      exact onBlock_ok hk e rfl) ()
  obtain ⟨p1, p2, p3, p4⟩ := orders_perm hl (fun k hk => (hp k hk).2) f1 f2
  have pl : (tab s.ns fun k => (mp k).cd.ops).flatten.length = (byTime o.tcd A'.cds).length := by
    rw [p1.length_eq, (byTime_perm _ _).length_eq]
  rw [Act.bind_ok hf, Act.bind_ok (reconstruct_ok dbg (s := { trialState o fl s.ns lab m m1 s ch A' with mats := tab s.ns mp }) (n := s.ns) (m := mp) e0 rfl
      (fun _ => pl) (fun _ => by rw [← p3]; exact pl)),
    Act.modify_bind]
  refine ⟨{ s with
    mats := tab s.ns mp
    perm := secSign o.tcd (σcd) s.ns A'.cds * secSign o.tc (σc) s.ns A'.cs
    newPerm := secSign o.tcd (σcd) s.ns A'.cds * secSign o.tc (σc) s.ns A'.cs
    cd := sideOf o.tcd (σcd) s.ns fl.nf ((tab s.ns fun k => (mp k).cd.ops).flatten) A'.cds [] []
    c := sideOf o.tc (σc) s.ns fl.nf ((tab s.ns fun k => (mp k).c.ops).flatten) A'.cs [] [] }, ?_, ?_⟩
  · refine (Act.bind_ok (clearWork_ok (fl := fl) (o := o) (lab := lab) (A := A') (ch := ch) hl.le (by rfl) rfl rfl
      (fun a ha => hl.lt _ (ht.flavCd a ha)) (fun a ha => hl.lt _ (ht.flavC a ha))
      (fun a ha => hl.lt _ (h.flavCd a (tk.oldCds.mem_iff.mpr (by simp [ha]))))
      (fun a ha => hl.lt _ (h.flavC a (tk.oldCs.mem_iff.mpr (by simp [ha])))))).trans ?_
    rfl
  · exact ⟨rfl, rfl, rfl, fun k hk => (hp k hk).2, rfl, rfl, rfl, f1, f2, ht.timesCd, ht.timesC⟩

theorem preject_ok (dbg : Bool) (hl : Lay fl n lab lst) (h : PGood o fl n lab lst m s A)
    (ht : PTakes o fl A ch A') (hp : ∀ k < n, DM.rejectUpdate o dbg (m1 k) = (.ok (), mr k) ∧ Good o (mr k) (A.sec fl lab k)) :
    ∃ s2, PDM.rejectUpdate o dbg (trialState o fl n lab m m1 s ch A') = (.ok (), s2) ∧
      PGood o fl n lab lst mr s2 A := by
  obtain ⟨R, tk⟩ := ht.takes
  have hns := h.ns
  have hsec := h.sector
  subst hns hsec
  have gA : ∀ a ∈ ch.addCd, lab (fl.fcd a) < s.ns := fun a ha => hl.lt _ (ht.flavCd a ha)
  have gA' : ∀ a ∈ ch.addC, lab (fl.fc a) < s.ns := fun a ha => hl.lt _ (ht.flavC a ha)
  have gR : ∀ a ∈ ch.remCd, lab (fl.fcd a) < s.ns := fun a ha => hl.lt _ (h.flavCd a (tk.oldCds.mem_iff.mpr (by simp [ha])))
  have gR' : ∀ a ∈ ch.remC, lab (fl.fc a) < s.ns := fun a ha => hl.lt _ (h.flavC a (tk.oldCs.mem_iff.mpr (by simp [ha])))
  have p1 : A'.cds.Perm (R.cds ++ (List.range s.ns).flatMap fun k => inSec (σcd) k ch.addCd) :=
    tk.newCds.trans (List.Perm.append_left _ (inSec_all gA).symm)
  have p2 : A'.cs.Perm (R.cs ++ (List.range s.ns).flatMap fun k => inSec (σc) k ch.addC) :=
    tk.newCs.trans (List.Perm.append_left _ (inSec_all gA').symm)
  have p3 : (R.cds ++ (List.range s.ns).flatMap fun k => inSec (σcd) k ch.remCd).Perm A.cds :=
    (List.Perm.append_left _ (inSec_all gR)).trans tk.oldCds.symm
  have p4 : (R.cs ++ (List.range s.ns).flatMap fun k => inSec (σc) k ch.remC).Perm A.cs :=
    (List.Perm.append_left _ (inSec_all gR')).trans tk.oldCs.symm
  have n3 := (p3.map o.tcd).nodup_iff.mpr h.timesCd
  have n4 := (p4.map o.tc).nodup_iff.mpr h.timesC
  unfold PDM.rejectUpdate
  rw [Act.get_bind]
  have e0 : (trialState o fl s.ns lab m m1 s ch A').ns = s.ns := rfl
  rw [e0]
  have hf := fold_blocks_all (n := s.ns) (m := m1) (m1 := mr) (g := fun (_ : Unit) (_ : ℕ) => ())
    (f := fun (_ : Unit) (k : ℕ) => PDM.onBlock k (DM.rejectUpdate o dbg))
    (s := trialState o fl s.ns lab m m1 s ch A') rfl
    (by
      intro m' _ k hk hm
      have e := (hp k hk).1
      rw [← hm] at e
      exact onBlock_ok hk e rfl) ()
  have hr : ∀ k ∈ List.range s.ns, k < s.ns := fun k hk => List.mem_range.mp hk
  rw [Act.bind_ok hf, Act.get_bind]
  unfold trialState
  dsimp only
  rw [unAdd_all hl.le (List.range s.ns) hr A'.cds R.cds p1 ht.timesCd, Act.lift_ok_bind, Act.modify_bind, Act.get_bind]
  dsimp only
  rw [unAdd_all hl.le (List.range s.ns) hr A'.cs R.cs p2 ht.timesC, Act.lift_ok_bind, Act.modify_bind, Act.get_bind]
  dsimp only
  rw [unRem_all hl.le (List.range s.ns) hr R.cds n3, Act.lift_ok_bind, Act.modify_bind, Act.get_bind]
  dsimp only
  rw [unRem_all hl.le (List.range s.ns) hr R.cs n4, Act.lift_ok_bind, Act.modify_bind, sideOf_congr p3 n3, sideOf_congr p4 n4]
  obtain ⟨q1, q2, q3, q4⟩ := orders_perm hl (fun k hk => (hp k hk).2) h.flavCd h.flavC
  have pl : (tab s.ns fun k => (mr k).cd.ops).flatten.length = (byTime o.tcd A.cds).length := by
    rw [q1.length_eq, (byTime_perm _ _).length_eq]
  refine ⟨{ s with
    mats := tab s.ns mr
    newPerm := secSign o.tcd (σcd) s.ns A'.cds * secSign o.tc (σc) s.ns A'.cs
    cd := sideOf o.tcd (σcd) s.ns fl.nf ((tab s.ns fun k => (mr k).cd.ops).flatten) A.cds [] []
    c := sideOf o.tc (σc) s.ns fl.nf ((tab s.ns fun k => (mr k).c.ops).flatten) A.cs [] [] }, ?_, ?_⟩
  · refine (Act.bind_ok (reconstruct_ok dbg (n := s.ns) (m := mr) (by rfl) rfl (fun _ => pl) (fun _ => by rw [← q3]; exact pl))).trans ?_
    exact clearWork_ok (fl := fl) (o := o) (lab := lab) (A := A) (ch := ch) hl.le (by rfl) rfl rfl gA gA' gR gR'
  · exact ⟨rfl, rfl, rfl, fun k hk => (hp k hk).2, rfl, rfl, h.perm, h.flavCd, h.flavC, h.timesCd, h.timesC⟩

end CTInt
