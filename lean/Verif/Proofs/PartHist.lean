import Verif.Proofs.PartPlay
import Verif.Props.Clustering

/-!
# Histories of the partitioned determinant matrix (helper lemmas for C27, C60)
-/

set_option linter.all false

namespace CTInt

variable {K Cd Co T : Type} [Field K] [DecidableEq K] [LinearOrder T] {o : OpSys K Cd Co T} {fl : FlSys Cd Co}
  {n : ℕ} {lab : ℕ → ℕ} {lst : List ℕ} {m : ℕ → DM K Cd Co T} {s : PDM K Cd Co T} {A A' R : Conf Cd Co} {ch : Change Cd Co}

theorem Takes.sec (h : Takes A ch R A') (k : ℕ) :
    Takes (A.sec fl lab k) (ch.sec fl lab k) (R.sec fl lab k) (A'.sec fl lab k) := by
  refine ⟨?_, ?_, ?_, ?_⟩
  · have := inSec_perm (fun a => lab (fl.fcd a)) k h.oldCds; rw [inSec_append] at this; exact this
  · have := inSec_perm (fun a => lab (fl.fc a)) k h.oldCs; rw [inSec_append] at this; exact this
  · have := inSec_perm (fun a => lab (fl.fcd a)) k h.newCds; rw [inSec_append] at this; exact this
  · have := inSec_perm (fun a => lab (fl.fc a)) k h.newCs; rw [inSec_append] at this; exact this

theorem Takes.lengths (h : Takes A ch R A') (he : A.cds.length = A.cs.length) :
    A'.cds.length + (ch.addC.length + ch.remCd.length) = A'.cs.length + (ch.addCd.length + ch.remC.length) := by
  have a := h.oldCds.length_eq
  have b := h.oldCs.length_eq
  have c := h.newCds.length_eq
  have d := h.newCs.length_eq
  simp only [List.length_append] at a b c d
  omega

theorem Change.Regular.even (h : ch.Regular) : ch.addC.length + ch.remCd.length = ch.addCd.length + ch.remC.length := by
  rcases h with ⟨h1, h2⟩ | ⟨h1, h2, h3, h4⟩ | ⟨h1, h2, h3, h4⟩
  · omega
  · rw [h3, h4, h1, h2]; rfl
  · rw [h3, h4, h1, h2]; rfl

theorem PGood.even (h : PGood o fl n lab lst m s A) {k : ℕ} (hk : k < n) :
    (A.sec fl lab k).cds.length = (A.sec fl lab k).cs.length := by
  have g := h.good k hk
  rw [← g.pcds.length_eq, ← g.pcs.length_eq, g.core.lcd, g.core.lc]

/-- Different sectors do not see each other. -/
def Blind (o : OpSys K Cd Co T) (fl : FlSys Cd Co) (lab : ℕ → ℕ) : Prop :=
  ∀ b a, fl.fc b < fl.nf → fl.fcd a < fl.nf → lab (fl.fc b) ≠ lab (fl.fcd a) → o.G b a = 0

theorem PGood.apart (hl : Lay fl n lab lst) (hz : Blind o fl lab) (h : PGood o fl n lab lst m s A) : Apart o fl n lab A :=
  ⟨fun a ha => hl.lt _ (h.flavCd a ha), fun b hb => hl.lt _ (h.flavC b hb), h.timesCd, h.timesC,
    fun b hb a ha hne => hz b a (h.flavC b hb) (h.flavCd a ha) hne⟩

theorem PTakes.apart (hl : Lay fl n lab lst) (hz : Blind o fl lab) (h : PGood o fl n lab lst m s A)
    (ht : PTakes o fl A ch A') : Apart o fl n lab A' := by
  obtain ⟨R, tk⟩ := ht.takes
  have f1 : ∀ a ∈ A'.cds, fl.fcd a < fl.nf := by
    intro a ha
    rcases List.mem_append.mp (tk.newCds.mem_iff.mp ha) with hx | hx
    · exact h.flavCd a (tk.oldCds.mem_iff.mpr (by simp [hx]))
    · exact ht.flavCd a hx
  have f2 : ∀ a ∈ A'.cs, fl.fc a < fl.nf := by
    intro a ha
    rcases List.mem_append.mp (tk.newCs.mem_iff.mp ha) with hx | hx
    · exact h.flavC a (tk.oldCs.mem_iff.mpr (by simp [hx]))
    · exact ht.flavC a hx
  exact ⟨fun a ha => hl.lt _ (f1 a ha), fun b hb => hl.lt _ (f2 b hb), ht.timesCd, ht.timesC,
    fun b hb a ha hne => hz b a (f2 b hb) (f1 a ha) hne⟩

theorem PGood.det (hl : Lay fl n lab lst) (hz : Blind o fl lab) (h : PGood o fl n lab lst m s A) :
    A.det o = (s.perm : K) * ∏ k ∈ Finset.range n, (A.sec fl lab k).det o := by
  rw [det_sectors (h.apart hl hz) fun k hk => h.even hk, h.perm]
  push_cast; ring

theorem PGood.det_ne (hl : Lay fl n lab lst) (hz : Blind o fl lab) (h : PGood o fl n lab lst m s A) : A.det o ≠ 0 := by
  rw [h.det hl hz, h.perm]
  refine mul_ne_zero ?_ (Finset.prod_ne_zero_iff.mpr fun k hk => (h.good k (Finset.mem_range.mp hk)).det_ne)
  have q1 := secSign_sq o.tcd (fun a => lab (fl.fcd a)) n A.cds
  have q2 := secSign_sq o.tc (fun a => lab (fl.fc a)) n A.cs
  intro hc
  push_cast at hc
  rcases mul_eq_zero.mp hc with e | e
  · have := congrArg (Int.cast : ℤ → K) q1
    push_cast at this
    rw [e] at this; simp at this
  · have := congrArg (Int.cast : ℤ → K) q2
    push_cast at this
    rw [e] at this; simp at this

/-- A trial that every sector can handle. -/
theorem pvalid_ok (dbg : Bool) (junk : ℕ → ℕ → K) (hl : Lay fl n lab lst) (hz : Blind o fl lab)
    (h : PGood o fl n lab lst m s A) (hv : PValid o fl n lab A ch A') (he : A'.cds.length = A'.cs.length) :
    ∃ s1, PDM.tryUpdate o fl dbg junk ch s = (.ok (A'.det o / A.det o), s1) ∧
      (A'.det o ≠ 0 → ∃ s2 m', PDM.performUpdate o fl dbg junk s1 = PDM.sanityCheck o fl dbg s2 ∧ PGood o fl n lab lst m' s2 A') ∧
      ∃ s2 m', PDM.rejectUpdate o dbg s1 = (.ok (), s2) ∧ PGood o fl n lab lst m' s2 A := by
  obtain ⟨R, tk⟩ := hv.takes.takes
  have ap' := hv.takes.apart hl hz h
  by_cases hu : ∃ k < n, (ch.sec fl lab k).Uneven
  · obtain ⟨k0, hk0, hu0⟩ := hu
    have hd : A'.det o = 0 := by
      refine det_uneven ap' he hk0 ?_
      have := (tk.sec (fl := fl) (lab := lab) k0).lengths (h.even hk0)
      unfold Change.Uneven at hu0
      omega
    have : ∀ k, ∃ v s1 sp sr, k < n → (Outcome o dbg junk (ch.sec fl lab k) (m k) (A.sec fl lab k) (A'.sec fl lab k) v s1 sp sr ∧
        ((ch.sec fl lab k).Uneven → v = 0)) := by
      intro k
      by_cases hk : k < n
      · by_cases hu : (ch.sec fl lab k).Uneven
        · obtain ⟨s1, sp, sr, e⟩ := outcome_uneven dbg junk (A'.sec fl lab k) (h.good k hk) hu
          exact ⟨0, s1, sp, sr, fun _ => ⟨e, fun _ => rfl⟩⟩
        · obtain ⟨s1, sp, sr, e⟩ := outcome_valid dbg junk (h.good k hk) ((hv.secs k hk).resolve_right hu)
          exact ⟨_, s1, sp, sr, fun _ => ⟨e, fun h => absurd h hu⟩⟩
      · exact ⟨0, m k, m k, m k, fun h => absurd h hk⟩
    choose v m1 mp mr ho using this
    refine ⟨trialState o fl n lab m m1 s ch A', ?_, fun hne => absurd hd hne, ?_⟩
    · rw [ptry_ok dbg junk hl h hv.takes fun k hk => (ho k hk).1.1, hd, zero_div,
        Finset.prod_eq_zero (Finset.mem_range.mpr hk0) ((ho k0 hk0).2 hu0), zero_mul]
    · obtain ⟨s2, e, g⟩ := preject_ok (ch := ch) (A' := A') (m1 := m1) (mr := mr) dbg hl h hv.takes fun k hk => (ho k hk).1.2.2
      exact ⟨s2, mr, e, g⟩
  · push Not at hu
    have hval : ∀ k < n, Valid o (A.sec fl lab k) (ch.sec fl lab k) (A'.sec fl lab k) := fun k hk =>
      (hv.secs k hk).resolve_right (hu k hk)
    have hev : ∀ k < n, (A'.sec fl lab k).cds.length = (A'.sec fl lab k).cs.length := by
      intro k hk
      have a := (tk.sec (fl := fl) (lab := lab) k).lengths (h.even hk)
      have b := (hval k hk).regular.even
      omega
    have hd := det_sectors ap' hev
    have hdA := det_sectors (h.apart hl hz) fun k hk => h.even hk
    have : ∀ k, ∃ s1 sp sr, k < n → Outcome o dbg junk (ch.sec fl lab k) (m k) (A.sec fl lab k) (A'.sec fl lab k)
        ((A'.sec fl lab k).det o / (A.sec fl lab k).det o) s1 sp sr := by
      intro k
      by_cases hk : k < n
      · obtain ⟨s1, sp, sr, e⟩ := outcome_valid dbg junk (h.good k hk) (hval k hk)
        exact ⟨s1, sp, sr, fun _ => e⟩
      · exact ⟨m k, m k, m k, fun h => absurd h hk⟩
    choose m1 mp mr ho using this
    refine ⟨trialState o fl n lab m m1 s ch A', ?_, ?_, ?_⟩
    · rw [ptry_ok dbg junk hl h hv.takes fun k hk => (ho k hk).1, hd, hdA, Finset.prod_div_distrib]
      congr 2
      have q1 := congrArg (Int.cast : ℤ → K) (secSign_sq o.tcd (fun a => lab (fl.fcd a)) n A.cds)
      have q2 := congrArg (Int.cast : ℤ → K) (secSign_sq o.tc (fun a => lab (fl.fc a)) n A.cs)
      push_cast at q1 q2 ⊢
      have hp : ∏ k ∈ Finset.range n, (A.sec fl lab k).det o ≠ 0 :=
        Finset.prod_ne_zero_iff.mpr fun k hk => (h.good k (Finset.mem_range.mp hk)).det_ne
      have n1 : (secSign o.tcd (fun a => lab (fl.fcd a)) n A.cds : K) ≠ 0 := left_ne_zero_of_mul_eq_one q1
      have n2 : (secSign o.tc (fun a => lab (fl.fc a)) n A.cs : K) ≠ 0 := left_ne_zero_of_mul_eq_one q2
      rw [div_mul_eq_mul_div, div_eq_div_iff hp (mul_ne_zero (mul_ne_zero n1 n2) hp)]
      calc _ = (∏ k ∈ Finset.range n, (A'.sec fl lab k).det o) * (∏ k ∈ Finset.range n, (A.sec fl lab k).det o) *
          (secSign o.tcd (fun a => lab (fl.fcd a)) n A'.cds : K) * (secSign o.tc (fun a => lab (fl.fc a)) n A'.cs : K) *
          ((secSign o.tcd (fun a => lab (fl.fcd a)) n A.cds : K) * (secSign o.tcd (fun a => lab (fl.fcd a)) n A.cds : K)) *
          ((secSign o.tc (fun a => lab (fl.fc a)) n A.cs : K) * (secSign o.tc (fun a => lab (fl.fc a)) n A.cs : K)) := by ring
        _ = _ := by rw [q1, q2]; ring
    · intro hne
      have hp : ∏ k ∈ Finset.range n, (A'.sec fl lab k).det o ≠ 0 := fun e => hne (by rw [hd, e, mul_zero])
      rw [Finset.prod_ne_zero_iff] at hp
      obtain ⟨s2, e, g⟩ := pperform_ok (ch := ch) (A' := A') (m1 := m1) (mp := mp) dbg junk hl h hv.takes fun k hk =>
        (ho k hk).2.1 (div_ne_zero (hp k (Finset.mem_range.mpr hk)) (h.good k hk).det_ne)
      exact ⟨s2, mp, e, g⟩
    · obtain ⟨s2, e, g⟩ := preject_ok (ch := ch) (A' := A') (m1 := m1) (mr := mr) dbg hl h hv.takes fun k hk => (ho k hk).2.2
      exact ⟨s2, mr, e, g⟩

/-- A trial with which a sector gives up. -/
theorem pgivenUp_ok (dbg : Bool) (junk : ℕ → ℕ → K) (hl : Lay fl n lab lst)
    (h : PGood o fl n lab lst m s A) (hv : PGivenUp o fl n lab A ch A') :
    ∃ s1 s2 m', PDM.tryUpdate o fl dbg junk ch s = (.ok 0, s1) ∧
      PDM.rejectUpdate o dbg s1 = (.ok (), s2) ∧ PGood o fl n lab lst m' s2 A := by
  obtain ⟨k0, hk0, hu0⟩ := hv.some
  have : ∀ k, ∃ v s1 sp sr, k < n → (Outcome o dbg junk (ch.sec fl lab k) (m k) (A.sec fl lab k) (A'.sec fl lab k) v s1 sp sr ∧
      (((ch.sec fl lab k).Uneven ∨ Clash o (A.sec fl lab k) (ch.sec fl lab k) ∨
        Singular o (A.sec fl lab k) (ch.sec fl lab k) (A'.sec fl lab k)) → v = 0)) := by
    intro k
    by_cases hk : k < n
    · by_cases hu : (ch.sec fl lab k).Uneven ∨ Clash o (A.sec fl lab k) (ch.sec fl lab k) ∨
        Singular o (A.sec fl lab k) (ch.sec fl lab k) (A'.sec fl lab k)
      · rcases hu with hu | hu | hu
        · obtain ⟨s1, sp, sr, e⟩ := outcome_uneven dbg junk (A'.sec fl lab k) (h.good k hk) hu
          exact ⟨0, s1, sp, sr, fun _ => ⟨e, fun _ => rfl⟩⟩
        · obtain ⟨s1, sp, sr, e⟩ := outcome_clash dbg junk (A'.sec fl lab k) (h.good k hk) hu
          exact ⟨0, s1, sp, sr, fun _ => ⟨e, fun _ => rfl⟩⟩
        · obtain ⟨s1, sp, sr, e⟩ := outcome_singular dbg junk (h.good k hk) hu
          exact ⟨0, s1, sp, sr, fun _ => ⟨e, fun _ => rfl⟩⟩
      · obtain ⟨s1, sp, sr, e⟩ := outcome_valid dbg junk (h.good k hk) ((hv.secs k hk).resolve_right hu)
        exact ⟨_, s1, sp, sr, fun _ => ⟨e, fun h => absurd h hu⟩⟩
    · exact ⟨0, m k, m k, m k, fun h => absurd h hk⟩
  choose v m1 mp mr ho using this
  obtain ⟨s2, e, g⟩ := preject_ok (ch := ch) (A' := A') (m1 := m1) (mr := mr) dbg hl h hv.takes fun k hk => (ho k hk).1.2.2
  refine ⟨trialState o fl n lab m m1 s ch A', s2, mr, ?_, e, g⟩
  rw [ptry_ok dbg junk hl h hv.takes fun k hk => (ho k hk).1.1,
    Finset.prod_eq_zero (Finset.mem_range.mpr hk0) ((ho k0 hk0).2 hu0), zero_mul]

theorem PGood.same (h : PGood o fl n lab lst m s A) (hs : A.Same A') : PGood o fl n lab lst m s A' := by
  refine ⟨h.ns, h.sector, h.mats, fun k hk => (h.good k hk).same ⟨inSec_perm _ k hs.1, inSec_perm _ k hs.2⟩, ?_, ?_, ?_, ?_, ?_, ?_, ?_⟩
  · rw [h.cd, sideOf_congr hs.1 h.timesCd]
  · rw [h.c, sideOf_congr hs.2 h.timesC]
  · rw [h.perm, secSign_congr hs.1 h.timesCd, secSign_congr hs.2 h.timesC]
  · exact fun a ha => h.flavCd a (hs.1.mem_iff.mpr ha)
  · exact fun a ha => h.flavC a (hs.2.mem_iff.mpr ha)
  · exact (hs.1.map _).nodup_iff.mp h.timesCd
  · exact (hs.2.map _).nodup_iff.mp h.timesC

/-- A whole history. -/
theorem pplay_ok (dbg : Bool) (junk : ℕ → ℕ → K) (hl : Lay fl n lab lst) (hz : Blind o fl lab)
    {l : List (Change Cd Co × Bool)} {rs : List K} (hh : PHistory dbg o fl n lab A l rs A') :
    ∀ (s : PDM K Cd Co T) (m : ℕ → DM K Cd Co T), PGood o fl n lab lst m s A →
      ∃ s' m', pplay o fl dbg junk l s = (.ok rs, s') ∧ PGood o fl n lab lst m' s' A' := by
  induction hh with
  | done A A' hs => exact fun s m h => ⟨s, m, rfl, h.same hs⟩
  | accept A ch A' l rs A'' hv he hne hem hh ih =>
    intro s m h
    obtain ⟨s1, e1, e2, -⟩ := pvalid_ok dbg junk hl hz h hv he
    obtain ⟨s2, m2, e3, g⟩ := e2 hne
    rw [psanity_ok dbg hl g hem] at e3
    obtain ⟨s3, m3, e4, g'⟩ := ih s2 m2 g
    refine ⟨s3, m3, ?_, g'⟩
    unfold pplay
    rw [Act.bind_ok e1, if_pos rfl, Act.bind_ok e3]
    exact Act.bind_ok e4
  | reject A ch A' l rs A'' hv he hh ih =>
    intro s m h
    obtain ⟨s1, e1, -, s2, m2, e3, g⟩ := pvalid_ok dbg junk hl hz h hv he
    obtain ⟨s3, m3, e4, g'⟩ := ih s2 m2 g
    refine ⟨s3, m3, ?_, g'⟩
    unfold pplay
    rw [Act.bind_ok e1, if_neg (by simp), Act.bind_ok e3]
    exact Act.bind_ok e4
  | gaveUp A ch A' l rs A'' hc hh ih =>
    intro s m h
    obtain ⟨s1, s2, m2, e1, e3, g⟩ := pgivenUp_ok dbg junk hl h hc
    obtain ⟨s3, m3, e4, g'⟩ := ih s2 m2 g
    refine ⟨s3, m3, ?_, g'⟩
    unfold pplay
    rw [Act.bind_ok e1, if_neg (by simp), Act.bind_ok e3]
    exact Act.bind_ok e4

/-- What the client sees. -/
theorem PGood.inStep (hl : Lay fl n lab lst) (h : PGood o fl n lab lst m s A) : InStep o fl lab s A := by
  have hb : ∀ k < n, (m k).cd.set = byTime o.tcd (A.sec fl lab k).cds := fun k hk => (h.good k hk).shows.setCd
  have hb' : ∀ k < n, (m k).c.set = byTime o.tc (A.sec fl lab k).cs := fun k hk => (h.good k hk).shows.setC
  have e : ∀ {Y : Type} (g : DM K Cd Co T → List Y), (tab n m).flatMap g = (tab n fun k => g (m k)).flatten := by
    intro Y g; unfold tab; rw [List.flatMap_def, List.map_map]; rfl
  have p1 := secList_perm (τ := o.tcd) (n := n) fun a ha => hl.lt _ (h.flavCd a ha)
  have p2 := secList_perm (τ := o.tc) (n := n) fun a ha => hl.lt _ (h.flavC a ha)
  have o1 : ((tab n fun k => (m k).cd.ops).flatten).Perm A.cds := by
    refine List.Perm.trans ?_ p1
    unfold secList tab
    rw [← List.flatMap_def, ← List.flatMap_def]
    refine List.Perm.flatMap_left _ fun k hk => ?_
    exact (h.good k (List.mem_range.mp hk)).pcds.trans (byTime_perm _ _).symm
  have o2 : ((tab n fun k => (m k).c.ops).flatten).Perm A.cs := by
    refine List.Perm.trans ?_ p2
    unfold secList tab
    rw [← List.flatMap_def, ← List.flatMap_def]
    refine List.Perm.flatMap_left _ fun k hk => ?_
    exact (h.good k (List.mem_range.mp hk)).pcs.trans (byTime_perm _ _).symm
  refine ⟨by rw [h.cd]; rfl, by rw [h.c]; rfl, by rw [h.cd, h.ns]; rfl, by rw [h.c, h.ns]; rfl, ?_, ?_, ?_, ?_, ?_, ?_, ?_, ?_⟩
  · rw [h.mats, h.cd]
    show (tab n m).map _ = tab n _
    unfold tab; rw [List.map_map]
    exact List.map_congr_left fun k hk => hb k (List.mem_range.mp hk)
  · rw [h.mats, h.c]
    show (tab n m).map _ = tab n _
    unfold tab; rw [List.map_map]
    exact List.map_congr_left fun k hk => hb' k (List.mem_range.mp hk)
  · rw [h.mats, h.cd, e, tab_congr hb]
    exact (byTime_perm _ _).trans p1.symm
  · rw [h.mats, h.c, e, tab_congr hb']
    exact (byTime_perm _ _).trans p2.symm
  · rw [h.mats, h.cd, e]; rfl
  · rw [h.mats, h.c, e]; rfl
  · rw [h.cd]; exact o1
  · rw [h.c]; exact o2

theorem PGood.computeDet (hl : Lay fl n lab lst) (hz : Blind o fl lab) (h : PGood o fl n lab lst m s A) :
    s.computeDeterminant = A.det o := by
  rw [h.det hl hz]
  unfold PDM.computeDeterminant
  rw [h.mats, h.ns, tab_take le_rfl]
  congr 1
  unfold tab
  rw [List.map_map]
  have : ∀ k ∈ List.range n, (DM.computeDeterminant ∘ m) k = (A.sec fl lab k).det o := fun k hk =>
    (h.good k (List.mem_range.mp hk)).shows.det
  rw [List.map_congr_left this]
  clear * -
  induction n with
  | zero => rfl
  | succ n ih => rw [List.range_succ, List.map_append, List.prod_append, ih, Finset.prod_range_succ]; simp

/-- The constructor. -/
theorem pcreate_ok (hc : Connects o fl) (dbg : Bool) (j : ℕ → DM K Cd Co T) (np : ℤ) :
    ∃ s0 lab, PDM.create fl dbg j np = .ok s0 ∧ (∀ f < fl.nf, s0.blockOf f = .ok (lab f)) ∧ Sectors fl s0.ns lab ∧
      Blind o fl lab ∧ ∃ m, Lay fl s0.ns lab s0.sector ∧ PGood o fl s0.ns lab s0.sector m s0 ⟨[], []⟩ := by
  have hp : ∀ p ∈ PDM.links fl, p.1 < fl.nf ∧ p.2 < fl.nf := by
    intro p hp
    unfold PDM.links at hp
    simp only [List.mem_flatMap, List.mem_map, List.mem_filter, List.mem_range] at hp
    obtain ⟨f, hf, g, ⟨hg, -⟩, rfl⟩ := hp
    exact ⟨hf, by simpa using by omega⟩
  obtain ⟨c, F, e1, e2, e3, e4, e5, e6⟩ := C22_clusters fl.nf (PDM.links fl) hp
  have hlab : ∀ f (hf : f < F.labels.length), F.labels.getD f 0 = F.labels[f] := fun f hf => by simp [hf]
  have hlink : ∀ f g, Linked (PDM.links fl) f g ↔
      Relation.EqvGen (fun a b => a < fl.nf ∧ b < fl.nf ∧ fl.conn a b = true) f g := by
    intro f g
    have hm : ∀ a b, (a, b) ∈ PDM.links fl ↔ a < fl.nf ∧ b < a ∧ fl.conn a b = true := by
      intro a b
      unfold PDM.links
      simp only [List.mem_flatMap, List.mem_map, List.mem_filter, List.mem_range, Prod.mk.injEq]
      constructor
      · rintro ⟨f, hf, g, ⟨hg, hg'⟩, rfl, rfl⟩; exact ⟨hf, hg, hg'⟩
      · rintro ⟨h1, h2, h3⟩; exact ⟨a, h1, b, ⟨h2, h3⟩, rfl, rfl⟩
    constructor
    · intro h
      refine h.mono fun a b hab => ?_
      obtain ⟨h1, h2, h3⟩ := (hm a b).mp hab
      exact ⟨h1, by omega, h3⟩
    · intro h
      induction h with
      | rel a b hab =>
        obtain ⟨h1, h2, h3⟩ := hab
        rcases lt_trichotomy a b with hlt | heq | hgt
        · refine Relation.EqvGen.symm _ _ (Relation.EqvGen.rel _ _ ((hm b a).mpr ⟨h2, hlt, ?_⟩))
          rw [← hc.symm a b h1 h2]; exact h3
        · subst heq; exact Relation.EqvGen.refl _
        · exact Relation.EqvGen.rel _ _ ((hm a b).mpr ⟨h1, hgt, h3⟩)
      | refl a => exact Relation.EqvGen.refl _
      | symm a b _ ih => exact Relation.EqvGen.symm _ _ ih
      | trans a b c _ _ ih1 ih2 => exact Relation.EqvGen.trans _ _ _ ih1 ih2
  have hsec : Sectors fl F.members.length (fun f => F.labels.getD f 0) := by
    refine ⟨?_, ?_⟩
    · intro f g hf hg
      rw [hlab f (by omega), hlab g (by omega), e4 f (by omega) g (by omega), hlink]
    · intro k
      rw [← e5 k]
      constructor
      · intro hk
        obtain ⟨f, hf, e⟩ := List.getElem_of_mem hk
        exact ⟨f, by omega, by rw [hlab f hf, e]⟩
      · rintro ⟨f, hf, rfl⟩
        rw [hlab f (by omega)]; exact List.getElem_mem _
  have hblind : Blind o fl (fun f => F.labels.getD f 0) := by
    intro b a hb ha hne
    refine hc.zero b a hb ha ?_ ?_
    · intro e; exact hne (by rw [e])
    · by_contra hcon
      rw [Bool.not_eq_false] at hcon
      exact hne ((hsec.same _ _ hb ha).mpr (Relation.EqvGen.rel _ _ ⟨hb, ha, hcon⟩))
  have hle : F.members.length ≤ fl.nf := by
    have hsub : (List.range F.members.length).Subperm F.labels := by
      refine (List.nodup_range).subperm fun k hk => ?_
      exact (e5 k).mpr (List.mem_range.mp hk)
    have := hsub.length_le
    rw [List.length_range, e3] at this; exact this
  have hget : ∀ f < fl.nf, Res.get F.labels f = .ok (F.labels.getD f 0) := by
    intro f hf
    rw [Res.get_of_lt (by omega), hlab f (by omega)]
  have rep : ∀ {Y : Type} (N : ℕ), List.replicate N ([] : List Y) = tab N fun _ => [] := by
    intro Y N; unfold tab; rw [List.map_const']; simp
  refine ⟨⟨F.members.length, F.members, F.labels, (List.range F.members.length).map fun k => DM.create (j k), 1, np,
    ⟨[], [], List.replicate F.members.length [], List.replicate fl.nf [], List.replicate fl.nf []⟩,
    ⟨[], [], List.replicate F.members.length [], List.replicate fl.nf [], List.replicate fl.nf []⟩⟩,
    fun f => F.labels.getD f 0, ?_, hget, hsec, hblind, fun k => DM.create (j k), ⟨hget, ?_, hle⟩, ?_⟩
  · unfold PDM.create
    rw [Res.assert_true (fun _ f hf g hg => hc.symm f g hf (by omega)), Res.bind_ok, e1, Res.bind_ok, e2, Res.bind_ok]
    dsimp only
    rw [Res.assert_true, Res.bind_ok]
    · rfl
    · intro _ f hf g hg hne
      by_contra hcon
      rw [Bool.not_eq_false] at hcon
      exact hne ((hsec.same f g hf (by omega)).mpr (Relation.EqvGen.rel _ _ ⟨hf, by omega, hcon⟩))
  · intro f hf
    exact (hsec.onto _).mpr ⟨f, hf, rfl⟩
  · refine ⟨rfl, rfl, rfl, fun k _ => create_good (j k), ?_, ?_, ?_, by simp, by simp, by simp, by simp⟩
    · dsimp only
      unfold sideOf
      rw [rep, rep]
      congr 1
      unfold tab; simp [DM.create]
    · dsimp only
      unfold sideOf
      rw [rep, rep]
      congr 1
      unfold tab; simp [DM.create]
    · have z : ∀ {Y : Type} (τ : Y → T) (σ : Y → ℕ) (N : ℕ), secSign τ σ N [] = 1 := by
        intro Y τ σ N
        unfold secSign
        have := (secList_perm (τ := τ) (σ := σ) (n := N) (L := []) (by simp)).eq_nil
        rw [this, orderSign_nil]
      rw [z, z]; rfl

end CTInt
