import Verif.Proofs.PartHist
import Verif.Props.DetMatrix

/-!
# Partitioned determinant matrix: inverse, rebuilding, list constructor, equal times (helper lemmas for C27, C60)
-/

set_option linter.all false

namespace CTInt

variable {K Cd Co T : Type} [Field K] [DecidableEq K] [LinearOrder T] {o : OpSys K Cd Co T} {fl : FlSys Cd Co}
  {n : ℕ} {lab : ℕ → ℕ} {lst : List ℕ} {m : ℕ → DM K Cd Co T} {s : PDM K Cd Co T} {A A' R : Conf Cd Co} {ch : Change Cd Co}

theorem tab_succ_flatten {Y : Type} (g : ℕ → List Y) (j : ℕ) : (tab (j + 1) g).flatten = (tab j g).flatten ++ g j := by
  unfold tab; rw [List.range_succ, List.map_append, List.flatten_append]; simp

theorem mem_tab_flatten {Y : Type} {g : ℕ → List Y} {j : ℕ} {y : Y} : y ∈ (tab j g).flatten ↔ ∃ k < j, y ∈ g k := by
  unfold tab; simp [List.mem_flatten]

/-- Two inverse blocks along the diagonal. -/
theorem inv_two {G : Co → Cd → K} {c1 c2 : List Co} {d1 d2 : List Cd} {X Y Z : DMat K} (h1 : c1.length = d1.length)
    (hz1 : ∀ b ∈ c1, ∀ a ∈ d2, G b a = 0) (hz2 : ∀ b ∈ c2, ∀ a ∈ d1, G b a = 0)
    (hX : IsInvOf X d1.length (greenAt G c1 d1)) (hY : IsInvOf Y d2.length (greenAt G c2 d2))
    (hr : Z.rows = d1.length + d2.length) (hc : Z.cols = d1.length + d2.length)
    (z11 : ∀ i < d1.length, ∀ j < d1.length, Z.val i j = X.val i j)
    (z22 : ∀ i < d2.length, ∀ j < d2.length, Z.val (d1.length + i) (d1.length + j) = Y.val i j)
    (z12 : ∀ i < d1.length, ∀ j < d2.length, Z.val i (d1.length + j) = 0)
    (z21 : ∀ i < d2.length, ∀ j < d1.length, Z.val (d1.length + i) j = 0) :
    IsInvOf Z (d1.length + d2.length) (greenAt G (c1 ++ c2) (d1 ++ d2)) := by
  refine mul_blocks_eq_one hr hc (E := toM _ _ X.val) (F := 0) (G := 0) (H := toM _ _ Y.val)
    (toM_congr z11) ?_ ?_ (toM_congr z22) ?_
  · ext i j; exact z12 i i.2 j j.2
  · ext i j; exact z21 i i.2 j j.2
  · have e11 : toM d1.length d1.length (greenAt G (c1 ++ c2) (d1 ++ d2)) = toM _ _ (greenAt G c1 d1) :=
      toM_congr fun i hi j hj => greenAt_left (by omega) hj
    have e12 : (toM d1.length d2.length fun i j => greenAt G (c1 ++ c2) (d1 ++ d2) i (d1.length + j)) = 0 := by
      ext i j
      refine greenAt_zero fun b a hb ha => hz1 b ?_ a ?_
      · rw [List.getElem?_append_left (by have := i.2; omega)] at hb
        exact List.mem_of_getElem? hb
      · rw [List.getElem?_append_right (by omega)] at ha
        exact List.mem_of_getElem? ha
    have e21 : (toM d2.length d1.length fun i j => greenAt G (c1 ++ c2) (d1 ++ d2) (d1.length + i) j) = 0 := by
      ext i j
      refine greenAt_zero fun b a hb ha => hz2 b ?_ a ?_
      · rw [List.getElem?_append_right (by omega)] at hb
        exact List.mem_of_getElem? hb
      · rw [List.getElem?_append_left (by have := j.2; omega)] at ha
        exact List.mem_of_getElem? ha
    have e22 : (toM d2.length d2.length fun i j => greenAt G (c1 ++ c2) (d1 ++ d2) (d1.length + i) (d1.length + j)) =
        toM _ _ (greenAt G c2 d2) := by
      refine toM_congr fun i hi j hj => ?_
      have := greenAt_right (G := G) (c1 := c1) (c2 := c2) (d1 := d1) (d2 := d2) i j
      rw [h1] at this
      exact this
    rw [e11, e12, e21, e22, Matrix.fromBlocks_multiply, hX.2.2, hY.2.2, ← Matrix.fromBlocks_one]
    simp

/-- `compute_inverse_matrix`. -/
theorem PGood.computeInv (hl : Lay fl n lab lst) (hz : Blind o fl lab) (h : PGood o fl n lab lst m s A) :
    IsInvOf s.computeInverse A.cds.length (greenAt o.G s.c.order s.cd.order) := by
  have hlen : s.cd.set.length = A.cds.length := by rw [h.cd]; exact (byTime_perm _ _).length_eq
  have hlo : s.cd.order.length = A.cds.length := (h.inStep hl).permCd.length_eq
  have len : ∀ k < n, (m k).c.ops.length = (m k).cd.ops.length := fun k hk => by
    rw [(h.good k hk).core.lcd, (h.good k hk).core.lc]
  have hcd : ∀ k < n, ∀ a ∈ (m k).cd.ops, lab (fl.fcd a) = k ∧ fl.fcd a < fl.nf := by
    intro k hk a ha
    have := (h.good k hk).pcds.mem_iff.mp ha
    rw [sec_cds] at this
    obtain ⟨h1, h2⟩ := List.mem_filter.mp this
    exact ⟨by simpa using h2, h.flavCd a h1⟩
  have hc : ∀ k < n, ∀ a ∈ (m k).c.ops, lab (fl.fc a) = k ∧ fl.fc a < fl.nf := by
    intro k hk a ha
    have := (h.good k hk).pcs.mem_iff.mp ha
    rw [sec_cs] at this
    obtain ⟨h1, h2⟩ := List.mem_filter.mp this
    exact ⟨by simpa using h2, h.flavC a h1⟩
  have key : ∀ j ≤ n, ∃ M : DMat K, ((tab j m).foldl (fun (x : ℕ × DMat K) m =>
      let b := m.cd.ops.length
      (x.1 + b, ⟨s.cd.set.length, s.cd.set.length, fun i j => if x.1 ≤ i ∧ i < x.1 + b ∧ x.1 ≤ j ∧ j < x.1 + b then
        m.inv.val (i - x.1) (j - x.1) else x.2.val i j⟩)) (0, ⟨s.cd.set.length, s.cd.set.length, fun _ _ => 0⟩)) =
      ((tab j fun k => (m k).cd.ops).flatten.length, M) ∧ M.rows = s.cd.set.length ∧ M.cols = s.cd.set.length ∧
      IsInvOf ⟨(tab j fun k => (m k).cd.ops).flatten.length, (tab j fun k => (m k).cd.ops).flatten.length, M.val⟩
        (tab j fun k => (m k).cd.ops).flatten.length
        (greenAt o.G (tab j fun k => (m k).c.ops).flatten (tab j fun k => (m k).cd.ops).flatten) ∧
      ∀ i k, (tab j fun k => (m k).cd.ops).flatten.length ≤ i ∨ (tab j fun k => (m k).cd.ops).flatten.length ≤ k →
        M.val i k = 0 := by
    intro j
    induction j with
    | zero => exact fun _ => ⟨_, rfl, rfl, rfl, ⟨rfl, rfl, toM_zero_mul_eq_one _ _⟩, fun _ _ _ => rfl⟩
    | succ j ih =>
      intro hj
      obtain ⟨M, e, r1, r2, hi, h0⟩ := ih (by omega)
      have hg := h.good j (by omega)
      have es : tab (j + 1) m = tab j m ++ [m j] := by unfold tab; rw [List.range_succ, List.map_append]; rfl
      rw [es, List.foldl_append, e]
      have hlj : (tab j fun k => (m k).c.ops).flatten.length = (tab j fun k => (m k).cd.ops).flatten.length := by
        rw [List.length_flatten, List.length_flatten]
        congr 1
        unfold tab
        rw [List.map_map, List.map_map]
        exact List.map_congr_left fun k hk => len k (by have := List.mem_range.mp hk; omega)
      refine ⟨⟨s.cd.set.length, s.cd.set.length, fun i k =>
          if (tab j fun k => (m k).cd.ops).flatten.length ≤ i ∧ i < (tab j fun k => (m k).cd.ops).flatten.length + (m j).cd.ops.length ∧
            (tab j fun k => (m k).cd.ops).flatten.length ≤ k ∧ k < (tab j fun k => (m k).cd.ops).flatten.length + (m j).cd.ops.length then
            (m j).inv.val (i - (tab j fun k => (m k).cd.ops).flatten.length) (k - (tab j fun k => (m k).cd.ops).flatten.length)
          else M.val i k⟩, ?_, rfl, rfl, ?_, ?_⟩
      · rw [tab_succ_flatten, List.length_append]; rfl
      · rw [tab_succ_flatten, tab_succ_flatten, List.length_append]
        refine inv_two (Y := (m j).inv) hlj ?_ ?_ hi ?_ rfl rfl ?_ ?_ ?_ ?_
        · intro b hb a ha
          obtain ⟨k, hk, hb⟩ := mem_tab_flatten.mp hb
          obtain ⟨q1, q2⟩ := hc k (by omega) b hb
          obtain ⟨q3, q4⟩ := hcd j (by omega) a ha
          exact hz b a q2 q4 (by omega)
        · intro b hb a ha
          obtain ⟨k, hk, ha⟩ := mem_tab_flatten.mp ha
          obtain ⟨q1, q2⟩ := hc j (by omega) b hb
          obtain ⟨q3, q4⟩ := hcd k (by omega) a ha
          exact hz b a q2 q4 (by omega)
        · have := hg.core.inv
          rw [← hg.core.lcd] at this
          exact this
        · intro i hi k hk
          exact if_neg (by omega)
        · intro i hi k hk
          refine (if_pos ?_).trans ?_
          · omega
          · rw [Nat.add_sub_cancel_left, Nat.add_sub_cancel_left]
        · intro i hi k hk
          exact (if_neg (by omega)).trans (h0 _ _ (by omega))
        · intro i hi k hk
          exact (if_neg (by omega)).trans (h0 _ _ (by omega))
      · intro i k hik
        rw [tab_succ_flatten, List.length_append] at hik
        exact (if_neg (by omega)).trans (h0 _ _ (by omega))
  obtain ⟨M, e, r1, r2, hi, -⟩ := key n le_rfl
  have e1 : s.cd.order = (tab n fun k => (m k).cd.ops).flatten := by rw [h.cd]; rfl
  have e2 : s.c.order = (tab n fun k => (m k).c.ops).flatten := by rw [h.c]; rfl
  rw [← e1, ← e2, hlo] at hi
  unfold PDM.computeInverse
  dsimp only
  rw [h.mats, h.ns, tab_take le_rfl]
  dsimp only at e
  rw [e]
  refine hi.congr_left ?_ ?_ fun _ _ _ _ => rfl
  · rw [r1, hlen]
  · rw [r2, hlen]

/-- `rebuild_inverse_matrix`. -/
theorem prebuild_ok (dbg : Bool) (h : PGood o fl n lab lst m s A) :
    ∃ s' m', PDM.rebuild o dbg s = (.ok (), s') ∧ PGood o fl n lab lst m' s' A := by
  have hns := h.ns
  subst hns
  have : ∀ k, ∃ s1, k < s.ns → DM.rebuild o dbg (m k) = (.ok (), s1) ∧ Good o s1 (A.sec fl lab k) ∧
      s1.cd.ops = (m k).cd.ops ∧ s1.c.ops = (m k).c.ops := by
    intro k
    by_cases hk : k < s.ns
    · obtain ⟨s1, e, g, q1, q2⟩ := rebuild_good dbg (h.good k hk)
      exact ⟨s1, fun _ => ⟨e, g, by rw [q1], by rw [q2]⟩⟩
    · exact ⟨m k, fun h => absurd h hk⟩
  choose m1 h1 using this
  have hf := fold_blocks_all (n := s.ns) (m := m) (m1 := m1) (g := fun (_ : Unit) (_ : ℕ) => ())
    (f := fun (_ : Unit) (k : ℕ) => PDM.onBlock k (DM.rebuild o dbg)) (s := s) h.mats
    (by
      intro m' _ k hk hm
      have e := (h1 k hk).1
      rw [← hm] at e
      exact onBlock_ok hk e rfl) ()
  refine ⟨{ s with mats := tab s.ns m1 }, m1, ?_, ⟨rfl, h.sector, rfl, fun k hk => (h1 k hk).2.1, ?_, ?_, h.perm, h.flavCd, h.flavC, h.timesCd, h.timesC⟩⟩
  · unfold PDM.rebuild
    rw [Act.get_bind]
    exact hf
  · rw [tab_congr fun k hk => (h1 k hk).2.2.1]; exact h.cd
  · rw [tab_congr fun k hk => (h1 k hk).2.2.2]; exact h.c

/-- The blocks' trials. -/
theorem blocks_try (dbg : Bool) (junk : ℕ → ℕ → K) {m1 : ℕ → DM K Cd Co T} {v : ℕ → K} {s : PDM K Cd Co T} (hm : s.mats = tab n m)
    (hn : s.ns = n)
    (r1 : ∀ k < n, Res.get s.cd.rem k = .ok (ch.sec fl lab k).remCd) (r2 : ∀ k < n, Res.get s.c.rem k = .ok (ch.sec fl lab k).remC)
    (r3 : ∀ k < n, Res.get s.cd.add k = .ok (ch.sec fl lab k).addCd) (r4 : ∀ k < n, Res.get s.c.add k = .ok (ch.sec fl lab k).addC)
    (hv : ∀ k < n, DM.tryUpdate o dbg junk (ch.sec fl lab k) (m k) = (.ok (v k), m1 k)) :
    Act.fold (fun (d : K) (k : ℕ) => (do
      let a ← Act.lift (Res.get s.cd.rem k)
      let b ← Act.lift (Res.get s.c.rem k)
      let a' ← Act.lift (Res.get s.cd.add k)
      let b' ← Act.lift (Res.get s.c.add k)
      let q ← PDM.onBlock k (DM.tryUpdate o dbg junk ⟨a, b, a', b'⟩)
      pure (d * q) : Act (PDM K Cd Co T) K)) 1 (List.range s.ns) s = (.ok (∏ k ∈ Finset.range n, v k), { s with mats := tab n m1 }) := by
  subst hn
  have := fold_blocks_all (n := s.ns) (m := m) (m1 := m1) (g := fun (d : K) k => d * v k)
    (f := fun (d : K) (k : ℕ) => (do
      let a ← Act.lift (Res.get s.cd.rem k)
      let b ← Act.lift (Res.get s.c.rem k)
      let a' ← Act.lift (Res.get s.cd.add k)
      let b' ← Act.lift (Res.get s.c.add k)
      let q ← PDM.onBlock k (DM.tryUpdate o dbg junk ⟨a, b, a', b'⟩)
      pure (d * q) : Act (PDM K Cd Co T) K)) (s := s) hm
    (by
      intro m' d k hk hmk
      rw [r1 k hk, r2 k hk, r3 k hk, r4 k hk, Act.lift_ok_bind, Act.lift_ok_bind, Act.lift_ok_bind, Act.lift_ok_bind]
      have e := hv k hk
      rw [← hmk] at e
      exact Act.bind_ok (onBlock_ok hk e rfl)) 1
  rw [foldl_prod] at this
  exact this

theorem setInsert_present {X : Type} {τ : X → T} {L : List X} {x : X} (h : τ x ∈ L.map τ) :
    Side.setInsert τ (byTime τ L) x = byTime τ L := by
  unfold Side.setInsert
  exact if_pos (((byTime_perm τ L).map τ).mem_iff.mpr h)

/-- A trial of one pair whose creation operator has the time of another one. -/
theorem ptry_dup (dbg : Bool) (junk : ℕ → ℕ → K) (hl : Lay fl n lab lst) (h : PGood o fl n lab lst m s A) {a' : Cd} {b' : Co}
    {m1 : ℕ → DM K Cd Co T} {v : ℕ → K}
    (ha : fl.fcd a' < fl.nf) (hb : fl.fc b' < fl.nf) (hta : o.tcd a' ∈ A.cds.map o.tcd) (htb : o.tc b' ∉ A.cs.map o.tc)
    (hv : ∀ k < n, DM.tryUpdate o dbg junk ((⟨[], [], [a'], [b']⟩ : Change Cd Co).sec fl lab k) (m k) = (.ok (v k), m1 k)) :
    ∃ e np, PDM.tryUpdate o fl dbg junk ⟨[], [], [a'], [b']⟩ s = (.ok ((∏ k ∈ Finset.range n, v k) * e),
      { s with
        mats := tab n m1
        newPerm := np
        cd := { sideOf o.tcd (fun a => lab (fl.fcd a)) n fl.nf ((tab n fun k => (m k).cd.ops).flatten) A.cds [a'] [] with
          secs := (tab n fun k => byTime o.tcd (inSec (fun a => lab (fl.fcd a)) k A.cds)).set (lab (fl.fcd a'))
            (Side.setInsert o.tcd (byTime o.tcd (inSec (fun a => lab (fl.fcd a)) (lab (fl.fcd a')) A.cds)) a') }
        c := sideOf o.tc (fun b => lab (fl.fc b)) n fl.nf ((tab n fun k => (m k).c.ops).flatten) (b' :: A.cs) [b'] [] }) := by
  have hns := h.ns
  have hsec := h.sector
  subst hns hsec
  have nb : (((A.cs ++ [b'])).map o.tc).Nodup := by
    rw [List.map_append]
    exact List.nodup_append.mpr ⟨h.timesC, by simp, by
      intro x hx y hy e
      simp only [List.map_cons, List.map_nil, List.mem_singleton] at hy
      subst e hy; exact htb hx⟩
  have n1 : lab (fl.fcd a') < s.ns := hl.lt _ ha
  have n2 : lab (fl.fcd a') < fl.nf := by have := hl.le; omega
  have g1 : ∃ e1, PSide.marks (PSide.markAdd o.tcd fl.fcd s.sector) (sideOf o.tcd (fun a => lab (fl.fcd a)) s.ns fl.nf ((tab s.ns fun k => (m k).cd.ops).flatten) A.cds [] []) [a'] =
      .ok (e1, { sideOf o.tcd (fun a => lab (fl.fcd a)) s.ns fl.nf ((tab s.ns fun k => (m k).cd.ops).flatten) A.cds [a'] [] with
          secs := (tab s.ns fun k => byTime o.tcd (inSec (fun a => lab (fl.fcd a)) k A.cds)).set (lab (fl.fcd a'))
            (Side.setInsert o.tcd (byTime o.tcd (inSec (fun a => lab (fl.fcd a)) (lab (fl.fcd a')) A.cds)) a') }) := by
    refine ⟨?e, ?_⟩
    rotate_left
    unfold PSide.marks
    rw [Res.foldl_cons]
    unfold PSide.markAdd
    rw [hl.get _ ha, Res.bind_ok]
    have r : Res.get (sideOf o.tcd (fun a => lab (fl.fcd a)) s.ns fl.nf ((tab s.ns fun k => (m k).cd.ops).flatten) A.cds [] []).add (lab (fl.fcd a')) = .ok [] :=
      tab_get n2
    rw [r, Res.bind_ok]
    unfold PSide.insert
    have r' : Res.get (sideOf o.tcd (fun a => lab (fl.fcd a)) s.ns fl.nf ((tab s.ns fun k => (m k).cd.ops).flatten) A.cds [] []).secs (lab (fl.fcd a')) =
        .ok (byTime o.tcd (inSec (fun a => lab (fl.fcd a)) (lab (fl.fcd a')) A.cds)) := tab_get n1
    dsimp only
    rw [r', Res.bind_ok, Res.pure_eq, Res.bind_ok, Res.pure_eq, Res.bind_ok, Res.foldl_nil]
    have e1 : (sideOf o.tcd (fun a => lab (fl.fcd a)) s.ns fl.nf ((tab s.ns fun k => (m k).cd.ops).flatten) A.cds [] []).set = byTime o.tcd A.cds := rfl
    have e2 : (sideOf o.tcd (fun a => lab (fl.fcd a)) s.ns fl.nf ((tab s.ns fun k => (m k).cd.ops).flatten) A.cds [] []).add.set (lab (fl.fcd a')) ([] ++ [a']) =
        (sideOf o.tcd (fun a => lab (fl.fcd a)) s.ns fl.nf ((tab s.ns fun k => (m k).cd.ops).flatten) A.cds [a'] []).add :=
      tab_push (σ := fun a => lab (fl.fcd a)) [] a'
    rw [e2, e1, setInsert_present hta]
    rfl
  obtain ⟨e1, g1⟩ := g1
  have g2 := marksAdd_ok (order := ((tab s.ns fun k => (m k).c.ops).flatten)) (rems := []) (τ := o.tc)
    (σ := fun b => lab (fl.fc b)) (f := fl.fc) (sector := s.sector) hl.le [b'] (fun x hx => by
      rw [List.mem_singleton] at hx; subst hx; exact ⟨hl.get _ hb, hl.lt _ hb⟩) A.cs [] nb
    (fun a ha => hl.lt _ (h.flavC a ha)) 1
  unfold PDM.tryUpdate
  rw [Act.get_bind, h.cd]
  have g0 : ∀ {Y : Type} (mk : PSide Y → Y → Res (ℤ × PSide Y)) (S : PSide Y), PSide.marks mk S [] = .ok (1, S) := fun _ _ => rfl
  rw [g0, Act.lift_ok_bind]
  dsimp only
  rw [Act.modify_bind, Act.get_bind]
  dsimp only
  rw [h.c, g0, Act.lift_ok_bind]
  dsimp only
  rw [Act.modify_bind, Act.get_bind]
  dsimp only
  rw [g1, Act.lift_ok_bind]
  dsimp only
  rw [Act.modify_bind, Act.get_bind]
  dsimp only
  unfold PSide.marks
  rw [g2, Act.lift_ok_bind]
  dsimp only
  rw [Act.modify_bind, Act.modify_bind, Act.get_bind]
  dsimp only
  rw [sideOf_congr (L := A.cs ++ [b']) (L' := b' :: A.cs) (List.perm_append_singleton _ _) nb]
  refine ⟨_, _, Act.bind_ok (blocks_try (n := s.ns) (ch := ⟨[], [], [a'], [b']⟩) (fl := fl) (lab := lab) (m := m) (m1 := m1) (v := v) dbg junk
    (s := { s with
      newPerm := _
      cd := { sideOf o.tcd (fun a => lab (fl.fcd a)) s.ns fl.nf ((tab s.ns fun k => (m k).cd.ops).flatten) A.cds [a'] [] with
          secs := (tab s.ns fun k => byTime o.tcd (inSec (fun a => lab (fl.fcd a)) k A.cds)).set (lab (fl.fcd a'))
            (Side.setInsert o.tcd (byTime o.tcd (inSec (fun a => lab (fl.fcd a)) (lab (fl.fcd a')) A.cds)) a') }
      c := sideOf o.tc (fun b => lab (fl.fc b)) s.ns fl.nf ((tab s.ns fun k => (m k).c.ops).flatten) (b' :: A.cs) [b'] [] })
    h.mats rfl ?_ ?_ ?_ ?_ hv)⟩
  · exact fun k hk => tab_get (by have := hl.le; omega)
  · exact fun k hk => tab_get (by have := hl.le; omega)
  · exact fun k hk => tab_get (by have := hl.le; omega)
  · exact fun k hk => tab_get (by have := hl.le; omega)

theorem Conf.sec_congr {lab' : ℕ → ℕ} (h : ∀ f < fl.nf, lab f = lab' f) (h1 : ∀ a ∈ A.cds, fl.fcd a < fl.nf)
    (h2 : ∀ a ∈ A.cs, fl.fc a < fl.nf) (k : ℕ) : A.sec fl lab k = A.sec fl lab' k := by
  unfold Conf.sec
  congr 1
  · exact List.filter_congr fun a ha => by rw [h _ (h1 a ha)]
  · exact List.filter_congr fun a ha => by rw [h _ (h2 a ha)]

/-- `Lay` and `Blind` only speak about existing flavors. -/
theorem pcreate_lab (hc : Connects o fl) {dbg : Bool} {j : ℕ → DM K Cd Co T} {np : ℤ} {s0 : PDM K Cd Co T} (h0 : PDM.create fl dbg j np = .ok s0)
    (hb : ∀ f < fl.nf, s0.blockOf f = .ok (lab f)) :
    Sectors fl s0.ns lab ∧ Blind o fl lab ∧ ∃ m, Lay fl s0.ns lab s0.sector ∧ PGood o fl s0.ns lab s0.sector m s0 ⟨[], []⟩ := by
  obtain ⟨s1, lab', e1, e2, hs, hbl, m, hl, hg⟩ := pcreate_ok hc dbg j np
  rw [h0] at e1
  injection e1 with e1
  subst e1
  have e : ∀ f < fl.nf, lab f = lab' f := by
    intro f hf
    have a := hb f hf
    rw [e2 f hf] at a
    injection a with a
    exact a.symm
  refine ⟨⟨?_, ?_⟩, ?_, m, ⟨hb, ?_, hl.le⟩, ?_⟩
  · intro f g hf hg
    rw [e f hf, e g hg]; exact hs.same f g hf hg
  · intro k
    rw [hs.onto k]
    constructor
    · rintro ⟨f, hf, rfl⟩; exact ⟨f, hf, e f hf⟩
    · rintro ⟨f, hf, rfl⟩; exact ⟨f, hf, (e f hf).symm⟩
  · intro b a h1 h2 hne
    refine hbl b a h1 h2 ?_
    rw [← e _ h1, ← e _ h2]; exact hne
  · intro f hf
    rw [e f hf]; exact hl.lt f hf
  · refine ⟨rfl, rfl, hg.mats, hg.good, hg.cd, hg.c, ?_, by simp, by simp, by simp, by simp⟩
    exact hg.perm

/-- States that histories lead to. -/
theorem PReached.good (hc : Connects o fl) {dbg : Bool} {junk : ℕ → ℕ → K} {j : ℕ → DM K Cd Co T} {np : ℤ}
    (h : PReached o fl dbg junk j np lab A s) :
    Sectors fl s.ns lab ∧ Blind o fl lab ∧ ∃ m, Lay fl s.ns lab s.sector ∧ PGood o fl s.ns lab s.sector m s A := by
  obtain ⟨s0, l, rs, h0, hb, hh, hp⟩ := h
  obtain ⟨hs, hbl, m, hl, hg⟩ := pcreate_lab hc h0 hb
  obtain ⟨s', m', e, g⟩ := pplay_ok dbg junk hl hbl hh s0 m hg
  rw [e] at hp
  obtain ⟨-, rfl⟩ := Prod.mk.inj hp
  have q1 := g.ns
  have q2 := g.sector
  rw [← q1, ← q2] at g hl
  rw [← q1] at hs
  exact ⟨hs, hbl, m', hl, g⟩

/-- An untouched sector. -/
theorem valid_nothing {s : DM K Cd Co T} (h : Good o s A) : Valid o A ⟨[], [], [], []⟩ A :=
  ⟨Or.inl ⟨rfl, rfl⟩, ⟨A, ⟨by simp, by simp, by simp, by simp⟩, fun hm => absurd rfl hm.1⟩, h.dist⟩

theorem sec_pair (a' : Cd) (b' : Co) (hs : lab (fl.fc b') = lab (fl.fcd a')) (k : ℕ) :
    (⟨[], [], [a'], [b']⟩ : Change Cd Co).sec fl lab k = if k = lab (fl.fcd a') then ⟨[], [], [a'], [b']⟩ else ⟨[], [], [], []⟩ := by
  unfold Change.sec
  by_cases h : k = lab (fl.fcd a')
  · subst h; simp [hs]
  · rw [if_neg h]; simp [hs, Ne.symm h]

theorem unAdd_skip {X : Type} {τ : X → T} {σ : X → ℕ} {n N : ℕ} {order L rems : List X} {x : X} (hN : n ≤ N) (ks : List ℕ)
    (hk : ∀ k ∈ ks, k < n) (hx : σ x ∉ ks) :
    Res.foldl (fun S k => PSide.unAdd τ S k) (sideOf τ σ n N order L [x] rems) ks = .ok (sideOf τ σ n N order L [x] rems) := by
  induction ks with
  | nil => rw [Res.foldl_nil]
  | cons k ks ih =>
    rw [Res.foldl_cons]
    unfold PSide.unAdd
    have e1 : Res.get (sideOf τ σ n N order L [x] rems).add k = .ok (inSec σ k [x]) := tab_get (by have := hk k (by simp); omega)
    have e2 : inSec σ k [x] = [] := by
      rw [inSec_cons, if_neg (fun h => hx (by rw [h]; simp))]; rfl
    rw [e1, Res.bind_ok, e2, Res.foldl_nil, Res.bind_ok]
    exact ih (fun k hk' => hk k (by simp [hk'])) fun h => hx (by simp [h])

/-- The original is erased in place of the added operator of the same time. -/
theorem unAdd_dup {X : Type} {τ : X → T} {σ : X → ℕ} {n N : ℕ} {order L L' rems : List X} {x x' : X} (hN : n ≤ N) (hx : σ x' < n)
    (hp : L.Perm (x :: L')) (hn : (L.map τ).Nodup) (hs : σ x = σ x') (ht : τ x = τ x') :
    Res.foldl (fun S k => PSide.unAdd τ S k) (sideOf τ σ n N order L [x'] rems) (List.range n) =
      .ok (sideOf τ σ n N order L' [x'] rems) := by
  obtain ⟨l1, l2, e⟩ := List.append_of_mem (List.mem_range.mpr hx)
  have hnd : (l1 ++ σ x' :: l2).Nodup := by rw [← e]; exact List.nodup_range
  have hlt : ∀ k ∈ l1 ++ σ x' :: l2, k < n := by rw [← e]; exact fun k hk => List.mem_range.mp hk
  rw [List.nodup_append, List.nodup_cons] at hnd
  rw [e, Res.foldl_append, unAdd_skip hN l1 (fun k hk => hlt k (by simp [hk])) (fun h => hnd.2.2 _ h _ (by simp) rfl), Res.bind_ok,
    Res.foldl_cons]
  unfold PSide.unAdd
  have e1 : Res.get (sideOf τ σ n N order L [x'] rems).add (σ x') = .ok (inSec σ (σ x') [x']) := tab_get (by omega)
  have e2 : inSec σ (σ x') [x'] = [x'] := by rw [inSec_cons, if_pos rfl]; rfl
  have e3 : Res.get (sideOf τ σ n N order L [x'] rems).secs (σ x') = .ok (byTime τ (inSec σ (σ x') L)) := tab_get hx
  rw [e1, Res.bind_ok, e2, Res.foldl_cons, e3, Res.bind_ok, Res.pure_eq, Res.bind_ok, Res.foldl_nil, Res.bind_ok]
  have e4 : ({ sideOf τ σ n N order L [x'] rems with
      set := Side.setErase τ (sideOf τ σ n N order L [x'] rems).set x'
      secs := (sideOf τ σ n N order L [x'] rems).secs.set (σ x') (Side.setErase τ (byTime τ (inSec σ (σ x') L)) x') } : PSide X) =
      sideOf τ σ n N order L' [x'] rems := by
    have q : ∀ l, Side.setErase τ l x' = Side.setErase τ l x := by intro l; unfold Side.setErase; rw [ht]
    rw [q, q, ← hs]
    have := secs_erase (n := n) (σ := σ) hn hp
    unfold sideOf
    dsimp only
    rw [this, byTime_erase hn hp]
  rw [e4]
  exact unAdd_skip hN l2 (fun k hk => hlt k (by simp [hk])) hnd.2.1.1

/-- A pair inserted at the time of another creation operator of the same sector, and rejected. -/
theorem pdup_reject (dbg : Bool) (junk : ℕ → ℕ → K) (hl : Lay fl n lab lst) (h : PGood o fl n lab lst m s A) {a a' : Cd} {b' : Co}
    (ha : fl.fcd a' < fl.nf) (hb : fl.fc b' < fl.nf) (hs : lab (fl.fc b') = lab (fl.fcd a'))
    (hm : a ∈ A.cds) (hsa : lab (fl.fcd a) = lab (fl.fcd a')) (hta : o.tcd a = o.tcd a') (htb : o.tc b' ∉ A.cs.map o.tc) :
    ∃ s1 s2, PDM.tryUpdate o fl dbg junk ⟨[], [], [a'], [b']⟩ s = (.ok 0, s1) ∧
      (dbg = true → (PDM.rejectUpdate o dbg s1).1 = .ub) ∧ (dbg = false → PDM.rejectUpdate o dbg s1 = (.ok (), s2)) ∧
      a ∉ s2.cd.set ∧ ∃ b ∈ s2.mats, a ∈ b.cd.set := by
  have hk : lab (fl.fcd a') < n := hl.lt _ ha
  have hmem : a ∈ (A.sec fl lab (lab (fl.fcd a'))).cds := by
    unfold Conf.sec; simp [hm, hsa]
  have : ∀ k, ∃ v s1 sp sr, k < n → (Outcome o dbg junk ((⟨[], [], [a'], [b']⟩ : Change Cd Co).sec fl lab k) (m k) (A.sec fl lab k) (A.sec fl lab k) v s1 sp sr ∧
      (k = lab (fl.fcd a') → v = 0)) := by
    intro k
    by_cases hkn : k < n
    · by_cases hka : k = lab (fl.fcd a')
      · have hcl : Clash o (A.sec fl lab k) ((⟨[], [], [a'], [b']⟩ : Change Cd Co).sec fl lab k) := by
          rw [sec_pair a' b' hs, if_pos hka]
          refine ⟨rfl, rfl, rfl, ?_⟩
          intro hd
          unfold Conf.Distinct at hd
          rw [List.map_append, List.map_append, List.nodup_append] at hd
          have := (List.nodup_append.mp hd.1).2.2
          subst hka
          exact this _ (List.mem_map.mpr ⟨a, hmem, rfl⟩) _ (List.mem_map.mpr ⟨a', by simp, rfl⟩) hta
        obtain ⟨s1, sp, sr, e⟩ := outcome_clash dbg junk (A.sec fl lab k) (h.good k hkn) hcl
        exact ⟨0, s1, sp, sr, fun _ => ⟨e, fun _ => rfl⟩⟩
      · have hv : Valid o (A.sec fl lab k) ((⟨[], [], [a'], [b']⟩ : Change Cd Co).sec fl lab k) (A.sec fl lab k) := by
          rw [sec_pair a' b' hs, if_neg hka]; exact valid_nothing (h.good k hkn)
        obtain ⟨s1, sp, sr, e⟩ := outcome_valid dbg junk (h.good k hkn) hv
        exact ⟨_, s1, sp, sr, fun _ => ⟨e, fun h => absurd h hka⟩⟩
    · exact ⟨0, m k, m k, m k, fun h => absurd h hkn⟩
  choose v m1 mp mr ho using this
  obtain ⟨e, np, ht⟩ := ptry_dup dbg junk hl h ha hb (by rw [← hta]; exact List.mem_map.mpr ⟨a, hm, rfl⟩) htb fun k hk => (ho k hk).1.1
  rw [Finset.prod_eq_zero (Finset.mem_range.mpr hk) ((ho _ hk).2 rfl), zero_mul] at ht
  have hns := h.ns
  have hsec := h.sector
  subst hns hsec
  obtain ⟨L', hL'⟩ : ∃ L', A.cds.Perm (a :: L') := by
    obtain ⟨l1, l2, e⟩ := List.append_of_mem hm
    exact ⟨l1 ++ l2, by rw [e]; exact List.perm_middle⟩
  have hsame : ((tab s.ns fun k => byTime o.tcd (inSec (fun a => lab (fl.fcd a)) k A.cds)).set (lab (fl.fcd a'))
      (Side.setInsert o.tcd (byTime o.tcd (inSec (fun a => lab (fl.fcd a)) (lab (fl.fcd a')) A.cds)) a')) =
      tab s.ns fun k => byTime o.tcd (inSec (fun a => lab (fl.fcd a)) k A.cds) := by
    rw [setInsert_present (by rw [← hta]; exact List.mem_map.mpr ⟨a, hmem, rfl⟩), tab_set]
    refine tab_congr fun k hk => ?_
    by_cases e : k = lab (fl.fcd a')
    · subst e; rw [if_pos rfl]
    · rw [if_neg e]
  have hcd : ({ sideOf o.tcd (fun a => lab (fl.fcd a)) s.ns fl.nf ((tab s.ns fun k => (m k).cd.ops).flatten) A.cds [a'] [] with
          secs := (tab s.ns fun k => byTime o.tcd (inSec (fun a => lab (fl.fcd a)) k A.cds)).set (lab (fl.fcd a'))
            (Side.setInsert o.tcd (byTime o.tcd (inSec (fun a => lab (fl.fcd a)) (lab (fl.fcd a')) A.cds)) a') } : PSide Cd) =
      sideOf o.tcd (fun a => lab (fl.fcd a)) s.ns fl.nf ((tab s.ns fun k => (m k).cd.ops).flatten) A.cds [a'] [] := by
    rw [hsame]; rfl
  rw [hcd] at ht
  have nb : ((b' :: A.cs).map o.tc).Nodup := by
    rw [List.map_cons, List.nodup_cons]; exact ⟨htb, h.timesC⟩
  have hnb : lab (fl.fc b') < s.ns := hl.lt _ hb
  have hrej : PDM.rejectUpdate o dbg { s with
      mats := tab s.ns m1
      newPerm := np
      cd := sideOf o.tcd (fun a => lab (fl.fcd a)) s.ns fl.nf ((tab s.ns fun k => (m k).cd.ops).flatten) A.cds [a'] []
      c := sideOf o.tc (fun b => lab (fl.fc b)) s.ns fl.nf ((tab s.ns fun k => (m k).c.ops).flatten) (b' :: A.cs) [b'] [] } =
      (PDM.reconstruct dbg >>= fun _ => PDM.clearWork) { s with
        mats := tab s.ns mr
        newPerm := np
        cd := sideOf o.tcd (fun a => lab (fl.fcd a)) s.ns fl.nf ((tab s.ns fun k => (m k).cd.ops).flatten) L' [a'] []
        c := sideOf o.tc (fun b => lab (fl.fc b)) s.ns fl.nf ((tab s.ns fun k => (m k).c.ops).flatten) A.cs [b'] [] } := by
    unfold PDM.rejectUpdate
    rw [Act.get_bind]
    have hf := fold_blocks_all (n := s.ns) (m := m1) (m1 := mr) (g := fun (_ : Unit) (_ : ℕ) => ())
      (f := fun (_ : Unit) (k : ℕ) => PDM.onBlock k (DM.rejectUpdate o dbg))
      (s := { s with
        mats := tab s.ns m1
        newPerm := np
        cd := sideOf o.tcd (fun a => lab (fl.fcd a)) s.ns fl.nf ((tab s.ns fun k => (m k).cd.ops).flatten) A.cds [a'] []
        c := sideOf o.tc (fun b => lab (fl.fc b)) s.ns fl.nf ((tab s.ns fun k => (m k).c.ops).flatten) (b' :: A.cs) [b'] [] }) rfl
      (by
        intro m' _ k hk hm
        have e := (ho k hk).1.2.2.1
        rw [← hm] at e
        exact onBlock_ok hk e rfl) ()
    have hr : ∀ k ∈ List.range s.ns, k < s.ns := fun k hk => List.mem_range.mp hk
    rw [Act.bind_ok hf, Act.get_bind]
    dsimp only
    rw [unAdd_dup (σ := fun a => lab (fl.fcd a)) (τ := o.tcd) (x' := a') hl.le hk hL' h.timesCd hsa hta, Act.lift_ok_bind, Act.modify_bind, Act.get_bind]
    dsimp only
    rw [unAdd_dup (σ := fun a => lab (fl.fc a)) (τ := o.tc) (x' := b') (L' := A.cs) hl.le hnb (.refl _) nb rfl rfl, Act.lift_ok_bind, Act.modify_bind, Act.get_bind]
    dsimp only
    have z : ∀ {Y : Type} (σ : Y → ℕ) (l : List ℕ), (l.flatMap fun k => inSec σ k ([] : List Y)) = [] := by
      intro Y σ l; simp [inSec]
    have hnL : (L'.map o.tcd).Nodup := by
      have := (hL'.map o.tcd).nodup_iff.mp h.timesCd
      rw [List.map_cons, List.nodup_cons] at this; exact this.2
    rw [unRem_all hl.le (List.range s.ns) hr L' (by rw [z, List.append_nil]; exact hnL), Act.lift_ok_bind, Act.modify_bind, Act.get_bind]
    dsimp only
    rw [unRem_all hl.le (List.range s.ns) hr A.cs (by rw [z, List.append_nil]; exact h.timesC), Act.lift_ok_bind, Act.modify_bind, z, z,
      List.append_nil, List.append_nil]
  refine ⟨_, { s with
    mats := tab s.ns mr
    newPerm := np
    cd := sideOf o.tcd (fun a => lab (fl.fcd a)) s.ns fl.nf ((tab s.ns fun k => (mr k).cd.ops).flatten) L' [] []
    c := sideOf o.tc (fun a => lab (fl.fc a)) s.ns fl.nf ((tab s.ns fun k => (mr k).c.ops).flatten) A.cs [] [] }, ht, ?_, ?_, ?_, ?_⟩
  · rintro rfl
    rw [hrej, Act.run_bind]
    obtain ⟨p1, -⟩ := orders_perm hl (fun k hk => (ho k hk).1.2.2.2) h.flavCd h.flavC
    have hub := reconstruct_ub (n := s.ns) (m := mr) (s := { s with
        mats := tab s.ns mr
        newPerm := np
        cd := sideOf o.tcd (fun a => lab (fl.fcd a)) s.ns fl.nf ((tab s.ns fun k => (m k).cd.ops).flatten) L' [a'] []
        c := sideOf o.tc (fun b => lab (fl.fc b)) s.ns fl.nf ((tab s.ns fun k => (m k).c.ops).flatten) A.cs [b'] [] }) rfl rfl (by
      rw [p1.length_eq, hL'.length_eq]
      show _ ≠ (byTime o.tcd L').length
      rw [(byTime_perm _ _).length_eq, List.length_cons]
      omega)
    revert hub
    generalize PDM.reconstruct true _ = r
    obtain ⟨r1, r2⟩ := r
    rintro rfl
    rfl
  · rintro rfl
    rw [hrej]
    refine (Act.bind_ok (reconstruct_ok false (n := s.ns) (m := mr) (by rfl) rfl (fun e => by cases e) (fun e => by cases e))).trans ?_
    refine clearWork_ok (fl := fl) (o := o) (lab := lab) (A := ⟨L', A.cs⟩) (ch := ⟨[], [], [a'], [b']⟩) hl.le (by rfl) rfl rfl ?_ ?_ (by simp) (by simp)
    · intro x hx; rw [List.mem_singleton.mp hx]; exact hk
    · intro x hx; rw [List.mem_singleton.mp hx]; exact hnb
  · intro hmem'
    have hm' : a ∈ L' := (byTime_perm o.tcd L').mem_iff.mp hmem'
    have := (hL'.map o.tcd).nodup_iff.mp h.timesCd
    rw [List.map_cons, List.nodup_cons] at this
    exact this.1 (List.mem_map.mpr ⟨a, hm', rfl⟩)
  · refine ⟨mr (lab (fl.fcd a')), ?_, ?_⟩
    · show _ ∈ tab s.ns mr
      unfold tab
      exact List.mem_map.mpr ⟨_, List.mem_range.mpr hk, rfl⟩
    · rw [((ho _ hk).1.2.2.2).shows.setCd]
      exact (byTime_perm _ _).mem_iff.mpr hmem

/-- A pair inserted into one sector at the time of a creation operator of another sector, and accepted. -/
theorem pdup_accept (dbg : Bool) (junk : ℕ → ℕ → K) (hl : Lay fl n lab lst) (h : PGood o fl n lab lst m s A) {a a' : Cd} {b' : Co}
    (ha : fl.fcd a' < fl.nf) (hb : fl.fc b' < fl.nf) (hs : lab (fl.fc b') = lab (fl.fcd a'))
    (hm : a ∈ A.cds) (hsa : lab (fl.fcd a) ≠ lab (fl.fcd a')) (hta : o.tcd a = o.tcd a') (htb : o.tc b' ∉ A.cs.map o.tc)
    (hd : (Conf.mk (a' :: (A.sec fl lab (lab (fl.fcd a'))).cds) (b' :: (A.sec fl lab (lab (fl.fcd a'))).cs)).Distinct o)
    (hne : (Conf.mk (a' :: (A.sec fl lab (lab (fl.fcd a'))).cds) (b' :: (A.sec fl lab (lab (fl.fcd a'))).cs)).det o ≠ 0) :
    ∃ r s1 s2, PDM.tryUpdate o fl dbg junk ⟨[], [], [a'], [b']⟩ s = (.ok r, s1) ∧
      (dbg = true → (PDM.performUpdate o fl dbg junk s1).1 = .ub) ∧
      (dbg = false → PDM.performUpdate o fl dbg junk s1 = (.ok (), s2)) ∧ a' ∉ s2.cd.set ∧ ∃ b ∈ s2.mats, a' ∈ b.cd.set := by
  have hk : lab (fl.fcd a') < n := hl.lt _ ha
  have hnb : lab (fl.fc b') < n := hl.lt _ hb
  have haA : a' ∉ A.cds := by
    intro hm'
    have : a = a' := List.inj_on_of_nodup_map h.timesCd hm hm' hta
    exact hsa (by rw [this])
  have : ∀ k, ∃ v s1 sp, k < n → (DM.tryUpdate o dbg junk ((⟨[], [], [a'], [b']⟩ : Change Cd Co).sec fl lab k) (m k) = (.ok v, s1) ∧
      DM.performUpdate o dbg junk s1 = (.ok (), sp) ∧ (k = lab (fl.fcd a') → a' ∈ sp.cd.set) ∧
      Good o sp ((⟨a' :: A.cds, b' :: A.cs⟩ : Conf Cd Co).sec fl lab k)) := by
    intro k
    by_cases hkn : k < n
    · by_cases hka : k = lab (fl.fcd a')
      · subst hka
        have hv : Valid o (A.sec fl lab (lab (fl.fcd a'))) ((⟨[], [], [a'], [b']⟩ : Change Cd Co).sec fl lab (lab (fl.fcd a')))
            ⟨a' :: (A.sec fl lab (lab (fl.fcd a'))).cds, b' :: (A.sec fl lab (lab (fl.fcd a'))).cs⟩ := by
          rw [sec_pair a' b' hs, if_pos rfl]
          exact ⟨Or.inl ⟨rfl, rfl⟩, ⟨A.sec fl lab (lab (fl.fcd a')), ⟨by simp, by simp, (List.perm_append_singleton _ _).symm,
            (List.perm_append_singleton _ _).symm⟩, fun hm => absurd rfl hm.1⟩, hd⟩
        obtain ⟨s1, sp, sr, e⟩ := outcome_valid dbg junk (h.good _ hkn) hv
        obtain ⟨e1, e2⟩ := e.2.1 (div_ne_zero hne (h.good _ hkn).det_ne)
        refine ⟨_, s1, sp, fun _ => ⟨e.1, e1, fun _ => ?_, ?_⟩⟩
        · rw [e2.shows.setCd]
          exact (byTime_perm _ _).mem_iff.mpr (by simp)
        · have : (⟨a' :: A.cds, b' :: A.cs⟩ : Conf Cd Co).sec fl lab (lab (fl.fcd a')) =
              ⟨a' :: (A.sec fl lab (lab (fl.fcd a'))).cds, b' :: (A.sec fl lab (lab (fl.fcd a'))).cs⟩ := by
            unfold Conf.sec; simp [hs]
          rw [this]; exact e2
      · have hv : Valid o (A.sec fl lab k) ((⟨[], [], [a'], [b']⟩ : Change Cd Co).sec fl lab k) (A.sec fl lab k) := by
          rw [sec_pair a' b' hs, if_neg hka]; exact valid_nothing (h.good k hkn)
        obtain ⟨s1, sp, sr, e⟩ := outcome_valid dbg junk (h.good k hkn) hv
        obtain ⟨e1, e2⟩ := e.2.1 (div_ne_zero (h.good k hkn).det_ne (h.good k hkn).det_ne)
        refine ⟨_, s1, sp, fun _ => ⟨e.1, e1, fun h => absurd h hka, ?_⟩⟩
        have : (⟨a' :: A.cds, b' :: A.cs⟩ : Conf Cd Co).sec fl lab k = A.sec fl lab k := by
          unfold Conf.sec; simp [hs, Ne.symm hka]
        rw [this]; exact e2
    · exact ⟨0, m k, m k, fun h => absurd h hkn⟩
  choose v m1 mp ho using this
  obtain ⟨e, np, ht⟩ := ptry_dup dbg junk hl h ha hb (by rw [← hta]; exact List.mem_map.mpr ⟨a, hm, rfl⟩) htb fun k hk => (ho k hk).1
  have hns := h.ns
  have hsec := h.sector
  subst hns hsec
  have hcd : ({ sideOf o.tcd (fun a => lab (fl.fcd a)) s.ns fl.nf ((tab s.ns fun k => (m k).cd.ops).flatten) A.cds [a'] [] with
          secs := (tab s.ns fun k => byTime o.tcd (inSec (fun a => lab (fl.fcd a)) k A.cds)).set (lab (fl.fcd a'))
            (Side.setInsert o.tcd (byTime o.tcd (inSec (fun a => lab (fl.fcd a)) (lab (fl.fcd a')) A.cds)) a') } : PSide Cd).set =
      byTime o.tcd A.cds := rfl
  obtain ⟨S, hS⟩ : ∃ S : PSide Cd, S = { sideOf o.tcd (fun a => lab (fl.fcd a)) s.ns fl.nf ((tab s.ns fun k => (m k).cd.ops).flatten) A.cds [a'] [] with
          secs := (tab s.ns fun k => byTime o.tcd (inSec (fun a => lab (fl.fcd a)) k A.cds)).set (lab (fl.fcd a'))
            (Side.setInsert o.tcd (byTime o.tcd (inSec (fun a => lab (fl.fcd a)) (lab (fl.fcd a')) A.cds)) a') } := ⟨_, rfl⟩
  rw [← hS] at hcd ht
  have hSl : s.ns ≤ S.add.length ∧ s.ns ≤ S.rem.length := by
    rw [hS]
    have := hl.le
    constructor
    · show s.ns ≤ (tab fl.nf _).length; rw [tab_length]; exact this
    · show s.ns ≤ (tab fl.nf _).length; rw [tab_length]; exact this
  obtain ⟨s1, hs1⟩ : ∃ s1 : PDM K Cd Co T, s1 = { s with
        mats := tab s.ns m1
        newPerm := np
        cd := S
        c := sideOf o.tc (fun b => lab (fl.fc b)) s.ns fl.nf ((tab s.ns fun k => (m k).c.ops).flatten) (b' :: A.cs) [b'] [] } := ⟨_, rfl⟩
  rw [← hs1] at ht
  have hf := fold_blocks_all (n := s.ns) (m := m1) (m1 := mp) (g := fun (_ : Unit) (_ : ℕ) => ())
      (f := fun (_ : Unit) (k : ℕ) => PDM.onBlock k (DM.performUpdate o dbg junk)) (s := s1) (by rw [hs1])
      (by
        intro m' _ k hk hm
        have e := (ho k hk).2.1
        rw [← hm] at e
        exact onBlock_ok hk e rfl) ()
  have hsn : s1.ns = s.ns := by rw [hs1]
  refine ⟨_, s1, { s1 with
    mats := tab s.ns mp
    perm := np
    cd := { S with
      order := (tab s.ns fun k => (mp k).cd.ops).flatten
      add := List.replicate s.ns [] ++ S.add.drop s.ns
      rem := List.replicate s.ns [] ++ S.rem.drop s.ns }
    c := sideOf o.tc (fun b => lab (fl.fc b)) s.ns fl.nf ((tab s.ns fun k => (mp k).c.ops).flatten) (b' :: A.cs) [] [] }, ht, ?_, ?_, ?_, ?_⟩
  · rintro rfl
    unfold PDM.performUpdate
    rw [Act.get_bind, hsn, Act.bind_ok hf, Act.run_bind]
    obtain ⟨p1, -⟩ := orders_perm hl (fun k hk => (ho k hk).2.2.2)
      (by intro x hx; rcases List.mem_cons.mp hx with rfl | hx; exacts [ha, h.flavCd x hx])
      (by intro x hx; rcases List.mem_cons.mp hx with rfl | hx; exacts [hb, h.flavC x hx])
    have hub := reconstruct_ub (n := s.ns) (m := mp) (s := { s1 with mats := tab s.ns mp }) hsn rfl (by
      rw [p1.length_eq, hs1]
      show _ ≠ S.set.length
      rw [hcd, (byTime_perm _ _).length_eq, List.length_cons]
      omega)
    revert hub
    generalize PDM.reconstruct true _ = r
    obtain ⟨r1, r2⟩ := r
    rintro rfl
    rfl
  · rintro rfl
    unfold PDM.performUpdate
    rw [Act.get_bind, hsn, Act.bind_ok hf, Act.bind_ok (reconstruct_ok false (n := s.ns) (m := mp) (by exact hsn) rfl
      (fun e => by cases e) (fun e => by cases e)), Act.modify_bind]
    subst hs1
    have hpure : ∀ x : PDM K Cd Co T, (PDM.clearWork >>= fun _ => PDM.sanityCheck o fl false) x = PDM.clearWork x := by
      intro x
      rw [Act.run_bind]
      cases e : PDM.clearWork x with
      | mk r y => cases r <;> rfl
    rw [hpure]
    unfold PDM.clearWork
    rw [Act.get_bind]
    have c1 : PSide.clear { S with order := (tab s.ns fun k => (mp k).cd.ops).flatten } s.ns = .ok { S with
        order := (tab s.ns fun k => (mp k).cd.ops).flatten
        add := List.replicate s.ns [] ++ S.add.drop s.ns
        rem := List.replicate s.ns [] ++ S.rem.drop s.ns } := by
      unfold PSide.clear
      dsimp only
      rw [Res.assert_true hSl, Res.bind_ok]; rfl
    have c2 := clear_ok (τ := o.tc) (σ := fun b => lab (fl.fc b)) (n := s.ns) (N := fl.nf) (order := (tab s.ns fun k => (mp k).c.ops).flatten)
      (L := b' :: A.cs) (adds := [b']) (rems := []) hl.le (by intro x hx; rw [List.mem_singleton.mp hx]; exact hnb) (by simp)
    dsimp only
    rw [c1, Act.lift_ok_bind]
    refine (congrFun (congrArg (fun r => Act.bind (Act.lift r) _) c2) _).trans ?_
    rfl
  · show a' ∉ S.set
    rw [hcd]
    intro hmem
    exact haA ((byTime_perm _ _).mem_iff.mp hmem)
  · refine ⟨mp (lab (fl.fcd a')), ?_, (ho _ hk).2.2.1 rfl⟩
    show _ ∈ tab s.ns mp
    unfold tab
    exact List.mem_map.mpr ⟨_, List.mem_range.mpr hk, rfl⟩

end CTInt
