import Verif.Proofs.PartMark
import Verif.Proofs.DetSane
import Verif.Props.Sort
import Mathlib.Data.Prod.Lex
import Mathlib.GroupTheory.Perm.Sign

/-!
# The checks of the debug build of the partitioned determinant matrix (helper lemmas for C27, C60, C81)
-/

set_option linter.all false

namespace CTInt

section order
variable {X Y T : Type} [LinearOrder T]

theorem outOfOrder_map (τ : X → T) (g : Y → X) (l : List Y) : outOfOrder τ (l.map g) = outOfOrder (fun y => τ (g y)) l := by
  induction l with
  | nil => rfl
  | cons x l ih => rw [List.map_cons, outOfOrder, outOfOrder, ih, List.countP_map]; rfl

theorem orderSign_map (τ : X → T) (g : Y → X) (l : List Y) : orderSign τ (l.map g) = orderSign (fun y => τ (g y)) l := by
  unfold orderSign; rw [outOfOrder_map]

/-- Rearranging positions changes the sign by the sign of the permutation. -/
theorem orderSign_rearranged {τ : X → T} {N : ℕ} (v : Fin N → X) (h : Function.Injective fun i => τ (v i)) (σ : Equiv.Perm (Fin N)) :
    orderSign τ (List.ofFn fun i => v (σ i)) = (Equiv.Perm.sign σ : ℤ) * orderSign τ (List.ofFn v) := by
  induction σ using Equiv.Perm.swap_induction_on' with
  | one => simp
  | mul_swap f x y hxy ih =>
    have hx : (List.ofFn fun i => v (f i))[x.1]? = some (v (f x)) := by simp
    have hy : (List.ofFn fun i => v (f i))[y.1]? = some (v (f y)) := by simp
    have hn : ((List.ofFn fun i => v (f i)).map τ).Nodup := by
      rw [List.map_ofFn, List.nodup_ofFn]
      intro a b hab
      exact f.injective (h hab)
    have hne : x.1 ≠ y.1 := fun e => hxy (Fin.ext e)
    have e := orderSign_set_swap hx hy hne hn
    have e2 : (List.ofFn fun i => v ((f * Equiv.swap x y) i)) =
        ((List.ofFn fun i => v (f i)).set x.1 (v (f y))).set y.1 (v (f x)) := by
      refine List.ext_getElem? fun k => ?_
      rw [getElem?_set_swap hx hy]
      by_cases hk : k < N
      · have : Equiv.swap x.1 y.1 k = (Equiv.swap x y ⟨k, hk⟩).1 := by
          rw [Equiv.swap_apply_def, Equiv.swap_apply_def]
          simp only [Fin.ext_iff]
          split_ifs <;> rfl
        rw [this]
        simp [hk]
      · have : Equiv.swap x.1 y.1 k = k := Equiv.swap_apply_of_ne_of_ne (by have := x.2; omega) (by have := y.2; omega)
        rw [this, List.getElem?_eq_none (by simpa using hk), List.getElem?_eq_none (by simpa using hk)]
    rw [e2, e, ih, Equiv.Perm.sign_mul, Equiv.Perm.sign_swap hxy]
    push_cast
    ring

end order

section sort
variable {Y T : Type} [LinearOrder T]

theorem strictWeak_key (κ : Y → T) : StrictWeak fun a b => decide (κ a < κ b) := by
  refine ⟨fun a => by simp, fun a b c h1 h2 => ?_, fun a b c h1 h2 h3 h4 => ?_⟩
  · simp only [decide_eq_true_eq] at *; exact h1.trans h2
  · simp only [decide_eq_false_iff_not, not_lt] at *
    exact ⟨h3.trans h1, h2.trans h4⟩

open Classical in
/-- Sorting a vector that is not empty. -/
theorem sortVec_ok {T' : Type} [LinearOrder T'] {cmp : Y → Y → Bool} (hs : StrictWeak cmp) {l : List Y} (hl : l ≠ []) :
    ∃ l' p, PSide.sortVec cmp l = .ok (l', p) ∧ l'.Perm l ∧ l'.Pairwise (fun a b => cmp b a = false) ∧
      ∀ τ : Y → T', (l.map τ).Nodup → orderSign τ l' = p * orderSign τ l := by
  obtain ⟨x, l0, rfl⟩ := List.exists_cons_of_ne_nil hl
  obtain ⟨F, w, σ, hF, hr, hw⟩ := C20_comb_sort_partial hs (shrink := fun n => 10 * n / 13) (fun n => by omega) (fun n h => by omega)
    (N := (x :: l0).length) (by simp) (fun i => (x :: l0).getD i x)
  have hex : ∃ r F, ∀ fuel ≥ F, combSort (fun n => 10 * n / 13) cmp fuel (fun i => (x :: l0).getD i x) (x :: l0).length = some r :=
    ⟨_, F, hF⟩
  have hc : hex.choose = .ok (w, (Equiv.Perm.sign σ : ℤ)) := by
    obtain ⟨F', hF'⟩ := hex.choose_spec
    have a := hF (max F F') (le_max_left _ _)
    have b := hF' (max F F') (le_max_right _ _)
    rw [a] at b
    exact (Option.some.inj b).symm
  have ew : (List.range (x :: l0).length).map w = List.ofFn fun i => (x :: l0).get (σ i) := by
    refine List.ext_getElem (by simp) fun i h1 h2 => ?_
    rw [List.length_ofFn] at h2
    rw [List.getElem_map, List.getElem_range, List.getElem_ofFn]
    have := hr ⟨i, h2⟩
    refine this.trans ?_
    exact List.getD_eq_getElem _ _ (σ ⟨i, h2⟩).2
  have e0 : (List.ofFn fun i => (x :: l0).get i) = x :: l0 := List.ofFn_get _
  refine ⟨(List.range (x :: l0).length).map w, Equiv.Perm.sign σ, ?_, ?_, ?_, ?_⟩
  · show (if h : ∃ r F, ∀ fuel ≥ F, combSort (fun n => 10 * n / 13) cmp fuel (fun i => (x :: l0).getD i x) (x :: l0).length = some r
      then _ else _) = _
    rw [dif_pos hex, hc]
    rfl
  · rw [ew]
    conv_rhs => rw [← e0]
    exact Equiv.Perm.ofFn_comp_perm σ _
  · rw [List.pairwise_map]
    refine List.pairwise_iff_getElem.mpr fun i j hi hj hij => ?_
    rw [List.getElem_range, List.getElem_range]
    exact hw i j hij (by simpa using hj)
  · intro τ hn
    have hn' : ((List.ofFn fun i => (x :: l0).get i).map τ).Nodup := by rw [e0]; exact hn
    rw [List.map_ofFn, List.nodup_ofFn] at hn'
    rw [ew]
    have := orderSign_rearranged (fun i => (x :: l0).get i) hn' σ
    rw [e0] at this
    exact this

end sort

section side
variable {T X : Type} [LinearOrder T] {τ : X → T} {σ : X → ℕ} {n N : ℕ} {order L adds rems : List X}

open Classical in
theorem checkSets_ok (hn : (L.map τ).Nodup) (hL : ∀ x ∈ L, σ x < n) (ho : order.Perm L) :
    (sideOf τ σ n N order L adds rems).checkSets τ n = .ok () := by
  unfold PSide.checkSets sideOf
  dsimp only
  have e : ((tab n fun k => byTime τ (inSec σ k L)).take n).flatten = secList τ σ n L := by rw [tab_take le_rfl]; rfl
  have p := secList_perm (τ := τ) hL
  have h1 : SetOK τ (Side.setOf τ (secList τ σ n L)) L := (setOf_ok τ ((p.map τ).nodup_iff.mpr hn)).congr p
  have h2 : SetOK τ (Side.setOf τ order) L := (setOf_ok τ ((ho.map τ).nodup_iff.mpr hn)).congr ho
  rw [Res.assert_true (by rw [tab_length]), Res.bind_ok, e, Res.assert_true (h1.unique τ (byTime_setOK hn)), Res.bind_ok,
    Res.assert_true (h1.unique τ h2)]

theorem checkSectors_ok {f : X → ℕ} {sector : List ℕ} (hs : ∀ x ∈ L, Res.get sector (f x) = .ok (σ x)) :
    (sideOf τ σ n N order L adds rems).checkSectors f sector n = .ok () := by
  unfold PSide.checkSectors
  refine foldl_unit_ok fun k hk => ?_
  have : Res.get (sideOf τ σ n N order L adds rems).secs k = .ok (byTime τ (inSec σ k L)) := tab_get (List.mem_range.mp hk)
  rw [this, Res.bind_ok]
  refine foldl_unit_ok fun x hx => ?_
  have hx := (byTime_perm τ _).mem_iff.mp hx
  unfold inSec at hx
  rw [List.mem_filter, decide_eq_true_eq] at hx
  rw [hs x hx.1, Res.bind_ok, Res.assert_true hx.2]

theorem within_key (τ : X → T) : PSide.within τ = fun a b => decide (toLex (a.1, τ a.2) < toLex (b.1, τ b.2)) := by
  funext a b
  unfold PSide.within
  rw [Bool.eq_iff_iff, decide_eq_true_eq, Prod.Lex.toLex_lt_toLex]
  dsimp only
  by_cases h : a.1 = b.1
  · simp [h]
  · simp [h]

theorem checkSign_ok {f : X → ℕ} {sector : List ℕ} (hs : ∀ x ∈ L, Res.get sector (f x) = .ok (σ x)) (hn : (L.map τ).Nodup)
    (hL : ∀ x ∈ L, σ x < n) (hne : L ≠ []) :
    (sideOf τ σ n N order L adds rems).checkSign τ f sector = .ok (secSign τ σ n L) := by
  unfold PSide.checkSign
  have e1 : Res.mapM (fun x => do
      let k ← Res.get sector (f x)
      pure (k, x)) (sideOf τ σ n N order L adds rems).set = .ok ((byTime τ L).map fun x => (σ x, x)) := by
    refine Res.mapM_ok fun x hx => ?_
    rw [hs x ((byTime_perm τ L).mem_iff.mp hx)]; rfl
  have hw : ((byTime τ L).map fun x => (σ x, x)) ≠ [] := by
    intro e
    rw [List.map_eq_nil_iff] at e
    have := (byTime_perm τ L).length_eq
    rw [e] at this
    exact hne (List.length_eq_zero_iff.mp this.symm)
  have hov : StrictWeak (PSide.over (X := X) τ) := strictWeak_key fun a : ℕ × X => τ a.2
  have hwi : StrictWeak (PSide.within (X := X) τ) := by rw [within_key]; exact strictWeak_key fun a : ℕ × X => toLex (a.1, τ a.2)
  obtain ⟨l1, p1, s1, q1, t1, -⟩ := sortVec_ok (T' := T) hov hw
  have hl1 : l1 ≠ [] := by
    rintro rfl
    exact hw (List.length_eq_zero_iff.mp q1.length_eq.symm)
  obtain ⟨l2, p2, s2, q2, t2, u2⟩ := sortVec_ok (T' := T) hwi hl1
  rw [e1, Res.bind_ok, s1, Res.bind_ok]
  dsimp only
  rw [s2, Res.bind_ok, Res.pure_eq]
  have n0 : (((byTime τ L).map fun x => (σ x, x)).map fun a => τ a.2).Nodup := by
    rw [List.map_map]
    exact ((byTime_perm τ L).map τ).nodup_iff.mpr hn
  have n1 : (l1.map fun a => τ a.2).Nodup := (q1.map _).nodup_iff.mpr n0
  have g1 : orderSign (fun a : ℕ × X => τ a.2) l1 = 1 := by
    refine orderSign_sorted (t1.imp fun {a b} h => ?_)
    unfold PSide.over at h
    simpa using h
  have g2 := u2 (fun a => τ a.2) n1
  rw [g1, mul_one] at g2
  rw [← g2]
  have p := secList_perm (τ := τ) hL
  have e2 : l2 = (secList τ σ n L).map fun x => (σ x, x) := by
    refine sorted_unique (τ := fun a : ℕ × X => toLex (a.1, τ a.2)) ?_ ?_ ?_ ?_
    · exact q2.trans (q1.trans (((byTime_perm τ L).trans p.symm).map _))
    · rw [within_key] at t2
      exact t2.imp fun {a b} h => by simpa using h
    · rw [List.pairwise_map]
      unfold secList
      rw [List.pairwise_flatten]
      constructor
      · intro l hl
        unfold tab at hl
        obtain ⟨k, hk, rfl⟩ := List.mem_map.mp hl
        refine List.Pairwise.imp_of_mem ?_ (byTime_sorted τ (inSec σ k L))
        intro a b ha hb hab
        have ha := (byTime_perm τ _).mem_iff.mp ha
        have hb := (byTime_perm τ _).mem_iff.mp hb
        unfold inSec at ha hb
        rw [List.mem_filter, decide_eq_true_eq] at ha hb
        rw [Prod.Lex.toLex_le_toLex]
        right
        exact ⟨by rw [ha.2, hb.2], hab⟩
      · unfold tab
        rw [List.pairwise_map]
        refine List.pairwise_lt_range.imp fun {i j} hij a ha b hb => ?_
        have ha := (byTime_perm τ _).mem_iff.mp ha
        have hb := (byTime_perm τ _).mem_iff.mp hb
        unfold inSec at ha hb
        rw [List.mem_filter, decide_eq_true_eq] at ha hb
        rw [Prod.Lex.toLex_le_toLex]
        left
        dsimp only
        rw [ha.2, hb.2]; exact hij
    · have n2 : (l2.map fun a => τ a.2).Nodup := (q2.map _).nodup_iff.mpr n1
      rw [List.Nodup, List.pairwise_map] at n2 ⊢
      exact n2.imp fun {a b} h e => h (congrArg Prod.snd (toLex.injective e))
  rw [e2, orderSign_map]
  rfl

theorem checkSign_empty {f : X → ℕ} {sector : List ℕ} {S : PSide X} (h : S.set = []) : S.checkSign τ f sector = .ub := by
  unfold PSide.checkSign
  rw [h, Res.mapM_nil, Res.bind_ok]
  rfl

open Classical in
theorem checkOrder_aux (S : PSide X) (b : ℕ × List X) (hb : b.1 = b.2.length) (pre suf : List X) (h : S.order = pre ++ (b.2 ++ suf)) :
    ∀ j ≤ b.1, Res.foldl (fun (iop : ℕ) (i : ℕ) => do
      let a ← Res.get S.order iop
      let a' ← Res.get b.2 i
      Res.assert (a = a')
      pure (iop + 1)) pre.length (List.range j) = .ok (pre.length + j) := by
  intro j
  induction j with
  | zero => intro _; rfl
  | succ j ih =>
    intro hj
    have hjb : j < b.2.length := by omega
    rw [List.range_succ, Res.foldl_append, ih (by omega), Res.bind_ok, Res.foldl_cons]
    have e1 : Res.get S.order (pre.length + j) = .ok b.2[j] := by
      rw [Res.get_eq_ok, h, List.getElem?_append_right (by omega), Nat.add_sub_cancel_left,
        List.getElem?_append_left hjb, List.getElem?_eq_getElem hjb]
    rw [e1, Res.bind_ok, Res.get_of_lt hjb, Res.bind_ok, Res.assert_true rfl]
    rfl

open Classical in
theorem checkOrder_ok {S : PSide X} {blocks : List (ℕ × List X)} (hb : ∀ b ∈ blocks, b.1 = b.2.length)
    (h : S.order = blocks.flatMap fun b => b.2) : S.checkOrder blocks = .ok () := by
  have key : ∀ (l : List (ℕ × List X)) (pre : List X), (∀ b ∈ l, b.1 = b.2.length) → S.order = pre ++ l.flatMap (fun b => b.2) →
      Res.foldl (fun (iop : ℕ) (b : ℕ × List X) =>
        Res.foldl (fun (iop : ℕ) (i : ℕ) => do
          let a ← Res.get S.order iop
          let a' ← Res.get b.2 i
          Res.assert (a = a')
          pure (iop + 1)) iop (List.range b.1)) pre.length l = .ok S.order.length := by
    intro l
    induction l with
    | nil => intro pre _ h; rw [Res.foldl_nil, h]; simp
    | cons b l ih =>
      intro pre hb h
      rw [List.flatMap_cons] at h
      rw [Res.foldl_cons, checkOrder_aux S b (hb b (by simp)) pre _ h b.1 le_rfl, Res.bind_ok]
      have := ih (pre ++ b.2) (fun b' h' => hb b' (by simp [h'])) (by rw [h]; simp)
      rw [List.length_append, ← hb b (by simp)] at this
      exact this
  unfold PSide.checkOrder
  have := key blocks [] hb (by simpa using h)
  rw [List.length_nil] at this
  rw [this]
  rfl

end side

end CTInt
