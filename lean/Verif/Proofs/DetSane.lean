import Verif.Proofs.DetAct
import Verif.Props.Sort

/-!
# The checks of the debug build (helper lemmas for C24-C27, C81)
-/

set_option linter.all false

namespace CTInt

section perm
variable {X T : Type} [LinearOrder T] (τ : X → T)

theorem bubblePass_map (l : List X) :
    bubblePass ltb (l.map τ) = ((bubblePass (fun a b => decide (τ a < τ b)) l).1.map τ,
      (bubblePass (fun a b => decide (τ a < τ b)) l).2) := by
  match l with
  | [] => simp [bubblePass]
  | [a] => simp [bubblePass]
  | a :: b :: l =>
    have h1 := bubblePass_map (a :: l)
    have h2 := bubblePass_map (b :: l)
    simp only [List.map_cons] at h1 h2
    simp only [List.map_cons]
    rw [bubblePass, bubblePass]
    have e : ltb (τ a) (τ b) = decide (τ a < τ b) := rfl
    rw [e]
    split_ifs
    · simp only [h1, List.map_cons]
    · simp only [h2, List.map_cons]
termination_by l.length

theorem bubbleLoop_map (fuel : ℕ) : ∀ (l : List X) (p : ℤ),
    bubbleLoop ltb fuel (l.map τ) p = bubbleLoop (fun a b => decide (τ a < τ b)) fuel l p := by
  induction fuel with
  | zero => intro l p; rfl
  | succ n ih =>
    intro l p
    unfold bubbleLoop
    simp only [bubblePass_map τ l, ih]

theorem inversions_map (l : List X) : inversions (l.map τ) = outOfOrder τ l := by
  induction l with
  | nil => rfl
  | cons x l ih =>
    rw [List.map_cons, inversions, outOfOrder, ih, List.filter_map, List.length_map, List.countP_eq_length_filter]
    rfl

theorem permOf_ok {l : List X} (h : (l.map τ).Nodup) : Side.permOf τ l = .ok (orderSign τ l) := by
  obtain ⟨F, hF⟩ := C21_sign h
  have hF' : ∀ fuel ≥ F, permutationSign (fun a b => decide (τ a < τ b)) fuel l = some (orderSign τ l) := by
    intro fuel hf
    have := hF fuel hf
    unfold permutationSign at this ⊢
    rw [bubbleLoop_map, inversions_map] at this
    exact this
  have hex : ∃ r F, ∀ fuel ≥ F, permutationSign (fun a b => decide (τ a < τ b)) fuel l = some r := ⟨_, F, hF'⟩
  unfold Side.permOf
  rw [dif_pos hex]
  obtain ⟨F', hF''⟩ := hex.choose_spec
  have a := hF' (max F F') (le_max_left _ _)
  have b := hF'' (max F F') (le_max_right _ _)
  rw [a] at b
  exact congrArg Res.ok (Option.some.inj b).symm

theorem permOf_diverges {l : List X} (h : ¬ (l.map τ).Nodup) : Side.permOf τ l = .ub := by
  unfold Side.permOf
  rw [dif_neg]
  rintro ⟨r, F, hF⟩
  have := C21_diverges h F
  unfold permutationSign at this
  rw [bubbleLoop_map] at this
  have h2 := hF F le_rfl
  unfold permutationSign at h2
  rw [this] at h2
  cases h2

theorem foldl_unit_ok {α : Type} {f : Unit → α → Res Unit} {l : List α} (h : ∀ a ∈ l, f () a = .ok ()) :
    Res.foldl f () l = .ok () := by
  induction l with
  | nil => rfl
  | cons a l ih =>
    rw [Res.foldl_cons, h a (by simp), Res.bind_ok]
    exact ih fun b hb => h b (by simp [hb])

theorem checkPos_ok {S : Side X T} (h : PosOK τ S.ops S.pos) {n : ℕ} (hn : S.ops.length = n) : S.checkPos τ n = .ok () := by
  refine foldl_unit_ok fun e he => ?_
  obtain ⟨x, hx, hx'⟩ := (h.mem e.1 e.2).mp he
  obtain ⟨hp, -⟩ := List.getElem?_eq_some_iff.mp hx
  rw [Res.assert_true (by omega), Res.bind_ok, Res.get_eq_ok.mpr hx, Res.bind_ok, Res.assert_true hx']

theorem checkFind_ok {S : Side X T} (h : PosOK τ S.ops S.pos) {n : ℕ} (hn : S.ops.length = n) : S.checkFind τ n = .ok () := by
  refine foldl_unit_ok fun i hi => ?_
  have hi : i < S.ops.length := by rw [hn]; exact List.mem_range.mp hi
  have e : S.find τ S.ops[i] = .ok i := by
    unfold Side.find; rw [h.find_eq (List.getElem?_eq_getElem hi)]
  rw [Res.get_of_lt hi, Res.bind_ok, e, Res.bind_ok, Res.assert_true (by omega)]

theorem setOf_append (l : List X) (x : X) : Side.setOf τ (l ++ [x]) = Side.setInsert τ (Side.setOf τ l) x := by
  unfold Side.setOf; rw [List.foldl_append]; rfl

theorem setOf_ok {l : List X} (h : (l.map τ).Nodup) : SetOK τ (Side.setOf τ l) l := by
  induction l using List.reverseRecOn with
  | nil => exact ⟨List.Pairwise.nil, .refl _⟩
  | append_singleton l x ih =>
    rw [List.map_append, List.nodup_append] at h
    rw [setOf_append]
    exact ((ih h.1).insert (fun hx => h.2.2 _ hx _ (by simp) rfl)).congr (List.perm_append_singleton x l).symm

theorem SetOK.unique {a b l : List X} (ha : SetOK τ a l) (hb : SetOK τ b l) : a = b := by
  refine sorted_unique (τ := τ) (ha.perm.trans hb.perm.symm) (ha.sorted.imp fun h => h.le) (hb.sorted.imp fun h => h.le) ?_
  rw [List.Nodup, List.pairwise_map]
  exact ha.sorted.imp fun h => ne_of_lt h

end perm

variable {K Cd Co T : Type} [Field K] [DecidableEq K] [LinearOrder T] {o : OpSys K Cd Co T}

/-- A state in which all checks hold. -/
structure Sane (o : OpSys K Cd Co T) (s : DM K Cd Co T) : Prop where
  st : s.state = .waiting
  core : ∃ n, Core o s n
  scd : SetOK o.tcd s.cd.set s.cd.ops
  sc : SetOK o.tc s.c.set s.c.ops

theorem checkState_bind {β : Type} {st : DState} {s : DM K Cd Co T} (h : s.state = st) (f : Unit → Act (DM K Cd Co T) β) :
    (DM.checkState st >>= f) s = f () s := by
  have : DM.checkState st s = (.ok (), s) := by
    unfold DM.checkState
    rw [Act.get_bind]
    unfold Act.throwIf
    rw [Res.throwIf_false (by simp [h])]; rfl
  exact Act.bind_ok this

open Classical in
theorem sanityCheck_ok {dbg : Bool} {s : DM K Cd Co T} (h : Sane o s) : DM.sanityCheck o dbg s = (.ok (), s) := by
  unfold DM.sanityCheck
  cases dbg with
  | false => rfl
  | true =>
    obtain ⟨n, c⟩ := h.core
    have l1 := c.lcd
    have l2 := c.lc
    have l3 := c.inv.1
    have t1 : s.c.ops.take s.inv.rows = s.c.ops := List.take_of_length_le (by omega)
    have t2 : s.cd.ops.take s.inv.rows = s.cd.ops := List.take_of_length_le (by omega)
    rw [if_pos rfl, checkState_bind h.st, Act.get_bind]
    rw [Act.assert_pos (by omega), Act.assert_pos (by omega), Act.assert_pos (by rw [c.pc.length_eq]; omega),
      Act.assert_pos (by rw [c.pcd.length_eq]), checkPos_ok o.tc c.pc (by omega), Act.lift_ok_bind,
      checkPos_ok o.tcd c.pcd rfl, Act.lift_ok_bind, t1, permOf_ok o.tc c.pc.nodup, Act.lift_ok_bind, t2,
      permOf_ok o.tcd c.pcd.nodup, Act.lift_ok_bind, Act.assert_pos (by rw [c.perm, mul_comm]),
      checkFind_ok o.tcd c.pcd (by omega), Act.lift_ok_bind, checkFind_ok o.tc c.pc (by omega), Act.lift_ok_bind,
      Act.assert_pos (by rw [l3, c.inv.2.1]), Act.assert_pos (h.scd.unique _ (setOf_ok o.tcd c.pcd.nodup))]
    unfold Act.assert
    rw [Res.assert_true (h.sc.unique _ (setOf_ok o.tc c.pc.nodup))]
    rfl

open Classical in
/-- A matrix of another size than the list of operators stops the debug build. -/
theorem sanityCheck_size {s : DM K Cd Co T} (h : s.state = .waiting) (hn : s.inv.rows ≠ s.cd.ops.length) :
    (DM.sanityCheck o true s).1 = .ub := by
  unfold DM.sanityCheck
  rw [if_pos rfl, checkState_bind h, Act.get_bind]
  unfold Act.assert
  rw [Res.assert_false hn]
  rfl

end CTInt
