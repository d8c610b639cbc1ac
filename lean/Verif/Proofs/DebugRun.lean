import Verif.Proofs.Debug
import Verif.Proofs.SubRun

/-!
# The debug build computes what the release build computes
-/

set_option linter.all false

namespace CTInt

variable {K : Type} [RCLike K] [DecidableEq K]
variable {c : Ctx K} {s : Sub K}

theorem forFlavors_succ {α : Type} {nf : ℕ} {f : ℕ → α → Res α} {x : ℕ → α} :
    forFlavors (nf + 1) f x = (forFlavors nf f x >>= fun y => f nf (y nf) >>= fun z => pure (Function.update y nf z)) := by
  unfold forFlavors
  rw [List.range_succ, Res.foldl_append]
  congr 1
  funext y
  rw [Res.foldl_cons]
  cases f nf (y nf) <;> rfl

theorem forFlavors_congr {α : Type} {nf : ℕ} {f g : ℕ → α → Res α} {x : ℕ → α}
    (h : ∀ fl < nf, f fl (x fl) = g fl (x fl)) : forFlavors nf f x = forFlavors nf g x := by
  induction nf with
  | zero => rfl
  | succ n ih =>
    rw [forFlavors_succ, forFlavors_succ, ih fun fl hfl => h fl (by omega)]
    cases e : forFlavors n g x with
    | throw _ => rfl
    | ub => rfl
    | ok y =>
      rw [Res.bind_ok, Res.bind_ok, (forFlavors_inv e).2 n le_rfl, h n (by omega)]

theorem extend_sizes {NI : K} {G0 : Op → Op → K} {j1 j2 : ℕ → ℕ → K} {A A' : InvA K} {n : ℕ} (hA : A.Aligned n)
    (h : A.extend NI G0 j1 j2 = .ok A') : A'.Aligned n ∧ A'.mat.rows = n ∧ A'.mat.cols = n := by
  unfold InvA.extend at h
  simp only [Res.bind_eq_ok, Res.assert_eq_ok, Res.pure_eq, Res.ok.injEq] at h
  obtain ⟨_, h1, _, h2, rfl⟩ := h
  refine ⟨⟨hA.cr, hA.an, hA.al, hA.vi⟩, ?_, ?_⟩
  · show A.mat.cols + (A.cr.length - A.mat.cols) = n
    rw [hA.cr] at h1 ⊢; omega
  · show A.mat.cols + (A.cr.length - A.mat.cols) = n
    rw [hA.cr] at h1 ⊢; omega

theorem extendD_eq {NI : K} {G0 : Op → Op → K} {j1 j2 : ℕ → ℕ → K} {A : InvA K} {n : ℕ} (hA : A.Aligned n) :
    A.extendD NI G0 j1 j2 = A.extend NI G0 j1 j2 := by
  unfold InvA.extendD
  cases e : A.extend NI G0 j1 j2 with
  | throw _ => rfl
  | ub => rfl
  | ok A' =>
    obtain ⟨h1, h2, h3⟩ := extend_sizes hA e
    have h4 := h1.cr
    rw [← h4] at h2 h3
    have h1 : A'.Aligned A'.cr.length := by rw [h4]; exact h1
    rw [Res.bind_ok, invACheck_ok h1 h2 h3]
    rfl

theorem initUpdateD_eq (ht : TblOK c.NI c.nf c.tbl) (h : ReadyInv c s) {new : List Vert}
    (hnew : ∀ v ∈ new, v.type < c.tbl.length) (j1 j2 j3 : ℕ → ℕ → ℕ → K) :
    s.initUpdateD c j1 j2 j3 new = s.initUpdate c j1 j2 j3 new := by
  have key : addNonIntD c j1 j2 (s.verts ++ Sub.withIds (new.map fun v => { v with nonInt := true }) s.uid)
      s.verts.length s.invA = addNonInt c j1 j2
        (s.verts ++ Sub.withIds (new.map fun v => { v with nonInt := true }) s.uid) s.verts.length s.invA := by
    have hnsOk : ∀ v ∈ Sub.withIds (new.map fun v => { v with nonInt := true }) s.uid, VertOK c.tbl v := by
      intro v hv
      obtain ⟨w, hw, u, rfl⟩ := withIds_mem hv
      obtain ⟨w', hw', rfl⟩ := List.mem_map.mp hw
      exact ⟨hnew w' hw', fun e => by cases e⟩
    unfold addNonIntD addNonInt
    rw [List.drop_left]
    obtain ⟨I1, e1, p1⟩ := pushVertices_spec ht hnsOk (I := s.invA) (fun fl hfl => ⟨_, h.al fl hfl⟩)
    rw [e1, Res.bind_ok]
    congr 1
    funext _
    exact forFlavors_congr fun fl hfl => extendD_eq ((p1 fl).aligned (h.al fl hfl))
  unfold Sub.initUpdateD Sub.initUpdate
  simp only [key]

theorem trySpinFlipD_eq (ht : TblOK c.NI c.nf c.tbl) (h : TryInv c s) {pos : List ℕ} {spins : List ℤ}
    (hT : TrialOK c s pos spins) (hu : ReturnsInserted c.NI c.tbl s.verts0 s.verts (pos.zip spins)) :
    s.trySpinFlipD c pos spins = s.trySpinFlip c pos spins := by
  have hW := workOK ht h hT
  have hwork := Sub.work_spec ht hW ⟨fun _ => [], fun _ => [], fun _ => [], 1, 1⟩
  unfold Sub.trySpinFlipD Sub.trySpinFlip
  rw [hwork]
  simp only [Res.bind_ok]
  set w0 : Sub.Work K := { (⟨fun _ => [], fun _ => [], fun _ => [], 1, 1⟩ : Sub.Work K) with
    u := 1 * ((pos.zip spins).map fun x => vU c.tbl (flipTo (s.verts.getD x.1 default) x.2) /
        vU c.tbl (s.verts.getD x.1 default)).prod } with hw0
  have hl := fun fl => (Sub.step_lists c.NI (Sub.elems c s (pos.zip spins)) w0 fl).1
  set w := (Sub.elems c s (pos.zip spins)).foldl (Sub.workStep c.NI) w0 with hw
  have hrem : ∀ fl, ∀ o ∈ w.rem fl, o.a0 = c.NI ∧ o.cur ≠ c.NI ∧ o.new = c.NI := by
    intro fl o ho
    rw [hl fl] at ho
    rw [show w0.rem fl = [] from rfl, List.nil_append, List.mem_filter] at ho
    obtain ⟨h1, h2⟩ := ho
    unfold Sub.onFl at h1
    obtain ⟨y, hy, rfl⟩ := List.mem_map.mp h1
    obtain ⟨x, hx, hy⟩ := List.mem_flatMap.mp (List.mem_filter.mp hy).1
    obtain ⟨r, hr, rfl⟩ := List.mem_map.mp hy
    simp only [Sub.isRem, decide_eq_true_eq] at h2
    have := hu x hx r (List.mem_range.mp hr) (fun e => h2.1 e.symm) h2.2.symm
    refine ⟨this, ?_, ?_⟩
    · intro e; exact h2.1 (this.trans e.symm)
    · exact h2.2.symm.trans this
  have key : Sub.tryFlavorD c w = Sub.tryFlavor c w := by
    funext A fl G
    unfold Sub.tryFlavorD Sub.tryFlavor
    rw [Res.assert_true (hrem fl), Res.assert_true fun o ho => (hrem fl o ho).2.2]
    rfl
  rw [key]

theorem tryFlavorD_cases {w : Sub.Work K} {A : InvA K} {fl : ℕ} {G : Gamma K} {z : Gamma K × K}
    (h : Sub.tryFlavor c w A fl G = .ok z) :
    Sub.tryFlavorD c w A fl G = .ub ∨
      (Sub.tryFlavorD c w A fl G = .ok z ∧ ∀ o ∈ w.rem fl, o.new = c.NI) := by
  unfold Sub.tryFlavor at h
  unfold Sub.tryFlavorD
  split_ifs at h ⊢ with h1 h2 h3 h4
  · exact Or.inr ⟨h, by rw [h1.1]; simp⟩
  · exact Or.inr ⟨h, by rw [h2.1]; simp⟩
  · by_cases hb : ∀ o ∈ w.rem fl, o.a0 = c.NI ∧ o.cur ≠ c.NI ∧ o.new = c.NI
    · rw [Res.assert_true hb, Res.bind_ok]
      exact Or.inr ⟨h, fun o ho => (hb o ho).2.2⟩
    · left
      unfold Res.assert
      rw [if_neg hb]
      rfl
  · by_cases hb : ∀ o ∈ w.rem fl, o.new = c.NI
    · rw [Res.assert_true hb, Res.bind_ok]
      exact Or.inr ⟨h, hb⟩
    · left
      unfold Res.assert
      rw [if_neg hb]
      rfl

theorem loopD_cases {w : Sub.Work K} (s : Sub K) (n : ℕ) {y : (ℕ → Gamma K) × K}
    (h : Res.foldl (fun (x : (ℕ → Gamma K) × K) fl => do
      let (G, r) ← Sub.tryFlavor c w (s.invA fl) fl (x.1 fl)
      pure (Function.update x.1 fl G, x.2 * r)) (s.gam, 1) (List.range n) = .ok y) :
    Res.foldl (fun (x : (ℕ → Gamma K) × K) fl => do
      let (G, r) ← Sub.tryFlavorD c w (s.invA fl) fl (x.1 fl)
      pure (Function.update x.1 fl G, x.2 * r)) (s.gam, 1) (List.range n) = .ub ∨
    ∀ fl < n, ∀ o ∈ w.rem fl, o.new = c.NI := by
  suffices H : Res.foldl (fun (x : (ℕ → Gamma K) × K) fl => do
      let (G, r) ← Sub.tryFlavorD c w (s.invA fl) fl (x.1 fl)
      pure (Function.update x.1 fl G, x.2 * r)) (s.gam, 1) (List.range n) = .ub ∨
      (Res.foldl (fun (x : (ℕ → Gamma K) × K) fl => do
        let (G, r) ← Sub.tryFlavorD c w (s.invA fl) fl (x.1 fl)
        pure (Function.update x.1 fl G, x.2 * r)) (s.gam, 1) (List.range n) = .ok y ∧
      ∀ fl < n, ∀ o ∈ w.rem fl, o.new = c.NI) from H.imp id And.right
  induction n generalizing y with
  | zero => exact Or.inr ⟨h, fun fl hfl => by omega⟩
  | succ n ih =>
    rw [List.range_succ, Res.foldl_append, Res.bind_eq_ok] at h
    obtain ⟨z, e1, e2⟩ := h
    rw [List.range_succ, Res.foldl_append]
    rcases ih e1 with e | ⟨e, hr⟩
    · left; rw [e]; rfl
    · rw [e, Res.bind_ok]
      rw [Res.foldl_cons, Res.bind_eq_ok] at e2
      obtain ⟨z2, e2, e3⟩ := e2
      rw [Res.bind_eq_ok] at e2
      obtain ⟨z3, e2, e4⟩ := e2
      rw [Res.foldl_cons]
      rcases tryFlavorD_cases e2 with e5 | ⟨e5, hb⟩
      · left; rw [e5]; rfl
      · right
        rw [e5, Res.bind_ok, e4, Res.bind_ok]
        refine ⟨e3, fun fl hfl => ?_⟩
        by_cases e : fl = n
        · subst e; exact hb
        · exact hr fl (by omega)

/-- A trial that restores a field other than that of a missing vertex aborts. -/
theorem trySpinFlipD_ub (ht : TblOK c.NI c.nf c.tbl) (h : TryInv c s) {pos : List ℕ} {spins : List ℤ}
    (hT : TrialOK c s pos spins) (hu : ¬ ReturnsInserted c.NI c.tbl s.verts0 s.verts (pos.zip spins))
    {z : Sub K × K × K × K} (hok : s.trySpinFlip c pos spins = .ok z) : s.trySpinFlipD c pos spins = .ub := by
  have hW := workOK ht h hT
  have hwork := Sub.work_spec ht hW ⟨fun _ => [], fun _ => [], fun _ => [], 1, 1⟩
  unfold Sub.trySpinFlip at hok
  unfold Sub.trySpinFlipD
  rw [hwork] at hok ⊢
  simp only [Res.bind_ok] at hok ⊢
  set w0 : Sub.Work K := { (⟨fun _ => [], fun _ => [], fun _ => [], 1, 1⟩ : Sub.Work K) with
    u := 1 * ((pos.zip spins).map fun x => vU c.tbl (flipTo (s.verts.getD x.1 default) x.2) /
        vU c.tbl (s.verts.getD x.1 default)).prod } with hw0
  have hl := fun fl => (Sub.step_lists c.NI (Sub.elems c s (pos.zip spins)) w0 fl).1
  set w := (Sub.elems c s (pos.zip spins)).foldl (Sub.workStep c.NI) w0 with hw
  simp only [Res.bind_eq_ok, Res.assert_eq_ok] at hok
  obtain ⟨_, a1, _, a2, _, a3, _, a4, y, a5, _⟩ := hok
  rw [Res.assert_true a1, Res.bind_ok, Res.assert_true a2, Res.bind_ok, Res.assert_true a3, Res.bind_ok,
    Res.assert_true a4, Res.bind_ok]
  rcases loopD_cases s c.nf a5 with e | e
  · rw [e]; rfl
  · refine absurd ?_ hu
    intro x hx r hr h1 h2
    have hfl := flavorOf_lt ht (hW x hx).ok.1 hr
    have := e _ hfl (Sub.elemOf c s x r).2 (by
      rw [hl, show w0.rem _ = [] from rfl, List.nil_append, List.mem_filter]
      refine ⟨?_, ?_⟩
      · unfold Sub.onFl
        refine List.mem_map.mpr ⟨Sub.elemOf c s x r, List.mem_filter.mpr ⟨?_, ?_⟩, rfl⟩
        · exact List.mem_flatMap.mpr ⟨x, hx, List.mem_map.mpr ⟨r, List.mem_range.mpr hr, rfl⟩⟩
        · simp [Sub.elemOf]
      · simp only [Sub.isRem, decide_eq_true_eq]
        exact ⟨fun e => h1 e.symm, h2.symm⟩)
    rw [← h2]; exact this

theorem performSpinFlipD_eq {pos : List ℕ} {spins : List ℤ} {s' : Sub K} (junk : ℕ → ℕ → ℕ → K)
    (h : s.performSpinFlip c junk pos spins = .ok s') (hI : TryInv c s') :
    s.performSpinFlipD c junk pos spins = .ok s' := by
  unfold Sub.performSpinFlipD
  rw [h, Res.bind_ok, sanity_try hI]
  rfl

theorem rejectSpinFlipD_eq {s' : Sub K} (h : s.rejectSpinFlip c = .ok s') (hI : TryInv c s') :
    s.rejectSpinFlipD c = .ok s' := by
  unfold Sub.rejectSpinFlipD
  rw [h, Res.bind_ok, sanity_try hI]
  rfl

theorem finalizeUpdateD_eq (h : TryInv c s) (j1 j2 j3 : ℕ → ℕ → ℕ → K) :
    s.finalizeUpdateD c j1 j2 j3 = s.finalizeUpdate c j1 j2 j3 := by
  have key : forFlavors c.nf (fun fl A => A.updateMatrixD c.NI (j1 fl) (s.gam fl)) s.invA =
      forFlavors c.nf (fun fl A => A.updateMatrix c.NI (j1 fl) (s.gam fl)) s.invA := by
    refine forFlavors_congr fun fl hfl => ?_
    have hF := h.flav fl hfl
    unfold InvA.updateMatrixD
    rw [invACheck_ok hF.setup.aligned hF.setup.inv.1 hF.setup.inv.2.1, Res.bind_ok]
    rw [assert_bind]
    intro l hl
    rw [hF.inv.1] at hl
    have hm := getD_mem hl default
    rw [alphaAt_ok hF.setup.aligned (hF.info.lt _ hm), hF.info.a0 _ hm]
  unfold Sub.finalizeUpdateD Sub.finalizeUpdate
  rw [key]

theorem callD_eq (ht : TblOK c.NI c.nf c.tbl) {a : Abs} (h : Means c s a) {call : Call}
    (had : Admissible c.NI c.nf c.G0 c.tbl a call)
    (hu : ∀ pos spins acc, call = .flip pos spins acc → ReturnsInserted c.NI c.tbl a.base a.cfg (pos.zip spins))
    (J : ℕ → ℕ → ℕ → ℕ → K) : s.callD c J call = s.call c J call := by
  obtain ⟨s', e, hm⟩ := step_spec ht h had J
  cases call with
  | start new => exact initUpdateD_eq ht (h.cl had.1) had.2 _ _ _
  | finish => exact finalizeUpdateD_eq (h.op had.1).2 _ _ _
  | recompute => rfl
  | flip pos spins acc =>
    obtain ⟨hb, hI⟩ := h.op had.1
    have h2 := had.2.1
    rw [← h.cfg] at h2
    have hu := hu pos spins acc rfl
    rw [← h.cfg, ← hb] at hu
    rw [e]
    unfold Sub.call at e
    unfold Sub.callD
    simp only []
    rw [trySpinFlipD_eq ht hI h2.trialOK hu]
    rw [Res.bind_eq_ok] at e
    obtain ⟨⟨s1, q⟩, e1, e2⟩ := e
    have hI' : TryInv c s' := (hm.op (by cases acc <;> exact had.1)).2
    rw [e1, Res.bind_ok]
    cases acc with
    | true => exact performSpinFlipD_eq _ e2 hI'
    | false => exact rejectSpinFlipD_eq e2 hI'

theorem runD_eq (ht : TblOK c.NI c.nf c.tbl) {a : Abs} (h : Means c s a) {calls : List Call}
    (had : AllAdmissible c.NI c.nf c.G0 c.tbl a calls) (hu : UndoesInsertions c.NI c.tbl a calls)
    (J : ℕ → ℕ → ℕ → ℕ → ℕ → K) : s.runD c J calls = s.run c J calls := by
  induction calls generalizing a s with
  | nil => rfl
  | cons call calls ih =>
    obtain ⟨s1, e1, h1⟩ := step_spec ht h had.1 (J calls.length)
    unfold Sub.runD Sub.run
    rw [callD_eq ht h had.1 ?_, e1, Res.bind_ok, Res.bind_ok, ih h1 had.2 hu.2]
    intro pos spins acc e
    subst e
    exact hu.1

/-- Between batches `compute_M` passes its own check. -/
theorem computeMD_eq (ht : TblOK c.NI c.nf c.tbl) (h : ReadyInv c s) : s.computeMD c = s.computeM c := by
  unfold Sub.computeMD Sub.computeM
  refine forFlavors_congr (f := fun fl (_ : DMat K) => (s.invA fl).computeMD c.NI c.G0)
    (g := fun fl (_ : DMat K) => (s.invA fl).computeM c.NI) fun fl hfl => ?_
  have hA := h.al fl hfl
  have hX := h.inv fl hfl
  obtain ⟨M, e, q⟩ := C05_compute_M hA hX (good_of_rows ht hA (h.rows fl hfl) h.int h.ok)
  unfold InvA.computeMD
  rw [e, Res.bind_ok]
  simp only [hX.2.1]
  rw [Res.assert_true ⟨by rw [hA.an], le_rfl⟩, Res.bind_ok, assert_bind]
  · rfl
  · intro i hi j hj
    have hm := mul_eq_one_comm.mp q.2.2
    have := congrFun (congrFun hm ⟨i, hi⟩) ⟨j, hj⟩
    rw [Matrix.mul_apply, Matrix.one_apply] at this
    have e2 : (DMat.mul ⟨(s.invA fl).cr.length, (s.invA fl).cr.length, fun i j =>
        c.G0 ((s.invA fl).an.getD i default) ((s.invA fl).cr.getD j default) -
          if i = j then (s.invA fl).al.getD j 0 else 0⟩ M).val i j = if i = j then 1 else 0 := by
      show ∑ k ∈ Finset.range (s.invA fl).cr.length, _ = _
      rw [Finset.sum_range]
      simp only [Fin.mk.injEq] at this
      rw [← this]
      refine Finset.sum_congr rfl fun k _ => ?_
      rw [toM_apply, toM_apply]
      congr 1
    rw [e2]
    by_cases e : i = j
    · simp [e]; norm_num
    · simp [e]; norm_num

end CTInt
