import Verif.Spec.Resizable
import Mathlib.Tactic.Linarith

/-!
# C19: the resizable matrix never outgrows its buffer, and resizing keeps the common elements
-/

set_option linter.all false

namespace CTInt

variable {K : Type} [Field K]

namespace RMat

theorem read_ok {r : RMat K} (ha : r.Allocated) (hf : Fits r) {i j : ℕ} (hi : (i : ℤ) < r.size1) (hj : (j : ℤ) < r.size2) :
    r.read i j = .ok (r.buf i j) := by
  have : r.inBuffer i j := ⟨by omega, by have := hf.1; omega, by omega, by have := hf.2; omega⟩
  simp [read, Res.assert_true, ha, hi.le, hj.le, this, Res.bind_ok, Res.pure_eq]

/-- In an allocated matrix that fits its buffer the table seen is the logical part of the buffer. -/
theorem shows_iff {r : RMat K} (ha : r.Allocated) (hf : Fits r) {A : DMat K} :
    Shows r A ↔ r.size1 = A.rows ∧ r.size2 = A.cols ∧ ∀ i < A.rows, ∀ j < A.cols, r.buf i j = A.val i j := by
  simp only [Shows, rowsSeen, colsSeen, if_pos ha]
  refine and_congr_right fun h1 => and_congr_right fun h2 => forall_congr' fun i => forall_congr' fun hi =>
    forall_congr' fun j => forall_congr' fun hj => ?_
  rw [read_ok ha hf (by omega) (by omega)]
  exact ⟨fun h => Res.ok.inj h, fun h => congrArg _ h⟩

theorem shows_logical {r : RMat K} (ha : r.Allocated) (hf : Fits r) : Shows r r.logical := by
  rw [shows_iff ha hf]
  obtain ⟨h1, h2⟩ := ha
  simp only [logical]
  exact ⟨by omega, by omega, by simp⟩

theorem le_grown (n : ℕ) : n ≤ grown n := by simp only [grown, Int.toNat_natCast]; omega

end RMat

open RMat

theorem exch_eq {a b : ℤ} (ha : 0 ≤ a) (hb : 0 ≤ b) (i : ℕ) : Equiv.swap a.toNat b.toNat i = exch a b i := by
  unfold exch
  rw [Equiv.swap_apply_def]
  by_cases h1 : (i : ℤ) = a
  · rw [if_pos (by omega), if_pos h1]
  · rw [if_neg (by omega), if_neg h1]
    by_cases h2 : (i : ℤ) = b
    · rw [if_pos (by omega), if_pos h2]
    · rw [if_neg (by omega), if_neg h2]

theorem exch_lt {a b : ℤ} {n : ℕ} (ha : a < n) (hb : b < n) (ha0 : 0 ≤ a) (hb0 : 0 ≤ b) {i : ℕ} (hi : i < n) :
    exch a b i < n := by
  unfold exch; split_ifs <;> omega

theorem C19_finish {r' : RMat K} {A : DMat K} {c : RCall K} (ha : r'.Allocated) (hf : Fits r')
    (h : LStep A c r'.logical) : Fits r' ∧ ∃ B, Shows r' B ∧ LStep A c B :=
  ⟨hf, _, shows_logical ha hf, h⟩

theorem shows_unalloc {r : RMat K} {A : DMat K} (ha : ¬ r.Allocated) (hs : Shows r A) : A.rows = 0 ∧ A.cols = 0 := by
  obtain ⟨h1, h2, -⟩ := hs
  simp only [rowsSeen, colsSeen, if_neg ha] at h1 h2
  exact ⟨by omega, by omega⟩

theorem detM_cast {k n : ℕ} (h : k = n) (f : ℕ → ℕ → K) : (toM k k f).det = (toM n n f).det := by subst h; rfl

theorem invM_cast {k n : ℕ} (h : k = n) (f : ℕ → ℕ → K) : ofM (toM k k f)⁻¹ = ofM (toM n n f)⁻¹ := by subst h; rfl

/-- A call that succeeds: the buffer still covers the logical size, and the caller sees exactly the effect of the call
    on the table of elements. -/
theorem C19_call {junk : ℕ → ℕ → K} {r r' : RMat K} {A : DMat K} {c : RCall K} (hf : Fits r) (hs : Shows r A)
    (e : r.call junk c = .ok r') : Fits r' ∧ ∃ B, Shows r' B ∧ LStep A c B := by
  have hA : r.Allocated → r.size1 = A.rows ∧ r.size2 = A.cols ∧ ∀ i < A.rows, ∀ j < A.cols, r.buf i j = A.val i j :=
    fun ha => (shows_iff ha hf).1 hs
  obtain ⟨hf1, hf2⟩ := id hf
  cases c with
  | conservative n m =>
    simp only [RMat.call, conservativeResize] at e
    have g1 := le_grown n
    have g2 := le_grown m
    split_ifs at e with h1 h2
    · simp only [Res.bind_eq_ok, Res.assert_eq_ok, Res.pure_eq] at e
      obtain ⟨_, -, e⟩ := e
      cases e
      obtain ⟨a1, a2, a3⟩ := hA (h1)
      refine C19_finish ⟨by simp, by simp⟩ ⟨by simpa using g1, by simpa using g2⟩ ⟨by simp [logical], by simp [logical], ?_⟩
      intro i j hi hi' hj hj'
      simp only [logical]
      rw [if_pos ⟨by simp only [lt_min_iff]; omega, by simp only [lt_min_iff]; omega⟩]
      exact a3 i hi j hj
    · cases e
      obtain ⟨a1, a2, a3⟩ := hA (h1)
      push Not at h2
      exact C19_finish ⟨by simp, by simp⟩ ⟨h2.1, h2.2⟩ ⟨by simp [logical], by simp [logical],
        fun i j hi _ hj _ => a3 i hi j hj⟩
    · simp only [Res.bind_eq_ok, Res.assert_eq_ok, Res.pure_eq] at e
      obtain ⟨_, -, e⟩ := e
      cases e
      obtain ⟨z1, z2⟩ := shows_unalloc h1 hs
      refine C19_finish ⟨by simp, by simp⟩ ⟨by simp, by simp⟩ ⟨by simp [logical], by simp [logical], ?_⟩
      intro i j hi; omega
  | destructive n m =>
    simp only [RMat.call, destructiveResize] at e
    have g1 := le_grown n
    have g2 := le_grown m
    split_ifs at e with h1 h2
    · simp only [Res.bind_eq_ok, Res.assert_eq_ok, Res.pure_eq] at e
      obtain ⟨_, -, e⟩ := e
      cases e
      exact C19_finish ⟨by simp, by simp⟩ ⟨by simpa using g1, by simpa using g2⟩ ⟨by simp [logical], by simp [logical]⟩
    · cases e
      push Not at h2
      exact C19_finish ⟨by simp, by simp⟩ ⟨h2.1, h2.2⟩ ⟨by simp [logical], by simp [logical]⟩
    · simp only [Res.bind_eq_ok, Res.assert_eq_ok, Res.pure_eq] at e
      obtain ⟨_, -, e⟩ := e
      cases e
      exact C19_finish ⟨by simp, by simp⟩ ⟨by simp, by simp⟩ ⟨by simp [logical], by simp [logical]⟩
  | removeRowCol =>
    simp only [RMat.call, removeRowColLast, Res.bind_eq_ok, Res.assert_eq_ok, Res.pure_eq] at e
    obtain ⟨_, ha, _, h1, _, h2, e⟩ := e
    cases e
    obtain ⟨a1, a2, a3⟩ := hA ha
    refine C19_finish ⟨by dsimp; omega, by dsimp; omega⟩ ⟨by dsimp; omega, by dsimp; omega⟩ ?_
    simp only [LStep, logical]
    exact ⟨by omega, by omega, fun i hi j hj => a3 i (by omega) j (by omega)⟩
  | removeRow =>
    simp only [RMat.call, removeRowLast, Res.bind_eq_ok, Res.assert_eq_ok, Res.pure_eq] at e
    obtain ⟨_, ha, _, h1, e⟩ := e
    cases e
    obtain ⟨a1, a2, a3⟩ := hA ha
    refine C19_finish ⟨by dsimp; omega, by dsimp; omega⟩ ⟨by dsimp; omega, by dsimp; omega⟩ ?_
    simp only [LStep, logical]
    exact ⟨by omega, by omega, fun i hi j hj => a3 i (by omega) j (by omega)⟩
  | removeCol =>
    simp only [RMat.call, removeColLast, Res.bind_eq_ok, Res.assert_eq_ok, Res.pure_eq] at e
    obtain ⟨_, ha, _, h1, e⟩ := e
    cases e
    obtain ⟨a1, a2, a3⟩ := hA ha
    refine C19_finish ⟨by dsimp; omega, by dsimp; omega⟩ ⟨by dsimp; omega, by dsimp; omega⟩ ?_
    simp only [LStep, logical]
    exact ⟨by omega, by omega, fun i hi j hj => a3 i (by omega) j (by omega)⟩
  | swapRow a b =>
    simp only [RMat.call, RMat.swapRow, Res.bind_eq_ok, Res.assert_eq_ok, Res.pure_eq] at e
    obtain ⟨_, ha, _, h1, _, h2, _, ⟨h3, -, h4, -⟩, e⟩ := e
    cases e
    obtain ⟨a1, a2, a3⟩ := hA ha
    refine C19_finish ha hf ?_
    simp only [LStep, logical, SameAfter]
    refine ⟨by omega, by omega, fun i hi j hj => ?_⟩
    rw [exch_eq h3 h4]
    exact a3 _ (exch_lt (by omega) (by omega) h3 h4 hi) j hj
  | swapCol a b =>
    simp only [RMat.call, RMat.swapCol, Res.bind_eq_ok, Res.assert_eq_ok, Res.pure_eq] at e
    obtain ⟨_, ha, _, h1, _, h2, _, ⟨h3, -, h4, -⟩, e⟩ := e
    cases e
    obtain ⟨a1, a2, a3⟩ := hA ha
    refine C19_finish ha hf ?_
    simp only [LStep, logical, SameAfter]
    refine ⟨by omega, by omega, fun i hi j hj => ?_⟩
    rw [exch_eq h3 h4]
    exact a3 i hi _ (exch_lt (by omega) (by omega) h3 h4 hj)
  | swapRowCol a b =>
    simp only [RMat.call, RMat.swapRowCol, RMat.swapCol, RMat.swapRow, Res.bind_eq_ok, Res.assert_eq_ok, Res.pure_eq] at e
    obtain ⟨r1, ⟨_, ha, _, h1, _, h2, _, ⟨h3, -, h4, -⟩, e1⟩, _, -, _, h5, _, h6, _, -, e⟩ := e
    cases e1
    cases e
    obtain ⟨a1, a2, a3⟩ := hA ha
    refine C19_finish ha hf ?_
    simp only [LStep, logical, SameAfter]
    dsimp only at h5 h6
    refine ⟨by omega, by omega, fun i hi j hj => ?_⟩
    rw [exch_eq h3 h4, exch_eq h3 h4]
    exact a3 _ (exch_lt (by omega) (by omega) h3 h4 hi) _ (exch_lt (by omega) (by omega) h3 h4 hj)
  | write p q x =>
    simp only [RMat.call, RMat.write, Res.bind_eq_ok, Res.assert_eq_ok, Res.pure_eq] at e
    obtain ⟨_, ha, _, h1, _, h2, _, ⟨h3, -, h4, -⟩, e⟩ := e
    cases e
    obtain ⟨a1, a2, a3⟩ := hA ha
    refine C19_finish ha hf ?_
    simp only [LStep, logical]
    refine ⟨by omega, by omega, fun i hi j hj => ?_⟩
    have : (i = p.toNat ∧ j = q.toNat) ↔ ((i : ℤ) = p ∧ (j : ℤ) = q) := by omega
    simp only [this, a3 i hi j hj]
  | identity =>
    simp only [RMat.call, RMat.setToIdentity, Res.bind_eq_ok, Res.assert_eq_ok, Res.pure_eq] at e
    obtain ⟨_, ha, _, h1, e⟩ := e
    obtain ⟨a1, a2, a3⟩ := hA ha
    split_ifs at e with h2
    · simp only [checkBlock, Res.bind_eq_ok, Res.assert_eq_ok, Res.pure_eq] at e
      obtain ⟨_, _, e⟩ := e
      cases e
      refine C19_finish ha hf ?_
      simp only [LStep, logical]
      refine ⟨by omega, by omega, by omega, fun i hi j hj => ?_⟩
      rw [if_pos ⟨by omega, by omega⟩]
    · cases e
      refine C19_finish ha hf ?_
      simp only [LStep, logical]
      refine ⟨by omega, by omega, by omega, fun i hi j hj => ?_⟩
      omega
  | clear =>
    simp only [RMat.call, RMat.clear] at e
    split_ifs at e with ha
    · simp only [checkBlock, Res.bind_eq_ok, Res.assert_eq_ok, Res.pure_eq] at e
      obtain ⟨_, _, e⟩ := e
      cases e
      obtain ⟨a1, a2, a3⟩ := hA ha
      refine C19_finish ha hf ?_
      simp only [LStep, logical]
      refine ⟨by omega, by omega, fun i hi j hj => ?_⟩
      rw [if_pos ⟨by omega, by omega⟩]
    · cases e
      obtain ⟨z1, z2⟩ := shows_unalloc ha hs
      refine ⟨hf, A, hs, rfl, rfl, fun i hi => by omega⟩
  | invert =>
    simp only [RMat.call, RMat.invert, Res.bind_eq_ok, Res.assert_eq_ok, Res.pure_eq] at e
    obtain ⟨_, ha, _, h1, e⟩ := e
    obtain ⟨a1, a2, a3⟩ := hA ha
    have hsq : A.rows = A.cols := by omega
    split_ifs at e with h2
    · simp only [checkBlock, Res.bind_eq_ok, Res.assert_eq_ok, Res.pure_eq] at e
      obtain ⟨_, _, e⟩ := e
      cases e
      obtain ⟨ha1, ha2⟩ := id ha
      refine C19_finish ha ⟨by simp [logical], by simp [logical]⟩ ?_
      simp only [LStep, logical]
      refine ⟨by omega, by omega, hsq, fun hd => ?_⟩
      have hr : r.size1.toNat = A.rows := by omega
      have hm : toM A.rows A.rows r.buf = toM A.rows A.rows A.val :=
        toM_congr fun i hi j hj => a3 i hi j (by omega)
      simp only [DMat.inv, invM_cast hr, toM_ofM, hm]
      exact Matrix.nonsing_inv_mul _ (isUnit_iff_ne_zero.2 hd)
    · cases e
      obtain ⟨ha1, ha2⟩ := id ha
      refine C19_finish ha hf ?_
      simp only [LStep, logical]
      refine ⟨by omega, by omega, hsq, fun hd => ?_⟩
      have : A.rows = 0 := by
        by_contra h0
        apply h2
        have : (0 : ℤ) < A.rows := by omega
        rw [a1, a2, ← hsq]
        positivity
      ext ⟨i, hi⟩; omega
  | assign C =>
    cases e
    refine C19_finish ⟨by simp [RMat.assign], by simp [RMat.assign]⟩ ⟨by simp [RMat.assign], by simp [RMat.assign]⟩ ?_
    simp [LStep, logical, RMat.assign]

/-- **C19.** After any sequence of resizes, element writes, row and column swaps and removals the logical size does not
    exceed the allocated buffer, and the caller sees the table obtained by doing the calls on a plain table one after
    another (`LRun`; in particular a conservative resize keeps every element inside the old and the new size). -/
theorem C19_calls {junk : ℕ → ℕ → ℕ → K} (l : List (RCall K)) {r r' : RMat K} {A : DMat K} (hf : Fits r)
    (hs : Shows r A) (e : r.calls junk l = .ok r') : Fits r' ∧ ∃ B, Shows r' B ∧ LRun A l B := by
  unfold RMat.calls at e
  generalize 0 = k at e
  induction l generalizing r A k with
  | nil => cases e; exact ⟨hf, A, hs, .nil A⟩
  | cons c l ih =>
    rw [List.zipIdx_cons, Res.foldl_cons, Res.bind_eq_ok] at e
    obtain ⟨r1, e1, e2⟩ := e
    obtain ⟨f1, B, s1, l1⟩ := C19_call hf hs e1
    obtain ⟨f2, C, s2, l2⟩ := ih f1 s1 _ e2
    exact ⟨f2, C, s2, .cons l1 l2⟩

/-- The constructors start the sequence. -/
theorem C19_start (junk : ℕ → ℕ → K) (n m : ℕ) (x : K) :
    (Fits (RMat.empty junk) ∧ Shows (RMat.empty junk) ⟨0, 0, junk⟩) ∧
    (∃ r, RMat.create junk n m = .ok r ∧ Fits r ∧ Shows r ⟨n, m, junk⟩) ∧
    (∃ r, RMat.createFill n m x = .ok r ∧ Fits r ∧ Shows r ⟨n, m, fun _ _ => x⟩) ∧
    (∀ (r : RMat K) (A : DMat K), Fits r → Shows r A → Fits (r.copy junk) ∧ Shows (r.copy junk) A) := by
  refine ⟨⟨⟨by simp [RMat.empty], by simp [RMat.empty]⟩, ?_⟩, ?_, ?_, ?_⟩
  · refine ⟨?_, ?_, fun i hi => ?_⟩
    · simp [rowsSeen, RMat.empty, Allocated]
    · simp [colsSeen, RMat.empty, Allocated]
    · simp at hi
  · refine ⟨⟨n, m, n, m, junk⟩, by simp [create, Res.assert_true, Res.bind_ok, Res.pure_eq], ⟨le_rfl, le_rfl⟩, ?_⟩
    rw [shows_iff ⟨by simp, by simp⟩ ⟨le_rfl, le_rfl⟩]
    simp
  · refine ⟨⟨n, m, n, m, fun _ _ => x⟩, by simp [createFill, Res.assert_true, Res.bind_ok, Res.pure_eq], ⟨le_rfl, le_rfl⟩, ?_⟩
    rw [shows_iff ⟨by simp, by simp⟩ ⟨le_rfl, le_rfl⟩]
    simp
  · intro r A hf hs
    unfold RMat.copy
    split_ifs with ha
    · exact ⟨hf, hs⟩
    · obtain ⟨z1, z2⟩ := shows_unalloc ha hs
      refine ⟨⟨by simp, by simp⟩, ?_, ?_, fun i hi => ?_⟩
      · simp [rowsSeen, Allocated, z1]
      · simp [colsSeen, Allocated, z2]
      · omega

/-- Every call allowed by the table's size succeeds on an allocated matrix. -/
theorem C19_defined {junk : ℕ → ℕ → K} {r : RMat K} {A : DMat K} {c : RCall K} (ha : r.Allocated) (hf : Fits r)
    (hs : Shows r A) (hp : LPre A c) : ∃ r', r.call junk c = .ok r' := by
  obtain ⟨a1, a2, -⟩ := (shows_iff ha hf).1 hs
  obtain ⟨hf1, hf2⟩ := id hf
  have hcb : r.checkBlock = .ok () := by
    simp [checkBlock, Res.assert_true, ha, hf1, hf2, Res.bind_ok]
  cases c with
  | conservative n m =>
    simp only [RMat.call, conservativeResize, ha, not_true, if_false]
    split_ifs
    · exact ⟨_, by simp [Res.assert_true, Res.bind_ok, Res.pure_eq]; rfl⟩
    · exact ⟨_, rfl⟩
  | destructive n m =>
    simp only [RMat.call, destructiveResize, ha, not_true, if_false]
    split_ifs
    · exact ⟨_, by simp [Res.assert_true, Res.bind_ok, Res.pure_eq]; rfl⟩
    · exact ⟨_, rfl⟩
  | removeRowCol =>
    obtain ⟨h1, h2⟩ := hp
    have h1 : 0 < r.size1 := by omega
    have h2 : 0 < r.size2 := by omega
    exact ⟨_, by simp [RMat.call, removeRowColLast, Res.assert_true, ha, h1, h2, Res.bind_ok, Res.pure_eq]; rfl⟩
  | removeRow =>
    have h1 : 0 < r.size1 := by simp only [LPre] at hp; omega
    exact ⟨_, by simp [RMat.call, removeRowLast, Res.assert_true, ha, h1, Res.bind_ok, Res.pure_eq]; rfl⟩
  | removeCol =>
    have h1 : 0 < r.size2 := by simp only [LPre] at hp; omega
    exact ⟨_, by simp [RMat.call, removeColLast, Res.assert_true, ha, h1, Res.bind_ok, Res.pure_eq]; rfl⟩
  | swapRow a b =>
    obtain ⟨p1, p2, p3, p4⟩ := hp
    have q1 : a < r.size1 := by omega
    have q2 : b < r.size1 := by omega
    have q3 : a < r.memR := by omega
    have q4 : b < r.memR := by omega
    exact ⟨_, by simp [RMat.call, RMat.swapRow, Res.assert_true, ha, q1, q2, q3, q4, p1, p3, Res.bind_ok, Res.pure_eq]; rfl⟩
  | swapCol a b =>
    obtain ⟨p1, p2, p3, p4⟩ := hp
    have q1 : a < r.size2 := by omega
    have q2 : b < r.size2 := by omega
    have q3 : a < r.memC := by omega
    have q4 : b < r.memC := by omega
    exact ⟨_, by simp [RMat.call, RMat.swapCol, Res.assert_true, ha, q1, q2, q3, q4, p1, p3, Res.bind_ok, Res.pure_eq]; rfl⟩
  | swapRowCol a b =>
    obtain ⟨p1, p2, p2', p3, p4, p4'⟩ := hp
    have q1 : a < r.size1 := by omega
    have q2 : b < r.size1 := by omega
    have q3 : a < r.memR := by omega
    have q4 : b < r.memR := by omega
    have q5 : a < r.size2 := by omega
    have q6 : b < r.size2 := by omega
    have q7 : a < r.memC := by omega
    have q8 : b < r.memC := by omega
    obtain ⟨b1, b2⟩ := id ha
    exact ⟨_, by simp [RMat.call, RMat.swapRowCol, RMat.swapCol, RMat.swapRow, Allocated, Res.assert_true, b1, b2, q1, q2, q3, q4,
      q5, q6, q7, q8, p1, p3, Res.bind_ok, Res.pure_eq]; rfl⟩
  | write i j x =>
    obtain ⟨p1, p2, p3, p4⟩ := hp
    have q1 : i ≤ r.size1 := by omega
    have q2 : j ≤ r.size2 := by omega
    have q3 : r.inBuffer i j := ⟨p1, by omega, p3, by omega⟩
    exact ⟨_, by simp [RMat.call, RMat.write, Res.assert_true, ha, q1, q2, q3, Res.bind_ok, Res.pure_eq]; rfl⟩
  | identity =>
    have q : r.size1 = r.size2 := by simp only [LPre] at hp; omega
    simp only [RMat.call, RMat.setToIdentity, ha, q, Res.assert_true, Res.bind_ok, hcb]
    split_ifs <;> exact ⟨_, rfl⟩
  | clear =>
    simp only [RMat.call, RMat.clear, ha, if_true, hcb, Res.bind_ok]
    exact ⟨_, rfl⟩
  | invert =>
    have q : r.size1 = r.size2 := by simp only [LPre] at hp; omega
    simp only [RMat.call, RMat.invert, ha, q, Res.assert_true, Res.bind_ok, hcb]
    split_ifs <;> exact ⟨_, rfl⟩
  | assign C => exact ⟨_, rfl⟩

/-- The effect on the table is the one used by the rest of the model. -/
theorem C19_table (junk : ℕ → ℕ → K) (A : DMat K) (n m : ℕ) :
    LStep A (.conservative n m) (A.conservativeResize junk n m) ∧
    LStep A (.destructive n m) (DMat.destructiveResize junk n m) ∧
    (∀ a b : ℕ, LStep A (.swapRow a b) (A.swapRow a b)) ∧ (∀ a b : ℕ, LStep A (.swapCol a b) (A.swapCol a b)) ∧
    (∀ (i j : ℕ) (x : K), LStep A (.write i j x) (A.set i j x)) := by
  refine ⟨⟨rfl, rfl, fun i j hi _ hj _ => ?_⟩, ⟨rfl, rfl⟩, fun a b => ⟨rfl, rfl, fun i _ j _ => ?_⟩,
    fun a b => ⟨rfl, rfl, fun i _ j _ => ?_⟩, fun p q x => ⟨rfl, rfl, fun i _ j _ => ?_⟩⟩
  · simp [DMat.conservativeResize, hi, hj]
  · rw [← exch_eq (by simp) (by simp)]; rfl
  · rw [← exch_eq (by simp) (by simp)]; rfl
  · simp [DMat.set]

/-- `determinant()` is the determinant of the table seen. -/
theorem C19_determinant {r : RMat K} {A : DMat K} (ha : r.Allocated) (hf : Fits r) (hs : Shows r A)
    (hsq : A.rows = A.cols) : r.determinant = .ok (toM A.rows A.rows A.val).det := by
  obtain ⟨a1, a2, a3⟩ := (shows_iff ha hf).1 hs
  have rd : ∀ i < A.rows, ∀ j < A.cols, r.read i j = .ok (A.val i j) := hs.2.2
  obtain ⟨hf1, hf2⟩ := id hf
  have hcb : r.checkBlock = .ok () := by simp [checkBlock, Res.assert_true, ha, hf1, hf2, Res.bind_ok]
  have q : r.size1 = r.size2 := by omega
  unfold determinant
  rw [Res.assert_true ha, Res.bind_ok, Res.assert_true q, Res.bind_ok]
  split_ifs with h0 h1 h2
  · have : A.rows = 0 := by omega
    rw [detM_cast this, Matrix.det_fin_zero]; rfl
  · have h : A.rows = 1 := by omega
    have := rd 0 (by omega) 0 (by omega)
    simp only [Nat.cast_zero] at this
    rw [this, detM_cast h]
    simp
  · have h : A.rows = 2 := by omega
    have e00 := rd 0 (by omega) 0 (by omega)
    have e01 := rd 0 (by omega) 1 (by omega)
    have e10 := rd 1 (by omega) 0 (by omega)
    have e11 := rd 1 (by omega) 1 (by omega)
    simp only [Nat.cast_zero, Nat.cast_one] at e00 e01 e10 e11
    rw [e00, e01, e10, e11, detM_cast h]
    simp [Res.bind_ok, Res.pure_eq, Matrix.det_fin_two]
  · rw [hcb, Res.bind_ok]
    have hr : r.size1.toNat = A.rows := by omega
    have hm : toM A.rows A.rows r.buf = toM A.rows A.rows A.val :=
      toM_congr fun i hi j hj => a3 i hi j (by omega)
    exact congrArg Res.ok ((detM_cast hr r.buf).trans (congrArg Matrix.det hm))

/-- Matrix product into a third matrix: sizes and elements of `c` are those of the product, whatever `c` was. -/
theorem C19_gemm {junk : ℕ → ℕ → K} {a b c : RMat K} {A B : DMat K} (ha : a.Allocated) (hb : b.Allocated)
    (fa : Fits a) (fb : Fits b) (sa : Shows a A) (sb : Shows b B) (h : A.cols = B.rows) :
    ∃ c', gemm junk a b c = .ok c' ∧ Fits c' ∧
      Shows c' ⟨A.rows, B.cols, fun i j => ∑ k ∈ Finset.range A.cols, A.val i k * B.val k j⟩ := by
  obtain ⟨a1, a2, a3⟩ := (shows_iff ha fa).1 sa
  obtain ⟨b1, b2, b3⟩ := (shows_iff hb fb).1 sb
  obtain ⟨c1, e1, hc1, s1, s2⟩ : ∃ c1, destructiveResize junk c (A.rows : ℤ) (B.cols : ℤ) = .ok c1 ∧ Fits c1 ∧
      c1.size1 = A.rows ∧ c1.size2 = B.cols := by
    unfold destructiveResize
    have g1 := le_grown A.rows
    have g2 := le_grown B.cols
    split_ifs with h1 h2
    · exact ⟨_, by simp [Res.assert_true, Res.bind_ok, Res.pure_eq]; rfl, ⟨by simpa using g1, by simpa using g2⟩, rfl, rfl⟩
    · push Not at h2
      exact ⟨_, rfl, ⟨h2.1, h2.2⟩, rfl, rfl⟩
    · exact ⟨_, by simp [Res.assert_true, Res.bind_ok, Res.pure_eq]; rfl, ⟨by simp, by simp⟩, rfl, rfl⟩
  have al1 : c1.Allocated := ⟨by omega, by omega⟩
  have cb : ∀ x : RMat K, x.Allocated → Fits x → x.checkBlock = .ok () := by
    intro x hx ⟨hf1, hf2⟩
    simp [checkBlock, Res.assert_true, hx, hf1, hf2, Res.bind_ok]
  unfold gemm
  simp only [if_pos ha, if_pos hb, a1, b2]
  rw [e1, Res.bind_ok, cb c1 al1 hc1, Res.bind_ok, cb a ha fa, Res.bind_ok, cb b hb fb, Res.bind_ok,
    Res.assert_true (by omega), Res.bind_ok]
  refine ⟨_, rfl, hc1, ?_⟩
  refine (shows_iff (r := ⟨c1.size1, c1.size2, c1.memR, c1.memC, fun i j =>
    if (i : ℤ) < c1.size1 ∧ (j : ℤ) < c1.size2 then (a.logical.mul b.logical).val i j else c1.buf i j⟩) al1 hc1).2 ?_
  refine ⟨s1, s2, fun i hi j hj => ?_⟩
  dsimp only at hi hj ⊢
  rw [if_pos ⟨by omega, by omega⟩]
  simp only [DMat.mul, logical]
  have : a.size2.toNat = A.cols := by omega
  rw [this]
  refine Finset.sum_congr rfl fun k hk => ?_
  rw [a3 i hi k (by simpa using hk), b3 k (by have := Finset.mem_range.1 hk; omega) j hj]

/-- `copy_block` writes exactly the rectangle. -/
theorem C19_copyBlock {s d : RMat K} {S D : DMat K} (as : s.Allocated) (ad : d.Allocated) (fs : Fits s) (fd : Fits d)
    (ss : Shows s S) (sd : Shows d D) {r0 c0 r1 c1 h w : ℕ} (h1 : r0 + h ≤ S.rows) (h2 : c0 + w ≤ S.cols)
    (h3 : r1 + h ≤ D.rows) (h4 : c1 + w ≤ D.cols) :
    ∃ d', copyBlock s r0 c0 d r1 c1 h w = .ok d' ∧ Fits d' ∧ ∃ E : DMat K, Shows d' E ∧ E.rows = D.rows ∧ E.cols = D.cols ∧
      (∀ i < h, ∀ j < w, E.val (r1 + i) (c1 + j) = S.val (r0 + i) (c0 + j)) ∧
      (∀ i < D.rows, ∀ j < D.cols, ¬ (r1 ≤ i ∧ i < r1 + h ∧ c1 ≤ j ∧ j < c1 + w) → E.val i j = D.val i j) := by
  obtain ⟨a1, a2, a3⟩ := (shows_iff as fs).1 ss
  obtain ⟨b1, b2, b3⟩ := (shows_iff ad fd).1 sd
  obtain ⟨f1, f2⟩ := id fs
  obtain ⟨f3, f4⟩ := id fd
  unfold copyBlock
  rw [Res.assert_true ad, Res.bind_ok, Res.assert_true ⟨by omega, by omega⟩, Res.bind_ok, Res.assert_true as, Res.bind_ok,
    Res.assert_true ⟨by omega, by omega⟩, Res.bind_ok, Res.assert_true (by omega), Res.bind_ok,
    Res.assert_true (by omega), Res.bind_ok]
  refine ⟨_, rfl, fd, _, shows_logical ad fd, ?_, ?_, ?_, ?_⟩
  · simp only [logical]; omega
  · simp only [logical]; omega
  · intro i hi j hj
    simp only [logical, copied]
    rw [if_pos (by push_cast; omega)]
    have e1 : (((r1 + i : ℕ) : ℤ) + (r0 : ℤ) - (r1 : ℤ)).toNat = r0 + i := by omega
    have e2 : (((c1 + j : ℕ) : ℤ) + (c0 : ℤ) - (c1 : ℤ)).toNat = c0 + j := by omega
    rw [e1, e2]
    exact a3 _ (by omega) _ (by omega)
  · intro i hi j hj hn
    simp only [logical, copied]
    rw [if_neg (by omega)]
    exact b3 i hi j hj

/-- The element access of the class allows the row after the last (`i <= size1_`): for a matrix whose buffer is full
    this is outside the buffer although every assert of the class holds. -/
theorem C19_bound_violation (junk : ℕ → ℕ → K) (n m : ℕ) :
    ∃ r, RMat.create junk n m = .ok r ∧ r.Allocated ∧ (n : ℤ) ≤ r.size1 ∧ (0 : ℤ) ≤ r.size2 ∧ r.read n 0 = .ub := by
  refine ⟨⟨n, m, n, m, junk⟩, by simp [create, Res.assert_true, Res.bind_ok, Res.pure_eq], ⟨by simp, by simp⟩, le_rfl,
    by simp, ?_⟩
  have : ¬ RMat.inBuffer (⟨n, m, n, m, junk⟩ : RMat K) n 0 := by simp [inBuffer]
  have hA : RMat.Allocated (⟨n, m, n, m, junk⟩ : RMat K) := ⟨by simp, by simp⟩
  unfold RMat.read
  rw [Res.assert_true hA, Res.bind_ok, Res.assert_true (by simp), Res.bind_ok, Res.assert_true (by simp), Res.bind_ok, Res.assert_false this]
  rfl

/-- A 2 × 2 matrix, written, grown beyond its buffer, two rows exchanged, shrunk: every call succeeds and the written
    element is found in its new place. -/
example (junk : ℕ → ℕ → ℕ → ℚ) : ∃ r r', RMat.create (junk 0) 2 2 = .ok r ∧
    r.calls junk [.write 0 1 7, .conservative 4 3, .swapRow 0 2, .removeRow] = .ok r' ∧
    r'.size1 = 3 ∧ r'.size2 = 3 ∧ r'.memR = 5 ∧ r'.read 2 1 = .ok 7 :=
  ⟨⟨2, 2, 2, 2, junk 0⟩, _, rfl, rfl, rfl, rfl, rfl, rfl⟩

/-- Outside its preconditions a call has no defined effect: removing a row of an empty matrix. -/
example (junk : ℕ → ℕ → ℕ → ℚ) : (RMat.empty (junk 0)).calls junk [.conservative 0 3, .removeRow] = .ub := rfl

end CTInt
