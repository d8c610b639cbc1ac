import Verif.Model.Spline
import Mathlib.Tactic.Ring
import Mathlib.Tactic.Linarith
import Mathlib.Tactic.FieldSimp
import Mathlib.Tactic.Positivity

/-!
# Tridiagonal systems: `lu_solve` solves them
-/

set_option linter.all false

namespace CTInt

/-- A counting loop with an invariant. -/
theorem Res.foldl_range_inv {β : Type} {f : β → ℕ → Res β} (P : ℕ → β → Prop) (n : ℕ) (s : β) (h0 : P 0 s)
    (step : ∀ i < n, ∀ s, P i s → ∃ s', f s i = .ok s' ∧ P (i + 1) s') :
    ∃ s', Res.foldl f s (List.range n) = .ok s' ∧ P n s' := by
  induction n with
  | zero => exact ⟨s, rfl, h0⟩
  | succ n ih =>
    obtain ⟨s1, e1, h1⟩ := ih fun i hi => step i (by omega)
    obtain ⟨s2, e2, h2⟩ := step n (by omega) s1 h1
    refine ⟨s2, ?_, h2⟩
    rw [List.range_succ, Res.foldl_append, e1]
    simp [e2]

/-- A counting loop from `m` with an invariant. -/
theorem Res.foldl_range'_inv {β : Type} {f : β → ℕ → Res β} (P : ℕ → β → Prop) (m n : ℕ) (s : β) (h0 : P m s)
    (step : ∀ i, m ≤ i → i < m + n → ∀ s, P i s → ∃ s', f s i = .ok s' ∧ P (i + 1) s') :
    ∃ s', Res.foldl f s (List.range' m n) = .ok s' ∧ P (m + n) s' := by
  induction n with
  | zero => exact ⟨s, rfl, h0⟩
  | succ n ih =>
    obtain ⟨s1, e1, h1⟩ := ih fun i hi hi' => step i hi (by omega)
    obtain ⟨s2, e2, h2⟩ := step (m + n) (by omega) (by omega) s1 h1
    refine ⟨s2, ?_, h2⟩
    rw [List.range'_concat, Res.foldl_append, e1]
    simp [e2]

/-- A loop downwards with an invariant. -/
theorem Res.foldl_down_inv {β : Type} {f : β → ℕ → Res β} (P : ℕ → β → Prop) (n : ℕ) (s : β) (h0 : P n s)
    (step : ∀ i < n, ∀ s, P (i + 1) s → ∃ s', f s i = .ok s' ∧ P i s') :
    ∃ s', Res.foldl f s (List.range n).reverse = .ok s' ∧ P 0 s' := by
  induction n generalizing s with
  | zero => exact ⟨s, rfl, h0⟩
  | succ n ih =>
    obtain ⟨s1, e1, h1⟩ := step n (by omega) s h0
    obtain ⟨s2, e2, h2⟩ := ih s1 h1 fun i hi => step i (by omega)
    refine ⟨s2, ?_, h2⟩
    rw [List.range_succ, List.reverse_append]
    simp [e1, e2]

namespace Band

/-- Pivots of the tridiagonal elimination after normalising the rows: `c` below, `u` above the diagonal. -/
noncomputable def piv (c u : ℕ → ℝ) : ℕ → ℝ
  | 0 => 1
  | i + 1 => 1 - c (i + 1) / piv c u i * u i

theorem entry_diag {A : Band} {i : ℕ} (h : i < A.dim) : A.entry i i = .ok (A.up 0 i) := by
  simp [entry, h]

theorem entry_up {A : Band} {i : ℕ} (h : i + 1 < A.dim) (hu : 1 ≤ A.nu) : A.entry i (i + 1) = .ok (A.up 1 i) := by
  have h1 : i < A.dim := by omega
  have h2 : i ≤ i + 1 + A.nl := by omega
  simp [entry, h, h1, h2, hu]

theorem entry_lo {A : Band} {i : ℕ} (h : i + 1 < A.dim) (hl : 1 ≤ A.nl) : A.entry (i + 1) i = .ok (A.lo 1 (i + 1)) := by
  have h1 : i < A.dim := by omega
  have h2 : i ≤ i + 1 + A.nu := by omega
  simp [entry, h, h1, h2, hl]

theorem write_diag {A : Band} {i : ℕ} {v : ℝ} (h : i < A.dim) :
    A.write i i v = .ok { A with up := fun k a => if k = 0 ∧ a = i then v else A.up k a } := by
  simp [write, h]

theorem write_up {A : Band} {i : ℕ} {v : ℝ} (h : i + 1 < A.dim) (hu : 1 ≤ A.nu) :
    A.write i (i + 1) v = .ok { A with up := fun k a => if k = 1 ∧ a = i then v else A.up k a } := by
  have h1 : i < A.dim := by omega
  have h2 : i ≤ i + 1 + A.nl := by omega
  simp [write, h, h1, h2, hu]

theorem write_lo {A : Band} {i : ℕ} {v : ℝ} (h : i + 1 < A.dim) (hl : 1 ≤ A.nl) :
    A.write (i + 1) i v = .ok { A with lo := fun k a => if k = 1 ∧ a = i + 1 then v else A.lo k a } := by
  have h1 : i < A.dim := by omega
  have h2 : i ≤ i + 1 + A.nu := by omega
  simp [write, h, h1, h2, hl]

/-- Rows below `m` are normalised, the others untouched. -/
structure Scaled (A0 : Band) (m : ℕ) (A : Band) : Prop where
  dim : A.dim = A0.dim
  nu : A.nu = 1
  nl : A.nl = 1
  d : ∀ i, i < m → A.up 0 i = 1
  s : ∀ i, i < m → A.lo 0 i = 1 / A0.up 0 i
  u : ∀ i, i < m → i + 1 < A0.dim → A.up 1 i = A0.up 1 i / A0.up 0 i
  l : ∀ i, i < m → 0 < i → A.lo 1 i = A0.lo 1 i / A0.up 0 i
  d' : ∀ i, m ≤ i → A.up 0 i = A0.up 0 i
  u' : ∀ i, m ≤ i → A.up 1 i = A0.up 1 i
  l' : ∀ i, m ≤ i → A.lo 1 i = A0.lo 1 i

theorem scaleRow_scaled {A0 A : Band} {i : ℕ} (hA : Scaled A0 i A) (hi : i < A0.dim) (hn : 2 ≤ A0.dim)
    (h0 : A0.up 0 i ≠ 0) : ∃ A', A.scaleRow i = .ok A' ∧ Scaled A0 (i + 1) A' := by
  have hd : i < A.dim := by rw [hA.dim]; exact hi
  have e0 : A.up 0 i = A0.up 0 i := hA.d' i le_rfl
  rcases A with ⟨dim, nu, nl, up, lo⟩
  obtain rfl : dim = A0.dim := hA.dim
  obtain rfl : nu = 1 := hA.nu
  obtain rfl : nl = 1 := hA.nl
  have hu := hA.u' i le_rfl
  have hl := hA.l' i le_rfl
  simp only at e0 hu hl hd
  unfold scaleRow
  rw [entry_diag (by exact hd)]
  simp only [Res.bind_ok, e0, Res.assert_true h0, writeSaved, Res.assert_true hd, Res.pure_eq]
  rcases Nat.eq_zero_or_pos i with rfl | hpos
  · -- first row
    have hm : min (A0.dim - 1) (0 + 1) = 1 := by omega
    simp only [Nat.zero_sub, hm, Nat.sub_zero]
    simp only [List.range', Nat.reduceAdd, Res.foldl_cons, Res.foldl_nil, Nat.zero_add]
    rw [entry_diag (by exact hd)]
    simp only [Res.bind_ok, saved, Res.assert_true hd, Res.pure_eq]
    rw [write_diag (by exact hd)]
    simp only [Res.bind_ok]
    rw [entry_up (by simp only; omega) (by simp)]
    simp only [Res.bind_ok, Res.assert_true hd, Res.pure_eq]
    rw [write_up (by simp only; omega) (by simp)]
    simp only [Res.bind_ok]
    rw [write_diag (by exact hd)]
    refine ⟨_, rfl, rfl, rfl, rfl, ?_, ?_, ?_, ?_, ?_, ?_, ?_⟩ <;> intro j hj
    · obtain rfl : j = 0 := by omega
      simp
    · obtain rfl : j = 0 := by omega
      simp
    · obtain rfl : j = 0 := by omega
      intro _
      simp [hu]; ring
    · omega
    · have : j ≠ 0 := by omega
      simp [this]; exact hA.d' j (by omega)
    · have : j ≠ 0 := by omega
      simp [this]; exact hA.u' j (by omega)
    · have : j ≠ 0 := by omega
      simp [this]; exact hA.l' j (by omega)
  · obtain ⟨k, rfl⟩ : ∃ k, i = k + 1 := ⟨i - 1, by omega⟩
    by_cases hlast : k + 1 + 1 < A0.dim
    · have hm : min (A0.dim - 1) (k + 1 + 1) = k + 2 := by omega
      have hr : k + 2 + 1 - k = 3 := by omega
      simp only [hm, hr, Nat.add_sub_cancel]
      simp only [List.range', Res.foldl_cons, Res.foldl_nil]
      rw [entry_lo (by exact hd) (by simp)]
      simp only [Res.bind_ok, saved, Res.assert_true hd, Res.pure_eq]
      rw [write_lo (by exact hd) (by simp)]
      simp only [Res.bind_ok]
      rw [entry_diag (by exact hd)]
      simp only [Res.bind_ok, saved, Res.assert_true hd, Res.pure_eq]
      rw [write_diag (by exact hd)]
      simp only [Res.bind_ok]
      rw [entry_up (by exact hlast) (by simp)]
      simp only [Res.bind_ok, Res.assert_true hd, Res.pure_eq]
      rw [write_up (by exact hlast) (by simp)]
      simp only [Res.bind_ok]
      rw [write_diag (by exact hd)]
      refine ⟨_, rfl, rfl, rfl, rfl, ?_, ?_, ?_, ?_, ?_, ?_, ?_⟩ <;> intro j hj
      · by_cases e : j = k + 1
        · simp [e]
        · simp [e]; exact hA.d j (by omega)
      · by_cases e : j = k + 1
        · simp [e]
        · simp [e]; simpa using hA.s j (by omega)
      · intro h2
        by_cases e : j = k + 1
        · subst e; simp [hu]; ring
        · simp [e]; exact hA.u j (by omega) h2
      · intro h2
        by_cases e : j = k + 1
        · subst e; simp [hl]; ring
        · simp [e]; exact hA.l j (by omega) h2
      · have : j ≠ k + 1 := by omega
        simp [this]; exact hA.d' j (by omega)
      · have : j ≠ k + 1 := by omega
        simp [this]; exact hA.u' j (by omega)
      · have : j ≠ k + 1 := by omega
        simp [this]; exact hA.l' j (by omega)
    · have hm : min (A0.dim - 1) (k + 1 + 1) = k + 1 := by omega
      have hr : k + 1 + 1 - k = 2 := by omega
      simp only [hm, hr, Nat.add_sub_cancel]
      simp only [List.range', Res.foldl_cons, Res.foldl_nil]
      rw [entry_lo (by exact hd) (by simp)]
      simp only [Res.bind_ok, saved, Res.assert_true hd, Res.pure_eq]
      rw [write_lo (by exact hd) (by simp)]
      simp only [Res.bind_ok]
      rw [entry_diag (by exact hd)]
      simp only [Res.bind_ok, saved, Res.assert_true hd, Res.pure_eq]
      rw [write_diag (by exact hd)]
      simp only [Res.bind_ok]
      rw [write_diag (by exact hd)]
      refine ⟨_, rfl, rfl, rfl, rfl, ?_, ?_, ?_, ?_, ?_, ?_, ?_⟩ <;> intro j hj
      · by_cases e : j = k + 1
        · simp [e]
        · simp [e]; exact hA.d j (by omega)
      · by_cases e : j = k + 1
        · simp [e]
        · simp [e]; simpa using hA.s j (by omega)
      · intro h2
        have e : j ≠ k + 1 := by omega
        simp [e]; exact hA.u j (by omega) h2
      · intro h2
        by_cases e : j = k + 1
        · subst e; simp [hl]; ring
        · simp [e]; exact hA.l j (by omega) h2
      · have : j ≠ k + 1 := by omega
        simp [this]; exact hA.d' j (by omega)
      · have : j ≠ k + 1 := by omega
        simp [this]; exact hA.u' j (by omega)
      · have : j ≠ k + 1 := by omega
        simp [this]; exact hA.l' j (by omega)

/-- Columns below `m` are eliminated: `A1` is the normalised matrix, `c`, `u` its off-diagonals. -/
structure Elim (A1 : Band) (c u : ℕ → ℝ) (m : ℕ) (A : Band) : Prop where
  dim : A.dim = A1.dim
  nu : A.nu = 1
  nl : A.nl = 1
  s : ∀ i, A.lo 0 i = A1.lo 0 i
  uu : ∀ i, i + 1 < A1.dim → A.up 1 i = u i
  d : ∀ i, i ≤ m → i < A1.dim → A.up 0 i = piv c u i
  d' : ∀ i, m < i → i < A1.dim → A.up 0 i = 1
  l : ∀ i, i < m → i + 1 < A1.dim → A.lo 1 (i + 1) = c (i + 1) / piv c u i
  l' : ∀ i, m ≤ i → i + 1 < A1.dim → A.lo 1 (i + 1) = c (i + 1)

theorem column_elim {A1 A : Band} {c u : ℕ → ℝ} {k : ℕ} (hA : Elim A1 c u k A) (hk : k < A1.dim)
    (hp : piv c u k ≠ 0) : ∃ A', A.column k = .ok A' ∧ Elim A1 c u (k + 1) A' := by
  rcases A with ⟨dim, nu, nl, up, lo⟩
  obtain rfl : dim = A1.dim := hA.dim
  obtain rfl : nu = 1 := hA.nu
  obtain rfl : nl = 1 := hA.nl
  unfold column
  by_cases hlast : k + 1 < A1.dim
  · have hm : min (A1.dim - 1) (k + 1) - k = 1 := by omega
    simp only [hm, List.range', Res.foldl_cons, Res.foldl_nil]
    have ed : up 0 k = piv c u k := hA.d k le_rfl hk
    have el : lo 1 (k + 1) = c (k + 1) := hA.l' k le_rfl hlast
    have eu : up 1 k = u k := hA.uu k hlast
    have ed2 : up 0 (k + 1) = 1 := hA.d' (k + 1) (by omega) hlast
    unfold eliminate
    rw [entry_diag (by exact hk)]
    simp only [Res.bind_ok, ed, Res.assert_true hp]
    rw [entry_lo (by exact hlast) (by simp)]
    simp only [Res.bind_ok]
    rw [write_lo (by exact hlast) (by simp)]
    simp only [Res.bind_ok, hm, List.range', Res.foldl_cons, Res.foldl_nil]
    rw [entry_diag (by exact hlast)]
    simp only [Res.bind_ok]
    rw [entry_up (by exact hlast) (by simp)]
    simp only [Res.bind_ok]
    rw [write_diag (by exact hlast)]
    simp only [Res.bind_ok, el, eu, ed2]
    refine ⟨_, rfl, rfl, rfl, rfl, ?_, ?_, ?_, ?_, ?_, ?_⟩
    · intro i; simpa using hA.s i
    · intro i hi; simpa using hA.uu i hi
    · intro i hi hi'
      by_cases e : i = k + 1
      · subst e; simp [piv]; ring
      · simp [e]; exact hA.d i (by omega) hi'
    · intro i hi hi'
      have e : i ≠ k + 1 := by omega
      simp [e]; exact hA.d' i (by omega) hi'
    · intro i hi hi'
      by_cases e : i = k
      · subst e; simp; ring
      · simp [e]; exact hA.l i (by omega) hi'
    · intro i hi hi'
      have e : i ≠ k := by omega
      simp [e]; exact hA.l' i (by omega) hi'
  · have hm : min (A1.dim - 1) (k + 1) - k = 0 := by omega
    simp only [hm, List.range', Res.foldl_nil]
    refine ⟨_, rfl, rfl, rfl, rfl, hA.s, hA.uu, ?_, ?_, ?_, ?_⟩
    · intro i hi hi'; exact hA.d i (by omega) hi'
    · intro i hi hi'; omega
    · intro i hi hi'; exact hA.l i (by omega) hi'
    · intro i hi hi'; omega

/-- A tridiagonal matrix with non-negative off-diagonal elements whose rows are dominated twice by the
    diagonal. -/
structure Dominant (A : Band) : Prop where
  nu : A.nu = 1
  nl : A.nl = 1
  n : 2 ≤ A.dim
  d : ∀ i < A.dim, 0 < A.up 0 i
  u : ∀ i, i + 1 < A.dim → 0 ≤ A.up 1 i
  l : ∀ i, i + 1 < A.dim → 0 ≤ A.lo 1 (i + 1)
  first : 2 * A.up 1 0 ≤ A.up 0 0
  mid : ∀ i, i + 2 < A.dim → 2 * (A.lo 1 (i + 1) + A.up 1 (i + 1)) ≤ A.up 0 (i + 1)
  last : 2 * A.lo 1 (A.dim - 1) ≤ A.up 0 (A.dim - 1)

/-- The normalised off-diagonals. -/
noncomputable def nc (A : Band) (i : ℕ) : ℝ := A.lo 1 i / A.up 0 i
noncomputable def nU (A : Band) (i : ℕ) : ℝ := A.up 1 i / A.up 0 i

theorem piv_bound {A : Band} (h : Dominant A) (i : ℕ) (hi : i < A.dim) :
    0 < piv (nc A) (nU A) i ∧ (i + 1 < A.dim → 2 * nU A i ≤ piv (nc A) (nU A) i) := by
  induction i with
  | zero =>
    refine ⟨by simp [piv], fun _ => ?_⟩
    have := h.d 0 hi
    simp only [piv, nU]
    rw [← mul_div_assoc, div_le_one this]; exact h.first
  | succ i ih =>
    obtain ⟨p, hp⟩ := ih (by omega)
    have hp := hp hi
    have d1 := h.d (i + 1) hi
    have c0 : 0 ≤ nc A (i + 1) := div_nonneg (h.l i hi) d1.le
    have u0 : 0 ≤ nU A i := div_nonneg (h.u i hi) (h.d i (by omega)).le
    have hq : nc A (i + 1) / piv (nc A) (nU A) i * nU A i ≤ nc A (i + 1) / 2 := by
      rw [div_mul_eq_mul_div, div_le_div_iff₀ p (by norm_num)]
      nlinarith
    have hc : nc A (i + 1) ≤ 1 / 2 := by
      unfold nc
      rw [div_le_iff₀ d1]
      by_cases hm : i + 2 < A.dim
      · have := h.mid i hm
        have := h.u (i + 1) hm
        linarith
      · have := h.last
        rw [show A.dim - 1 = i + 1 by omega] at this
        linarith
    refine ⟨?_, fun hm => ?_⟩
    · simp only [piv]; linarith
    · simp only [piv]
      have := h.mid i hm
      have h3 : 2 * (nc A (i + 1) + nU A (i + 1)) ≤ 1 := by
        unfold nc nU
        rw [← add_div, ← mul_div_assoc, div_le_one d1]; exact this
      linarith

theorem luDecompose_ok {A : Band} (h : Dominant A) :
    ∃ A', A.luDecompose = .ok A' ∧ A'.dim = A.dim ∧ A'.nu = 1 ∧ A'.nl = 1 ∧
      (∀ i < A.dim, A'.lo 0 i = 1 / A.up 0 i ∧ A'.up 0 i = piv (nc A) (nU A) i) ∧
      (∀ i, i + 1 < A.dim → A'.up 1 i = nU A i ∧ A'.lo 1 (i + 1) = nc A (i + 1) / piv (nc A) (nU A) i) := by
  obtain ⟨A1, e1, h1⟩ := Res.foldl_range_inv (f := scaleRow) (Scaled A) A.dim A
    ⟨rfl, h.nu, h.nl, by intro i hi; omega, by intro i hi; omega, by intro i hi; omega, by intro i hi; omega,
      fun _ _ => rfl, fun _ _ => rfl, fun _ _ => rfl⟩
    (fun i hi B hB => scaleRow_scaled hB hi h.n (h.d i hi).ne')
  have hd1 : A1.dim = A.dim := h1.dim
  obtain ⟨A2, e2, h2⟩ := Res.foldl_range_inv (f := column) (Elim A1 (nc A) (nU A)) A1.dim A1
    ⟨rfl, h1.nu, h1.nl, fun _ => rfl,
      fun i hi => h1.u i (by omega) (by omega),
      fun i hi hi' => by
        obtain rfl : i = 0 := by omega
        rw [h1.d 0 (by have := h.n; omega)]; rfl,
      fun i hi hi' => h1.d i (by omega),
      fun i hi => by omega,
      fun i hi hi' => h1.l (i + 1) (by omega) (by omega)⟩
    (fun i hi B hB => column_elim hB hi (piv_bound h i (by omega)).1.ne')
  refine ⟨A2, ?_, by rw [h2.dim, hd1], h2.nu, h2.nl, fun i hi => ⟨?_, ?_⟩, fun i hi => ⟨?_, ?_⟩⟩
  · unfold luDecompose
    rw [e1]; simp only [Res.bind_ok]; exact e2
  · rw [h2.s, h1.s i hi]
  · exact h2.d i (by omega) (by omega)
  · exact h2.uu i (by omega)
  · exact h2.l i (by omega) (by omega)

/-- `lu_solve` on such a matrix succeeds and solves every row of the system. -/
theorem luSolve_ok {A : Band} (h : Dominant A) (b : ℕ → ℝ) :
    ∃ x, A.luSolve b = .ok x ∧
      A.up 0 0 * x 0 + A.up 1 0 * x 1 = b 0 ∧
      (∀ i, i + 2 < A.dim →
        A.lo 1 (i + 1) * x i + A.up 0 (i + 1) * x (i + 1) + A.up 1 (i + 1) * x (i + 2) = b (i + 1)) ∧
      A.lo 1 (A.dim - 1) * x (A.dim - 2) + A.up 0 (A.dim - 1) * x (A.dim - 1) = b (A.dim - 1) := by
  obtain ⟨B, eB, hdim, hnu, hnl, hd, ho⟩ := luDecompose_ok h
  have hn := h.n
  -- forward substitution
  obtain ⟨y, ey, hy⟩ := Res.foldl_range_inv
    (f := fun x i => do
      let sum ← Res.foldl (fun s j => do let a ← B.entry i j; pure (s + a * x j)) 0
        (List.range' (i - B.nl) (i - (i - B.nl)))
      let d ← B.saved i
      pure (Function.update x i (b i * d - sum)))
    (fun m x => (0 < m → x 0 = b 0 / A.up 0 0) ∧
      ∀ i, i + 1 < m → x (i + 1) = b (i + 1) / A.up 0 (i + 1) - nc A (i + 1) / piv (nc A) (nU A) i * x i)
    B.dim (fun _ => 0) ⟨fun h => by omega, fun i hi => by omega⟩
    (by
      intro i hi x hx
      rcases Nat.eq_zero_or_pos i with rfl | hp
      · refine ⟨Function.update x 0 (b 0 * (1 / A.up 0 0) - 0), ?_, ?_, ?_⟩
        · simp [hnl, saved, hi, (hd 0 (by omega)).1]
        · intro _; simp; ring
        · intro i hi; omega
      · obtain ⟨k, rfl⟩ : ∃ k, i = k + 1 := ⟨i - 1, by omega⟩
        refine ⟨Function.update x (k + 1)
          (b (k + 1) * (1 / A.up 0 (k + 1)) - (0 + nc A (k + 1) / piv (nc A) (nU A) k * x k)), ?_, ?_, ?_⟩
        · have hr : k + 1 - (k + 1 - B.nl) = 1 := by rw [hnl]; omega
          have hr2 : k + 1 - B.nl = k := by rw [hnl]; omega
          rw [hr, hr2]
          simp only [List.range', Res.foldl_cons, Res.foldl_nil]
          rw [entry_lo (by omega) (by omega), (ho k (by omega)).2]
          simp [saved, hi, (hd (k + 1) (by omega)).1]
        · intro _
          simp [Function.update, hx.1 (by omega)]
        · intro i hi'
          by_cases e : i = k
          · subst e; simp; ring
          · have e2 : i ≠ k + 1 := by omega
            simp [Function.update, e, e2]
            exact hx.2 i (by omega))
  -- back substitution
  obtain ⟨x, ex, hx⟩ := Res.foldl_down_inv
    (f := fun x i => do
      let sum ← Res.foldl (fun s j => do let a ← B.entry i j; pure (s + a * x j)) 0
        (List.range' (i + 1) (min (B.dim - 1) (i + B.nu) - i))
      let d ← B.entry i i
      pure (Function.update x i ((y i - sum) / d)))
    (fun m x => (m < B.dim → x (B.dim - 1) = y (B.dim - 1) / piv (nc A) (nU A) (B.dim - 1)) ∧
      ∀ i, m ≤ i → i + 1 < B.dim → x i = (y i - nU A i * x (i + 1)) / piv (nc A) (nU A) i)
    B.dim (fun _ => 0) ⟨fun h => by omega, fun i hi => by omega⟩
    (by
      intro i hi x hx
      by_cases hl : i + 1 < B.dim
      · refine ⟨Function.update x i ((y i - (0 + nU A i * x (i + 1))) / piv (nc A) (nU A) i), ?_, ?_, ?_⟩
        · have hr : min (B.dim - 1) (i + B.nu) - i = 1 := by rw [hnu]; omega
          rw [hr]
          simp only [List.range', Res.foldl_cons, Res.foldl_nil]
          rw [entry_up hl (by omega), (ho i (by omega)).1, entry_diag hi, (hd i (by omega)).2]
          simp
        · intro _
          rw [Function.update_of_ne (by omega)]; exact hx.1 (by omega)
        · intro j hj hj'
          by_cases e : j = i
          · subst e; simp
          · rw [Function.update_of_ne e, Function.update_of_ne (by omega)]
            exact hx.2 j (by omega) hj'
      · refine ⟨Function.update x i ((y i - 0) / piv (nc A) (nU A) i), ?_, ?_, ?_⟩
        · have hr : min (B.dim - 1) (i + B.nu) - i = 0 := by omega
          rw [hr, entry_diag hi, (hd i (by omega)).2]
          simp
        · intro _
          obtain rfl : i = B.dim - 1 := by omega
          simp
        · intro j hj hj'; omega)
  refine ⟨x, ?_, ?_, ?_, ?_⟩
  · unfold luSolve lSolve rSolve
    rw [eB]; simp only [Res.bind_ok]
    rw [ey]; simp only [Res.bind_ok]; exact ex
  · have d0 := h.d 0 (by omega)
    have x0 := hx.2 0 le_rfl (by omega)
    simp only [piv, div_one, zero_add] at x0
    rw [x0, hy.1 (by omega)]
    unfold nU
    field_simp; ring
  · intro i hi
    have d0 := h.d (i + 1) (by omega)
    have p0 := (piv_bound h i (by omega)).1
    have p1 := (piv_bound h (i + 1) (by omega)).1
    have x0 := hx.2 i (by omega) (by omega)
    have x1 := hx.2 (i + 1) (by omega) (by omega)
    have y1 := hy.2 i (by omega)
    rw [eq_div_iff p0.ne'] at x0
    rw [eq_div_iff p1.ne'] at x1
    have key : nc A (i + 1) * x i + x (i + 1) + nU A (i + 1) * x (i + 2) = b (i + 1) / A.up 0 (i + 1) := by
      have e1 : nc A (i + 1) * x i = nc A (i + 1) / piv (nc A) (nU A) i * (y i - nU A i * x (i + 1)) := by
        rw [← x0]; field_simp
      have e2 : x (i + 1) * piv (nc A) (nU A) (i + 1) =
          x (i + 1) - nc A (i + 1) / piv (nc A) (nU A) i * nU A i * x (i + 1) := by
        simp only [piv]; ring
      rw [e2] at x1
      rw [e1]; linarith
    have := congrArg (· * A.up 0 (i + 1)) key
    unfold nc nU at this
    simp only [div_mul_cancel₀ _ d0.ne'] at this
    rw [← this]; field_simp
  · obtain ⟨k, hk⟩ : ∃ k, A.dim = k + 2 := ⟨A.dim - 2, by omega⟩
    have d0 := h.d (k + 1) (by omega)
    have p0 := (piv_bound h k (by omega)).1
    have p1 := (piv_bound h (k + 1) (by omega)).1
    have x0 := hx.2 k (by omega) (by omega)
    have x1 := hx.1 (by omega)
    have y1 := hy.2 k (by omega)
    rw [show B.dim - 1 = k + 1 by omega] at x1
    rw [show A.dim - 1 = k + 1 by omega, show A.dim - 2 = k by omega]
    rw [eq_div_iff p0.ne'] at x0
    rw [eq_div_iff p1.ne'] at x1
    have key : nc A (k + 1) * x k + x (k + 1) = b (k + 1) / A.up 0 (k + 1) := by
      have e1 : nc A (k + 1) * x k = nc A (k + 1) / piv (nc A) (nU A) k * (y k - nU A k * x (k + 1)) := by
        rw [← x0]; field_simp
      have e2 : x (k + 1) * piv (nc A) (nU A) (k + 1) =
          x (k + 1) - nc A (k + 1) / piv (nc A) (nU A) k * nU A k * x (k + 1) := by
        simp only [piv]; ring
      rw [e2] at x1
      rw [e1]; linarith
    have := congrArg (· * A.up 0 (k + 1)) key
    unfold nc at this
    simp only [div_mul_cancel₀ _ d0.ne'] at this
    rw [← this]; field_simp

end Band
end CTInt
