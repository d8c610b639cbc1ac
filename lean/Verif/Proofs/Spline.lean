import Verif.Proofs.Band
import Verif.Spec.Spline
import Mathlib.Analysis.Calculus.IteratedDeriv.Lemmas
import Mathlib.Analysis.Calculus.Deriv.Add
import Mathlib.Analysis.Calculus.Deriv.Mul
import Mathlib.Analysis.Calculus.Deriv.Pow
import Mathlib.Analysis.Calculus.ContDiff.Basic
import Mathlib.Algebra.Polynomial.Eval.Defs
import Mathlib.Algebra.Polynomial.Degree.Lemmas
import Mathlib.Tactic.ComputeDegree

/-!
# Gluing smooth pieces, and the equations solved by `set_points`
-/

set_option linter.all false

namespace CTInt

/-- Pieces `f k, …, f (k + m)` joined at the knots `x k, …, x (k + m - 1)`. -/
noncomputable def glue (x : ℕ → ℝ) (f : ℕ → ℝ → ℝ) : ℕ → ℕ → ℝ → ℝ
  | 0, k => f k
  | m + 1, k => fun t => if t ≤ x k then f k t else glue x f m (k + 1) t

theorem glue_eq {x : ℕ → ℝ} {f : ℕ → ℝ → ℝ} {m k j : ℕ} {t : ℝ} (hx : ∀ i, k ≤ i → i + 1 < k + m → x i < x (i + 1))
    (hk : k ≤ j) (hj : j ≤ k + m) (h1 : k < j → x (j - 1) < t) (h2 : j < k + m → t ≤ x j) :
    glue x f m k t = f j t := by
  induction m generalizing k with
  | zero => obtain rfl : j = k := by omega
            rfl
  | succ m ih =>
    rcases Nat.eq_or_lt_of_le hk with rfl | hlt
    · simp [glue, h2 (by omega)]
    · have hmono : x k ≤ x (j - 1) := by
        have : ∀ d, k + d ≤ j - 1 → x k ≤ x (k + d) := by
          intro d
          induction d with
          | zero => intro _; exact le_rfl
          | succ d ih2 => intro hd; exact (ih2 (by omega)).trans (hx (k + d) (by omega) (by omega)).le
        have := this (j - 1 - k) (by omega)
        rwa [show k + (j - 1 - k) = j - 1 by omega] at this
      have : ¬ t ≤ x k := not_le.2 (hmono.trans_lt (h1 hlt))
      simp only [glue, this, if_false]
      exact ih (fun i hi hi' => hx i (by omega) (by omega)) (by omega) (by omega) (fun h => h1 hlt) (fun h => h2 (by omega))

theorem glue_knot {x : ℕ → ℝ} {f : ℕ → ℝ → ℝ} {m k : ℕ} (hx : 0 < m → x k ≤ x (k + 1)) :
    glue x f m (k + 1) (x k) = f (k + 1) (x k) := by
  cases m with
  | zero => rfl
  | succ m => simp [glue, hx (by omega)]

theorem hasDerivAt_ite {f g f' g' : ℝ → ℝ} {a : ℝ} (hf : ∀ t, HasDerivAt f (f' t) t) (hg : ∀ t, HasDerivAt g (g' t) t)
    (h0 : f a = g a) (h1 : f' a = g' a) (t : ℝ) :
    HasDerivAt (fun t => if t ≤ a then f t else g t) (if t ≤ a then f' t else g' t) t := by
  rcases lt_trichotomy t a with h | rfl | h
  · rw [if_pos h.le]
    refine (hf t).congr_of_eventuallyEq ?_
    filter_upwards [Iio_mem_nhds h] with s hs
    rw [if_pos (le_of_lt hs)]
  · rw [if_pos le_rfl]
    have hl : HasDerivWithinAt (fun s => if s ≤ t then f s else g s) (f' t) (Set.Iic t) t :=
      (hf t).hasDerivWithinAt.congr (fun s hs => if_pos hs) (if_pos le_rfl)
    have hr : HasDerivWithinAt (fun s => if s ≤ t then f s else g s) (f' t) (Set.Ici t) t := by
      rw [h1]
      refine (hg t).hasDerivWithinAt.congr (fun s hs => ?_) (by rw [if_pos le_rfl, h0])
      rcases eq_or_lt_of_le (show t ≤ s from hs) with rfl | hlt
      · rw [if_pos le_rfl, h0]
      · exact if_neg (not_le.2 hlt)
    have := hl.union hr
    rw [Set.Iic_union_Ici] at this
    exact this.hasDerivAt Filter.univ_mem
  · rw [if_neg (not_le.2 h)]
    refine (hg t).congr_of_eventuallyEq ?_
    filter_upwards [Ioi_mem_nhds h] with s hs
    rw [if_neg (not_le.2 hs)]

theorem glue_hasDerivAt {x : ℕ → ℝ} {f f' : ℕ → ℝ → ℝ} {m k : ℕ} (hx : ∀ i, k ≤ i → i + 1 < k + m → x i < x (i + 1))
    (hf : ∀ k t, HasDerivAt (f k) (f' k t) t)
    (h0 : ∀ i, k ≤ i → i < k + m → f i (x i) = f (i + 1) (x i))
    (h1 : ∀ i, k ≤ i → i < k + m → f' i (x i) = f' (i + 1) (x i)) (t : ℝ) :
    HasDerivAt (glue x f m k) (glue x f' m k t) t := by
  induction m generalizing k t with
  | zero => exact hf k t
  | succ m ih =>
    have hk : 0 < m → x k ≤ x (k + 1) := fun hm => (hx k le_rfl (by omega)).le
    refine hasDerivAt_ite (hf k)
      (fun t => ih (fun i hi hi' => hx i (by omega) (by omega)) (fun i hi hi' => h0 i (by omega) (by omega))
        (fun i hi hi' => h1 i (by omega) (by omega)) t) ?_ ?_ t
    · rw [glue_knot hk]; exact h0 k le_rfl (by omega)
    · rw [glue_knot hk]; exact h1 k le_rfl (by omega)

theorem glue_continuous {x : ℕ → ℝ} {f : ℕ → ℝ → ℝ} {m k : ℕ} (hx : ∀ i, k ≤ i → i + 1 < k + m → x i < x (i + 1))
    (hf : ∀ k, Continuous (f k)) (h0 : ∀ i, k ≤ i → i < k + m → f i (x i) = f (i + 1) (x i)) :
    Continuous (glue x f m k) := by
  induction m generalizing k with
  | zero => exact hf k
  | succ m ih =>
    have hk : 0 < m → x k ≤ x (k + 1) := fun hm => (hx k le_rfl (by omega)).le
    refine Continuous.if_le (hf k)
      (ih (fun i hi hi' => hx i (by omega) (by omega)) (fun i hi hi' => h0 i (by omega) (by omega)))
      continuous_id continuous_const ?_
    intro t ht
    obtain rfl : t = x k := ht
    rw [glue_knot hk]; exact h0 k le_rfl (by omega)

theorem contDiff_two_of {f f' f'' : ℝ → ℝ} (h1 : ∀ t, HasDerivAt f (f' t) t) (h2 : ∀ t, HasDerivAt f' (f'' t) t)
    (h3 : Continuous f'') : ContDiff ℝ 2 f := by
  have e1 : deriv f = f' := funext fun t => (h1 t).deriv
  have e2 : deriv f' = f'' := funext fun t => (h2 t).deriv
  rw [show (2 : WithTop ℕ∞) = 1 + 1 by norm_num, contDiff_succ_iff_deriv]
  refine ⟨fun t => (h1 t).differentiableAt, by simp, ?_⟩
  rw [e1, contDiff_one_iff_deriv]
  exact ⟨fun t => (h2 t).differentiableAt, by rw [e2]; exact h3⟩

/-- A cubic piece and its derivatives. -/
def piece (x0 y0 a b c : ℝ) (t : ℝ) : ℝ := ((a * (t - x0) + b) * (t - x0) + c) * (t - x0) + y0
def piece1 (x0 a b c : ℝ) (t : ℝ) : ℝ := (3 * a * (t - x0) + 2 * b) * (t - x0) + c
def piece2 (x0 a b : ℝ) (t : ℝ) : ℝ := 6 * a * (t - x0) + 2 * b

theorem piece_deriv (x0 y0 a b c t : ℝ) : HasDerivAt (piece x0 y0 a b c) (piece1 x0 a b c t) t := by
  have h : HasDerivAt (fun t : ℝ => t - x0) 1 t := (hasDerivAt_id t).sub_const x0
  have := ((((h.const_mul a).add_const b).mul h).add_const c).mul h |>.add_const y0
  refine this.congr_deriv ?_
  simp only [piece1, Pi.mul_apply]; ring

theorem piece1_deriv (x0 a b c t : ℝ) : HasDerivAt (piece1 x0 a b c) (piece2 x0 a b t) t := by
  have h : HasDerivAt (fun t : ℝ => t - x0) 1 t := (hasDerivAt_id t).sub_const x0
  have := (((h.const_mul (3 * a)).add_const (2 * b)).mul h).add_const c
  refine this.congr_deriv ?_
  simp only [piece2, Pi.mul_apply]; ring

theorem piece2_continuous (x0 a b : ℝ) : Continuous (piece2 x0 a b) := by
  unfold piece2; fun_prop

theorem piece_poly (x0 y0 a b c : ℝ) : ∃ p : Polynomial ℝ, p.natDegree ≤ 3 ∧ ∀ t, piece x0 y0 a b c t = p.eval t := by
  refine ⟨((Polynomial.C a * (Polynomial.X - Polynomial.C x0) + Polynomial.C b) * (Polynomial.X - Polynomial.C x0)
    + Polynomial.C c) * (Polynomial.X - Polynomial.C x0) + Polynomial.C y0, ?_, fun t => ?_⟩
  · compute_degree
  · simp [piece]

namespace Spline

/-- What `set_points` leaves behind: the coefficients solve the spline equations.  `B` is the solution `b`
    before the last coefficient may be overwritten for linear extrapolation. -/
structure Solved (o : SplineOpts) (xs ys : List ℝ) (B : ℕ → ℝ) (s : Spline) : Prop where
  n : s.n = xs.length
  x : s.x = fun i => xs.getD i 0
  y : s.y = fun i => ys.getD i 0
  b : ∀ i, i + 1 < s.n → s.b i = B i
  bl : s.b (s.n - 1) = if o.forceLinear then 0 else B (s.n - 1)
  b0 : s.b0 = if o.forceLinear then 0 else B 0
  c0 : s.c0 = s.c 0
  al : s.a (s.n - 1) = 0
  eqA : ∀ i, i + 1 < s.n → 3 * s.a i * (s.x (i + 1) - s.x i) = B (i + 1) - B i
  eqY : ∀ i, i + 1 < s.n → piece (s.x i) (s.y i) (s.a i) (B i) (s.c i) (s.x (i + 1)) = s.y (i + 1)
  eqC : ∀ i, i + 1 < s.n → piece1 (s.x i) (s.a i) (B i) (s.c i) (s.x (i + 1)) = s.c (i + 1)
  left : (o.left = .secondDeriv → 2 * B 0 = o.leftValue) ∧ (o.left = .firstDeriv → s.c 0 = o.leftValue)
  right : (o.right = .secondDeriv → 2 * B (s.n - 1) = o.rightValue) ∧
    (o.right = .firstDeriv → s.c (s.n - 1) = o.rightValue)

theorem write_first {A : Band} {v : ℝ} (h : 1 < A.dim) (hu : 1 ≤ A.nu) :
    A.write 0 1 v = .ok { A with up := fun k a => if k = 1 ∧ a = 0 then v else A.up k a } :=
  Band.write_up (i := 0) h hu

theorem write_last {A : Band} {m : ℕ} {v : ℝ} (h : m + 2 < A.dim) (hl : 1 ≤ A.nl) :
    A.write (m + 2) (m + 1) v = .ok { A with lo := fun k a => if k = 1 ∧ a = m + 2 then v else A.lo k a } :=
  Band.write_lo (i := m + 1) h hl

/-- The equation system. -/
theorem system_ok (o : SplineOpts) (n : ℕ) (x : ℕ → ℝ) (hn : 2 < n) :
    ∃ A, system o n x = .ok A ∧ A.dim = n ∧ A.nu = 1 ∧ A.nl = 1 ∧
      (∀ i, i + 2 < n → A.lo 1 (i + 1) = 1 / 3 * (x (i + 1) - x i) ∧ A.up 0 (i + 1) = 2 / 3 * (x (i + 2) - x i) ∧
        A.up 1 (i + 1) = 1 / 3 * (x (i + 2) - x (i + 1))) ∧
      (o.left = .secondDeriv → A.up 0 0 = 2 ∧ A.up 1 0 = 0) ∧
      (o.left = .firstDeriv → A.up 0 0 = 2 * (x 1 - x 0) ∧ A.up 1 0 = x 1 - x 0) ∧
      (o.right = .secondDeriv → A.up 0 (n - 1) = 2 ∧ A.lo 1 (n - 1) = 0) ∧
      (o.right = .firstDeriv → A.up 0 (n - 1) = 2 * (x (n - 1) - x (n - 2)) ∧
        A.lo 1 (n - 1) = x (n - 1) - x (n - 2)) := by
  obtain ⟨A, e, hdim, hnu, hnl, hrow⟩ := Res.foldl_range'_inv
    (f := fun (A : Band) i => do
      let A ← A.write i (i - 1) (1 / 3 * (x i - x (i - 1)))
      let A ← A.write i i (2 / 3 * (x (i + 1) - x (i - 1)))
      A.write i (i + 1) (1 / 3 * (x (i + 1) - x i)))
    (fun m A => A.dim = n ∧ A.nu = 1 ∧ A.nl = 1 ∧ ∀ i, i + 1 < m → A.lo 1 (i + 1) = 1 / 3 * (x (i + 1) - x i) ∧
      A.up 0 (i + 1) = 2 / 3 * (x (i + 2) - x i) ∧ A.up 1 (i + 1) = 1 / 3 * (x (i + 2) - x (i + 1)))
    1 (n - 2) ⟨n, 1, 1, fun _ _ => 0, fun _ _ => 0⟩ ⟨rfl, rfl, rfl, fun i hi => by omega⟩
    (by
      rintro i h1 hi ⟨dim, nu, nl, up, lo⟩ ⟨hd, hnu, hnl, hr⟩
      simp only at hd hnu hnl hr
      subst hd hnu hnl
      obtain ⟨k, rfl⟩ : ∃ k, i = k + 1 := ⟨i - 1, by omega⟩
      simp only [Nat.add_sub_cancel]
      rw [Band.write_lo (by simp only; omega) (by simp)]
      simp only [Res.bind_ok]
      rw [Band.write_diag (by simp only; omega)]
      simp only [Res.bind_ok]
      rw [Band.write_up (by simp only; omega) (by simp)]
      refine ⟨_, rfl, rfl, rfl, rfl, fun i hi => ?_⟩
      by_cases e : i = k
      · subst e; simp
      · simp [e]; simpa using hr i (by omega))
  rcases A with ⟨dim, nu, nl, up, lo⟩
  simp only at hdim hnu hnl hrow
  subst hdim hnu hnl
  obtain ⟨m, rfl⟩ : ∃ m, dim = m + 3 := ⟨dim - 3, by omega⟩
  unfold system
  simp only [Band.create, Res.assert_true (show 0 < m + 3 by omega), Res.bind_ok, Res.pure_eq]
  rw [e]
  simp only [Res.bind_ok, show m + 3 - 1 = m + 2 by omega, show m + 3 - 2 = m + 1 by omega]
  cases hl : o.left <;> cases hr : o.right <;> simp only
  all_goals
    rw [Band.write_diag (by simp)]
    simp only [Res.bind_ok]
    rw [write_first (by simp) (by simp)]
    simp only [Res.bind_ok]
    rw [Band.write_diag (by simp)]
    simp only [Res.bind_ok]
    rw [write_last (by simp) (by simp)]
    refine ⟨_, rfl, rfl, rfl, rfl, fun i hi => ?_, ?_⟩
    · have e1 : i ≠ m + 1 := by omega
      have := hrow i (by omega)
      simpa [e1] using this
    · simp

theorem setPoints_ok (o : SplineOpts) (xs ys : List ℝ) (hlen : xs.length = ys.length) (hn : 2 < xs.length)
    (hx : ∀ i, i + 1 < xs.length → xs.getD i 0 < xs.getD (i + 1) 0) :
    ∃ s B, setPoints o xs ys true = .ok s ∧ Solved o xs ys B s := by
  set n := xs.length with hndef
  set x : ℕ → ℝ := fun i => xs.getD i 0 with hxdef
  set y : ℕ → ℝ := fun i => ys.getD i 0 with hydef
  obtain ⟨A, eA, hdim, hnu, hnl, hrow, hl2, hl1, hr2, hr1⟩ := system_ok o n x hn
  have hpos : ∀ i, i + 1 < n → 0 < x (i + 1) - x i := fun i hi => sub_pos.2 (hx i hi)
  obtain ⟨m, hm⟩ : ∃ m, n = m + 3 := ⟨n - 3, by omega⟩
  have hlast := hpos (m + 1) (by omega)
  have hfirst := hpos 0 (by omega)
  rw [hm] at hr2 hr1
  simp only [show m + 3 - 1 = m + 2 by omega, show m + 3 - 2 = m + 1 by omega] at hr2 hr1
  simp only [zero_add] at hfirst
  have hdom : Band.Dominant A := by
    refine ⟨hnu, hnl, by omega, ?_, ?_, ?_, ?_, ?_, ?_⟩
    · intro i hi
      rcases Nat.eq_zero_or_pos i with rfl | hp
      · cases h : o.left
        · rw [(hl1 h).1]; linarith
        · rw [(hl2 h).1]; norm_num
      · by_cases e : i = m + 2
        · subst e
          cases h : o.right
          · rw [(hr1 h).1]; linarith
          · rw [(hr2 h).1]; norm_num
        · obtain ⟨k, rfl⟩ : ∃ k, i = k + 1 := ⟨i - 1, by omega⟩
          rw [(hrow k (by omega)).2.1]
          have := hpos k (by omega)
          have := hpos (k + 1) (by omega)
          simp only [add_assoc] at this
          norm_num at this
          linarith
    · intro i hi
      rcases Nat.eq_zero_or_pos i with rfl | hp
      · cases h : o.left
        · rw [(hl1 h).2]; linarith
        · rw [(hl2 h).2]
      · obtain ⟨k, rfl⟩ : ∃ k, i = k + 1 := ⟨i - 1, by omega⟩
        rw [(hrow k (by omega)).2.2]
        have : 0 < x (k + 2) - x (k + 1) := hpos (k + 1) (by omega)
        linarith
    · intro i hi
      by_cases e : i = m + 1
      · subst e
        cases h : o.right
        · rw [(hr1 h).2]; exact hlast.le
        · rw [(hr2 h).2]
      · rw [(hrow i (by omega)).1]
        have := hpos i (by omega)
        linarith
    · cases h : o.left
      · rw [(hl1 h).1, (hl1 h).2]
      · rw [(hl2 h).1, (hl2 h).2]; norm_num
    · intro i hi
      obtain ⟨h1, h2, h3⟩ := hrow i (by omega)
      rw [h1, h2, h3]; linarith
    · rw [hdim, hm]
      simp only [show m + 3 - 1 = m + 2 by omega]
      cases h : o.right
      · rw [(hr1 h).1, (hr1 h).2]
      · rw [(hr2 h).1, (hr2 h).2]; norm_num
  obtain ⟨B, eB, hB0, hBi, hBl⟩ := Band.luSolve_ok hdom (rhs o n x y)
  rw [hdim, show n - 1 = m + 2 by omega, show n - 2 = m + 1 by omega] at hBl
  have hasrt : ∀ i < n - 1, x i < x (i + 1) := fun i hi => hx i (by omega)
  -- the first derivative at the right end of piece `i`, computed from the solution
  have hC : ∀ i, i + 1 < n → piece1 (x i) (1 / 3 * (B (i + 1) - B i) / (x (i + 1) - x i)) (B i)
      ((y (i + 1) - y i) / (x (i + 1) - x i) - 1 / 3 * (2 * B i + B (i + 1)) * (x (i + 1) - x i)) (x (i + 1)) =
      (y (i + 1) - y i) / (x (i + 1) - x i) + (1 / 3 * B i + 2 / 3 * B (i + 1)) * (x (i + 1) - x i) := by
    intro i hi
    have := (hpos i hi).ne'
    unfold piece1
    field_simp; ring
  refine ⟨{ n := n, x := x, y := y
            a := Function.update (fun i => 1 / 3 * (B (i + 1) - B i) / (x (i + 1) - x i)) (n - 1) 0
            c := Function.update (fun i => (y (i + 1) - y i) / (x (i + 1) - x i) -
                1 / 3 * (2 * B i + B (i + 1)) * (x (i + 1) - x i)) (n - 1)
              (piece1 (x (m + 1)) (1 / 3 * (B (m + 2) - B (m + 1)) / (x (m + 2) - x (m + 1))) (B (m + 1))
                ((y (m + 2) - y (m + 1)) / (x (m + 2) - x (m + 1)) -
                  1 / 3 * (2 * B (m + 1) + B (m + 2)) * (x (m + 2) - x (m + 1))) (x (m + 2)))
            b := if o.forceLinear then Function.update B (n - 1) 0 else B
            b0 := if o.forceLinear then 0 else B 0
            c0 := (y 1 - y 0) / (x 1 - x 0) - 1 / 3 * (2 * B 0 + B 1) * (x 1 - x 0) }, B, ?_, ?_⟩
  · unfold setPoints
    rw [Res.assert_true (show xs.length = ys.length from hlen), Res.assert_true (show 2 < xs.length from hn)]
    simp only [Res.bind_ok, if_true]
    rw [Res.assert_true (show ∀ i < xs.length - 1, xs.getD i 0 < xs.getD (i + 1) 0 from hasrt)]
    simp only [Res.bind_ok, Res.pure_eq]
    rw [show system o xs.length (fun i => xs.getD i 0) = .ok A from eA]
    simp only [Res.bind_ok]
    rw [show A.luSolve (rhs o xs.length (fun i => xs.getD i 0) fun i => ys.getD i 0) = .ok B from eB]
    simp only [Res.bind_ok]
    have e1 : xs.length - 1 = m + 2 := by omega
    have e2 : xs.length - 2 = m + 1 := by omega
    have e3 : n - 1 = m + 2 := by omega
    simp only [e1, e2, e3]
    refine congrArg Res.ok ?_
    simp only [Spline.mk.injEq, true_and]
    refine ⟨rfl, rfl, rfl, rfl, ?_, rfl⟩
    congr 1
    unfold piece1; ring
  · have hne : ∀ i, i + 1 < n → i ≠ n - 1 := fun i hi => by omega
    refine ⟨rfl, rfl, rfl, ?_, ?_, rfl, ?_, ?_, ?_, ?_, ?_, ?_, ?_⟩
    · intro i hi
      simp only at hi
      cases o.forceLinear
      · simp
      · simp [hne i hi]
    · cases o.forceLinear <;> simp
    · have : (0 : ℕ) ≠ n - 1 := by omega
      simp [Function.update_of_ne this]
    · simp
    · intro i hi
      simp only at hi
      have := (hpos i hi).ne'
      simp only [Function.update_of_ne (hne i hi)]
      field_simp
    · intro i hi
      simp only at hi
      have := (hpos i hi).ne'
      simp only [Function.update_of_ne (hne i hi)]
      unfold piece
      field_simp; ring
    · intro i hi
      simp only at hi
      simp only [Function.update_of_ne (hne i hi)]
      by_cases e : i = m + 1
      · subst e
        rw [show m + 1 + 1 = n - 1 by omega, Function.update_self]
      · rw [Function.update_of_ne (by omega), hC i hi]
        obtain ⟨h1, h2, h3⟩ := hrow i (by omega)
        have := hBi i (by omega)
        rw [h1, h2, h3] at this
        have hr : rhs o n x y (i + 1) = (y (i + 2) - y (i + 1)) / (x (i + 2) - x (i + 1)) - (y (i + 1) - y i) / (x (i + 1) - x i) := by
          unfold rhs
          rw [if_neg (by omega), if_neg (by omega)]
          simp
        rw [hr] at this
        simp only [show i + 1 + 1 = i + 2 from rfl]
        linarith
    · have h0 : (0 : ℕ) ≠ n - 1 := by omega
      constructor
      · intro h
        obtain ⟨e1, e2⟩ := hl2 h
        rw [e1, e2] at hB0
        simp only [rhs, if_true, h] at hB0
        linarith
      · intro h
        obtain ⟨e1, e2⟩ := hl1 h
        rw [e1, e2] at hB0
        simp only [rhs, if_true, h] at hB0
        simp only [Function.update_of_ne h0, zero_add]
        linarith
    · simp only [Function.update_self]
      simp only [show n - 1 = m + 2 by omega]
      have hr : rhs o n x y (m + 2) = match o.right with
          | .secondDeriv => o.rightValue
          | .firstDeriv => 3 * (o.rightValue - (y (m + 2) - y (m + 1)) / (x (m + 2) - x (m + 1))) := by
        unfold rhs
        rw [if_neg (by omega), if_pos (by omega)]
        simp only [show n - 1 = m + 2 by omega, show n - 2 = m + 1 by omega]
        rfl
      constructor
      · intro h
        obtain ⟨e1, e2⟩ := hr2 h
        rw [e1, e2, hr] at hBl
        simp only [h] at hBl
        linarith
      · intro h
        obtain ⟨e1, e2⟩ := hr1 h
        rw [e1, e2, hr] at hBl
        simp only [h] at hBl
        have := hC (m + 1) (by omega)
        simp only [show m + 1 + 1 = m + 2 from rfl] at this
        rw [this]
        linarith

end Spline
end CTInt
