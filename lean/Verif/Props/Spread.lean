import Verif.Model.Spread
import Mathlib.Algebra.Order.ToIntervalMod
import Mathlib.Analysis.SpecialFunctions.Complex.Circle

/-!
# C84: the spread of vertices in imaginary time

Times live on a circle of length beta.  The specification speaks about arcs of this circle: `OnArc`, `Congr`.
-/

set_option linter.all false

namespace CTInt

open Real

/-- Two times are the same point of the circle. -/
def SameTime (beta t t' : ℝ) : Prop := ∃ k : ℤ, t' = t + k * beta

/-- The times lie on the arc of length `s` that begins at `c`. -/
def OnArc (beta c s : ℝ) (ts : List ℝ) : Prop := ∀ t ∈ ts, ∃ t', SameTime beta t t' ∧ c ≤ t' ∧ t' ≤ c + s

/-- The sum of the unit vectors that point to the times. -/
noncomputable def centreVector (beta : ℝ) (ts : List ℝ) : ℂ := (ts.map fun t : ℝ => Complex.exp ((t * (2 * π / beta) : ℝ) * Complex.I)).sum

/-! ## Closed form -/

theorem spreadSums_eq (l : List ℝ) : (⟨(spreadSums l).1, (spreadSums l).2⟩ : ℂ) = (l.map fun a : ℝ => Complex.exp (a * Complex.I)).sum := by
  have key : ∀ (l : List ℝ) (s : ℝ × ℝ), (⟨(l.foldl (fun s a => (s.1 + cos a, s.2 + sin a)) s).1,
      (l.foldl (fun s a => (s.1 + cos a, s.2 + sin a)) s).2⟩ : ℂ) = ⟨s.1, s.2⟩ + (l.map fun a : ℝ => Complex.exp (a * Complex.I)).sum := by
    intro l
    induction l with
    | nil => intro s; simp
    | cons a l ih =>
      intro s
      rw [List.foldl_cons, ih, List.map_cons, List.sum_cons, ← add_assoc]
      congr 1
      apply Complex.ext
      · simp [Complex.exp_ofReal_mul_I_re]
      · simp [Complex.exp_ofReal_mul_I_im]
  have := key l (0, 0)
  unfold spreadSums
  rw [this]
  have : (⟨0, 0⟩ : ℂ) = 0 := rfl
  simp [this]

theorem spreadCentre_eq (l : List ℝ) : spreadCentre l = Complex.arg ((l.map fun a : ℝ => Complex.exp (a * Complex.I)).sum) := by
  rw [← spreadSums_eq]
  unfold spreadCentre
  simp only
  split
  · next h =>
    rw [Real.sqrt_eq_zero (add_nonneg (mul_self_nonneg _) (mul_self_nonneg _))] at h
    have h1 : (spreadSums l).1 = 0 := by nlinarith [mul_self_nonneg (spreadSums l).1, mul_self_nonneg (spreadSums l).2]
    have h2 : (spreadSums l).2 = 0 := by nlinarith [mul_self_nonneg (spreadSums l).1, mul_self_nonneg (spreadSums l).2]
    rw [h1, h2]
    exact Complex.arg_zero.symm
  · rfl

/-- The distance of an angle from the centre, in [-pi,pi). -/
noncomputable def offCentre (c a : ℝ) : ℝ := toIcoMod two_pi_pos (-π) (a - c)

theorem offCentre_mem (c a : ℝ) : -π ≤ offCentre c a ∧ offCentre c a < π := by
  have := toIcoMod_mem_Ico two_pi_pos (-π) (a - c)
  exact ⟨this.1, by have := this.2; unfold offCentre; linarith⟩

theorem offCentre_eq {c a x : ℝ} {k : ℤ} (h1 : -π ≤ x) (h2 : x < π) (h : a - c = x + k * (2 * π)) : offCentre c a = x := by
  unfold offCentre
  rw [toIcoMod_eq_iff]
  exact ⟨⟨h1, by linarith⟩, k, by rw [h]; simp⟩

theorem offCentre_int (c a : ℝ) : ∃ k : ℤ, offCentre c a = a - c + k * (2 * π) := by
  refine ⟨-toIcoDiv two_pi_pos (-π) (a - c), ?_⟩
  have h := toIcoMod_add_toIcoDiv_zsmul two_pi_pos (-π) (a - c)
  rw [zsmul_eq_mul] at h
  unfold offCentre
  push_cast
  linarith

theorem spreadStep_eq {c a : ℝ} (hc : -π < c ∧ c ≤ π) (ha : 0 ≤ a ∧ a ≤ 2 * π) (m : ℝ × ℝ) :
    spreadStep c m a = .ok (if 0 ≤ offCentre c a then (max m.1 |offCentre c a|, m.2) else (m.1, max m.2 |offCentre c a|)) := by
  have hw : (if π ≤ a - c then a - c - 2 * π else a - c) = offCentre c a := by
    split
    · next h => exact (offCentre_eq (k := 1) (by linarith) (by linarith) (by push_cast; ring)).symm
    · next h => exact (offCentre_eq (k := 0) (by linarith) (by linarith) (by push_cast; ring)).symm
  obtain ⟨h1, h2⟩ := offCentre_mem c a
  unfold spreadStep
  simp only [hw]
  rw [Res.assert_true ⟨h2.le, h1⟩]
  rfl

/-- The greatest distances on the two sides. -/
noncomputable def sides (m : ℝ × ℝ) (l : List ℝ) : ℝ × ℝ :=
  l.foldl (fun m x => if 0 ≤ x then (max m.1 |x|, m.2) else (m.1, max m.2 |x|)) m

theorem computeSpread_eq {ts : List ℝ} {beta : ℝ} (hb : 0 < beta) (ht : ∀ t ∈ ts, 0 ≤ t ∧ t ≤ beta) :
    computeSpread ts beta = .ok (((sides (0, 0) (ts.map fun t => offCentre (Complex.arg (centreVector beta ts)) (t * (2 * π / beta)))).1 +
      (sides (0, 0) (ts.map fun t => offCentre (Complex.arg (centreVector beta ts)) (t * (2 * π / beta)))).2) * beta / (2 * π)) := by
  have hc : spreadCentre (ts.map (· * (2 * π / beta))) = Complex.arg (centreVector beta ts) := by
    rw [spreadCentre_eq, List.map_map]; rfl
  have hA : ∀ a ∈ ts.map (· * (2 * π / beta)), 0 ≤ a ∧ a ≤ 2 * π := by
    intro a ha
    obtain ⟨t, h, rfl⟩ := List.mem_map.mp ha
    obtain ⟨h0, h1⟩ := ht t h
    have := pi_pos
    refine ⟨by positivity, ?_⟩
    calc t * (2 * π / beta) ≤ beta * (2 * π / beta) := mul_le_mul_of_nonneg_right h1 (by positivity)
      _ = 2 * π := by field_simp
  have key : ∀ {l : List ℝ} {c : ℝ} (m : ℝ × ℝ), -π < c ∧ c ≤ π → (∀ a ∈ l, 0 ≤ a ∧ a ≤ 2 * π) →
      Res.foldl (spreadStep c) m l = .ok (sides m (l.map (offCentre c))) := by
    intro l
    induction l with
    | nil => intro c m _ _; rfl
    | cons a l ih =>
      intro c m hc hl
      rw [Res.foldl_cons, spreadStep_eq hc (hl a List.mem_cons_self), Res.bind_ok, ih _ hc fun b hb => hl b (List.mem_cons_of_mem _ hb)]
      rfl
  unfold computeSpread
  simp only [hc]
  rw [key (0, 0) ⟨Complex.neg_pi_lt_arg _, Complex.arg_le_pi _⟩ hA, Res.bind_ok, List.map_map]
  rfl

theorem sides_spec (l : List ℝ) : ∀ m : ℝ × ℝ, 0 ≤ m.1 → 0 ≤ m.2 →
    (m.1 ≤ (sides m l).1 ∧ m.2 ≤ (sides m l).2) ∧ (∀ x ∈ l, -(sides m l).2 ≤ x ∧ x ≤ (sides m l).1) ∧
    ((sides m l).1 = m.1 ∨ (sides m l).1 ∈ l) ∧ ((sides m l).2 = m.2 ∨ -(sides m l).2 ∈ l) := by
  induction l with
  | nil => intro m _ _; simp [sides]
  | cons x l ih =>
    intro m h1 h2
    have e : sides m (x :: l) = sides (if 0 ≤ x then (max m.1 |x|, m.2) else (m.1, max m.2 |x|)) l := rfl
    rw [e]
    by_cases hx : 0 ≤ x
    · rw [if_pos hx, abs_of_nonneg hx]
      obtain ⟨⟨a, b⟩, c, d, f⟩ := ih (max m.1 x, m.2) (le_max_of_le_left h1) h2
      simp only at a b d f
      refine ⟨⟨(le_max_left _ _).trans a, b⟩, ?_, ?_, ?_⟩
      · intro y hy
        rcases List.mem_cons.mp hy with rfl | hy
        · exact ⟨by linarith, (le_max_right _ _).trans a⟩
        · exact c y hy
      · rcases d with d | d
        · rcases max_choice m.1 x with h | h
          · left; rw [d, h]
          · right; rw [d, h]; exact List.mem_cons_self
        · right; exact List.mem_cons_of_mem _ d
      · exact f.imp_right fun h => List.mem_cons_of_mem _ h
    · rw [if_neg hx, abs_of_neg (not_le.mp hx)]
      obtain ⟨⟨a, b⟩, c, d, f⟩ := ih (m.1, max m.2 (-x)) h1 (le_max_of_le_left h2)
      simp only at a b d f
      refine ⟨⟨a, (le_max_left _ _).trans b⟩, ?_, ?_, ?_⟩
      · intro y hy
        rcases List.mem_cons.mp hy with rfl | hy
        · have := (le_max_right m.2 (-y)).trans b
          exact ⟨by linarith, by linarith [not_le.mp hx]⟩
        · exact c y hy
      · exact d.imp_right fun h => List.mem_cons_of_mem _ h
      · rcases f with f | f
        · rcases max_choice m.2 (-x) with h | h
          · left; rw [f, h]
          · right; rw [f, h, neg_neg]; exact List.mem_cons_self
        · right; exact List.mem_cons_of_mem _ f

/-- C84: for times in [0,beta] no assert fails; the spread lies in [0,beta] and is the length of an arc with all the vertices;
    it is never more than what the vertices need on the two sides of their centre: each end of the arc is a vertex or the centre. -/
theorem C84_arc {ts : List ℝ} {beta : ℝ} (hb : 0 < beta) (ht : ∀ t ∈ ts, 0 ≤ t ∧ t ≤ beta) :
    ∃ s c, computeSpread ts beta = .ok s ∧ 0 ≤ s ∧ s ≤ beta ∧ OnArc beta c s ts ∧
      ∀ e ∈ [c, c + s], e = Complex.arg (centreVector beta ts) * beta / (2 * π) ∨ ∃ t ∈ ts, SameTime beta t e := by
  rw [computeSpread_eq hb ht]
  set θ := Complex.arg (centreVector beta ts)
  set l := ts.map fun t => offCentre θ (t * (2 * π / beta)) with hl
  obtain ⟨⟨h1, h2⟩, h3, h4, h5⟩ := sides_spec l (0, 0) le_rfl le_rfl
  set p := (sides (0, 0) l).1
  set n := (sides (0, 0) l).2
  simp only at h1 h2 h4 h5
  have hpi := pi_pos
  have hmem : ∀ x ∈ l, -π ≤ x ∧ x < π := by
    intro x hx
    obtain ⟨t, _, rfl⟩ := List.mem_map.mp hx
    exact offCentre_mem _ _
  have hp : p ≤ π := by
    rcases h4 with h | h
    · rw [h]; exact hpi.le
    · exact (hmem _ h).2.le
  have hn : n ≤ π := by
    rcases h5 with h | h
    · rw [h]; exact hpi.le
    · linarith [(hmem _ h).1]
  -- the time that belongs to a distance from the centre
  have htime : ∀ t ∈ ts, SameTime beta t ((offCentre θ (t * (2 * π / beta)) + θ) * beta / (2 * π)) := by
    intro t _
    obtain ⟨k, hk⟩ := offCentre_int θ (t * (2 * π / beta))
    refine ⟨k, ?_⟩
    rw [hk]
    field_simp
    ring
  refine ⟨_, (-n + θ) * beta / (2 * π), rfl, by positivity, ?_, ?_, ?_⟩
  · rw [div_le_iff₀ (by positivity)]
    nlinarith
  · intro t h
    have hx := h3 _ (List.mem_map.mpr ⟨t, h, rfl⟩)
    refine ⟨_, htime t h, ?_, ?_⟩
    · rw [div_le_div_iff_of_pos_right (by positivity)]
      nlinarith [hx.1]
    · rw [← add_div, div_le_div_iff_of_pos_right (by positivity)]
      nlinarith [hx.2]
  · intro e he
    simp only [List.mem_cons, List.not_mem_nil, or_false] at he
    rcases he with rfl | rfl
    · rcases h5 with h | h
      · left; rw [h]; ring
      · obtain ⟨t, h', e⟩ := List.mem_map.mp h
        right
        refine ⟨t, h', ?_⟩
        rw [← e]
        exact htime t h'
    · have e1 : (-n + θ) * beta / (2 * π) + (p + n) * beta / (2 * π) = (p + θ) * beta / (2 * π) := by ring
      rw [e1]
      rcases h4 with h | h
      · left; rw [h]; ring
      · obtain ⟨t, h', e⟩ := List.mem_map.mp h
        right
        refine ⟨t, h', ?_⟩
        rw [← e]
        exact htime t h'

/-! ## Order and shifts -/

/-- C84: the order of the vertices does not matter. -/
theorem C84_order {ts ts' : List ℝ} {beta : ℝ} (hb : 0 < beta) (ht : ∀ t ∈ ts, 0 ≤ t ∧ t ≤ beta) (h : ts.Perm ts') :
    computeSpread ts' beta = computeSpread ts beta := by
  rw [computeSpread_eq hb ht, computeSpread_eq hb fun t h' => ht t (h.mem_iff.mpr h')]
  have hc : centreVector beta ts' = centreVector beta ts := (h.map _).sum_eq.symm
  have hs : ∀ {l l' : List ℝ} (m : ℝ × ℝ), l.Perm l' → sides m l = sides m l' := by
    intro l l' m hl
    unfold sides
    haveI : RightCommutative (fun (m : ℝ × ℝ) (x : ℝ) => if 0 ≤ x then (max m.1 |x|, m.2) else (m.1, max m.2 |x|)) := by
      refine ⟨fun m x y => ?_⟩
      by_cases hx : 0 ≤ x <;> by_cases hy : 0 ≤ y <;> simp [hx, hy, max_right_comm]
    exact hl.foldl_eq m
  rw [hc, hs _ (h.map _)]

theorem centreVector_shift {beta s : ℝ} (hb : 0 < beta) {ts ts' : List ℝ} (h : List.Forall₂ (fun t t' => SameTime beta (t + s) t') ts ts') :
    centreVector beta ts' = Complex.exp ((s * (2 * π / beta) : ℝ) * Complex.I) * centreVector beta ts := by
  induction h with
  | nil => simp [centreVector]
  | @cons t t' l l' h _ ih =>
    unfold centreVector at ih ⊢
    rw [List.map_cons, List.map_cons, List.sum_cons, List.sum_cons, mul_add, ih, ← Complex.exp_add]
    congr 1
    obtain ⟨k, rfl⟩ := h
    rw [Complex.exp_eq_exp_iff_exists_int]
    refine ⟨k, ?_⟩
    have hb' : (beta : ℂ) ≠ 0 := by exact_mod_cast hb.ne'
    push_cast
    field_simp
    ring

/-- C84: shifting all the vertices by the same time, around the circle, does not change the spread, unless the unit vectors that
    point to them add up to zero. -/
theorem C84_shift {ts ts' : List ℝ} {beta s : ℝ} (hb : 0 < beta) (ht : ∀ t ∈ ts, 0 ≤ t ∧ t ≤ beta) (ht' : ∀ t ∈ ts', 0 ≤ t ∧ t ≤ beta)
    (h : List.Forall₂ (fun t t' => SameTime beta (t + s) t') ts ts') (hz : centreVector beta ts ≠ 0) :
    computeSpread ts' beta = computeSpread ts beta := by
  rw [computeSpread_eq hb ht, computeSpread_eq hb ht']
  have hc := centreVector_shift hb h
  have harg : ((Complex.arg (centreVector beta ts') : ℝ) : Real.Angle) = ((s * (2 * π / beta) + Complex.arg (centreVector beta ts) : ℝ) : Real.Angle) := by
    rw [hc, Complex.arg_mul_coe_angle (Complex.exp_ne_zero _) hz, Real.Angle.coe_add, Complex.arg_exp, Real.Angle.coe_toIocMod]
    congr 2
    simp
  obtain ⟨j, hj⟩ := Real.Angle.angle_eq_iff_two_pi_dvd_sub.mp harg
  have key : ts'.map (fun t => offCentre (Complex.arg (centreVector beta ts')) (t * (2 * π / beta))) =
      ts.map (fun t => offCentre (Complex.arg (centreVector beta ts)) (t * (2 * π / beta))) := by
    generalize Complex.arg (centreVector beta ts') = c' at hj
    generalize Complex.arg (centreVector beta ts) = c at hj
    clear hc harg hz ht ht'
    induction h with
    | nil => rfl
    | @cons t t' l l' h _ ih =>
      rw [List.map_cons, List.map_cons, ih]
      congr 1
      obtain ⟨k, rfl⟩ := h
      obtain ⟨m, hm⟩ := offCentre_int c (t * (2 * π / beta))
      obtain ⟨h1, h2⟩ := offCentre_mem c (t * (2 * π / beta))
      refine offCentre_eq (k := k - j - m) h1 h2 ?_
      rw [hm]
      push_cast
      have : c' = s * (2 * π / beta) + c + 2 * π * j := by linarith
      rw [this]
      field_simp
      ring
  rw [key]

/-! ## Vertices within half of the circle -/

theorem unitSum_re (D : List ℝ) : ((D.map fun a : ℝ => Complex.exp (a * Complex.I)).sum).re = (D.map cos).sum := by
  induction D with
  | nil => simp
  | cons a D ih => rw [List.map_cons, List.map_cons, List.sum_cons, List.sum_cons, Complex.add_re, ih, Complex.exp_ofReal_mul_I_re]

theorem unitSum_im (D : List ℝ) : ((D.map fun a : ℝ => Complex.exp (a * Complex.I)).sum).im = (D.map sin).sum := by
  induction D with
  | nil => simp
  | cons a D ih => rw [List.map_cons, List.map_cons, List.sum_cons, List.sum_cons, Complex.add_im, ih, Complex.exp_ofReal_mul_I_im]

theorem listSum_nonpos {l : List ℝ} (h : ∀ x ∈ l, x ≤ 0) : l.sum ≤ 0 := by
  induction l with
  | nil => simp
  | cons a l ih =>
    rw [List.sum_cons]
    have := ih fun x hx => h x (List.mem_cons_of_mem _ hx)
    have := h a List.mem_cons_self
    linarith

/-- The sum of unit vectors within a sector of less than half of the circle points into the sector. -/
theorem arg_unitSum {D : List ℝ} {w : ℝ} (hw : w < π / 2) (hD : ∀ d ∈ D, -w ≤ d ∧ d ≤ w) (hne : D ≠ []) :
    (D.map fun a : ℝ => Complex.exp (a * Complex.I)).sum ≠ 0 ∧
    -w ≤ Complex.arg ((D.map fun a : ℝ => Complex.exp (a * Complex.I)).sum) ∧
    Complex.arg ((D.map fun a : ℝ => Complex.exp (a * Complex.I)).sum) ≤ w := by
  set z := (D.map fun a : ℝ => Complex.exp (a * Complex.I)).sum with hz
  have hre : 0 < z.re := by
    rw [hz, unitSum_re]
    refine List.sum_pos _ ?_ (by simpa using hne)
    intro x hx
    obtain ⟨d, hd, rfl⟩ := List.mem_map.mp hx
    obtain ⟨h1, h2⟩ := hD d hd
    exact cos_pos_of_mem_Ioo ⟨by linarith, by linarith⟩
  have hz0 : z ≠ 0 := by
    intro h
    rw [h] at hre
    simp at hre
  have hr : 0 < ‖z‖ := norm_pos_iff.mpr hz0
  have hφ : |Complex.arg z| < π / 2 := Complex.abs_arg_lt_pi_div_two_iff.mpr (Or.inl hre)
  have hφ' := abs_lt.mp hφ
  have e1 : z.re = ‖z‖ * cos (Complex.arg z) := by rw [Complex.cos_arg hz0]; field_simp
  have e2 : z.im = ‖z‖ * sin (Complex.arg z) := by rw [Complex.sin_arg]; field_simp
  have hlin : ∀ v : ℝ, (D.map fun d => sin (d - v)).sum = z.im * cos v - z.re * sin v := by
    intro v
    rw [hz, unitSum_re, unitSum_im]
    clear_value z
    clear hz hre hz0 hr hφ hφ' e1 e2 hD hne
    induction D with
    | nil => simp
    | cons a D ih =>
      simp only [List.map_cons, List.sum_cons, ih]
      rw [sin_sub]
      ring
  have hrot : ∀ v : ℝ, (D.map fun d => sin (d - v)).sum = ‖z‖ * sin (Complex.arg z - v) := by
    intro v
    rw [hlin, e1, e2, sin_sub]
    ring
  have hw0 : 0 ≤ w := by
    obtain ⟨d, hd⟩ := List.exists_mem_of_ne_nil D hne
    have := hD d hd
    linarith
  refine ⟨hz0, ?_, ?_⟩
  · by_contra h
    have h1 : 0 ≤ (D.map fun d => sin (d - -w)).sum := by
      refine List.sum_nonneg ?_
      intro x hx
      obtain ⟨d, hd, rfl⟩ := List.mem_map.mp hx
      obtain ⟨h1, h2⟩ := hD d hd
      exact sin_nonneg_of_nonneg_of_le_pi (by linarith) (by linarith)
    rw [hrot] at h1
    have h2 : sin (Complex.arg z - -w) < 0 := sin_neg_of_neg_of_neg_pi_lt (by linarith) (by linarith)
    nlinarith
  · by_contra h
    have h1 : (D.map fun d => sin (d - w)).sum ≤ 0 := by
      refine listSum_nonpos ?_
      intro x hx
      obtain ⟨d, hd, rfl⟩ := List.mem_map.mp hx
      obtain ⟨h1, h2⟩ := hD d hd
      exact sin_nonpos_of_nonpos_of_neg_pi_le (by linarith) (by linarith)
    rw [hrot] at h1
    have h2 : 0 < sin (Complex.arg z - w) := sin_pos_of_pos_of_lt_pi (by linarith) (by linarith)
    nlinarith

/-- C84: vertices that lie within less than half of the circle, wherever it begins: the spread is the time between the first and
    the last of them. -/
theorem C84_smallest {ts L : List ℝ} {beta lo hi : ℝ} (hb : 0 < beta) (ht : ∀ t ∈ ts, 0 ≤ t ∧ t ≤ beta)
    (h : List.Forall₂ (SameTime beta) ts L) (hlo : lo ∈ L) (hhi : hi ∈ L) (hL : ∀ t ∈ L, lo ≤ t ∧ t ≤ hi) (hw : hi - lo < beta / 2) :
    computeSpread ts beta = .ok (hi - lo) := by
  have hpi := pi_pos
  set κ := 2 * π / beta with hκ
  have hκ0 : 0 < κ := by positivity
  have hκb : κ * beta = 2 * π := by rw [hκ]; field_simp
  have hz : centreVector beta L = centreVector beta ts := by
    rw [centreVector_shift (s := 0) hb (by simpa using h)]
    simp
  set mid := (lo + hi) / 2 * κ with hmid
  have hrot : centreVector beta L = Complex.exp (mid * Complex.I) * (((L.map fun l => l * κ - mid)).map fun a : ℝ => Complex.exp (a * Complex.I)).sum := by
    unfold centreVector
    rw [List.map_map]
    clear hlo hhi hL h hz
    induction L with
    | nil => simp
    | cons l L ih =>
      simp only [List.map_cons, List.sum_cons, mul_add, ih, Function.comp_apply, ← Complex.exp_add]
      congr 2
      have e : l * (2 * π / beta) = mid + (l * κ - mid) := by rw [hκ]; ring
      rw [e]
      push_cast
      ring
  have hD : ∀ d ∈ L.map (fun l => l * κ - mid), -((hi - lo) / 2 * κ) ≤ d ∧ d ≤ (hi - lo) / 2 * κ := by
    intro d hd
    obtain ⟨l, hl, rfl⟩ := List.mem_map.mp hd
    obtain ⟨h1, h2⟩ := hL l hl
    constructor
    · have := mul_le_mul_of_nonneg_right h1 hκ0.le
      rw [hmid]; linarith
    · have := mul_le_mul_of_nonneg_right h2 hκ0.le
      rw [hmid]; linarith
  have hwκ : (hi - lo) * κ < π := by
    have := mul_lt_mul_of_pos_right hw hκ0
    nlinarith
  obtain ⟨hz0, ha1, ha2⟩ := arg_unitSum (w := (hi - lo) / 2 * κ) (by linarith) hD (by
    intro h
    rw [List.map_eq_nil_iff] at h
    rw [h] at hlo
    exact absurd hlo List.not_mem_nil)
  set φ := Complex.arg (((L.map fun l => l * κ - mid)).map fun a : ℝ => Complex.exp (a * Complex.I)).sum with hφ
  have harg : ((Complex.arg (centreVector beta ts) : ℝ) : Real.Angle) = ((mid + φ : ℝ) : Real.Angle) := by
    rw [← hz, hrot, Complex.arg_mul_coe_angle (Complex.exp_ne_zero _) hz0, Real.Angle.coe_add, Complex.arg_exp, Real.Angle.coe_toIocMod]
    congr 2
    simp
  obtain ⟨j, hj⟩ := Real.Angle.angle_eq_iff_two_pi_dvd_sub.mp harg
  have hlow : lo * κ ≤ mid + φ := by rw [hmid]; linarith
  have hhigh : mid + φ ≤ hi * κ := by rw [hmid]; linarith
  rw [computeSpread_eq hb ht]
  have key : ts.map (fun t => offCentre (Complex.arg (centreVector beta ts)) (t * (2 * π / beta))) = L.map fun l => l * κ - (mid + φ) := by
    generalize Complex.arg (centreVector beta ts) = c at hj
    rw [← hκ]
    clear_value φ
    clear hlo hhi hD hz0 hz hrot hφ harg ht
    induction h with
    | nil => rfl
    | @cons t l ts L h _ ih =>
      rw [List.map_cons, List.map_cons, ih fun t h' => hL t (List.mem_cons_of_mem _ h')]
      congr 1
      obtain ⟨h1, h2⟩ := hL l List.mem_cons_self
      have h1' := mul_le_mul_of_nonneg_right h1 hκ0.le
      have h2' := mul_le_mul_of_nonneg_right h2 hκ0.le
      obtain ⟨k, rfl⟩ := h
      refine offCentre_eq (k := -k - j) (by linarith) (by linarith) ?_
      have : c = mid + φ + 2 * π * j := by linarith
      rw [this]
      push_cast
      linear_combination (k : ℝ) * hκb.symm
  rw [key]
  set l := L.map fun l => l * κ - (mid + φ) with hl
  obtain ⟨⟨h1, h2⟩, h3, h4, h5⟩ := sides_spec l (0, 0) le_rfl le_rfl
  have hmem : ∀ x ∈ l, lo * κ - (mid + φ) ≤ x ∧ x ≤ hi * κ - (mid + φ) := by
    intro x hx
    obtain ⟨t, ht, rfl⟩ := List.mem_map.mp hx
    obtain ⟨h1, h2⟩ := hL t ht
    exact ⟨sub_le_sub_right (mul_le_mul_of_nonneg_right h1 hκ0.le) _, sub_le_sub_right (mul_le_mul_of_nonneg_right h2 hκ0.le) _⟩
  have hlo' := h3 _ (List.mem_map.mpr ⟨lo, hlo, rfl⟩)
  have hhi' := h3 _ (List.mem_map.mpr ⟨hi, hhi, rfl⟩)
  simp only at h1 h2 h4 h5
  have ep : (sides (0, 0) l).1 = hi * κ - (mid + φ) := by
    refine le_antisymm ?_ hhi'.2
    rcases h4 with h | h
    · rw [h]; linarith
    · exact (hmem _ h).2
  have en : (sides (0, 0) l).2 = (mid + φ) - lo * κ := by
    refine le_antisymm ?_ (by linarith [hlo'.1])
    rcases h5 with h | h
    · rw [h]; linarith
    · linarith [(hmem _ h).1]
  rw [ep, en]
  congr 1
  rw [div_eq_iff (by positivity)]
  linear_combination (hi - lo) * hκb

/-! ## Where the centre is not defined -/

/-- C84 without the condition on the centre fails: two pairs of opposite vertices, before and after a shift by 7/8. -/
theorem C84_shift_violation : List.Forall₂ (fun t t' => SameTime 1 (t + 7 / 8) t') [0, 1 / 2, 1 / 8, 5 / 8] [7 / 8, 3 / 8, 0, 1 / 2] ∧
    computeSpread [0, 1 / 2, 1 / 8, 5 / 8] 1 = .ok (5 / 8) ∧ computeSpread [7 / 8, 3 / 8, 0, 1 / 2] 1 = .ok (7 / 8) := by
  have hpi := pi_pos
  have hshift : List.Forall₂ (fun t t' => SameTime 1 (t + 7 / 8) t') [0, 1 / 2, 1 / 8, 5 / 8] [7 / 8, 3 / 8, 0, 1 / 2] := by
    refine .cons ⟨0, by norm_num⟩ (.cons ⟨-1, by norm_num⟩ (.cons ⟨-1, by norm_num⟩ (.cons ⟨-1, by norm_num⟩ .nil)))
  have hz : centreVector 1 [0, 1 / 2, 1 / 8, 5 / 8] = 0 := by
    unfold centreVector
    have e1 : Complex.exp ((((1 / 2 : ℝ)) * (2 * π / 1) : ℝ) * Complex.I) = -1 := by
      rw [← Complex.exp_pi_mul_I]
      congr 1
      push_cast
      ring
    have e2 : Complex.exp ((((5 / 8 : ℝ)) * (2 * π / 1) : ℝ) * Complex.I) = -Complex.exp ((((1 / 8 : ℝ)) * (2 * π / 1) : ℝ) * Complex.I) := by
      rw [← neg_one_mul, ← Complex.exp_pi_mul_I, ← Complex.exp_add]
      congr 1
      push_cast
      ring
    simp only [List.map_cons, List.map_nil, List.sum_cons, List.sum_nil]
    rw [e1, e2]
    simp
  have hz' : centreVector 1 [7 / 8, 3 / 8, 0, 1 / 2] = 0 := by
    rw [centreVector_shift one_pos hshift, hz, mul_zero]
  have off : ∀ {t x : ℝ} (k : ℤ), -π ≤ x → x < π → t * (2 * π / 1) = x + k * (2 * π) → offCentre 0 (t * (2 * π / 1)) = x := by
    intro t x k h1 h2 h
    exact offCentre_eq h1 h2 (by rw [sub_zero]; exact h)
  refine ⟨hshift, ?_, ?_⟩
  · rw [computeSpread_eq one_pos (by intro t h; simp only [List.mem_cons, List.not_mem_nil, or_false] at h; rcases h with rfl | rfl | rfl | rfl <;> norm_num),
      hz, Complex.arg_zero]
    simp only [List.map_cons, List.map_nil]
    rw [off (t := 0) (x := 0) 0 (by linarith) (by linarith) (by push_cast; ring), off (t := 1 / 2) (x := -π) 1 (by linarith) (by linarith) (by push_cast; ring),
      off (t := 1 / 8) (x := π / 4) 0 (by linarith) (by linarith) (by push_cast; ring), off (t := 5 / 8) (x := -(3 * π / 4)) 1 (by linarith) (by linarith) (by push_cast; ring)]
    have e : sides (0, 0) [0, -π, π / 4, -(3 * π / 4)] = (π / 4, π) := by
      unfold sides
      simp only [List.foldl_cons, List.foldl_nil]
      have a1 : ¬ 0 ≤ -π := by linarith
      have a2 : 0 ≤ π / 4 := by linarith
      have a3 : ¬ 0 ≤ -(3 * π / 4) := by linarith
      simp only [a1, a2, a3, le_refl, if_true, if_false, abs_zero, abs_neg, abs_of_pos hpi, abs_of_pos (show 0 < π / 4 by linarith), abs_of_pos (show 0 < 3 * π / 4 by linarith), max_self]
      rw [max_eq_right (show (0 : ℝ) ≤ π by linarith), max_eq_right (show (0 : ℝ) ≤ π / 4 by linarith), max_eq_left (show 3 * π / 4 ≤ π by linarith)]
    rw [e]
    congr 1
    field_simp
    ring
  · rw [computeSpread_eq one_pos (by intro t h; simp only [List.mem_cons, List.not_mem_nil, or_false] at h; rcases h with rfl | rfl | rfl | rfl <;> norm_num),
      hz', Complex.arg_zero]
    simp only [List.map_cons, List.map_nil]
    rw [off (t := 7 / 8) (x := -(π / 4)) 1 (by linarith) (by linarith) (by push_cast; ring), off (t := 3 / 8) (x := 3 * π / 4) 0 (by linarith) (by linarith) (by push_cast; ring),
      off (t := 0) (x := 0) 0 (by linarith) (by linarith) (by push_cast; ring), off (t := 1 / 2) (x := -π) 1 (by linarith) (by linarith) (by push_cast; ring)]
    have e : sides (0, 0) [-(π / 4), 3 * π / 4, 0, -π] = (3 * π / 4, π) := by
      unfold sides
      simp only [List.foldl_cons, List.foldl_nil]
      have a1 : ¬ 0 ≤ -π := by linarith
      have a2 : 0 ≤ 3 * π / 4 := by linarith
      have a3 : ¬ 0 ≤ -(π / 4) := by linarith
      simp only [a1, a2, a3, le_refl, if_true, if_false, abs_zero, abs_neg, abs_of_pos hpi, abs_of_pos (show 0 < π / 4 by linarith), abs_of_pos (show 0 < 3 * π / 4 by linarith)]
      rw [max_eq_right (show (0 : ℝ) ≤ π / 4 by linarith), max_eq_right (show (0 : ℝ) ≤ 3 * π / 4 by linarith), max_eq_left (show (0 : ℝ) ≤ 3 * π / 4 by linarith),
        max_eq_right (show π / 4 ≤ π by linarith)]
    rw [e]
    congr 1
    field_simp
    ring

/-! ## Examples -/

/-- The hypotheses of `C84_arc`, `C84_order` and `C84_smallest`: two vertices on the two sides of the time zero, 1/4 apart. -/
example : (∀ t ∈ [(1 / 8 : ℝ), 7 / 8], 0 ≤ t ∧ t ≤ 1) ∧ List.Forall₂ (SameTime 1) [1 / 8, 7 / 8] [1 / 8, -1 / 8] ∧
    (∀ t ∈ [(1 / 8 : ℝ), -1 / 8], -1 / 8 ≤ t ∧ t ≤ 1 / 8) ∧ (1 / 8 : ℝ) - -1 / 8 < 1 / 2 := by
  refine ⟨by norm_num, .cons ⟨0, by norm_num⟩ (.cons ⟨-1, by norm_num⟩ .nil), by norm_num, by norm_num⟩

/-- The hypotheses of `C84_shift`: a single vertex has a centre. -/
example : centreVector 1 [1 / 8] ≠ 0 ∧ List.Forall₂ (fun t t' => SameTime 1 (t + 7 / 8) t') [1 / 8] [0] := by
  refine ⟨?_, .cons ⟨-1, by norm_num⟩ .nil⟩
  unfold centreVector
  simp only [List.map_cons, List.map_nil, List.sum_cons, List.sum_nil, add_zero]
  exact Complex.exp_ne_zero _

end CTInt
