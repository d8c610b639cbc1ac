import Verif.Model.DebugGreen
import Verif.Props.GreenRead

/-!
# The debug build of the bare Green function
-/

set_option linter.all false

namespace CTInt

variable {K : Type} [RCLike K]

theorem dbg_bind_congr {α β : Type} {x : Res α} {f g : α → Res β} (h : ∀ y, x = .ok y → f y = g y) :
    (x >>= f) = (x >>= g) := by
  cases x with
  | ok y => simpa using h y rfl
  | throw e => rfl
  | ub => rfl

namespace Spline

/-- The natural spline through zeros has no curvature. -/
theorem flat_of_zero {xs ys : List ℝ} {B : ℕ → ℝ} {s : Spline} (h : Solved .default xs ys B s) (hn : 2 < s.n)
    (hx : ∀ i, i + 1 < s.n → s.x i < s.x (i + 1)) (hy : ∀ i < s.n, s.y i = 0) : ∀ i < s.n, B i = 0 := by
  have hB0 : B 0 = 0 := by
    have := h.left.1 rfl
    simpa [SplineOpts.default] using this
  have hBn : B (s.n - 1) = 0 := by
    have := h.right.1 rfl
    simpa [SplineOpts.default] using this
  have hc : ∀ i, i + 1 < s.n → s.c i = -((s.x (i + 1) - s.x i) / 3) * (2 * B i + B (i + 1)) := by
    intro i hi
    have e1 := h.eqA i hi
    have e2 := h.eqY i hi
    have hp := sub_pos.2 (hx i hi)
    rw [hy i (by omega), hy (i + 1) hi] at e2
    unfold piece at e2
    set d := s.x (i + 1) - s.x i
    have e3 : ((s.a i * d + B i) * d + s.c i) * d = 0 := by linarith
    have e4 : (s.a i * d + B i) * d + s.c i = 0 := (mul_eq_zero.1 e3).resolve_right hp.ne'
    linear_combination e4 - d / 3 * e1
  have hc' : ∀ i, i + 1 < s.n → s.c (i + 1) = (s.x (i + 1) - s.x i) / 3 * (B i + 2 * B (i + 1)) := by
    intro i hi
    have e1 := h.eqA i hi
    have e2 := h.eqC i hi
    unfold piece1 at e2
    rw [hc i hi] at e2
    rw [← e2]
    linear_combination (s.x (i + 1) - s.x i) * e1
  obtain ⟨m, hm, hmax⟩ := Finset.exists_max_image (Finset.range s.n) (fun i => |B i|) ⟨0, by simp; omega⟩
  simp only [Finset.mem_range] at hm hmax
  have hM : |B m| = 0 := by
    by_cases h0 : m = 0
    · rw [h0, hB0, abs_zero]
    by_cases h1 : m = s.n - 1
    · rw [h1, hBn, abs_zero]
    obtain ⟨k, rfl⟩ : ∃ k, m = k + 1 := ⟨m - 1, by omega⟩
    have e1 := hc' k (by omega)
    have e2 := hc (k + 1) (by omega)
    have p1 := sub_pos.2 (hx k (by omega))
    have p2 := sub_pos.2 (hx (k + 1) (by omega))
    have m1 := abs_le.1 (hmax k (by omega))
    have m2 := abs_le.1 (hmax (k + 2) (by omega))
    rw [e1] at e2
    simp only [show k + 1 + 1 = k + 2 from rfl] at e2 p2
    set d := s.x (k + 1) - s.x k
    set d' := s.x (k + 2) - s.x (k + 1)
    have e3 : 2 * (d + d') * B (k + 1) = -(d * B k + d' * B (k + 2)) := by linear_combination 3 * e2
    have e4 : 2 * (d + d') * |B (k + 1)| ≤ (d + d') * |B (k + 1)| := by
      rw [show 2 * (d + d') * |B (k + 1)| = |2 * (d + d') * B (k + 1)| by
        rw [abs_mul, abs_of_pos (by linarith : (0 : ℝ) < 2 * (d + d'))], e3]
      rw [abs_le]
      constructor <;> nlinarith [mul_le_mul_of_nonneg_left m1.1 p1.le, mul_le_mul_of_nonneg_left m1.2 p1.le,
        mul_le_mul_of_nonneg_left m2.1 p2.le, mul_le_mul_of_nonneg_left m2.2 p2.le]
    have := abs_nonneg (B (k + 1))
    nlinarith
  intro i hi
  have := hmax i hi
  rw [hM] at this
  exact abs_eq_zero.1 (le_antisymm this (abs_nonneg _))

end Spline

namespace Green

/-- The natural spline through zeros is zero. -/
theorem value_zero {T : ℕ} {β : ℝ} {d : ℕ → ℝ} {s : Spline}
    (h : Spline.setPoints .default (times T β) ((List.range T).map d) true = .ok s) (hd : ∀ t < T, d t = 0) {τ : ℝ}
    {i : ℕ} (hi : i + 1 < T) (h1 : β * i / ((T : ℝ) - 1) ≤ τ) (h2 : τ ≤ β * (i + 1) / ((T : ℝ) - 1)) :
    Spline.value s τ = 0 := by
  obtain ⟨hT, hβ, -⟩ := grid_pos h
  obtain ⟨s', B, e, hs⟩ := Spline.setPoints_ok .default (times T β) ((List.range T).map d) (by simp [times])
    (by rw [times_length]; exact hT) (times_increasing hβ (by omega))
  rw [h] at e
  cases e
  have hsn : s.n = T := by rw [hs.n, times_length]
  have hxs : ∀ i, i + 1 < s.n → s.x i < s.x (i + 1) := by
    intro i hi; rw [hs.x]
    exact times_increasing hβ (by omega) i (by rw [times_length]; omega)
  have hx : ∀ i, i < T → s.x i = β * i / ((T : ℝ) - 1) := fun i hi => by rw [hs.x]; exact times_getD β hi
  have hy : ∀ i < s.n, s.y i = 0 := fun i hi => by
    rw [hs.y]; simp only; rw [range_getD (by omega), hd i (by omega)]
  have hB := Spline.flat_of_zero hs (by omega) hxs hy
  have hv := Spline.value_piece hs (by omega) hxs i (by omega) τ
    ⟨by rw [hx i (by omega)]; exact h1, by rw [hx (i + 1) hi]; push_cast; exact h2⟩
  have hp := sub_pos.2 (hxs i (by omega))
  have ha : s.a i = 0 := by
    have := hs.eqA i (by omega)
    rw [hB i (by omega), hB (i + 1) (by omega), sub_zero] at this
    have := (mul_eq_zero.1 this).resolve_right hp.ne'
    linarith
  have hc : s.c i = 0 := by
    have := hs.eqY i (by omega)
    rw [hB i (by omega), hy i (by omega), hy (i + 1) (by omega), ha] at this
    unfold piece at this
    have e : s.c i * (s.x (i + 1) - s.x i) = 0 := by linarith
    exact (mul_eq_zero.1 e).resolve_right hp.ne'
  rw [hv, hB i (by omega), hy i (by omega), ha, hc]
  simp [piece]

theorem eval_value {T : ℕ} {β : ℝ} {d : ℕ → ℝ} {s : Spline}
    (h : Spline.setPoints .default (times T β) ((List.range T).map d) true = .ok s) (τ : ℝ) :
    s.eval τ = .ok (Spline.value s τ) := by
  obtain ⟨hT, hβ, -⟩ := grid_pos h
  obtain ⟨s', B, e, hs⟩ := Spline.setPoints_ok .default (times T β) ((List.range T).map d) (by simp [times])
    (by rw [times_length]; exact hT) (times_increasing hβ (by omega))
  rw [h] at e
  cases e
  have hsn : s.n = T := by rw [hs.n, times_length]
  refine Spline.eval_ok ?_ (by omega) τ
  intro i hi; rw [hs.x]
  exact times_increasing hβ (by omega) i (by rw [times_length]; omega)

/-- The check of the debug build passes: the stored polynomial and the splines agree. -/
theorem interpolateD_eq {F S : ℕ} {R : List GRow} (g : Green K) {st : GRead K}
    (hp : PairsInv R g.ntau S g.beta (F * S * S) st) (hF : g.nf = F) (hS : g.ns = S)
    (hd : g.dtau = g.beta / ((g.ntau : ℝ) - 1)) (hi : g.invDtau = 1 / g.dtau) (ed : g.data = st.data)
    (ec : g.co = st.co) (f s1 s2 : ℕ) (τ : ℝ) : g.interpolateD f s1 s2 τ = g.interpolate f s1 s2 τ := by
  subst hF hS
  unfold interpolateD interpolate
  refine dbg_bind_congr fun _ hτ => ?_
  rw [Res.assert_eq_ok] at hτ
  refine dbg_bind_congr fun _ hidx => ?_
  rw [Res.assert_eq_ok] at hidx
  refine dbg_bind_congr fun _ hr => ?_
  rw [Res.assert_eq_ok] at hr
  obtain ⟨hf, h1, h2⟩ := hr
  obtain ⟨re, im, hco⟩ := (hp.pairs f s1 s2 h1 h2 (pairIx_lt hf h1 h2)).co
  rw [← ed, ← ec] at hco
  obtain ⟨hT, hβ, -⟩ := grid_pos hco.eRe
  have hs := Green.idx_spec hβ (show 2 ≤ g.ntau by omega) hτ.1 hτ.2
  simp only [← hd, ← hi] at hs
  obtain ⟨a1, a2, a3⟩ := hs
  set idx := if ⌊τ * g.invDtau⌋₊ = g.ntau - 1 then g.ntau - 2 else ⌊τ * g.invDtau⌋₊ with hidxd
  have hgd : (idx : ℝ) * g.dtau = g.beta * idx / ((g.ntau : ℝ) - 1) := by rw [hd]; ring
  have b1 : g.beta * idx / ((g.ntau : ℝ) - 1) ≤ τ := by rw [← hgd]; exact a2
  have b2 : τ ≤ g.beta * (idx + 1) / ((g.ntau : ℝ) - 1) := by
    refine a3.trans (le_of_eq ?_)
    rw [hd]; ring
  have hlt : idx + 1 < g.ntau := by omega
  obtain ⟨y, y', p0, q0, c0⟩ := hco.co idx (by omega) 0 (by omega)
  obtain ⟨c, c', p1, q1, c1⟩ := hco.co idx (by omega) 1 (by omega)
  obtain ⟨b, b', p2, q2, c2⟩ := hco.co idx (by omega) 2 (by omega)
  obtain ⟨a, a', p3, q3, c3⟩ := hco.co idx (by omega) 3 (by omega)
  have v1 := value_coeff hco.eRe hlt b1 b2 p0 p1 p2 p3
  have v2 := value_coeff hco.eIm hlt b1 b2 q0 q1 q2 q3
  have esp : g.splines f s1 s2 = .ok (re, im) := by
    unfold splines
    have e1 := hco.eRe
    have e2 := hco.eIm
    unfold times at e1 e2
    simp only [e1, e2, Res.bind_ok, Res.pure_eq]
  have hval : ((g.co f s1 s2 idx 3 * ((τ - idx * g.dtau : ℝ) : ℂ) + g.co f s1 s2 idx 2) * ((τ - idx * g.dtau : ℝ) : ℂ) +
      g.co f s1 s2 idx 1) * ((τ - idx * g.dtau : ℝ) : ℂ) + g.co f s1 s2 idx 0 =
      ⟨Spline.value re τ, Spline.value im τ⟩ := by
    rw [v1, v2, hgd, c0, c1, c2, c3]
    set x := τ - g.beta * idx / ((g.ntau : ℝ) - 1)
    apply Complex.ext
    · simp only [Complex.add_re, Complex.re_mul_ofReal]; ring
    · simp only [Complex.add_im, Complex.im_mul_ofReal]; ring
  have hcast : (⟨Spline.value re τ, Spline.value im τ⟩ : ℂ) -
      ⟨RCLike.re (mycast ⟨Spline.value re τ, Spline.value im τ⟩ : K),
       RCLike.im (mycast ⟨Spline.value re τ, Spline.value im τ⟩ : K)⟩ = 0 := by
    rw [mycast_re, mycast_im]
    rcases RCLike.I_eq_zero_or_im_I_eq_one (K := K) with h0 | h0
    · have hz : Spline.value im τ = 0 := by
        refine value_zero hco.eIm (fun t _ => ?_) hlt b1 b2
        rw [← RCLike.I_im (g.data f s1 s2 t), h0, map_zero, mul_zero]
      rw [hz]
      apply Complex.ext <;> simp
    · rw [h0]
      apply Complex.ext <;> simp
  simp only [esp, Res.bind_ok]
  rw [eval_value hco.eRe, Res.bind_ok, eval_value hco.eIm, Res.bind_ok, hval]
  have hle : ‖(⟨Spline.value re τ, Spline.value im τ⟩ : ℂ) -
      ⟨RCLike.re (mycast ⟨Spline.value re τ, Spline.value im τ⟩ : K),
       RCLike.im (mycast ⟨Spline.value re τ, Spline.value im τ⟩ : K)⟩‖ < 1e-8 := by
    rw [hcast, norm_zero]; norm_num
  rw [Res.assert_true hle, Res.bind_ok]

/-- Reading is the same in both builds. -/
theorem readD_eq (file : Option GFile) (β : ℝ) (F S : ℕ) : readD (K := K) file β F S = read file β F S := by
  cases file with
  | none => rfl
  | some h =>
    show (Res.throwIf _ _ >>= fun _ => _) = (Res.throwIf _ _ >>= fun _ => _)
    refine dbg_bind_congr fun _ _ => ?_
    refine dbg_bind_congr fun _ _ => ?_
    refine dbg_bind_congr fun _ _ => ?_
    refine dbg_bind_congr fun st est => ?_
    have hp := readAll_post est
    have key := interpolateD_eq (F := F) (S := S)
      (⟨F, S, h.ntau.toNat, β, β / ((h.ntau.toNat : ℝ) - 1), 1 / (β / ((h.ntau.toNat : ℝ) - 1)), st.data, st.co⟩ : Green K)
      hp rfl rfl rfl rfl rfl rfl
    simp only [key]

end Green
end CTInt
