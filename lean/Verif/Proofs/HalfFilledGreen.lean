import Verif.Spec.HalfFilled
import Verif.Props.Solver
import Mathlib.Analysis.Calculus.Deriv.Shift

/-!
# The bare Green's function read from a file with particle-hole symmetry
-/

set_option linter.all false

namespace CTInt

open scoped Pointwise

variable {S : Type} {is : IStream S}

theorem second_reflect (f : ℝ → ℝ) (β x : ℝ) :
    iteratedDerivWithin 2 (fun τ => f (β - τ)) (Set.Icc 0 β) x = iteratedDerivWithin 2 f (Set.Icc 0 β) (β - x) := by
  have hI : β +ᵥ -(Set.Icc 0 β) = Set.Icc 0 β := by
    ext t
    rw [Set.mem_vadd_set_iff_neg_vadd_mem]
    simp only [vadd_eq_add, Set.mem_neg, Set.mem_Icc]
    constructor <;> rintro ⟨h1, h2⟩ <;> constructor <;> linarith
  have h1 : ∀ g : ℝ → ℝ, derivWithin (fun τ => g (β - τ)) (Set.Icc 0 β) = fun τ => - derivWithin g (Set.Icc 0 β) (β - τ) := by
    intro g
    funext τ
    rw [derivWithin_comp_const_sub, hI]
  rw [iteratedDerivWithin_succ, iteratedDerivWithin_one, iteratedDerivWithin_succ, iteratedDerivWithin_one, h1]
  have h2 : derivWithin (fun τ => - derivWithin f (Set.Icc 0 β) (β - τ)) (Set.Icc 0 β) x =
      - derivWithin (fun τ => derivWithin f (Set.Icc 0 β) (β - τ)) (Set.Icc 0 β) x := derivWithin.fun_neg
  rw [h2, h1, neg_neg]

section

variable {file : GFile} {β : ℝ} {v : ℕ → ℝ} {A : ℝ → ℝ}

theorem grid_ends (hn : 3 ≤ file.ntau) : file.grid β 0 = 0 ∧ file.grid β (file.ntau.toNat - 1) = β := by
  have h3 : (3 : ℝ) ≤ file.ntau := by exact_mod_cast hn
  have e : ((file.ntau.toNat - 1 : ℕ) : ℝ) = (file.ntau : ℝ) - 1 := by
    rw [Nat.cast_sub (by omega), Nat.cast_one]
    have : ((file.ntau.toNat : ℤ) : ℝ) = (file.ntau : ℝ) := by rw [Int.toNat_of_nonneg (by omega)]
    rw [← this]; norm_cast
  unfold GFile.grid
  rw [e]
  have : (file.ntau : ℝ) - 1 ≠ 0 := by linarith
  constructor
  · simp
  · field_simp

theorem grid_reflect (hn : 3 ≤ file.ntau) {i : ℕ} (hi : i ≤ file.ntau.toNat - 1) : file.grid β (file.ntau.toNat - 1 - i) = β - file.grid β i := by
  have h3 : (3 : ℝ) ≤ file.ntau := by exact_mod_cast hn
  have e : ((file.ntau.toNat - 1 : ℕ) : ℝ) = (file.ntau : ℝ) - 1 := by
    rw [Nat.cast_sub (by omega), Nat.cast_one]
    have : ((file.ntau.toNat : ℤ) : ℝ) = (file.ntau : ℝ) := by rw [Int.toNat_of_nonneg (by omega)]
    rw [← this]; norm_cast
  unfold GFile.grid
  rw [Nat.cast_sub hi, e]
  have : (file.ntau : ℝ) - 1 ≠ 0 := by linarith
  field_simp

/-- The natural spline of the reversed values is the reversed spline. -/
theorem NaturalSpline.reflect (hn : 3 ≤ file.ntau) (h : NaturalSpline file β v A) :
    NaturalSpline file β (fun t => v (file.ntau.toNat - 1 - t)) fun τ => A (β - τ) := by
  obtain ⟨e0, e1⟩ := grid_ends (β := β) hn
  refine ⟨⟨fun i hi => ?_, fun i hi => ?_, ?_⟩, ?_, ?_⟩
  · rw [← grid_reflect hn (by omega), h.spline.through _ (by omega)]
  · obtain ⟨p, p1, p2⟩ := h.spline.cubic (file.ntau.toNat - 1 - (i + 1)) (by omega)
    refine ⟨p.comp (Polynomial.C β - Polynomial.X), ?_, fun t ht => ?_⟩
    · refine (Polynomial.natDegree_comp_le).trans ?_
      have : (Polynomial.C β - Polynomial.X : Polynomial ℝ).natDegree ≤ 1 := by
        refine (Polynomial.natDegree_sub_le _ _).trans ?_
        simp
      calc p.natDegree * _ ≤ 3 * 1 := Nat.mul_le_mul p1 this
        _ = 3 := rfl
    · have g1 := grid_reflect (β := β) hn (i := i) (by omega)
      have g2 := grid_reflect (β := β) hn (i := i + 1) (by omega)
      rw [Polynomial.eval_comp, Polynomial.eval_sub, Polynomial.eval_C, Polynomial.eval_X]
      refine p2 _ ?_
      rw [show file.ntau.toNat - 1 - (i + 1) + 1 = file.ntau.toNat - 1 - i by omega, g1, g2]
      exact ⟨by linarith [ht.2], by linarith [ht.1]⟩
  · have hs := h.spline.smooth
    rw [e0, e1] at hs ⊢
    refine hs.comp (contDiff_const.sub contDiff_id).contDiffOn fun t ht => ?_
    exact ⟨by simpa using ht.2, by simpa using ht.1⟩
  · rw [second_reflect, sub_zero]; exact h.right
  · rw [second_reflect, sub_self]; exact h.left

theorem NaturalSpline.scale (k : ℝ) (h : NaturalSpline file β v A) : NaturalSpline file β (fun t => k * v t) fun τ => k * A τ := by
  refine ⟨⟨fun i hi => ?_, fun i hi => ?_, ?_⟩, ?_, ?_⟩
  · rw [h.spline.through i hi]
  · obtain ⟨p, p1, p2⟩ := h.spline.cubic i hi
    refine ⟨Polynomial.C k * p, (Polynomial.natDegree_C_mul_le _ _).trans p1, fun t ht => ?_⟩
    rw [Polynomial.eval_mul, Polynomial.eval_C, ← p2 t ht]
  · exact contDiffOn_const.mul h.spline.smooth
  · have := iteratedDerivWithin_const_mul_field (n := 2) (s := Set.Icc 0 β) (x := 0) k A
    rw [this, h.left, mul_zero]
  · have := iteratedDerivWithin_const_mul_field (n := 2) (s := Set.Icc 0 β) (x := β) k A
    rw [this, h.right, mul_zero]

theorem NaturalSpline.eq {A' : ℝ → ℝ} (hβ : 0 < β) (hn : 3 ≤ file.ntau) (h : NaturalSpline file β v A) (h' : NaturalSpline file β v A') {τ : ℝ}
    (h0 : 0 ≤ τ) (h1 : τ ≤ β) : A τ = A' τ := by
  obtain ⟨e0, e1⟩ := grid_ends (β := β) hn
  have h3 : (3 : ℝ) ≤ file.ntau := by exact_mod_cast hn
  have hx : ∀ i, i + 1 < file.ntau.toNat → file.grid β i < file.grid β (i + 1) := by
    intro i _
    unfold GFile.grid
    have : (0 : ℝ) < (file.ntau : ℝ) - 1 := by linarith
    push_cast
    rw [div_lt_div_iff_of_pos_right this]
    nlinarith
  refine C44_unique (by omega) hx h.spline h'.spline (Or.inr ?_) (Or.inr ?_) τ (by rw [e0, e1]; exact ⟨h0, h1⟩)
  · rw [e0, e1, h.left, h'.left]
  · rw [e0, e1, h.right, h'.right]

end

/-- The bare Green's function of the solver has particle-hole symmetry if the file has. -/
theorem ph_green {dbg : Bool} {P : Params S} {j : ReadJunk} {V : FullSolver ℝ} (h : FullSolver.create is dbg P j = .ok V) (hβ : 1e-8 < P.beta)
    (hz : P.spins = 2) {file : GFile} (hfile : P.g0File = some (some file)) {ε : ℕ → ℝ} (hF : PHFile ε file) :
    PHSymmetric P.beta P.sites ε V.c.G0 := by
  have hβ0 : 0 < P.beta := lt_trans (by norm_num) hβ
  have hn := hF.grid
  obtain ⟨e0, e1⟩ := grid_ends (β := P.beta) hn
  obtain ⟨file', g, e, hr, -⟩ := C80_green_defined h hβ
  obtain rfl : file = file' := Option.some.inj (Option.some.inj (hfile.symm.trans e))
  have hns : file.ns = P.sites := (C56_read file _ _ _ g hr).2.1
  obtain ⟨file', e, -, hall⟩ := C80_green h hβ
  obtain rfl : file = file' := Option.some.inj (Option.some.inj (hfile.symm.trans e))
  -- the splines
  have hex : ∀ z < 2, ∀ s < P.sites, ∀ s' < P.sites, ∃ A : ℝ → ℝ, NaturalSpline file P.beta (fun t => (file.value z s s' t : ℝ)) A ∧
      ∀ a b : Op, a.flavor = z → b.flavor = z → a.site = s → b.site = s' →
        V.c.G0 a b = if a.time ≠ b.time then contin P.beta A (a.time - b.time) else if b.small < a.small then A 0 else - A P.beta := by
    intro z hz' s hs s' hs'
    obtain ⟨⟨A, B, hA, hB⟩, hAB⟩ := hall z (by omega) s hs s' hs'
    refine ⟨A, hA, ?_⟩
    have e : (fun τ => (RCLike.ofReal (A τ) : ℝ) + RCLike.ofReal (B τ) * RCLike.I) = A := by
      funext τ
      simp
    have := (hAB A B hA hB (contin P.beta A) (by rw [e]; exact contin_anti hβ0 A)).1
    simpa using this
  have hval : ∀ {z s s' : ℕ} {A : ℝ → ℝ}, NaturalSpline file P.beta (fun t => (file.value z s s' t : ℝ)) A →
      A 0 = file.value z s s' 0 ∧ A P.beta = file.value z s s' (file.ntau.toNat - 1) := by
    intro z s s' A hA
    have h1 := hA.spline.through 0 (by omega)
    have h2 := hA.spline.through (file.ntau.toNat - 1) (by omega)
    rw [e0] at h1
    rw [e1] at h2
    exact ⟨h1, h2⟩
  have hrefl : ∀ s < P.sites, ∀ s' < P.sites, ∀ A1 A0 : ℝ → ℝ, NaturalSpline file P.beta (fun t => (file.value 1 s s' t : ℝ)) A1 →
      NaturalSpline file P.beta (fun t => (file.value 0 s' s t : ℝ)) A0 → ∀ τ, 0 ≤ τ → τ ≤ P.beta → A1 τ = ε s * ε s' * A0 (P.beta - τ) := by
    intro s hs s' hs' A1 A0 h1 h0 τ t0 t1
    have h2 := (h0.reflect hn).scale (ε s * ε s')
    refine NaturalSpline.eq hβ0 hn (v := fun t => (file.value 1 s s' t : ℝ)) h1 ⟨⟨fun i hi => ?_, h2.spline.cubic, h2.spline.smooth⟩, h2.left, h2.right⟩ t0 t1
    rw [h2.spline.through i hi]
    exact (hF.mirror s s' i (by omega) (by omega) (by omega)).symm
  have hjump : ∀ s < P.sites, ∀ s' < P.sites, ∀ A0 : ℝ → ℝ, NaturalSpline file P.beta (fun t => (file.value 0 s s' t : ℝ)) A0 →
      A0 0 + A0 P.beta = if s = s' then -1 else 0 := by
    intro s hs s' hs' A0 h0
    rw [(hval h0).1, (hval h0).2]
    exact hF.jump s s' (by omega) (by omega)
  refine ⟨fun s hs => hF.unit s (by omega), ?_, ?_⟩
  · intro s hs s' hs' t t' k k' hlt hne
    obtain ⟨A1, a1, g1⟩ := hex 1 one_lt_two s hs s' hs'
    obtain ⟨A0, a0, g0⟩ := hex 0 two_pos s' hs' s hs
    have r := hrefl s hs s' hs' A1 A0 a1 a0
    have jp := hjump s' hs' s hs A0 a0
    rw [g1 _ _ rfl rfl rfl rfl, g0 _ _ rfl rfl rfl rfl]
    obtain ⟨l1, l2⟩ := abs_lt.1 hlt
    by_cases ht : t = t'
    · have hs' : s' ≠ s := fun e => hne.elim (fun h => h e.symm) fun h => h ht
      rw [if_neg hs'] at jp
      simp only [ht, ne_eq, not_true_eq_false, if_false, lt_self_iff_false]
      rw [r P.beta hβ0.le le_rfl, sub_self]
      linear_combination (-(ε s * ε s')) * jp
    · simp only [ne_eq, ht, Ne.symm ht, not_false_eq_true, if_true]
      have c1 := contin_anti hβ0 A1
      have c0 := contin_anti hβ0 A0
      rcases lt_or_gt_of_ne ht with hl | hl
      · -- earlier
        have q1 := c1.anti (t - t')
        rw [c1.agree (t - t' + P.beta) (by linarith) (by linarith), r _ (by linarith) (by linarith)] at q1
        rw [c0.agree (t' - t) (by linarith) (by linarith)]
        rw [show P.beta - (t - t' + P.beta) = t' - t by ring] at q1
        linarith
      · have q0 := c0.anti (t' - t)
        rw [c0.agree (t' - t + P.beta) (by linarith) (by linarith)] at q0
        rw [c1.agree (t - t') (by linarith) (by linarith), r _ (by linarith) (by linarith)]
        rw [show P.beta - (t - t') = t' - t + P.beta by ring]
        linear_combination (ε s * ε s') * q0
  · intro s hs t k k'
    obtain ⟨A1, a1, g1⟩ := hex 1 one_lt_two s hs s hs
    obtain ⟨A0, a0, g0⟩ := hex 0 two_pos s hs s hs
    have r := hrefl s hs s hs A1 A0 a1 a0
    have jp := hjump s hs s hs A0 a0
    rw [if_pos rfl] at jp
    rw [g1 _ _ rfl rfl rfl rfl, g0 _ _ rfl rfl rfl rfl]
    simp only [ne_eq, not_true_eq_false, if_false, lt_self_iff_false]
    have hu : ε s * ε s = 1 := by
      rcases hF.unit s (by omega) with h | h <;> rw [h] <;> norm_num
    rw [r P.beta hβ0.le le_rfl, sub_self, hu]
    linarith

end CTInt
