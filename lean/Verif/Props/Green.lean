import Verif.Proofs.Green

/-!
# C42, C43: evaluating the bare Green function
-/

set_option linter.all false

namespace CTInt

variable {K : Type} [RCLike K]

/-- Every function has an antiperiodic continuation. -/
theorem antiperiodic_exists {β : ℝ} (hβ : 0 < β) (G : ℝ → K) : ∃ F, IsAntiperiodic β G F := by
  refine ⟨fun t => (-1) ^ ⌊t / β⌋ * G (t - ⌊t / β⌋ * β), ?_, ?_⟩
  · intro t h0 h1
    have : ⌊t / β⌋ = 0 := by
      rw [Int.floor_eq_zero_iff]
      exact ⟨div_nonneg h0 hβ.le, (div_lt_one hβ).2 h1⟩
    simp [this]
  · intro t
    have e : (t + β) / β = t / β + 1 := by rw [add_div, div_self hβ.ne']
    have h1 : (-1 : K) ≠ 0 := by norm_num
    simp only [e, Int.floor_add_one]
    rw [zpow_add_one₀ h1, show t + β - ((⌊t / β⌋ + 1 : ℤ) : ℝ) * β = t - ⌊t / β⌋ * β by push_cast; ring]
    ring

/-- **C42.**  `G` are the interpolated values on `[0, β]`, `F` their antiperiodic continuation.  For operators at
    different times the call returns `F` of the time difference; at equal times `G(+0)` if the annihilator is
    ordered after the creator and `-G(β)` otherwise.  The loops end. -/
theorem C42_operators (g : Green K) (hβ : 0 < g.beta) (c cdag : Op) (hc : c.flavor = cdag.flavor) (G F : ℝ → K)
    (hG : ∀ t, 0 ≤ t → t ≤ g.beta → g.interpolate c.flavor c.site cdag.site t = .ok (G t))
    (hF : IsAntiperiodic g.beta G F) :
    ∃ N, ∀ fuel, N ≤ fuel → g.ofOps fuel c cdag = .ok
      (if c.time ≠ cdag.time then F (c.time - cdag.time)
       else if cdag.small < c.small then G 0 else - G g.beta) := by
  obtain ⟨k, t, e, h0, h1⟩ := Green.period hβ (c.time - cdag.time)
  refine ⟨k.natAbs + 1, fun fuel hf => ?_⟩
  unfold Green.ofOps
  rw [Run.assert_true hc, Run.bind_ok]
  by_cases hd : c.time = cdag.time
  · simp only [hd, sub_self, if_true, ne_eq, not_true_eq_false, if_false]
    by_cases hs : cdag.small < c.small
    · rw [if_pos hs, if_pos hs, hG 0 le_rfl hβ.le]; rfl
    · rw [if_neg hs, if_neg hs, hG _ hβ.le le_rfl]; rfl
  · simp only [sub_ne_zero.2 hd, if_false, ne_eq, hd, not_false_eq_true, if_true]
    have hfold := Green.fold_spec (K := K) hβ k h0 h1 (show k.natAbs < fuel by omega)
    rw [← e, Run.bind_eq_ok] at hfold
    obtain ⟨r, e1, e2⟩ := hfold
    rw [e1, Run.bind_ok, e2, Run.bind_ok]
    simp only [hG t h0 h1.le, Run.lift_ok, Run.bind_ok, Run.pure_eq]
    rw [e, hF.periods, hF.agree t h0 h1]

/-- **C42, time differences.**  The second form of the call gives the same continuation, except that a multiple of
    `β` is evaluated at a time later by `10⁻⁸`. -/
theorem C42_times (g : Green K) (hβ : 1e-8 < g.beta) (d : ℝ) (f s1 s2 : ℕ) (G F : ℝ → K)
    (hG : ∀ t, 0 ≤ t → t ≤ g.beta → g.interpolate f s1 s2 t = .ok (G t)) (hF : IsAntiperiodic g.beta G F) :
    ∃ N, ∀ fuel, N ≤ fuel →
      ((∀ k : ℤ, d ≠ k * g.beta) → g.ofTime fuel d f s1 s2 = .ok (F d)) ∧
      (∀ k : ℤ, d = k * g.beta → g.ofTime fuel d f s1 s2 = .ok (F (d + 1e-8))) := by
  have hβ0 : 0 < g.beta := lt_trans (by norm_num) hβ
  obtain ⟨k, t, e, h0, h1⟩ := Green.period hβ0 d
  refine ⟨k.natAbs + 1, fun fuel hf => ?_⟩
  have hfold := Green.fold_spec (K := K) hβ0 k h0 h1 (show k.natAbs < fuel by omega)
  rw [← e, Run.bind_eq_ok] at hfold
  obtain ⟨r, e1, e2⟩ := hfold
  have heps : (0 : ℝ) ≤ 1e-8 := by norm_num
  unfold Green.ofTime
  rw [e1, Run.bind_ok, e2, Run.bind_ok]
  constructor
  · intro hk
    have ht : t ≠ 0 := fun ht => hk k (by rw [e, ht]; ring)
    simp only [ht, if_false, hG t h0 h1.le, Run.lift_ok, Run.bind_ok, Run.pure_eq]
    rw [e, hF.periods, hF.agree t h0 h1]
  · intro k' hk'
    have ht : t = 0 := by
      have h3 : t = ((k' - k : ℤ) : ℝ) * g.beta := by push_cast; linarith
      have h4 : (k' - k : ℤ) = 0 := by
        rcases lt_trichotomy (k' - k : ℤ) 0 with h | h | h
        · have : ((k' - k : ℤ) : ℝ) ≤ -1 := by exact_mod_cast (by omega : (k' - k : ℤ) ≤ -1)
          nlinarith
        · exact h
        · have : (1 : ℝ) ≤ ((k' - k : ℤ) : ℝ) := by exact_mod_cast (by omega : (1 : ℤ) ≤ (k' - k : ℤ))
          nlinarith
      rw [h3, h4]; simp
    simp only [ht, if_true, zero_add, hG 1e-8 heps hβ.le, Run.lift_ok, Run.bind_ok, Run.pure_eq]
    rw [e, ht, show (0 : ℝ) + k * g.beta + 1e-8 = 1e-8 + k * g.beta by ring, hF.periods, hF.agree _ heps hβ]

/-- For `β < 10⁻⁸` a multiple of `β` is shifted out of the interval. -/
theorem C42_times_small (g : Green K) (h0 : 0 < g.beta) (hβ : g.beta < 1e-8) (f s1 s2 : ℕ) (fuel : ℕ) :
    g.ofTime (fuel + 1) 0 f s1 s2 = .ub := by
  unfold Green.ofTime
  have e1 : Green.down (K := K) g.beta (fuel + 1) 0 1 = .ok (0, 1) := by simp [Green.down, h0]
  have e2 : Green.upw (K := K) g.beta (fuel + 1) 0 1 = .ok (0, 1) := by simp [Green.upw]
  rw [e1, Run.bind_ok]
  simp only [e2, Run.bind_ok, if_true, zero_add]
  have : g.interpolate f s1 s2 1e-8 = .ub := by
    unfold Green.interpolate
    rw [Res.assert_false (by push Not; intro _; exact hβ)]; rfl
  rw [this]; rfl

/-- **C42, flavours.**  Operators of different flavour are not allowed. -/
theorem C42_flavors (g : Green K) (fuel : ℕ) (c cdag : Op) (h : c.flavor ≠ cdag.flavor) :
    g.ofOps fuel c cdag = .ub := by
  unfold Green.ofOps
  simp [Run.assert, h]

/-- **C43.**  For a table of at least two points and every time in `[0, β]` the call is defined, and the entry
    used belongs to a stored interval of the grid that contains the time. -/
theorem C43_interpolate (g : Green K) (hT : 2 ≤ g.ntau) (hβ : 0 < g.beta)
    (hd : g.dtau = g.beta / ((g.ntau : ℝ) - 1)) (hi : g.invDtau = 1 / g.dtau) (f s1 s2 : ℕ) (hf : f < g.nf)
    (h1 : s1 < g.ns) (h2 : s2 < g.ns) (τ : ℝ) (hτ : 0 ≤ τ ∧ τ ≤ g.beta) :
    ∃ idx, idx + 1 < g.ntau ∧
      g.beta * idx / ((g.ntau : ℝ) - 1) ≤ τ ∧ τ ≤ g.beta * (idx + 1) / ((g.ntau : ℝ) - 1) ∧
      g.interpolate f s1 s2 τ = .ok (mycast
        (g.co f s1 s2 idx 0 + g.co f s1 s2 idx 1 * ((τ - g.beta * idx / ((g.ntau : ℝ) - 1) : ℝ) : ℂ) +
         g.co f s1 s2 idx 2 * ((τ - g.beta * idx / ((g.ntau : ℝ) - 1) : ℝ) : ℂ) ^ 2 +
         g.co f s1 s2 idx 3 * ((τ - g.beta * idx / ((g.ntau : ℝ) - 1) : ℝ) : ℂ) ^ 3)) := by
  have hs := Green.idx_spec hβ hT hτ.1 hτ.2
  simp only [← hd, ← hi] at hs
  obtain ⟨a1, a2, a3⟩ := hs
  refine ⟨if ⌊τ * g.invDtau⌋₊ = g.ntau - 1 then g.ntau - 2 else ⌊τ * g.invDtau⌋₊, by omega, ?_, ?_, ?_⟩
  · rw [hd] at a2
    rw [mul_comm, mul_div_assoc]; exact a2
  · rw [hd] at a3
    rw [mul_comm, mul_div_assoc]; exact a3
  · unfold Green.interpolate
    have e1 : Res.assert (0 ≤ τ ∧ τ ≤ g.beta) = .ok () := Res.assert_true hτ
    have e2 : Res.assert (f < g.nf ∧ s1 < g.ns ∧ s2 < g.ns) = .ok () := Res.assert_true ⟨hf, h1, h2⟩
    have e3 : Res.assert ((if ⌊τ * g.invDtau⌋₊ = g.ntau - 1 then g.ntau - 2 else ⌊τ * g.invDtau⌋₊) < g.ntau - 1) =
      .ok () := Res.assert_true a1
    simp only [e1, e2, e3, Res.bind_ok, Res.pure_eq]
    congr 2
    rw [hd]
    push_cast
    ring

/-- Outside `[0, β]` the call is not defined. -/
theorem C43_outside (g : Green K) (f s1 s2 : ℕ) (τ : ℝ) (hτ : τ < 0 ∨ g.beta < τ) :
    g.interpolate f s1 s2 τ = .ub := by
  unfold Green.interpolate
  rw [Res.assert_false (by push Not; intro h; rcases hτ with h' | h'; · linarith
                           · exact h')]
  rfl

/-- A table of three points, `β = 2`, with a function that is not constant. -/
noncomputable def exGreen : Green ℝ := ⟨1, 1, 3, 2, 1, 1, fun _ _ _ t => t, fun _ _ _ t p => if p = 0 then t else
  if p = 1 then 1 else 0⟩

/-- The hypotheses of `C43_interpolate` are met. -/
example (τ : ℝ) (h : 0 ≤ τ ∧ τ ≤ exGreen.beta) : ∃ v, exGreen.interpolate 0 0 0 τ = .ok v := by
  obtain ⟨idx, -, -, -, e⟩ := C43_interpolate exGreen (by norm_num [exGreen]) (by norm_num [exGreen])
    (by norm_num [exGreen]) (by norm_num [exGreen]) 0 0 0 (by norm_num [exGreen]) (by norm_num [exGreen])
    (by norm_num [exGreen]) τ h
  exact ⟨_, e⟩

/-- The hypotheses of `C42_operators` are met. -/
example (c cdag : Op) (h : c.flavor = 0 ∧ c.site = 0 ∧ cdag.flavor = 0 ∧ cdag.site = 0) :
    ∃ N v, ∀ fuel, N ≤ fuel → exGreen.ofOps fuel c cdag = .ok v := by
  have hG : ∀ t, ∃ v, 0 ≤ t → t ≤ exGreen.beta → exGreen.interpolate c.flavor c.site cdag.site t = .ok v := by
    intro t
    by_cases ht : 0 ≤ t ∧ t ≤ exGreen.beta
    · obtain ⟨idx, -, -, -, e⟩ := C43_interpolate exGreen (by norm_num [exGreen]) (by norm_num [exGreen])
        (by norm_num [exGreen]) (by norm_num [exGreen]) 0 0 0 (by norm_num [exGreen]) (by norm_num [exGreen])
        (by norm_num [exGreen]) t ht
      exact ⟨_, fun _ _ => by rw [h.1, h.2.1, h.2.2.2]; exact e⟩
    · exact ⟨0, fun a b => absurd ⟨a, b⟩ ht⟩
  choose G hG using hG
  have hβ : 0 < exGreen.beta := by norm_num [exGreen]
  obtain ⟨F, hF⟩ := antiperiodic_exists hβ G
  obtain ⟨N, hN⟩ := C42_operators exGreen hβ c cdag (by rw [h.1, h.2.2.1]) G F hG hF
  exact ⟨N, _, hN⟩

end CTInt
