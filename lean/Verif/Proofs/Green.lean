import Verif.Spec.Green
import Verif.Props.Spline
import Mathlib.Algebra.Order.Floor.Semiring
import Mathlib.Tactic.Positivity

/-!
# Reading and evaluating the bare Green function
-/

set_option linter.all false

namespace CTInt

/-- What a counting loop that ended well has achieved. -/
theorem Res.foldl_range_post {β : Type} {f : β → ℕ → Res β} (P : ℕ → β → Prop) (n : ℕ) (s s' : β) (h0 : P 0 s)
    (step : ∀ i < n, ∀ s s', P i s → f s i = .ok s' → P (i + 1) s')
    (h : Res.foldl f s (List.range n) = .ok s') : P n s' := by
  induction n generalizing s' with
  | zero => simp at h; subst h; exact h0
  | succ n ih =>
    rw [List.range_succ, Res.foldl_append, Res.bind_eq_ok] at h
    obtain ⟨s1, e1, e2⟩ := h
    have := ih s1 (fun i hi => step i (by omega)) e1
    simp only [Res.foldl_cons, Res.foldl_nil, Res.bind_eq_ok] at e2
    obtain ⟨s2, e2, e3⟩ := e2
    cases e3
    exact step n (by omega) s1 s' this e2

variable {K : Type} [RCLike K]

theorem mycast_re (z : ℂ) : RCLike.re (mycast z : K) = z.re := by simp [mycast]
theorem mycast_im (z : ℂ) : RCLike.im (mycast z : K) = z.im * RCLike.im (RCLike.I : K) := by simp [mycast]
theorem mycast_self (w : K) : mycast ⟨RCLike.re w, RCLike.im w⟩ = w := by
  simp only [mycast]; exact RCLike.re_add_im w

namespace Green

/-- The table index of a time. -/
theorem idx_spec {β τ : ℝ} {T : ℕ} (hβ : 0 < β) (hT : 2 ≤ T) (h0 : 0 ≤ τ) (h1 : τ ≤ β) :
    let dtau := β / ((T : ℝ) - 1)
    let i := ⌊τ * (1 / dtau)⌋₊
    let idx := if i = T - 1 then T - 2 else i
    idx < T - 1 ∧ idx * dtau ≤ τ ∧ τ ≤ (idx + 1) * dtau := by
  intro dtau i idx
  have hT' : (0 : ℝ) < (T : ℝ) - 1 := by
    have : (2 : ℝ) ≤ T := by exact_mod_cast hT
    linarith
  have hd : 0 < dtau := div_pos hβ hT'
  have hx : 0 ≤ τ * (1 / dtau) := by positivity
  have hb : dtau * ((T : ℝ) - 1) = β := by simp only [dtau]; field_simp
  have e : τ * (1 / dtau) * dtau = τ := by field_simp
  have f1 : (i : ℝ) ≤ τ * (1 / dtau) := Nat.floor_le hx
  have f2 : τ * (1 / dtau) < i + 1 := Nat.lt_floor_add_one _
  have g1 : (i : ℝ) * dtau ≤ τ := by rw [← e]; exact mul_le_mul_of_nonneg_right f1 hd.le
  have g2 : τ < ((i : ℝ) + 1) * dtau := by rw [← e]; exact mul_lt_mul_of_pos_right f2 hd
  have hi : i ≤ T - 1 := by
    by_contra hc
    have : T ≤ i := by omega
    have : (T : ℝ) ≤ i := by exact_mod_cast this
    nlinarith
  by_cases hc : i = T - 1
  · have : idx = T - 2 := if_pos hc
    rw [this]
    have c1 : ((T - 2 : ℕ) : ℝ) = (T : ℝ) - 2 := by rw [Nat.cast_sub hT]; norm_num
    rw [c1]
    have c2 : (i : ℝ) = (T : ℝ) - 1 := by rw [hc, Nat.cast_sub (by omega)]; norm_num
    rw [c2] at g1
    refine ⟨by omega, by nlinarith, ?_⟩
    calc τ ≤ β := h1
      _ = (T - 2 + 1) * dtau := by rw [← hb]; ring
  · have : idx = i := if_neg hc
    rw [this]
    exact ⟨by omega, g1, g2.le⟩

theorem down_spec {β : ℝ} (hβ : 0 < β) (k : ℕ) {t : ℝ} (h1 : t < β) (h0 : 0 < k → 0 ≤ t) (sign : K) {fuel : ℕ}
    (hf : k < fuel) : down β fuel (t + k * β) sign = .ok (t, (-1) ^ k * sign) := by
  induction k generalizing fuel sign with
  | zero =>
    obtain ⟨n, rfl⟩ : ∃ n, fuel = n + 1 := ⟨fuel - 1, by omega⟩
    simp [down, h1]
  | succ k ih =>
    obtain ⟨n, rfl⟩ : ∃ n, fuel = n + 1 := ⟨fuel - 1, by omega⟩
    have ht : 0 ≤ t := h0 (by omega)
    have hk : (0 : ℝ) ≤ k * β := by positivity
    rw [down, if_pos (by push_cast; nlinarith), show t + ((k + 1 : ℕ) : ℝ) * β - β = t + k * β by push_cast; ring,
      ih (fun _ => ht) _ (by omega)]
    congr 2; ring

theorem upw_spec {β : ℝ} (hβ : 0 < β) (k : ℕ) {t : ℝ} (h0 : 0 ≤ t) (h1 : 0 < k → t < β) (sign : K) {fuel : ℕ}
    (hf : k < fuel) : upw β fuel (t - k * β) sign = .ok (t, (-1) ^ k * sign) := by
  induction k generalizing fuel sign with
  | zero =>
    obtain ⟨n, rfl⟩ : ∃ n, fuel = n + 1 := ⟨fuel - 1, by omega⟩
    simp [upw, h0]
  | succ k ih =>
    obtain ⟨n, rfl⟩ : ∃ n, fuel = n + 1 := ⟨fuel - 1, by omega⟩
    have ht : t < β := h1 (by omega)
    have hk : (0 : ℝ) ≤ k * β := by positivity
    rw [upw, if_pos (by push_cast; nlinarith), show t - ((k + 1 : ℕ) : ℝ) * β + β = t - k * β by push_cast; ring,
      ih (fun _ => ht) _ (by omega)]
    congr 2; ring

/-- Both loops together. -/
theorem fold_spec {β : ℝ} (hβ : 0 < β) (k : ℤ) {t : ℝ} (h0 : 0 ≤ t) (h1 : t < β) {fuel : ℕ} (hf : k.natAbs < fuel) :
    (down (K := K) β fuel (t + k * β) 1 >>= fun r => upw β fuel r.1 r.2) = .ok (t, (-1) ^ k.natAbs) := by
  obtain ⟨n, rfl | rfl⟩ := k.eq_nat_or_neg
  · rw [Int.natAbs_natCast] at hf ⊢
    rw [Int.cast_natCast, down_spec hβ _ h1 (fun _ => h0) _ hf, Run.bind_ok]
    have := upw_spec (K := K) hβ 0 h0 (by simp) ((-1) ^ n * 1) (fuel := fuel) (by omega)
    simpa using this
  · rw [Int.natAbs_neg, Int.natAbs_natCast] at hf ⊢
    have e : t + ((-(n : ℤ) : ℤ) : ℝ) * β = (t - (n : ℝ) * β) + ((0 : ℕ) : ℝ) * β := by push_cast; ring
    have hlt : t - (n : ℝ) * β < β := by
      have : (0 : ℝ) ≤ (n : ℝ) * β := by positivity
      linarith
    rw [e, down_spec hβ 0 hlt (by simp) _ (by omega), Run.bind_ok]
    simp only [pow_zero, one_mul]
    have := upw_spec (K := K) hβ n h0 (fun _ => h1) 1 hf
    simpa using this

/-- Every time difference is a time in `[0, β)` and a number of periods. -/
theorem period {β : ℝ} (hβ : 0 < β) (d : ℝ) : ∃ (k : ℤ) (t : ℝ), d = t + k * β ∧ 0 ≤ t ∧ t < β := by
  refine ⟨⌊d / β⌋, d - ⌊d / β⌋ * β, by ring, ?_, ?_⟩
  · have := mul_le_mul_of_nonneg_right (Int.floor_le (d / β)) hβ.le
    rw [div_mul_cancel₀ _ hβ.ne'] at this
    linarith
  · have := mul_lt_mul_of_pos_right (Int.lt_floor_add_one (d / β)) hβ
    rw [div_mul_cancel₀ _ hβ.ne'] at this
    linarith

end Green

theorem IsAntiperiodic.periods {β : ℝ} {G F : ℝ → K} (h : IsAntiperiodic β G F) (k : ℤ) (t : ℝ) :
    F (t + k * β) = (-1) ^ k.natAbs * F t := by
  have pos : ∀ (n : ℕ) t, F (t + n * β) = (-1) ^ n * F t := by
    intro n
    induction n with
    | zero => intro t; simp
    | succ n ih =>
      intro t
      rw [show t + ((n + 1 : ℕ) : ℝ) * β = (t + n * β) + β by push_cast; ring, h.anti, ih]
      ring
  obtain ⟨n, rfl | rfl⟩ := k.eq_nat_or_neg
  · rw [Int.natAbs_natCast, Int.cast_natCast, pos]
  · rw [Int.natAbs_neg, Int.natAbs_natCast]
    have h2 := pos n (t + ((-(n : ℤ) : ℤ) : ℝ) * β)
    rw [show t + ((-(n : ℤ) : ℤ) : ℝ) * β + (n : ℝ) * β = t by push_cast; ring] at h2
    rw [h2, ← mul_assoc, ← pow_add, ← two_mul, pow_mul]
    simp

end CTInt
