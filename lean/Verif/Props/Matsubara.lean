import Verif.Model.Matsubara
import Verif.Proofs.Matsubara
import Verif.Props.Binning

/-!
# C61: the frequencies written out are the Fourier transform of the Legendre expansion
-/

set_option linter.all false

namespace CTInt

open Polynomial

/-- What is assumed of the external library: `sph_bessel(l, z)` is the spherical Bessel function for z > 0. -/
def IsSphBessel (sj : ℕ → ℝ → ℝ) : Prop := ∀ l z, 0 < z → sj l z = sphJ l z

/-- The loops of the constructor in closed form. -/
theorem tnl_closed (sj : ℕ → ℝ → ℝ) (nm nl : ℕ) {n l : ℕ} (hn : n < nm) (hl : l < nl) :
    tnl sj nm nl n l = (-1) ^ n * Complex.I ^ (l + 1) * (Real.sqrt (2 * l + 1) : ℂ) *
      (sj l (1 / 2 * (2 * n + 1) * Real.pi) : ℂ) := by
  have inner : ∀ (im : ℕ) (s : TnlLoop) (k : ℕ), s.z = Complex.I →
      ∃ r : TnlLoop, (List.range k).foldl (fun (s : TnlLoop) il =>
        { s with
          T := Function.update s.T im (Function.update (s.T im) il
            ((s.sign : ℂ) * s.z * (Real.sqrt (2 * il + 1) : ℂ) * (sj il (1 / 2 * (2 * im + 1) * Real.pi) : ℂ)))
          z := s.z * Complex.I }) s = r ∧ r.sign = s.sign ∧ r.z = Complex.I ^ (k + 1) ∧
        (∀ i ≠ im, ∀ l, r.T i l = s.T i l) ∧
        ∀ l < k, r.T im l = (s.sign : ℂ) * Complex.I ^ (l + 1) * (Real.sqrt (2 * l + 1) : ℂ) *
          (sj l (1 / 2 * (2 * im + 1) * Real.pi) : ℂ) := by
    intro im s k hz
    induction k with
    | zero => exact ⟨s, rfl, rfl, by rw [hz]; simp, fun _ _ _ => rfl, fun l hl => by omega⟩
    | succ k ih =>
      obtain ⟨r, e, r1, r2, r3, r4⟩ := ih
      refine ⟨_, rfl, ?_⟩
      rw [List.range_succ, List.foldl_append, e]
      simp only [List.foldl_cons, List.foldl_nil]
      refine ⟨r1, by rw [r2]; ring, ?_, ?_⟩
      · intro i hi l
        rw [Function.update_of_ne hi]; exact r3 i hi l
      · intro l hl
        rw [Function.update_self]
        by_cases h : l = k
        · subst h
          rw [Function.update_self, r1, r2]
        · rw [Function.update_of_ne h]
          exact r4 l (by omega)
  have outer : ∀ k, ∃ s : TnlLoop, (List.range k).foldl (fun (s : TnlLoop) im =>
      let r := (List.range nl).foldl (fun (s : TnlLoop) il =>
        { s with
          T := Function.update s.T im (Function.update (s.T im) il
            ((s.sign : ℂ) * s.z * (Real.sqrt (2 * il + 1) : ℂ) * (sj il (1 / 2 * (2 * im + 1) * Real.pi) : ℂ)))
          z := s.z * Complex.I }) { s with z := Complex.I }
      { r with sign := r.sign * -1 }) ⟨fun _ _ => 0, 1, Complex.I⟩ = s ∧ s.sign = (-1) ^ k ∧
      ∀ n < k, ∀ l < nl, s.T n l = (-1) ^ n * Complex.I ^ (l + 1) * (Real.sqrt (2 * l + 1) : ℂ) *
        (sj l (1 / 2 * (2 * n + 1) * Real.pi) : ℂ) := by
    intro k
    induction k with
    | zero => exact ⟨_, rfl, by simp, fun n hn => by omega⟩
    | succ k ih =>
      obtain ⟨s, e, s1, s2⟩ := ih
      obtain ⟨r, er, r1, -, r3, r4⟩ := inner k { s with z := Complex.I } nl rfl
      refine ⟨_, rfl, ?_⟩
      rw [List.range_succ, List.foldl_append, e]
      simp only [List.foldl_cons, List.foldl_nil]
      rw [er]
      refine ⟨?_, ?_⟩
      · show r.sign * -1 = _
        rw [r1]
        show s.sign * -1 = _
        rw [s1]; ring
      · intro n hn l hl
        show r.T n l = _
        by_cases h : n = k
        · subst h
          rw [r4 l hl]
          show (s.sign : ℂ) * _ * _ * _ = _
          rw [s1]; push_cast; ring
        · rw [r3 n h l]
          exact s2 n (by omega) l hl
  obtain ⟨s, e, -, h⟩ := outer nm
  unfold tnl
  rw [e]
  exact h n hn l hl

/-- exp(iω_n τ) on the scale of the Legendre polynomials. -/
theorem exp_omega {β : ℝ} (hβ : 0 < β) (n : ℕ) (x : ℝ) :
    Complex.exp (Complex.I * omega β n * ((β / 2 * x + β / 2 : ℝ) : ℂ)) =
      (-1) ^ n * Complex.I * Complex.exp (Complex.I * ((1 / 2 * (2 * n + 1) * Real.pi : ℝ) : ℂ) * x) := by
  have hb : (β : ℂ) ≠ 0 := by exact_mod_cast hβ.ne'
  have e : Complex.I * omega β n * ((β / 2 * x + β / 2 : ℝ) : ℂ) =
      (n : ℂ) * (Real.pi * Complex.I) + (Real.pi / 2 * Complex.I + Complex.I * ((1 / 2 * (2 * n + 1) * Real.pi : ℝ) : ℂ) * x) := by
    unfold omega
    push_cast
    field_simp
    ring
  rw [e, Complex.exp_add, Complex.exp_add, Complex.exp_nat_mul, Complex.exp_pi_mul_I]
  have : Complex.exp (Real.pi / 2 * Complex.I) = Complex.I := Complex.exp_pi_div_two_mul_I
  rw [this]
  ring

/-- The Fourier transform of one Legendre polynomial of time. -/
theorem fourier_leg {β : ℝ} (hβ : 0 < β) (n l : ℕ) :
    ∫ τ in (0 : ℝ)..β, Complex.exp (Complex.I * omega β n * τ) * (((legendreP l).eval (2 * τ / β - 1) : ℝ) : ℂ) =
      β * ((-1) ^ n * Complex.I ^ (l + 1) * (sphJ l (1 / 2 * (2 * n + 1) * Real.pi) : ℂ)) := by
  have hz : (1 / 2 * (2 * (n : ℝ) + 1) * Real.pi) ≠ 0 := by positivity
  have h := intervalIntegral.integral_comp_mul_add
    (fun τ : ℝ => Complex.exp (Complex.I * omega β n * τ) * (((legendreP l).eval (2 * τ / β - 1) : ℝ) : ℂ))
    (a := -1) (b := 1) (c := β / 2) (by positivity) (β / 2)
  rw [show β / 2 * -1 + β / 2 = 0 by ring, show β / 2 * 1 + β / 2 = β by ring] at h
  have e : ∀ x : ℝ, Complex.exp (Complex.I * omega β n * ((β / 2 * x + β / 2 : ℝ) : ℂ)) *
      (((legendreP l).eval (2 * (β / 2 * x + β / 2) / β - 1) : ℝ) : ℂ) =
      (-1) ^ n * Complex.I * ((((legendreP l).eval x : ℝ) : ℂ) *
        Complex.exp (Complex.I * ((1 / 2 * (2 * n + 1) * Real.pi : ℝ) : ℂ) * x)) := by
    intro x
    rw [exp_omega hβ, show 2 * (β / 2 * x + β / 2) / β - 1 = x by field_simp; ring]
    ring
  simp only [e] at h
  rw [intervalIntegral.integral_const_mul] at h
  have h2 := (legFourier_eq hz l).1
  unfold legFourier at h2
  rw [h2, Complex.real_smul] at h
  have hb : (β : ℂ) ≠ 0 := by exact_mod_cast hβ.ne'
  generalize (∫ τ in (0 : ℝ)..β, Complex.exp (Complex.I * omega β n * τ) * (((legendreP l).eval (2 * τ / β - 1) : ℝ) : ℂ)) = J
    at h ⊢
  generalize (sphJ l (1 / 2 * (2 * n + 1) * Real.pi)) = j at h ⊢
  have : J = β * (((β / 2)⁻¹ : ℝ) : ℂ) * J / 2 := by push_cast; field_simp
  rw [this, mul_assoc (β : ℂ), ← h]
  ring

/-- **C61.**  Each element of the matrix built by the constructor is the Fourier coefficient of one basis function of the
    Legendre expansion, for every β. -/
theorem C61_matrix {sj : ℕ → ℝ → ℝ} (hsj : IsSphBessel sj) {β : ℝ} (hβ : 0 < β) {nm nl n l : ℕ} (hn : n < nm) (hl : l < nl) :
    tnl sj nm nl n l =
      ∫ τ in (0 : ℝ)..β, Complex.exp (Complex.I * omega β n * τ) *
        ((Real.sqrt (2 * l + 1) / β * (legendreP l).eval (2 * τ / β - 1) : ℝ) : ℂ) := by
  rw [tnl_closed sj nm nl hn hl, hsj l _ (by positivity)]
  have e : ∀ τ : ℝ, Complex.exp (Complex.I * omega β n * τ) *
        ((Real.sqrt (2 * l + 1) / β * (legendreP l).eval (2 * τ / β - 1) : ℝ) : ℂ) =
      ((Real.sqrt (2 * l + 1) / β : ℝ) : ℂ) * (Complex.exp (Complex.I * omega β n * τ) *
        (((legendreP l).eval (2 * τ / β - 1) : ℝ) : ℂ)) := by
    intro τ; push_cast; ring
  simp only [e]
  rw [intervalIntegral.integral_const_mul, fourier_leg hβ]
  have hb : (β : ℂ) ≠ 0 := by exact_mod_cast hβ.ne'
  push_cast
  field_simp

theorem cont_leg (β : ℝ) (l : ℕ) : Continuous fun τ : ℝ => (legendreP l).eval (2 * τ / β - 1) :=
  (legendreP l).continuous.comp (by fun_prop)

/-- The sum of basis functions. -/
theorem fourier_expansion {sj : ℕ → ℝ → ℝ} (hsj : IsSphBessel sj) {β : ℝ} (hβ : 0 < β) {nm nl n : ℕ} (hn : n < nm) (s : ℕ → ℂ) :
    fourier β (expansion β nl s) n = ∑ l ∈ Finset.range nl, tnl sj nm nl n l * s l := by
  unfold fourier expansion
  simp only [Finset.mul_sum]
  rw [intervalIntegral.integral_finset_sum]
  · refine Finset.sum_congr rfl fun l hl => ?_
    rw [C61_matrix hsj hβ hn (Finset.mem_range.1 hl), ← intervalIntegral.integral_mul_const]
    congr 1; ext τ; ring
  · intro l _
    apply Continuous.intervalIntegrable
    have := cont_leg β l
    fun_prop

/-- The transformation loops: no access outside the arrays, and each element is the product of matrix and vector. -/
theorem postFreq_spec (nf ns nm nl : ℕ) (T : ℕ → ℕ → ℂ) (Sl : ℕ → ℂ) :
    ∃ Sw, postFreq nf ns nm nl T Sl = .ok Sw ∧ ∀ f < nf, ∀ a < ns, ∀ b < ns, ∀ n < nm,
      Sw (off4 ns ns nf n a b f) = ∑ l ∈ Finset.range nl, T n l * Sl (off4 ns ns nf l a b f) := by
  have hw : ∀ f a b n, ((List.range nl).map fun l => T n l * Sl (off4 ns ns nf l a b f)).sum =
      ∑ l ∈ Finset.range nl, T n l * Sl (off4 ns ns nf l a b f) := by
    intro f a b n
    rfl
  have h := MeasIn.loops4 nf ns ns nm (fun f a b n (Sw : ℕ → ℂ) => do
      Res.assert (n < nm ∧ a < ns ∧ b < ns ∧ f < nf)
      pure (Function.update Sw (off4 ns ns nf n a b f)
        ((List.range nl).map fun l => T n l * Sl (off4 ns ns nf l a b f)).sum))
    (fun p S => ∀ f < nf, ∀ a < ns, ∀ b < ns, ∀ n < nm, off4 ns ns nm f a b n < p →
      S (off4 ns ns nf n a b f) = ∑ l ∈ Finset.range nl, T n l * Sl (off4 ns ns nf l a b f)) (fun _ => 0)
    (fun _ _ _ _ _ _ _ _ h => by omega) ?_
  · obtain ⟨Sw, e, hS⟩ := h
    exact ⟨Sw, e, fun f hf a ha b hb n hn => hS f hf a ha b hb n hn (MeasIn.off4_lt hf ha hb hn)⟩
  · intro f hf a ha b hb n hn S hS
    refine ⟨_, by rw [Res.assert_true ⟨hn, ha, hb, hf⟩]; rfl, ?_⟩
    intro f' hf' a' ha' b' hb' n' hn' hlt
    by_cases heq : off4 ns ns nf n' a' b' f' = off4 ns ns nf n a b f
    · obtain ⟨rfl, rfl, rfl, rfl⟩ := (off4_inj ha' ha hb' hb hf' hf).1 heq
      rw [Function.update_self, hw]
    · rw [Function.update_of_ne heq]
      refine hS f' hf' a' ha' b' hb' n' hn' (lt_of_le_of_ne (by omega) fun h => heq ?_)
      obtain ⟨rfl, rfl, rfl, rfl⟩ := (off4_inj ha' ha hb' hb hn' hn).1 h
      rfl

/-- **C61.**  Post-processing of the binned self-energy: every call is defined, and the values written for frequency `n`
    are ∫₀^β exp(iω_n τ) S(τ) dτ, where S is the function of time whose Legendre coefficients are the ones written out. -/
theorem C61_frequencies {sj : ℕ → ℝ → ℝ} (hsj : IsSphBessel sj) (nf ns nb nm nl : ℕ) (hl : 0 < nl) {β : ℝ} (hβ : 0 < β)
    (sign : ℝ) (junkP : ℕ → ℕ → ℝ) (stau : ℕ → ℂ) :
    ∃ S Sl Sw, postBinning nf ns nb nl β sign junkP stau = .ok (S, Sl) ∧
      postFreq nf ns nm nl (tnl sj nm nl) Sl = .ok Sw ∧
      ∀ f < nf, ∀ a < ns, ∀ b < ns, ∀ n < nm,
        Sw (off4 ns ns nf n a b f) = fourier β (expansion β nl fun l => Sl (off4 ns ns nf l a b f)) n := by
  obtain ⟨S, Sl, e, -, -⟩ := postBinning_spec nf ns nb nl hl β sign junkP stau
  obtain ⟨Sw, e2, h⟩ := postFreq_spec nf ns nm nl (tnl sj nm nl) Sl
  refine ⟨S, Sl, Sw, e, e2, fun f hf a ha b hb n hn => ?_⟩
  rw [h f hf a ha b hb n hn, fourier_expansion hsj hβ hn]

/-- **C61.**  The expansion is the right one: its Legendre coefficients are the numbers it was made of. -/
theorem C61_coefficients {β : ℝ} (hβ : 0 < β) {nl l : ℕ} (hl : l < nl) (s : ℕ → ℂ) :
    legendreCoeff β (expansion β nl s) l = s l := by
  have key : ∀ k : ℕ, ∫ τ in (0 : ℝ)..β, (legendreP l).eval (2 * τ / β - 1) * (legendreP k).eval (2 * τ / β - 1) =
      β / 2 * ∫ x in (-1 : ℝ)..1, (legendreP l).eval x * (legendreP k).eval x := by
    intro k
    have h := intervalIntegral.integral_comp_mul_add
      (fun τ : ℝ => (legendreP l).eval (2 * τ / β - 1) * (legendreP k).eval (2 * τ / β - 1))
      (a := -1) (b := 1) (c := β / 2) (by positivity) (β / 2)
    rw [show β / 2 * -1 + β / 2 = 0 by ring, show β / 2 * 1 + β / 2 = β by ring] at h
    have e : ∀ x : ℝ, 2 * (β / 2 * x + β / 2) / β - 1 = x := by intro x; field_simp; ring
    simp only [e, smul_eq_mul] at h
    rw [h]
    field_simp
  unfold legendreCoeff expansion
  simp only [Finset.mul_sum]
  rw [intervalIntegral.integral_finset_sum]
  · have term : ∀ k : ℕ, ∫ τ in (0 : ℝ)..β, ((Real.sqrt (2 * l + 1) * (legendreP l).eval (2 * τ / β - 1) : ℝ) : ℂ) *
        (((Real.sqrt (2 * k + 1) / β * (legendreP k).eval (2 * τ / β - 1) : ℝ) : ℂ) * s k) =
        ((Real.sqrt (2 * l + 1) * Real.sqrt (2 * k + 1) / 2 *
          ∫ x in (-1 : ℝ)..1, (legendreP l).eval x * (legendreP k).eval x : ℝ) : ℂ) * s k := by
      intro k
      have e : ∀ τ : ℝ, ((Real.sqrt (2 * l + 1) * (legendreP l).eval (2 * τ / β - 1) : ℝ) : ℂ) *
          (((Real.sqrt (2 * k + 1) / β * (legendreP k).eval (2 * τ / β - 1) : ℝ) : ℂ) * s k) =
          ((Real.sqrt (2 * l + 1) * Real.sqrt (2 * k + 1) / β *
            ((legendreP l).eval (2 * τ / β - 1) * (legendreP k).eval (2 * τ / β - 1)) : ℝ) : ℂ) * s k := by
        intro τ; push_cast; ring
      simp only [e]
      rw [intervalIntegral.integral_mul_const, intervalIntegral.integral_ofReal, intervalIntegral.integral_const_mul, key]
      congr 2
      field_simp
    simp only [term]
    rw [Finset.sum_eq_single l]
    · rw [leg_norm, Real.mul_self_sqrt (by positivity)]
      have : (2 * (l : ℝ) + 1) ≠ 0 := by positivity
      rw [show (2 * (l : ℝ) + 1) / 2 * (2 / (2 * l + 1)) = 1 by field_simp]
      simp
    · intro k _ hk
      rw [leg_orth (Ne.symm hk)]
      simp
    · intro h; exact absurd (Finset.mem_range.2 hl) h
  · intro k _
    apply Continuous.intervalIntegrable
    have h1 := cont_leg β l
    have h2 := cont_leg β k
    fun_prop

/-- The assumption on the library can be met, and the first element is 2i/π. -/
example : IsSphBessel sphJ ∧ tnl sphJ 1 1 0 0 = 2 / Real.pi * Complex.I := by
  refine ⟨fun _ _ _ => rfl, ?_⟩
  rw [tnl_closed sphJ 1 1 (by norm_num) (by norm_num)]
  have : (1 / 2 * (2 * ((0 : ℕ) : ℝ) + 1) * Real.pi) = Real.pi / 2 := by push_cast; ring
  rw [this, sphJ, Real.sin_pi_div_two]
  have : (Real.pi : ℂ) ≠ 0 := by exact_mod_cast Real.pi_ne_zero
  push_cast
  simp
  ring

end CTInt
