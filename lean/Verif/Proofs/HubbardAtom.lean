import Verif.Proofs.Atomic
import Verif.Spec.Hubbard
import Verif.Props.FockDensity

/-!
# Isolated sites of the Hubbard model
-/

set_option linter.all false

namespace CTInt

open NormedSpace Matrix

variable {n : Type} [Fintype n] [DecidableEq n] {ns : ℕ} {β U : ℝ} {a : ℕ → ℕ → Matrix n n ℝ}

theorem exp_kill {A B : Matrix n n ℝ} (h : A * B = 0) : exp A * B = B := by
  open scoped Matrix.Norms.Operator in
  have h1 := (NormedSpace.exp_series_hasSum_exp' (𝕂 := ℝ) A).mul_right B
  have h2 : HasSum (fun k : ℕ => ((k.factorial : ℝ)⁻¹ • A ^ k) * B) B := by
    have := hasSum_single (f := fun k : ℕ => ((k.factorial : ℝ)⁻¹ • A ^ k) * B) 0 fun k hk => by
      obtain ⟨j, rfl⟩ := Nat.exists_eq_succ_of_ne_zero hk
      rw [pow_succ, smul_mul_assoc, mul_assoc, h, mul_zero, smul_zero]
    simpa using this
  exact h1.unique h2

theorem involution_exp {P : Matrix n n ℝ} (hP : P * P = 1) (κ : ℝ) : exp (-κ • P) = Real.cosh κ • 1 - Real.sinh κ • P := by
  have e : ∀ k : ℝ, exp (k • (1 : Matrix n n ℝ)) = Real.exp k • 1 := by
    intro k
    have e : ∀ r : ℝ, r • (1 : Matrix n n ℝ) = diagonal fun _ => r := fun r => by
      rw [← diagonal_one, ← diagonal_smul]
      congr 1
      funext i
      simp
    rw [e, e, exp_diagonal]
    congr 1
    funext i
    rw [Pi.coe_exp, Real.exp_eq_exp_ℝ]
  have h1 : exp (-κ • P) * (1 + P) = Real.exp (-κ) • (1 + P) := by
    have := exp_kill (A := -κ • P + κ • 1) (B := 1 + P) (by rw [add_mul, smul_mul_assoc, smul_mul_assoc, mul_add, hP]; simp)
    have e2 : exp (-κ • P) = Real.exp (-κ) • exp (-κ • P + κ • (1 : Matrix n n ℝ)) := by
      rw [Matrix.exp_add_of_commute _ _ ((Commute.one_right _).smul_right _), e, mul_smul_comm, mul_one, smul_smul, ← Real.exp_add, neg_add_cancel, Real.exp_zero, one_smul]
    rw [e2, smul_mul_assoc, this]
  have h2 : exp (-κ • P) * (1 - P) = Real.exp κ • (1 - P) := by
    have := exp_kill (A := -κ • P + (-κ) • 1) (B := 1 - P) (by rw [add_mul, smul_mul_assoc, smul_mul_assoc, mul_sub, hP]; simp; module)
    have e2 : exp (-κ • P) = Real.exp κ • exp (-κ • P + (-κ) • (1 : Matrix n n ℝ)) := by
      rw [Matrix.exp_add_of_commute _ _ ((Commute.one_right _).smul_right _), e, mul_smul_comm, mul_one, smul_smul, ← Real.exp_add, add_neg_cancel, Real.exp_zero, one_smul]
    rw [e2, smul_mul_assoc, this]
  have h3 : exp (-κ • P) = (1 / 2 : ℝ) • (exp (-κ • P) * (1 + P) + exp (-κ • P) * (1 - P)) := by
    rw [← mul_add]
    rw [show (1 + P) + (1 - P) = (2 : ℝ) • (1 : Matrix n n ℝ) by module, mul_smul_comm, mul_one, smul_smul]
    norm_num
  rw [h3, h1, h2, Real.cosh_eq, Real.sinh_eq]
  module

/-- tr(e^{-κP} E P) and tr(e^{-κP} E) for P² = 1, if tr(P E) = 0. -/
theorem involution_average {P E : Matrix n n ℝ} (hP : P * P = 1) (h0 : (P * E).trace = 0) (κ : ℝ) :
    (exp (-κ • P) * E * P).trace = - Real.sinh κ * E.trace ∧ (exp (-κ • P) * E).trace = Real.cosh κ * E.trace := by
  have key := involution_exp hP κ
  rw [key]
  constructor
  · rw [sub_mul, sub_mul, Matrix.trace_sub, smul_mul_assoc, smul_mul_assoc, one_mul, smul_mul_assoc, smul_mul_assoc, trace_smul, trace_smul, trace_mul_comm E, h0,
      trace_mul_comm (P * E), ← mul_assoc, hP, one_mul]
    simp
  · rw [sub_mul, Matrix.trace_sub, smul_mul_assoc, smul_mul_assoc, one_mul, trace_smul, trace_smul, h0]
    simp

/-! ## Flipping one spin -/

/-- The operator that flips the occupation of flavor `z` on site `s`. -/
noncomputable def flip (a : ℕ → ℕ → Matrix n n ℝ) (z s : ℕ) : Matrix n n ℝ := a z s + (a z s)ᴴ

/-- The density of flavor `z` on site `s`, counted from one half. -/
noncomputable def halfOcc (a : ℕ → ℕ → Matrix n n ℝ) (z s : ℕ) : Matrix n n ℝ := (a z s)ᴴ * a z s - (1 / 2 : ℝ) • 1

theorem nilpotent {nf : ℕ} (ha : Annihilators nf ns a) {z s : ℕ} (hz : z < nf) (hs : s < ns) : a z s * a z s = 0 ∧ (a z s)ᴴ * (a z s)ᴴ = 0 := by
  have h1 : a z s * a z s = 0 := by
    have := ha.same z hz s hs z hz s hs
    rw [← two_smul ℝ] at this
    exact (smul_eq_zero.1 this).resolve_left two_ne_zero
  refine ⟨h1, ?_⟩
  have := congrArg conjTranspose h1
  rwa [Matrix.conjTranspose_mul, Matrix.conjTranspose_zero] at this

theorem flip_flip {nf : ℕ} (ha : Annihilators nf ns a) {z s : ℕ} (hz : z < nf) (hs : s < ns) : flip a z s * flip a z s = 1 := by
  have h := ha.mixed z hz s hs z hz s hs
  rw [if_pos ⟨rfl, rfl⟩] at h
  obtain ⟨h1, h2⟩ := nilpotent ha hz hs
  unfold flip
  rw [add_mul, mul_add, mul_add, h1, h2, zero_add, add_zero, h]

theorem flip_half {nf : ℕ} (ha : Annihilators nf ns a) {z s : ℕ} (hz : z < nf) (hs : s < ns) : flip a z s * halfOcc a z s = -(halfOcc a z s * flip a z s) := by
  have h := ha.mixed z hz s hs z hz s hs
  rw [if_pos ⟨rfl, rfl⟩] at h
  obtain ⟨h1, h2⟩ := nilpotent ha hz hs
  have e1 : a z s * (a z s)ᴴ * a z s = a z s := by
    rw [eq_sub_of_add_eq h, sub_mul, one_mul, mul_assoc, h1, mul_zero, sub_zero]
  have e2 : (a z s)ᴴ * (a z s * (a z s)ᴴ) = (a z s)ᴴ := by
    rw [eq_sub_of_add_eq h, mul_sub, mul_one, ← mul_assoc, h2, zero_mul, sub_zero]
  unfold flip halfOcc
  rw [mul_sub, sub_mul, add_mul, ← mul_assoc, e1, ← mul_assoc, h2, zero_mul, mul_add, mul_assoc _ _ (a z s), h1, mul_zero, mul_assoc, e2, smul_mul_assoc, mul_smul_comm, one_mul, mul_one]
  module

theorem flip_apart {nf : ℕ} (ha : Annihilators nf ns a) {z s z' s' : ℕ} (hz : z < nf) (hs : s < ns) (hz' : z' < nf) (hs' : s' < ns) (hne : ¬ (z = z' ∧ s = s')) :
    Commute (flip a z s) (halfOcc a z' s') := by
  have e1 : a z s * a z' s' = - (a z' s' * a z s) := eq_neg_of_add_eq_zero_left (ha.same z hz s hs z' hz' s' hs')
  have e2 : a z s * (a z' s')ᴴ = - ((a z' s')ᴴ * a z s) := by
    have := ha.mixed z hz s hs z' hz' s' hs'
    rw [if_neg hne] at this
    exact eq_neg_of_add_eq_zero_left this
  have h1 : Commute (a z s) ((a z' s')ᴴ * a z' s') := by
    show _ * _ = _ * _
    rw [← mul_assoc, e2, neg_mul, mul_assoc, e1, mul_neg, neg_neg, mul_assoc]
  have h2 : Commute (a z s)ᴴ ((a z' s')ᴴ * a z' s') := by
    have := congrArg conjTranspose (show a z s * ((a z' s')ᴴ * a z' s') = (a z' s')ᴴ * a z' s' * a z s from h1)
    simp only [Matrix.conjTranspose_mul, Matrix.conjTranspose_conjTranspose] at this
    exact this.symm
  unfold flip halfOcc
  exact (h1.add_left h2).sub_right ((Commute.one_right _).smul_right _)

theorem half_sq {nf : ℕ} (ha : Annihilators nf ns a) {z s : ℕ} (hz : z < nf) (hs : s < ns) : halfOcc a z s * halfOcc a z s = (1 / 4 : ℝ) • 1 := by
  unfold halfOcc
  rw [sub_mul, mul_sub, mul_sub, density_idem ha hz hs, smul_mul_assoc, mul_smul_comm, one_mul, mul_one, smul_mul_assoc, one_mul, smul_smul]
  module

theorem half_commute {nf : ℕ} (ha : Annihilators nf ns a) {z s z' s' : ℕ} (hz : z < nf) (hs : s < ns) (hz' : z' < nf) (hs' : s' < ns) : Commute (halfOcc a z s) (halfOcc a z' s') := by
  by_cases h : z = z' ∧ s = s'
  · obtain ⟨rfl, rfl⟩ := h
    exact Commute.refl _
  · unfold halfOcc
    exact ((density_commute ha hz hs hz' hs' h).sub_right ((Commute.one_right _).smul_right _)).sub_left (((Commute.one_left _).smul_left _))

theorem flip_trace {W Z E : Matrix n n ℝ} (hW : W * W = 1) (hZ : W * Z = -(Z * W)) (hE : Commute W E) : (Z * E).trace = 0 := by
  have h1 : (W * (Z * E * W)).trace = (Z * E).trace := by rw [trace_mul_comm, mul_assoc, hW, mul_one]
  have h2 : W * (Z * E * W) = -(Z * E) := by
    rw [mul_assoc Z, ← hE.eq, ← mul_assoc, hZ, neg_mul, mul_assoc, ← mul_assoc W, hW, one_mul]
  rw [h2, Matrix.trace_neg] at h1
  linarith

theorem pairOn_half (s : ℕ) : pairOn a s = halfOcc a 0 s * halfOcc a 1 s := rfl

/-- The averages on one of several isolated sites. -/
theorem isolated_averages (ha : Annihilators 2 ns a) {s : ℕ} (hs : s < ns) (β U : ℝ) (hZ : (exp (-β • hubbardV U ns a)).trace ≠ 0) :
    thermal β (hubbardV U ns a) (pairOn a s) = -(Real.tanh (β * U / 4) / 4) ∧
    thermal β (hubbardV U ns a) (halfOcc a 0 s) = 0 ∧ thermal β (hubbardV U ns a) (halfOcc a 1 s) = 0 := by
  have z0 : 0 < 2 := by norm_num
  have z1 : 1 < 2 := by norm_num
  set X := halfOcc a 0 s with hX
  set Y := halfOcc a 1 s with hY
  have hXY : Commute X Y := half_commute ha z0 hs z1 hs
  have hXX : X * X = (1 / 4 : ℝ) • 1 := half_sq ha z0 hs
  have hYY : Y * Y = (1 / 4 : ℝ) • 1 := half_sq ha z1 hs
  set P : Matrix n n ℝ := (4 : ℝ) • (X * Y) with hP
  have hPP : P * P = 1 := by
    rw [hP, smul_mul_assoc, mul_smul_comm, hXY.symm.mul_mul_mul_comm, hXX, hYY, smul_mul_assoc, one_mul, smul_smul, smul_smul, smul_smul]
    norm_num
  set R : Matrix n n ℝ := ∑ s' ∈ (Finset.range ns).erase s, pairOn a s' with hR
  have hsum : ∑ s' ∈ Finset.range ns, pairOn a s' = X * Y + R := (Finset.add_sum_erase _ _ (Finset.mem_range.2 hs)).symm
  have hW0 : ∀ z < 2, Commute (flip a z s) R := by
    intro z hz
    refine Commute.sum_right _ _ _ fun s' hs' => ?_
    obtain ⟨q1, q2⟩ := Finset.mem_erase.1 hs'
    rw [pairOn_half]
    exact (flip_apart ha hz hs z0 (Finset.mem_range.1 q2) fun e => q1 e.2.symm).mul_right (flip_apart ha hz hs z1 (Finset.mem_range.1 q2) fun e => q1 e.2.symm)
  have hPR : Commute P R := by
    refine Commute.sum_right _ _ _ fun s' hs' => ?_
    obtain ⟨q1, q2⟩ := Finset.mem_erase.1 hs'
    have q2 := Finset.mem_range.1 q2
    rw [pairOn_half]
    exact ((((half_commute ha z0 hs z0 q2).mul_right (half_commute ha z0 hs z1 q2)).mul_left
      ((half_commute ha z1 hs z0 q2).mul_right (half_commute ha z1 hs z1 q2))).smul_left _)
  set E : Matrix n n ℝ := exp (-(β * U) • R) with hE
  have hWE : ∀ z < 2, Commute (flip a z s) E := fun z hz => by
    open scoped Matrix.Norms.Operator in
    exact ((hW0 z hz).smul_right _).exp_right
  have hexp : exp (-β • hubbardV U ns a) = exp (-(β * U / 4) • P) * E := by
    rw [hE, ← Matrix.exp_add_of_commute _ _ ((hPR.smul_left _).smul_right _)]
    congr 1
    unfold hubbardV
    rw [hsum, hP]
    module
  have f0 := flip_half ha z0 hs
  have f1 := flip_half ha z1 hs
  have c01 : Commute (flip a 0 s) Y := flip_apart ha z0 hs z1 hs (by simp)
  have tX : (X * E).trace = 0 := flip_trace (flip_flip ha z0 hs) f0 (hWE 0 z0)
  have tY : (Y * E).trace = 0 := flip_trace (flip_flip ha z1 hs) f1 (hWE 1 z1)
  have tP : (P * E).trace = 0 := by
    refine flip_trace (flip_flip ha z0 hs) ?_ (hWE 0 z0)
    rw [hP, mul_smul_comm, ← mul_assoc, f0, neg_mul, mul_assoc, c01.eq, smul_mul_assoc, smul_neg, mul_assoc]
  obtain ⟨k1, k2⟩ := involution_average hPP tP (β * U / 4)
  have key := involution_exp hPP (β * U / 4)
  have hE0 : E.trace ≠ 0 := fun h => hZ (by rw [hexp, k2, h, mul_zero])
  have hPX : P * X = Y := by
    rw [hP, smul_mul_assoc, mul_assoc, ← hXY.eq, ← mul_assoc, hXX, smul_mul_assoc, one_mul, smul_smul]
    norm_num
  have hPY : P * Y = X := by
    rw [hP, smul_mul_assoc, mul_assoc, hYY, mul_smul_comm, mul_one, smul_smul]
    norm_num
  have hEX : Commute X E := by
    open scoped Matrix.Norms.Operator in
    refine Commute.exp_right (Commute.smul_right (Commute.sum_right _ _ _ fun s' hs' => ?_) _)
    have q2 := Finset.mem_range.1 (Finset.mem_erase.1 hs').2
    exact (half_commute ha z0 hs z0 q2).mul_right (half_commute ha z0 hs z1 q2)
  have hEY : Commute Y E := by
    open scoped Matrix.Norms.Operator in
    refine Commute.exp_right (Commute.smul_right (Commute.sum_right _ _ _ fun s' hs' => ?_) _)
    have q2 := Finset.mem_range.1 (Finset.mem_erase.1 hs').2
    exact (half_commute ha z1 hs z0 q2).mul_right (half_commute ha z1 hs z1 q2)
  have hc := (Real.cosh_pos (β * U / 4)).ne'
  unfold thermal
  simp only [RCLike.ofReal_real_eq_id, id]
  refine ⟨?_, ?_, ?_⟩
  · rw [hexp, k2, show pairOn a s = (1 / 4 : ℝ) • P by rw [hP, smul_smul, show (1 / 4 * 4 : ℝ) = 1 by norm_num, one_smul]; rfl, mul_smul_comm, trace_smul, k1, Real.tanh_eq_sinh_div_cosh, smul_eq_mul]
    field_simp
  · rw [hexp, mul_assoc, ← hEX.eq, key, sub_mul, smul_mul_assoc, one_mul, smul_mul_assoc, ← mul_assoc P, hPX, Matrix.trace_sub, trace_smul, trace_smul, tX, tY]
    simp
  · rw [hexp, mul_assoc, ← hEY.eq, key, sub_mul, smul_mul_assoc, one_mul, smul_mul_assoc, ← mul_assoc P, hPY, Matrix.trace_sub, trace_smul, trace_smul, tX, tY]
    simp

/-! ## Evolution in imaginary time -/

theorem exp_intertwine {X Z A : Matrix n n ℝ} (h : X * A = A * Z) : exp X * A = A * exp Z := by
  open scoped Matrix.Norms.Operator in
  exact (SemiconjBy.exp_right (show SemiconjBy A Z X from h.symm)).eq.symm

theorem annihilator_apart {nf : ℕ} (ha : Annihilators nf ns a) {z s z' s' : ℕ} (hz : z < nf) (hs : s < ns) (hz' : z' < nf) (hs' : s' < ns) (hne : ¬ (z = z' ∧ s = s')) :
    Commute (a z s) (halfOcc a z' s') := by
  have e1 : a z s * a z' s' = - (a z' s' * a z s) := eq_neg_of_add_eq_zero_left (ha.same z hz s hs z' hz' s' hs')
  have e2 : a z s * (a z' s')ᴴ = - ((a z' s')ᴴ * a z s) := by
    have := ha.mixed z hz s hs z' hz' s' hs'
    rw [if_neg hne] at this
    exact eq_neg_of_add_eq_zero_left this
  have h1 : Commute (a z s) ((a z' s')ᴴ * a z' s') := by
    show _ * _ = _ * _
    rw [← mul_assoc, e2, neg_mul, mul_assoc, e1, mul_neg, neg_neg, mul_assoc]
  unfold halfOcc
  exact h1.sub_right ((Commute.one_right _).smul_right _)

theorem pairOn_flavor (ha : Annihilators 2 ns a) {z s : ℕ} (hz : z < 2) (hs : s < ns) : pairOn a s = halfOcc a z s * halfOcc a (1 - z) s := by
  obtain rfl | rfl : z = 0 ∨ z = 1 := by omega
  · rfl
  · exact (half_commute ha (by norm_num) hs (by norm_num) hs).eq

/-- The repulsion changes by U (n - 1/2) of the other flavor when a particle is removed. -/
theorem hubbard_remove (ha : Annihilators 2 ns a) {z s : ℕ} (hz : z < 2) (hs : s < ns) (U : ℝ) :
    hubbardV U ns a * a z s = a z s * (hubbardV U ns a - U • halfOcc a (1 - z) s) := by
  have h := ha.mixed z hz s hs z hz s hs
  rw [if_pos ⟨rfl, rfl⟩] at h
  obtain ⟨h1, h2⟩ := nilpotent ha hz hs
  have e1 : a z s * ((a z s)ᴴ * a z s) = a z s := by
    rw [← mul_assoc, eq_sub_of_add_eq h, sub_mul, one_mul, mul_assoc, h1, mul_zero, sub_zero]
  have e2 : halfOcc a z s * a z s = a z s * halfOcc a z s - a z s := by
    unfold halfOcc
    rw [sub_mul, mul_sub, e1, mul_assoc, h1, mul_zero, smul_mul_assoc, one_mul, mul_smul_comm, mul_one]
    module
  have z' : 1 - z < 2 := by omega
  have c1 : Commute (a z s) (halfOcc a (1 - z) s) := annihilator_apart ha hz hs z' hs (by omega)
  have hR : Commute (a z s) (∑ s' ∈ (Finset.range ns).erase s, pairOn a s') := by
    refine Commute.sum_right _ _ _ fun s' hs' => ?_
    obtain ⟨q1, q2⟩ := Finset.mem_erase.1 hs'
    rw [pairOn_half]
    exact (annihilator_apart ha hz hs (by norm_num) (Finset.mem_range.1 q2) fun e => q1 e.2.symm).mul_right
      (annihilator_apart ha hz hs (by norm_num) (Finset.mem_range.1 q2) fun e => q1 e.2.symm)
  unfold hubbardV
  rw [← Finset.add_sum_erase _ _ (Finset.mem_range.2 hs), pairOn_flavor ha hz hs, ← smul_sub, smul_mul_assoc, mul_smul_comm]
  congr 1
  rw [add_mul, ← hR.eq, mul_assoc, ← c1.eq, ← mul_assoc, e2, mul_sub, mul_add, sub_mul, mul_assoc]
  abel

theorem half_hubbard (ha : Annihilators 2 ns a) {z s : ℕ} (hz : z < 2) (hs : s < ns) (U : ℝ) : Commute (halfOcc a z s) (hubbardV U ns a) := by
  unfold hubbardV
  refine Commute.smul_right (Commute.sum_right _ _ _ fun s' hs' => ?_) _
  have q2 := Finset.mem_range.1 hs'
  exact (half_commute ha hz hs (by norm_num) q2).mul_right (half_commute ha hz hs (by norm_num) q2)

/-- The Green's function of an isolated site. -/
theorem isolated_green (ha : Annihilators 2 ns a) {z s : ℕ} (hz : z < 2) (hs : s < ns) (β U u : ℝ) (hZ : (exp (-β • hubbardV U ns a)).trace ≠ 0) :
    greenOf β a (hubbardV U ns a) z s s u = (Real.sinh (u * U / 2) * Real.tanh (β * U / 4) - Real.cosh (u * U / 2)) / 2 := by
  have z' : 1 - z < 2 := by omega
  have hev : atTime (hubbardV U ns a) u (a z s) = a z s * exp (-(u * U) • halfOcc a (1 - z) s) := by
    unfold atTime
    simp only [RCLike.ofReal_real_eq_id, id]
    have c := half_hubbard ha z' hs U
    rw [exp_intertwine (Z := u • hubbardV U ns a + -(u * U) • halfOcc a (1 - z) s) (by
        rw [smul_mul_assoc, hubbard_remove ha hz hs, ← mul_smul_comm]; congr 1; module), mul_assoc, ← Matrix.exp_add_of_commute]
    · congr 2
      module
    · exact ((Commute.refl _).smul_left _ |>.smul_right _ |>.neg_right).add_left ((c.smul_left _).smul_right _).neg_right
  have hYY := half_sq ha z' hs
  have hinv : ((2 : ℝ) • halfOcc a (1 - z) s) * ((2 : ℝ) • halfOcc a (1 - z) s) = 1 := by
    rw [smul_mul_assoc, mul_smul_comm, hYY, smul_smul, smul_smul]
    norm_num
  have hexp : exp (-(u * U) • halfOcc a (1 - z) s) = Real.cosh (u * U / 2) • 1 - Real.sinh (u * U / 2) • ((2 : ℝ) • halfOcc a (1 - z) s) := by
    rw [← involution_exp hinv]
    congr 1
    module
  have c1 : Commute (a z s) (halfOcc a (1 - z) s) := annihilator_apart ha hz hs z' hs (by omega)
  have h := ha.mixed z hz s hs z hz s hs
  rw [if_pos ⟨rfl, rfl⟩] at h
  have hN : a z s * (a z s)ᴴ = (1 / 2 : ℝ) • 1 - halfOcc a z s := by
    rw [eq_sub_of_add_eq h]
    unfold halfOcc
    module
  have hop : atTime (hubbardV U ns a) u (a z s) * (a z s)ᴴ = (Real.cosh (u * U / 2) / 2) • 1 - Real.cosh (u * U / 2) • halfOcc a z s -
      Real.sinh (u * U / 2) • halfOcc a (1 - z) s + (2 * Real.sinh (u * U / 2)) • pairOn a s := by
    rw [hev, hexp, pairOn_flavor ha hz hs, mul_sub, mul_smul_comm, mul_one, mul_smul_comm, mul_smul_comm, c1.eq, sub_mul, smul_mul_assoc, smul_mul_assoc, smul_mul_assoc,
      mul_assoc, hN, mul_sub, mul_smul_comm, mul_one, (half_commute ha z' hs hz hs).eq]
    module
  obtain ⟨h1, h2, h3⟩ := isolated_averages ha hs β U hZ
  have e1 : thermal β (hubbardV U ns a) 1 = 1 := by
    unfold thermal
    rw [mul_one]
    exact div_self hZ
  have h4 : ∀ z < 2, thermal β (hubbardV U ns a) (halfOcc a z s) = 0 := fun z hz => by
    obtain rfl | rfl : z = 0 ∨ z = 1 := by omega
    · exact h2
    · exact h3
  unfold greenOf
  rw [hop, thermal_eq, map_add, map_sub, map_sub, map_smul, map_smul, map_smul, map_smul, ← thermal_eq, ← thermal_eq, ← thermal_eq, ← thermal_eq, h1, h4 _ hz, h4 _ z', e1]
  simp only [smul_eq_mul]
  ring

/-! ## Different sites -/

theorem flip_thermal {W W' H Z : Matrix n n ℝ} (hW : W * W' = 1) (hH : Commute W H) (hZ : W * Z = -(Z * W)) (β : ℝ) : thermal β H Z = 0 := by
  have hE : Commute W (exp (-β • H)) := by
    open scoped Matrix.Norms.Operator in
    exact (hH.smul_right _).exp_right
  have hW' : W' * W = 1 := _root_.mul_eq_one_comm.1 hW
  have h1 : (W * (exp (-β • H) * Z * W')).trace = (exp (-β • H) * Z).trace := by rw [trace_mul_comm, mul_assoc, hW', mul_one]
  have h2 : W * (exp (-β • H) * Z * W') = -(exp (-β • H) * Z) := by
    rw [mul_assoc (exp (-β • H)), ← mul_assoc, hE.eq, mul_assoc, ← mul_assoc W, hZ, neg_mul, mul_assoc, hW, mul_one, mul_neg]
  rw [h2, Matrix.trace_neg] at h1
  unfold thermal
  simp only [RCLike.ofReal_real_eq_id, id]
  rw [show (exp (-β • H) * Z).trace = 0 by linarith, zero_div]

/-- Densities of different sites are not correlated. -/
theorem isolated_apart (ha : Annihilators 2 ns a) {z s z' s' : ℕ} (hz : z < 2) (hs : s < ns) (hz' : z' < 2) (hs' : s' < ns) (hne : s ≠ s') (β U : ℝ) :
    thermal β (hubbardV U ns a) (halfOcc a z s * halfOcc a z' s') = 0 := by
  have z0 : 0 < 2 := by norm_num
  have z1 : 1 < 2 := by norm_num
  have f0 := flip_half ha z0 hs
  have f1 := flip_half ha z1 hs
  have c01 : Commute (flip a 0 s) (halfOcc a 1 s) := flip_apart ha z0 hs z1 hs (by simp)
  have c10 : Commute (flip a 1 s) (halfOcc a 0 s) := flip_apart ha z1 hs z0 hs (by simp)
  have k0 : flip a 0 s * flip a 1 s * halfOcc a 0 s = -(halfOcc a 0 s * (flip a 0 s * flip a 1 s)) := by
    rw [mul_assoc, c10.eq, ← mul_assoc, f0, neg_mul, mul_assoc]
  have k1 : flip a 0 s * flip a 1 s * halfOcc a 1 s = -(halfOcc a 1 s * (flip a 0 s * flip a 1 s)) := by
    rw [mul_assoc, f1, mul_neg, ← mul_assoc, c01.eq, mul_assoc]
  have kz : flip a 0 s * flip a 1 s * halfOcc a z s = -(halfOcc a z s * (flip a 0 s * flip a 1 s)) := by
    obtain rfl | rfl : z = 0 ∨ z = 1 := by omega
    · exact k0
    · exact k1
  have kc : ∀ z' < 2, ∀ t < ns, s ≠ t → Commute (flip a 0 s * flip a 1 s) (halfOcc a z' t) := fun z' hz' t ht hne =>
    (flip_apart ha z0 hs hz' ht fun e => hne e.2).mul_left (flip_apart ha z1 hs hz' ht fun e => hne e.2)
  refine flip_thermal (W := flip a 0 s * flip a 1 s) (W' := flip a 1 s * flip a 0 s) ?_ ?_ ?_ β
  · rw [mul_assoc, ← mul_assoc (flip a 1 s), flip_flip ha z1 hs, one_mul, flip_flip ha z0 hs]
  · unfold hubbardV
    refine Commute.smul_right (Commute.sum_right _ _ _ fun t ht => ?_) _
    have ht := Finset.mem_range.1 ht
    rw [pairOn_half]
    by_cases e : s = t
    · subst e
      show _ * _ = _ * _
      rw [← mul_assoc, k0, neg_mul, mul_assoc, k1, mul_neg, neg_neg, mul_assoc]
    · exact (kc 0 z0 t ht e).mul_right (kc 1 z1 t ht e)
  · rw [← mul_assoc, kz, neg_mul, mul_assoc, (kc z' hz' s' hs' hne).eq, mul_assoc]

/-- The Green's function between different isolated sites vanishes. -/
theorem isolated_green_apart (ha : Annihilators 2 ns a) {z s s' : ℕ} (hz : z < 2) (hs : s < ns) (hs' : s' < ns) (hne : s ≠ s') (β U u : ℝ) :
    greenOf β a (hubbardV U ns a) z s s' u = 0 := by
  have h := ha.mixed z hz s hs z hz s hs
  rw [if_pos ⟨rfl, rfl⟩] at h
  obtain ⟨h1, h2⟩ := nilpotent ha hz hs
  have e1 : a z s * ((a z s)ᴴ * a z s) = a z s := by
    rw [← mul_assoc, eq_sub_of_add_eq h, sub_mul, one_mul, mul_assoc, h1, mul_zero, sub_zero]
  have e2 : halfOcc a z s * a z s = -(a z s * halfOcc a z s) := by
    unfold halfOcc
    rw [sub_mul, mul_sub, e1, mul_assoc, h1, mul_zero, smul_mul_assoc, one_mul, mul_smul_comm, mul_one]
    module
  have c := half_hubbard ha hz hs U
  have c' : Commute (halfOcc a z s) (a z s')ᴴ := by
    have := congrArg conjTranspose (annihilator_apart ha hz hs' hz hs fun e => hne e.2.symm).eq
    have hh : (halfOcc a z s)ᴴ = halfOcc a z s := by
      unfold halfOcc
      rw [Matrix.conjTranspose_sub, Matrix.conjTranspose_mul, Matrix.conjTranspose_conjTranspose, Matrix.conjTranspose_smul, Matrix.conjTranspose_one]
      simp
    rw [Matrix.conjTranspose_mul, Matrix.conjTranspose_mul, hh] at this
    exact this
  unfold greenOf
  rw [flip_thermal (W := halfOcc a z s) (W' := (4 : ℝ) • halfOcc a z s) ?_ c ?_ β, neg_zero]
  · rw [mul_smul_comm, half_sq ha hz hs, smul_smul]
    norm_num
  · unfold atTime
    simp only [RCLike.ofReal_real_eq_id, id]
    have q1 : Commute (halfOcc a z s) (exp (u • hubbardV U ns a)) := by
      open scoped Matrix.Norms.Operator in
      exact (c.smul_right _).exp_right
    have q2 : Commute (halfOcc a z s) (exp (-(u • hubbardV U ns a))) := by
      open scoped Matrix.Norms.Operator in
      exact ((c.smul_right _).neg_right).exp_right
    calc halfOcc a z s * (exp (u • hubbardV U ns a) * a z s * exp (-(u • hubbardV U ns a)) * (a z s')ᴴ)
        = halfOcc a z s * exp (u • hubbardV U ns a) * a z s * exp (-(u • hubbardV U ns a)) * (a z s')ᴴ := by simp only [mul_assoc]
      _ = exp (u • hubbardV U ns a) * (halfOcc a z s * a z s) * exp (-(u • hubbardV U ns a)) * (a z s')ᴴ := by rw [q1.eq]; simp only [mul_assoc]
      _ = -(exp (u • hubbardV U ns a) * a z s * (halfOcc a z s * exp (-(u • hubbardV U ns a))) * (a z s')ᴴ) := by rw [e2]; simp only [mul_assoc, mul_neg, neg_mul]
      _ = -(exp (u • hubbardV U ns a) * a z s * exp (-(u • hubbardV U ns a)) * (halfOcc a z s * (a z s')ᴴ)) := by rw [q2.eq]; simp only [mul_assoc]
      _ = _ := by rw [c'.eq]; simp only [mul_assoc]

end CTInt
