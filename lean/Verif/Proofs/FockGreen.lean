import Verif.Proofs.FockDensity
import Verif.Proofs.FockG0

/-!
# More about the densities of hopping fermions
-/

set_option linter.all false

namespace CTInt

open NormedSpace Matrix ComplexOrder MeasureTheory Filter

variable {K : Type} [RCLike K] {n : Type} [Fintype n] [DecidableEq n] {nf ns : ℕ} {a : ℕ → ℕ → Matrix n n K} {h : ℕ → ℕ → ℕ → K} {β : ℝ}

/-! ## The bare Green's function exists -/

/-- The bare Green's function. -/
noncomputable def thermalGt (β : ℝ) (a : ℕ → ℕ → Matrix n n K) (H : Matrix n n K) : ℝ → ℕ → ℕ → ℕ → K := fun t z s s' =>
  (-1) ^ ⌊t / β⌋ * - thermal β H (atTime H (t - ⌊t / β⌋ * β) (a z s) * (a z s')ᴴ)

theorem thermalGt_spec (β : ℝ) (nf ns : ℕ) (a : ℕ → ℕ → Matrix n n K) (H : Matrix n n K) : ThermalG β nf ns a H (thermalGt β a H) := by
  intro z _ s _ s' _ t ht k
  have hβ : 0 < β := ht.1.trans ht.2
  have : ⌊(t + k * β) / β⌋ = k := by
    rw [Int.floor_eq_iff, le_div_iff₀ hβ, div_lt_iff₀ hβ]
    constructor <;> nlinarith [ht.1, ht.2]
  unfold thermalGt
  rw [this, add_sub_cancel_right]

open scoped Matrix.Norms.Operator in
theorem thermalGt_measurable (β : ℝ) (a : ℕ → ℕ → Matrix n n K) (H : Matrix n n K) : MeasurableG (thermalGt β a H) := by
  intro z s s'
  unfold thermalGt
  have hf : Measurable fun t : ℝ => ⌊t / β⌋ := Int.measurable_floor.comp (measurable_id.div_const β)
  have h1 : Measurable fun t : ℝ => ((-1 : K)) ^ ⌊t / β⌋ := (measurable_from_top (f := fun k : ℤ => (-1 : K) ^ k)).comp hf
  have h2 : Measurable fun t : ℝ => t - ⌊t / β⌋ * β := measurable_id.sub (((measurable_from_top (f := fun k : ℤ => (k : ℝ))).comp hf).mul_const β)
  have h3 : Continuous fun u : ℝ => - thermal β H (atTime H u (a z s) * (a z s')ᴴ) :=
    (((thermalCL β H).continuous.comp ((atTime_continuous H _).mul continuous_const))).neg
  exact h1.mul (h3.measurable.comp h2)

/-! ## Densities -/

/-- The time difference used for equal times. -/
theorem green_small {H : Matrix n n K} {G : ℝ → ℕ → ℕ → ℕ → K} (hG : ThermalG β nf ns a H G) {z s s' : ℕ} (hz : z < nf) (hs : s < ns) (hs' : s' < ns)
    {δ : ℝ} (h0 : 0 < δ) (h1 : δ < β) : G (-δ) z s s' = thermal β H (atTime H δ (a z s')ᴴ * a z s) := by
  have := hG z hz s hs s' hs' (β - δ) ⟨by linarith, by linarith⟩ (-1)
  rw [show β - δ + ((-1 : ℤ) : ℝ) * β = -δ by push_cast; ring] at this
  rw [this, show β - δ = β + -δ by ring, atTime_add, thermal_kms, ← thermal_shift H ((a z s')ᴴ * atTime H (-δ) (a z s)) δ, atTime_mul, ← atTime_add,
    add_neg_cancel, atTime_zero]
  simp

variable [DecidableEq K]

theorem rowsFor_one {H : Matrix n n K} {G : ℝ → ℕ → ℕ → ℕ → K} {ε : ℝ} {z s s2 : ℕ} (hz : z < nf) (hs : s < ns) (hs2 : s2 < ns) :
    RowsFor β nf ns a H G ε (fun fl => if fl = z then some (s, s2) else none) fun τ => [exRow z s s2 τ 0 (shiftG β a H G ε z s s2)] := by
  refine ⟨?_, ?_, ?_, ?_⟩
  · intro fl _ p hp
    by_cases q : fl = z
    · rw [if_pos q] at hp
      cases hp
      exact ⟨hs, hs2⟩
    · rw [if_neg q] at hp
      cases hp
  · intro τ hτ
    refine ⟨?_, List.pairwise_singleton _ _⟩
    intro ρ hρ
    rw [List.mem_singleton.1 hρ]
    exact exRow_at hz hs hs2 hτ _ _
  · intro τ fl _ hp
    have q : fl ≠ z := fun q => by rw [if_pos q] at hp; cases hp
    rw [List.filter_singleton]
    simp [exRow, Ne.symm q]
  · intro τ fl _ p hp
    by_cases q : fl = z
    · subst q
      rw [if_pos rfl] at hp
      cases hp
      exact ⟨0, by rw [List.filter_singleton]; simp [exRow]⟩
    · rw [if_neg q] at hp
      cases hp

theorem rowsFor_two {H : Matrix n n K} {G : ℝ → ℕ → ℕ → ℕ → K} {ε : ℝ} {f1 i f2 j : ℕ} (h1 : f1 < nf) (hi : i < ns) (h2 : f2 < nf) (hj : j < ns) (hne : f1 ≠ f2) :
    RowsFor β nf ns a H G ε (fun fl => if fl = f1 then some (i, i) else if fl = f2 then some (j, j) else none) fun τ =>
      [exRow f1 i i τ 0 (shiftG β a H G ε f1 i i), exRow f2 j j τ (-1) (shiftG β a H G ε f2 j j)] := by
  refine ⟨?_, ?_, ?_, ?_⟩
  · intro fl _ p hp
    by_cases q : fl = f1
    · rw [if_pos q] at hp
      cases hp
      exact ⟨hi, hi⟩
    · rw [if_neg q] at hp
      by_cases q : fl = f2
      · rw [if_pos q] at hp
        cases hp
        exact ⟨hj, hj⟩
      · rw [if_neg q] at hp
        cases hp
  · intro τ hτ
    refine ⟨?_, ?_⟩
    · intro ρ hρ
      rcases List.mem_pair.1 hρ with rfl | rfl
      · exact exRow_at h1 hi hi hτ _ _
      · exact exRow_at h2 hj hj hτ _ _
    · rw [List.pairwise_pair]
      exact .inr ⟨rfl, by simp [exRow]⟩
  · intro τ fl _ hp
    have q : fl ≠ f1 := fun q => by rw [if_pos q] at hp; cases hp
    rw [if_neg q] at hp
    have q' : fl ≠ f2 := fun q => by rw [if_pos q] at hp; cases hp
    simp [exRow, Ne.symm q, Ne.symm q']
  · intro τ fl _ p hp
    by_cases q : fl = f1
    · subst q
      rw [if_pos rfl] at hp
      cases hp
      exact ⟨0, by simp [exRow, Ne.symm hne]⟩
    · rw [if_neg q] at hp
      by_cases q' : fl = f2
      · subst q'
        rw [if_pos rfl] at hp
        cases hp
        exact ⟨-1, by simp [exRow, hne]⟩
      · rw [if_neg q'] at hp
        cases hp

theorem rowsOp_one {H : Matrix n n K} {z s s2 : ℕ} (al : K) :
    RowsOp a H β (fun τ => [exRow z s s2 τ 0 al]) ((a z s)ᴴ * a z s2 - al • 1) := by
  intro τ
  rw [List.map_singleton, List.map_singleton, List.prod_singleton, exRow_op]

theorem rowsOp_two {H : Matrix n n K} {f1 i f2 j : ℕ} (al al' : K) :
    RowsOp a H β (fun τ => [exRow f1 i i τ 0 al, exRow f2 j j τ (-1) al']) (((a f1 i)ᴴ * a f1 i - al • 1) * ((a f2 j)ᴴ * a f2 j - al' • 1)) := by
  intro τ
  simp only [List.map_cons, List.map_nil, List.prod_cons, List.prod_nil, mul_one]
  rw [exRow_op, exRow_op, atTime_mul]

/-! ## Densities commute -/

theorem density_commute (ha : Annihilators nf ns a) {z s z' s' : ℕ} (hz : z < nf) (hs : s < ns) (hz' : z' < nf) (hs' : s' < ns) (hne : ¬ (z = z' ∧ s = s')) :
    Commute ((a z s)ᴴ * a z s) ((a z' s')ᴴ * a z' s') := by
  have e1 : a z s * a z' s' = - (a z' s' * a z s) := eq_neg_of_add_eq_zero_left (ha.same z hz s hs z' hz' s' hs')
  have e2 : a z s * (a z' s')ᴴ = - ((a z' s')ᴴ * a z s) := by
    have := ha.mixed z hz s hs z' hz' s' hs'
    rw [if_neg hne] at this
    exact eq_neg_of_add_eq_zero_left this
  have e3 : a z' s' * (a z s)ᴴ = - ((a z s)ᴴ * a z' s') := by
    have := ha.mixed z' hz' s' hs' z hz s hs
    rw [if_neg fun q => hne ⟨q.1.symm, q.2.symm⟩] at this
    exact eq_neg_of_add_eq_zero_left this
  have e4 : (a z s)ᴴ * (a z' s')ᴴ = - ((a z' s')ᴴ * (a z s)ᴴ) := by
    have := congrArg conjTranspose (ha.same z' hz' s' hs' z hz s hs)
    rw [Matrix.conjTranspose_add, Matrix.conjTranspose_mul, Matrix.conjTranspose_mul, Matrix.conjTranspose_zero] at this
    exact eq_neg_of_add_eq_zero_left this
  show (a z s)ᴴ * a z s * ((a z' s')ᴴ * a z' s') = (a z' s')ᴴ * a z' s' * ((a z s)ᴴ * a z s)
  calc (a z s)ᴴ * a z s * ((a z' s')ᴴ * a z' s') = (a z s)ᴴ * (a z s * (a z' s')ᴴ) * a z' s' := by simp only [mul_assoc]
    _ = - ((a z s)ᴴ * (a z' s')ᴴ * (a z s * a z' s')) := by rw [e2]; simp only [mul_neg, neg_mul, mul_assoc]
    _ = - ((a z' s')ᴴ * ((a z s)ᴴ * a z' s') * a z s) := by rw [e1, e4]; simp only [mul_neg, neg_mul, mul_assoc, neg_neg]
    _ = (a z' s')ᴴ * (a z' s' * (a z s)ᴴ) * a z s := by rw [e3]; simp only [mul_neg, neg_mul, mul_assoc]
    _ = _ := by simp only [mul_assoc]

theorem density_hermitian (z s : ℕ) : ((a z s)ᴴ * a z s).IsHermitian := Matrix.isHermitian_conjTranspose_mul_self _

end CTInt
