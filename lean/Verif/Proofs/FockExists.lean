import Verif.Spec.Fock
import Mathlib.Data.Matrix.Block

/-!
# Annihilators exist for every number of flavors and sites
-/

set_option linter.all false

namespace CTInt

open NormedSpace Matrix

variable {K : Type} [RCLike K]

/-- Annihilators of `m` levels together with the parity. -/
structure LevelsRep (m : ℕ) {n : Type} [Fintype n] [DecidableEq n] (a : ℕ → Matrix n n K) (P : Matrix n n K) : Prop where
  same : ∀ i < m, ∀ j < m, a i * a j + a j * a i = 0
  mixed : ∀ i < m, ∀ j < m, a i * (a j)ᴴ + (a j)ᴴ * a i = if i = j then 1 else 0
  one : P * P = 1
  herm : Pᴴ = P
  odd : ∀ i < m, P * a i + a i * P = 0

theorem LevelsRep.odd' {m : ℕ} {n : Type} [Fintype n] [DecidableEq n] {a : ℕ → Matrix n n K} {P : Matrix n n K} (h : LevelsRep m a P)
    {i : ℕ} (hi : i < m) : P * (a i)ᴴ + (a i)ᴴ * P = 0 := by
  have := congrArg Matrix.conjTranspose (h.odd i hi)
  rwa [Matrix.conjTranspose_add, Matrix.conjTranspose_mul, Matrix.conjTranspose_mul, h.herm, Matrix.conjTranspose_zero, add_comm] at this

theorem LevelsRep.succ {m : ℕ} {n : Type} [Fintype n] [DecidableEq n] {a : ℕ → Matrix n n K} {P : Matrix n n K} (h : LevelsRep m a P) :
    LevelsRep (m + 1) (fun i => if i < m then fromBlocks (a i) 0 0 (a i) else fromBlocks 0 P 0 0 : ℕ → Matrix (n ⊕ n) (n ⊕ n) K)
      (fromBlocks P 0 0 (-P)) where
  same i hi j hj := by
    by_cases h1 : i < m <;> by_cases h2 : j < m <;>
      simp only [h1, h2, if_true, if_false, fromBlocks_multiply, fromBlocks_add, mul_zero, zero_mul, add_zero, zero_add]
    · rw [h.same i h1 j h2, fromBlocks_zero]
    · rw [add_comm, h.odd i h1, fromBlocks_zero]
    · rw [h.odd j h2, fromBlocks_zero]
    · rw [fromBlocks_zero]
  mixed i hi j hj := by
    by_cases h1 : i < m <;> by_cases h2 : j < m <;>
      simp only [h1, h2, if_true, if_false, fromBlocks_conjTranspose, fromBlocks_multiply, fromBlocks_add, mul_zero, zero_mul, add_zero, zero_add,
        conjTranspose_zero, h.herm]
    · rw [h.mixed i h1 j h2]
      split_ifs
      · exact fromBlocks_one
      · exact fromBlocks_zero
    · rw [if_neg (by omega), add_comm, h.odd i h1, fromBlocks_zero]
    · rw [if_neg (by omega), h.odd' h2, fromBlocks_zero]
    · rw [if_pos (by omega), h.one, fromBlocks_one]
  one := by
    simp only [fromBlocks_multiply, mul_zero, zero_mul, add_zero, zero_add, neg_mul_neg, h.one, fromBlocks_one]
  herm := by
    simp only [fromBlocks_conjTranspose, conjTranspose_zero, conjTranspose_neg, h.herm]
  odd i hi := by
    by_cases h1 : i < m <;>
      simp only [h1, if_true, if_false, fromBlocks_multiply, fromBlocks_add, mul_zero, zero_mul, add_zero, zero_add]
    · rw [h.odd i h1, neg_mul, mul_neg, ← neg_add, h.odd i h1, neg_zero, fromBlocks_zero]
    · rw [mul_neg, h.one, add_neg_cancel, fromBlocks_zero]

theorem levelsRep_exists (K : Type) [RCLike K] (m : ℕ) :
    ∃ (n : Type) (_ : Fintype n) (_ : DecidableEq n) (_ : Nonempty n) (a : ℕ → Matrix n n K) (P : Matrix n n K), LevelsRep m a P := by
  induction m with
  | zero =>
    refine ⟨Unit, inferInstance, inferInstance, inferInstance, fun _ => 0, 1, ?_⟩
    exact ⟨fun i hi => by omega, fun i hi => by omega, by simp, by simp, fun i hi => by omega⟩
  | succ m ih =>
    obtain ⟨n, _, _, _, a, P, h⟩ := ih
    exact ⟨n ⊕ n, inferInstance, inferInstance, inferInstance, _, _, h.succ⟩

/-- For every number of flavors and sites there are annihilators. -/
theorem annihilators_exist (K : Type) [RCLike K] (nf ns : ℕ) :
    ∃ (n : Type) (_ : Fintype n) (_ : DecidableEq n) (_ : Nonempty n) (a : ℕ → ℕ → Matrix n n K), Annihilators nf ns a := by
  obtain ⟨n, i1, i2, i3, a, P, h⟩ := levelsRep_exists K (nf * ns)
  have lt : ∀ z < nf, ∀ s < ns, z * ns + s < nf * ns := by
    intro z hz s hs
    calc z * ns + s < z * ns + ns := by omega
      _ = (z + 1) * ns := by ring
      _ ≤ nf * ns := Nat.mul_le_mul_right _ hz
  refine ⟨n, i1, i2, i3, fun z s => a (z * ns + s), fun z hz s hs z' hz' s' hs' => h.same _ (lt z hz s hs) _ (lt z' hz' s' hs'),
    fun z hz s hs z' hz' s' hs' => ?_⟩
  rw [h.mixed _ (lt z hz s hs) _ (lt z' hz' s' hs')]
  refine if_congr ⟨fun e => ?_, fun e => by rw [e.1, e.2]⟩ rfl rfl
  have hm : s = s' := by
    have := congrArg (· % ns) e
    simpa [Nat.add_mod, Nat.mod_eq_of_lt hs, Nat.mod_eq_of_lt hs'] using this
  subst hm
  refine ⟨?_, rfl⟩
  have : z * ns = z' * ns := by omega
  exact Nat.eq_of_mul_eq_mul_right (by omega) this

end CTInt
