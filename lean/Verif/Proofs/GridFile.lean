import Verif.Proofs.GridGreen
import Verif.Spec.Solver

/-!
# There are files that list the bare Green's function
-/

set_option linter.all false

namespace CTInt

open NormedSpace Matrix

variable {K : Type} [RCLike K] {n : Type} [Fintype n] [DecidableEq n] {a : ℕ → ℕ → Matrix n n K} {H : Matrix n n K} {β : ℝ}

theorem mexp_hermitian (hH : H.IsHermitian) (t : ℝ) : (exp ((t : K) • H))ᴴ = exp ((t : K) • H) := by
  letI : NormedAlgebra ℚ K := NormedAlgebra.restrictScalars ℚ ℝ K
  rw [← Matrix.exp_conjTranspose, conjTranspose_smul, hH.eq]
  simp

theorem greenOf_conj (hH : H.IsHermitian) (z s s' : ℕ) (t : ℝ) : greenOf β a H z s s' t = starRingEnd K (greenOf β a H z s' s t) := by
  have hs : ∀ M : Matrix n n K, starRingEnd K M.trace = Mᴴ.trace := fun M => (trace_conjTranspose M).symm
  have e0 : exp (-(β : K) • H) = exp (((-β : ℝ) : K) • H) := by push_cast; rfl
  unfold greenOf thermal atTime
  rw [map_neg, map_div₀, hs, hs, e0, mexp_neg, conjTranspose_mul, conjTranspose_mul, conjTranspose_mul, conjTranspose_mul, conjTranspose_conjTranspose,
    mexp_hermitian hH, mexp_hermitian hH, mexp_hermitian hH]
  congr 2
  have h1 : exp (((-β : ℝ) : K) • H) * exp (((t : ℝ) : K) • H) = exp (((t : ℝ) : K) • H) * exp (((-β : ℝ) : K) • H) := by
    rw [← mexp_add, ← mexp_add, add_comm]
  have key : ∀ Eb Et X Em Y : Matrix n n K, Eb * Et = Et * Eb → (Eb * (Et * X * Em * Y)).trace = (X * (Em * (Y * Et)) * Eb).trace := by
    intro Eb Et X Em Y hc
    have q : Eb * (Et * X * Em * Y) = Et * Eb * (X * Em * Y) := by rw [← hc]; simp only [mul_assoc]
    rw [q, Matrix.trace_mul_comm]
    simp only [mul_assoc]
  rw [key _ _ _ _ _ h1]

/-- The file with given values. -/
noncomputable def fileOf (nf ns nt : ℕ) (β : ℝ) (v : ℕ → ℕ → ℕ → ℕ → K) : GFile where
  nf := nf
  ns := ns
  ntau := nt
  beta := β
  rows := (List.range (nf * ns * ns * nt)).map fun q =>
    ⟨(q / nt / ns / ns : ℕ), (q / nt / ns % ns : ℕ), (q / nt % ns : ℕ), (q % nt : ℕ),
      RCLike.re (v (q / nt / ns / ns) (q / nt / ns % ns) (q / nt % ns) (q % nt)), RCLike.im (v (q / nt / ns / ns) (q / nt / ns % ns) (q / nt % ns) (q % nt))⟩

theorem fileOf_line {nf ns nt : ℕ} {v : ℕ → ℕ → ℕ → ℕ → K} {f s1 s2 t : ℕ} (hf : f < nf) (h1 : s1 < ns) (h2 : s2 < ns) (ht : t < nt) :
    (fileOf nf ns nt β v).line f s1 s2 t = some ⟨f, s1, s2, t, RCLike.re (v f s1 s2 t), RCLike.im (v f s1 s2 t)⟩ := by
  have hq : ((f * ns + s1) * ns + s2) * nt + t < nf * ns * ns * nt := by
    have k1 : f * ns + s1 + 1 ≤ nf * ns := by nlinarith
    have k2 : (f * ns + s1) * ns + s2 + 1 ≤ nf * ns * ns := by nlinarith
    nlinarith
  have d1 : (((f * ns + s1) * ns + s2) * nt + t) / nt = (f * ns + s1) * ns + s2 := by
    rw [mul_comm, Nat.mul_add_div (by omega), Nat.div_eq_of_lt ht, add_zero]
  have m1 : (((f * ns + s1) * ns + s2) * nt + t) % nt = t := by
    rw [mul_comm, Nat.mul_add_mod, Nat.mod_eq_of_lt ht]
  have d2 : ((f * ns + s1) * ns + s2) / ns = f * ns + s1 := by
    rw [mul_comm, Nat.mul_add_div (by omega), Nat.div_eq_of_lt h2, add_zero]
  have m2 : ((f * ns + s1) * ns + s2) % ns = s2 := by
    rw [mul_comm, Nat.mul_add_mod, Nat.mod_eq_of_lt h2]
  have d3 : (f * ns + s1) / ns = f := by
    rw [mul_comm, Nat.mul_add_div (by omega), Nat.div_eq_of_lt h1, add_zero]
  have m3 : (f * ns + s1) % ns = s1 := by
    rw [mul_comm, Nat.mul_add_mod, Nat.mod_eq_of_lt h1]
  unfold GFile.line fileOf
  simp only [Int.toNat_natCast]
  rw [List.getElem?_map, List.getElem?_range hq]
  simp only [Option.map_some, d1, m1, d2, m2, d3, m3]

theorem fileOf_value {nf ns nt : ℕ} {v : ℕ → ℕ → ℕ → ℕ → K} {f s1 s2 t : ℕ} (hf : f < nf) (h1 : s1 < ns) (h2 : s2 < ns) (ht : t < nt) :
    ((fileOf nf ns nt β v).value f s1 s2 t : K) = v f s1 s2 t := by
  unfold GFile.value
  rw [fileOf_line hf h1 h2 ht]
  exact RCLike.re_add_im _

/-- The file that lists the bare Green's function is accepted. -/
theorem fileOf_usable (hH : H.IsHermitian) {nf ns nt : ℕ} (hn : 3 ≤ nt) (β : ℝ) :
    ∃ file : GFile, file.ntau = nt ∧ ListsGreen 0 β nf ns a H file ∧ UsableGreen K file β nf ns := by
  obtain ⟨v, hv⟩ : ∃ v : ℕ → ℕ → ℕ → ℕ → K, v = fun f s1 s2 (t : ℕ) => greenOf β a H f s1 s2 (β * (t : ℕ) / ((nt : ℝ) - 1)) := ⟨_, rfl⟩
  have hc : ∀ f s1 s2 t : ℕ, v f s1 s2 t = starRingEnd K (v f s2 s1 t) := by
    intro f s1 s2 t
    rw [hv]
    exact greenOf_conj hH f s1 s2 _
  refine ⟨fileOf nf ns nt β v, rfl, fun z hz s hs s' hs' i hi => ?_, ⟨show (3 : ℤ) ≤ (nt : ℤ) by exact_mod_cast hn, rfl, rfl, by simp [fileOf]; norm_num, ?_, ?_⟩⟩
  · have hi' : i < nt := by
      have : (i : ℤ) < (nt : ℤ) := hi
      exact_mod_cast this
    rw [fileOf_value hz hs hs' hi', hv]
    have : (fileOf nf ns nt β v).grid β i = β * i / ((nt : ℝ) - 1) := by simp [GFile.grid, fileOf]
    rw [← hv, this, hv]
    simp
  · intro f s1 s2 t hf h1 h2 ht
    have hf' : f < nf := by have : (f : ℤ) < (nf : ℤ) := hf; exact_mod_cast this
    have h1' : s1 < ns := by have : (s1 : ℤ) < (ns : ℤ) := h1; exact_mod_cast this
    have h2' : s2 < ns := by have : (s2 : ℤ) < (ns : ℤ) := h2; exact_mod_cast this
    have ht' : t < nt := by have : (t : ℤ) < (nt : ℤ) := ht; exact_mod_cast this
    exact ⟨_, fileOf_line hf' h1' h2' ht', rfl, rfl, rfl, rfl⟩
  · intro f s1 s2 t hf h1 h2 ht
    have ht' : t < nt := by have : (t : ℤ) < (nt : ℤ) := ht; exact_mod_cast this
    rw [fileOf_value hf h1 h2 ht', fileOf_value hf h2 h1 ht']
    exact hc f s1 s2 t

end CTInt
