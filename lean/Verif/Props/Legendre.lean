import Verif.Model.Legendre
import Verif.Spec.Legendre
import Mathlib.Algebra.Polynomial.Eval.Defs
import Mathlib.Tactic.Ring
import Mathlib.Tactic.Linarith
import Mathlib.Tactic.LinearCombination
import Mathlib.Tactic.FieldSimp

/-!
# C45: the recursion yields the Legendre polynomials
-/

set_option linter.all false

namespace CTInt

open Polynomial

/-- The unnormalised polynomials. -/
noncomputable def rod (n : ℕ) : ℝ[X] := derivative^[n] ((X ^ 2 - 1) ^ n)

theorem iter_X_mul (n : ℕ) (f : ℝ[X]) :
    derivative^[n + 1] (X * f) = X * derivative^[n + 1] f + C ((n : ℝ) + 1) * derivative^[n] f := by
  induction n with
  | zero => simp [derivative_mul]; ring
  | succ n ih =>
    rw [Function.iterate_succ_apply' (f := derivative) (n := n + 1), ih]
    simp only [derivative_add, derivative_mul, derivative_X, derivative_C, ← Function.iterate_succ_apply']
    push_cast
    simp only [map_add, map_one, zero_mul, one_mul, zero_add]
    ring

theorem iter_smul (n : ℕ) (c : ℝ) (f : ℝ[X]) : derivative^[n] (C c * f) = C c * derivative^[n] f := by
  induction n with
  | zero => rfl
  | succ n ih => rw [Function.iterate_succ_apply', ih, Function.iterate_succ_apply']; simp [derivative_mul]

theorem iter_add (n : ℕ) (f g : ℝ[X]) : derivative^[n] (f + g) = derivative^[n] f + derivative^[n] g := by
  induction n with
  | zero => rfl
  | succ n ih => simp only [Function.iterate_succ_apply', ih, derivative_add]

theorem deriv_w (n : ℕ) : derivative ((X ^ 2 - 1 : ℝ[X]) ^ (n + 1)) = C (2 * ((n : ℝ) + 1)) * (X * (X ^ 2 - 1) ^ n) := by
  rw [derivative_pow_succ]
  simp only [derivative_sub, derivative_X_pow, derivative_one, sub_zero]
  simp only [map_mul, map_add, map_one, Nat.cast_ofNat, Nat.add_one_sub_one, pow_one]
  have : (C (2 : ℝ) : ℝ[X]) = 2 := rfl
  simp only [this]
  push_cast
  ring

/-- Bonnet's recursion for the unnormalised polynomials. -/
theorem rod_rec (n : ℕ) : rod (n + 2) = C (2 * (2 * (n : ℝ) + 3)) * (X * rod (n + 1)) - C (4 * ((n : ℝ) + 1) ^ 2) * rod n := by
  set Q := derivative^[n] ((X ^ 2 - 1 : ℝ[X]) ^ (n + 1)) with hQ
  -- first relation
  have r1 : rod (n + 2) = C (2 * ((n : ℝ) + 2)) * (X * rod (n + 1) + C ((n : ℝ) + 1) * Q) := by
    unfold rod
    rw [show n + 2 = (n + 1) + 1 from rfl, Function.iterate_succ_apply, deriv_w, iter_smul, iter_X_mul]
    push_cast
    congr 2
    ring
  -- second relation
  have r2 : rod (n + 2) = C (2 * ((n : ℝ) + 2) * (2 * n + 3)) * Q + C (4 * ((n : ℝ) + 1) * (n + 2)) * rod n := by
    have dd : derivative (derivative ((X ^ 2 - 1 : ℝ[X]) ^ (n + 2))) =
        C (2 * ((n : ℝ) + 2) * (2 * n + 3)) * (X ^ 2 - 1) ^ (n + 1) +
        C (4 * ((n : ℝ) + 1) * (n + 2)) * (X ^ 2 - 1) ^ n := by
      rw [show n + 2 = (n + 1) + 1 from rfl, deriv_w, derivative_mul, derivative_C, zero_mul, zero_add, derivative_mul,
        derivative_X, deriv_w]
      have c2 : (C (2 : ℝ) : ℝ[X]) = 2 := rfl
      have c3 : (C (3 : ℝ) : ℝ[X]) = 3 := rfl
      have c4 : (C (4 : ℝ) : ℝ[X]) = 4 := rfl
      simp only [map_mul, map_add, map_one, c2, c3, c4, Nat.cast_add, Nat.cast_one]
      ring
    unfold rod
    rw [show n + 2 = (n + 1) + 1 from rfl, Function.iterate_succ_apply, Function.iterate_succ_apply, dd, iter_add,
      iter_smul, iter_smul]
  have hne : ((n : ℝ) + 2) ≠ 0 := by positivity
  have c2 : (C (2 : ℝ) : ℝ[X]) = 2 := rfl
  have c3 : (C (3 : ℝ) : ℝ[X]) = 3 := rfl
  have c4 : (C (4 : ℝ) : ℝ[X]) = 4 := rfl
  have hC : (C ((n : ℝ) + 2) : ℝ[X]) ≠ 0 := C_ne_zero.2 hne
  apply mul_left_cancel₀ hC
  simp only [map_mul, map_add, map_one, map_pow, c2, c3, c4] at r1 r2 ⊢
  linear_combination (2 * C (n : ℝ) + 3) * r1 - (C (n : ℝ) + 1) * r2

/-- **Bonnet's recursion.** -/
theorem legendreP_rec (n : ℕ) (x : ℝ) :
    (legendreP (n + 2)).eval x =
      ((2 * ((n : ℝ) + 2) - 1) * x * (legendreP (n + 1)).eval x - (((n : ℝ) + 2) - 1) * (legendreP n).eval x) *
        (1 / ((n : ℝ) + 2)) := by
  have h := congrArg (Polynomial.eval x) (rod_rec n)
  have e : ∀ k, (legendreP k).eval x = 1 / (2 ^ k * (k.factorial : ℝ)) * (rod k).eval x := fun k => by
    simp [legendreP, rod]
  rw [e, e, e, h]
  have f0 : ((n.factorial : ℕ) : ℝ) ≠ 0 := by exact_mod_cast n.factorial_ne_zero
  have h1 : ((n : ℝ) + 1) ≠ 0 := by positivity
  have h2 : ((n : ℝ) + 2) ≠ 0 := by positivity
  simp only [Nat.factorial_succ, eval_sub, eval_mul, eval_C, eval_X]
  push_cast
  have h2' : ((n : ℝ) + 1 + 1) ≠ 0 := by positivity
  field_simp
  ring

theorem legendreP_zero (x : ℝ) : (legendreP 0).eval x = 1 := by simp [legendreP]
theorem legendreP_one (x : ℝ) : (legendreP 1).eval x = x := by
  simp [legendreP]; ring

/-- The tables made by the constructor. -/
theorem Legendre.create_ok (nl : ℕ) (h : 0 < nl) :
    ∃ t, Legendre.create nl = .ok t ∧ t.nl = nl ∧ (∀ l, 0 < l → l < nl → t.invL l = 1 / (l : ℝ)) ∧
      (∀ l < nl, t.sqrt l = Real.sqrt (2 * l + 1)) := by
  have key : ∀ m, ∃ t : Legendre, (List.range' 1 m).foldl (fun (s : Legendre) l =>
      { s with invL := Function.update s.invL l (1 / (l : ℝ))
               sqrt := Function.update s.sqrt l (Real.sqrt (2 * l + 1)) })
      ⟨nl, fun _ => 0, Function.update (fun _ => 0) 0 1⟩ = t ∧ t.nl = nl ∧
      (∀ l, 0 < l → l ≤ m → t.invL l = 1 / (l : ℝ)) ∧ (∀ l ≤ m, t.sqrt l = Real.sqrt (2 * l + 1)) := by
    intro m
    induction m with
    | zero =>
      refine ⟨_, rfl, rfl, fun l h1 h2 => by omega, fun l hl => ?_⟩
      obtain rfl : l = 0 := by omega
      simp
    | succ m ih =>
      obtain ⟨t, et, h1, h2, h3⟩ := ih
      rw [List.range'_concat, List.foldl_append, et]
      refine ⟨_, rfl, h1, fun l hl hl' => ?_, fun l hl => ?_⟩
      · by_cases e : l = 1 + 1 * m
        · subst e; simp
        · simp only [List.foldl_cons, List.foldl_nil]
          rw [Function.update_of_ne e]; exact h2 l hl (by omega)
      · by_cases e : l = 1 + 1 * m
        · subst e; simp
        · simp only [List.foldl_cons, List.foldl_nil]
          rw [Function.update_of_ne e]; exact h3 l (by omega)
  obtain ⟨t, et, h1, h2, h3⟩ := key (nl - 1)
  refine ⟨t, ?_, h1, fun l hl hl' => h2 l hl (by omega), fun l hl => h3 l (by omega)⟩
  unfold Legendre.create
  rw [Res.assert_true h]
  simp only [Res.bind_ok, Res.pure_eq, et]

/-- The value written at order `l`, given the Legendre polynomials below. -/
theorem legendre_step {l : ℕ} {x v1 v2 inv : ℝ} (hinv : 2 ≤ l → inv = 1 / (l : ℝ))
    (h1 : 2 ≤ l → v1 = (legendreP (l - 1)).eval x) (h2 : 2 ≤ l → v2 = (legendreP (l - 2)).eval x) :
    (if l = 0 then (1 : ℝ) else if l = 1 then x else ((2 * l - 1) * x * v1 - (l - 1) * v2) * inv) =
      (legendreP l).eval x := by
  match l with
  | 0 => simp [legendreP_zero]
  | 1 => simp [legendreP_one]
  | n + 2 =>
    rw [if_neg (by omega), if_neg (by omega), hinv (by omega), h1 (by omega), h2 (by omega), legendreP_rec]
    push_cast
    rfl

/-- **C45.**  A transformer with at least one coefficient, given an array of at least that size, fills it with
    the Legendre polynomials at `x` and leaves the rest of the array unchanged. -/
theorem C45_scalar (nl : ℕ) (h : 0 < nl) (x : ℝ) (size : ℕ) (hs : nl ≤ size) (val : ℕ → ℝ) :
    ∃ t val', Legendre.create nl = .ok t ∧ t.compute x size val = .ok val' ∧
      (∀ l < nl, val' l = (legendreP l).eval x) ∧ ∀ l, nl ≤ l → val' l = val l := by
  obtain ⟨t, et, hn, hi, -⟩ := Legendre.create_ok nl h
  have key : ∀ m, m ≤ nl → ∃ v, (List.range m).foldl (fun val l => Function.update val l
      (if l = 0 then 1
       else if l = 1 then x
       else ((2 * l - 1) * x * val (l - 1) - (l - 1) * val (l - 2)) * t.invL l)) val = v ∧
      (∀ l < m, v l = (legendreP l).eval x) ∧ ∀ l, m ≤ l → v l = val l := by
    intro m
    induction m with
    | zero => intro _; exact ⟨_, rfl, fun l hl => by omega, fun l _ => rfl⟩
    | succ m ih =>
      intro hm
      obtain ⟨v, ev, h1, h2⟩ := ih (by omega)
      rw [List.range_succ, List.foldl_append, ev]
      refine ⟨_, rfl, fun l hl => ?_, fun l hl => ?_⟩
      · simp only [List.foldl_cons, List.foldl_nil]
        by_cases e : l = m
        · subst e
          rw [Function.update_self]
          exact legendre_step (fun _ => hi l (by omega) (by omega)) (fun _ => h1 _ (by omega)) (fun _ => h1 _ (by omega))
        · rw [Function.update_of_ne e]; exact h1 l (by omega)
      · simp only [List.foldl_cons, List.foldl_nil]
        rw [Function.update_of_ne (by omega)]; exact h2 l (by omega)
  obtain ⟨v, ev, h1, h2⟩ := key nl le_rfl
  refine ⟨t, v, et, ?_, h1, h2⟩
  unfold Legendre.compute
  rw [hn, Res.assert_true hs]
  simp only [Res.bind_ok, Res.pure_eq, ev]

/-- **C45, array version.**  The same for a list of points: column `ix` holds the polynomials at point `ix`, so
    the two versions agree. -/
theorem C45_array (nl : ℕ) (h : 0 < nl) (xs : List ℝ) (rows : ℕ) (hs : nl ≤ rows) (val : ℕ → ℕ → ℝ) :
    ∃ t val', Legendre.create nl = .ok t ∧ t.computeAll xs rows val = .ok val' ∧
      (∀ l < nl, ∀ ix (hix : ix < xs.length), val' l ix = (legendreP l).eval xs[ix]) ∧
      (∀ l ix, nl ≤ l ∨ xs.length ≤ ix → val' l ix = val l ix) := by
  obtain ⟨t, et, hn, hi, -⟩ := Legendre.create_ok nl h
  -- one row
  have row : ∀ l < nl, ∀ v : ℕ → ℕ → ℝ,
      (∀ l' < l, ∀ ix < xs.length, v l' ix = (legendreP l').eval (xs.getD ix 0)) →
      ∀ m, m ≤ xs.length → ∃ w, (List.range m).foldl (fun (val : ℕ → ℕ → ℝ) ix =>
        Function.update val l (Function.update (val l) ix
          (if l = 0 then 1
           else if l = 1 then xs.getD ix 0
           else ((2 * l - 1) * xs.getD ix 0 * val (l - 1) ix - (l - 1) * val (l - 2) ix) * t.invL l))) v = w ∧
        (∀ ix < m, w l ix = (legendreP l).eval (xs.getD ix 0)) ∧
        (∀ l' ix, l' ≠ l ∨ m ≤ ix → w l' ix = v l' ix) := by
    intro l hl v hv m
    induction m with
    | zero => intro _; exact ⟨_, rfl, fun ix hx => by omega, fun _ _ _ => rfl⟩
    | succ m ih =>
      intro hm
      obtain ⟨w, ew, h1, h2⟩ := ih (by omega)
      rw [List.range_succ, List.foldl_append, ew]
      refine ⟨_, rfl, fun ix hix => ?_, fun l' ix hh => ?_⟩
      · simp only [List.foldl_cons, List.foldl_nil, Function.update_self]
        by_cases e : ix = m
        · subst e
          rw [Function.update_self]
          refine legendre_step (fun _ => hi l (by omega) hl) (fun _ => ?_) (fun _ => ?_)
          · rw [h2 _ _ (Or.inl (by omega))]; exact hv _ (by omega) _ (by omega)
          · rw [h2 _ _ (Or.inl (by omega))]; exact hv _ (by omega) _ (by omega)
        · rw [Function.update_of_ne e]; exact h1 ix (by omega)
      · simp only [List.foldl_cons, List.foldl_nil]
        by_cases e : l' = l
        · subst e
          rw [Function.update_self, Function.update_of_ne (by omega)]
          exact h2 l' ix (Or.inr (by omega))
        · rw [Function.update_of_ne e]; exact h2 l' ix (Or.inl e)
  have key : ∀ m, m ≤ nl → ∃ v, (List.range m).foldl (fun val l =>
      (List.range xs.length).foldl (fun (val : ℕ → ℕ → ℝ) ix => Function.update val l (Function.update (val l) ix
        (if l = 0 then 1
         else if l = 1 then xs.getD ix 0
         else ((2 * l - 1) * xs.getD ix 0 * val (l - 1) ix - (l - 1) * val (l - 2) ix) * t.invL l))) val) val = v ∧
      (∀ l < m, ∀ ix < xs.length, v l ix = (legendreP l).eval (xs.getD ix 0)) ∧
      (∀ l ix, m ≤ l ∨ xs.length ≤ ix → v l ix = val l ix) := by
    intro m
    induction m with
    | zero => intro _; exact ⟨_, rfl, fun l hl => by omega, fun _ _ _ => rfl⟩
    | succ m ih =>
      intro hm
      obtain ⟨v, ev, h1, h2⟩ := ih (by omega)
      obtain ⟨w, ew, h3, h4⟩ := row m (by omega) v h1 xs.length le_rfl
      rw [List.range_succ, List.foldl_append, ev, List.foldl_cons, List.foldl_nil, ew]
      refine ⟨_, rfl, fun l hl ix hix => ?_, fun l ix hh => ?_⟩
      · by_cases e : l = m
        · subst e; exact h3 ix hix
        · rw [h4 _ _ (Or.inl e)]; exact h1 l (by omega) ix hix
      · by_cases e : l = m
        · subst e
          rw [h4 _ _ (Or.inr (by omega))]; exact h2 _ _ (Or.inl le_rfl)
        · rw [h4 _ _ (Or.inl e)]
          exact h2 _ _ (by omega)
  obtain ⟨v, ev, h1, h2⟩ := key nl le_rfl
  refine ⟨t, v, et, ?_, fun l hl ix hix => ?_, h2⟩
  · unfold Legendre.computeAll
    rw [hn, Res.assert_true hs]
    simp only [Res.bind_ok, Res.pure_eq, ev]
  · rw [h1 l hl ix hix]; simp [List.getD, hix]

/-- The transformer table of weights: `sqrt(2 l + 1)` for every order. -/
theorem C45_weights (nl : ℕ) (h : 0 < nl) :
    ∃ t, Legendre.create nl = .ok t ∧ ∀ l < nl, t.sqrt l = Real.sqrt (2 * l + 1) := by
  obtain ⟨t, et, -, -, hs⟩ := Legendre.create_ok nl h
  exact ⟨t, et, hs⟩

/-- **C45, defect.**  A transformer without coefficients writes outside its table. -/
theorem C45_empty_violation : Legendre.create 0 = .ub := rfl

/-- A buffer that is too small is not detected. -/
theorem C45_small_buffer (t : Legendre) (x : ℝ) (size : ℕ) (val : ℕ → ℝ) (h : size < t.nl) :
    t.compute x size val = .ub := by
  unfold Legendre.compute
  rw [Res.assert_false (by omega)]; rfl

end CTInt
