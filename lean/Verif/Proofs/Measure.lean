import Verif.Spec.Measure
import Verif.Proofs.Band
import Verif.Props.Legendre
import Mathlib.Algebra.BigOperators.Field

/-!
# Accumulating loops
-/

set_option linter.all false

namespace CTInt

variable {K : Type} [RCLike K]

theorem toC_add (a b : K) : toC (a + b) = toC a + toC b := by
  apply Complex.ext <;> simp [toC]
theorem toC_zero : toC (0 : K) = 0 := by
  apply Complex.ext <;> simp [toC]
theorem toC_one : toC (1 : K) = 1 := by
  apply Complex.ext <;> simp [toC]
theorem toC_mul (a b : K) : toC (a * b) = toC a * toC b := by
  apply Complex.ext <;> simp [toC]
/-- The conversion is a ring homomorphism. -/
noncomputable def toCHom (K : Type) [RCLike K] : K →+* ℂ :=
  ⟨⟨⟨toC, toC_one⟩, toC_mul⟩, toC_zero, toC_add⟩
theorem toCHom_apply (a : K) : toCHom K a = toC a := rfl
theorem toC_neg (a : K) : toC (-a) = -toC a := map_neg (toCHom K) a
theorem toC_div (a b : K) : toC (a / b) = toC a / toC b := map_div₀ (toCHom K) a b
theorem toC_natCast (n : ℕ) : toC (n : K) = n := map_natCast (toCHom K) n
theorem toC_ofReal (x : ℝ) : toC (RCLike.ofReal x : K) = (x : ℂ) := by
  apply Complex.ext <;> simp [toC]
theorem toC_sum {ι : Type*} (s : Finset ι) (f : ι → K) : toC (∑ i ∈ s, f i) = ∑ i ∈ s, toC (f i) :=
  map_sum (toCHom K) f s

/-- A loop each pass of which adds a fixed amount. -/
theorem Res.foldl_acc {α β : Type} [AddCommMonoid β] {f : β → α → Res β} {e : α → β} {l : List α} (d : β)
    (h : ∀ d, ∀ a ∈ l, f d a = .ok (d + e a)) : Res.foldl f d l = .ok (d + (l.map e).sum) := by
  induction l generalizing d with
  | nil => simp
  | cons a l ih =>
    rw [Res.foldl_cons, h d a (by simp), Res.bind_ok, ih _ fun d b hb => h d b (by simp [hb])]
    simp [add_assoc]

theorem Res.foldl_range_acc {β : Type} [AddCommMonoid β] {f : β → ℕ → Res β} {e : ℕ → β} {n : ℕ} (d : β)
    (h : ∀ d, ∀ i < n, f d i = .ok (d + e i)) :
    Res.foldl f d (List.range n) = .ok (d + ∑ i ∈ Finset.range n, e i) := by
  rw [Res.foldl_acc d (e := e) fun d a ha => h d a (List.mem_range.1 ha)]
  congr 2

/-- A loop all of whose passes succeed. -/
theorem Res.mapM_range {β : Type} {f : ℕ → Res β} {g : ℕ → β} {n : ℕ} (h : ∀ i < n, f i = .ok (g i)) :
    Res.mapM f (List.range n) = .ok ((List.range n).map g) :=
  Res.mapM_ok fun a ha => h a (List.mem_range.1 ha)

theorem off4_inj {d2 d3 d4 i j k l i' j' k' l' : ℕ} (hj : j < d2) (hj' : j' < d2) (hk : k < d3) (hk' : k' < d3)
    (hl : l < d4) (hl' : l' < d4) :
    off4 d2 d3 d4 i j k l = off4 d2 d3 d4 i' j' k' l' ↔ i = i' ∧ j = j' ∧ k = k' ∧ l = l' := by
  have aux : ∀ {d a b x y : ℕ}, x < d → y < d → (a * d + x = b * d + y ↔ a = b ∧ x = y) := by
    intro d a b x y hx hy
    constructor
    · intro h
      have h1 := congrArg (· % d) h
      have h2 := congrArg (· / d) h
      have hd : 0 < d := by omega
      simp only [Nat.mul_add_mod_self_right, Nat.mod_eq_of_lt hx, Nat.mod_eq_of_lt hy] at h1
      simp only [Nat.add_comm (_ * d), Nat.add_mul_div_right _ _ hd, Nat.div_eq_of_lt hx, Nat.div_eq_of_lt hy] at h2
      omega
    · rintro ⟨rfl, rfl⟩; rfl
  unfold off4
  rw [aux hl hl', aux hk hk', aux hj hj']
  tauto

theorem addAt_ok {d1 d2 d3 d4 : ℕ} (a : ℕ → ℂ) {i j k l : ℕ} (x : ℂ) (h : i < d1 ∧ j < d2 ∧ k < d3 ∧ l < d4) :
    addAt d1 d2 d3 d4 a i j k l x = .ok (a + fun n => if n = off4 d2 d3 d4 i j k l then x else 0) := by
  unfold addAt
  rw [Res.assert_true h]; rfl

theorem getD_in {α : Type} [Inhabited α] {l : List α} {i : ℕ} (h : i < l.length) : l.getD i default ∈ l := by
  simp [List.getD, List.getElem?_eq_getElem h]

theorem get_getD {α : Type} [Inhabited α] {l : List α} {i : ℕ} (h : i < l.length) :
    Res.get l i = .ok (l.getD i default) := by
  rw [Res.get_of_lt h]; simp [List.getD, List.getElem?_eq_getElem h]

/-- The folded time and sign of a time below `2 β`. -/
theorem wrap_eq (m : MeasIn K) (hβ : 0 < m.beta) {t : ℝ} (h0 : 0 ≤ t) (h1 : t < 2 * m.beta) :
    m.wrap t = foldTime m.beta t ∧ (if t < m.beta then (1 : ℂ) else -1) = foldSign m.beta t := by
  unfold MeasIn.wrap foldTime foldSign
  by_cases h : t < m.beta
  · have : ⌊t / m.beta⌋ = 0 := Int.floor_eq_zero_iff.2 ⟨div_nonneg h0 hβ.le, (div_lt_one hβ).2 h⟩
    simp [h, this]
  · have : ⌊t / m.beta⌋ = 1 := by
      rw [Int.floor_eq_iff]
      push Not at h
      constructor
      · push_cast; rwa [le_div_iff₀ hβ, one_mul]
      · push_cast; rw [div_lt_iff₀ hβ]; linarith
    simp [h, this]

theorem foldTime_mem {β : ℝ} (hβ : 0 < β) (t : ℝ) : 0 ≤ foldTime β t ∧ foldTime β t < β := by
  unfold foldTime
  have h1 := Int.floor_le (t / β)
  have h2 := Int.lt_floor_add_one (t / β)
  rw [le_div_iff₀ hβ] at h1
  rw [div_lt_iff₀ hβ] at h2
  constructor <;> nlinarith

end CTInt
