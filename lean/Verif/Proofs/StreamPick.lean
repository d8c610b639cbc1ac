import Verif.Proofs.Streams

/-!
# The laws of `pickup_a_few_numbers` and of the loop that draws another state
-/

set_option linter.all false

namespace CTInt

open MeasureTheory Set

/-- Counting positions from `q` on. -/
def Run.shift {α : Type} (q : ℕ) : Run (α × ℕ) → Run (α × ℕ)
  | .ok (x, p) => .ok (x, q + p)
  | .throw e => .throw e
  | .ub => .ub
  | .more => .more

theorem Run.shift_bind {α β : Type} (q : ℕ) (x : Run (α × ℕ)) {f g : α × ℕ → Run (β × ℕ)}
    (h : ∀ y p, f (y, q + p) = Run.shift q (g (y, p))) : (x.shift q >>= f) = (x >>= g).shift q := by
  cases x with
  | ok z => obtain ⟨y, p⟩ := z; exact h y p
  | throw e => rfl
  | ub => rfl
  | more => rfl

theorem Returns.shift {α : Type} {q : ℕ} {f : ℕ → Run (α × ℕ)} {x : α} {p : ℕ} :
    Returns (fun n => (f n).shift q) (x, p) ↔ ∃ p', p = q + p' ∧ Returns f (x, p') := by
  constructor
  · rintro ⟨F, h⟩
    have h0 := h F le_rfl
    simp only at h0
    cases e : f F with
    | ok z =>
      obtain ⟨y, p'⟩ := z
      rw [e] at h0
      injection h0 with h0
      injection h0 with h1 h2
      subst h1
      refine ⟨p', h2.symm, F, fun n hn => ?_⟩
      have hn := h n hn
      simp only at hn
      cases e' : f n with
      | ok z =>
        obtain ⟨y', p''⟩ := z
        rw [e'] at hn
        injection hn with hn
        injection hn with h3 h4
        subst h3
        have : p'' = p' := by omega
        rw [this]
      | throw _ => rw [e'] at hn; cases hn
      | ub => rw [e'] at hn; cases hn
      | more => rw [e'] at hn; cases hn
    | throw _ => rw [e] at h0; cases h0
    | ub => rw [e] at h0; cases h0
    | more => rw [e] at h0; cases h0
  · rintro ⟨p', rfl, F, h⟩
    exact ⟨F, fun n hn => by show (f n).shift q = _; rw [h n hn]; rfl⟩

theorem pickOne_shift (u : ℕ → ℝ) (N : ℕ) (taken : List ℕ) (fuel q p : ℕ) :
    pickOne u N taken fuel (q + p) = (pickOne (dropS q u) N taken fuel p).shift q := by
  induction fuel generalizing p with
  | zero => rfl
  | succ f ih =>
    unfold pickOne
    have e : dropS q u p = u (q + p) := rfl
    simp only [e]
    by_cases h : ⌊u (q + p) * (N : ℝ)⌋₊ < N
    · rw [Run.assert_true h]
      simp only [Run.bind_ok]
      split
      · exact ih (p + 1)
      · rfl
    · unfold Run.assert
      rw [if_neg h]; rfl

theorem pickLoop_shift (u : ℕ → ℝ) (N fuel : ℕ) (l : List ℕ) (n q p : ℕ) :
    pickLoop u N fuel l n (q + p) = (pickLoop (dropS q u) N fuel l n p).shift q := by
  induction n generalizing l p with
  | zero => rfl
  | succ n ih =>
    unfold pickLoop
    rw [pickOne_shift]
    exact Run.shift_bind q _ fun y p => ih _ p

/-- The event that `pickLoop` returns and what follows has property `B`. -/
def PickEv (N : ℕ) (B : List ℕ → Set (ℕ → ℝ)) (l : List ℕ) (n : ℕ) : Set (ℕ → ℝ) :=
  {u | ∃ L p, Returns (fun fuel => pickLoop u N fuel l n 0) (L, p) ∧ dropS p u ∈ B L}

theorem pickOne_returns {u : ℕ → ℝ} (hu : GoodS u) {N : ℕ} {l : List ℕ} (hl : l.length < N) (p : ℕ) :
    ∃ x p', Returns (fun fuel => pickOne u N l fuel p) (x, p') := by
  obtain ⟨k, hk, hkl⟩ := exists_not_mem hl
  obtain ⟨i, hi, e⟩ := hu.1 N k hk p
  obtain ⟨x, p', h, _⟩ := pickOne_ends (N := N) hu.2 (by omega) hi (taken := l) (by unfold drawn; rw [e]; exact hkl) (fuel := i - p + 1) (by omega)
  exact ⟨x, p', i - p + 1, fun n hn => pickOne_mono h n hn⟩

theorem pickLoop_bind {u : ℕ → ℝ} {N : ℕ} {l : List ℕ} {n p x p' : ℕ}
    (h : Returns (fun fuel => pickOne u N l fuel p) (x, p')) (r : List ℕ × ℕ) :
    Returns (fun fuel => pickLoop u N fuel l (n + 1) p) r ↔ Returns (fun fuel => pickLoop u N fuel (l ++ [x]) n p') r := by
  have := Returns.bind_iff (g := fun fuel (z : ℕ × ℕ) => pickLoop u N fuel (l ++ [z.1]) n z.2) h r
  rw [← this]
  exact returns_congr (fun fuel => by conv_lhs => unfold pickLoop) r

theorem pickEv_step {N : ℕ} (B : List ℕ → Set (ℕ → ℝ)) {l : List ℕ} (hnd : l.Nodup) (hlt : ∀ x ∈ l, x < N)
    (hl : l.length < N) (n : ℕ) :
    streams (PickEv N B l (n + 1)) = ∑ k ∈ Finset.range N \ l.toFinset,
      ENNReal.ofReal (1 / ((N - l.length : ℕ) : ℝ)) * streams (PickEv N B (l ++ [k]) n) := by
  have hcard : l.toFinset.card = l.length := List.toFinset_card_of_nodup hnd
  rw [← hcard]
  refine law_until (fun x hx => hlt x (List.mem_toFinset.1 hx)) (by omega) ?_ ?_
  · intro u hu hk
    rw [List.mem_toFinset] at hk
    have hlt' : ⌊u 0 * (N : ℝ)⌋₊ < N := drawn_lt hu.2 (by omega) 0
    have h1 : Returns (fun fuel => pickOne u N l fuel 0) (⌊u 0 * (N : ℝ)⌋₊, 1) := by
      refine ⟨1, fun fuel hf => ?_⟩
      obtain ⟨f, rfl⟩ : ∃ f, fuel = f + 1 := ⟨fuel - 1, by omega⟩
      unfold pickOne
      simp only [Run.assert_true hlt', Run.bind_ok]
      rw [if_neg hk]; rfl
    constructor
    · rintro ⟨L, p, hr, hB⟩
      rw [pickLoop_bind h1, returns_congr (fun fuel => pickLoop_shift u N fuel _ n 1 0), Returns.shift] at hr
      obtain ⟨p', rfl, hr⟩ := hr
      exact ⟨L, p', hr, by rw [dropS_drop]; exact hB⟩
    · rintro ⟨L, p', hr, hB⟩
      refine ⟨L, 1 + p', ?_, by rw [dropS_drop] at hB; exact hB⟩
      rw [pickLoop_bind h1, returns_congr (fun fuel => pickLoop_shift u N fuel _ n 1 0), Returns.shift]
      exact ⟨p', rfl, hr⟩
  · intro u hu hk
    rw [List.mem_toFinset] at hk
    have hlt' : ⌊u 0 * (N : ℝ)⌋₊ < N := drawn_lt hu.2 (by omega) 0
    obtain ⟨x, p0, h0⟩ := pickOne_returns (hu.drop 1) hl 0
    have h1 : Returns (fun fuel => pickOne u N l fuel 0) (x, 1 + p0) := by
      rw [Returns.succ_iff (g := fun fuel => (pickOne (dropS 1 u) N l fuel 0).shift 1)]
      · rw [Returns.shift]; exact ⟨p0, rfl, h0⟩
      · intro fuel
        conv_lhs => unfold pickOne
        simp only [Run.assert_true hlt', Run.bind_ok]
        rw [if_pos hk]
        exact pickOne_shift u N l fuel 1 0
    constructor
    · rintro ⟨L, p, hr, hB⟩
      rw [pickLoop_bind h1, returns_congr (fun fuel => pickLoop_shift u N fuel _ n 1 p0), Returns.shift] at hr
      obtain ⟨p', rfl, hr⟩ := hr
      exact ⟨L, p', (pickLoop_bind h0 _).2 hr, by rw [dropS_drop]; exact hB⟩
    · rintro ⟨L, p', hr, hB⟩
      refine ⟨L, 1 + p', ?_, by rw [dropS_drop] at hB; exact hB⟩
      rw [pickLoop_bind h1, returns_congr (fun fuel => pickLoop_shift u N fuel _ n 1 p0), Returns.shift]
      exact ⟨p', rfl, (pickLoop_bind h0 _).1 hr⟩

theorem pickEv_zero (N : ℕ) (B : List ℕ → Set (ℕ → ℝ)) (l : List ℕ) : PickEv N B l 0 = B l := by
  ext u
  constructor
  · rintro ⟨L, p, ⟨F, h⟩, hB⟩
    have := h F le_rfl
    unfold pickLoop at this
    injection this with this
    injection this with h1 h2
    subst h1 h2
    rwa [dropS_zero] at hB
  · intro h
    exact ⟨l, 0, ⟨0, fun _ _ => rfl⟩, by rw [dropS_zero]; exact h⟩

end CTInt
