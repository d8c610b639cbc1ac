import Verif.Model.Random
import Verif.Spec.Random
import Mathlib.Tactic.Linarith
import Mathlib.Tactic.FieldSimp
import Mathlib.Tactic.Ring
import Mathlib.Tactic.Positivity
import Mathlib.Data.List.GetD
import Mathlib.Data.List.Nodup
import Mathlib.Data.Finset.Card

/-!
# C32, C33, C35, C36: random selections
-/

set_option linter.all false

namespace CTInt

/-! ## C32 -/

section pick
variable {u : ℕ → ℝ} {N : ℕ}

/-- Draw number `k` as an index. -/
noncomputable abbrev drawn (u : ℕ → ℝ) (N k : ℕ) : ℕ := ⌊u k * N⌋₊

theorem drawn_lt (hu : ∀ k, 0 ≤ u k ∧ u k < 1) (hN : 1 ≤ N) (k : ℕ) : drawn u N k < N := by
  have hN' : (0 : ℝ) < N := by exact_mod_cast hN
  rw [Nat.floor_lt (mul_nonneg (hu k).1 hN'.le)]
  nlinarith [(hu k).2]

theorem pickOne_ok {taken : List ℕ} {fuel p x p' : ℕ} (h : pickOne u N taken fuel p = .ok (x, p')) :
    x < N ∧ x ∉ taken ∧ p < p' ∧ drawn u N (p' - 1) = x ∧ ∀ k, p ≤ k → k < p' - 1 → drawn u N k ∈ taken := by
  induction fuel generalizing p with
  | zero => cases h
  | succ f ih =>
    unfold pickOne at h
    simp only [Run.bind_eq_ok, Run.assert_eq_ok] at h
    obtain ⟨_, h1, h2⟩ := h
    split at h2
    · rename_i hm
      obtain ⟨a, b, c, d, e⟩ := ih h2
      refine ⟨a, b, by omega, d, fun k hk1 hk2 => ?_⟩
      by_cases hk : k = p
      · subst hk; exact hm
      · exact e k (by omega) hk2
    · rename_i hm
      cases h2
      exact ⟨h1, hm, by omega, rfl, fun k _ _ => by omega⟩

theorem pickOne_not_ub (hu : ∀ k, 0 ≤ u k ∧ u k < 1) (hN : 1 ≤ N) (taken : List ℕ) (fuel p : ℕ) :
    pickOne u N taken fuel p = .more ∨ ∃ r, pickOne u N taken fuel p = .ok r := by
  induction fuel generalizing p with
  | zero => exact Or.inl rfl
  | succ f ih =>
    unfold pickOne
    simp only []
    rw [Run.assert_true (drawn_lt hu hN p)]
    simp only [Run.bind_ok]
    split
    · exact ih _
    · exact Or.inr ⟨_, rfl⟩

/-- The loop ends if an index not taken comes up. -/
theorem pickOne_ends (hu : ∀ k, 0 ≤ u k ∧ u k < 1) (hN : 1 ≤ N) {taken : List ℕ} {p k : ℕ} (hk : p ≤ k)
    (h : drawn u N k ∉ taken) {fuel : ℕ} (hf : k - p < fuel) :
    ∃ x p', pickOne u N taken fuel p = .ok (x, p') ∧ p' ≤ k + 1 := by
  induction fuel generalizing p with
  | zero => omega
  | succ f ih =>
    unfold pickOne
    simp only []
    rw [Run.assert_true (drawn_lt hu hN p)]
    simp only [Run.bind_ok]
    split
    · rename_i hm
      have hne : k ≠ p := by rintro rfl; exact h hm
      exact ih (by omega) (by omega)
    · exact ⟨_, _, rfl, by omega⟩

theorem pickOne_mono {taken : List ℕ} {fuel p : ℕ} {r} (h : pickOne u N taken fuel p = .ok r) :
    ∀ fuel' ≥ fuel, pickOne u N taken fuel' p = .ok r := by
  induction fuel generalizing p with
  | zero => cases h
  | succ f ih =>
    intro fuel' hf
    obtain ⟨f', rfl⟩ : ∃ f', fuel' = f' + 1 := ⟨fuel' - 1, by omega⟩
    unfold pickOne at h ⊢
    simp only [Run.bind_eq_ok, Run.assert_eq_ok] at h
    obtain ⟨_, h1, h2⟩ := h
    simp only []
    rw [Run.assert_true h1]
    simp only [Run.bind_ok]
    split at h2
    · rename_i hm
      rw [if_pos hm]
      exact ih h2 _ (by omega)
    · rename_i hm
      rw [if_neg hm]
      exact h2

theorem FirstDistinct.push {d : ℕ → ℕ} {l : List ℕ} {p x p' : ℕ} (h : FirstDistinct d l p) (hx : x ∉ l) (hp : p < p')
    (h1 : d (p' - 1) = x) (h2 : ∀ k, p ≤ k → k < p' - 1 → d k ∈ l) : FirstDistinct d (l ++ [x]) p' := by
  refine ⟨?_, ?_, ?_⟩
  · rw [List.nodup_append]
    refine ⟨h.nodup, by simp, ?_⟩
    intro a ha b hb
    simp only [List.mem_singleton] at hb
    subst hb
    rintro rfl
    exact hx ha
  · intro s hs
    by_cases e : s < p
    · exact List.mem_append_left _ (h.seen s e)
    · by_cases e' : s = p' - 1
      · subst e'; rw [h1]; simp
      · exact List.mem_append_left _ (h2 s (by omega) (by omega))
  · intro i hi
    by_cases e : i < l.length
    · obtain ⟨t, ht, q1, q2⟩ := h.first i e
      refine ⟨t, by omega, by rw [List.getElem_append_left e]; exact q1, ?_⟩
      rw [List.take_append_of_le_length (by omega)]
      exact q2
    · have : i = l.length := by simp at hi; omega
      subst this
      refine ⟨p' - 1, by omega, by simpa using h1, ?_⟩
      intro s hs
      rw [List.take_left]
      by_cases e : s < p
      · exact h.seen s e
      · exact h2 s (by omega) hs

theorem pickLoop_ok {fuel : ℕ} {l : List ℕ} {n p q : ℕ} {l' p'} (hq : q ≤ p)
    (hl : FirstDistinct (fun k => drawn u N (q + k)) l (p - q)) (hN : ∀ x ∈ l, x < N)
    (h : pickLoop u N fuel l n p = .ok (l', p')) :
    l'.length = l.length + n ∧ q ≤ p' ∧ FirstDistinct (fun k => drawn u N (q + k)) l' (p' - q) ∧ ∀ x ∈ l', x < N := by
  induction n generalizing l p with
  | zero => cases h; exact ⟨rfl, hq, hl, hN⟩
  | succ n ih =>
    unfold pickLoop at h
    simp only [Run.bind_eq_ok] at h
    obtain ⟨⟨x, p1⟩, e1, e2⟩ := h
    obtain ⟨q1, q2, q3, q4, q5⟩ := pickOne_ok e1
    have hN' : ∀ y ∈ l ++ [x], y < N := by
      intro y hy
      rcases List.mem_append.mp hy with hy | hy
      · exact hN y hy
      · rw [List.mem_singleton.mp hy]; exact q1
    have hpush : FirstDistinct (fun k => drawn u N (q + k)) (l ++ [x]) (p1 - q) := by
      refine hl.push q2 (by omega) ?_ ?_
      · show drawn u N _ = _
        rw [show q + (p1 - q - 1) = p1 - 1 by omega]; exact q4
      · intro k hk1 hk2
        exact q5 (q + k) (by omega) (by omega)
    obtain ⟨a, b, c, d⟩ := ih (by omega) hpush hN' e2
    exact ⟨by rw [a]; simp; omega, b, c, d⟩

theorem pickLoop_not_ub (hu : ∀ k, 0 ≤ u k ∧ u k < 1) (hN : 1 ≤ N) (fuel : ℕ) (l : List ℕ) (n p : ℕ) :
    pickLoop u N fuel l n p = .more ∨ ∃ r, pickLoop u N fuel l n p = .ok r := by
  induction n generalizing l p with
  | zero => exact Or.inr ⟨_, rfl⟩
  | succ n ih =>
    unfold pickLoop
    rcases pickOne_not_ub hu hN l fuel p with h | ⟨⟨x, p'⟩, h⟩
    · rw [h]; exact Or.inl rfl
    · rw [h]; exact ih _ _

theorem exists_not_mem {N : ℕ} {l : List ℕ} (h : l.length < N) : ∃ k < N, k ∉ l := by
  by_contra hc
  push Not at hc
  have : (List.range N).Subperm l := List.subperm_of_subset List.nodup_range fun k hk => hc k (List.mem_range.mp hk)
  have := this.length_le
  simp at this
  omega

theorem pickLoop_ends (hu : ∀ k, 0 ≤ u k ∧ u k < 1) (hfair : ∀ k < N, ∀ m, ∃ i ≥ m, drawn u N i = k) {n : ℕ}
    {l : List ℕ} (hn : l.length + n ≤ N) (p : ℕ) :
    ∃ F r, ∀ fuel ≥ F, pickLoop u N fuel l n p = .ok r := by
  induction n generalizing l p with
  | zero => exact ⟨0, _, fun _ _ => rfl⟩
  | succ n ih =>
    obtain ⟨k, hk, hkl⟩ := exists_not_mem (N := N) (l := l) (by omega)
    obtain ⟨i, hi, hik⟩ := hfair k hk p
    obtain ⟨x, p', e, _⟩ := pickOne_ends hu (N := N) (by omega) (taken := l) hi (by rwa [hik]) (fuel := i - p + 1) (by omega)
    obtain ⟨F, r, hF⟩ := ih (l := l ++ [x]) (by simp; omega) p'
    refine ⟨max F (i - p + 1), r, fun fuel hf => ?_⟩
    unfold pickLoop
    rw [pickOne_mono e fuel (le_trans (le_max_right _ _) hf)]
    exact hF fuel (le_trans (le_max_left _ _) hf)

/-- C32: what is returned: `n` pairwise different numbers below `N`, namely the first `n` different indices the stream
    produces from its current position on. -/
theorem C32_distinct {fuel n p : ℕ} {l : List ℕ} {p' : ℕ} (h : pickNumbers u fuel N n p = .ok (l, p')) :
    l.length = n ∧ l.Nodup ∧ (∀ x ∈ l, x < N) ∧
      p ≤ p' ∧ FirstDistinct (fun k => ⌊u (p + k) * N⌋₊) l (p' - p) := by
  have h0 : FirstDistinct (fun k => drawn u N (p + k)) [] (p - p) := by
    refine ⟨List.nodup_nil, fun s hs => by omega, fun i hi => by simp at hi⟩
  obtain ⟨a, b, c, d⟩ := pickLoop_ok le_rfl h0 (by simp) h
  exact ⟨by simpa using a, c.nodup, d, b, c⟩

/-- C32: it returns on every stream that keeps producing every index, if `n ≤ N`. -/
theorem C32_returns (hu : ∀ k, 0 ≤ u k ∧ u k < 1) (hfair : ∀ x < N, ∀ m, ∃ k ≥ m, ⌊u k * N⌋₊ = x) {n : ℕ} (hn : n ≤ N)
    (p : ℕ) : ∃ F r, ∀ fuel ≥ F, pickNumbers u fuel N n p = .ok r :=
  pickLoop_ends hu hfair (by simpa using hn) p

/-- C32: it never returns, on any stream in [0,1), if `n > N ≥ 1`; for `N = 0 < n` an empty array is accessed. -/
theorem C32_diverges (hu : ∀ k, 0 ≤ u k ∧ u k < 1) {n : ℕ} (hn : N < n) (fuel p : ℕ) :
    (1 ≤ N → pickNumbers u fuel N n p = .more) ∧ (N = 0 → 1 ≤ fuel → pickNumbers u fuel N n p = .ub) := by
  constructor
  · intro hN
    rcases pickLoop_not_ub hu hN fuel [] n p with h | ⟨⟨l, p'⟩, h⟩
    · exact h
    · obtain ⟨a, b, c, -⟩ := C32_distinct h
      have : l.Subperm (List.range N) := List.subperm_of_subset b fun k hk => List.mem_range.mpr (c k hk)
      have := this.length_le
      simp at this
      omega
  · rintro rfl hf
    obtain ⟨f, rfl⟩ : ∃ f, fuel = f + 1 := ⟨fuel - 1, by omega⟩
    obtain ⟨m, rfl⟩ : ∃ m, n = m + 1 := ⟨n - 1, by omega⟩
    unfold pickNumbers pickLoop pickOne
    simp [Run.assert]

/-- A stream meeting the hypotheses of `C32_returns` for `N = 3`: 0, 1/3, 2/3 repeated. -/
example : ∃ u : ℕ → ℝ, (∀ k, 0 ≤ u k ∧ u k < 1) ∧ ∀ x < 3, ∀ m, ∃ k ≥ m, ⌊u k * (3 : ℕ)⌋₊ = x := by
  refine ⟨fun k => ((k % 3 : ℕ) : ℝ) / 3, fun k => ⟨by positivity, ?_⟩, ?_⟩
  · rw [div_lt_one (by norm_num)]
    exact_mod_cast Nat.mod_lt k (by norm_num)
  · intro x hx m
    refine ⟨3 * m + x, by omega, ?_⟩
    have h1 : (3 * m + x) % 3 = x := by omega
    simp only [h1]
    have : (x : ℝ) / 3 * (3 : ℕ) = x := by push_cast; field_simp
    rw [this, Nat.floor_natCast]

end pick

/-! ## C33 -/

/-- C33: the result differs from `x` by a multiple of `beta`; it lies in [0,beta) for x ≥ 0 and in (0,beta] for x < 0. -/
theorem C33_mymod {x beta : ℝ} (hb : 0 < beta) :
    (∃ k : ℤ, mymod x beta = x + k * beta) ∧ (0 ≤ x → 0 ≤ mymod x beta ∧ mymod x beta < beta) ∧
      (x < 0 → 0 < mymod x beta ∧ mymod x beta ≤ beta) := by
  unfold mymod
  by_cases hx : 0 ≤ x
  · rw [if_pos hx]
    have h0 : 0 ≤ x / beta := by positivity
    have h1 := Nat.floor_le h0
    have h2 := Nat.lt_floor_add_one (x / beta)
    rw [le_div_iff₀ hb] at h1
    rw [div_lt_iff₀ hb] at h2
    refine ⟨⟨-(⌊x / beta⌋₊ : ℤ), by push_cast; ring⟩, fun _ => ⟨by linarith, by linarith⟩, fun h => absurd hx (not_le.mpr h)⟩
  · rw [if_neg hx]
    push Not at hx
    have h0 : 0 ≤ -x / beta := by
      apply div_nonneg _ hb.le; linarith
    have h1 := Nat.floor_le h0
    have h2 := Nat.lt_floor_add_one (-x / beta)
    rw [le_div_iff₀ hb] at h1
    rw [div_lt_iff₀ hb] at h2
    exact ⟨⟨⌊-x / beta⌋₊ + 1, by push_cast; ring⟩, fun h => absurd hx (not_lt.mpr h), fun _ => ⟨by linarith, by linarith⟩⟩

/-- C33: the interval for negative arguments cannot be narrowed: a negative multiple of `beta` is sent to `beta`. -/
theorem C33_negative_multiple {beta : ℝ} (hb : 0 < beta) (n : ℕ) : mymod (-((n + 1 : ℕ) * beta)) beta = beta := by
  have h : -((n + 1 : ℕ) * beta) < 0 := by
    have : (0 : ℝ) < (n + 1 : ℕ) := by positivity
    nlinarith
  unfold mymod
  rw [if_neg (not_le.mpr h)]
  have : -(-((n + 1 : ℕ) * beta)) / beta = ((n + 1 : ℕ) : ℝ) := by field_simp
  rw [this, Nat.floor_natCast]
  ring

/-! ## C35 -/

/-- C35: a time drawn for a window inside [0,beta] is in [0,beta] and accepted by the window, which may wrap around. -/
theorem C35_time_in_window {ts w beta r : ℝ} (h0 : 0 ≤ ts) (h1 : ts ≤ beta) (hw : 0 < w) (hwb : w ≤ beta) (hr : 0 ≤ r)
    (hr1 : r ≤ 1) : ∃ x t, Window.create ts w beta = .ok x ∧ x.randomTime r beta = .ok t ∧ 0 ≤ t ∧ t ≤ beta ∧
      ∀ v : Vert, v.isDensity = false → v.time = t → x.accepts v := by
  have hrw : r * w ≤ w := by nlinarith
  have hrw0 : 0 ≤ r * w := by positivity
  unfold Window.create
  rw [Res.assert_true hwb, Res.bind_ok]
  by_cases hc : ts + w ≤ beta
  · rw [if_pos hc]
    refine ⟨_, r * w + ts, rfl, ?_, by linarith, by linarith, ?_⟩
    · unfold Window.randomTime
      rw [Res.assert_true ⟨hr, hr1⟩, Res.bind_ok, Res.assert_true rfl, Res.bind_ok, Res.assert_true hw, Res.bind_ok]
      simp only [Res.pure_eq]
      rw [if_neg (by show ¬ (_ > beta); linarith)]
    · intro v hv ht
      exact ⟨hv, Or.inl ⟨by rw [ht]; show ts ≤ _; linarith, by rw [ht]; show _ ≤ ts + w; linarith⟩⟩
  · rw [if_neg hc]
    refine ⟨_, if r * w + ts > beta then r * w + ts - beta else r * w + ts, rfl, ?_, ?_, ?_, ?_⟩
    · unfold Window.randomTime
      rw [Res.assert_true ⟨hr, hr1⟩, Res.bind_ok, Res.assert_true rfl, Res.bind_ok, Res.assert_true hw, Res.bind_ok]
      rfl
    · split <;> linarith
    · split <;> linarith
    · intro v hv ht
      refine ⟨hv, ?_⟩
      show ts ≤ v.time ∧ v.time ≤ beta ∨ 0 ≤ v.time ∧ v.time ≤ w + ts - beta
      rw [ht]
      split
      · exact Or.inr ⟨by linarith, by linarith⟩
      · exact Or.inl ⟨by linarith, by linarith⟩

/-- C35: conversely every time accepted by the window is drawn for some random number. -/
theorem C35_window_reached {ts w beta t : ℝ} (h0 : 0 ≤ ts) (h1 : ts < beta) (hw : 0 < w) (hwb : w ≤ beta) {x : Window}
    (hx : Window.create ts w beta = .ok x) {v : Vert} (hv : x.accepts v) (hpos : 0 < v.time ∨ ts + w ≤ beta) :
    ∃ r, 0 ≤ r ∧ r ≤ 1 ∧ x.randomTime r beta = .ok v.time := by
  have run : ∀ {x : Window} {r : ℝ}, x.beta = beta → x.w = w → x.ts = ts → 0 ≤ r → r ≤ 1 →
      x.randomTime r beta = .ok (if r * w + ts > beta then r * w + ts - beta else r * w + ts) := by
    intro x r e1 e2 e3 hr hr1
    unfold Window.randomTime
    rw [Res.assert_true ⟨hr, hr1⟩, Res.bind_ok, Res.assert_true e1, Res.bind_ok, Res.assert_true (by rw [e2]; exact hw),
      Res.bind_ok, e1, e2, e3]
    rfl
  have near : ∀ {x : Window}, x.beta = beta → x.w = w → x.ts = ts → ts ≤ v.time → v.time ≤ beta → v.time ≤ ts + w →
      ∃ r, 0 ≤ r ∧ r ≤ 1 ∧ x.randomTime r beta = .ok v.time := by
    intro x e1 e2 e3 q1 q2 q3
    have hr : (v.time - ts) / w * w + ts = v.time := by field_simp; ring
    have hr0 : 0 ≤ (v.time - ts) / w := div_nonneg (by linarith) hw.le
    have hr1 : (v.time - ts) / w ≤ 1 := by rw [div_le_one hw]; linarith
    refine ⟨_, hr0, hr1, ?_⟩
    rw [run e1 e2 e3 hr0 hr1, hr, if_neg (not_lt.mpr q2)]
  unfold Window.create at hx
  rw [Res.assert_true hwb, Res.bind_ok] at hx
  by_cases hc : ts + w ≤ beta
  · rw [if_pos hc] at hx
    cases hx
    obtain ⟨_, h⟩ := hv
    have h : ts ≤ v.time ∧ v.time ≤ ts + w := by
      rcases h with h | h <;> exact h
    exact near rfl rfl rfl h.1 (by linarith) h.2
  · rw [if_neg hc] at hx
    cases hx
    push Not at hc
    obtain ⟨_, h | h⟩ := hv
    · have h : ts ≤ v.time ∧ v.time ≤ beta := h
      exact near rfl rfl rfl h.1 h.2 (by linarith)
    · have h : 0 ≤ v.time ∧ v.time ≤ w + ts - beta := h
      have ht : 0 < v.time := hpos.resolve_right (by linarith)
      have hr : (v.time + beta - ts) / w * w + ts = v.time + beta := by field_simp; ring
      have hr0 : 0 ≤ (v.time + beta - ts) / w := div_nonneg (by linarith) hw.le
      have hr1 : (v.time + beta - ts) / w ≤ 1 := by rw [div_le_one hw]; linarith
      refine ⟨_, hr0, hr1, ?_⟩
      rw [run rfl rfl rfl hr0 hr1, hr, if_pos (by linarith)]
      congr 1; ring

/-- The hypotheses of C35 are met by a window that wraps around: beta = 10, from 8 to 10 and 0 to 3. -/
example : (0 : ℝ) ≤ 8 ∧ (8 : ℝ) < 10 ∧ (0 : ℝ) < 5 ∧ (5 : ℝ) ≤ 10 ∧ ¬ ((8 : ℝ) + 5 ≤ 10) ∧ ∃ x, Window.create 8 5 10 = .ok x ∧
    x.accepts { (default : Vert) with time := 2 } := by
  refine ⟨by norm_num, by norm_num, by norm_num, by norm_num, by norm_num, ?_⟩
  unfold Window.create
  rw [Res.assert_true (by norm_num), Res.bind_ok, if_neg (by norm_num)]
  refine ⟨_, rfl, rfl, Or.inr ⟨?_, ?_⟩⟩ <;> norm_num

/-! ## C36 -/

theorem pairCandidates_spec (vs : List Vert) {t1 t2 : ℕ} :
    pairCandidates vs t1 t2 =
      ((List.range vs.length).filter fun i => !(vs.getD i default).nonInt && decide ((vs.getD i default).type = t1),
       (List.range vs.length).filter fun i => !(vs.getD i default).nonInt && decide ((vs.getD i default).type ≠ t1) &&
         decide ((vs.getD i default).type = t2)) := by
  unfold pairCandidates
  have key : ∀ (f : ℕ → Vert) (l : List ℕ) (x : List ℕ × List ℕ), l.foldl (fun (x : List ℕ × List ℕ) i =>
      let v := f i
      if v.nonInt then x
      else if v.type = t1 then (x.1 ++ [i], x.2)
      else if v.type = t2 then (x.1, x.2 ++ [i])
      else x) x =
      (x.1 ++ l.filter fun i => !(f i).nonInt && decide ((f i).type = t1),
       x.2 ++ l.filter fun i => !(f i).nonInt && decide ((f i).type ≠ t1) &&
         decide ((f i).type = t2)) := by
    intro f l
    induction l with
    | nil => intro x; simp
    | cons i l ih =>
      intro x
      rw [List.foldl_cons, ih]
      simp only [List.filter_cons]
      cases hn : (f i).nonInt
      · by_cases h1 : (f i).type = t1
        · simp [hn, h1]
        · by_cases h2 : (f i).type = t2
          · have h21 : ¬ t2 = t1 := fun e => h1 (h2.trans e)
            simp [hn, h1, h2, h21]
          · simp [hn, h1, h2]
      · simp [hn]
  exact (key (fun i => vs.getD i default) _ _).trans (by simp only [List.nil_append])

theorem flatMap_map_getElem? {α β γ : Type} (l : List α) (m : List β) (f : α → β → γ) (hm : m ≠ []) (k : ℕ) :
    (l.flatMap fun a => m.map (f a))[k]? =
      (l[k / m.length]?).bind fun a => (m[k % m.length]?).map (f a) := by
  have hpos : 0 < m.length := List.length_pos_iff.mpr hm
  induction l generalizing k with
  | nil => simp
  | cons a l ih =>
    rw [List.flatMap_cons]
    by_cases h : k < m.length
    · rw [List.getElem?_append_left (by simpa using h), Nat.div_eq_of_lt h, Nat.mod_eq_of_lt h]
      simp
    · rw [List.getElem?_append_right (by simp; omega)]
      simp only [List.length_map]
      have hk : m.length ≤ k := by omega
      rw [ih, Nat.mod_eq_sub_mod (a := k) hk, Nat.div_eq_sub_div (a := k) hpos hk, List.getElem?_cons_succ]

/-- C36: with at least one pair of interacting vertices of the two (different) types the call returns such a pair.
    The weights `prob` handed to the discrete distribution, and the pair `pairAt k` returned when it draws index `k`,
    satisfy: every pair is returned for exactly one index, whose weight is that of the pair; and the normalisation
    reported is the sum over all pairs. -/
theorem C36_pairs (d : PairDist) (beta : ℝ) {vs : List Vert} {t1 t2 : ℕ} (ht : t1 ≠ t2)
    (hex : ∃ i j, ValidPair vs t1 t2 i j) :
    ∃ (prob : List ℝ) (pairAt : ℕ → ℕ × ℕ),
      (∀ draw : List ℝ → ℕ, draw prob < prob.length → pickPair d beta draw vs t1 t2 =
        .ok ⟨some (pairAt (draw prob)), prob.length, prob, some prob.sum⟩) ∧
      (∀ k (hk : k < prob.length), ValidPair vs t1 t2 (pairAt k).1 (pairAt k).2 ∧ (pairAt k).1 ≠ (pairAt k).2 ∧
        prob[k] = d.bare (mymod ((vs.getD (pairAt k).2 default).time - (vs.getD (pairAt k).1 default).time) beta)) ∧
      ∀ i j, ValidPair vs t1 t2 i j → ∃! k, k < prob.length ∧ pairAt k = (i, j) := by
  obtain ⟨p1, hp1⟩ : ∃ p1, p1 = (pairCandidates vs t1 t2).1 := ⟨_, rfl⟩
  obtain ⟨p2, hp2⟩ : ∃ p2, p2 = (pairCandidates vs t1 t2).2 := ⟨_, rfl⟩
  have m1 : ∀ i, i ∈ p1 ↔ ∃ h : i < vs.length, vs[i].nonInt = false ∧ vs[i].type = t1 := by
    intro i
    rw [hp1, pairCandidates_spec, List.mem_filter, List.mem_range]
    constructor
    · rintro ⟨h, e⟩
      rw [List.getD_eq_getElem _ _ h] at e
      exact ⟨h, by simpa using e⟩
    · rintro ⟨h, e⟩
      rw [List.getD_eq_getElem _ _ h]
      exact ⟨h, by simpa using e⟩
  have m2 : ∀ i, i ∈ p2 ↔ ∃ h : i < vs.length, vs[i].nonInt = false ∧ vs[i].type = t2 := by
    intro i
    rw [hp2, pairCandidates_spec, List.mem_filter, List.mem_range]
    constructor
    · rintro ⟨h, e⟩
      rw [List.getD_eq_getElem _ _ h] at e
      simp only [Bool.and_eq_true, Bool.not_eq_true', decide_eq_true_eq] at e
      exact ⟨h, e.1.1, e.2⟩
    · rintro ⟨h, e1, e2⟩
      rw [List.getD_eq_getElem _ _ h]
      refine ⟨h, ?_⟩
      simp only [Bool.and_eq_true, Bool.not_eq_true', decide_eq_true_eq]
      exact ⟨⟨e1, by rw [e2]; exact fun e => ht e.symm⟩, e2⟩
  have n1 : p1.Nodup := by rw [hp1, pairCandidates_spec]; exact List.Nodup.filter _ List.nodup_range
  have n2 : p2.Nodup := by rw [hp2, pairCandidates_spec]; exact List.Nodup.filter _ List.nodup_range
  obtain ⟨i0, j0, h0⟩ := hex
  have e1 : p1 ≠ [] := List.ne_nil_of_mem ((m1 i0).mpr ⟨h0.lt1, h0.int1, h0.type1⟩)
  have e2 : p2 ≠ [] := List.ne_nil_of_mem ((m2 j0).mpr ⟨h0.lt2, h0.int2, h0.type2⟩)
  have l1 : 0 < p1.length := List.length_pos_iff.mpr e1
  have l2 : 0 < p2.length := List.length_pos_iff.mpr e2
  let wt : ℕ → ℕ → ℝ := fun i j => d.bare (mymod ((vs.getD j default).time - (vs.getD i default).time) beta)
  obtain ⟨prob, hprob⟩ : ∃ prob, prob = p1.flatMap fun i => p2.map (wt i) := ⟨_, rfl⟩
  have hlen : prob.length = p1.length * p2.length := by
    rw [hprob, List.length_flatMap]
    simp [List.map_const', List.sum_replicate]
  have hdiv : ∀ k < prob.length, k / p2.length < p1.length ∧ k % p2.length < p2.length := by
    intro k hk
    exact ⟨by rw [Nat.div_lt_iff_lt_mul l2]; rw [hlen] at hk; exact hk, Nat.mod_lt _ l2⟩
  let pairAt : ℕ → ℕ × ℕ := fun k => (p1.getD (k / p2.length) 0, p2.getD (k % p2.length) 0)
  refine ⟨prob, pairAt, ?_, ?_, ?_⟩
  · intro draw hdraw
    obtain ⟨q1, q2⟩ := hdiv _ hdraw
    unfold pickPair
    rw [← Prod.mk.eta (p := pairCandidates vs t1 t2), ← hp1, ← hp2]
    simp only []
    rw [if_neg (by positivity), show (p1.flatMap fun i => p2.map fun j =>
      d.bare (mymod ((vs.getD j default).time - (vs.getD i default).time) beta)) = prob from hprob.symm,
      Res.get_of_lt q1, Res.bind_ok, Res.get_of_lt q2, Res.bind_ok, hlen]
    simp only [pairAt, Res.pure_eq]
    rw [List.getD_eq_getElem _ _ q1, List.getD_eq_getElem _ _ q2]
  · intro k hk
    obtain ⟨q1, q2⟩ := hdiv k hk
    have a1 : (pairAt k).1 = p1[k / p2.length] := List.getD_eq_getElem _ _ q1
    have a2 : (pairAt k).2 = p2[k % p2.length] := List.getD_eq_getElem _ _ q2
    obtain ⟨b1, b2, b3⟩ := (m1 _).mp (List.getElem_mem q1)
    obtain ⟨c1, c2, c3⟩ := (m2 _).mp (List.getElem_mem q2)
    refine ⟨⟨by rw [a1]; exact b1, by rw [a2]; exact c1, ?_, ?_, ?_, ?_⟩, ?_, ?_⟩
    · simp only [a1]; exact b2
    · simp only [a2]; exact c2
    · simp only [a1]; exact b3
    · simp only [a2]; exact c3
    · rw [a1, a2]
      intro e
      simp only [← e] at c3
      exact ht (b3.symm.trans c3)
    · have q := flatMap_map_getElem? p1 p2 wt e2 k
      rw [← hprob, List.getElem?_eq_getElem hk, List.getElem?_eq_getElem q1, List.getElem?_eq_getElem q2] at q
      simp only [Option.bind_some, Option.map_some, Option.some.injEq] at q
      rw [q, a1, a2]
  · intro i j hij
    obtain ⟨k1, hk1, e1⟩ := List.getElem_of_mem ((m1 i).mpr ⟨hij.lt1, hij.int1, hij.type1⟩)
    obtain ⟨k2, hk2, e2⟩ := List.getElem_of_mem ((m2 j).mpr ⟨hij.lt2, hij.int2, hij.type2⟩)
    have hd : (k1 * p2.length + k2) / p2.length = k1 := by
      rw [Nat.mul_comm, Nat.mul_add_div l2, Nat.div_eq_of_lt hk2, Nat.add_zero]
    have hm : (k1 * p2.length + k2) % p2.length = k2 := by
      rw [Nat.mul_comm, Nat.mul_add_mod, Nat.mod_eq_of_lt hk2]
    refine ⟨k1 * p2.length + k2, ⟨?_, ?_⟩, ?_⟩
    · rw [hlen]
      calc k1 * p2.length + k2 < k1 * p2.length + p2.length := by omega
        _ = (k1 + 1) * p2.length := by ring
        _ ≤ p1.length * p2.length := Nat.mul_le_mul_right _ hk1
    · simp only [pairAt]
      rw [hd, hm, List.getD_eq_getElem _ _ hk1, List.getD_eq_getElem _ _ hk2, e1, e2]
    · rintro k ⟨hk, ek⟩
      obtain ⟨q1, q2⟩ := hdiv k hk
      simp only [pairAt, List.getD_eq_getElem _ _ q1, List.getD_eq_getElem _ _ q2, Prod.mk.injEq] at ek
      have r1 : k / p2.length = k1 := (List.Nodup.getElem_inj_iff n1).mp (ek.1.trans e1.symm)
      have r2 : k % p2.length = k2 := (List.Nodup.getElem_inj_iff n2).mp (ek.2.trans e2.symm)
      rw [← r1, ← r2, Nat.mul_comm]
      exact (Nat.div_add_mod _ _).symm

/-- C36: without such a pair `(-1,-1)` and the number 0 are returned, and the normalisation is left unset. -/
theorem C36_no_pair (d : PairDist) (beta : ℝ) (draw : List ℝ → ℕ) {vs : List Vert} {t1 t2 : ℕ}
    (hex : ¬ ∃ i j, ValidPair vs t1 t2 i j) : pickPair d beta draw vs t1 t2 = .ok ⟨none, 0, [], none⟩ := by
  unfold pickPair
  rw [pairCandidates_spec]
  simp only []
  rw [if_pos]
  · rfl
  by_contra h
  rw [Nat.mul_eq_zero, not_or] at h
  obtain ⟨h1, h2⟩ := h
  obtain ⟨i, hi⟩ := List.length_pos_iff_exists_mem.mp (Nat.pos_of_ne_zero h1)
  obtain ⟨j, hj⟩ := List.length_pos_iff_exists_mem.mp (Nat.pos_of_ne_zero h2)
  rw [List.mem_filter, List.mem_range] at hi hj
  obtain ⟨hi, ei⟩ := hi
  obtain ⟨hj, ej⟩ := hj
  rw [List.getD_eq_getElem _ _ hi] at ei
  rw [List.getD_eq_getElem _ _ hj] at ej
  simp only [Bool.and_eq_true, Bool.not_eq_true', decide_eq_true_eq] at ei ej
  exact hex ⟨i, j, hi, hj, ei.1, ej.1.1, ei.2, ej.2⟩

/-- Vertices of types 0 and 1 at different times form a valid pair. -/
example : ValidPair [⟨0, 0, 2, 1, false, false, 1⟩, ⟨0, 0, 2, 2, false, true, 2⟩, ⟨1, 0, 2, 3, false, false, 3⟩] 0 1 0 2 :=
  ⟨by simp, by simp, rfl, rfl, rfl, rfl⟩

end CTInt
