import Verif.Props.Measure
import Verif.Props.Density
import Verif.Props.Green

/-!
# C58: Legendre coefficients from the binned estimator
-/

set_option linter.all false

namespace CTInt

variable {K : Type} [RCLike K]

/-- The post-processing on its own: the bins with the indices moved and divided by the sign, and their Legendre
    transform. -/
theorem postBinning_spec (nf ns nb nl : ℕ) (hl : 0 < nl) (beta sign : ℝ) (junkP : ℕ → ℕ → ℝ) (stau : ℕ → ℂ) :
    ∃ S Sl, postBinning nf ns nb nl beta sign junkP stau = .ok (S, Sl) ∧
      (∀ f < nf, ∀ a < ns, ∀ b < ns, ∀ ib < nb,
        S (off4 ns ns nf ib a b f) = stau (off4 ns ns nb f a b ib) / (sign : ℂ)) ∧
      ∀ f < nf, ∀ a < ns, ∀ b < ns, ∀ l < nl, Sl (off4 ns ns nf l a b f) =
        ∑ ib ∈ Finset.range nb, ((Real.sqrt (2 * l + 1) * (legendreP l).eval (((ib : ℝ) + 1 / 2) * (2 / nb) - 1) : ℝ) : ℂ) *
          (stau (off4 ns ns nb f a b ib) / (sign : ℂ)) * ((beta / nb : ℝ) : ℂ) := by
  -- the copy
  have h := MeasIn.loops4 nf ns ns nb (fun f a b ib (S : ℕ → ℂ) => do
      Res.assert (ib < nb ∧ a < ns ∧ b < ns ∧ f < nf)
      pure (Function.update S (off4 ns ns nf ib a b f) (stau (off4 ns ns nb f a b ib) / (sign : ℂ))))
    (fun p S => ∀ f < nf, ∀ a < ns, ∀ b < ns, ∀ ib < nb, off4 ns ns nb f a b ib < p →
      S (off4 ns ns nf ib a b f) = stau (off4 ns ns nb f a b ib) / (sign : ℂ)) (fun _ => 0)
    (fun _ _ _ _ _ _ _ _ h => by omega) ?_
  · obtain ⟨S, eS, hS⟩ := h
    have hS' : ∀ f < nf, ∀ a < ns, ∀ b < ns, ∀ ib < nb,
        S (off4 ns ns nf ib a b f) = stau (off4 ns ns nb f a b ib) / (sign : ℂ) :=
      fun f hf a ha b hb ib hib => hS f hf a ha b hb ib hib (MeasIn.off4_lt hf ha hb hib)
    obtain ⟨t, P, et, eP, hP, -⟩ := C45_array nl hl ((List.range nb).map fun ib : ℕ => ((ib : ℝ) + 1 / 2) * (2 / nb) - 1)
      nl le_rfl junkP
    obtain ⟨t', et', hsq⟩ := C45_weights nl hl
    rw [et] at et'
    cases Res.ok.inj et'
    let e (f a b l ib : ℕ) : ℕ → ℂ := fun n => if n = off4 ns ns nf l a b f then
      (t.sqrt l : ℂ) * (P l ib : ℂ) * S (off4 ns ns nf ib a b f) * ((beta / nb : ℝ) : ℂ) else 0
    refine ⟨S, (fun _ => 0) + ∑ f ∈ Finset.range nf, ∑ a ∈ Finset.range ns, ∑ b ∈ Finset.range ns, ∑ l ∈ Finset.range nl,
      ∑ ib ∈ Finset.range nb, e f a b l ib, ?_, hS', ?_⟩
    · unfold postBinning
      rw [eS, Res.bind_ok, et, Res.bind_ok]
      simp only [eP, Res.bind_ok]
      rw [Res.foldl_range_acc (e := fun f => ∑ a ∈ Finset.range ns, ∑ b ∈ Finset.range ns, ∑ l ∈ Finset.range nl,
        ∑ ib ∈ Finset.range nb, e f a b l ib)]
      · rfl
      · intro d f hf
        refine Res.foldl_range_acc d fun d a ha => ?_
        refine Res.foldl_range_acc d fun d b hb => ?_
        refine Res.foldl_range_acc d fun d l hl => ?_
        refine Res.foldl_range_acc d fun d ib hib => ?_
        exact addAt_ok _ _ ⟨hl, ha, hb, hf⟩
    · intro f hf a ha b hb l hl
      simp only [Pi.add_apply, Finset.sum_apply, zero_add]
      rw [Finset.sum_eq_single f, Finset.sum_eq_single a, Finset.sum_eq_single b, Finset.sum_eq_single l]
      · refine Finset.sum_congr rfl fun ib hib => ?_
        have hib := Finset.mem_range.1 hib
        simp only [e, if_true]
        rw [hS' f hf a ha b hb ib hib, hsq l hl, hP l hl ib (by simpa using hib)]
        simp only [List.getElem_map, List.getElem_range]
        push_cast
        ring
      · intro l' hl' hne
        refine Finset.sum_eq_zero fun ib _ => if_neg ?_
        rw [off4_inj ha ha hb hb hf hf]; tauto
      · intro h; exact absurd (Finset.mem_range.2 hl) h
      · intro b' hb' hne
        refine Finset.sum_eq_zero fun l' _ => Finset.sum_eq_zero fun ib _ => if_neg ?_
        rw [off4_inj ha ha hb (Finset.mem_range.1 hb') hf hf]; tauto
      · intro h; exact absurd (Finset.mem_range.2 hb) h
      · intro a' ha' hne
        refine Finset.sum_eq_zero fun b' hb' => Finset.sum_eq_zero fun l' _ => Finset.sum_eq_zero fun ib _ => if_neg ?_
        rw [off4_inj ha (Finset.mem_range.1 ha') hb (Finset.mem_range.1 hb') hf hf]; tauto
      · intro h; exact absurd (Finset.mem_range.2 ha) h
      · intro f' hf' hne
        refine Finset.sum_eq_zero fun a' ha' => Finset.sum_eq_zero fun b' hb' => Finset.sum_eq_zero fun l' _ =>
          Finset.sum_eq_zero fun ib _ => if_neg ?_
        rw [off4_inj ha (Finset.mem_range.1 ha') hb (Finset.mem_range.1 hb') hf (Finset.mem_range.1 hf')]; tauto
      · intro h; exact absurd (Finset.mem_range.2 hf) h
  · rintro f hf a ha b hb ib hib S hS
    refine ⟨_, by rw [Res.assert_true ⟨hib, ha, hb, hf⟩]; rfl, fun f' hf' a' ha' b' hb' ib' hib' hp => ?_⟩
    by_cases e : off4 ns ns nf ib' a' b' f' = off4 ns ns nf ib a b f
    · have e2 := (off4_inj ha' ha hb' hb hf' hf).1 e
      obtain ⟨rfl, rfl, rfl, rfl⟩ := e2
      rw [Function.update_self]
    · rw [Function.update_of_ne e]
      refine hS f' hf' a' ha' b' hb' ib' hib' ?_
      have : off4 ns ns nb f' a' b' ib' ≠ off4 ns ns nb f a b ib := by
        rw [Ne, off4_inj ha' ha hb' hb hib' hib]
        rintro ⟨rfl, rfl, rfl, rfl⟩
        exact e rfl
      omega

theorem estimator_sum (m : MeasIn K) (G : ℝ → ℕ → ℕ → ℕ → K) (shifts : List ℝ) (n : ℕ) (ρ : ℕ → ℝ → ℂ) (w : ℕ → ℂ)
    (z c B : ℕ) : ∑ b ∈ Finset.range n, w b * m.estimator G shifts (ρ b) z c B =
      m.estimator G shifts (fun τ => ∑ b ∈ Finset.range n, w b * ρ b τ) z c B := by
  unfold MeasIn.estimator
  simp only [← mul_div_assoc]
  rw [← Finset.sum_div]
  congr 1
  induction shifts with
  | nil => simp
  | cons s l ih =>
    simp only [List.map_cons, List.sum_cons, mul_add, Finset.sum_add_distrib]
    rw [ih]
    congr 1
    simp only [Finset.mul_sum]
    rw [Finset.sum_comm]
    refine Finset.sum_congr rfl fun q _ => ?_
    split
    · rw [Finset.sum_mul]
      exact Finset.sum_congr rfl fun b _ => by ring
    · simp

theorem estimator_congr (m : MeasIn K) (hβ : 0 < m.beta) (G : ℝ → ℕ → ℕ → ℕ → K) (shifts : List ℝ) {ρ ρ' : ℝ → ℂ}
    (h : ∀ τ, 0 ≤ τ → τ < m.beta → ρ τ = ρ' τ) (z c B : ℕ) :
    m.estimator G shifts ρ z c B = m.estimator G shifts ρ' z c B := by
  unfold MeasIn.estimator
  congr 2
  refine List.map_congr_left fun s _ => Finset.sum_congr rfl fun q _ => ?_
  obtain ⟨h0, h1⟩ := foldTime_mem hβ (((m.cr z).getD q default).time + s)
  rw [h _ h0 h1]

/-- Among the bins exactly one contains a given time; summing the weights picks its centre. -/
theorem bins_pick {β : ℝ} (hβ : 0 < β) {nb : ℕ} (hb : 0 < nb) (l : ℕ) {τ : ℝ} (h0 : 0 ≤ τ) (h1 : τ < β) :
    ∑ ib ∈ Finset.range nb, ((Real.sqrt (2 * l + 1) * (legendreP l).eval (((ib : ℝ) + 1 / 2) * (2 / nb) - 1) : ℝ) : ℂ) *
      ((β / nb : ℝ) : ℂ) * binWeight β nb ib τ = legWeight β l (binCenter β nb τ) := by
  have hnb : (0 : ℝ) < nb := by exact_mod_cast hb
  have hx : 0 ≤ τ * nb / β := by positivity
  have hf0 : 0 ≤ ⌊τ * nb / β⌋ := Int.floor_nonneg.2 hx
  obtain ⟨k, hk⟩ := Int.eq_ofNat_of_zero_le hf0
  have hle := Int.floor_le (τ * nb / β)
  have hlt := Int.lt_floor_add_one (τ * nb / β)
  rw [hk] at hle hlt
  push_cast at hle hlt
  rw [le_div_iff₀ hβ] at hle
  rw [div_lt_iff₀ hβ] at hlt
  have hkn : k < nb := by
    have : (k : ℝ) * β < nb * β := lt_of_le_of_lt hle (by nlinarith)
    exact_mod_cast lt_of_mul_lt_mul_right this hβ.le
  rw [Finset.sum_eq_single k]
  · unfold binWeight legWeight binCenter
    rw [if_pos, hk]
    · have e : (((k : ℝ) + 1 / 2) * (2 / nb) - 1) = 2 * (β * (((k : ℤ) : ℝ) + 1 / 2) / nb) / β - 1 := by
        push_cast; field_simp
      rw [← e]
      have hβ' : (β : ℂ) ≠ 0 := by exact_mod_cast hβ.ne'
      have hn' : (nb : ℂ) ≠ 0 := by exact_mod_cast hnb.ne'
      push_cast
      field_simp
    · rw [div_le_iff₀ hnb, lt_div_iff₀ hnb]
      exact ⟨by linarith, by linarith⟩
  · intro b hbm hne
    unfold binWeight
    rw [if_neg, mul_zero]
    rintro ⟨a1, a2⟩
    rw [div_le_iff₀ hnb] at a1
    rw [lt_div_iff₀ hnb] at a2
    rcases lt_or_gt_of_ne hne with h | h
    · have h5 : (b : ℝ) + 1 ≤ k := by exact_mod_cast h
      nlinarith
    · have h5 : (k : ℝ) + 1 ≤ b := by exact_mod_cast h
      nlinarith
  · intro h; exact absurd (Finset.mem_range.2 hkn) h

/-- **C58.**  A run of any number of measurements with `compute_Stau` followed by the post-processing: all calls are
    defined, and every Legendre coefficient is the sign-weighted average of the Legendre estimator with each folded
    time moved to the centre of its bin. -/
theorem C58_binning (nf ns nb nl : ℕ) (β : ℝ) (hb : 0 < nb) (hl : 0 < nl) (G : ℝ → ℕ → ℕ → ℕ → K) (junk : ℕ → ℕ → K)
    (junkP : ℕ → ℕ → ℝ) (runs : List (MeasIn K × List ℝ)) (hr : runs ≠ [])
    (hc : ∀ c ∈ runs, c.1.nf = nf ∧ c.1.ns = ns ∧ c.1.beta = β ∧ HasG0 c.1 G ∧ MeasOK c.1 ∧
      ∀ s ∈ c.2, 0 ≤ s ∧ s < β) :
    ∃ outs S Sl, Res.mapM (fun c => c.1.computeStau junk nb c.2) runs = .ok outs ∧
      postBinning nf ns nb nl β ((runs.map fun c => RCLike.re c.1.sign).sum / runs.length) junkP
        (fun n => (outs.map fun (o : ℕ → ℂ) => o n).sum / (runs.length : ℂ)) = .ok (S, Sl) ∧
      ∀ f < nf, ∀ a < ns, ∀ b < ns, ∀ l < nl, Sl (off4 ns ns nf l a b f) =
        (runs.map fun c => c.1.estimator G c.2 (fun τ => legWeight β l (binCenter β nb τ)) f a b).sum /
          (runs.map fun c => (RCLike.re c.1.sign : ℂ)).sum := by
  have hp : ∀ c ∈ runs, ∃ S, c.1.computeStau junk nb c.2 = .ok S ∧
      (0 < c.1.beta ∧ c.1.beta = β) ∧ ∀ f < nf, ∀ a < ns, ∀ b < ns, ∀ ib < nb,
        S (off4 ns ns nb f a b ib) = c.1.estimator G c.2 (binWeight β nb ib) f a b := by
    intro c hcm
    obtain ⟨rfl, rfl, rfl, hG, hm, hs⟩ := hc c hcm
    obtain ⟨S, e, h⟩ := C47_stau c.1 G hG hm junk hb c.2 hs
    exact ⟨S, e, ⟨hm.beta, rfl⟩, fun f hf a ha b hb ib hib => h f a b ib hf ha hb hib⟩
  obtain ⟨outs, eo, hf⟩ := mapM_pick hp
  obtain ⟨S, Sl, e, -, h⟩ := postBinning_spec nf ns nb nl hl β ((runs.map fun c => RCLike.re c.1.sign).sum / runs.length)
    junkP (fun n => (outs.map fun (o : ℕ → ℂ) => o n).sum / (runs.length : ℂ))
  refine ⟨outs, S, Sl, eo, e, fun f hf0 a ha b hb0 l hl0 => ?_⟩
  have hl1 : (runs.length : ℂ) ≠ 0 := by
    have : runs.length ≠ 0 := fun h => hr (List.length_eq_zero_iff.1 h)
    exact_mod_cast this
  rw [h f hf0 a ha b hb0 l hl0]
  have e1 : ∀ ib ∈ Finset.range nb, (outs.map fun (o : ℕ → ℂ) => o (off4 ns ns nb f a b ib)).sum =
      (runs.map fun c => c.1.estimator G c.2 (binWeight β nb ib) f a b).sum := fun ib hib =>
    forall2_sum hf _ _ fun c o h => h.2 f hf0 a ha b hb0 ib (Finset.mem_range.1 hib)
  rw [Finset.sum_congr rfl fun ib hib => by rw [e1 ib hib]]
  push_cast
  rw [list_sum_ofReal]
  set s := (runs.map fun c => (RCLike.re c.1.sign : ℂ)).sum with hs
  -- move the sum over bins inside
  have e2 : ∀ rs : List (MeasIn K × List ℝ), (∀ c ∈ rs, 0 < c.1.beta ∧ c.1.beta = β) →
      ∑ ib ∈ Finset.range nb, ((Real.sqrt (2 * l + 1) * (legendreP l).eval (((ib : ℝ) + 1 / 2) * (2 / nb) - 1) : ℝ) : ℂ) *
        ((β / nb : ℝ) : ℂ) * (rs.map fun c => c.1.estimator G c.2 (binWeight β nb ib) f a b).sum =
      (rs.map fun c => c.1.estimator G c.2 (fun τ => legWeight β l (binCenter β nb τ)) f a b).sum := by
    intro rs
    induction rs with
    | nil => simp
    | cons c rs ih =>
      intro hrs
      simp only [List.map_cons, List.sum_cons, mul_add, Finset.sum_add_distrib]
      rw [ih fun c hc => hrs c (by simp [hc]), estimator_sum]
      congr 1
      obtain ⟨q1, q2⟩ := hrs c (by simp)
      refine estimator_congr c.1 q1 G c.2 (fun τ t0 t1 => ?_) f a b
      rw [q2] at q1 t1
      exact bins_pick q1 hb l t0 t1
  have e3 := e2 runs fun c hcm => by
    obtain ⟨-, -, h3, -, h5, -⟩ := hc c hcm
    exact ⟨h5.beta, h3⟩
  rw [← e3, Finset.sum_div]
  refine Finset.sum_congr rfl fun ib _ => ?_
  rw [div_div_div_cancel_right₀ hl1]
  push_cast
  ring

/-- A configuration with an operator pair and a shift that wraps around `β`. -/
noncomputable def exMeas : MeasIn ℂ :=
  ⟨1, 1, 2, 1, ⟨1, fun _ => 0, fun _ => 1⟩, fun _ _ _ _ => .ok (1 / 2), fun _ => ⟨1, 1, fun _ _ => 3⟩,
    fun _ => [⟨0, 0, 1, 0⟩], fun _ => [⟨0, 0, 1, 0⟩]⟩

theorem exMeas_ok : MeasOK exMeas := ⟨by norm_num [exMeas], by simp [exMeas], by simp [exMeas], by simp [exMeas],
  by simp [exMeas], by simp [exMeas], by simp [exMeas]⟩

/-- The hypotheses of `C46_*`, `C47_*` and `C58_binning` are met. -/
example : ∃ t, Legendre.create 3 = .ok t ∧ t.nl = 3 ∧ HasG0 { exMeas with leg := t } (fun _ _ _ _ => 1 / 2) ∧
    MeasOK { exMeas with leg := t } ∧ ∀ s ∈ [(0 : ℝ), 3 / 2], 0 ≤ s ∧ s < exMeas.beta := by
  obtain ⟨t, et, hn, -⟩ := Legendre.create_ok 3 (by norm_num)
  refine ⟨t, et, hn, fun _ _ _ _ _ _ _ => rfl, ?_, ?_⟩
  · obtain ⟨h1, h2, h3, h4, h5, h6, h7⟩ := exMeas_ok
    exact ⟨h1, h2, h3, h4, h5, h6, h7⟩
  · intro s hs
    simp only [List.mem_cons, List.not_mem_nil, or_false] at hs
    rcases hs with rfl | rfl <;> norm_num [exMeas]

/-- A wrapped time carries the minus sign: time `1`, shift `3/2`, `β = 2`. -/
example : foldSign 2 (1 + 3 / 2) = -1 ∧ foldTime 2 (1 + 3 / 2) = 1 / 2 := by
  have : ⌊((1 : ℝ) + 3 / 2) / 2⌋ = 1 := by rw [Int.floor_eq_iff]; norm_num
  constructor
  · unfold foldSign; rw [this]; norm_num
  · unfold foldTime; rw [this]; norm_num

open Classical in
/-- What the call `g0(t, f, s1, s2)` returns when its loops are run to their end. -/
noncomputable def Green.value (g : Green K) (t : ℝ) (f s1 s2 : ℕ) : Res K :=
  if h : ∃ v fuel, g.ofTime fuel t f s1 s2 = .ok v then .ok h.choose else .ub

/-- For every table of the Green function with at least two points and `β > 10⁻⁸` the condition `HasG0` of the
    theorems above holds, with values the call returns for every sufficient number of passes. -/
theorem measure_green (g : Green K) (hT : 2 ≤ g.ntau) (hβ : 1e-8 < g.beta)
    (hd : g.dtau = g.beta / ((g.ntau : ℝ) - 1)) (hi : g.invDtau = 1 / g.dtau) (m : MeasIn K)
    (hm : m.nf = g.nf ∧ m.ns = g.ns ∧ m.g0 = g.value) :
    ∃ G, HasG0 m G ∧ ∀ t z s1 s2, z < m.nf → s1 < m.ns → s2 < m.ns →
      ∃ N, ∀ fuel, N ≤ fuel → g.ofTime fuel t z s1 s2 = .ok (G t z s1 s2) := by
  have hβ0 : 0 < g.beta := lt_trans (by norm_num) hβ
  have key : ∀ t z s1 s2, ∃ v : K, z < m.nf → s1 < m.ns → s2 < m.ns →
      ∃ N, ∀ fuel, N ≤ fuel → g.ofTime fuel t z s1 s2 = .ok v := by
    intro t z s1 s2
    by_cases hin : z < g.nf ∧ s1 < g.ns ∧ s2 < g.ns
    · have hex : ∀ τ : ℝ, ∃ v : K, 0 ≤ τ → τ ≤ g.beta → g.interpolate z s1 s2 τ = .ok v := by
        intro τ
        by_cases hτ : 0 ≤ τ ∧ τ ≤ g.beta
        · obtain ⟨idx, -, -, -, e⟩ := C43_interpolate g hT hβ0 hd hi z s1 s2 hin.1 hin.2.1 hin.2.2 τ hτ
          exact ⟨_, fun _ _ => e⟩
        · exact ⟨0, fun a b => absurd ⟨a, b⟩ hτ⟩
      choose G0 hG0 using hex
      obtain ⟨F, hF⟩ := antiperiodic_exists hβ0 G0
      obtain ⟨N, hN⟩ := C42_times g hβ t z s1 s2 G0 F hG0 hF
      by_cases hk : ∃ k : ℤ, t = k * g.beta
      · obtain ⟨k, hk⟩ := hk
        exact ⟨F (t + 1e-8), fun _ _ _ => ⟨N, fun fuel hf => (hN fuel hf).2 k hk⟩⟩
      · push Not at hk
        exact ⟨F t, fun _ _ _ => ⟨N, fun fuel hf => (hN fuel hf).1 hk⟩⟩
    · exact ⟨0, fun a b c => absurd ⟨hm.1 ▸ a, hm.2.1 ▸ b, hm.2.1 ▸ c⟩ hin⟩
  choose G hG using key
  refine ⟨G, fun t z s1 s2 h1 h2 h3 => ?_, fun t z s1 s2 h1 h2 h3 => hG t z s1 s2 h1 h2 h3⟩
  obtain ⟨N, hN⟩ := hG t z s1 s2 h1 h2 h3
  rw [hm.2.2]
  unfold Green.value
  have hx : ∃ v fuel, g.ofTime fuel t z s1 s2 = .ok v := ⟨_, N, hN N le_rfl⟩
  rw [dif_pos hx]
  obtain ⟨fuel, hf⟩ := hx.choose_spec
  -- more passes do not change the result
  have mono : ∀ {f f' : ℕ} {v : K}, f ≤ f' → g.ofTime f t z s1 s2 = .ok v → g.ofTime f' t z s1 s2 = .ok v := by
    have down_mono : ∀ {f f' : ℕ} (a : ℝ) (b : K) {r}, f ≤ f' → Green.down g.beta f a b = .ok r →
        Green.down g.beta f' a b = .ok r := by
      intro f
      induction f with
      | zero => intro f' a b r _ h; cases h
      | succ f ih =>
        intro f' a b r hle h
        obtain ⟨f'', rfl⟩ : ∃ k, f' = k + 1 := ⟨f' - 1, by omega⟩
        unfold Green.down at h ⊢
        split
        · rename_i hc; rw [if_pos hc] at h; exact ih _ _ (by omega) h
        · rename_i hc; rw [if_neg hc] at h; exact h
    have upw_mono : ∀ {f f' : ℕ} (a : ℝ) (b : K) {r}, f ≤ f' → Green.upw g.beta f a b = .ok r →
        Green.upw g.beta f' a b = .ok r := by
      intro f
      induction f with
      | zero => intro f' a b r _ h; cases h
      | succ f ih =>
        intro f' a b r hle h
        obtain ⟨f'', rfl⟩ : ∃ k, f' = k + 1 := ⟨f' - 1, by omega⟩
        unfold Green.upw at h ⊢
        split
        · rename_i hc; rw [if_pos hc] at h; exact ih _ _ (by omega) h
        · rename_i hc; rw [if_neg hc] at h; exact h
    intro f f' v hle h
    unfold Green.ofTime at h ⊢
    rw [Run.bind_eq_ok] at h
    obtain ⟨r, e1, h⟩ := h
    rw [Run.bind_eq_ok] at h
    obtain ⟨r', e2, h⟩ := h
    rw [down_mono _ _ hle e1, Run.bind_ok, upw_mono _ _ hle e2, Run.bind_ok]
    exact h
  have h4 := mono (le_max_left fuel N) hf
  rw [hN _ (le_max_right fuel N)] at h4
  injection h4 with h4
  rw [← h4]

end CTInt
