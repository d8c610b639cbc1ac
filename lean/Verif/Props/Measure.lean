import Verif.Proofs.MeasOpt

/-!
# C46, C47: the self-energy estimators
-/

set_option linter.all false

namespace CTInt

variable {K : Type} [RCLike K]

/-- **C46, reference version.**  For a configuration in order and shifts in `[0, β)`, `compute_Sl` is defined and
    every entry is the Legendre estimator: the average over the shifts of `± sign √(2l+1) P_l(x(τ_q)) (M G0)(q, B)`
    summed over the creation operators `q` on the given site. -/
theorem C46_reference (m : MeasIn K) (G : ℝ → ℕ → ℕ → ℕ → K) (hG : HasG0 m G) (hm : MeasOK m)
    (ht : Legendre.create m.leg.nl = .ok m.leg) (junk : ℕ → ℕ → K) (junkP : ℕ → ℕ → ℝ) (shifts : List ℝ)
    (hs : ∀ s ∈ shifts, 0 ≤ s ∧ s < m.beta) :
    ∃ S, m.computeSl junk junkP shifts = .ok S ∧
      ∀ z c B l, z < m.nf → c < m.ns → B < m.ns → l < m.leg.nl →
        S (off4 m.ns m.ns m.leg.nl z c B l) = m.estimator G shifts (legWeight m.beta l) z c B := by
  unfold MeasIn.computeSl
  refine MeasIn.flavors_spec hm shifts _ _ _ fun z hz => ?_
  rw [hm.cols z hz]
  by_cases h0 : (m.cr z).length = 0
  · refine ⟨0, fun Sl => by simp [h0], fun z' c B l _ _ _ => ?_⟩
    rw [MeasIn.estimator_none G shifts _ c B h0]; simp
  · simp only [h0, if_false]
    exact MeasIn.shifts_spec shifts _ _ z _ fun s hmem => MeasIn.slWalk_spec hG hm ht junk junkP hz shifts (hs s hmem)

/-- **C46, optimised version.**  The same for `compute_Sl_optimized`. -/
theorem C46_optimised (m : MeasIn K) (G : ℝ → ℕ → ℕ → ℕ → K) (hG : HasG0 m G) (hm : MeasOK m)
    (ht : Legendre.create m.leg.nl = .ok m.leg) (junk : ℕ → K) (junkP : ℕ → ℕ → ℝ) (shifts : List ℝ)
    (hs : ∀ s ∈ shifts, 0 ≤ s ∧ s < m.beta) :
    ∃ S, m.computeSlOpt junk junkP shifts = .ok S ∧
      ∀ z c B l, z < m.nf → c < m.ns → B < m.ns → l < m.leg.nl →
        S (off4 m.ns m.ns m.leg.nl z c B l) = m.estimator G shifts (legWeight m.beta l) z c B := by
  unfold MeasIn.computeSlOpt
  refine MeasIn.flavors_spec hm shifts _ _ _ fun z hz => ?_
  by_cases h0 : (m.cr z).length = 0
  · refine ⟨0, fun Sl => by simp [hm.cols z hz, h0], fun z' c B l _ _ _ => ?_⟩
    rw [MeasIn.estimator_none G shifts _ c B h0]; simp
  · have h1 : (m.M z).cols ≠ 0 := by rw [hm.cols z hz]; exact h0
    simp only [h1, if_false]
    exact MeasIn.slOpt_flavor hG hm ht junk junkP hz shifts hs _ (hm.cols z hz)

/-- **C46.**  The two versions give the same value for every entry of the array, whatever uninitialised memory
    they start from. -/
theorem C46_agree (m : MeasIn K) (G : ℝ → ℕ → ℕ → ℕ → K) (hG : HasG0 m G) (hm : MeasOK m)
    (ht : Legendre.create m.leg.nl = .ok m.leg) (junk : ℕ → ℕ → K) (junk' : ℕ → K) (junkP junkP' : ℕ → ℕ → ℝ)
    (shifts : List ℝ) (hs : ∀ s ∈ shifts, 0 ≤ s ∧ s < m.beta) :
    ∃ S S', m.computeSl junk junkP shifts = .ok S ∧ m.computeSlOpt junk' junkP' shifts = .ok S' ∧
      ∀ n < m.nf * m.ns * m.ns * m.leg.nl, S n = S' n := by
  obtain ⟨S, e, h⟩ := C46_reference m G hG hm ht junk junkP shifts hs
  obtain ⟨S', e', h'⟩ := C46_optimised m G hG hm ht junk' junkP' shifts hs
  refine ⟨S, S', e, e', fun n hn => ?_⟩
  have hl : 0 < m.leg.nl := MeasIn.create_pos ht
  have hns : 0 < m.ns := by
    rcases Nat.eq_zero_or_pos m.ns with h0 | h0
    · rw [h0] at hn; simp at hn
    · exact h0
  -- the indices of a storage position
  have e0 : n = off4 m.ns m.ns m.leg.nl (n / m.leg.nl / m.ns / m.ns) (n / m.leg.nl / m.ns % m.ns)
      (n / m.leg.nl % m.ns) (n % m.leg.nl) := by
    unfold off4
    rw [Nat.div_add_mod', Nat.div_add_mod', Nat.div_add_mod']
  have hz : n / m.leg.nl / m.ns / m.ns < m.nf := by
    rw [Nat.div_lt_iff_lt_mul hns, Nat.div_lt_iff_lt_mul hns, Nat.div_lt_iff_lt_mul hl]; exact hn
  rw [e0, h _ _ _ _ hz (Nat.mod_lt _ hns) (Nat.mod_lt _ hns) (Nat.mod_lt _ hl),
    h' _ _ _ _ hz (Nat.mod_lt _ hns) (Nat.mod_lt _ hns) (Nat.mod_lt _ hl)]

/-- **C47.**  Operator time in `[0, β]`, shift in `[0, β)`, at least one bin: the bin index is valid, its bin
    contains the folded time, and the sign is negative exactly if the shifted time is at or beyond `β`. -/
theorem C47_bin (m : MeasIn K) (hβ : 0 < m.beta) {nb : ℕ} (hb : 0 < nb) {t s : ℝ} (ht : 0 ≤ t ∧ t ≤ m.beta)
    (hs : 0 ≤ s ∧ s < m.beta) :
    0 ≤ MeasIn.trunc (m.wrap (t + s) / (m.beta / nb)) ∧
    (MeasIn.trunc (m.wrap (t + s) / (m.beta / nb))).toNat < nb ∧
    m.beta * (MeasIn.trunc (m.wrap (t + s) / (m.beta / nb))).toNat / nb ≤ foldTime m.beta (t + s) ∧
    foldTime m.beta (t + s) < m.beta * ((MeasIn.trunc (m.wrap (t + s) / (m.beta / nb))).toNat + 1) / nb ∧
    foldSign m.beta (t + s) = if m.beta ≤ t + s then -1 else 1 := by
  have hw := wrap_eq m hβ (t := t + s) (by linarith [ht.1, hs.1]) (by linarith [ht.2, hs.2])
  obtain ⟨h0, h1⟩ := foldTime_mem hβ (t + s)
  rw [hw.1]
  have hnb : (0 : ℝ) < nb := by exact_mod_cast hb
  have hd : (0 : ℝ) < m.beta / nb := div_pos hβ hnb
  have hx : 0 ≤ foldTime m.beta (t + s) / (m.beta / nb) := div_nonneg h0 hd.le
  have et : MeasIn.trunc (foldTime m.beta (t + s) / (m.beta / nb)) = ⌊foldTime m.beta (t + s) / (m.beta / nb)⌋ := by
    unfold MeasIn.trunc; rw [if_pos hx]
  have hf0 : 0 ≤ ⌊foldTime m.beta (t + s) / (m.beta / nb)⌋ := Int.floor_nonneg.2 hx
  obtain ⟨k, hk⟩ := Int.eq_ofNat_of_zero_le hf0
  have hle := Int.floor_le (foldTime m.beta (t + s) / (m.beta / nb))
  have hlt := Int.lt_floor_add_one (foldTime m.beta (t + s) / (m.beta / nb))
  rw [hk] at hle hlt
  rw [et, hk]
  push_cast at hle hlt
  rw [le_div_iff₀ hd] at hle
  rw [div_lt_iff₀ hd] at hlt
  have hle' : m.beta * k / nb ≤ foldTime m.beta (t + s) := by
    rw [show m.beta * k / nb = k * (m.beta / nb) by ring]; exact hle
  refine ⟨by omega, ?_, ?_, ?_, ?_⟩
  · have : m.beta * k / nb < m.beta := lt_of_le_of_lt hle' h1
    rw [div_lt_iff₀ hnb] at this
    have := lt_of_mul_lt_mul_left this hβ.le
    exact_mod_cast this
  · simpa using hle'
  · rw [show m.beta * (((k : ℤ).toNat : ℝ) + 1) / nb = ((k : ℝ) + 1) * (m.beta / nb) by simp; ring]
    exact hlt
  · rw [← hw.2]
    by_cases h : t + s < m.beta
    · rw [if_pos h, if_neg (not_le.2 h)]
    · rw [if_neg h, if_pos (not_lt.1 h)]

theorem binWeight_of_trunc (m : MeasIn K) (hβ : 0 < m.beta) {nb : ℕ} (hb : 0 < nb) {t s : ℝ}
    (ht : 0 ≤ t ∧ t ≤ m.beta) (hs : 0 ≤ s ∧ s < m.beta) (b : ℕ) :
    binWeight m.beta nb b (foldTime m.beta (t + s)) =
      if b = (MeasIn.trunc (m.wrap (t + s) / (m.beta / nb))).toNat then ((nb / m.beta : ℝ) : ℂ) else 0 := by
  obtain ⟨-, -, h1, h2, -⟩ := C47_bin m hβ hb ht hs
  set k := (MeasIn.trunc (m.wrap (t + s) / (m.beta / nb))).toNat
  have hnb : (0 : ℝ) < nb := by exact_mod_cast hb
  unfold binWeight
  by_cases hk : b = k
  · subst hk; rw [if_pos ⟨h1, h2⟩, if_pos rfl]
  · rw [if_neg hk, if_neg]
    rintro ⟨h3, h4⟩
    rcases lt_or_gt_of_ne hk with h | h
    · have h5 : (b : ℝ) + 1 ≤ k := by exact_mod_cast h
      have h6 : m.beta * ((b : ℝ) + 1) / nb ≤ m.beta * k / nb := by gcongr
      linarith
    · have h5 : (k : ℝ) + 1 ≤ b := by exact_mod_cast h
      have h6 : m.beta * ((k : ℝ) + 1) / nb ≤ m.beta * b / nb := by gcongr
      linarith

theorem MeasIn.stauWalk_spec {m : MeasIn K} {G : ℝ → ℕ → ℕ → ℕ → K} (hG : HasG0 m G) (hm : MeasOK m)
    (junk : ℕ → ℕ → K) {nb : ℕ} (hb : 0 < nb) {z : ℕ} (hz : z < m.nf)
    (shifts : List ℝ) {shift : ℝ} (hs : 0 ≤ shift ∧ shift < m.beta) :
    ∃ e : ℕ → ℂ, (∀ S, m.stauWalk junk z (m.cr z).length nb shifts S shift = .ok (S + e)) ∧
      ∀ z' c B b, c < m.ns → B < m.ns → b < nb → e (off4 m.ns m.ns nb z' c B b) =
        if z' = z then (∑ q ∈ Finset.range (m.cr z).length, m.term G (binWeight m.beta nb b) z c B q shift) /
          (shifts.length : ℂ) else 0 := by
  obtain ⟨gR, e1, hr, hc, hv⟩ := fillG_spec hG hm junk hz shift
  set N := (m.cr z).length with hN
  let tm (q : ℕ) : ℝ := ((m.cr z).getD q default).time + shift
  let ib (q : ℕ) : ℤ := MeasIn.trunc (m.wrap (tm q) / (m.beta / nb))
  let x (q B : ℕ) : ℂ := (if tm q < m.beta then 1 else -1) *
    toC (m.sign / ((m.beta / nb * (shifts.length : ℝ) : ℝ) : K)) * toC (((m.M z).mul gR).val q B)
  refine ⟨∑ q ∈ Finset.range N, ∑ B ∈ Finset.range m.ns,
    fun n => if n = off4 m.ns m.ns nb z ((m.cr z).getD q default).site B (ib q).toNat then x q B else 0,
    fun S => ?_, fun z' c B b hcs hB hbb => ?_⟩
  · unfold stauWalk
    rw [e1, Res.bind_ok, Res.assert_true (by rw [hm.cols z hz, hr]), Res.bind_ok]
    refine Res.foldl_range_acc S fun d q hq => ?_
    have h47 := C47_bin m hm.beta hb (hm.creTime z hz _ (getD_in hq)) hs
    rw [get_getD hq, Res.bind_ok]
    refine Res.foldl_range_acc d fun d B hB => ?_
    rw [Res.assert_true h47.1, Res.bind_ok]
    exact addAt_ok _ _ ⟨hz, hm.creSite z hz _ (getD_in hq), hB, h47.2.1⟩
  · simp only [Finset.sum_apply]
    by_cases hzz : z' = z
    · subst hzz
      rw [if_pos rfl, Finset.sum_div]
      refine Finset.sum_congr rfl fun q hq => ?_
      have hq := Finset.mem_range.1 hq
      have hsite := hm.creSite z' hz _ (getD_in hq)
      have htime := hm.creTime z' hz _ (getD_in hq)
      have hw := wrap_eq m hm.beta (t := ((m.cr z').getD q default).time + shift) (by linarith) (by linarith)
      have h47 := C47_bin m hm.beta hb htime hs
      unfold term
      rw [binWeight_of_trunc m hm.beta hb htime hs]
      by_cases hcc : ((m.cr z').getD q default).site = c
      · rw [if_pos hcc, Finset.sum_eq_single B]
        · by_cases hbe : b = (MeasIn.trunc (m.wrap (((m.cr z').getD q default).time + shift) / (m.beta / nb))).toNat
          · rw [if_pos hbe, if_pos (by rw [hcc, hbe])]
            simp only [x, tm]
            rw [hw.2, toC_div, toC_ofReal]
            have e5 : ((m.M z').mul gR).val q B = m.improved G z' q B shift := by
              rw [DMat.mul_val, hm.cols z' hz]
              exact Finset.sum_congr rfl fun p hp => by rw [hv p (Finset.mem_range.1 hp) B hB]
            rw [e5]
            push_cast
            simp only [div_eq_mul_inv, mul_inv, inv_inv]
            ring
          · rw [if_neg hbe, if_neg]
            · simp
            · rw [off4_inj hcs hsite hB hB hbb h47.2.1]
              tauto
        · intro B' hB' hne
          rw [if_neg]
          rw [off4_inj hcs hsite hB (Finset.mem_range.1 hB') hbb h47.2.1]
          tauto
        · intro h; exact absurd (Finset.mem_range.2 hB) h
      · rw [if_neg hcc, zero_div]
        refine Finset.sum_eq_zero fun B' hB' => ?_
        rw [if_neg]
        rw [off4_inj hcs hsite hB (Finset.mem_range.1 hB') hbb h47.2.1]
        tauto
    · rw [if_neg hzz]
      refine Finset.sum_eq_zero fun q hq => Finset.sum_eq_zero fun B' hB' => ?_
      have hq := Finset.mem_range.1 hq
      have hsite := hm.creSite z hz _ (getD_in hq)
      have h47 := C47_bin m hm.beta hb (hm.creTime z hz _ (getD_in hq)) hs
      rw [if_neg]
      rw [off4_inj hcs hsite hB (Finset.mem_range.1 hB') hbb h47.2.1]
      tauto

/-- **C47, the estimator.**  With at least one bin `compute_Stau` is defined, and every entry is the estimator
    with the weight `1 / Δτ` inside its bin. -/
theorem C47_stau (m : MeasIn K) (G : ℝ → ℕ → ℕ → ℕ → K) (hG : HasG0 m G) (hm : MeasOK m) (junk : ℕ → ℕ → K)
    {nb : ℕ} (hb : 0 < nb) (shifts : List ℝ) (hs : ∀ s ∈ shifts, 0 ≤ s ∧ s < m.beta) :
    ∃ S, m.computeStau junk nb shifts = .ok S ∧
      ∀ z c B b, z < m.nf → c < m.ns → B < m.ns → b < nb →
        S (off4 m.ns m.ns nb z c B b) = m.estimator G shifts (binWeight m.beta nb b) z c B := by
  unfold MeasIn.computeStau
  refine MeasIn.flavors_spec hm shifts _ _ _ fun z hz => ?_
  rw [hm.cols z hz]
  by_cases h0 : (m.cr z).length = 0
  · refine ⟨0, fun Sl => by simp [h0], fun z' c B l _ _ _ => ?_⟩
    rw [MeasIn.estimator_none G shifts _ c B h0]; simp
  · simp only [h0, if_false]
    exact MeasIn.shifts_spec shifts _ _ z _ fun s hmem => MeasIn.stauWalk_spec hG hm junk hb hz shifts (hs s hmem)

end CTInt
