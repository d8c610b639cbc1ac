import Verif.Proofs.Measure

/-!
# The two versions of the Legendre estimator
-/

set_option linter.all false

namespace CTInt

variable {K : Type} [RCLike K]

namespace MeasIn

theorem fillG_spec {m : MeasIn K} {G : ℝ → ℕ → ℕ → ℕ → K} (hG : HasG0 m G) (hm : MeasOK m) (junk : ℕ → ℕ → K)
    {z : ℕ} (hz : z < m.nf) (shift : ℝ) :
    ∃ gR, m.fillG junk z (m.cr z).length shift = .ok gR ∧ gR.rows = (m.cr z).length ∧ gR.cols = m.ns ∧
      ∀ p < (m.cr z).length, ∀ B < m.ns, gR.val p B =
        G (((m.an z).getD p default).time + shift) z ((m.an z).getD p default).site B := by
  unfold fillG
  have h := Res.foldl_range_inv (fun i (g : DMat K) => g.rows = (m.cr z).length ∧ g.cols = m.ns ∧
      ∀ p < i, ∀ B < m.ns, g.val p B =
        G (((m.an z).getD p default).time + shift) z ((m.an z).getD p default).site B)
    (f := fun g p => do
      let a ← Res.get (m.an z) p
      Res.foldl (fun (g : DMat K) B => do
        let v ← m.g0 (a.time + shift) z a.site B
        pure (g.set p B v)) g (List.range m.ns))
    (m.cr z).length (DMat.destructiveResize junk (m.cr z).length m.ns) ⟨rfl, rfl, fun p hp => by omega⟩ ?_
  · obtain ⟨g, e, h1, h2, h3⟩ := h
    exact ⟨g, e, h1, h2, h3⟩
  · intro i hi g ⟨h1, h2, h3⟩
    have hl : i < (m.an z).length := by rw [hm.ann z hz]; exact hi
    simp only [get_getD hl, Res.bind_ok]
    have h := Res.foldl_range_inv (fun j (g : DMat K) => g.rows = (m.cr z).length ∧ g.cols = m.ns ∧
        (∀ p < i, ∀ B < m.ns, g.val p B =
          G (((m.an z).getD p default).time + shift) z ((m.an z).getD p default).site B) ∧
        ∀ B < j, g.val i B = G (((m.an z).getD i default).time + shift) z ((m.an z).getD i default).site B)
      (f := fun (g : DMat K) B => do
        let v ← m.g0 (((m.an z).getD i default).time + shift) z ((m.an z).getD i default).site B
        pure (g.set i B v))
      m.ns g ⟨h1, h2, h3, fun B hB => by omega⟩ ?_
    · obtain ⟨g', e, a1, a2, a3, a4⟩ := h
      refine ⟨g', e, a1, a2, fun p hp B hB => ?_⟩
      by_cases hpi : p = i
      · subst hpi; exact a4 B hB
      · exact a3 p (by omega) B hB
    · intro j hj g' ⟨b1, b2, b3, b4⟩
      have hs := hm.annSite z hz _ (getD_in hl)
      refine ⟨g'.set i j (G (((m.an z).getD i default).time + shift) z ((m.an z).getD i default).site j),
        by rw [hG _ _ _ _ hz hs hj]; rfl, b1, b2, fun p hp B hB => ?_, fun B hB => ?_⟩
      · simp only [DMat.set]
        rw [if_neg (by omega)]; exact b3 p hp B hB
      · simp only [DMat.set]
        by_cases hBj : B = j
        · subst hBj; simp
        · rw [if_neg (by tauto)]; exact b4 B (by omega)

theorem xVals_spec {m : MeasIn K} (z : ℕ) (shift : ℝ) :
    m.xVals z (m.cr z).length shift = .ok ((List.range (m.cr z).length).map fun q =>
      2 * m.wrap (((m.cr z).getD q default).time + shift) * (1 / m.beta) - 1) := by
  unfold xVals
  exact Res.mapM_range fun q hq => by rw [get_getD hq]; rfl

/-- What `compute_legendre` leaves behind for a transformer made by the constructor. -/
theorem legendre_all {t : Legendre} (ht : Legendre.create t.nl = .ok t) (hn : 0 < t.nl) (xs : List ℝ)
    (val : ℕ → ℕ → ℝ) : ∃ P, t.computeAll xs t.nl val = .ok P ∧
      ∀ l < t.nl, ∀ i < xs.length, P l i = (legendreP l).eval (xs.getD i 0) := by
  obtain ⟨t', P, e1, e2, h, -⟩ := C45_array t.nl hn xs t.nl le_rfl val
  rw [ht] at e1
  cases Res.ok.inj e1
  refine ⟨P, e2, fun l hl i hi => ?_⟩
  rw [h l hl i hi]; simp [List.getD, hi]

theorem legendre_sqrt {t : Legendre} (ht : Legendre.create t.nl = .ok t) (hn : 0 < t.nl) :
    ∀ l < t.nl, t.sqrt l = Real.sqrt (2 * l + 1) := by
  obtain ⟨t', e1, h⟩ := C45_weights t.nl hn
  rw [ht] at e1
  cases Res.ok.inj e1
  exact h

theorem create_pos {n : ℕ} {t : Legendre} (ht : Legendre.create n = .ok t) : 0 < n := by
  by_contra h
  have : n = 0 := by omega
  subst this
  cases ht

/-- Amount added to an entry by one creation operator and one shift. -/
noncomputable def term (m : MeasIn K) (G : ℝ → ℕ → ℕ → ℕ → K) (ρ : ℝ → ℂ) (z c B q : ℕ) (shift : ℝ) : ℂ :=
  if ((m.cr z).getD q default).site = c then
    foldSign m.beta (((m.cr z).getD q default).time + shift) * toC m.sign *
      ρ (foldTime m.beta (((m.cr z).getD q default).time + shift)) * toC (m.improved G z q B shift)
  else 0

theorem estimator_eq (m : MeasIn K) (G : ℝ → ℕ → ℕ → ℕ → K) (shifts : List ℝ) (ρ : ℝ → ℂ) (z c B : ℕ) :
    m.estimator G shifts ρ z c B =
      (shifts.map fun shift => ∑ q ∈ Finset.range (m.cr z).length, m.term G ρ z c B q shift).sum /
        (shifts.length : ℂ) := rfl

theorem slWalk_spec {m : MeasIn K} {G : ℝ → ℕ → ℕ → ℕ → K} (hG : HasG0 m G) (hm : MeasOK m)
    (ht : Legendre.create m.leg.nl = .ok m.leg) (junk : ℕ → ℕ → K) (junkP : ℕ → ℕ → ℝ) {z : ℕ} (hz : z < m.nf)
    (shifts : List ℝ) {shift : ℝ} (hs : 0 ≤ shift ∧ shift < m.beta) :
    ∃ e : ℕ → ℂ, (∀ Sl, m.slWalk junk junkP z (m.cr z).length shifts Sl shift = .ok (Sl + e)) ∧
      ∀ z' c B l, c < m.ns → B < m.ns → l < m.leg.nl → e (off4 m.ns m.ns m.leg.nl z' c B l) =
        if z' = z then (∑ q ∈ Finset.range (m.cr z).length, m.term G (legWeight m.beta l) z c B q shift) /
          (shifts.length : ℂ) else 0 := by
  have hn := create_pos ht
  obtain ⟨gR, e1, hr, hc, hv⟩ := fillG_spec hG hm junk hz shift
  obtain ⟨P, e3, hP⟩ := legendre_all ht hn ((List.range (m.cr z).length).map fun q =>
      2 * m.wrap (((m.cr z).getD q default).time + shift) * (1 / m.beta) - 1) junkP
  have hsq := legendre_sqrt ht hn
  set N := (m.cr z).length with hN
  let co (q : ℕ) : ℂ := (if ((m.cr z).getD q default).time + shift < m.beta then 1 else -1) *
    toC (m.sign / (1 * (shifts.length : K)))
  let x (q B l : ℕ) : ℂ := co q * (m.leg.sqrt l : ℂ) * (P l q : ℂ) * toC (((m.M z).mul gR).val q B)
  refine ⟨∑ q ∈ Finset.range N, ∑ B ∈ Finset.range m.ns, ∑ l ∈ Finset.range m.leg.nl,
    fun n => if n = off4 m.ns m.ns m.leg.nl z ((m.cr z).getD q default).site B l then x q B l else 0,
    fun Sl => ?_, fun z' c B l hcs hB hl => ?_⟩
  · unfold slWalk
    rw [e1, Res.bind_ok, Res.assert_true (by rw [hm.cols z hz, hr]), Res.bind_ok]
    simp only [hN] at e3 ⊢
    rw [xVals_spec, Res.bind_ok, e3, Res.bind_ok]
    refine Res.foldl_range_acc Sl fun d q hq => ?_
    rw [get_getD hq, Res.bind_ok]
    refine Res.foldl_range_acc d fun d B hB => ?_
    refine Res.foldl_range_acc d fun d l hl => ?_
    exact addAt_ok _ _ ⟨hz, hm.creSite z hz _ (getD_in hq), hB, hl⟩
  · simp only [Finset.sum_apply]
    by_cases hzz : z' = z
    · subst hzz
      rw [if_pos rfl, Finset.sum_div]
      refine Finset.sum_congr rfl fun q hq => ?_
      have hq := Finset.mem_range.1 hq
      have hsite := hm.creSite z' hz _ (getD_in hq)
      have htime := hm.creTime z' hz _ (getD_in hq)
      have hw := wrap_eq m hm.beta (t := ((m.cr z').getD q default).time + shift) (by linarith) (by linarith)
      unfold term
      by_cases hcc : ((m.cr z').getD q default).site = c
      · rw [if_pos hcc, Finset.sum_eq_single B, Finset.sum_eq_single l]
        · rw [if_pos (by rw [hcc])]
          simp only [x, co]
          rw [hw.2, hP l hl q (by simpa using hq), hsq l hl]
          have e4 : ((List.range N).map fun q =>
              2 * m.wrap (((m.cr z').getD q default).time + shift) * (1 / m.beta) - 1).getD q 0 =
              2 * foldTime m.beta (((m.cr z').getD q default).time + shift) / m.beta - 1 := by
            rw [← hw.1]; simp [List.getD, hq, mul_div_assoc, div_eq_mul_inv]
          rw [e4, toC_div, one_mul, toC_natCast]
          have e5 : ((m.M z').mul gR).val q B = m.improved G z' q B shift := by
            rw [DMat.mul_val, hm.cols z' hz]
            exact Finset.sum_congr rfl fun p hp => by rw [hv p (Finset.mem_range.1 hp) B hB]
          rw [e5]
          unfold legWeight
          push_cast
          ring
        · intro l' hl' hne
          rw [if_neg]
          rw [off4_inj hcs hsite hB hB hl (Finset.mem_range.1 hl')]
          tauto
        · intro h; exact absurd (Finset.mem_range.2 hl) h
        · intro B' hB' hne
          refine Finset.sum_eq_zero fun l' hl' => ?_
          rw [if_neg]
          rw [off4_inj hcs hsite hB (Finset.mem_range.1 hB') hl (Finset.mem_range.1 hl')]
          tauto
        · intro h; exact absurd (Finset.mem_range.2 hB) h
      · rw [if_neg hcc, zero_div]
        refine Finset.sum_eq_zero fun B' hB' => Finset.sum_eq_zero fun l' hl' => ?_
        rw [if_neg]
        rw [off4_inj hcs hsite hB (Finset.mem_range.1 hB') hl (Finset.mem_range.1 hl')]
        tauto
    · rw [if_neg hzz]
      refine Finset.sum_eq_zero fun q hq => Finset.sum_eq_zero fun B' hB' => Finset.sum_eq_zero fun l' hl' => ?_
      have hsite := hm.creSite z hz _ (getD_in (Finset.mem_range.1 hq))
      rw [if_neg]
      rw [off4_inj hcs hsite hB (Finset.mem_range.1 hB') hl (Finset.mem_range.1 hl')]
      tauto

/-- Adding up over shifts and flavours. -/
theorem flavors_spec {m : MeasIn K} {G : ℝ → ℕ → ℕ → ℕ → K} (hm : MeasOK m) (shifts : List ℝ) (d4 : ℕ)
    (ρ : ℕ → ℝ → ℂ) (f : (ℕ → ℂ) → ℕ → Res (ℕ → ℂ))
    (hf : ∀ z < m.nf, ∃ e : ℕ → ℂ, (∀ Sl, f Sl z = .ok (Sl + e)) ∧
      ∀ z' c B l, c < m.ns → B < m.ns → l < d4 → e (off4 m.ns m.ns d4 z' c B l) =
        if z' = z then m.estimator G shifts (ρ l) z c B else 0) :
    ∃ S : ℕ → ℂ, Res.foldl f (fun _ => 0) (List.range m.nf) = .ok S ∧
      ∀ z c B l, z < m.nf → c < m.ns → B < m.ns → l < d4 →
        S (off4 m.ns m.ns d4 z c B l) = m.estimator G shifts (ρ l) z c B := by
  choose! e h1 h2 using hf
  refine ⟨_, Res.foldl_range_acc (e := e) _ fun d z hz => h1 z hz d, fun z c B l hz hc hB hl => ?_⟩
  simp only [Pi.add_apply, Finset.sum_apply, zero_add]
  rw [Finset.sum_eq_single z]
  · rw [h2 z hz z c B l hc hB hl, if_pos rfl]
  · intro z' hz' hne
    rw [h2 z' (Finset.mem_range.1 hz') z c B l hc hB hl, if_neg (Ne.symm hne)]
  · intro h; exact absurd (Finset.mem_range.2 hz) h

theorem estimator_none {m : MeasIn K} (G : ℝ → ℕ → ℕ → ℕ → K) (shifts : List ℝ) (ρ : ℝ → ℂ) {z : ℕ} (c B : ℕ)
    (h : (m.cr z).length = 0) : m.estimator G shifts ρ z c B = 0 := by
  rw [estimator_eq]; simp [h]

/-- Adding up over the shifts. -/
theorem shifts_spec {m : MeasIn K} {G : ℝ → ℕ → ℕ → ℕ → K} (shifts : List ℝ) (d4 : ℕ) (ρ : ℕ → ℝ → ℂ) (z : ℕ)
    (f : (ℕ → ℂ) → ℝ → Res (ℕ → ℂ))
    (hf : ∀ shift ∈ shifts, ∃ e : ℕ → ℂ, (∀ Sl, f Sl shift = .ok (Sl + e)) ∧
      ∀ z' c B l, c < m.ns → B < m.ns → l < d4 → e (off4 m.ns m.ns d4 z' c B l) =
        if z' = z then (∑ q ∈ Finset.range (m.cr z).length, m.term G (ρ l) z c B q shift) /
          (shifts.length : ℂ) else 0) :
    ∃ e : ℕ → ℂ, (∀ Sl, Res.foldl f Sl shifts = .ok (Sl + e)) ∧
      ∀ z' c B l, c < m.ns → B < m.ns → l < d4 → e (off4 m.ns m.ns d4 z' c B l) =
        if z' = z then m.estimator G shifts (ρ l) z c B else 0 := by
  choose! e h1 h2 using hf
  refine ⟨_, fun Sl => Res.foldl_acc (e := e) Sl fun d a ha => h1 a ha d, fun z' c B l hc hB hl => ?_⟩
  rw [estimator_eq, div_eq_mul_inv, ← List.sum_map_mul_right]
  have key : ∀ l' : List ℝ, (∀ a ∈ l', a ∈ shifts) →
      (l'.map e).sum (off4 m.ns m.ns d4 z' c B l) = if z' = z then (l'.map fun shift =>
        (∑ q ∈ Finset.range (m.cr z).length, m.term G (ρ l) z c B q shift) * (shifts.length : ℂ)⁻¹).sum else 0 := by
    intro l'
    induction l' with
    | nil => simp
    | cons a l' ih =>
      intro hmem
      simp only [List.map_cons, List.sum_cons, Pi.add_apply]
      rw [ih fun b hb => hmem b (by simp [hb]), h2 a (hmem a (by simp)) z' c B l hc hB hl]
      split <;> simp [div_eq_mul_inv]
  exact key shifts fun a ha => ha

end MeasIn
end CTInt
