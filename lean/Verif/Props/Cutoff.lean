import Verif.Model.Cutoff
import Verif.Spec.Cutoff
import Verif.Props.Statistics

/-!
# Adaptive cutoff and counters of updates: C85
-/

set_option linter.all false

namespace CTInt

open Classical in
theorem sum_bins {n : ℕ} {mx : ℝ} (hn : 0 < n) (hmx : 0 < mx) (P : ℕ → Prop) (f : ℝ × ℝ → ℝ) (l : List (ℝ × ℝ)) :
    (∑ j ∈ Finset.range n, if P j then ((inBin n mx j l).map f).sum else 0) =
      ((l.filter fun s => decide (∃ b < n, ((b : ℝ) * (mx / n) ≤ s.1 ∧ s.1 < ((b : ℝ) + 1) * (mx / n)) ∧ P b)).map f).sum := by
  induction l with
  | nil => simp [inBin]
  | cons s l ih =>
    have e : ∀ j, ((inBin n mx j (s :: l)).map f).sum =
        (if (j : ℝ) * (mx / n) ≤ s.1 ∧ s.1 < ((j : ℝ) + 1) * (mx / n) then f s else 0) + ((inBin n mx j l).map f).sum := by
      intro j
      unfold inBin
      rw [List.filter_cons]
      by_cases h : (j : ℝ) * (mx / n) ≤ s.1 ∧ s.1 < ((j : ℝ) + 1) * (mx / n)
      · simp [h]
      · simp only [decide_eq_false h, Bool.false_eq_true, if_false, if_neg h, zero_add]
    have e2 : ∀ j, (if P j then ((inBin n mx j (s :: l)).map f).sum else 0) =
        (if ((j : ℝ) * (mx / n) ≤ s.1 ∧ s.1 < ((j : ℝ) + 1) * (mx / n)) ∧ P j then f s else 0) +
          (if P j then ((inBin n mx j l).map f).sum else 0) := by
      intro j
      rw [e]
      by_cases h : P j <;> simp [h]
    rw [Finset.sum_congr rfl fun j _ => e2 j, Finset.sum_add_distrib, ih, List.filter_cons]
    by_cases h : ∃ b < n, ((b : ℝ) * (mx / n) ≤ s.1 ∧ s.1 < ((b : ℝ) + 1) * (mx / n)) ∧ P b
    · rw [if_pos (decide_eq_true h), List.map_cons, List.sum_cons]
      congr 1
      obtain ⟨b, hb, h1, h2⟩ := h
      rw [Finset.sum_eq_single_of_mem b (Finset.mem_range.mpr hb), if_pos ⟨h1, h2⟩]
      intro j _ hj
      rw [if_neg]
      rintro ⟨q, _⟩
      have a1 := (floor_bin hmx hn b).mpr h1
      have a2 := (floor_bin hmx hn j).mpr q
      rw [a1] at a2
      exact hj (by exact_mod_cast a2.symm)
    · rw [decide_eq_false h, if_neg (by simp)]
      rw [Finset.sum_eq_zero, zero_add]
      intro j hj
      rw [if_neg]
      intro q
      exact h ⟨j, Finset.mem_range.mp hj, q⟩

theorem length_eq_sum (l : List (ℝ × ℝ)) : (l.length : ℝ) = (l.map fun _ => (1 : ℝ)).sum := by
  induction l with
  | nil => simp
  | cons s l ih => rw [List.map_cons, List.sum_cons, ← ih, List.length_cons, Nat.cast_succ, add_comm]

/-- The four sections the code makes are the quarters. -/
theorem Holds.quarters {n : ℕ} {mx : ℝ} {l : List (ℝ × ℝ)} {h : Hist} (hh : Holds n mx l h) (hn : 0 < n) {D : ℝ} (hD : 0 < D)
    (hle : D ≤ mx) (hc : 4 * mx / D < 2 ^ 31) :
    ∃ cnt sum, rebinMax h.counter h.maxVal D 4 = .ok cnt ∧ rebinMax h.sumval h.maxVal D 4 = .ok sum ∧ cnt.length = 4 ∧
      ∀ k < 4, cnt.getD k 0 = (inQuarter n mx D k l).length ∧ sum.getD k 0 = ((inQuarter n mx D k l).map (·.2)).sum := by
  have hmx : 0 < mx := lt_of_lt_of_le hD hle
  obtain ⟨c, e1, l1, v1⟩ := C49_rebin_cutoff (org := h.counter) (newLen := 4) (mx := mx) (mxNew := D)
    (by intro q; have := hh.len3; rw [q] at this; simp at this; omega) (by omega) hD hle (by exact_mod_cast hc)
  obtain ⟨s, e2, l2, v2⟩ := C49_rebin_cutoff (org := h.sumval) (newLen := 4) (mx := mx) (mxNew := D)
    (by intro q; have := hh.len1; rw [q] at this; simp at this; omega) (by omega) hD hle (by exact_mod_cast hc)
  refine ⟨c, s, by rw [hh.maxVal]; exact e1, by rw [hh.maxVal]; exact e2, l1, fun k hk => ⟨?_, ?_⟩⟩
  · rw [v1 k hk, hh.len3, length_eq_sum]
    refine Eq.trans (Eq.trans ?_ (sum_bins hn hmx (fun b => (k : ℝ) * (D / 4) ≤ ((b : ℝ) + 1 / 2) * (mx / n) ∧ ((b : ℝ) + 1 / 2) * (mx / n) < ((k : ℝ) + 1) * (D / 4)) (fun _ => 1) l)) (by unfold inQuarter; congr!)
    apply Finset.sum_congr rfl
    intro j hj
    rw [hh.counter j (Finset.mem_range.mp hj), length_eq_sum]
    push_cast
    congr
  · rw [v2 k hk, hh.len1]
    refine Eq.trans (Eq.trans ?_ (sum_bins hn hmx (fun b => (k : ℝ) * (D / 4) ≤ ((b : ℝ) + 1 / 2) * (mx / n) ∧ ((b : ℝ) + 1 / 2) * (mx / n) < ((k : ℝ) + 1) * (D / 4)) (·.2) l)) (by unfold inQuarter; congr!)
    apply Finset.sum_congr rfl
    intro j hj
    rw [hh.sumval j (Finset.mem_range.mp hj)]
    push_cast
    congr

open Classical in
theorem Holds.updateCutoff {n : ℕ} {mx : ℝ} {l : List (ℝ × ℝ)} {h : Hist} (hh : Holds n mx l h) (hn : 0 < n) {D ratio mag : ℝ}
    (hD : 0 < D) (hle : D ≤ mx) (hc : 4 * mx / D < 2 ^ 31) (hr0 : 0 ≤ ratio) (hr1 : ratio ≤ 1) (hmag : 1 ≤ mag) :
    h.updateCutoff ratio D mag = .ok (open Classical in decide (enoughData fun k => inQuarter n mx D k l),
      adapted (fun k => inQuarter n mx D k l) ratio mag D) := by
  obtain ⟨cnt, sum, e1, e2, hl, hv⟩ := hh.quarters hn hD hle hc
  unfold Hist.updateCutoff
  rw [Res.assert_true ⟨hr0, hr1⟩, Res.assert_true hmag, e1, e2]
  simp only [Res.bind_ok]
  rw [hl]
  unfold adapted
  have hv : ∀ k < 4, cnt.getD k 0 = ((fun k => inQuarter n mx D k l) k).length ∧
      sum.getD k 0 = (((fun k => inQuarter n mx D k l) k).map (·.2)).sum := hv
  generalize (fun k => inQuarter n mx D k l) = Q at *
  have hv' : ∀ k < 4, cnt.getD k 0 = ((Q k).length : ℝ) ∧ sum.getD k 0 / cnt.getD k 0 = sampleMean (Q k) := by
    intro k hk
    obtain ⟨a, b⟩ := hv k hk
    exact ⟨a, by rw [a, b]; rfl⟩
  rw [show List.range 4 = [0, 1, 2, 3] from rfl]
  simp only [cutLoop]
  obtain ⟨a0, b0⟩ := hv' 0 (by omega)
  obtain ⟨a1, b1⟩ := hv' 1 (by omega)
  obtain ⟨a2, b2⟩ := hv' 2 (by omega)
  obtain ⟨a3, b3⟩ := hv' 3 (by omega)
  rw [b0, b1, b2, b3, a0, a1, a2, a3]
  have hlt : ∀ m : ℕ, ((m : ℝ) < 100 ↔ m < 100) := fun m => by
    rw [show (100 : ℝ) = ((100 : ℕ) : ℝ) by norm_num, Nat.cast_lt]
  have hall : (∀ k < 4, 100 ≤ (Q k).length) ↔
      (100 ≤ (Q 0).length ∧ 100 ≤ (Q 1).length ∧ 100 ≤ (Q 2).length ∧ 100 ≤ (Q 3).length) := by
    constructor
    · intro h; exact ⟨h 0 (by omega), h 1 (by omega), h 2 (by omega), h 3 (by omega)⟩
    · rintro ⟨p, q, r, s⟩ k hk
      obtain rfl | rfl | rfl | rfl : k = 0 ∨ k = 1 ∨ k = 2 ∨ k = 3 := by omega
      all_goals assumption
  have hex : (∃ k < 4, 0 ≤ sampleMean (Q k)) ↔
      (0 ≤ max (max (sampleMean (Q 0)) (sampleMean (Q 1))) (max (sampleMean (Q 2)) (sampleMean (Q 3)))) := by
    rw [le_max_iff, le_max_iff, le_max_iff]
    constructor
    · rintro ⟨k, hk, q⟩
      obtain rfl | rfl | rfl | rfl : k = 0 ∨ k = 1 ∨ k = 2 ∨ k = 3 := by omega
      all_goals simp [q]
    · rintro ((q | q) | (q | q))
      exacts [⟨0, by omega, q⟩, ⟨1, by omega, q⟩, ⟨2, by omega, q⟩, ⟨3, by omega, q⟩]
  have htop : max (max (max (max (-1) (sampleMean (Q 0))) (sampleMean (Q 1))) (sampleMean (Q 2))) (sampleMean (Q 3)) =
      max (-1) (max (max (sampleMean (Q 0)) (sampleMean (Q 1))) (max (sampleMean (Q 2)) (sampleMean (Q 3)))) := by
    simp only [max_assoc]
  have hlast : sampleMean (Q 3) ≤ max (max (sampleMean (Q 0)) (sampleMean (Q 1))) (max (sampleMean (Q 2)) (sampleMean (Q 3))) :=
    le_max_of_le_right (le_max_right _ _)
  rw [htop]
  simp only [hlt]
  generalize hM : max (max (sampleMean (Q 0)) (sampleMean (Q 1))) (max (sampleMean (Q 2)) (sampleMean (Q 3))) = M at *
  by_cases hA : ∀ k < 4, 100 ≤ (Q k).length
  · obtain ⟨c0, c1, c2, c3⟩ := hall.mp hA
    rw [if_neg (by omega), if_neg (by omega), if_neg (by omega), if_neg (by omega)]
    by_cases hp : 0 ≤ M
    · have hE : enoughData Q := ⟨hA, hex.mpr hp⟩
      rw [decide_eq_true hE, if_pos hE, max_eq_right (by linarith : (-1 : ℝ) ≤ M)]
      simp only
      rw [if_neg (by linarith)]
      have g1 : quotGt (sampleMean (Q 3)) M ratio ↔ ratio * M < sampleMean (Q 3) := by
        unfold quotGt
        split
        · rename_i q; rw [q, mul_zero]
        · rename_i q; rw [lt_div_iff₀ (lt_of_le_of_ne hp (Ne.symm q))]
      have g2 : quotLt (sampleMean (Q 3)) M ratio ↔ sampleMean (Q 3) < ratio * M := by
        unfold quotLt
        split
        · rename_i q; rw [q, mul_zero]
        · rename_i q; rw [div_lt_iff₀ (lt_of_le_of_ne hp (Ne.symm q))]
      by_cases x1 : ratio * M < sampleMean (Q 3)
      · rw [if_pos (g1.mpr x1), if_pos x1]; rfl
      · rw [if_neg (fun q => x1 (g1.mp q)), if_neg x1]
        by_cases x2 : sampleMean (Q 3) < ratio * M
        · rw [if_pos (g2.mpr x2), if_pos x2]; rfl
        · rw [if_neg (fun q => x2 (g2.mp q)), if_neg x2]; rfl
    · have hE : ¬ enoughData Q := fun q => hp (hex.mp q.2)
      rw [decide_eq_false hE, if_neg hE]
      simp only
      rw [if_pos]
      · rfl
      · push Not at hp
        exact max_lt (by norm_num) hp
  · have hE : ¬ enoughData Q := fun q => hA q.1
    rw [decide_eq_false hE, if_neg hE]
    have : (if (Q 0).length < 100 then none else if (Q 1).length < 100 then none else if (Q 2).length < 100 then none else
        if (Q 3).length < 100 then none else some (max (-1) M)) = none := by
      split_ifs with y0 y1 y2 y3
      all_goals first | rfl | exact absurd (hall.mpr ⟨by omega, by omega, by omega, by omega⟩) hA
    rw [this]
    rfl

theorem Holds.mean {n : ℕ} {mx : ℝ} {l : List (ℝ × ℝ)} {h : Hist} (hh : Holds n mx l h) :
    ∃ m, h.mean = .ok m ∧ m.length = n ∧ ∀ b < n,
      m.getD b none = if inBin n mx b l = [] then none else some (sampleMean (inBin n mx b l)) := by
  unfold Hist.mean
  rw [Res.assert_true ⟨by rw [hh.bins, hh.len1], by rw [hh.bins, hh.len3]⟩]
  refine ⟨_, rfl, by simp [hh.len1], fun b hb => ?_⟩
  rw [List.getD_eq_getElem _ _ (by simp [hh.len1, hb])]
  simp only [List.getElem_map, List.getElem_range, hh.bins, if_pos hb, hh.counter b hb, hh.sumval b hb]
  by_cases q : inBin n mx b l = []
  · simp [q]
  · rw [if_neg q, if_neg]
    · rfl
    · exact_mod_cast fun w => q (List.length_eq_zero_iff.mp w)

theorem addAll_holds {n : ℕ} {mx : ℝ} (hn : 0 < n) (hmx : 0 < mx) (l : List (ℝ × ℝ)) (hc : ∀ s ∈ l, Convertible n mx s.1) :
    ∃ h, (Hist.init n mx).addAll l = .ok (l.map (fun s => open Classical in decide (0 ≤ s.1 ∧ s.1 < mx)), h) ∧ Holds n mx l h := by
  have key : ∀ (l l0 : List (ℝ × ℝ)) (h0 : Hist), Holds n mx l0 h0 → (∀ s ∈ l, Convertible n mx s.1) →
      ∃ h, h0.addAll l = .ok (l.map (fun s => open Classical in decide (0 ≤ s.1 ∧ s.1 < mx)), h) ∧ Holds n mx (l0 ++ l) h := by
    intro l
    induction l with
    | nil => intro l0 h0 hh _; exact ⟨h0, rfl, by rwa [List.append_nil]⟩
    | cons s l ih =>
      intro l0 h0 hh hc
      obtain ⟨h1, e1, hh1⟩ := hh.add hn hmx (v := s.2) (hc s (by simp))
      obtain ⟨h2, e2, hh2⟩ := ih _ h1 hh1 (fun t ht => hc t (List.mem_cons_of_mem _ ht))
      refine ⟨h2, ?_, by rwa [List.append_assoc] at hh2⟩
      unfold Hist.addAll
      rw [e1]
      simp only [Res.bind_ok]
      rw [e2]
      rfl
  exact key l [] _ (Holds.init n mx) hc

/-- C85: whatever samples were added to a histogram, the adapted cutoff follows the means in the four quarters of the interval up to
    the cutoff, and the flag says whether there were enough samples. -/
theorem C85_cutoff {n : ℕ} {mx : ℝ} (hn : 0 < n) (l : List (ℝ × ℝ)) (hconv : ∀ s ∈ l, Convertible n mx s.1)
    {cut ratio mag : ℝ} (hcut : 0 < cut) (hle : cut ≤ mx) (hfit : 4 * mx / cut < 2 ^ 31) (hr0 : 0 ≤ ratio) (hr1 : ratio ≤ 1)
    (hmag : 1 ≤ mag) :
    ∃ flags h, (Hist.init n mx).addAll l = .ok (flags, h) ∧
      h.updateCutoff ratio cut mag = .ok (open Classical in decide (enoughData fun k => inQuarter n mx cut k l),
        adapted (fun k => inQuarter n mx cut k l) ratio mag cut) := by
  obtain ⟨h, e, hh⟩ := addAll_holds hn (lt_of_lt_of_le hcut hle) l hconv
  exact ⟨_, h, e, hh.updateCutoff hn hcut hle hfit hr0 hr1 hmag⟩

/-- C85: the mean reported for a bin is that of the samples in the bin; a bin without samples gives no number. -/
theorem C85_mean {n : ℕ} {mx : ℝ} (hn : 0 < n) (hmx : 0 < mx) (l : List (ℝ × ℝ)) (hconv : ∀ s ∈ l, Convertible n mx s.1) :
    ∃ flags h m, (Hist.init n mx).addAll l = .ok (flags, h) ∧ h.mean = .ok m ∧ m.length = n ∧ ∀ b < n,
      m.getD b none = if inBin n mx b l = [] then none else some (sampleMean (inBin n mx b l)) := by
  obtain ⟨h, e, hh⟩ := addAll_holds hn hmx l hconv
  obtain ⟨m, e2, q⟩ := hh.mean
  exact ⟨_, h, m, e, e2, q⟩

/-! ## `scalar_histogram_flavors` -/

theorem blockCopy_spec {α : Type} (bins f : ℕ) (src acc : List α) (hs : bins ≤ src.length) (hf : f * bins + bins ≤ acc.length) :
    ∃ r, blockCopy bins f src acc = .ok r ∧ r.length = acc.length ∧
      ∀ i, r[i]? = if f * bins ≤ i ∧ i < f * bins + bins then src[i - f * bins]? else acc[i]? := by
  have key : ∀ m ≤ bins, ∃ r, Res.foldl (fun acc b => do
      let x ← Res.get src b
      Res.assert (b + f * bins < acc.length)
      pure (acc.set (b + f * bins) x)) acc (List.range m) = .ok r ∧ r.length = acc.length ∧
      ∀ i, r[i]? = if f * bins ≤ i ∧ i < f * bins + m then src[i - f * bins]? else acc[i]? := by
    intro m
    induction m with
    | zero =>
      intro _
      exact ⟨acc, rfl, rfl, fun i => by rw [if_neg (by omega)]⟩
    | succ m ih =>
      intro hm
      obtain ⟨r, e, hl, hv⟩ := ih (by omega)
      refine ⟨r.set (m + f * bins) (src[m]'(by omega)), ?_, by simp [hl], fun i => ?_⟩
      · rw [List.range_succ, Res.foldl_append, e]
        simp only [Res.bind_ok, Res.foldl_cons, Res.foldl_nil]
        rw [Res.get_of_lt (by omega)]
        simp only [Res.bind_ok]
        rw [Res.assert_true (by omega)]
        rfl
      · rw [List.getElem?_set]
        by_cases q : m + f * bins = i
        · subst q
          rw [if_pos rfl, if_pos (by omega), if_pos (by omega), Nat.add_sub_cancel, List.getElem?_eq_getElem (by omega)]
        · rw [if_neg q, hv]
          by_cases w : f * bins ≤ i ∧ i < f * bins + m
          · rw [if_pos w, if_pos (by omega)]
          · rw [if_neg w, if_neg (by omega)]
  exact key bins le_rfl

theorem gather_spec {α : Type} (h : HistF) (get : Hist → Res (List α)) (z : α) (src : ℕ → List α)
    (hs : ∀ f < h.flavors, ∃ g, h.hists[f]? = some g ∧ get g = .ok (src f) ∧ (src f).length = h.bins) :
    ∃ r, h.gather get z = .ok r ∧ r.length = h.bins * h.flavors ∧
      ∀ f < h.flavors, ∀ b < h.bins, r[b + f * h.bins]? = (src f)[b]? := by
  have key : ∀ m ≤ h.flavors, ∃ r, Res.foldl (fun acc f => do
      let g ← Res.get h.hists f
      let src ← get g
      blockCopy h.bins f src acc) (List.replicate (h.bins * h.flavors) z) (List.range m) = .ok r ∧ r.length = h.bins * h.flavors ∧
      ∀ f < m, ∀ b < h.bins, r[b + f * h.bins]? = (src f)[b]? := by
    intro m
    induction m with
    | zero => intro _; exact ⟨_, rfl, by simp, fun f hf => absurd hf (by omega)⟩
    | succ m ih =>
      intro hm
      obtain ⟨r, e, hl, hv⟩ := ih (by omega)
      obtain ⟨g, hg, eg, lg⟩ := hs m (by omega)
      have hle : m * h.bins + h.bins ≤ h.bins * h.flavors := by
        rw [← Nat.succ_mul, Nat.mul_comm]
        exact Nat.mul_le_mul_left _ hm
      obtain ⟨r', e', hl', hv'⟩ := blockCopy_spec h.bins m (src m) r (by omega) (by omega)
      refine ⟨r', ?_, by omega, fun f hf b hb => ?_⟩
      · rw [List.range_succ, Res.foldl_append, e]
        simp only [Res.bind_ok, Res.foldl_cons, Res.foldl_nil]
        rw [Res.get_eq_ok.mpr hg]
        simp only [Res.bind_ok]
        rw [eg]
        simp only [Res.bind_ok]
        rw [e']
        rfl
      · rw [hv']
        rcases Nat.lt_or_ge f m with q | q
        · have : f * h.bins + h.bins ≤ m * h.bins := by
            rw [← Nat.succ_mul]; exact Nat.mul_le_mul_right _ q
          rw [if_neg (by omega)]
          exact hv f q b hb
        · obtain rfl : f = m := by omega
          rw [if_pos (by omega), Nat.add_sub_cancel]
  exact key _ le_rfl

/-- The numbers the object holds are those of the samples added to it. -/
structure HoldsF (n : ℕ) (mx : ℝ) (F : ℕ) (l : List (ℝ × ℝ × ℕ)) (h : HistF) : Prop where
  flavors : h.flavors = F
  bins : h.bins = n
  maxVal : h.maxVal = mx
  len : h.hists.length = F
  each : ∀ f < F, ∃ g, h.hists[f]? = some g ∧ Holds n mx (ofFlavor f l) g

theorem HoldsF.create (n : ℕ) (mx : ℝ) (F : ℕ) : HoldsF n mx F [] (HistF.create n mx F) := by
  refine ⟨rfl, rfl, rfl, by simp [HistF.create], fun f hf => ⟨Hist.init n mx, ?_, Holds.init n mx⟩⟩
  simp [HistF.create, hf]

theorem ofFlavor_append (f : ℕ) (l : List (ℝ × ℝ × ℕ)) (d v : ℝ) (g : ℕ) :
    ofFlavor f (l ++ [(d, v, g)]) = if g = f then ofFlavor f l ++ [(d, v)] else ofFlavor f l := by
  unfold ofFlavor
  rw [List.filter_append, List.map_append]
  by_cases h : g = f
  · simp [h]
  · simp [h]

theorem HoldsF.add {n : ℕ} {mx : ℝ} {F : ℕ} {l : List (ℝ × ℝ × ℕ)} {h : HistF} (hh : HoldsF n mx F l h) (hn : 0 < n) (hmx : 0 < mx)
    {d v : ℝ} {f : ℕ} (hf : f < F) (hc : Convertible n mx d) :
    ∃ h', h.add d v f = .ok (open Classical in decide (0 ≤ d ∧ d < mx), h') ∧ HoldsF n mx F (l ++ [(d, v, f)]) h' := by
  obtain ⟨g, hg, hG⟩ := hh.each f hf
  obtain ⟨g', e, hG'⟩ := hG.add hn hmx (v := v) hc
  refine ⟨{ h with hists := h.hists.set f g' }, ?_, hh.flavors, hh.bins, hh.maxVal, by simp [hh.len], fun k hk => ?_⟩
  · unfold HistF.add
    rw [Res.assert_true (by rw [hh.flavors]; exact hf)]
    simp only [Res.bind_ok]
    rw [Res.get_eq_ok.mpr hg]
    simp only [Res.bind_ok]
    rw [e]
    rfl
  · rw [ofFlavor_append]
    simp only [List.getElem?_set, hh.len]
    by_cases q : f = k
    · subst q
      refine ⟨g', by simp [hf], by simpa using hG'⟩
    · rw [if_neg q, if_neg q]
      exact hh.each k hk

theorem Holds.reset {n : ℕ} {mx : ℝ} {l : List (ℝ × ℝ)} {h : Hist} (hh : Holds n mx l h) :
    ∃ h', h.reset = .ok h' ∧ Holds n mx [] h' := by
  unfold Hist.reset
  rw [Res.assert_true ⟨by rw [hh.bins, hh.len1], by rw [hh.bins, hh.len2], by rw [hh.bins, hh.len3]⟩]
  refine ⟨_, rfl, hh.bins, hh.maxVal, rfl, by simp [hh.bins, hh.len1], by simp [hh.bins, hh.len2], by simp [hh.bins, hh.len3],
    ?_, ?_, ?_⟩
  all_goals
    intro b hb
    simp only [hh.bins]
    rw [List.getD_append _ _ _ _ (by simpa using hb), List.getD_replicate _ hb]
    simp [inBin]

theorem HoldsF.reset {n : ℕ} {mx : ℝ} {F : ℕ} {l : List (ℝ × ℝ × ℕ)} {h : HistF} (hh : HoldsF n mx F l h) :
    ∃ h', h.reset = .ok h' ∧ HoldsF n mx F [] h' := by
  have hR : ∀ g ∈ h.hists, ∃ g', Hist.reset g = .ok g' ∧ Holds n mx [] g' := by
    intro g hg
    obtain ⟨f, hf, rfl⟩ := List.getElem_of_mem hg
    obtain ⟨g, e, hG⟩ := hh.each f (by rw [← hh.len]; exact hf)
    rw [List.getElem?_eq_getElem hf] at e
    cases e
    exact hG.reset
  have hM : ∀ hs : List Hist, (∀ g ∈ hs, ∃ g', Hist.reset g = .ok g' ∧ Holds n mx [] g') →
      ∃ hs', Res.mapM Hist.reset hs = .ok hs' ∧ hs'.length = hs.length ∧ ∀ g ∈ hs', Holds n mx [] g := by
    intro hs
    induction hs with
    | nil => intro _; exact ⟨[], rfl, rfl, by simp⟩
    | cons g hs ih =>
      intro hq
      obtain ⟨g', e, hG⟩ := hq g (by simp)
      obtain ⟨hs', e', l', h'⟩ := ih fun g hg => hq g (List.mem_cons_of_mem _ hg)
      refine ⟨g' :: hs', ?_, by simp [l'], ?_⟩
      · rw [Res.mapM_cons, e]
        simp only [Res.bind_ok]
        rw [e']
        rfl
      · intro k hk
        rcases List.mem_cons.mp hk with rfl | hk
        · exact hG
        · exact h' k hk
  obtain ⟨hs', e, hl, hv⟩ := hM _ hR
  refine ⟨{ h with hists := hs' }, ?_, hh.flavors, hh.bins, hh.maxVal, by rw [← hh.len]; exact hl, fun f hf => ?_⟩
  · unfold HistF.reset
    rw [e]
    rfl
  · have : f < hs'.length := by rw [hl, hh.len]; exact hf
    exact ⟨hs'[f], List.getElem?_eq_getElem this, hv _ (List.getElem_mem this)⟩

theorem adapted_pos (Q : ℕ → List (ℝ × ℝ)) {ratio mag cut : ℝ} (hmag : 1 ≤ mag) (hcut : 0 < cut) : 0 < adapted Q ratio mag cut := by
  unfold adapted
  have : 0 < mag := by linarith
  simp only
  split_ifs <;> positivity

open Classical in
theorem HoldsF.updateCutoff {n : ℕ} {mx : ℝ} {F : ℕ} {l : List (ℝ × ℝ × ℕ)} {h : HistF} (hh : HoldsF n mx F l h) (hn : 0 < n)
    (hF : 0 < F) {cut ratio mag : ℝ} (hcut : 0 < cut) (hle : cut ≤ mx) (hfit : 4 * mx / cut < 2 ^ 31) (hr0 : 0 ≤ ratio)
    (hr1 : ratio ≤ 1) (hmag : 1 ≤ mag) :
    ∃ m, IsGreatest {x | ∃ f < F, x = adapted (fun k => inQuarter n mx cut k (ofFlavor f l)) ratio mag cut} m ∧
      h.updateCutoff ratio cut mag = .ok (max (min mx m) (mx / n)) := by
  have key : ∀ k ≤ F, ∃ m, Res.foldl (fun d g => do
        let r ← Hist.updateCutoff g ratio cut mag
        pure (max d r.2)) (-1) (h.hists.take k) = .ok m ∧
      (∀ f < k, adapted (fun k => inQuarter n mx cut k (ofFlavor f l)) ratio mag cut ≤ m) ∧
      ((k = 0 ∧ m = -1) ∨ ∃ f < k, m = adapted (fun k => inQuarter n mx cut k (ofFlavor f l)) ratio mag cut) := by
    intro k
    induction k with
    | zero => intro _; exact ⟨-1, by simp, fun f hf => absurd hf (by omega), Or.inl ⟨rfl, rfl⟩⟩
    | succ k ih =>
      intro hk
      obtain ⟨m, e, h1, h2⟩ := ih (by omega)
      obtain ⟨g, hg, hG⟩ := hh.each k (by omega)
      have hu := hG.updateCutoff hn hcut hle hfit hr0 hr1 hmag
      have hp := adapted_pos (fun k_1 => inQuarter n mx cut k_1 (ofFlavor k l)) (ratio := ratio) hmag hcut
      generalize hA : adapted (fun k_1 => inQuarter n mx cut k_1 (ofFlavor k l)) ratio mag cut = A at *
      refine ⟨max m A, ?_, ?_, Or.inr ?_⟩
      · rw [List.take_add_one, hg, Res.foldl_append, e]
        simp only [Res.bind_ok, Option.toList, Res.foldl_cons, Res.foldl_nil]
        rw [hu]
        rfl
      · intro f hf
        rcases Nat.lt_or_ge f k with q | q
        · exact le_max_of_le_left (h1 f q)
        · obtain rfl : f = k := by omega
          rw [hA]
          exact le_max_right _ _
      · rcases h2 with ⟨_, rfl⟩ | ⟨f, hf, rfl⟩
        · exact ⟨k, by omega, by rw [hA, max_eq_right (by linarith)]⟩
        · rcases le_total (adapted (fun k => inQuarter n mx cut k (ofFlavor f l)) ratio mag cut) A with q | q
          · exact ⟨k, by omega, by rw [hA, max_eq_right q]⟩
          · exact ⟨f, by omega, max_eq_left q⟩
  obtain ⟨m, e, h1, h2⟩ := key F le_rfl
  rw [← hh.len, List.take_length] at e
  have hm : ∃ f < F, m = adapted (fun k => inQuarter n mx cut k (ofFlavor f l)) ratio mag cut := by
    rcases h2 with ⟨q, _⟩ | q
    · omega
    · exact q
  refine ⟨m, ⟨hm, ?_⟩, ?_⟩
  · rintro x ⟨f, hf, rfl⟩
    exact h1 f hf
  · unfold HistF.updateCutoff
    rw [e]
    simp only [Res.bind_ok]
    obtain ⟨f, hf, q⟩ := hm
    rw [Res.assert_true (by rw [q]; exact adapted_pos _ hmag hcut), Res.assert_true (by rw [hh.bins]; omega), hh.maxVal, hh.bins]
    rfl

/-- Calls within the preconditions. -/
def CutOp.fine (n : ℕ) (mx : ℝ) (F : ℕ) : CutOp → Prop
  | .sample d _ f => Convertible n mx d ∧ f < F
  | .adapt ratio mag => 0 ≤ ratio ∧ ratio ≤ 1 ∧ 1 ≤ mag
  | .reset => True

/-- The samples added since the last reset. -/
def sinceReset (ops : List CutOp) : List (ℝ × ℝ × ℕ) :=
  ops.foldl (fun l op => match op with
    | .sample d v f => l ++ [(d, v, f)]
    | .adapt _ _ => l
    | .reset => []) []

theorem fit_of_bins {n : ℕ} {mx c : ℝ} (hn : 0 < n) (hmx : 0 < mx) (hfit : 4 * n < 2 ^ 31) (hc : mx / n ≤ c) : 4 * mx / c < 2 ^ 31 := by
  have hn' : (0 : ℝ) < n := by exact_mod_cast hn
  have hpos : 0 < mx / n := by positivity
  have : 0 < c := lt_of_lt_of_le hpos hc
  rw [div_lt_iff₀ this]
  have h4 : (4 : ℝ) * n < 2 ^ 31 := by exact_mod_cast hfit
  have h5 : mx ≤ c * n := by rwa [div_le_iff₀ hn'] at hc
  have h6 : c * (4 * n) < c * 2 ^ 31 := mul_lt_mul_of_pos_left h4 this
  linarith

theorem cutRun {n : ℕ} {mx : ℝ} {F : ℕ} (hn : 0 < n) (hmx : 0 < mx) (hF : 0 < F) (hfit : 4 * n < 2 ^ 31) {c : ℝ} (hc0 : mx / n ≤ c)
    (hc1 : c ≤ mx) (ops : List CutOp) (hops : ∀ op ∈ ops, op.fine n mx F) :
    ∃ h c', Res.foldl CutOp.run (HistF.create n mx F, c) ops = .ok (h, c') ∧ HoldsF n mx F (sinceReset ops) h ∧ mx / n ≤ c' ∧ c' ≤ mx := by
  have hn' : (0 : ℝ) < n := by exact_mod_cast hn
  have hmn : mx / n ≤ mx := by
    rw [div_le_iff₀ hn']
    have : (1 : ℝ) ≤ n := by exact_mod_cast hn
    nlinarith
  induction ops using List.reverseRecOn with
  | nil => exact ⟨_, c, rfl, HoldsF.create n mx F, hc0, hc1⟩
  | append_singleton ops op ih =>
    obtain ⟨h, c', e, hH, b0, b1⟩ := ih fun o ho => hops o (by simp [ho])
    have hop := hops op (by simp)
    rw [Res.foldl_append, e]
    simp only [Res.bind_ok, Res.foldl_cons, Res.foldl_nil]
    unfold sinceReset at *
    rw [List.foldl_append, List.foldl_cons, List.foldl_nil]
    cases op with
    | sample d v f =>
      obtain ⟨h', e', hH'⟩ := hH.add hn hmx (v := v) hop.2 hop.1
      refine ⟨h', c', ?_, hH', b0, b1⟩
      simp only [CutOp.run]
      rw [e']
      rfl
    | adapt ratio mag =>
      obtain ⟨m, _, e'⟩ := hH.updateCutoff hn hF (lt_of_lt_of_le (by positivity) b0) b1 (fit_of_bins hn hmx hfit b0) hop.1 hop.2.1
        hop.2.2
      refine ⟨h, max (min mx m) (mx / n), ?_, hH, le_max_right _ _, max_le (min_le_left _ _) hmn⟩
      simp only [CutOp.run]
      rw [e']
      rfl
    | reset =>
      obtain ⟨h', e', hH'⟩ := hH.reset
      refine ⟨h', c', ?_, hH', b0, b1⟩
      simp only [CutOp.run]
      rw [e']
      rfl

/-- C85: in every sequence of calls within the preconditions nothing fails, and the cutoff stays between the width of a bin and the
    largest position.  (Partial: at least one flavour and convertible positions.) -/
theorem C85_bounds_partial {n : ℕ} {mx : ℝ} {F : ℕ} (hn : 0 < n) (hmx : 0 < mx) (hF : 0 < F) (hfit : 4 * n < 2 ^ 31) {c : ℝ}
    (hc0 : mx / n ≤ c) (hc1 : c ≤ mx) (ops : List CutOp) (hops : ∀ op ∈ ops, op.fine n mx F) :
    ∃ h c', Res.foldl CutOp.run (HistF.create n mx F, c) ops = .ok (h, c') ∧ mx / n ≤ c' ∧ c' ≤ mx := by
  obtain ⟨h, c', e, _, q⟩ := cutRun hn hmx hF hfit hc0 hc1 ops hops
  exact ⟨h, c', e, q⟩

/-- C85: at every moment the next adapted cutoff is the largest one that a flavour asks for, on the ground of its own samples since
    the last reset, moved into the bounds. -/
theorem C85_adapt {n : ℕ} {mx : ℝ} {F : ℕ} (hn : 0 < n) (hmx : 0 < mx) (hF : 0 < F) (hfit : 4 * n < 2 ^ 31) {c : ℝ}
    (hc0 : mx / n ≤ c) (hc1 : c ≤ mx) (ops : List CutOp) (hops : ∀ op ∈ ops, op.fine n mx F) {ratio mag : ℝ} (hr0 : 0 ≤ ratio)
    (hr1 : ratio ≤ 1) (hmag : 1 ≤ mag) :
    ∃ h c' m, Res.foldl CutOp.run (HistF.create n mx F, c) ops = .ok (h, c') ∧
      IsGreatest {x | ∃ f < F, x = adapted (fun k => inQuarter n mx c' k (ofFlavor f (sinceReset ops))) ratio mag c'} m ∧
      Res.foldl CutOp.run (HistF.create n mx F, c) (ops ++ [.adapt ratio mag]) = .ok (h, max (min mx m) (mx / n)) := by
  have hn' : (0 : ℝ) < n := by exact_mod_cast hn
  obtain ⟨h, c', e, hH, b0, b1⟩ := cutRun hn hmx hF hfit hc0 hc1 ops hops
  obtain ⟨m, hm, e'⟩ := hH.updateCutoff hn hF (lt_of_lt_of_le (by positivity) b0) b1 (fit_of_bins hn hmx hfit b0) hr0 hr1 hmag
  refine ⟨h, c', m, e, hm, ?_⟩
  rw [Res.foldl_append, e]
  simp only [Res.bind_ok, Res.foldl_cons, Res.foldl_nil, CutOp.run]
  rw [e']
  rfl

/-- C85: the counts, sums and means of the flavours follow one another; each is that of the flavour's samples since the last
    reset. -/
theorem C85_report {n : ℕ} {mx : ℝ} {F : ℕ} (hn : 0 < n) (hmx : 0 < mx) (hF : 0 < F) (hfit : 4 * n < 2 ^ 31) {c : ℝ}
    (hc0 : mx / n ≤ c) (hc1 : c ≤ mx) (ops : List CutOp) (hops : ∀ op ∈ ops, op.fine n mx F) :
    ∃ h c' cnt sum mean, Res.foldl CutOp.run (HistF.create n mx F, c) ops = .ok (h, c') ∧ h.counter = .ok cnt ∧ h.sumval = .ok sum ∧
      h.mean = .ok mean ∧ cnt.length = n * F ∧ sum.length = n * F ∧ mean.length = n * F ∧ ∀ f < F, ∀ b < n,
        cnt[b + f * n]? = some ((inBin n mx b (ofFlavor f (sinceReset ops))).length : ℝ) ∧
        sum[b + f * n]? = some ((inBin n mx b (ofFlavor f (sinceReset ops))).map (·.2)).sum ∧
        mean[b + f * n]? = some (if inBin n mx b (ofFlavor f (sinceReset ops)) = [] then none
          else some (sampleMean (inBin n mx b (ofFlavor f (sinceReset ops))))) := by
  obtain ⟨h, c', e, hH, _, _⟩ := cutRun hn hmx hF hfit hc0 hc1 ops hops
  haveI : Inhabited Hist := ⟨Hist.init 0 0⟩
  choose! g hg hG using hH.each
  choose! mn hm hl hv using fun f hf => (hG f hf).mean
  obtain ⟨cnt, e1, l1, v1⟩ := gather_spec h (fun g => .ok g.counter) 0 (fun f => (g f).counter) (by
    intro f hf
    rw [hH.flavors] at hf
    exact ⟨g f, hg f hf, rfl, by rw [(hG f hf).len3, hH.bins]⟩)
  obtain ⟨sum, e2, l2, v2⟩ := gather_spec h (fun g => .ok g.sumval) 0 (fun f => (g f).sumval) (by
    intro f hf
    rw [hH.flavors] at hf
    exact ⟨g f, hg f hf, rfl, by rw [(hG f hf).len1, hH.bins]⟩)
  obtain ⟨mean, e3, l3, v3⟩ := gather_spec h Hist.mean (some 0) mn (by
    intro f hf
    rw [hH.flavors] at hf
    exact ⟨g f, hg f hf, hm f hf, by rw [hl f hf, hH.bins]⟩)
  rw [hH.flavors, hH.bins] at l1 l2 l3 v1 v2 v3
  refine ⟨h, c', cnt, sum, mean, e, e1, e2, e3, l1, l2, l3, fun f hf b hb => ⟨?_, ?_, ?_⟩⟩
  · rw [v1 f hf b hb, ← (hG f hf).counter b hb, List.getElem?_eq_getElem (by rw [(hG f hf).len3]; exact hb),
      List.getD_eq_getElem _ _ (by rw [(hG f hf).len3]; exact hb)]
  · rw [v2 f hf b hb, ← (hG f hf).sumval b hb, List.getElem?_eq_getElem (by rw [(hG f hf).len1]; exact hb),
      List.getD_eq_getElem _ _ (by rw [(hG f hf).len1]; exact hb)]
  · rw [v3 f hf b hb, ← hv f hf b hb, List.getElem?_eq_getElem (by rw [hl f hf]; exact hb),
      List.getD_eq_getElem _ _ (by rw [hl f hf]; exact hb)]

/-- Calls with samples of two flavours, an adaptation and a reset. -/
example : ∀ op ∈ [CutOp.sample (1 / 3) 2 0, .sample (1 / 2) 1 1, .adapt (1 / 2) (6 / 5), .reset, .sample 2 1 1], op.fine 10 1 2 := by
  intro op hop
  simp only [List.mem_cons, List.not_mem_nil, or_false] at hop
  rcases hop with rfl | rfl | rfl | rfl | rfl <;> simp only [CutOp.fine, Convertible] <;> norm_num

/-- C85 fails without flavours: the assert that the new cutoff is positive fails. -/
theorem C85_no_flavor_violation (n : ℕ) (mx ratio cut mag : ℝ) : (HistF.create n mx 0).updateCutoff ratio cut mag = .ub := by
  unfold HistF.updateCutoff
  simp only [HistF.create, List.replicate_zero, Res.foldl_nil, Res.bind_ok]
  rw [Res.assert_false (by norm_num)]
  rfl

/-- A hundred samples in each quarter, with values that fall off. -/
noncomputable def quarterSamples (v : ℕ → ℝ) : List (ℝ × ℝ) :=
  (List.range 4).flatMap fun k : ℕ => List.replicate 100 ((k : ℝ) / 4 + 1 / 8, v k)

theorem quarterSamples_in (v : ℕ → ℝ) (k : ℕ) (hk : k < 4) :
    inQuarter 4 1 1 k (quarterSamples v) = List.replicate 100 ((k : ℝ) / 4 + 1 / 8, v k) := by
  have key : ∀ j : ℕ, j < 4 → inQuarter 4 1 1 k (List.replicate 100 ((j : ℝ) / 4 + 1 / 8, v j)) =
      if j = k then List.replicate 100 ((j : ℝ) / 4 + 1 / 8, v j) else [] := by
    intro j hj
    unfold inQuarter
    rw [List.filter_replicate]
    congr 1
    simp only [decide_eq_true_eq, eq_iff_iff]
    constructor
    · rintro ⟨b, hb, ⟨h1, h2⟩, h3, h4⟩
      push_cast at *
      have q1 : (b : ℝ) < j + 1 := by linarith
      have q2 : (j : ℝ) < b + 1 := by linarith
      have q3 : (k : ℝ) < b + 1 := by linarith
      have q4 : (b : ℝ) < k + 1 := by linarith
      have r1 : b < j + 1 := by exact_mod_cast q1
      have r2 : j < b + 1 := by exact_mod_cast q2
      have r3 : k < b + 1 := by exact_mod_cast q3
      have r4 : b < k + 1 := by exact_mod_cast q4
      omega
    · rintro rfl
      refine ⟨j, hj, ⟨?_, ?_⟩, ?_, ?_⟩ <;> push_cast <;> linarith
  have happ : ∀ a b, inQuarter 4 1 1 k (a ++ b) = inQuarter 4 1 1 k a ++ inQuarter 4 1 1 k b := by
    intro a b; unfold inQuarter; rw [List.filter_append]
  unfold quarterSamples
  rw [show List.range 4 = [0, 1, 2, 3] from rfl]
  simp only [List.flatMap_cons, List.flatMap_nil, List.append_nil, happ]
  rw [key 0 (by omega), key 1 (by omega), key 2 (by omega), key 3 (by omega)]
  obtain rfl | rfl | rfl | rfl : k = 0 ∨ k = 1 ∨ k = 2 ∨ k = 3 := by omega
  all_goals simp

theorem sampleMean_replicate (x : ℝ × ℝ) : sampleMean (List.replicate 100 x) = x.2 := by
  unfold sampleMean
  rw [List.map_replicate, List.sum_replicate, List.length_replicate]
  simp

/-- Enough data exists, and values that fall off below the ratio make the cutoff smaller. -/
example : enoughData (fun k => inQuarter 4 1 1 k (quarterSamples fun k => 3 - k)) ∧
    adapted (fun k => inQuarter 4 1 1 k (quarterSamples fun k => 3 - k)) (1 / 2) 2 1 = 1 / 2 := by
  have hE : enoughData (fun k => inQuarter 4 1 1 k (quarterSamples fun k => 3 - k)) := by
    refine ⟨fun k hk => ?_, 0, by omega, ?_⟩
    · simp only [quarterSamples_in _ k hk, List.length_replicate, le_refl]
    · simp only [quarterSamples_in _ 0 (by omega), sampleMean_replicate]; norm_num
  refine ⟨hE, ?_⟩
  have m : ∀ k < 4, sampleMean (inQuarter 4 1 1 k (quarterSamples fun k => 3 - k)) = 3 - k := by
    intro k hk
    rw [quarterSamples_in _ k hk, sampleMean_replicate]
  unfold adapted
  simp only [if_pos hE, m 0 (by omega), m 1 (by omega), m 2 (by omega), m 3 (by omega)]
  norm_num

/-! ## `simple_update_statistcs` -/

/-- C85: every counter of updates holds the number of the events of its kind and number of vertices. -/
theorem C85_counters (nv : ℕ) (es : List (UpdateEvent × ℕ)) (hes : ∀ e ∈ es, e.2 < nv) :
    ∃ c, Res.foldl (fun c e => UStat.count c e.1 e.2) (UStat.create nv) es = .ok c ∧ c.length = nv ∧
      ∀ iv < nv, c[iv]? = some ([.notValid, .reducible, .accepted, .rejected].map fun k : UpdateEvent => es.count (k, iv)) := by
  induction es using List.reverseRecOn with
  | nil =>
    refine ⟨_, rfl, by simp [UStat.create], fun iv hiv => ?_⟩
    simp [UStat.create, hiv, List.replicate]
  | append_singleton es e ih =>
    obtain ⟨c, ec, hl, hv⟩ := ih fun o ho => hes o (by simp [ho])
    obtain ⟨k, iv⟩ := e
    have hiv : iv < nv := hes (k, iv) (by simp)
    refine ⟨c.modify iv fun l => l.modify k.index (· + 1), ?_, by simp [hl], fun j hj => ?_⟩
    · rw [Res.foldl_append, ec]
      simp only [Res.bind_ok, Res.foldl_cons, Res.foldl_nil, UStat.count]
      rw [Res.assert_true (by omega)]
      rfl
    · rw [List.getElem?_modify, hv j hj]
      by_cases q : iv = j
      · subst q
        cases k <;> simp [UpdateEvent.index, List.count_append, List.count_singleton]
      · simp [q, List.count_append, List.count_singleton]

/-- C85: after a reset every counter is zero. -/
theorem C85_counters_reset (nv : ℕ) (es : List (UpdateEvent × ℕ)) (hes : ∀ e ∈ es, e.2 < nv) :
    ∃ c, Res.foldl (fun c e => UStat.count c e.1 e.2) (UStat.create nv) es = .ok c ∧ UStat.reset c = List.replicate nv [0, 0, 0, 0] := by
  obtain ⟨c, e, hl, hv⟩ := C85_counters nv es hes
  refine ⟨c, e, List.ext_getElem? fun i => ?_⟩
  unfold UStat.reset
  rw [List.getElem?_map, List.getElem?_replicate]
  split
  · rename_i h; rw [hv i h]; rfl
  · rename_i h; rw [List.getElem?_eq_none (by omega)]; rfl

example : ∀ e ∈ [(UpdateEvent.accepted, 0), (.rejected, 1), (.accepted, 0)], e.2 < 2 := by decide

end CTInt
