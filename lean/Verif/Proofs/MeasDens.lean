import Verif.Proofs.MeasOpt

/-!
# Densities
-/

set_option linter.all false

namespace CTInt

variable {K : Type} [RCLike K]

namespace MeasIn

/-- The real part of the density matrix, as it is accumulated. -/
noncomputable def rr (m : MeasIn K) (G : ℝ → ℕ → ℕ → ℕ → K) (tau : ℝ) (z s s2 : ℕ) : ℝ := RCLike.re (m.rho G tau z s s2)

theorem densPair_spec {m : MeasIn K} {G : ℝ → ℕ → ℕ → ℕ → K} (hG : HasG0 m G) (hm : MeasOK m) (tau : ℝ) {z s s2 : ℕ}
    (hz : z < m.nf) (hs : s < m.ns) (hs2 : s2 < m.ns) (d : DensAcc) :
    m.densPair tau z s ((List.range (m.cr z).length).map fun q =>
        G (((m.an z).getD q default).time - tau) z ((m.an z).getD q default).site s) d s2 =
      .ok (d + (fun a b => if s = s2 ∧ a = z ∧ b = s then m.rr G tau z s s2 else 0,
        fun a b c => if a = z ∧ b = s ∧ c = s2 then (m.rr G tau z s s2 : ℂ) else 0)) := by
  set N := (m.cr z).length with hN
  set gq := (List.range N).map fun q =>
        G (((m.an z).getD q default).time - tau) z ((m.an z).getD q default).site s with hgq
  have egp : Res.mapM (fun p => do
      let c ← Res.get (m.cr z) p
      m.g0 (tau - c.time) z s2 c.site) (List.range N) = .ok ((List.range N).map fun p =>
        G (tau - ((m.cr z).getD p default).time) z s2 ((m.cr z).getD p default).site) :=
    Res.mapM_range fun p hp => by
      rw [get_getD hp, Res.bind_ok, hG _ _ _ _ hz hs2 (hm.creSite z hz _ (getD_in hp))]
  set gp := (List.range N).map fun p =>
        G (tau - ((m.cr z).getD p default).time) z s2 ((m.cr z).getD p default).site with hgp
  let Mg : ℕ → K := fun q => ∑ p ∈ Finset.range N, (m.M z).val q p * gq.getD p 0
  have er : m.rr G tau z s s2 = RCLike.re (G (-m.beta * 1e-10) z s2 s) +
      ∑ q ∈ Finset.range N, -RCLike.re (gp.getD q 0 * Mg q) := by
    unfold rr rho
    rw [map_sub, sub_eq_add_neg, Finset.sum_neg_distrib, map_sum]
    congr 2
    refine Finset.sum_congr rfl fun q hq => ?_
    have hq := Finset.mem_range.1 hq
    congr 2
    · rw [hgp]; simp [List.getD, hq]
    · refine Finset.sum_congr rfl fun p hp => ?_
      have hp := Finset.mem_range.1 hp
      rw [hgq]; simp [List.getD, hp]
  unfold densPair
  rw [hm.cols z hz, ← hN]
  simp only [egp, Res.bind_ok]
  -- the second half
  have second : ∀ d : DensAcc, (do
      let e ← m.g0 (-m.beta * 1e-10) z s2 s
      let d : DensAcc := (d.1, d.2 + fun a b c => if a = z ∧ b = s ∧ c = s2 then (RCLike.re e : ℂ) else 0)
      Res.foldl (fun d q => pure (d.1, d.2 + fun a b c => if a = z ∧ b = s ∧ c = s2 then
        -(RCLike.re (gp.getD q 0 * Mg q) : ℂ) else 0)) d (List.range N)) =
      Res.ok (d + ((0, fun a b c => if a = z ∧ b = s ∧ c = s2 then (m.rr G tau z s s2 : ℂ) else 0) : DensAcc)) := by
    intro d
    rw [hG _ _ _ _ hz hs2 hs, Res.bind_ok]
    rw [Res.foldl_range_acc (e := fun q => ((0, fun a b c => if a = z ∧ b = s ∧ c = s2 then
        -(RCLike.re (gp.getD q 0 * Mg q) : ℂ) else 0) : DensAcc))]
    · congr 1
      refine Prod.ext ?_ ?_
      · simp [Prod.fst_sum]
      · simp only [Prod.snd_add, Prod.snd_sum]
        rw [add_assoc]
        congr 1
        funext a b c
        simp only [Pi.add_apply, Finset.sum_apply]
        by_cases h : a = z ∧ b = s ∧ c = s2
        · simp only [if_pos h]
          rw [er]
          push_cast
          rfl
        · simp [if_neg h]
    · intro d q hq
      simp only [Res.pure_eq]
      congr 1
      refine Prod.ext ?_ ?_ <;> simp
  by_cases hss : s = s2
  · subst hss
    rw [if_pos rfl]
    rw [hG _ _ _ _ hz hs hs, Res.bind_ok]
    rw [Res.foldl_range_acc (e := fun q => ((fun a b => if a = z ∧ b = s then
        -RCLike.re (gp.getD q 0 * Mg q) else 0, 0) : DensAcc))]
    · rw [Res.bind_ok]
      have h2 := second ((d.1 + fun a b => if a = z ∧ b = s then RCLike.re (G (-m.beta * 1e-10) z s s) else 0, d.2) +
        ∑ q ∈ Finset.range N, ((fun a b => if a = z ∧ b = s then
        -RCLike.re (gp.getD q 0 * Mg q) else 0, 0) : DensAcc))
      rw [hG _ _ _ _ hz hs hs, Res.bind_ok] at h2
      refine (h2.trans ?_)
      congr 1
      refine Prod.ext ?_ ?_
      · simp only [Prod.fst_add, Prod.fst_sum, add_zero]
        rw [add_assoc]
        congr 1
        funext a b
        simp only [Pi.add_apply, Finset.sum_apply]
        by_cases h : a = z ∧ b = s
        · simp only [h, true_and, if_true]
          rw [er]
        · simp [h]
      · simp [Prod.snd_sum]
    · intro d q hq
      rw [Res.pure_eq]
      congr 1
      exact Prod.ext rfl (add_zero _).symm
  · rw [if_neg hss]
    simp only [Res.pure_eq, Res.bind_ok]
    refine (second d).trans ?_
    congr 2
    refine Prod.ext ?_ rfl
    funext a b
    simp [hss]

theorem densAll_spec {m : MeasIn K} {G : ℝ → ℕ → ℕ → ℕ → K} (hG : HasG0 m G) (hm : MeasOK m) (tau : ℝ) :
    ∃ d, m.densAll tau = .ok d ∧
      (∀ z < m.nf, ∀ s < m.ns, d.1 z s = m.rr G tau z s s) ∧
      ∀ z < m.nf, ∀ s < m.ns, ∀ s2 < m.ns, d.2 z s s2 = (m.rr G tau z s s2 : ℂ) := by
  let e (z s s2 : ℕ) : DensAcc := (fun a b => if s = s2 ∧ a = z ∧ b = s then m.rr G tau z s s2 else 0,
        fun a b c => if a = z ∧ b = s ∧ c = s2 then (m.rr G tau z s s2 : ℂ) else 0)
  refine ⟨0 + ∑ z ∈ Finset.range m.nf, ∑ s ∈ Finset.range m.ns, ∑ s2 ∈ Finset.range m.ns, e z s s2, ?_, ?_, ?_⟩
  · unfold densAll
    refine Res.foldl_range_acc _ fun d z hz => ?_
    refine Res.foldl_range_acc d fun d s hs => ?_
    rw [hm.cols z hz]
    have : Res.mapM (fun q => do
        let a ← Res.get (m.an z) q
        m.g0 (a.time - tau) z a.site s) (List.range (m.cr z).length) = .ok ((List.range (m.cr z).length).map fun q =>
        G (((m.an z).getD q default).time - tau) z ((m.an z).getD q default).site s) :=
      Res.mapM_range fun p hp => by
        have hl : p < (m.an z).length := by rw [hm.ann z hz]; exact hp
        rw [get_getD hl, Res.bind_ok, hG _ _ _ _ hz (hm.annSite z hz _ (getD_in hl)) hs]
    rw [this, Res.bind_ok]
    exact Res.foldl_range_acc d fun d s2 hs2 => densPair_spec hG hm tau hz hs hs2 d
  · intro z hz s hs
    simp only [zero_add, Prod.fst_sum, Finset.sum_apply, e]
    rw [Finset.sum_eq_single z, Finset.sum_eq_single s, Finset.sum_eq_single s]
    · simp
    · intro s2 _ h; rw [if_neg (fun h' => h h'.1.symm)]
    · intro h; exact absurd (Finset.mem_range.2 hs) h
    · intro s' _ h
      exact Finset.sum_eq_zero fun s2 _ => if_neg fun h' => h h'.2.2.symm
    · intro h; exact absurd (Finset.mem_range.2 hs) h
    · intro z' _ h
      exact Finset.sum_eq_zero fun s' _ => Finset.sum_eq_zero fun s2 _ => if_neg fun h' => h h'.2.1.symm
    · intro h; exact absurd (Finset.mem_range.2 hz) h
  · intro z hz s hs s2 hs2
    simp only [zero_add, Prod.snd_sum, Finset.sum_apply, e]
    rw [Finset.sum_eq_single z, Finset.sum_eq_single s, Finset.sum_eq_single s2]
    · simp
    · intro s2' _ h; rw [if_neg (fun h' => h h'.2.2.symm)]
    · intro h; exact absurd (Finset.mem_range.2 hs2) h
    · intro s' _ h
      exact Finset.sum_eq_zero fun s2 _ => if_neg fun h' => h h'.2.1.symm
    · intro h; exact absurd (Finset.mem_range.2 hs) h
    · intro z' _ h
      exact Finset.sum_eq_zero fun s' _ => Finset.sum_eq_zero fun s2 _ => if_neg fun h' => h h'.1.symm
    · intro h; exact absurd (Finset.mem_range.2 hz) h

/-- Four nested loops that write one element after the other. -/
theorem loops4 {β : Type} (n1 n2 n3 n4 : ℕ) (f : ℕ → ℕ → ℕ → ℕ → β → Res β) (P : ℕ → β → Prop) (b : β) (h0 : P 0 b)
    (step : ∀ i < n1, ∀ j < n2, ∀ k < n3, ∀ l < n4, ∀ b, P (off4 n2 n3 n4 i j k l) b →
      ∃ b', f i j k l b = .ok b' ∧ P (off4 n2 n3 n4 i j k l + 1) b') :
    ∃ b', Res.foldl (fun x i => Res.foldl (fun x j => Res.foldl (fun x k => Res.foldl (fun x l => f i j k l x)
      x (List.range n4)) x (List.range n3)) x (List.range n2)) b (List.range n1) = .ok b' ∧
      P (n1 * n2 * n3 * n4) b' := by
  have h := Res.foldl_range_inv (fun i b => P (off4 n2 n3 n4 i 0 0 0) b)
    (f := fun x i => Res.foldl (fun x j => Res.foldl (fun x k => Res.foldl (fun x l => f i j k l x)
      x (List.range n4)) x (List.range n3)) x (List.range n2)) n1 b (by simpa [off4] using h0) ?_
  · obtain ⟨b', e, hb⟩ := h
    exact ⟨b', e, by simpa [off4] using hb⟩
  intro i hi b hb
  have h := Res.foldl_range_inv (fun j b => P (off4 n2 n3 n4 i j 0 0) b)
    (f := fun x j => Res.foldl (fun x k => Res.foldl (fun x l => f i j k l x)
      x (List.range n4)) x (List.range n3)) n2 b hb ?_
  · obtain ⟨b', e, hb⟩ := h
    refine ⟨b', e, ?_⟩
    have : off4 n2 n3 n4 (i + 1) 0 0 0 = off4 n2 n3 n4 i n2 0 0 := by unfold off4; ring
    rwa [this]
  intro j hj b hb
  have h := Res.foldl_range_inv (fun k b => P (off4 n2 n3 n4 i j k 0) b)
    (f := fun x k => Res.foldl (fun x l => f i j k l x) x (List.range n4)) n3 b hb ?_
  · obtain ⟨b', e, hb⟩ := h
    refine ⟨b', e, ?_⟩
    have : off4 n2 n3 n4 i (j + 1) 0 0 = off4 n2 n3 n4 i j n3 0 := by unfold off4; ring
    rwa [this]
  intro k hk b hb
  have h := Res.foldl_range_inv (fun l b => P (off4 n2 n3 n4 i j k l) b)
    (f := fun x l => f i j k l x) n4 b hb (fun l hl b hb => step i hi j hj k hk l hl b hb)
  · obtain ⟨b', e, hb⟩ := h
    refine ⟨b', e, ?_⟩
    have : off4 n2 n3 n4 i j (k + 1) 0 = off4 n2 n3 n4 i j k n4 := by unfold off4; ring
    rwa [this]

theorem off4_lt {n1 n2 n3 n4 i j k l : ℕ} (hi : i < n1) (hj : j < n2) (hk : k < n3) (hl : l < n4) :
    off4 n2 n3 n4 i j k l < n1 * n2 * n3 * n4 := by
  unfold off4
  exact radix_lt (radix_lt (radix_lt hi hj) hk) hl

/-- The vectors that are written. -/
theorem ninjAll_spec (m : MeasIn K) (d : DensAcc) :
    ∃ x, m.ninjAll d = .ok x ∧ x.1.length = m.nf * m.ns * m.nf * m.ns ∧ x.2.1.length = m.nf * m.ns * m.nf * m.ns ∧
      ∀ f1 < m.nf, ∀ i < m.ns, ∀ f2 < m.nf, ∀ j < m.ns,
        x.1.getD (off4 m.ns m.nf m.ns f1 i f2 j) 0 = (ninj d f1 i f2 j).re ∧
        x.2.1.getD (off4 m.ns m.nf m.ns f1 i f2 j) 0 = (ninj d f1 i f2 j).im := by
  have hsz : m.ns * m.ns * m.nf * m.nf = m.nf * m.ns * m.nf * m.ns := by ring
  have h := loops4 m.nf m.ns m.nf m.ns (fun f1 i f2 j (x : List ℝ × List ℝ × ℕ) => do
      Res.assert (x.2.2 < m.ns * m.ns * m.nf * m.nf)
      pure (x.1.set x.2.2 (ninj d f1 i f2 j).re, x.2.1.set x.2.2 (ninj d f1 i f2 j).im, x.2.2 + 1))
    (fun p x => x.2.2 = p ∧ x.1.length = m.nf * m.ns * m.nf * m.ns ∧ x.2.1.length = m.nf * m.ns * m.nf * m.ns ∧
      ∀ f1 < m.nf, ∀ i < m.ns, ∀ f2 < m.nf, ∀ j < m.ns, off4 m.ns m.nf m.ns f1 i f2 j < p →
        x.1.getD (off4 m.ns m.nf m.ns f1 i f2 j) 0 = (ninj d f1 i f2 j).re ∧
        x.2.1.getD (off4 m.ns m.nf m.ns f1 i f2 j) 0 = (ninj d f1 i f2 j).im)
    (List.replicate (m.ns * m.ns * m.nf * m.nf) 0, List.replicate (m.ns * m.ns * m.nf * m.nf) 0, 0)
    ⟨rfl, by simp [hsz], by simp [hsz], fun _ _ _ _ _ _ _ _ h => by omega⟩ ?_
  · obtain ⟨x, e, h1, h2, h3, h4⟩ := h
    exact ⟨x, e, h2, h3, fun f1 h1 i hi f2 h2 j hj => h4 f1 h1 i hi f2 h2 j hj (off4_lt h1 hi h2 hj)⟩
  · rintro f1 hf1 i hi f2 hf2 j hj x ⟨h1, h2, h3, h4⟩
    have hlt := off4_lt hf1 hi hf2 hj
    refine ⟨(x.1.set x.2.2 (ninj d f1 i f2 j).re, x.2.1.set x.2.2 (ninj d f1 i f2 j).im, x.2.2 + 1), ?_, ?_⟩
    · rw [Res.assert_true (by omega)]; rfl
    · refine ⟨by simp [h1], by simp [h2], by simp [h3], fun f1' hf1' i' hi' f2' hf2' j' hj' hp => ?_⟩
      simp only [h1]
      by_cases e : off4 m.ns m.nf m.ns f1' i' f2' j' = off4 m.ns m.nf m.ns f1 i f2 j
      · have e2 := (off4_inj hi' hi hf2' hf2 hj' hj).1 e
        obtain ⟨rfl, rfl, rfl, rfl⟩ := e2
        simp [List.getD, h2, h3, hlt]
      · have := h4 f1' hf1' i' hi' f2' hf2' j' hj' (by omega)
        simp only [List.getD] at this ⊢
        rw [List.getElem?_set_ne (Ne.symm e), List.getElem?_set_ne (Ne.symm e)]
        exact this

theorem postNinj_spec (nf ns : ℕ) (sign : ℝ) (re im : List ℝ) (hr : re.length = nf * ns * nf * ns)
    (hi : im.length = nf * ns * nf * ns) :
    ∃ x, postNinj nf ns sign re im = .ok x ∧
      ∀ f1 < nf, ∀ i < ns, ∀ f2 < nf, ∀ j < ns, x.1 f1 i f2 j =
        (⟨re.getD (off4 ns nf ns f1 i f2 j) 0, im.getD (off4 ns nf ns f1 i f2 j) 0⟩ : ℂ) / (sign : ℂ) := by
  have h := loops4 nf ns nf ns (fun f1 s1 f2 s2 (x : (ℕ → ℕ → ℕ → ℕ → ℂ) × ℕ) => do
      let r ← Res.get re x.2
      let i ← Res.get im x.2
      pure (fun a b c d => if a = f1 ∧ b = s1 ∧ c = f2 ∧ d = s2 then (⟨r, i⟩ : ℂ) / (sign : ℂ) else x.1 a b c d,
        x.2 + 1))
    (fun p x => x.2 = p ∧ ∀ f1 < nf, ∀ i < ns, ∀ f2 < nf, ∀ j < ns, off4 ns nf ns f1 i f2 j < p → x.1 f1 i f2 j =
        (⟨re.getD (off4 ns nf ns f1 i f2 j) 0, im.getD (off4 ns nf ns f1 i f2 j) 0⟩ : ℂ) / (sign : ℂ))
    (fun _ _ _ _ => 0, 0) ⟨rfl, fun _ _ _ _ _ _ _ _ h => by omega⟩ ?_
  · obtain ⟨x, e, h1, h2⟩ := h
    exact ⟨x, e, fun f1 h1 i hi f2 h2' j hj => h2 f1 h1 i hi f2 h2' j hj (off4_lt h1 hi h2' hj)⟩
  · rintro f1 hf1 s1 hs1 f2 hf2 s2 hs2 x ⟨h1, h2⟩
    have hlt := off4_lt hf1 hs1 hf2 hs2
    have l1 : x.2 < re.length := by omega
    have l2 : x.2 < im.length := by omega
    have g1 : Res.get re x.2 = .ok (re.getD x.2 0) := get_getD l1
    have g2 : Res.get im x.2 = .ok (im.getD x.2 0) := get_getD l2
    refine ⟨_, by simp only [g1, g2, Res.bind_ok, Res.pure_eq]; rfl, by simp [h1], fun a ha b hb c hc e he hp => ?_⟩
    by_cases h : a = f1 ∧ b = s1 ∧ c = f2 ∧ e = s2
    · obtain ⟨rfl, rfl, rfl, rfl⟩ := h
      simp [h1]
    · simp only [if_neg h]
      refine h2 a ha b hb c hc e he ?_
      have : off4 ns nf ns a b c e ≠ off4 ns nf ns f1 s1 f2 s2 := by
        rw [Ne, off4_inj hb hs1 hc hf2 he hs2]; exact h
      omega

end MeasIn
end CTInt
