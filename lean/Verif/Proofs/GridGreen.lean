import Verif.Proofs.SplineLimit
import Verif.Proofs.GridLimit
import Verif.Proofs.FockGreen
import Verif.Proofs.FockG0
import Verif.Spec.FockGrid
import Verif.Props.Solver

/-!
# The Green's function of a solver created with a fine grid
-/

set_option linter.all false

namespace CTInt

open MeasureTheory Filter Matrix

variable {K : Type} [RCLike K] [DecidableEq K] {n : Type} [Fintype n] [DecidableEq n] {a : ℕ → ℕ → Matrix n n K} {H : Matrix n n K} {β : ℝ} {nf ns : ℕ}

theorem greenOf_continuous (β : ℝ) (a : ℕ → ℕ → Matrix n n K) (H : Matrix n n K) (z s s' : ℕ) : Continuous (greenOf β a H z s s') :=
  (thermal_at_continuous H (a z s) (a z s')ᴴ).neg

theorem norm_I_le : ‖(RCLike.I : K)‖ ≤ 1 := by
  by_cases h : (RCLike.I : K) = 0
  · rw [h, norm_zero]; exact zero_le_one
  · exact (RCLike.norm_I_of_ne_zero h).le

/-- The bare Green's function as the program would take it from an exact table. -/
noncomputable def exactG0 (β : ℝ) (a : ℕ → ℕ → Matrix n n K) (H : Matrix n n K) : Op → Op → K := fun an cr =>
  Green.opsFn β (greenOf β a H an.flavor an.site cr.site) an cr

noncomputable def exactG (β : ℝ) (a : ℕ → ℕ → Matrix n n K) (H : Matrix n n K) : ℝ → ℕ → ℕ → ℕ → K := fun t z s s' =>
  Green.timeFn β (greenOf β a H z s s') t

theorem exactG_spec (hβ : 0 < β) (nf ns : ℕ) : ThermalG β nf ns a H (exactG β a H) := by
  intro z hz s hs s' hs' t ht k
  have hne : ¬ ∃ l : ℤ, t + k * β = l * β := by
    rintro ⟨l, e⟩
    have e' : t = ((l - k : ℤ) : ℝ) * β := by push_cast; linarith
    rcases lt_trichotomy (l - k) 0 with q | q | q
    · have : ((l - k : ℤ) : ℝ) < 0 := by exact_mod_cast q
      nlinarith [ht.1, ht.2]
    · rw [q] at e'
      simp at e'
      linarith [ht.1]
    · have : (1 : ℝ) ≤ ((l - k : ℤ) : ℝ) := by exact_mod_cast q
      nlinarith [ht.1, ht.2]
  unfold exactG Green.timeFn
  rw [if_neg hne]
  exact thermalGt_spec β nf ns a H z hz s hs s' hs' t ht k

theorem exactG_measurable (β : ℝ) (a : ℕ → ℕ → Matrix n n K) (H : Matrix n n K) : MeasurableG (exactG β a H) := fun z s s' =>
  Green.timeFn_measurable (greenOf_continuous β a H z s s')

theorem exactG0_measurable (β : ℝ) (a : ℕ → ℕ → Matrix n n K) (H : Matrix n n K) : MeasurableG0 (exactG0 β a H) := fun f s k f' s' k' =>
  Green.opsFn_measurable (greenOf_continuous β a H f s s') f s k f' s' k'

theorem exactG0_spec (hβ : 0 < β) (nf ns : ℕ) : ThermalG0 β nf ns a H (exactG0 β a H) := by
  intro z hz s hs s' hs' t ht t' ht' k k'
  have key : exactG0 β a H ⟨z, s, t, k⟩ ⟨z, s', t', k'⟩ = thermalG0 β a H ⟨z, s, t, k⟩ ⟨z, s', t', k'⟩ := by
    unfold exactG0 Green.opsFn
    by_cases e : t = t'
    · subst e
      simp only [ne_eq, not_true_eq_false, if_false]
      have hm : ∀ X Y : Matrix n n K, thermal β H (atTime H t X * atTime H t Y) = thermal β H (X * Y) := by
        intro X Y
        rw [← atTime_mul, thermal_shift]
      unfold thermalG0 greenOf
      by_cases q : k' < k
      · rw [if_pos q, if_pos (Or.inr ⟨rfl, q⟩)]
        simp only
        rw [hm, atTime_zero]
      · rw [if_neg q, if_neg (by rintro (h | h); exact lt_irrefl _ h; exact q h.2)]
        simp only
        rw [hm, thermal_kms, neg_neg]
    · rw [if_pos e, green_eq (thermalG0_spec β nf ns a H) (thermalGt_spec β nf ns a H) hz hs hs' ht ht' e]
      rfl
  rw [key]
  exact thermalG0_spec β nf ns a H z hz s hs s' hs' t ht t' ht' k k'

/-! ## Two functions that are close on [0,β] -/

section

variable {F f : ℝ → K} {ε : ℝ} (h : ∀ t ∈ Set.Icc 0 β, ‖F t - f t‖ ≤ ε)
include h

theorem contin_close (hβ : 0 < β) (t : ℝ) : ‖contin β F t - contin β f t‖ ≤ ε := by
  unfold contin
  rw [← mul_sub, norm_mul, norm_zpow, norm_neg, norm_one, _root_.one_zpow, one_mul]
  refine h _ ⟨?_, ?_⟩
  · have := Int.floor_le (t / β)
    rw [le_div_iff₀ hβ] at this
    linarith
  · have := Int.lt_floor_add_one (t / β)
    rw [div_lt_iff₀ hβ] at this
    nlinarith

theorem timeFn_close (hβ : 0 < β) (t : ℝ) : ‖Green.timeFn β F t - Green.timeFn β f t‖ ≤ ε := by
  unfold Green.timeFn
  split
  · exact contin_close h hβ _
  · exact contin_close h hβ _

theorem opsFn_close (hβ : 0 < β) (p q : Op) : ‖Green.opsFn β F p q - Green.opsFn β f p q‖ ≤ ε := by
  unfold Green.opsFn
  split
  · exact contin_close h hβ _
  · split
    · exact h 0 ⟨le_rfl, hβ.le⟩
    · rw [neg_sub_neg, norm_sub_rev]
      exact h β ⟨hβ.le, le_rfl⟩

end

theorem zero_fn (hβ : 0 < β) : (∀ t, Green.timeFn β (fun _ => (0 : K)) t = 0) ∧ ∀ p q, Green.opsFn β (fun _ => (0 : K)) p q = 0 := by
  constructor
  · intro t; simp [Green.timeFn, contin]
  · intro p q; simp [Green.opsFn, contin]

/-- A bound for the bare Green's function. -/
theorem greenOf_bound (β : ℝ) (a : ℕ → ℕ → Matrix n n K) (H : Matrix n n K) (nf ns : ℕ) :
    ∃ B, 0 ≤ B ∧ ∀ z < nf, ∀ s < ns, ∀ s' < ns, ∀ t ∈ Set.Icc 0 β, ‖greenOf β a H z s s' t‖ ≤ B := by
  have h1 : ∀ z s s', ∃ b, 0 ≤ b ∧ ∀ t ∈ Set.Icc 0 β, ‖greenOf β a H z s s' t‖ ≤ b := by
    intro z s s'
    obtain ⟨b, hb⟩ := (isCompact_Icc (a := (0 : ℝ)) (b := β)).exists_bound_of_continuousOn (greenOf_continuous β a H z s s').continuousOn
    exact ⟨max b 0, le_max_right _ _, fun t ht => (hb t ht).trans (le_max_left _ _)⟩
  choose b hb0 hb using h1
  refine ⟨∑ z ∈ Finset.range nf, ∑ s ∈ Finset.range ns, ∑ s' ∈ Finset.range ns, b z s s',
    Finset.sum_nonneg fun z _ => Finset.sum_nonneg fun s _ => Finset.sum_nonneg fun s' _ => hb0 z s s', fun z hz s hs s' hs' t ht => (hb z s s' t ht).trans ?_⟩
  refine le_trans ?_ (Finset.single_le_sum (f := fun z => ∑ s ∈ Finset.range ns, ∑ s' ∈ Finset.range ns, b z s s')
    (fun z _ => Finset.sum_nonneg fun s _ => Finset.sum_nonneg fun s' _ => hb0 z s s') (Finset.mem_range.2 hz))
  refine le_trans ?_ (Finset.single_le_sum (f := fun s => ∑ s' ∈ Finset.range ns, b z s s')
    (fun s _ => Finset.sum_nonneg fun s' _ => hb0 z s s') (Finset.mem_range.2 hs))
  exact Finset.single_le_sum (f := fun s' => b z s s') (fun s' _ => hb0 z s s') (Finset.mem_range.2 hs')

/-- On a fine grid the bare Green's function hardly changes from point to point. -/
theorem greenOf_modulus (β : ℝ) (a : ℕ → ℕ → Matrix n n K) (H : Matrix n n K) (nf ns : ℕ) {ω : ℝ} (hω : 0 < ω) :
    ∃ η > 0, ∀ z < nf, ∀ s < ns, ∀ s' < ns, ∀ t ∈ Set.Icc 0 β, ∀ t' ∈ Set.Icc 0 β, |t - t'| ≤ η →
      ‖greenOf β a H z s s' t - greenOf β a H z s s' t'‖ ≤ ω := by
  have h1 : ∀ z s s', ∀ᶠ η : ℝ in nhdsWithin 0 (Set.Ioi 0), ∀ t ∈ Set.Icc 0 β, ∀ t' ∈ Set.Icc 0 β, |t - t'| ≤ η →
      ‖greenOf β a H z s s' t - greenOf β a H z s s' t'‖ ≤ ω := by
    intro z s s'
    have hu := (isCompact_Icc (a := (0 : ℝ)) (b := β)).uniformContinuousOn_of_continuous (greenOf_continuous β a H z s s').continuousOn
    obtain ⟨η, hη, hu⟩ := Metric.uniformContinuousOn_iff.1 hu ω hω
    filter_upwards [mem_nhdsWithin_of_mem_nhds (Iio_mem_nhds hη)] with η' hη' t ht t' ht' hd
    rw [← dist_eq_norm]
    exact (hu t ht t' ht' (by rw [Real.dist_eq]; exact lt_of_le_of_lt hd hη')).le
  have h2 : ∀ᶠ η : ℝ in nhdsWithin 0 (Set.Ioi 0), ∀ z ∈ Finset.range nf, ∀ s ∈ Finset.range ns, ∀ s' ∈ Finset.range ns,
      ∀ t ∈ Set.Icc 0 β, ∀ t' ∈ Set.Icc 0 β, |t - t'| ≤ η → ‖greenOf β a H z s s' t - greenOf β a H z s s' t'‖ ≤ ω :=
    (Finset.range nf).eventually_all.2 fun z _ => (Finset.range ns).eventually_all.2 fun s _ => (Finset.range ns).eventually_all.2 fun s' _ => h1 z s s'
  obtain ⟨η, h3, h4⟩ := (h2.and self_mem_nhdsWithin).exists
  exact ⟨η, h4, fun z hz s hs s' hs' => h3 z (Finset.mem_range.2 hz) s (Finset.mem_range.2 hs) s' (Finset.mem_range.2 hs')⟩

/-! ## The solver -/

/-- The Green's function of a run whose grid spacing is at most `η`, if that of the Hamiltonian changes by at most `ω` over such a distance. -/
theorem fine_core (hβ : 1e-8 < β) {a : ℕ → ℕ → Matrix n n K} {H : Matrix n n K} {nf ns : ℕ} {tbl : List (VDef K)} {ε B η ω δ : ℝ}
    (hB0 : 0 ≤ B) (hB : ∀ z < nf, ∀ s < ns, ∀ s' < ns, ∀ t ∈ Set.Icc 0 β, ‖greenOf β a H z s s' t‖ ≤ B) (hη : 0 < η) (hω : 0 ≤ ω) (hδ : 0 ≤ δ)
    (hmod : ∀ z < nf, ∀ s < ns, ∀ s' < ns, ∀ t ∈ Set.Icc 0 β, ∀ t' ∈ Set.Icc 0 β, |t - t'| ≤ η → ‖greenOf β a H z s s' t - greenOf β a H z s s' t'‖ ≤ ω)
    (hsmall : 2 * (19 * δ + 10 * ω) ≤ ε) {N : ℕ} (hN : β / η + 3 < N) {S : Type} {is : IStream S} {dbg : Bool} {P : Params S} {j : ReadJunk} {V : FullSolver K}
    (hr : FineRun is dbg P j V β nf ns a H tbl δ N) :
    ∃ G, (∀ t, ∀ z < nf, ∀ s < ns, ∀ s' < ns, V.q.g0 t z s s' = .ok (G t z s s')) ∧ Tame V.c.G0 G (B + ε) ∧
      Within ε β nf ns V.c.G0 G (exactG0 β a H) (exactG β a H) := by
  have hβ0 : 0 < β := lt_trans (by norm_num) hβ
  have hε0 : 0 ≤ ε := le_trans (by positivity) hsmall
  obtain ⟨hmade, hb, rfl, rfl, -, file, hfile, hnt, hlist⟩ := hr
  subst hb
  obtain ⟨G, B', -, hG, hops, htime, file', g, hfile', eg, hint⟩ := green_of hmade hβ
  obtain rfl : file = file' := by
    have := hfile.symm.trans hfile'
    simpa using this
  have hntR : (N : ℝ) ≤ (file.ntau : ℝ) := by exact_mod_cast hnt
  have hpos : 0 < P.beta / η := by positivity
  have h3 : 3 ≤ file.ntau := by
    have : (3 : ℝ) ≤ (file.ntau : ℝ) := by linarith
    exact_mod_cast this
  have hstep : P.beta / ((file.ntau : ℝ) - 1) ≤ η := by
    rw [div_le_iff₀ (by linarith)]
    have : P.beta / η * η = P.beta := div_mul_cancel₀ _ hη.ne'
    nlinarith
  have hclose : ∀ z < P.spins, ∀ s < P.sites, ∀ s' < P.sites, ∀ t ∈ Set.Icc 0 P.beta, ‖G z s s' t - greenOf P.beta a H z s s' t‖ ≤ ε := by
    intro z hz s hs s' hs' t ht
    obtain ⟨⟨A, C, hA, hC⟩, hall⟩ := C56_natural file _ _ _ g eg z hz s hs s' hs'
    have e := hint z hz s hs s' hs' t ht.1 ht.2
    rw [hall A C hA hC t ht.1 ht.2] at e
    have e := (Res.ok.inj e).symm
    have k1 := naturalSpline_close hβ0 h3 hA (f := fun t => RCLike.re (greenOf P.beta a H z s s' t)) (δ := δ) (ω := ω)
      (fun i hi => by
        rw [← map_sub]
        exact (RCLike.abs_re_le_norm _).trans (hlist z hz s hs s' hs' i hi))
      (fun u hu u' hu' hd => by
        rw [← map_sub]
        exact (RCLike.abs_re_le_norm _).trans (hmod z hz s hs s' hs' u hu u' hu' (hd.trans hstep))) t ht
    have k2 := naturalSpline_close hβ0 h3 hC (f := fun t => RCLike.im (greenOf P.beta a H z s s' t)) (δ := δ) (ω := ω)
      (fun i hi => by
        rw [← map_sub]
        exact (RCLike.abs_im_le_norm _).trans (hlist z hz s hs s' hs' i hi))
      (fun u hu u' hu' hd => by
        rw [← map_sub]
        exact (RCLike.abs_im_le_norm _).trans (hmod z hz s hs s' hs' u hu u' hu' (hd.trans hstep))) t ht
    rw [e]
    have e2 : (RCLike.ofReal (A t) : K) + RCLike.ofReal (C t) * RCLike.I - greenOf P.beta a H z s s' t =
        (RCLike.ofReal (A t - RCLike.re (greenOf P.beta a H z s s' t)) : K) + RCLike.ofReal (C t - RCLike.im (greenOf P.beta a H z s s' t)) * RCLike.I := by
      conv_lhs => rw [← RCLike.re_add_im (greenOf P.beta a H z s s' t)]
      push_cast
      ring
    rw [e2]
    refine (norm_add_le _ _).trans ?_
    rw [norm_mul, RCLike.norm_ofReal, RCLike.norm_ofReal]
    have k3 := norm_I_le (K := K)
    have k4 := mul_le_mul k2 k3 (norm_nonneg _) (by positivity)
    have k1' : |A t - RCLike.re (greenOf P.beta a H z s s' t)| ≤ 19 * δ + 10 * ω := k1
    linarith
  classical
  obtain ⟨G', hG'⟩ : ∃ G' : ℝ → ℕ → ℕ → ℕ → K, G' = fun t z s s' => if z < P.spins ∧ s < P.sites ∧ s' < P.sites then Green.timeFn P.beta (G z s s') t else 0 := ⟨_, rfl⟩
  have eG' : ∀ t, ∀ z < P.spins, ∀ s < P.sites, ∀ s' < P.sites, G' t z s s' = Green.timeFn P.beta (G z s s') t := by
    intro t z hz s hs s' hs'
    rw [hG']
    exact if_pos ⟨hz, hs, hs'⟩
  have hbound : ∀ z < P.spins, ∀ s < P.sites, ∀ s' < P.sites, ∀ t ∈ Set.Icc 0 P.beta, ‖G z s s' t - (fun _ => (0 : K)) t‖ ≤ B + ε := by
    intro z hz s hs s' hs' t ht
    have q1 := hclose z hz s hs s' hs' t ht
    have q2 := hB z hz s hs s' hs' t ht
    have q3 := norm_add_le (G z s s' t - greenOf P.beta a H z s s' t) (greenOf P.beta a H z s s' t)
    rw [sub_add_cancel] at q3
    rw [sub_zero]
    linarith
  refine ⟨G', fun t z hz s hs s' hs' => by rw [eG' t z hz s hs s' hs']; exact htime z hz s hs s' hs' t, ⟨?_, ?_, ?_, ?_⟩, ?_, ?_⟩
  · intro f s k f' s' k'
    simp only [hops]
    by_cases q : f = f' ∧ f < P.spins ∧ s < P.sites ∧ s' < P.sites
    · simp only [if_pos q]
      exact Green.opsFn_measurable (hG f q.2.1 s q.2.2.1 s' q.2.2.2).1 f s k f' s' k'
    · simp only [if_neg q]
      exact measurable_const
  · intro z s s'
    rw [hG']
    by_cases q : z < P.spins ∧ s < P.sites ∧ s' < P.sites
    · simp only [if_pos q]
      exact Green.timeFn_measurable (hG z q.1 s q.2.1 s' q.2.2).1
    · simp only [if_neg q]
      exact measurable_const
  · intro p q
    rw [hops]
    split
    · rename_i r
      have := opsFn_close (hbound _ r.2.1 _ r.2.2.1 _ r.2.2.2) hβ0 p q
      rwa [(zero_fn hβ0).2, sub_zero] at this
    · rw [norm_zero]; positivity
  · intro t z s s'
    rw [hG']
    beta_reduce
    split
    · rename_i r
      have := timeFn_close (hbound _ r.1 _ r.2.1 _ r.2.2) hβ0 t
      rwa [(zero_fn hβ0).1, sub_zero] at this
    · rw [norm_zero]; positivity
  · intro p q h1 h2 h3 h4 _ _
    rw [hops, if_pos ⟨h1, h2, h3, h4⟩]
    exact opsFn_close (hclose _ h2 _ h3 _ h4) hβ0 p q
  · intro t z hz s hs s' hs'
    rw [eG' t z hz s hs s' hs']
    exact timeFn_close (hclose _ hz _ hs _ hs') hβ0 t

/-- The Green's function of a run with enough grid points. -/
theorem fine_green (hβ : 1e-8 < β) (a : ℕ → ℕ → Matrix n n K) (H : Matrix n n K) (nf ns : ℕ) (tbl : List (VDef K)) {ε : ℝ} (hε : 0 < ε) {B : ℝ}
    (hB0 : 0 ≤ B) (hB : ∀ z < nf, ∀ s < ns, ∀ s' < ns, ∀ t ∈ Set.Icc 0 β, ‖greenOf β a H z s s' t‖ ≤ B) :
    ∃ δ > 0, ∃ N : ℕ, ∀ (S : Type) (is : IStream S) dbg P j (V : FullSolver K), FineRun is dbg P j V β nf ns a H tbl δ N →
      ∃ G, (∀ t, ∀ z < nf, ∀ s < ns, ∀ s' < ns, V.q.g0 t z s s' = .ok (G t z s s')) ∧ Tame V.c.G0 G (B + ε) ∧
        Within ε β nf ns V.c.G0 G (exactG0 β a H) (exactG β a H) := by
  obtain ⟨η, hη, hmod⟩ := greenOf_modulus β a H nf ns (ω := ε / 58) (by positivity)
  obtain ⟨N, hN⟩ := exists_nat_gt (β / η + 3)
  exact ⟨ε / 58, by positivity, N, fun S is dbg P j V hr => fine_core hβ hB0 hB hη (by positivity) (by positivity) hmod (by linarith) hN hr⟩

end CTInt
