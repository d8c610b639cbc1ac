import Verif.Proofs.FockGreen
import Verif.Proofs.WickBroken

/-!
# Products of two densities of one flavor
-/

set_option linter.all false

namespace CTInt

open NormedSpace Matrix ComplexOrder MeasureTheory Filter

variable {K : Type} [RCLike K] [DecidableEq K] {n : Type} [Fintype n] [DecidableEq n] {ns : ℕ} {a : ℕ → ℕ → Matrix n n K} {h : ℕ → ℕ → ℕ → K} {β : ℝ}
  {c : Ctx K} {G : ℝ → ℕ → ℕ → ℕ → K}

/-! ## The limit for any weight that is a thermal average with one operator more -/

section

open scoped Matrix.Norms.Operator

/-- The weight `W τ` is the thermal average with the operator `X` at time `τ`. -/
def InsertsOp (c : Ctx K) (β : ℝ) (a : ℕ → ℕ → Matrix n n K) (H X : Matrix n n K) (W : ℝ → List Pt → K) : Prop :=
  ∀ τ ∈ Set.Ico 0 β, ∀ x, ValidPts β c.tbl x → ∀ w : List (ℝ × Matrix n n K), w.Perm (x.map (timed (vertexOp a H c.tbl)) ++ [(τ, atTime H τ X)]) →
    (w.Pairwise fun m m' => m'.1 < m.1) → W τ x = thermal β H (w.map Prod.snd).prod

theorem inserts_param {H X : Matrix n n K} {W : ℝ → List Pt → K} (hW : InsertsOp c β a H X W) (hm : Measurable fun x : List Pt × ℝ => W x.2 x.1)
    (hp : ∀ τ x y, x.Perm y → W τ x = W τ y) :
    ∃ B₀, ∀ L : K →L[ℝ] ℝ, ParamHyp c β (vertexOp a H c.tbl) (L.comp (thermalCL β H))
      (volume.restrict (Set.Ioc 0 β)) (fun τ x => L (W τ x)) (fun τ => [(τ, X)].map fun o => (o.1, atTime H o.1 o.2)) 1 B₀ := by
  obtain ⟨B₀, hB⟩ := isCompact_Icc.exists_bound_of_continuousOn (s := Set.Icc 0 β) (atTime_continuous H X).continuousOn
  have hin : ∀ᵐ τ ∂volume.restrict (Set.Ioc 0 β), τ ∈ Set.Ioo 0 β := by
    rw [← restrict_Ioo_eq_restrict_Ioc]
    exact ae_restrict_mem measurableSet_Ioo
  refine ⟨B₀, fun L => ⟨?_, ?_, ?_, ?_, ?_, ?_, ?_, ?_⟩⟩
  · exact L.continuous.measurable.comp hm
  · intro o x y hxy
    show L _ = L _
    rw [hp o x y hxy]
  · intro t f
    show Continuous fun τ => atTime H τ (-(c.tbl.getD t default).U • pairsOp a (c.tbl.getD t default) f)
    exact atTime_continuous _ _
  · filter_upwards [hin] with τ hτ
    intro m hm'
    rw [List.map_singleton, List.mem_singleton] at hm'
    subst hm'
    exact ⟨hτ.1.le, hτ.2⟩
  · exact Eventually.of_forall fun τ => List.pairwise_singleton _ _
  · exact Eventually.of_forall fun τ => rfl
  · filter_upwards [hin] with τ hτ
    intro m hm'
    rw [List.map_singleton, List.mem_singleton] at hm'
    subst hm'
    exact hB τ ⟨hτ.1.le, hτ.2.le⟩
  · filter_upwards [hin] with τ hτ
    intro x hx w hw hd
    show L _ = L _
    rw [List.map_singleton] at hw
    rw [hW τ ⟨hτ.1.le, hτ.2⟩ x hx w hw hd]
    rfl

theorem inserts_limit (hβ : 0 < β) {H X : Matrix n n K} {W : ℝ → List Pt → K} (hW : InsertsOp c β a H X W)
    (hm : Measurable fun x : List Pt × ℝ => W x.2 x.1) (hp : ∀ τ x y, x.Perm y → W τ x = W τ y) (L : K →L[ℝ] ℝ) :
    Tendsto (fun M => configSum c β M fun x => L (((1 / β : ℝ) : K) * ∫ τ in (0 : ℝ)..β, W τ x)) atTop
      (nhds (L ((exp (-(β : K) • (H + interactionH a c.tbl)) * X).trace / (exp (-(β : K) • H)).trace))) := by
  set L' : K →L[ℝ] ℝ := (1 / β) • L with hL'
  have e0 : ∀ k : K, L (((1 / β : ℝ) : K) * k) = L' k := fun k => by
    rw [hL', ← smul_eq_mul, ← RCLike.real_smul_eq_coe_smul (K := K), map_smul]
    rfl
  obtain ⟨B₀, hp⟩ := inserts_param hW hm hp
  have h1 := param_limit hp hβ.le (vertexSum_eq H c.tbl) L'
  simp only [e0, intervalIntegral.integral_of_le hβ.le]
  have e1 : ∀ τ : ℝ, thermalCL β H (chain (evolution H (interactionH a c.tbl)) ([(τ, X)].map fun o => (o.1, atTime H o.1 o.2)) β) =
      (exp (-(β : K) • (H + interactionH a c.tbl)) * X).trace / (exp (-(β : K) • H)).trace := fun τ => by
    show thermal β H _ = _
    rw [thermal_chain]
    congr 1
    rw [List.map_singleton, List.prod_singleton]
    unfold atTime
    rw [neg_smul, mexp_neg, mexp_neg, ← mul_assoc, ← mul_assoc, ← mexp_add, Matrix.trace_mul_comm, ← mul_assoc, ← mexp_add]
    ring_nf
  have e3 : ∫ τ in Set.Ioc (0 : ℝ) β, L' (thermalCL β H (chain (evolution H (interactionH a c.tbl)) ([(τ, X)].map fun o => (o.1, atTime H o.1 o.2)) β)) =
      ∫ τ in Set.Ioc (0 : ℝ) β, L' ((exp (-(β : K) • (H + interactionH a c.tbl)) * X).trace / (exp (-(β : K) • H)).trace) :=
    integral_congr_ae (Eventually.of_forall fun τ => congrArg L' (e1 τ))
  replace h1 := e3 ▸ h1
  have e2 : ∀ k : K, ∫ τ in Set.Ioc (0 : ℝ) β, L' k = L k := fun k => by
    rw [setIntegral_const, hL']
    show (volume.real (Set.Ioc 0 β)) • ((1 / β) * L k) = L k
    rw [Measure.real, Real.volume_Ioc, sub_zero, ENNReal.toReal_ofReal hβ.le, smul_eq_mul]
    field_simp
  rw [e2] at h1
  exact h1

end

/-! ## Two more pairs of one flavor -/

/-- Two more pairs as a kernel: `inl` is an operator pair, `inr` the site of a further pair at time `τ`. -/
noncomputable def pairKernel (G0 : Op → Op → K) (G : ℝ → ℕ → ℕ → ℕ → K) (z : ℕ) (ε τ : ℝ) : OpRow K ⊕ ℕ → OpRow K ⊕ ℕ → K
  | .inl a, .inl b => G0 a.an b.cr
  | .inl a, .inr s => G (a.an.time - τ) z a.an.site s
  | .inr s, .inl b => G (τ - b.cr.time) z s b.cr.site
  | .inr s, .inr s' => G ε z s s'

noncomputable def pairDiag : OpRow K ⊕ ℕ → K
  | .inl a => - a.al
  | .inr _ => 0

local instance : Inhabited (OpRow K ⊕ ℕ) := ⟨.inr 0⟩

theorem twoPairs_kernel (G0 : Op → Op → K) (G : ℝ → ℕ → ℕ → ℕ → K) (z : ℕ) (l : List (OpRow K)) (ε τ : ℝ) (i j : ℕ) :
    detN (l.length + 2) (twoPairs G0 G z l ε τ i j) =
      detN (l.map Sum.inl ++ [Sum.inr i, Sum.inr j]).length (fun p q => (if p = q then pairDiag ((l.map Sum.inl ++ [Sum.inr i, Sum.inr j]).getD q default) else 0) +
        pairKernel G0 G z ε τ ((l.map Sum.inl ++ [Sum.inr i, Sum.inr j]).getD p default) ((l.map Sum.inl ++ [Sum.inr i, Sum.inr j]).getD q default)) := by
  have hl : (l.map Sum.inl ++ [Sum.inr i, Sum.inr j] : List (OpRow K ⊕ ℕ)).length = l.length + 2 := by simp
  rw [hl]
  have h1 : ∀ p, p < l.length → (l.map Sum.inl ++ [Sum.inr i, Sum.inr j] : List (OpRow K ⊕ ℕ)).getD p default = .inl (l.getD p default) := by
    intro p hp
    rw [List.getD_append _ _ _ _ (by simpa using hp), List.getD_eq_getElem _ _ (by simpa using hp), List.getD_eq_getElem _ _ hp, List.getElem_map]
  have h2 : ∀ p, l.length ≤ p → p < l.length + 2 → (l.map Sum.inl ++ [Sum.inr i, Sum.inr j] : List (OpRow K ⊕ ℕ)).getD p default =
      .inr (if p = l.length then i else j) := by
    intro p hp hp'
    rw [List.getD_append_right _ _ _ _ (by simpa using hp), List.length_map]
    obtain rfl | rfl : p = l.length ∨ p = l.length + 1 := by omega
    · simp
    · simp
  refine detN_congr fun p hp q hq => ?_
  unfold twoPairs
  beta_reduce
  by_cases h3 : p < l.length
  · by_cases h4 : q < l.length
    · rw [if_pos h3, if_pos h4, h1 p h3, h1 q h4]
      unfold rowG specG
      simp only [pairKernel, pairDiag]
      split_ifs <;> ring
    · rw [if_pos h3, if_neg h4, h1 p h3, h2 q (by omega) hq, if_neg (by omega), zero_add]
      rfl
  · by_cases h4 : q < l.length
    · rw [if_neg h3, if_pos h4, h1 q h4, h2 p (by omega) hp, if_neg (by omega), zero_add]
      rfl
    · rw [if_neg h3, if_neg h4, h2 p (by omega) hp, h2 q (by omega) hq]
      simp only [pairKernel, pairDiag, ite_self, zero_add]

theorem twoPairs_perm (G0 : Op → Op → K) (G : ℝ → ℕ → ℕ → ℕ → K) (z : ℕ) {l l' : List (OpRow K)} (hl : l.Perm l') (ε τ : ℝ) (i j : ℕ) :
    detN (l.length + 2) (twoPairs G0 G z l ε τ i j) = detN (l'.length + 2) (twoPairs G0 G z l' ε τ i j) := by
  rw [twoPairs_kernel, twoPairs_kernel]
  exact detN_list_perm pairDiag (pairKernel G0 G z ε τ) ((hl.map Sum.inl).append_right _)

/-- The further pairs put first. -/
theorem twoPairs_front (G0 : Op → Op → K) (G : ℝ → ℕ → ℕ → ℕ → K) (z : ℕ) (l : List (OpRow K)) (ε τ : ℝ) (i j : ℕ) :
    detN (l.length + 2) (twoPairs G0 G z l ε τ i j) =
      detN (l.length + 2) (fun p q => (if p = q then pairDiag ((Sum.inr i :: Sum.inr j :: l.map Sum.inl : List (OpRow K ⊕ ℕ)).getD q default) else 0) +
        pairKernel G0 G z ε τ ((Sum.inr i :: Sum.inr j :: l.map Sum.inl : List (OpRow K ⊕ ℕ)).getD p default)
          ((Sum.inr i :: Sum.inr j :: l.map Sum.inl : List (OpRow K ⊕ ℕ)).getD q default)) := by
  rw [twoPairs_kernel, detN_list_perm pairDiag (pairKernel G0 G z ε τ)
    (List.perm_append_comm : (l.map Sum.inl ++ [Sum.inr i, Sum.inr j] : List (OpRow K ⊕ ℕ)).Perm ([Sum.inr i, Sum.inr j] ++ l.map Sum.inl))]
  simp only [List.cons_append, List.nil_append, List.length_cons, List.length_map]

theorem detN_entry' {n : ℕ} {g g' : ℕ → ℕ → K} (h : ∀ i < n + 2, ∀ j < n + 2, i ≠ 0 ∨ j ≠ 1 → g' i j = g i j) :
    detN (n + 2) g' = detN (n + 2) g - (g' 0 1 - g 0 1) * detN (n + 1) fun i j => g (i + 1) (if j = 0 then 0 else j + 1) := by
  have ht : ∀ (m : ℕ) (f : ℕ → ℕ → K), detN m (fun i j => f j i) = detN m f := by
    intro m f
    unfold detN
    rw [← Matrix.det_transpose]
    rfl
  have := detN_entry (g := fun i j => g j i) (g' := fun i j => g' j i) fun i hi j hj hij => h j hj i hi (by tauto)
  rw [← ht (n + 2) g', ← ht (n + 2) g, ← ht (n + 1) fun i j => g (i + 1) (if j = 0 then 0 else j + 1)]
  exact this

variable {H : Matrix n n K} {nf : ℕ} {G0 : Op → Op → K} {ε : ℝ}

/-- Two more pairs of one flavor are three groups of pairs. -/
theorem twoPairs_groups (hG0 : ThermalG0 β nf ns a H G0) (hG : ThermalG β nf ns a H G) {z i j : ℕ} (hz : z < nf) (hi : i < ns) (hj : j < ns)
    (hc : a z i * (a z j)ᴴ = - ((a z j)ᴴ * a z i)) {τ : ℝ} (hτ : τ ∈ Set.Ico 0 β) {R : List (OpRow K)}
    (hR : ∀ ρ ∈ R, RowAt β nf ns ρ ∧ ρ.cr.flavor = z ∧ ρ.cr.time ≠ τ) :
    detN (R.length + 2) (twoPairs G0 G z R ε τ i j) =
      detN (R.length + 2) (rowG G0 (exRow z i i τ 0 (shiftG β a H G ε z i i) :: exRow z j j τ (-1) (shiftG β a H G ε z j j) :: R)) +
      shiftG β a H G ε z i j * detN (R.length + 1) (rowG G0 (exRow z j i τ 0 0 :: R)) +
      shiftG β a H G ε z j i * detN (R.length + 1) (rowG G0 (exRow z i j τ 0 (shiftG β a H G ε z i j) :: R)) := by
  have hrow : ∀ s, s < ns → ∀ k : ℤ, ∀ ρ ∈ R, G0 ρ.an ⟨z, s, τ, k⟩ = G (ρ.an.time - τ) z ρ.an.site s := by
    intro s hs k ρ hρ
    obtain ⟨r1, r2, r3⟩ := hR ρ hρ
    have := green_eq hG0 hG hz r1.an hs (t := ρ.an.time) (t' := τ) (by rw [r1.time']; exact r1.time) hτ (by rw [r1.time']; exact r3) ρ.an.small k
    rw [← this]
    have e : ρ.an = ⟨z, ρ.an.site, ρ.an.time, ρ.an.small⟩ := by
      rw [← r2, ← r1.same]
    exact congrArg (fun o => G0 o _) e
  have hcol : ∀ s, s < ns → ∀ k : ℤ, ∀ ρ ∈ R, G0 ⟨z, s, τ, k⟩ ρ.cr = G (τ - ρ.cr.time) z s ρ.cr.site := by
    intro s hs k ρ hρ
    obtain ⟨r1, r2, r3⟩ := hR ρ hρ
    have := green_eq hG0 hG hz hs r1.cr (t := τ) (t' := ρ.cr.time) hτ r1.time (Ne.symm r3) k ρ.cr.small
    rw [← this]
    have e : ρ.cr = ⟨z, ρ.cr.site, ρ.cr.time, ρ.cr.small⟩ := by
      rw [← r2]
    exact congrArg (fun o => G0 _ o) e
  have hsame : ∀ s, s < ns → ∀ s', s' < ns → ∀ k k' : ℤ, ¬ k' < k → G0 ⟨z, s, τ, k⟩ ⟨z, s', τ, k'⟩ = G ε z s s' + shiftG β a H G ε z s' s := by
    intro s hs s' hs' k k' hk
    rw [(hG0 z hz s hs s' hs' τ hτ τ hτ k k').2 (by simpa using hk), ← atTime_mul, thermal_shift]
    unfold shiftG
    ring
  have hdiff : G0 ⟨z, i, τ, 0⟩ ⟨z, j, τ, -1⟩ = G ε z i j + shiftG β a H G ε z j i := by
    rw [(hG0 z hz i hi j hj τ hτ τ hτ 0 (-1)).1 (by simp), ← atTime_mul, thermal_shift, hc]
    unfold shiftG
    rw [thermal_eq, thermal_eq, map_neg]
    ring
  have hget : ∀ p, p < R.length → R.getD p default ∈ R := fun p hp => by
    rw [List.getD_eq_getElem _ _ hp]
    exact List.getElem_mem _
  have hmap : ∀ p, p < R.length → (R.map Sum.inl : List (OpRow K ⊕ ℕ)).getD p default = .inl (R.getD p default) := by
    intro p hp
    rw [List.getD_eq_getElem _ _ (by simpa using hp), List.getD_eq_getElem _ _ hp, List.getElem_map]
  obtain ⟨T, hT⟩ : ∃ T : ℕ → ℕ → K, T = fun p q => (if p = q then pairDiag ((Sum.inr i :: Sum.inr j :: R.map Sum.inl : List (OpRow K ⊕ ℕ)).getD q default) else 0) +
        pairKernel G0 G z ε τ ((Sum.inr i :: Sum.inr j :: R.map Sum.inl : List (OpRow K ⊕ ℕ)).getD p default)
          ((Sum.inr i :: Sum.inr j :: R.map Sum.inl : List (OpRow K ⊕ ℕ)).getD q default) := ⟨_, rfl⟩
  obtain ⟨B, hB⟩ : ∃ B : ℕ → ℕ → K, B = rowG G0 (exRow z i i τ 0 (shiftG β a H G ε z i i) :: exRow z j j τ (-1) (shiftG β a H G ε z j j) :: R) := ⟨_, rfl⟩
  obtain ⟨M, hM⟩ : ∃ M : ℕ → ℕ → K, M = fun p q => if p = 1 ∧ q = 0 then T 1 0 else B p q := ⟨_, rfl⟩
  -- The two differ in two entries.
  have hTB : ∀ p < R.length + 2, ∀ q < R.length + 2, (p ≠ 0 ∨ q ≠ 1) → (p ≠ 1 ∨ q ≠ 0) → T p q = B p q := by
    intro p hp q hq h1 h2
    rw [hT, hB]
    unfold rowG specG
    rcases p with _ | _ | p <;> rcases q with _ | _ | q
    · simp only [if_pos rfl, List.getD_cons_zero, pairDiag, pairKernel, zero_add, ite_self]
      show _ = G0 ⟨z, i, τ, 0⟩ ⟨z, i, τ, 0⟩ - _
      rw [hsame i hi i hi 0 0 (by omega)]
      show _ = G ε z i i + shiftG β a H G ε z i i - shiftG β a H G ε z i i
      ring
    · omega
    · have hq : q < R.length := by omega
      simp only [List.getD_cons_zero, List.getD_cons_succ, hmap q hq, pairKernel]
      rw [if_neg (by omega), if_neg (by omega), zero_add, sub_zero]
      exact (hcol i hi 0 _ (hget q hq)).symm
    · omega
    · simp only [if_pos rfl, List.getD_cons_zero, List.getD_cons_succ, pairDiag, pairKernel, zero_add, ite_self]
      show _ = G0 ⟨z, j, τ, -1⟩ ⟨z, j, τ, -1⟩ - _
      rw [hsame j hj j hj (-1) (-1) (by omega)]
      show _ = G ε z j j + shiftG β a H G ε z j j - shiftG β a H G ε z j j
      ring
    · have hq : q < R.length := by omega
      simp only [List.getD_cons_zero, List.getD_cons_succ, hmap q hq, pairKernel]
      rw [if_neg (by omega), if_neg (by omega), zero_add, sub_zero]
      exact (hcol j hj (-1) _ (hget q hq)).symm
    · have hp : p < R.length := by omega
      simp only [List.getD_cons_zero, List.getD_cons_succ, hmap p hp, pairKernel]
      rw [if_neg (by omega), if_neg (by omega), zero_add, sub_zero]
      exact (hrow i hi 0 _ (hget p hp)).symm
    · have hp : p < R.length := by omega
      simp only [List.getD_cons_zero, List.getD_cons_succ, hmap p hp, pairKernel]
      rw [if_neg (by omega), if_neg (by omega), zero_add, sub_zero]
      exact (hrow j hj (-1) _ (hget p hp)).symm
    · have hp : p < R.length := by omega
      have hq : q < R.length := by omega
      simp only [List.getD_cons_succ, hmap p hp, hmap q hq, pairKernel, pairDiag]
      split_ifs <;> ring
  have t01 : T 0 1 = G ε z i j := by
    rw [hT]
    simp [pairKernel]
  have t10 : T 1 0 = G ε z j i := by
    rw [hT]
    simp [pairKernel]
  have b01 : B 0 1 = G ε z i j + shiftG β a H G ε z j i := by
    rw [hB, ← hdiff]
    unfold rowG specG
    simp [exRow]
  have b10 : B 1 0 = G ε z j i + shiftG β a H G ε z i j := by
    rw [hB, ← hsame j hj i hi (-1) 0 (by omega)]
    unfold rowG specG
    simp [exRow]
  have hMB : ∀ p q, (p ≠ 1 ∨ q ≠ 0) → M p q = B p q := by
    intro p q hpq
    rw [hM]
    beta_reduce
    rw [if_neg (by tauto)]
  have hM10 : M 1 0 = T 1 0 := by
    rw [hM]
    beta_reduce
    rw [if_pos ⟨rfl, rfl⟩]
  have hTM : ∀ p < R.length + 2, ∀ q < R.length + 2, (p ≠ 0 ∨ q ≠ 1) → T p q = M p q := by
    intro p hp q hq hpq
    by_cases h1 : p = 1 ∧ q = 0
    · rw [h1.1, h1.2, hM10]
    · rw [hMB p q (by tauto), hTB p hp q hq hpq (by tauto)]
  have hM01 : M 0 1 = B 0 1 := hMB 0 1 (by omega)
  rw [twoPairs_front, ← hT, detN_entry' hTM, detN_entry (g := B) (g' := M) fun p hp q hq hpq => hMB p q hpq, hM01, hM10, t01, t10, b01, b10]
  have m1 : detN (R.length + 1) (fun p q => B (if p = 0 then 0 else p + 1) (q + 1)) = detN (R.length + 1) (rowG G0 (exRow z j i τ 0 0 :: R)) := by
    refine detN_congr fun p hp q hq => ?_
    rcases p with _ | p <;> rcases q with _ | q
    · rw [if_pos rfl, b01, ← hsame i hi j hj 0 0 (by omega)]
      unfold rowG specG
      simp [exRow]
    · rw [if_pos rfl, hB]
      unfold rowG specG
      simp [exRow]
    · rw [if_neg (by omega), hB]
      have hp : p < R.length := by omega
      unfold rowG specG
      simp only [List.getD_cons_zero, List.getD_cons_succ]
      rw [if_neg (by omega), if_neg (by omega), sub_zero, sub_zero]
      show G0 _ ⟨z, j, τ, -1⟩ = G0 _ ⟨z, j, τ, 0⟩
      rw [hrow j hj _ _ (hget p hp), hrow j hj _ _ (hget p hp)]
    · rw [if_neg (by omega), hB]
      unfold rowG specG
      simp
  have m2 : detN (R.length + 1) (fun p q => M (p + 1) (if q = 0 then 0 else q + 1)) =
      detN (R.length + 1) (rowG G0 (exRow z i j τ 0 (shiftG β a H G ε z i j) :: R)) := by
    refine detN_congr fun p hp q hq => ?_
    rcases p with _ | p <;> rcases q with _ | q
    · rw [if_pos rfl, hM10, t10]
      unfold rowG specG
      simp only [if_pos rfl, List.getD_cons_zero]
      show _ = G0 ⟨z, j, τ, 0⟩ ⟨z, i, τ, 0⟩ - shiftG β a H G ε z i j
      rw [hsame j hj i hi 0 0 (by omega)]
      ring
    · rw [if_neg (by omega), hMB _ _ (by omega), hB]
      have hq : q < R.length := by omega
      unfold rowG specG
      simp only [List.getD_cons_zero, List.getD_cons_succ]
      rw [if_neg (by omega), if_neg (by omega), sub_zero, sub_zero]
      show G0 ⟨z, j, τ, -1⟩ _ = G0 ⟨z, j, τ, 0⟩ _
      rw [hcol j hj _ _ (hget q hq), hcol j hj _ _ (hget q hq)]
    · rw [if_pos rfl, hMB _ _ (by omega), hB]
      unfold rowG specG
      simp [exRow]
    · rw [if_neg (by omega), hMB _ _ (by omega), hB]
      unfold rowG specG
      simp
  rw [m1, m2, ← hB]
  ring

/-- The weight with two more pairs of flavor `z`. -/
noncomputable def pairWeight (c : Ctx K) (G : ℝ → ℕ → ℕ → ℕ → K) (ε τ : ℝ) (z i j : ℕ) (x : List Pt) : K :=
  (∏ fl ∈ Finset.range c.nf,
    if fl = z then detN ((rowsOf c.NI c.tbl (x.map vertAt) fl).length + 2) (twoPairs c.G0 G fl (rowsOf c.NI c.tbl (x.map vertAt) fl) ε τ i j)
    else detN (rowsOf c.NI c.tbl (x.map vertAt) fl).length (rowG c.G0 (rowsOf c.NI c.tbl (x.map vertAt) fl))) * uWeight c.tbl (x.map vertAt)

theorem weightTwo_pair (c : Ctx K) (G : ℝ → ℕ → ℕ → ℕ → K) (ε τ : ℝ) (z : ℕ) {i j : ℕ} (hij : i ≠ j) (x : List Pt) :
    weightTwo c G ε τ z i z j (x.map vertAt) = pairWeight c G ε τ z i j x := by
  unfold weightTwo pairWeight
  rw [interacting_vertAt]
  congr 1
  refine Finset.prod_congr rfl fun fl _ => ?_
  rw [if_pos rfl, if_neg hij]

theorem pairWeight_perm (c : Ctx K) (G : ℝ → ℕ → ℕ → ℕ → K) (ε τ : ℝ) (z i j : ℕ) {x y : List Pt} (hxy : x.Perm y) :
    pairWeight c G ε τ z i j x = pairWeight c G ε τ z i j y := by
  unfold pairWeight
  rw [uWeight_perm c hxy]
  congr 1
  refine Finset.prod_congr rfl fun fl _ => ?_
  rw [twoPairs_perm c.G0 G fl (rows_perm c hxy fl), detG_perm c.G0 (rows_perm c hxy fl)]

theorem measurable_pairWeight (hG0 : MeasurableG0 c.G0) (hGm : MeasurableG G) (ε : ℝ) (z i j : ℕ) :
    Measurable fun x : List Pt × ℝ => pairWeight c G ε x.2 z i j x.1 := by
  unfold pairWeight
  refine Measurable.mul ?_ ((measurable_uWeight c).comp measurable_fst)
  refine Finset.measurable_prod _ fun fl _ => ?_
  by_cases hf : fl = z
  · simp only [if_pos hf]
    refine measurable_rows (f := fun l τ => detN (l.length + 2) (twoPairs c.G0 G fl l ε τ i j)) fun m k => ?_
    show Measurable fun τ : (Fin m → ℝ) × ℝ => detN _ (twoPairs c.G0 G fl _ ε τ.2 i j)
    simp only [List.length_map]
    refine measurable_detN fun p hp q hq => ?_
    unfold twoPairs
    simp only [List.length_map]
    by_cases h1 : p < (pairIx c.tbl fl k).length <;> by_cases h2 : q < (pairIx c.tbl fl k).length
    · simp only [if_pos h1, if_pos h2]
      exact measurable_rowG hG0 h1 h2
    · simp only [if_pos h1, if_neg h2]
      obtain ⟨zi, f, s1, s2, a, al, h⟩ := getD_pairs (NI := c.NI) p h1
      simp only [h]
      exact (hGm fl s2 _).comp (((measurable_pi_apply zi.1).comp measurable_fst).sub measurable_snd)
    · simp only [if_neg h1, if_pos h2]
      obtain ⟨zj, f, s1, s2', a, al, h⟩ := getD_pairs (NI := c.NI) q h2
      simp only [h]
      exact (hGm fl _ s1).comp (measurable_snd.sub ((measurable_pi_apply zj.1).comp measurable_fst))
    · simp only [if_neg h1, if_neg h2]
      exact measurable_const
  · simp only [if_neg hf]
    refine measurable_rows (f := fun l _ => detN l.length (rowG c.G0 l)) fun m k => ?_
    show Measurable fun τ : (Fin m → ℝ) × ℝ => detN _ (rowG c.G0 _)
    simp only [List.length_map]
    exact measurable_detN fun i hi j hj => measurable_rowG hG0 hi hj

/-- The weight with a group of pairs more. -/
noncomputable def groupW (c : Ctx K) (x : List Pt) (rows : List (OpRow K)) : K :=
  (∏ z ∈ Finset.range c.nf, detN (rowsOf c.NI c.tbl (x.map vertAt) z ++ rows.filter fun ρ => decide (ρ.cr.flavor = z)).length
    (rowG c.G0 (rowsOf c.NI c.tbl (x.map vertAt) z ++ rows.filter fun ρ => decide (ρ.cr.flavor = z)))) * uWeight c.tbl (x.map vertAt)

/-- What the other flavors and the couplings contribute. -/
noncomputable def otherW (c : Ctx K) (x : List Pt) (z : ℕ) : K :=
  (∏ fl ∈ (Finset.range c.nf).erase z, detN (rowsOf c.NI c.tbl (x.map vertAt) fl).length (rowG c.G0 (rowsOf c.NI c.tbl (x.map vertAt) fl))) *
    uWeight c.tbl (x.map vertAt)

theorem groupW_one {z : ℕ} (hz : z < c.nf) (x : List Pt) {rows : List (OpRow K)} (hr : ∀ ρ ∈ rows, ρ.cr.flavor = z) :
    groupW c x rows = detN (rows ++ rowsOf c.NI c.tbl (x.map vertAt) z).length (rowG c.G0 (rows ++ rowsOf c.NI c.tbl (x.map vertAt) z)) * otherW c x z := by
  unfold groupW otherW
  rw [← Finset.mul_prod_erase _ _ (Finset.mem_range.2 hz), ← mul_assoc]
  congr 1
  congr 1
  · rw [List.filter_eq_self.2 fun ρ hρ => decide_eq_true (hr ρ hρ)]
    exact detG_perm c.G0 List.perm_append_comm
  · refine Finset.prod_congr rfl fun fl hfl => ?_
    rw [List.filter_eq_nil_iff.2 fun ρ hρ => ?_, List.append_nil]
    rw [hr ρ hρ]
    simpa using (Finset.ne_of_mem_erase hfl).symm

theorem pairWeight_one {z : ℕ} (hz : z < c.nf) (ε τ : ℝ) (i j : ℕ) (x : List Pt) :
    pairWeight c G ε τ z i j x =
      detN ((rowsOf c.NI c.tbl (x.map vertAt) z).length + 2) (twoPairs c.G0 G z (rowsOf c.NI c.tbl (x.map vertAt) z) ε τ i j) * otherW c x z := by
  unfold pairWeight otherW
  rw [← Finset.mul_prod_erase _ _ (Finset.mem_range.2 hz), if_pos rfl, ← mul_assoc]
  congr 2
  refine Finset.prod_congr rfl fun fl hfl => ?_
  rw [if_neg (Finset.ne_of_mem_erase hfl)]

/-- An operator among others at its time may be exchanged. -/
theorem exchange_op {l w : List (ℝ × Matrix n n K)} {τ : ℝ} {Y : Matrix n n K} (hw : w.Perm (l ++ [(τ, Y)])) (hd : w.Pairwise fun m m' => m'.1 < m.1) :
    ∃ w₁ w₂ : List (ℝ × Matrix n n K), w = w₁ ++ (τ, Y) :: w₂ ∧ ∀ Z : Matrix n n K, (w₁ ++ (τ, Z) :: w₂).Perm (l ++ [(τ, Z)]) ∧
      (w₁ ++ (τ, Z) :: w₂).Pairwise fun m m' => m'.1 < m.1 := by
  obtain ⟨w₁, w₂, rfl⟩ := List.append_of_mem (hw.mem_iff.2 (List.mem_append_right l (List.mem_singleton.2 rfl)))
  refine ⟨w₁, w₂, rfl, fun Z => ⟨?_, ?_⟩⟩
  · have h1 : ((τ, Y) :: (w₁ ++ w₂)).Perm ((τ, Y) :: l) := (List.perm_middle.symm.trans hw).trans List.perm_append_comm
    have h2 := (List.perm_cons _).1 h1
    exact (List.perm_middle.trans (h2.cons _)).trans (List.perm_append_comm (l₁ := [(τ, Z)]))
  · rw [List.pairwise_append, List.pairwise_cons] at hd ⊢
    refine ⟨hd.1, ⟨fun m hm => hd.2.1.1 m hm, hd.2.1.2⟩, fun m hm m' hm' => ?_⟩
    rcases List.mem_cons.1 hm' with rfl | q
    · exact hd.2.2 m hm (τ, Y) List.mem_cons_self
    · exact hd.2.2 m hm m' (List.mem_cons_of_mem _ q)

/-- The operator of two more pairs of one flavor. -/
def pairX (a : ℕ → ℕ → Matrix n n K) (σ : ℕ → ℕ → K) (z i j : ℕ) : Matrix n n K :=
  ((a z i)ᴴ * a z i - σ i i • 1) * ((a z j)ᴴ * a z j - σ j j • 1) + σ i j • ((a z j)ᴴ * a z i - (0 : K) • 1) + σ j i • ((a z i)ᴴ * a z j - σ i j • 1)

theorem pairWeight_inserts [Nonempty n] (ha : Annihilators c.nf ns a) (hh : HermitianHops c.nf ns h) (hG0 : ThermalG0 β c.nf ns a (bareH c.nf ns h a) c.G0)
    (hG : ThermalG β c.nf ns a (bareH c.nf ns h a) G) (hT : TermsOn c.nf ns c.tbl) {z i j : ℕ} (hz : z < c.nf) (hi : i < ns) (hj : j < ns) (hij : i ≠ j) :
    InsertsOp c β a (bareH c.nf ns h a) (pairX a (shiftG β a (bareH c.nf ns h a) G ε z) z i j) fun τ x => pairWeight c G ε τ z i j x := by
  intro τ hτ x hx w hw hd
  set H := bareH c.nf ns h a with hH
  have hne : ∀ p ∈ x, p.2.2 ≠ τ := by
    have h1 : w.Pairwise fun m m' => m.1 ≠ m'.1 := hd.imp fun q => q.ne'
    have h2 := (hw.pairwise_iff (fun {m m'} (q : m.1 ≠ m'.1) => Ne.symm q)).1 h1
    rw [List.pairwise_append] at h2
    intro p hp
    exact h2.2.2 (timed (vertexOp a H c.tbl) p) (List.mem_map_of_mem hp) _ (List.mem_singleton.2 rfl)
  have hR : ∀ ρ ∈ rowsOf c.NI c.tbl (x.map vertAt) z, RowAt β c.nf ns ρ ∧ ρ.cr.flavor = z ∧ ρ.cr.time ≠ τ := by
    intro ρ hρ
    rw [rowsOf_filter, List.flatMap_map, List.mem_filter] at hρ
    obtain ⟨q, hq', hρ'⟩ := List.mem_flatMap.1 hρ.1
    have := rowsAllV_at hT (hx q hq').1 (hx q hq').2.2 ρ hρ'
    exact ⟨this.1, of_decide_eq_true hρ.2, by rw [this.2]; exact hne q hq'⟩
  have hc : a z i * (a z j)ᴴ = - ((a z j)ᴴ * a z i) := by
    have := ha.mixed z hz i hi z hz j hj
    rw [if_neg fun q => hij q.2] at this
    exact eq_neg_of_add_eq_zero_left this
  obtain ⟨w₁, w₂, rfl, hZ⟩ := exchange_op hw hd
  have hgroup : ∀ (rows : List (OpRow K)) (X : Matrix n n K), EvAt β c.nf ns ⟨τ, 1, rows⟩ → (∀ ρ ∈ rows, ρ.cr.flavor = z) →
      ((rows.map (opsOf a H)).map pairOp).prod = atTime H τ X →
      detN (rows ++ rowsOf c.NI c.tbl (x.map vertAt) z).length (rowG c.G0 (rows ++ rowsOf c.NI c.tbl (x.map vertAt) z)) * otherW c x z =
        thermal β H ((w₁.map Prod.snd).prod * (atTime H τ X * (w₂.map Prod.snd).prod)) := by
    intro rows X he hf hX
    rw [← groupW_one hz x hf]
    have e : evOp a H ⟨τ, 1, rows⟩ = (τ, atTime H τ X) := by
      unfold evOp
      rw [one_smul, hX]
    have := group_thermal ha hh hG0 hT hx he rfl (w := w₁ ++ (τ, atTime H τ X) :: w₂) (by rw [e]; exact (hZ _).1) (hZ _).2
    rw [List.map_append, List.map_cons, List.prod_append, List.prod_cons] at this
    exact this
  have o1 := hgroup [exRow z i i τ 0 (shiftG β a H G ε z i i), exRow z j j τ (-1) (shiftG β a H G ε z j j)]
    (((a z i)ᴴ * a z i - shiftG β a H G ε z i i • 1) * ((a z j)ᴴ * a z j - shiftG β a H G ε z j j • 1)) (by
      refine ⟨?_, ?_⟩
      · intro ρ hρ
        rcases List.mem_pair.1 hρ with rfl | rfl
        · exact exRow_at hz hi hi hτ _ _
        · exact exRow_at hz hj hj hτ _ _
      · rw [List.pairwise_pair]
        exact .inr ⟨rfl, by simp [exRow]⟩) (by
      intro ρ hρ
      rcases List.mem_pair.1 hρ with rfl | rfl <;> rfl) (by
      rw [List.map_cons, List.map_singleton, List.map_cons, List.map_singleton, List.prod_pair, exRow_op, exRow_op, atTime_mul])
  have one : ∀ s s2, s < ns → s2 < ns → ∀ al : K, detN ([exRow z s s2 τ 0 al] ++ rowsOf c.NI c.tbl (x.map vertAt) z).length
      (rowG c.G0 ([exRow z s s2 τ 0 al] ++ rowsOf c.NI c.tbl (x.map vertAt) z)) * otherW c x z =
      thermal β H ((w₁.map Prod.snd).prod * (atTime H τ ((a z s)ᴴ * a z s2 - al • 1) * (w₂.map Prod.snd).prod)) := by
    intro s s2 hs hs2 al
    refine hgroup _ _ ⟨?_, List.pairwise_singleton _ _⟩ ?_ ?_
    · intro ρ hρ
      rw [List.mem_singleton.1 hρ]
      exact exRow_at hz hs hs2 hτ _ _
    · intro ρ hρ
      rw [List.mem_singleton.1 hρ]
      rfl
    · rw [List.map_singleton, List.map_singleton, List.prod_singleton, exRow_op]
  have o2 := one j i hj hi 0
  have o3 := one i j hi hj (shiftG β a H G ε z i j)
  simp only [List.cons_append, List.nil_append, List.length_cons] at o1 o2 o3
  beta_reduce
  rw [pairWeight_one hz, twoPairs_groups hG0 hG hz hi hj hc hτ hR, add_mul, add_mul, mul_assoc, mul_assoc]
  rw [o1, o2, o3, List.map_append, List.map_cons, List.prod_append, List.prod_cons]
  unfold pairX
  have ha' : ∀ X Y : Matrix n n K, atTime H τ (X + Y) = atTime H τ X + atTime H τ Y := fun X Y => by
    unfold atTime
    rw [mul_add, add_mul]
  rw [ha', ha', atTime_smul, atTime_smul, add_mul, add_mul, mul_add, mul_add, Matrix.smul_mul, Matrix.smul_mul, Matrix.mul_smul, Matrix.mul_smul]
  simp only [thermal_eq, map_add, map_smul, smul_eq_mul]

end CTInt
