import Verif.Spec.Postprocess
import Verif.Proofs.SettleValues
import Verif.Props.Observables

/-!
# The recorded products of densities and matrix sizes as functions of the configuration and of the numbers drawn
-/

set_option linter.all false

namespace CTInt

open MeasureTheory Set

theorem exists_inv {K : Type} [RCLike K] {n : ℕ} {g : ℕ → ℕ → K} (h : detN n g ≠ 0) : ∃ X : DMat K, IsInvOf X n g := by
  have hI : IsInvOf (⟨n, n, g⟩ : DMat K).inv n g := by
    have hb : UpBlocks 0 n g ⟨0, n, fun i j => g i (0 + j)⟩ ⟨n, 0, fun i j => g (0 + i) j⟩ ⟨n, n, g⟩ :=
      ⟨rfl, rfl, rfl, rfl, rfl, rfl, fun _ _ _ _ => rfl, fun _ _ _ _ => rfl, fun _ _ _ _ => by simp⟩
    have := isInvOf_zero_up hb (by rw [Nat.zero_add]; exact h)
    rw [Nat.zero_add] at this
    exact this
  exact ⟨_, hI⟩

variable {c : Ctx ℝ} {q : MeasPar ℝ} {G : ℝ → ℕ → ℕ → ℕ → ℝ} {m : Mgr} {kIns maxOrder : ℕ} {sz B beta : ℝ}

/-- Wick's formula without complex numbers. -/
def wickR (d : ℕ → ℕ → ℕ → ℝ) (f1 i f2 j : ℕ) : ℝ :=
  if f1 = f2 then if i = j then d f1 i i else d f1 i i * d f1 j j - d f1 i j * d f1 j i else d f1 i i * d f2 j j

theorem wick_ofReal (d : ℕ → ℕ → ℕ → ℝ) (f1 i f2 j : ℕ) : wick (fun z a b => ((d z a b : ℝ) : ℂ)) f1 i f2 j = (wickR d f1 i f2 j : ℂ) := by
  unfold wick wickR
  split_ifs <;> push_cast <;> rfl

/-- The densities of a configuration. -/
noncomputable def dOf (c : Ctx ℝ) (G : ℝ → ℕ → ℕ → ℕ → ℝ) (ε τ : ℝ) (x : List Pt) (z a b : ℕ) : ℝ :=
  densityOf c.G0 G z (rowsOf c.NI c.tbl (x.map vertAt) z) ε τ a b

theorem wt_mul_two {f1 f2 : ℕ} (h1 : f1 < c.nf) (h2 : f2 < c.nf) (G : ℝ → ℕ → ℕ → ℕ → ℝ) (ε τ : ℝ) (i j : ℕ) (x : List Pt) :
    wt c x * wickR (dOf c G ε τ x) f1 i f2 j = if wt c x = 0 then 0 else weightTwo c G ε τ f1 i f2 j (x.map vertAt) := by
  split
  · rename_i h; rw [h, zero_mul]
  · rename_i h
    set R : ℕ → List (OpRow ℝ) := fun fl => rowsOf c.NI c.tbl (x.map vertAt) fl with hR
    set D : ℕ → ℝ := fun fl => detN (R fl).length (rowG c.G0 (R fl)) with hD
    have hw : wt c x = (∏ fl ∈ Finset.range c.nf, D fl) * uWeight c.tbl (x.map vertAt) := by
      unfold wt weight detWeight
      rw [interacting_vertAt]
    have hne : ∀ fl < c.nf, D fl ≠ 0 := by
      intro fl hfl h0
      apply h
      rw [hw, Finset.prod_eq_zero (Finset.mem_range.2 hfl) h0, zero_mul]
    have e1 : ∀ fl < c.nf, ∀ a, detN ((R fl).length + 1) (extraPair c.G0 G fl (R fl) ε τ a a) = D fl * dOf c G ε τ x fl a a := by
      intro fl hfl a
      show _ = D fl * (_ / D fl)
      rw [mul_div_cancel₀ _ (hne fl hfl)]
    have e2 : ∀ fl < c.nf, detN ((R fl).length + 2) (twoPairs c.G0 G fl (R fl) ε τ i j) =
        D fl * (dOf c G ε τ x fl i i * dOf c G ε τ x fl j j - dOf c G ε τ x fl i j * dOf c G ε τ x fl j i) := by
      intro fl hfl
      obtain ⟨X, hX⟩ := exists_inv (hne fl hfl)
      have := wick_ratio hX G fl ε τ i j
      show _ = D fl * (densityOf c.G0 G fl (R fl) ε τ i i * densityOf c.G0 G fl (R fl) ε τ j j -
        densityOf c.G0 G fl (R fl) ε τ i j * densityOf c.G0 G fl (R fl) ε τ j i)
      rw [this]
      show _ = D fl * (_ / D fl)
      rw [mul_div_cancel₀ _ (hne fl hfl)]
    have key : ∀ r : ℕ → ℝ, (∏ fl ∈ Finset.range c.nf, r fl) = wickR (dOf c G ε τ x) f1 i f2 j →
        weightTwo c G ε τ f1 i f2 j (x.map vertAt) = (∏ fl ∈ Finset.range c.nf, D fl * r fl) * uWeight c.tbl (x.map vertAt) →
        wt c x * wickR (dOf c G ε τ x) f1 i f2 j = weightTwo c G ε τ f1 i f2 j (x.map vertAt) := by
      intro r k1 k2
      rw [k2, Finset.prod_mul_distrib, k1, hw]
      ring
    unfold wickR at key ⊢
    by_cases hf : f1 = f2
    · subst hf
      rw [if_pos rfl] at key ⊢
      refine key (fun fl => if fl = f1 then (if i = j then dOf c G ε τ x f1 i i else
        dOf c G ε τ x f1 i i * dOf c G ε τ x f1 j j - dOf c G ε τ x f1 i j * dOf c G ε τ x f1 j i) else 1) ?_ ?_
      · rw [Finset.prod_ite_eq' (Finset.range c.nf) f1 (fun _ => _), if_pos (Finset.mem_range.2 h1)]
      · unfold weightTwo
        rw [interacting_vertAt]
        congr 1
        refine Finset.prod_congr rfl fun fl hfl => ?_
        have hfl := Finset.mem_range.1 hfl
        rw [if_pos rfl]
        by_cases he : fl = f1
        · subst he
          rw [if_pos rfl, if_pos rfl]
          by_cases hij : i = j
          · rw [if_pos hij, if_pos hij]; exact e1 fl hfl i
          · rw [if_neg hij, if_neg hij]; exact e2 fl hfl
        · rw [if_neg he, if_neg he, mul_one]
    · rw [if_neg hf] at key ⊢
      refine key (fun fl => (if fl = f1 then dOf c G ε τ x f1 i i else 1) * (if fl = f2 then dOf c G ε τ x f2 j j else 1)) ?_ ?_
      · rw [Finset.prod_mul_distrib, Finset.prod_ite_eq' (Finset.range c.nf) f1 (fun _ => _), if_pos (Finset.mem_range.2 h1),
          Finset.prod_ite_eq' (Finset.range c.nf) f2 (fun _ => _), if_pos (Finset.mem_range.2 h2)]
      · unfold weightTwo
        rw [interacting_vertAt]
        congr 1
        refine Finset.prod_congr rfl fun fl hfl => ?_
        have hfl := Finset.mem_range.1 hfl
        rw [if_neg hf]
        by_cases he : fl = f1
        · subst he
          rw [if_pos rfl, if_pos rfl, if_neg hf, mul_one]
          exact e1 fl hfl i
        · rw [if_neg he, if_neg he, one_mul]
          by_cases he2 : fl = f2
          · subst he2
            rw [if_pos rfl, if_pos rfl]
            exact e1 fl hfl j
          · rw [if_neg he2, if_neg he2, mul_one]

theorem twoPairs_le (hB : ∀ a b, ‖c.G0 a b‖ ≤ B) (hBG : ∀ t z s1 s2, ‖G t z s1 s2‖ ≤ B) {x : List Pt}
    (hx : ValidPts beta c.tbl x) (z : ℕ) (ε τ : ℝ) (s s2 i j : ℕ) :
    ‖twoPairs c.G0 G z (rowsOf c.NI c.tbl (x.map vertAt) z) ε τ s s2 i j‖ ≤ 1 + B + alphaBound c.tbl := by
  have h0 := alphaBound_nonneg c.tbl
  have : ∀ t z s1 s2, ‖G t z s1 s2‖ ≤ 1 + B + alphaBound c.tbl := fun t z s1 s2 => by linarith [hBG t z s1 s2]
  simp only [twoPairs]
  split
  · split
    · rename_i _ hj
      exact rowG_le hB hx z i hj
    · exact this _ _ _ _
  · split <;> exact this _ _ _ _

theorem weightTwo_le (hB : ∀ a b, ‖c.G0 a b‖ ≤ B) (hBG : ∀ t z s1 s2, ‖G t z s1 s2‖ ≤ B) {x : List Pt}
    (hx : ValidPts beta c.tbl x) (ε τ : ℝ) (f1 i f2 j : ℕ) :
    ‖weightTwo c G ε τ f1 i f2 j (x.map vertAt)‖ ≤ detBound c B 2 x.length ^ c.nf * uBound c.tbl ^ x.length := by
  have hB0 : 0 ≤ B := le_trans (norm_nonneg _) (hB default default)
  have h0 := alphaBound_nonneg c.tbl
  unfold weightTwo
  rw [norm_mul, interacting_vertAt, norm_prod]
  refine mul_le_mul ?_ (uWeight_le hx) (norm_nonneg _) (by unfold detBound; positivity)
  refine le_trans (Finset.prod_le_prod (fun _ _ => norm_nonneg _) fun fl _ => ?_) (le_of_eq (by rw [Finset.prod_const, Finset.card_range]))
  split_ifs
  · exact det_le_bound hB0 hx fl (by norm_num) fun a _ b _ => extraPair_le hB hBG hx fl ε τ i i a b
  · exact det_le_bound hB0 hx fl le_rfl fun a _ b _ => twoPairs_le hB hBG hx fl ε τ i j a b
  · exact det_le_bound hB0 hx fl (Nat.zero_le 2) fun i _ j hj => rowG_le hB hx fl i hj
  · exact det_le_bound hB0 hx fl (by norm_num) fun a _ b _ => extraPair_le hB hBG hx fl ε τ i i a b
  · exact det_le_bound hB0 hx fl (by norm_num) fun a _ b _ => extraPair_le hB hBG hx fl ε τ j j a b
  · exact det_le_bound hB0 hx fl (Nat.zero_le 2) fun i _ j hj => rowG_le hB hx fl i hj

theorem dOf_perm {x y : List Pt} (h : x.Perm y) (ε τ : ℝ) (z a b : ℕ) : dOf c G ε τ x z a b = dOf c G ε τ y z a b :=
  extraPair_perm ((h.map _).flatMap_right _) _ _ _ _

theorem measurable_dOf (hr : Regular c G B) (ε : ℝ) (z a b : ℕ) : Measurable fun x : List Pt × ℝ => dOf c G ε x.2 x.1 z a b :=
  measurable_densityOf (NI := c.NI) (tbl := c.tbl) z hr.meas hr.measG ε a b

theorem measurable_wickR {Z : Type} [MeasurableSpace Z] {d : Z → ℕ → ℕ → ℕ → ℝ} (h : ∀ z a b, Measurable fun y => d y z a b) (f1 i f2 j : ℕ) :
    Measurable fun y => wickR (d y) f1 i f2 j := by
  unfold wickR
  split_ifs
  · exact h _ _ _
  · exact ((h _ _ _).mul (h _ _ _)).sub ((h _ _ _).mul (h _ _ _))
  · exact (h _ _ _).mul (h _ _ _)

/-- What a record holds for two densities. -/
theorem record_ninj (h : SimOK c q G m kIns maxOrder sz) {s : Sub ℝ} {y : List Pt} {u : ℕ → ℝ} {junk : ℕ → ℕ → ℝ} {p : ℕ} {r : Record}
    {p' : ℕ} (h1 : At c s y) (h2 : TimesIn q.beta s.verts) (hu : GoodS u) (e0 : measureObservables q c junk u s p = .ok (r, p'))
    {f1 i f2 j : ℕ} (hf1 : f1 < c.nf) (hi : i < q.ns) (hf2 : f2 < c.nf) (hj : j < q.ns) :
    r.dens.ninjRe.getD (off4 q.ns c.nf q.ns f1 i f2 j) 0 =
      wt c y / ‖wt c y‖ * wickR (dOf c G (-q.beta * 1e-10) (q.beta * u (p + q.nShifts)) y) f1 i f2 j ∧
    r.dens.ninjIm.getD (off4 q.ns c.nf q.ns f1 i f2 j) 0 = 0 := by
  obtain ⟨q1, q2, q3⟩ := h1.facts
  obtain ⟨r', er, -, e, -, -, -, e2, -⟩ := measureObservables_spec h.ht h.hb h.hnb h.hsite h.hg q1 h2 hu.2 junk p rfl (fun _ => rfl) rfl rfl
    (ρ := fun z a b => ((dOf c G (-q.beta * 1e-10) (q.beta * u (p + q.nShifts)) y z a b : ℝ) : ℂ)) (fun z a b => by
      rw [← densityOf_congr G z (rowsOf_key (same_pts q3) z), q2]; rfl)
  rw [er] at e0
  injection e0 with e0
  injection e0 with e0
  subst e0
  have e3 := e2 f1 hf1 i hi f2 hf2 j hj
  rw [wick_ofReal, ← Complex.ofReal_mul] at e3
  have eR := congrArg Complex.re e3
  have eI := congrArg Complex.im e3
  rw [Complex.ofReal_re] at eR
  rw [Complex.ofReal_im] at eI
  refine ⟨eR.trans ?_, eI⟩
  rw [e, ← q2, ← wt_ptsOf, interacting_all q3]
  rfl

/-- The product of two densities. -/
theorem estimates_ninj (h : SimOK c q G m kIns maxOrder sz) (hr : Regular c G B) {f1 i f2 j : ℕ} (hf1 : f1 < c.nf) (hi : i < q.ns)
    (hf2 : f2 < c.nf) (hj : j < q.ns) :
    Estimates c q (fun r => r.dens.ninjRe.getD (off4 q.ns c.nf q.ns f1 i f2 j) 0) (fun w => wt c w.1 / ‖wt c w.1‖ *
        wickR (dOf c G (-q.beta * 1e-10) (q.beta * w.2 q.nShifts) w.1) f1 i f2 j)
      (fun x => if weight c.NI c.nf c.G0 c.tbl (x.map vertAt) = 0 then 0 else
          (1 / q.beta) * ∫ τ in (0 : ℝ)..q.beta, weightTwo c G (-q.beta * 1e-10) τ f1 i f2 j (x.map vertAt)) := by
  have hdm : Measurable fun x : List Pt × ℝ => wickR (dOf c G (-q.beta * 1e-10) x.2 x.1) f1 i f2 j :=
    measurable_wickR (fun z a b => measurable_dOf hr _ z a b) f1 i f2 j
  refine ⟨?_, ?_, ?_, ?_, ?_, ?_⟩
  · have h1 : Measurable fun w : List Pt × (ℕ → ℝ) => wt c w.1 := (measurable_wt hr.meas).comp measurable_fst
    have h0 : Measurable fun w : List Pt × (ℕ → ℝ) => w.2 q.nShifts := (measurable_pi_apply _).comp measurable_snd
    have h2 := hdm.comp (measurable_fst.prodMk (h0.const_mul q.beta))
    simp only [Function.comp_def] at h2
    have h3 : Measurable fun w : List Pt × (ℕ → ℝ) => wt c w.1 / ‖wt c w.1‖ := h1.div h1.norm
    exact h3.mul h2
  · intro x y u h
    simp only [wt_perm c h]
    congr 2
    funext z a b
    exact dOf_perm h _ _ z a b
  · intro x u u' hu
    simp only [hu q.nShifts (Nat.lt_succ_self _)]
  · intro s y u junk p r p' h1 h2 hu e0
    exact (record_ninj h h1 h2 hu e0 hf1 hi hf2 hj).1
  · intro x hx
    simp only []
    rw [← integral_const_mul]
    simp only [norm_mul_div_norm, wt_mul_two hf1 hf2]
    show (∫ u, (if wt c x = 0 then 0 else _) ∂streams) = if wt c x = 0 then 0 else _
    by_cases h0 : wt c x = 0
    · simp [h0]
    · simp only [if_neg h0]
      have hwm : Measurable fun τ : ℝ => weightTwo c G (-q.beta * 1e-10) τ f1 i f2 j (x.map vertAt) := by
        have h1 : Measurable fun τ : ℝ => wt c x * wickR (dOf c G (-q.beta * 1e-10) τ x) f1 i f2 j := by
          have h2 : Measurable fun τ : ℝ => (x, τ) := measurable_const.prodMk measurable_id
          have h3 := hdm.comp h2
          simp only [Function.comp_def] at h3
          exact h3.const_mul _
        simp only [wt_mul_two hf1 hf2, if_neg h0] at h1
        exact h1
      exact integral_time h.hb hwm q.nShifts
  · intro n
    refine ⟨detBound c B 2 n ^ c.nf * uBound c.tbl ^ n, fun x hx hxn u => ?_⟩
    have h0 : 0 ≤ detBound c B 2 n ^ c.nf * uBound c.tbl ^ n := by
      have hB0 : 0 ≤ B := le_trans (norm_nonneg _) (hr.bound default default)
      have h1 := alphaBound_nonneg c.tbl
      have h2 := one_le_uBound c.tbl
      unfold detBound
      positivity
    show ‖wt c x‖ * |wt c x / ‖wt c x‖ * _| ≤ _
    rw [norm_mul_abs, wt_mul_two hf1 hf2]
    split
    · rw [abs_zero]; exact h0
    · rw [← hxn]
      exact weightTwo_le hr.bound hr.boundG hx _ _ f1 i f2 j

section

variable {K : Type} [RCLike K] [DecidableEq K] {c : Ctx K} {q : MeasPar K} {G : ℝ → ℕ → ℕ → ℕ → K} {m : Mgr} {kIns maxOrder : ℕ} {sz B : ℝ}

/-- The size of a matrix. -/
theorem estimates_order (h : SimOK c q G m kIns maxOrder sz) (hr : Regular c G B) {z : ℕ} (hz : z < c.nf) :
    Estimates c q (fun r => r.pertOrder.getD z 0) (fun w => ((rowsOf c.NI c.tbl (w.1.map vertAt) z).length : ℝ))
      (fun x => ‖weight c.NI c.nf c.G0 c.tbl (x.map vertAt)‖ * (rowsOf c.NI c.tbl (x.map vertAt) z).length) := by
  have hm : Measurable fun x : List Pt × (ℕ → ℝ) => ((rowsOf c.NI c.tbl (x.1.map vertAt) z).length : ℝ) := by
    refine measurable_rows (f := fun l (_ : ℕ → ℝ) => (l.length : ℝ)) fun n k => ?_
    simp only [List.length_map]
    exact measurable_const
  refine ⟨hm, ?_, fun _ _ _ _ => rfl, ?_, ?_, ?_⟩
  · intro x y u h
    have : (rowsOf c.NI c.tbl (x.map vertAt) z).length = (rowsOf c.NI c.tbl (y.map vertAt) z).length :=
      ((h.map _).flatMap_right _).length_eq
    simp only [this]
  · intro s y u junk p r p' h1 h2 hu e0
    obtain ⟨q1, q2, q3⟩ := h1.facts
    obtain ⟨r', er, -, e, -, -, -, -, -, e2, -⟩ := measureObservables_spec h.ht h.hb h.hnb h.hsite h.hg q1 h2 hu.2 junk p rfl (fun _ => rfl) rfl rfl (fun _ _ _ => rfl)
    rw [er] at e0
    injection e0 with e0
    injection e0 with e0
    subst e0
    show r'.pertOrder.getD z 0 = _
    rw [e2 z hz, ← q2]
    have := congrArg List.length (rowsOf_key (NI := c.NI) (tbl := c.tbl) (same_pts q3) z)
    rw [List.length_map, List.length_map] at this
    simp only [this]
  · intro x hx
    simp only [integral_const, probReal_univ, smul_eq_mul, one_mul]
    rfl
  · intro n
    refine ⟨detBound c B 0 n ^ c.nf * uBound c.tbl ^ n * (n * rankBound c.tbl : ℕ), fun x hx hxn u => ?_⟩
    have h1 := wt_le hr.bound hx
    have h2 := rowsOf_length_le (c := c) hx z
    have h3 := alphaBound_nonneg c.tbl
    have hB0 : 0 ≤ B := le_trans (norm_nonneg _) (hr.bound default default)
    have h4 := one_le_uBound c.tbl
    rw [hxn] at h1 h2
    simp only [Nat.abs_cast]
    refine mul_le_mul ?_ (by exact_mod_cast h2) (by positivity) (by unfold detBound; positivity)
    unfold detBound
    simpa using h1

end

end CTInt
