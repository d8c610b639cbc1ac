import Verif.Proofs.StreamPick
import Verif.Spec.Balance

/-!
# The law of a spin-flip update
-/

set_option linter.all false

namespace CTInt

open MeasureTheory Set

variable {K : Type} [RCLike K] [DecidableEq K]
variable {c : Ctx K}

/-- The probability of accepting the step from `x` to `y`. -/
noncomputable def accProb (c : Ctx K) (x y : List Vert) : ENNReal :=
  ENNReal.ofReal (min 1 ‖weight c.NI c.nf c.G0 c.tbl y / weight c.NI c.nf c.G0 c.tbl x‖)

/-- The mean of `f` after one attempt to change the state of vertex `i`. -/
noncomputable def flipOp (c : Ctx K) (i : ℕ) (f : List Vert → ENNReal) (x : List Vert) : ENNReal :=
  if (termOf c.tbl (x.getD i default)).numAf ≤ 1 then f x
  else ∑ k ∈ Finset.range (termOf c.tbl (x.getD i default)).numAf \ {(x.getD i default).af.toNat},
    ENNReal.ofReal (1 / (((termOf c.tbl (x.getD i default)).numAf - 1 : ℕ) : ℝ)) *
      (accProb c x (x.modify i (flipTo · k)) * f (x.modify i (flipTo · k)) +
        (1 - accProb c x (x.modify i (flipTo · k))) * f x)

/-- The mean of `f` after attempts at the listed vertices. -/
noncomputable def flipOps (c : Ctx K) : List ℕ → (List Vert → ENNReal) → List Vert → ENNReal
  | [], f => f
  | i :: l, f => flipOp c i (flipOps c l f)

/-! ## Positions -/

/-- Counting positions from `q` on. -/
def Run.shift3 {α β : Type} (q : ℕ) : Run (α × β × ℕ) → Run (α × β × ℕ)
  | .ok (x, y, p) => .ok (x, y, q + p)
  | .throw e => .throw e
  | .ub => .ub
  | .more => .more

theorem Run.shift_bind3 {α β γ : Type} (q : ℕ) (x : Run (α × ℕ)) {f g : α × ℕ → Run (β × γ × ℕ)}
    (h : ∀ y p, f (y, q + p) = Run.shift3 q (g (y, p))) : (x.shift q >>= f) = (x >>= g).shift3 q := by
  cases x with
  | ok z => obtain ⟨y, p⟩ := z; exact h y p
  | throw e => rfl
  | ub => rfl
  | more => rfl

theorem Run.shift3_bind {α β γ δ : Type} (q : ℕ) (x : Run (α × δ × ℕ)) {f g : α × δ × ℕ → Run (β × γ × ℕ)}
    (h : ∀ y w p, f (y, w, q + p) = Run.shift3 q (g (y, w, p))) : (x.shift3 q >>= f) = (x >>= g).shift3 q := by
  cases x with
  | ok z => obtain ⟨y, w, p⟩ := z; exact h y w p
  | throw e => rfl
  | ub => rfl
  | more => rfl

theorem Run.bind_shift3 {α β γ : Type} (q : ℕ) (x : Run α) {f g : α → Run (β × γ × ℕ)}
    (h : ∀ y, f y = Run.shift3 q (g y)) : (x >>= f) = (x >>= g).shift3 q := by
  cases x with
  | ok z => exact h z
  | throw e => rfl
  | ub => rfl
  | more => rfl

theorem drawOther_shift (u : ℕ → ℝ) (n : ℕ) (now : ℤ) (fuel q p : ℕ) :
    Mgr.drawOther u n now fuel (q + p) = (Mgr.drawOther (dropS q u) n now fuel p).shift q := by
  induction fuel generalizing p with
  | zero => rfl
  | succ f ih =>
    unfold Mgr.drawOther
    have e : dropS q u p = u (q + p) := rfl
    simp only [e]
    split
    · exact ih (p + 1)
    · rfl

theorem spinFlipStep_shift (junk : ℕ → ℕ → ℕ → K) (u : ℕ → ℝ) (fuel : ℕ) (s : Sub K) (i q p : ℕ) :
    Mgr.spinFlipStep c junk u fuel s i (q + p) = (Mgr.spinFlipStep c junk (dropS q u) fuel s i p).shift3 q := by
  unfold Mgr.spinFlipStep
  refine Run.bind_shift3 q _ fun v => Run.bind_shift3 q _ fun d => ?_
  split
  · rfl
  · rw [drawOther_shift]
    refine Run.shift_bind3 q _ fun y p => ?_
    exact Run.bind_shift3 q _ fun z => rfl

theorem spinFlipLoop_shift (J : ℕ → ℕ → ℕ → ℕ → ℕ → K) (u : ℕ → ℝ) (fuel : ℕ) (l : List ℕ) (s : Sub K) (w : K) (q p : ℕ) :
    Mgr.spinFlipLoop c J u fuel l s w (q + p) = (Mgr.spinFlipLoop c J (dropS q u) fuel l s w p).shift3 q := by
  induction l generalizing s w p with
  | nil => rfl
  | cons i l ih =>
    unfold Mgr.spinFlipLoop
    rw [spinFlipStep_shift]
    exact Run.shift3_bind q _ fun y o p => ih _ _ p

/-- The call returns, and with the random numbers that are left what follows has property `B`. -/
def Then {α β : Type} (f : ℕ → Run (α × β × ℕ)) (B : α → Set (ℕ → ℝ)) (u : ℕ → ℝ) : Prop :=
  ∃ s w p, Returns f (s, w, p) ∧ dropS p u ∈ B s

theorem Then.shift {α β : Type} {q : ℕ} {f g : ℕ → Run (α × β × ℕ)} (h : ∀ n, f n = (g n).shift3 q)
    {B : α → Set (ℕ → ℝ)} {u : ℕ → ℝ} : Then f B u ↔ Then g B (dropS q u) := by
  constructor
  · rintro ⟨s, w, p, ⟨F, hF⟩, hY⟩
    have h0 := hF F le_rfl
    rw [h] at h0
    obtain ⟨p', hp'⟩ : ∃ p', p = q + p' := by
      cases e : g F with
      | ok z =>
        obtain ⟨a, b, p'⟩ := z
        rw [e] at h0; injection h0 with h0; injection h0 with _ h0; injection h0 with _ h0
        exact ⟨p', h0.symm⟩
      | throw _ => rw [e] at h0; cases h0
      | ub => rw [e] at h0; cases h0
      | more => rw [e] at h0; cases h0
    refine ⟨s, w, p', ⟨F, fun n hn => ?_⟩, by rw [dropS_drop, ← hp']; exact hY⟩
    have h1 := hF n hn
    rw [h, hp'] at h1
    cases e : g n with
    | ok z =>
      obtain ⟨a, b, p''⟩ := z
      rw [e] at h1; injection h1 with h1; injection h1 with h2 h1; injection h1 with h3 h1
      have : p'' = p' := by omega
      rw [h2, h3, this]
    | throw _ => rw [e] at h1; cases h1
    | ub => rw [e] at h1; cases h1
    | more => rw [e] at h1; cases h1
  · rintro ⟨s, w, p, ⟨F, hF⟩, hY⟩
    exact ⟨s, w, q + p, ⟨F, fun n hn => by rw [h, hF n hn]; rfl⟩, by rw [dropS_drop] at hY; exact hY⟩

theorem Then.bind_iff {α β γ : Type} {f : ℕ → Run γ} {g : ℕ → γ → Run (α × β × ℕ)} {x : γ} (h : Returns f x)
    {B : α → Set (ℕ → ℝ)} {u : ℕ → ℝ} : Then (fun n => f n >>= g n) B u ↔ Then (fun n => g n x) B u := by
  unfold Then
  simp only [h.bind_iff]

theorem Then.congr {α β : Type} {f g : ℕ → Run (α × β × ℕ)} (h : ∀ n, f n = g n) {B : α → Set (ℕ → ℝ)} {u : ℕ → ℝ} :
    Then f B u ↔ Then g B u := by
  rw [show f = g from funext h]

/-! ## One decision -/

/-- The result of `metropolis` depends on the random number only through the decision. -/
theorem metropolis_same {junk : ℕ → ℕ → ℕ → K} {s : Sub K} {pos : List ℕ} {spins : List ℤ} {corr r r' : ℝ}
    {s1 s2 : Sub K} {o1 o2 : Option K} {w1 w2 : K}
    (h : metropolis c junk s pos spins corr r = .ok (s1, o1, w1)) (h' : metropolis c junk s pos spins corr r' = .ok (s2, o2, w2))
    (ho : o1.isSome = o2.isSome) : s1 = s2 ∧ o1 = o2 := by
  unfold metropolis at h h'
  rw [Res.bind_eq_ok] at h h'
  obtain ⟨⟨s3, det, f, w⟩, e, h⟩ := h
  obtain ⟨⟨s3', det', f', w'⟩, e', h'⟩ := h'
  rw [e] at e'
  injection e' with e'
  injection e' with q1 e'
  injection e' with q2 e'
  injection e' with q3 q4
  subst q1 q2 q3 q4
  simp only [] at h h'
  split at h
  · rw [Res.bind_eq_ok] at h
    obtain ⟨t, e1, h⟩ := h
    cases h
    split at h'
    · rw [Res.bind_eq_ok] at h'
      obtain ⟨t', e1', h'⟩ := h'
      cases h'
      rw [e1] at e1'
      injection e1' with q
      exact ⟨q, rfl⟩
    · rw [Res.bind_eq_ok] at h'
      obtain ⟨t', e1', h'⟩ := h'
      cases h'
      simp at ho
  · rw [Res.bind_eq_ok] at h
    obtain ⟨t, e1, h⟩ := h
    cases h
    split at h'
    · rw [Res.bind_eq_ok] at h'
      obtain ⟨t', e1', h'⟩ := h'
      cases h'
      simp at ho
    · rw [Res.bind_eq_ok] at h'
      obtain ⟨t', e1', h'⟩ := h'
      cases h'
      rw [e1] at e1'
      injection e1' with q
      exact ⟨q, rfl⟩

theorem drawOther_now {u : ℕ → ℝ} {n : ℕ} {now : ℤ} (h : (⌊u 0 * (n : ℝ)⌋₊ : ℤ) ≠ now) :
    Returns (fun fuel => Mgr.drawOther u n now fuel 0) ((⌊u 0 * (n : ℝ)⌋₊ : ℤ), 1) := by
  refine ⟨1, fun fuel hf => ?_⟩
  obtain ⟨f, rfl⟩ : ∃ f, fuel = f + 1 := ⟨fuel - 1, by omega⟩
  unfold Mgr.drawOther
  simp only [if_neg h]

theorem drawOther_later {u : ℕ → ℝ} {n : ℕ} {now : ℤ} (h : (⌊u 0 * (n : ℝ)⌋₊ : ℤ) = now) {x : ℤ} {p : ℕ}
    (h0 : Returns (fun fuel => Mgr.drawOther (dropS 1 u) n now fuel 0) (x, p)) :
    Returns (fun fuel => Mgr.drawOther u n now fuel 0) (x, 1 + p) := by
  rw [Returns.succ_iff (g := fun fuel => (Mgr.drawOther (dropS 1 u) n now fuel 0).shift 1)]
  · rw [Returns.shift]; exact ⟨p, rfl, h0⟩
  · intro fuel
    conv_lhs => unfold Mgr.drawOther
    simp only [if_pos h]
    exact drawOther_shift u n now fuel 1 0

theorem drawOther_returns {u : ℕ → ℝ} (hu : GoodS u) {n : ℕ} (hn : 2 ≤ n) (now : ℤ) (p : ℕ) :
    ∃ x p', Returns (fun fuel => Mgr.drawOther u n now fuel p) (x, p') := by
  obtain ⟨F, ⟨x, p'⟩, h⟩ := (drawOther_total hu.2 hn now p).ends hu.1
  exact ⟨x, p', F, h⟩

/-! ## The loop -/

/-- The condition of the loop: the vertices still to come are interacting and as they were at the start of the batch. -/
structure FlipReady (c : Ctx K) (l : List ℕ) (s : Sub K) (a : Abs) : Prop where
  means : Means c s a
  op : a.isOpen = true
  int : ∀ v ∈ a.cfg, v.nonInt = false
  todo : ∀ i ∈ l, i < a.cfg.length ∧ a.cfg.getD i default = a.base.getD i default

theorem FlipReady.step {l : List ℕ} {i : ℕ} {s s' : Sub K} {a : Abs} (h : FlipReady c (i :: l) s a) (hi : i ∉ l) {z : ℤ}
    (hz : z ≠ -1) {b : Bool}
    (hm : Means c s' { a with cfg := if b then a.cfg.modify i (flipTo · z) else a.cfg }) :
    FlipReady c l s' { a with cfg := if b then a.cfg.modify i (flipTo · z) else a.cfg } := by
  obtain ⟨hil, hib⟩ := h.todo i (by simp)
  refine ⟨hm, h.op, ?_, ?_⟩
  · show ∀ v ∈ (if b then _ else _ : List Vert), _
    split
    · intro v hv
      obtain ⟨j, hj, rfl⟩ := List.mem_iff_getElem.1 hv
      rw [List.getElem_modify]
      split
      · unfold flipTo; rw [if_neg hz]
      · exact h.int _ (List.getElem_mem _)
    · exact h.int
  · intro j hj
    obtain ⟨t1, t2⟩ := h.todo j (List.mem_cons_of_mem _ hj)
    have hne : i ≠ j := fun q => hi (q ▸ hj)
    show j < (if b then _ else _ : List Vert).length ∧ (if b then _ else _ : List Vert).getD j default = _
    split
    · rw [List.length_modify, getD_modify _ _ _ _ hil, if_neg hne]
      exact ⟨t1, t2⟩
    · exact ⟨t1, t2⟩

/-- The probability of what follows the loop, if it only depends on the configuration. -/
theorem spinFlipLoop_law (ht : TblOK c.NI c.nf c.tbl) (J : ℕ → ℕ → ℕ → ℕ → ℕ → K) {B : Sub K → Set (ℕ → ℝ)}
    {F : List Vert → ENNReal} (hB : ∀ s a, FlipReady c [] s a → streams (B s) = F a.cfg)
    {l : List ℕ} (hl : l.Nodup) {s : Sub K} {a : Abs} (h : FlipReady c l s a) (w : K) :
    streams {u | Then (fun fuel => Mgr.spinFlipLoop c J u fuel l s w 0) B u} =
      flipOps c l F a.cfg := by
  induction l generalizing s a w with
  | nil =>
    unfold flipOps
    rw [← hB s a h]
    congr 1
    ext u
    constructor
    · rintro ⟨s', w', p, ⟨F, hF⟩, hY⟩
      have := hF F le_rfl
      unfold Mgr.spinFlipLoop at this
      injection this with this
      injection this with q this
      injection this with _ q'
      rwa [← q, ← q', dropS_zero] at hY
    · intro hY
      exact ⟨s, w, 0, ⟨0, fun _ _ => rfl⟩, by rw [dropS_zero]; exact hY⟩
  | cons i l ih =>
    rw [List.nodup_cons] at hl
    obtain ⟨hil, hib⟩ := h.todo i (by simp)
    have hmem : a.cfg.getD i default ∈ a.cfg := by rw [List.getD_eq_getElem _ _ hil]; exact List.getElem_mem _
    have hv := h.means.vertOK _ hmem
    obtain ⟨af0, af1⟩ := hv.2 (h.int _ hmem)
    obtain ⟨v, ev⟩ : ∃ v, v = a.cfg.getD i default := ⟨_, rfl⟩
    obtain ⟨d, ed⟩ : ∃ d, d = termOf c.tbl v := ⟨_, rfl⟩
    have g1 : Res.get s.verts i = .ok v := by
      rw [h.means.cfg, Res.get_of_lt hil, ev, List.getD_eq_getElem _ _ hil]
    have g2 : Res.get c.tbl v.type = .ok d := by
      rw [← ev] at hv
      rw [Res.get_of_lt hv.1, ed]
      exact congrArg Res.ok (List.getD_eq_getElem _ _ hv.1).symm
    rw [← ev, ← ed] at af1
    rw [← ev] at af0
    unfold flipOps flipOp
    rw [← ev, ← ed]
    by_cases hn : d.numAf ≤ 1
    · rw [if_pos hn]
      have hr : FlipReady c l s a := ⟨h.means, h.op, h.int, fun j hj => h.todo j (List.mem_cons_of_mem _ hj)⟩
      rw [← ih hl.2 hr (w * 1)]
      congr 1
      ext u
      refine Then.congr fun fuel => ?_
      conv_lhs => unfold Mgr.spinFlipLoop Mgr.spinFlipStep
      rw [g1]
      simp only [Run.lift_ok, Run.bind_ok, g2, hn, if_true, Run.pure_eq, Option.getD_none]
    · rw [if_neg hn]
      -- the step with the new state already drawn
      obtain ⟨rest, hrest⟩ : ∃ rest : ℤ → (ℕ → ℝ) → ℕ → ℕ → Run (Sub K × K × ℕ), rest = fun x u p fuel =>
          Run.lift (metropolis c (J (l.length + 2) 0) s [i] [x] 1 (u p)) >>= fun z =>
            Mgr.spinFlipLoop c J u fuel l z.1 (w * z.2.1.getD 1) (p + 1) := ⟨_, rfl⟩
      have hloop : ∀ u fuel, Mgr.spinFlipLoop c J u fuel (i :: l) s w 0 =
          (Mgr.drawOther u d.numAf v.af fuel 0 >>= fun z => rest z.1 u z.2 fuel) := by
        intro u fuel
        conv_lhs => unfold Mgr.spinFlipLoop Mgr.spinFlipStep
        rw [g1]
        simp only [Run.lift_ok, Run.bind_ok, g2, hn, if_false]
        cases Mgr.drawOther u d.numAf v.af fuel 0 with
        | ok z =>
          simp only [Run.bind_ok, hrest]
          cases metropolis c (J (l.length + 2) 0) s [i] [z.1] 1 (u z.2) <;> rfl
        | throw _ => rfl
        | ub => rfl
        | more => rfl
      have hshift : ∀ x u q p fuel, rest x u (q + p) fuel = (rest x (dropS q u) p fuel).shift3 q := by
        intro x u q p fuel
        rw [hrest]
        simp only []
        refine Run.bind_shift3 q _ fun z => ?_
        rw [Nat.add_assoc]
        exact spinFlipLoop_shift J u fuel l _ _ q (p + 1)
      have huntil := law_until (n := d.numAf) (T := {v.af.toNat}) (by
          intro x hx; rw [Finset.mem_singleton] at hx; omega) (by rw [Finset.card_singleton]; omega)
        (E := {u | Then (fun fuel => Mgr.spinFlipLoop c J u fuel (i :: l) s w 0) B u})
        (D := fun k => {u | Then (fun fuel => rest (k : ℤ) u 0 fuel) B u}) (by
          intro u hu hk
          rw [Finset.mem_singleton] at hk
          simp only [mem_setOf_eq]
          rw [Then.congr (hloop u), Then.bind_iff (drawOther_now (by omega))]
          exact Then.shift (q := 1) fun fuel => hshift _ u 1 0 fuel) (by
          intro u hu hk
          rw [Finset.mem_singleton] at hk
          simp only [mem_setOf_eq]
          obtain ⟨x, p, h0⟩ := drawOther_returns (hu.drop 1) (n := d.numAf) (by omega) v.af 0
          rw [Then.congr (hloop u), Then.congr (hloop (dropS 1 u)), Then.bind_iff h0,
            Then.bind_iff (drawOther_later (by omega) h0)]
          exact Then.shift (q := 1) fun fuel => hshift _ u 1 p fuel)
      rw [huntil, Finset.card_singleton]
      refine Finset.sum_congr rfl fun k hk => ?_
      rw [Finset.mem_sdiff, Finset.mem_range, Finset.mem_singleton] at hk
      congr 1
      obtain ⟨R, hR⟩ : ∃ R, R = weight c.NI c.nf c.G0 c.tbl (a.cfg.modify i (flipTo · (k : ℤ))) /
        weight c.NI c.nf c.G0 c.tbl a.cfg := ⟨_, rfl⟩
      have spec : ∀ r : ℝ, 0 ≤ r → ∃ s' o w', metropolis c (J (l.length + 2) 0) s [i] [(k : ℤ)] 1 r = .ok (s', o, w') ∧
          (o.isSome = decide (r < ‖R‖)) ∧
          FlipReady c l s' { a with cfg := if o.isSome then a.cfg.modify i (flipTo · (k : ℤ)) else a.cfg } := by
        intro r hr
        obtain ⟨s', o, e1, e2, e3, _⟩ := flip_one_spec ht h.means h.op hil (z := (k : ℤ))
          (Or.inr ⟨by omega, by rw [← ev, ← ed]; omega⟩) (Or.inl hib) hr 1 (J (l.length + 2) 0)
        refine ⟨s', o, _, e1, ?_, h.step hl.1 (by omega) e3⟩
        rw [e2, ← hR]
        unfold decision
        simp only [RCLike.ofReal_one, mul_one]
        split
        · rename_i q; simp [q]
        · rename_i q; simp [q]
      have hacc : accProb c a.cfg (a.cfg.modify i (flipTo · (k : ℤ))) = ENNReal.ofReal (min 1 ‖R‖) := by
        unfold accProb; rw [hR]
      rw [hacc]
      have hrest0 : ∀ u fuel, rest (k : ℤ) u 0 fuel = (Run.lift (metropolis c (J (l.length + 2) 0) s [i] [(k : ℤ)] 1 (u 0)) >>=
          fun z => Mgr.spinFlipLoop c J u fuel l z.1 (w * z.2.1.getD 1) 1) := by
        intro u fuel; rw [hrest]
      -- the two outcomes
      obtain ⟨D1, hD1, hm1⟩ : ∃ D1 : Set (ℕ → ℝ), (∀ u, GoodS u → u 0 < ‖R‖ →
          (u ∈ {u | Then (fun fuel => rest (k : ℤ) u 0 fuel) B u} ↔ dropS 1 u ∈ D1)) ∧
          ENNReal.ofReal (min 1 ‖R‖) * streams D1 =
            ENNReal.ofReal (min 1 ‖R‖) * flipOps c l F (a.cfg.modify i (flipTo · (k : ℤ))) := by
        by_cases hR0 : ‖R‖ = 0
        · refine ⟨∅, fun u hu hlt => ?_, by rw [hR0]; simp⟩
          have := (hu.2 0).1
          rw [hR0] at hlt
          linarith
        · have hpos : 0 < ‖R‖ := lt_of_le_of_ne (norm_nonneg _) (Ne.symm hR0)
          obtain ⟨s1, o1, w1, e1, d1, f1⟩ := spec 0 le_rfl
          rw [decide_eq_true hpos] at d1
          rw [if_pos d1] at f1
          refine ⟨{u | Then (fun fuel => Mgr.spinFlipLoop c J u fuel l s1 (w * o1.getD 1) 0) B u}, fun u hu hlt => ?_, ?_⟩
          · obtain ⟨s2, o2, w2, e2, d2, _⟩ := spec (u 0) (hu.2 0).1
            rw [decide_eq_true hlt] at d2
            obtain ⟨q1, q2⟩ := metropolis_same e2 e1 (by rw [d1, d2])
            simp only [mem_setOf_eq]
            rw [Then.congr (hrest0 u)]
            simp only [e2, Run.lift_ok, Run.bind_ok, q1, q2]
            exact Then.shift (q := 1) fun fuel => spinFlipLoop_shift J u fuel l _ _ 1 0
          · rw [ih hl.2 f1]
      obtain ⟨D2, hD2, hm2⟩ : ∃ D2 : Set (ℕ → ℝ), (∀ u, GoodS u → ¬ u 0 < ‖R‖ →
          (u ∈ {u | Then (fun fuel => rest (k : ℤ) u 0 fuel) B u} ↔ dropS 1 u ∈ D2)) ∧
          (1 - ENNReal.ofReal (min 1 ‖R‖)) * streams D2 =
            (1 - ENNReal.ofReal (min 1 ‖R‖)) * flipOps c l F a.cfg := by
        obtain ⟨s1, o1, w1, e1, d1, f1⟩ := spec ‖R‖ (norm_nonneg _)
        have hno : ¬ ‖R‖ < ‖R‖ := lt_irrefl _
        rw [decide_eq_false hno] at d1
        rw [if_neg (by rw [d1]; simp)] at f1
        refine ⟨{u | Then (fun fuel => Mgr.spinFlipLoop c J u fuel l s1 (w * o1.getD 1) 0) B u}, fun u hu hlt => ?_, ?_⟩
        · obtain ⟨s2, o2, w2, e2, d2, _⟩ := spec (u 0) (hu.2 0).1
          rw [decide_eq_false hlt] at d2
          obtain ⟨q1, q2⟩ := metropolis_same e2 e1 (by rw [d1, d2])
          simp only [mem_setOf_eq]
          rw [Then.congr (hrest0 u)]
          simp only [e2, Run.lift_ok, Run.bind_ok, q1, q2]
          exact Then.shift (q := 1) fun fuel => spinFlipLoop_shift J u fuel l _ _ 1 0
        · rw [ih hl.2 f1]
      rw [law_coin (norm_nonneg R) hD1 hD2, hm1, hm2]

end CTInt
