import Verif.Proofs.FockSum
import Verif.Proofs.MarkedParam
import Verif.Spec.FockGreen

/-!
# Configurations with more operators as thermal averages
-/

set_option linter.all false

namespace CTInt

open NormedSpace Matrix ComplexOrder MeasureTheory Filter

variable {K : Type} [RCLike K] {n : Type} [Fintype n] [DecidableEq n] {nf ns : ℕ} {a : ℕ → ℕ → Matrix n n K} {h : ℕ → ℕ → ℕ → K} {β : ℝ}

/-! ## Time translation -/

theorem mexp_add (H : Matrix n n K) (s t : ℝ) : exp (((s + t : ℝ) : K) • H) = exp ((s : K) • H) * exp ((t : K) • H) := by
  letI : NormedAlgebra ℚ K := NormedAlgebra.restrictScalars ℚ ℝ K
  rw [← Matrix.exp_add_of_commute _ _ ((Commute.refl H).smul_left _ |>.smul_right _), ← add_smul]
  push_cast
  rfl

theorem mexp_neg (H : Matrix n n K) (s : ℝ) : exp (-((s : K) • H)) = exp (((-s : ℝ) : K) • H) := by
  push_cast
  rw [neg_smul]

theorem mexp_zero (H : Matrix n n K) : exp (((0 : ℝ) : K) • H) = 1 := by simp

theorem atTime_add (H X : Matrix n n K) (s t : ℝ) : atTime H (s + t) X = atTime H s (atTime H t X) := by
  unfold atTime
  rw [mexp_neg, mexp_neg, mexp_neg, mexp_add, show -(s + t) = -t + -s by ring, mexp_add]
  simp only [mul_assoc]

theorem atTime_zero (H X : Matrix n n K) : atTime H 0 X = X := by
  unfold atTime
  simp

theorem thermal_shift (H X : Matrix n n K) (t : ℝ) : thermal β H (atTime H t X) = thermal β H X := by
  unfold thermal atTime
  congr 1
  rw [neg_smul, mexp_neg, mexp_neg, ← mul_assoc, ← mul_assoc, ← mexp_add, Matrix.trace_mul_comm, ← mul_assoc, ← mexp_add]
  ring_nf

theorem thermal_kms (H X Y : Matrix n n K) : thermal β H (atTime H β X * Y) = thermal β H (Y * X) := by
  unfold thermal atTime
  congr 1
  rw [neg_smul, mexp_neg]
  simp only [← mul_assoc]
  rw [← mexp_add, neg_add_cancel, mexp_zero, one_mul, Matrix.trace_mul_comm, ← mul_assoc, Matrix.trace_mul_comm, ← mul_assoc]

/-- Between operators at different times the two forms of the bare Green's function agree. -/
theorem green_eq {H : Matrix n n K} {G0 : Op → Op → K} {G : ℝ → ℕ → ℕ → ℕ → K} (hG0 : ThermalG0 β nf ns a H G0) (hG : ThermalG β nf ns a H G) {z s s' : ℕ}
    (hz : z < nf) (hs : s < ns) (hs' : s' < ns) {t t' : ℝ} (ht : t ∈ Set.Ico 0 β) (ht' : t' ∈ Set.Ico 0 β) (hne : t ≠ t') (k k' : ℤ) :
    G0 ⟨z, s, t, k⟩ ⟨z, s', t', k'⟩ = G (t - t') z s s' := by
  rcases lt_or_gt_of_ne hne with hl | hl
  · rw [(hG0 z hz s hs s' hs' t ht t' ht' k k').2 (by rintro (q | q); exact lt_asymm q hl; exact hne q.1)]
    have := hG z hz s hs s' hs' (t - t' + β) ⟨by linarith [ht.1, ht'.2], by linarith⟩ (-1)
    rw [show t - t' + β + ((-1 : ℤ) : ℝ) * β = t - t' by push_cast; ring] at this
    rw [this, show t - t' + β = β + (t - t') by ring, atTime_add, thermal_kms, ← thermal_shift H ((a z s')ᴴ * atTime H (t - t') (a z s)) t', atTime_mul, ← atTime_add, add_sub_cancel]
    simp
  · rw [(hG0 z hz s hs s' hs' t ht t' ht' k k').1 (.inl hl)]
    have := hG z hz s hs s' hs' (t - t') ⟨by linarith, by linarith [ht.2, ht'.1]⟩ 0
    rw [show t - t' + ((0 : ℤ) : ℝ) * β = t - t' by push_cast; ring] at this
    rw [this, zpow_zero, one_mul, ← thermal_shift H (atTime H (t - t') (a z s) * (a z s')ᴴ) t', atTime_mul, ← atTime_add, add_sub_cancel]

/-! ## Several groups of operator pairs -/

theorem prod_flatMap' {α A : Type} [Monoid A] (f : α → List A) (l : List α) : (l.flatMap f).prod = (l.map fun e => (f e).prod).prod := by
  induction l with
  | nil => rfl
  | cons e l ih => rw [List.flatMap_cons, List.prod_append, List.map_cons, List.prod_cons, ih]

/-- A group of operator pairs at one time, with a factor. -/
structure Ev (K : Type) where
  time : ℝ
  u : K
  rows : List (OpRow K)

/-- The operator of a group at its time. -/
noncomputable def evOp (a : ℕ → ℕ → Matrix n n K) (H : Matrix n n K) (e : Ev K) : ℝ × Matrix n n K :=
  (e.time, e.u • ((e.rows.map (opsOf a H)).map pairOp).prod)

structure EvAt (β : ℝ) (nf ns : ℕ) (e : Ev K) : Prop where
  at' : ∀ ρ ∈ e.rows, RowAt β nf ns ρ ∧ ρ.cr.time = e.time
  left : e.rows.Pairwise RowLeft

theorem events_thermal [DecidableEq K] [Nonempty n] (ha : Annihilators nf ns a) (hh : HermitianHops nf ns h) {G0 : Op → Op → K}
    (hG : ThermalG0 β nf ns a (bareH nf ns h a) G0) {L : List (Ev K)} (hL : ∀ e ∈ L, EvAt β nf ns e) {w : List (ℝ × Matrix n n K)}
    (hw : w.Perm (L.map (evOp a (bareH nf ns h a)))) (hd : w.Pairwise fun m m' => m'.1 < m.1) :
    (∏ z ∈ Finset.range nf, detN ((L.flatMap Ev.rows).filter fun ρ => decide (ρ.cr.flavor = z)).length
        (rowG G0 ((L.flatMap Ev.rows).filter fun ρ => decide (ρ.cr.flavor = z)))) * (L.map Ev.u).prod =
      thermal β (bareH nf ns h a) (w.map Prod.snd).prod := by
  set H := bareH nf ns h a with hH
  obtain ⟨L', h1, h2⟩ := perm_map_lift hw
  have e1 : (L.map Ev.u).prod = (L'.map Ev.u).prod := ((h1.map Ev.u).prod_eq).symm
  have e2 : ∀ z, detN ((L.flatMap Ev.rows).filter fun ρ => decide (ρ.cr.flavor = z)).length
      (rowG G0 ((L.flatMap Ev.rows).filter fun ρ => decide (ρ.cr.flavor = z))) =
      detN ((L'.flatMap Ev.rows).filter fun ρ => decide (ρ.cr.flavor = z)).length
      (rowG G0 ((L'.flatMap Ev.rows).filter fun ρ => decide (ρ.cr.flavor = z))) := fun z =>
    detG_perm G0 (((h1.symm.flatMap_right _).filter _))
  simp only [e1, e2]
  have hL' : ∀ e ∈ L', EvAt β nf ns e := fun e he => hL e (h1.mem_iff.1 he)
  have hd' : L'.Pairwise fun e e' => e'.time < e.time := by
    rw [← h2, List.pairwise_map] at hd
    exact hd
  rw [rows_thermal ha hh hG, ← h2]
  · rw [mul_comm, ← thermal_smul]
    congr 1
    rw [List.map_map (f := evOp a H), show (Prod.snd ∘ evOp a H) = fun e => e.u • ((e.rows.map (opsOf a H)).map pairOp).prod from rfl, prod_map_smul]
    congr 1
    rw [List.map_flatMap, List.map_flatMap, prod_flatMap']
  · intro ρ hρ
    obtain ⟨e, he, hρ⟩ := List.mem_flatMap.1 hρ
    exact ((hL' e he).at' ρ hρ).1
  · rw [List.pairwise_flatMap]
    refine ⟨fun e he => (hL' e he).left, ?_⟩
    refine List.Pairwise.imp_of_mem ?_ hd'
    intro e e' he he' hlt ρ hρ σ hσ
    left
    rw [((hL' e he).at' ρ hρ).2, ((hL' e' he').at' σ hσ).2]
    exact hlt

/-- The group of a vertex. -/
def vertEv [DecidableEq K] (NI : K) (tbl : List (VDef K)) (p : Pt) : Ev K := ⟨p.2.2, -(tbl.getD p.1 default).U, rowsAllV NI tbl (vertAt p)⟩

theorem vertEv_at [DecidableEq K] {NI : K} {tbl : List (VDef K)} (hT : TermsOn nf ns tbl) {p : Pt} (hp : p.1 < tbl.length) (ht : p.2.2 ∈ Set.Ico 0 β) :
    EvAt β nf ns (vertEv NI tbl p) := ⟨rowsAllV_at hT hp ht, rowsAllV_left _ _ _⟩

theorem vertEv_op [DecidableEq K] (NI : K) (tbl : List (VDef K)) (H : Matrix n n K) (p : Pt) :
    evOp a H (vertEv NI tbl p) = timed (vertexOp a H tbl) p := by
  unfold evOp timed vertexOp vertEv
  refine Prod.ext rfl ?_
  show _ • _ = _
  rw [atTime_smul]
  congr 1
  unfold pairsOp rowsAllV
  rw [atTime_prod, List.map_map, List.map_map, List.map_map]
  congr 1
  refine List.map_congr_left fun r _ => ?_
  simp only [Function.comp_apply]
  rw [atTime_sub, atTime_mul, atTime_smul, atTime_one]
  unfold pairOp opsOf
  rw [Algebra.algebraMap_eq_smul_one]
  simp [rowOf, flavorOf, fieldOf, termOf, vertAt]

/-- The weight of a configuration with one more group. -/
theorem group_thermal [DecidableEq K] [Nonempty n] {c : Ctx K} {h : ℕ → ℕ → ℕ → K} (ha : Annihilators c.nf ns a) (hh : HermitianHops c.nf ns h)
    (hG : ThermalG0 β c.nf ns a (bareH c.nf ns h a) c.G0) (hT : TermsOn c.nf ns c.tbl) {x : List Pt} (hx : ValidPts β c.tbl x) {e : Ev K}
    (he : EvAt β c.nf ns e) (hu : e.u = 1) {w : List (ℝ × Matrix n n K)}
    (hw : w.Perm (x.map (timed (vertexOp a (bareH c.nf ns h a) c.tbl)) ++ [evOp a (bareH c.nf ns h a) e])) (hd : w.Pairwise fun m m' => m'.1 < m.1) :
    (∏ z ∈ Finset.range c.nf, detN (rowsOf c.NI c.tbl (x.map vertAt) z ++ e.rows.filter fun ρ => decide (ρ.cr.flavor = z)).length
        (rowG c.G0 (rowsOf c.NI c.tbl (x.map vertAt) z ++ e.rows.filter fun ρ => decide (ρ.cr.flavor = z)))) * uWeight c.tbl (x.map vertAt) =
      thermal β (bareH c.nf ns h a) (w.map Prod.snd).prod := by
  have hL : ∀ e' ∈ x.map (vertEv c.NI c.tbl) ++ [e], EvAt β c.nf ns e' := by
    intro e' he'
    rcases List.mem_append.1 he' with q | q
    · obtain ⟨p, hp, rfl⟩ := List.mem_map.1 q
      have := hx p hp
      exact vertEv_at hT this.1 this.2.2
    · rw [List.mem_singleton.1 q]; exact he
  rw [← events_thermal ha hh hG hL ?_ hd]
  · congr 1
    · refine Finset.prod_congr rfl fun z _ => ?_
      rw [rowsOf_filter, List.flatMap_append, List.filter_append, List.flatMap_singleton, List.flatMap_map, List.flatMap_map]
      rfl
    · unfold uWeight
      rw [interacting_vertAt, List.map_append, List.prod_append, List.map_map, List.map_map, List.map_singleton, List.prod_singleton, hu, mul_one]
      rfl
  · rw [List.map_append, List.map_singleton, List.map_map]
    refine hw.trans (List.Perm.of_eq ?_)
    congr 1
    exact List.map_congr_left fun p _ => (vertEv_op _ _ _ _).symm

/-! ## The evolution with the interaction -/

open scoped Matrix.Norms.Operator

theorem evolution_eq (H V : Matrix n n K) (s τ : ℝ) :
    evolution H V s τ = exp ((s : K) • H) * exp (((τ - s : ℝ) : K) • (H + V)) * exp (((-τ : ℝ) : K) • H) := by
  unfold evolution
  rw [← mexp_neg, ← neg_sub s τ, ← mexp_neg, real_smul_coe, real_smul_coe, real_smul_coe]
  rfl

theorem chain_eq (H V : Matrix n n K) (X : List (ℝ × Matrix n n K)) (s : ℝ) :
    chain (evolution H V) (X.map fun o => (o.1, atTime H o.1 o.2)) s =
      exp ((s : K) • H) * exp (((-s : ℝ) : K) • (H + V)) * (X.map fun o => atTime (H + V) o.1 o.2).prod := by
  induction X generalizing s with
  | nil =>
    show evolution H V s 0 = _
    rw [evolution_eq, neg_zero, mexp_zero, zero_sub]
    simp
  | cons o X ih =>
    show evolution H V s o.1 * (atTime H o.1 o.2 * chain (evolution H V) (X.map fun o => (o.1, atTime H o.1 o.2)) o.1) = _
    rw [ih, evolution_eq, List.map_cons, List.prod_cons]
    unfold atTime
    rw [mexp_neg, mexp_neg]
    have e1 : ∀ Y : Matrix n n K, exp (((-o.1 : ℝ) : K) • H) * (exp ((o.1 : K) • H) * Y) = Y := fun Y => by
      rw [← mul_assoc, ← mexp_add, neg_add_cancel, mexp_zero, one_mul]
    have e2 : ∀ Y : Matrix n n K, exp (((-s : ℝ) : K) • (H + V)) * (exp ((o.1 : K) • (H + V)) * Y) = exp (((o.1 - s : ℝ) : K) • (H + V)) * Y := fun Y => by
      rw [← mul_assoc, ← mexp_add, show -s + o.1 = o.1 - s by ring]
    simp only [mul_assoc]
    rw [e1, e1, e2]

/-- The average of the bare Hamiltonian over the evolution with operators in between. -/
theorem thermal_chain (H V : Matrix n n K) (X : List (ℝ × Matrix n n K)) :
    thermal β H (chain (evolution H V) (X.map fun o => (o.1, atTime H o.1 o.2)) β) =
      (exp (-(β : K) • (H + V)) * (X.map fun o => atTime (H + V) o.1 o.2).prod).trace / (exp (-(β : K) • H)).trace := by
  rw [chain_eq]
  unfold thermal
  congr 2
  rw [neg_smul, neg_smul, mexp_neg, mexp_neg]
  simp only [← mul_assoc]
  rw [← mexp_add, neg_add_cancel, mexp_zero, one_mul]

end CTInt
