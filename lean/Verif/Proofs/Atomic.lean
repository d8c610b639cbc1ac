import Verif.Props.FockGrid
import Verif.Props.Hermitian
import Verif.Spec.FockProgram
import Verif.Spec.FockOrder

/-!
# One site without hopping: no configuration has weight zero
-/

set_option linter.all false

namespace CTInt

open NormedSpace Matrix Filter

variable {n : Type} [Fintype n] [DecidableEq n] {a : ℕ → ℕ → Matrix n n ℝ} {β : ℝ}

theorem atomic_bare (nf ns : ℕ) (a : ℕ → ℕ → Matrix n n ℝ) : bareH nf ns (fun _ _ _ => (0 : ℝ)) a = 0 := by simp [bareH]

theorem atTime_flat (t : ℝ) (X : Matrix n n ℝ) : atTime 0 t X = X := by simp [atTime]

theorem thermal_flat (β : ℝ) (X : Matrix n n ℝ) : thermal β 0 X = X.trace / (1 : Matrix n n ℝ).trace := by simp [thermal]

theorem greenOf_flat (β : ℝ) (a : ℕ → ℕ → Matrix n n ℝ) (z s s' : ℕ) (t t' : ℝ) : greenOf β a 0 z s s' t = greenOf β a 0 z s s' t' := by
  unfold greenOf
  rw [atTime_flat, atTime_flat]

/-- Splines through constant values are constant: the Green's function is exact. -/
theorem flat_green (hβ : 1e-8 < β) {nf ns : ℕ} {tbl : List (VDef ℝ)} {S : Type} {is : IStream S} {dbg : Bool} {P : Params S} {j : ReadJunk} {V : FullSolver ℝ}
    (hr : FineRun is dbg P j V β nf ns a 0 tbl 0 4) : ThermalG0 β nf ns a 0 V.c.G0 := by
  have hβ0 : 0 < β := lt_trans (by norm_num) hβ
  obtain ⟨B, hB0, hB⟩ := greenOf_bound β a 0 nf ns
  have hq : β / β + 3 < ((4 + 1 : ℕ) : ℝ) := by rw [div_self hβ0.ne']; norm_num
  obtain ⟨G, -, -, hw⟩ := fine_core (ε := 0) (η := β + 1) (ω := 0) hβ hB0 hB (by linarith) le_rfl le_rfl
    (fun z _ s _ s' _ t _ t' _ _ => by rw [greenOf_flat β a z s s' t t', sub_self, norm_zero]) (by norm_num) (N := 4)
    (by have : β / (β + 1) < 1 := by rw [div_lt_one (by linarith)]; linarith
        push_cast; linarith) hr
  intro z hz s hs s' hs' t ht t' ht' k k'
  have e : V.c.G0 ⟨z, s, t, k⟩ ⟨z, s', t', k'⟩ = exactG0 β a 0 ⟨z, s, t, k⟩ ⟨z, s', t', k'⟩ :=
    sub_eq_zero.1 (norm_le_zero_iff.1 (hw.ops _ _ rfl hz hs hs' ht ht'))
  rw [e]
  exact exactG0_spec hβ0 nf ns z hz s hs s' hs' t ht t' ht' k k'

/-! ### Products of vertices are positive up to the powers of U -/

theorem occ_root {N : Matrix n n ℝ} (hi : N * N = N) (hN : N.IsHermitian) {p q : ℝ} (hp : 0 < p) (hq : 0 < q) :
    ∃ R : Matrix n n ℝ, R.IsHermitian ∧ IsUnit R ∧ R * R = p • N + q • (1 - N) ∧ ∀ X, Commute X N → Commute X R := by
  have hm : ∀ x y x' y' : ℝ, (x • N + y • (1 - N)) * (x' • N + y' • (1 - N)) = (x * x') • N + (y * y') • (1 - N) := by
    intro x y x' y'
    have e1 : N * (1 - N) = 0 := by rw [mul_sub, mul_one, hi, sub_self]
    have e2 : (1 - N) * N = 0 := by rw [sub_mul, one_mul, hi, sub_self]
    have e3 : (1 - N) * (1 - N) = 1 - N := by rw [mul_sub, mul_one, e2, sub_zero]
    rw [add_mul, mul_add, mul_add]
    simp only [smul_mul_assoc, mul_smul_comm, hi, e1, e2, e3, smul_zero, add_zero, zero_add, smul_smul]
    first | rfl | rw [mul_comm x, mul_comm y]
  have h1 : ∀ x y : ℝ, x ≠ 0 → y ≠ 0 → (x • N + y • (1 - N)) * (x⁻¹ • N + y⁻¹ • (1 - N)) = 1 := by
    intro x y hx hy
    rw [hm, mul_inv_cancel₀ hx, mul_inv_cancel₀ hy, one_smul, one_smul, add_sub_cancel]
  have hp' := (Real.sqrt_pos.2 hp).ne'
  have hq' := (Real.sqrt_pos.2 hq).ne'
  refine ⟨√p • N + √q • (1 - N), ?_, ?_, ?_, fun X hX => ?_⟩
  · refine IsHermitian.add ?_ ?_
    · unfold IsHermitian; rw [conjTranspose_smul, hN.eq, star_trivial]
    · unfold IsHermitian; rw [conjTranspose_smul, conjTranspose_sub, conjTranspose_one, hN.eq, star_trivial]
  · exact IsUnit.of_mul_eq_one _ (h1 _ _ hp' hq')
  · rw [hm, Real.mul_self_sqrt hp.le, Real.mul_self_sqrt hq.le]
  · exact (hX.smul_right _).add_right (((Commute.one_right X).sub_right hX).smul_right _)

theorem vertex_root {N0 N1 : Matrix n n ℝ} (i0 : N0 * N0 = N0) (i1 : N1 * N1 = N1) (h0 : N0.IsHermitian) (h1 : N1.IsHermitian) (hc : Commute N0 N1) {x y : ℝ}
    (hxy : (1 < x ∧ y < 0) ∨ (x < 0 ∧ 1 < y)) :
    ∃ R : Matrix n n ℝ, R.IsHermitian ∧ IsUnit R ∧ -((N0 - x • 1) * (N1 - y • 1)) = R * R ∧ ∀ X, Commute X N0 → Commute X N1 → Commute X R := by
  have key : ∀ p q p' q' : ℝ, 0 < p → 0 < q → 0 < p' → 0 < q' →
      ∃ R : Matrix n n ℝ, R.IsHermitian ∧ IsUnit R ∧ (p • N0 + q • (1 - N0)) * (p' • N1 + q' • (1 - N1)) = R * R ∧ ∀ X, Commute X N0 → Commute X N1 → Commute X R := by
    intro p q p' q' hp hq hp' hq'
    obtain ⟨R, r1, r2, r3, r4⟩ := occ_root i0 h0 hp hq
    obtain ⟨R', r1', r2', r3', r4'⟩ := occ_root i1 h1 hp' hq'
    have hRR : Commute R R' := r4' R (r4 N1 hc.symm).symm
    refine ⟨R * R', (IsHermitian.commute_iff r1 r1').1 hRR, r2.mul r2', ?_, fun X a b => (r4 X a).mul_right (r4' X b)⟩
    rw [hRR.symm.mul_mul_mul_comm, r3, r3']
  rcases hxy with ⟨hx, hy⟩ | ⟨hx, hy⟩
  · obtain ⟨R, r1, r2, r3, r4⟩ := key (x - 1) x (1 - y) (-y) (by linarith) (by linarith) (by linarith) (by linarith)
    refine ⟨R, r1, r2, ?_, r4⟩
    rw [← r3, ← neg_mul]
    congr 1 <;> module
  · obtain ⟨R, r1, r2, r3, r4⟩ := key (1 - x) (-x) (y - 1) y (by linarith) (by linarith) (by linarith) (by linarith)
    refine ⟨R, r1, r2, ?_, r4⟩
    rw [← r3, ← mul_neg]
    congr 1 <;> module

theorem vertices_root {ι : Type} {U : ℝ} {X Y : ι → ℝ} {M0 M1 : ι → Matrix n n ℝ} : ∀ l : List ι,
    (∀ i ∈ l, M0 i * M0 i = M0 i ∧ M1 i * M1 i = M1 i ∧ (M0 i).IsHermitian ∧ (M1 i).IsHermitian ∧ ((1 < X i ∧ Y i < 0) ∨ (X i < 0 ∧ 1 < Y i))) →
    (∀ i ∈ l, ∀ k ∈ l, Commute (M0 i) (M0 k) ∧ Commute (M0 i) (M1 k) ∧ Commute (M1 i) (M0 k) ∧ Commute (M1 i) (M1 k)) →
    ∃ R : Matrix n n ℝ, R.IsHermitian ∧ IsUnit R ∧ (l.map fun i => -U • ((M0 i - X i • 1) * (M1 i - Y i • 1))).prod = U ^ l.length • (R * R) ∧
      ∀ Z, (∀ i ∈ l, Commute Z (M0 i) ∧ Commute Z (M1 i)) → Commute Z R
  | [], _, _ => ⟨1, isHermitian_one, isUnit_one, by simp, fun Z _ => Commute.one_right Z⟩
  | i :: l, h, hc => by
    obtain ⟨R, r1, r2, r3, r4⟩ := vertices_root (U := U) l (fun k hk => h k (List.mem_cons_of_mem _ hk))
      fun k hk k' hk' => hc k (List.mem_cons_of_mem _ hk) k' (List.mem_cons_of_mem _ hk')
    have hi := h i List.mem_cons_self
    obtain ⟨Q, q1, q2, q3, q4⟩ := vertex_root hi.1 hi.2.1 hi.2.2.1 hi.2.2.2.1 (hc i List.mem_cons_self i List.mem_cons_self).2.1 hi.2.2.2.2
    have hQR : Commute Q R := by
      refine r4 Q fun k hk => ?_
      have hk' := hc k (List.mem_cons_of_mem _ hk) i List.mem_cons_self
      exact ⟨(q4 _ hk'.1 hk'.2.1).symm, (q4 _ hk'.2.2.1 hk'.2.2.2).symm⟩
    refine ⟨Q * R, (IsHermitian.commute_iff q1 r1).1 hQR, q2.mul r2, ?_, fun Z hZ => (q4 Z (hZ i List.mem_cons_self).1 (hZ i List.mem_cons_self).2).mul_right
      (r4 Z fun k hk => hZ k (List.mem_cons_of_mem _ hk))⟩
    rw [List.map_cons, List.prod_cons, r3, neg_smul, ← smul_neg, q3, smul_mul_smul_comm, hQR.symm.mul_mul_mul_comm, List.length_cons, pow_succ']

theorem root_trace [Nonempty n] {R : Matrix n n ℝ} (h1 : R.IsHermitian) (h2 : IsUnit R) : 0 < (R * R).trace := by
  have e : (R * R).trace = ∑ i, ∑ k, R i k * R i k := by
    have e0 : ∀ i k, R k i = R i k := fun i k => by have := h1.apply i k; rwa [star_trivial] at this
    simp only [trace, diag, mul_apply]
    exact Finset.sum_congr rfl fun i _ => Finset.sum_congr rfl fun k _ => by rw [e0 i k]
  rw [e]
  refine lt_of_le_of_ne (Finset.sum_nonneg fun i _ => Finset.sum_nonneg fun k _ => mul_self_nonneg (R i k)) fun hz => ?_
  replace hz := hz.symm
  have hz1 := (Finset.sum_eq_zero_iff_of_nonneg fun i _ => Finset.sum_nonneg fun k _ => mul_self_nonneg (R i k)).1 hz
  have hR : R = 0 := by
    ext i k
    have := (Finset.sum_eq_zero_iff_of_nonneg fun k _ => mul_self_nonneg (R i k)).1 (hz1 i (Finset.mem_univ _)) k (Finset.mem_univ _)
    exact mul_self_eq_zero.1 this
  rw [hR] at h2
  exact not_isUnit_zero h2

theorem density_idem {nf ns : ℕ} (ha : Annihilators nf ns a) {z s : ℕ} (hz : z < nf) (hs : s < ns) :
    ((a z s)ᴴ * a z s) * ((a z s)ᴴ * a z s) = (a z s)ᴴ * a z s := by
  have e1 : a z s * a z s = 0 := by
    have h := ha.same z hz s hs z hz s hs
    rw [← two_smul ℝ (a z s * a z s)] at h
    exact (smul_eq_zero.1 h).resolve_left two_ne_zero
  have e2 : a z s * (a z s)ᴴ = 1 - (a z s)ᴴ * a z s := by
    have h := ha.mixed z hz s hs z hz s hs
    rw [if_pos ⟨rfl, rfl⟩] at h
    exact eq_sub_of_add_eq h
  rw [mul_assoc, ← mul_assoc (a z s), e2, sub_mul, one_mul, mul_assoc, e1, mul_zero, sub_zero]

theorem atomic_hops (ns : ℕ) : HermitianHops 2 ns (fun _ _ _ => (0 : ℝ)) := by
  intro z hz s hs s' hs'
  simp

/-- The fields of an on-site term are 1.01 and -0.01 or the other way round. -/
theorem atomic_fields {U : ℝ} {v : UDef ℝ} {s : ℕ} (hv : OnsiteTerm U 1e-2 s [s, s, s, s] [0, 1] v) {f : ℕ} (hf : f < 2) :
    (1 < v.d.alpha f 0 ∧ v.d.alpha f 1 < 0) ∨ (v.d.alpha f 0 < 0 ∧ 1 < v.d.alpha f 1) := by
  obtain rfl | rfl : f = 0 ∨ f = 1 := by omega
  · rw [hv.up.1, hv.up.2]
    norm_num
  · rw [hv.down.1, hv.down.2, hv.up.1, hv.up.2]
    norm_num

theorem atomic_trace [Nonempty n] {ns : ℕ} (ha : Annihilators 2 ns a) {U : ℝ} {tbl : List (VDef ℝ)} {y : List Pt}
    (hy : ∀ p ∈ y, ∃ s < ns, ∃ v : UDef ℝ, v.d = tbl.getD p.1 default ∧ OnsiteTerm U 1e-2 s [s, s, s, s] [0, 1] v ∧ p.2.1 < 2) :
    ∃ w > 0, (y.map fun p => atTime 0 p.2.2 (-(tbl.getD p.1 default).U • pairsOp a (tbl.getD p.1 default) p.2.1)).prod.trace = U ^ y.length * w := by
  let w : Pt → ℕ := fun p => (tbl.getD p.1 default).sites.getD 0 0
  have e : (y.map fun p => atTime 0 p.2.2 (-(tbl.getD p.1 default).U • pairsOp a (tbl.getD p.1 default) p.2.1)) =
      y.map fun p => -U • (((a 0 (w p))ᴴ * a 0 (w p) - (tbl.getD p.1 default).alpha p.2.1 0 • 1) *
        ((a 1 (w p))ᴴ * a 1 (w p) - (tbl.getD p.1 default).alpha p.2.1 1 • 1)) := by
    refine List.map_congr_left fun p hp => ?_
    obtain ⟨s, -, v, ev, hv, -⟩ := hy p hp
    simp only [w]
    rw [atTime_flat, ← ev, hv.U]
    congr 1
    unfold pairsOp
    rw [hv.rank, hv.sites, hv.flavors]
    simp [List.range_succ]
  have hw : ∀ p ∈ y, w p < ns := by
    intro p hp
    obtain ⟨s, hs, v, ev, hv, -⟩ := hy p hp
    simp only [w]
    rw [← ev, hv.sites]
    exact hs
  have hcomm : ∀ z < 2, ∀ z' < 2, ∀ p ∈ y, ∀ p' ∈ y, Commute ((a z (w p))ᴴ * a z (w p)) ((a z' (w p'))ᴴ * a z' (w p')) := by
    intro z hz z' hz' p hp p' hp'
    by_cases hq : z = z' ∧ w p = w p'
    · rw [hq.1, hq.2]
    · exact density_commute ha hz (hw p hp) hz' (hw p' hp') hq
  obtain ⟨R, r1, r2, r3, -⟩ := vertices_root (U := U) (M0 := fun p : Pt => (a 0 (w p))ᴴ * a 0 (w p)) (M1 := fun p : Pt => (a 1 (w p))ᴴ * a 1 (w p))
    (X := fun p : Pt => (tbl.getD p.1 default).alpha p.2.1 0) (Y := fun p : Pt => (tbl.getD p.1 default).alpha p.2.1 1) y
    (fun p hp => by
      obtain ⟨s, hs, v, ev, hv, hf⟩ := hy p hp
      refine ⟨density_idem ha (by norm_num) (hw p hp), density_idem ha (by norm_num) (hw p hp), isHermitian_conjTranspose_mul_self _,
        isHermitian_conjTranspose_mul_self _, ?_⟩
      rw [← ev]
      exact atomic_fields hv hf)
    (fun p hp p' hp' => ⟨hcomm 0 (by norm_num) 0 (by norm_num) p hp p' hp', hcomm 0 (by norm_num) 1 (by norm_num) p hp p' hp',
      hcomm 1 (by norm_num) 0 (by norm_num) p hp p' hp', hcomm 1 (by norm_num) 1 (by norm_num) p hp p' hp'⟩)
  exact ⟨_, root_trace r1 r2, by rw [e, r3, trace_smul, smul_eq_mul]⟩

theorem atomic_weight [Nonempty n] {ns : ℕ} {c : Ctx ℝ} (hc : c.nf = 2) (ha : Annihilators 2 ns a) {U : ℝ}
    (ht : ∀ d ∈ c.tbl, ∃ s < ns, ∃ v : UDef ℝ, v.d = d ∧ OnsiteTerm U 1e-2 s [s, s, s, s] [0, 1] v) (hT : TermsOn 2 ns c.tbl)
    (hG : ThermalG0 β 2 ns a 0 c.G0) {x : List Pt} (hx : ValidPts β c.tbl x) (hxp : x.Pairwise fun p p' => p.2.2 ≠ p'.2.2) :
    ∃ w > 0, weight c.NI c.nf c.G0 c.tbl (x.map vertAt) = U ^ x.length * w := by
  obtain ⟨y, h1, h2⟩ := sort_times hxp
  have hyv : ValidPts β c.tbl y := fun p hp => hx p (h1.mem_iff.2 hp)
  have hw := C95_weight (c := c) (a := a) (β := β) (h := fun _ _ _ => (0 : ℝ)) (ns := ns) (by rw [hc]; exact ha) (by rw [hc]; exact atomic_hops ns)
    (by rw [hc, atomic_bare]; exact hG) (by rw [hc]; exact hT) hx h1 h2
  rw [atomic_bare, thermal_flat] at hw
  have hcard : 0 < (1 : Matrix n n ℝ).trace := by
    rw [trace_one]; exact_mod_cast Fintype.card_pos
  have hsh := atomic_trace ha (U := U) (tbl := c.tbl) (y := y) fun p hp => by
    have hq := hyv p hp
    have hmem : c.tbl.getD p.1 default ∈ c.tbl := by
      rw [List.getD_eq_getElem _ _ hq.1]
      exact List.getElem_mem hq.1
    obtain ⟨s, hs, v, ev, hv⟩ := ht _ hmem
    refine ⟨s, hs, v, ev, hv, ?_⟩
    have := hq.2.1
    rwa [numStates, ← ev, hv.numAf] at this
  obtain ⟨w, hw0, ew⟩ := hsh
  rw [hw, ew, h1.length_eq]
  exact ⟨w / (1 : Matrix n n ℝ).trace, div_pos hw0 hcard, mul_div_assoc _ _ _⟩

/-- Sites without hopping, exact values in the file: the sign of almost every weight is that of the power of U. -/
theorem atomic_values [Nonempty n] {ns : ℕ} (hβ : 1e-8 < β) (ha : Annihilators 2 ns a) {U : ℝ} {tbl : List (VDef ℝ)}
    (ht : ∀ d ∈ tbl, ∃ s < ns, ∃ v : UDef ℝ, v.d = d ∧ OnsiteTerm U 1e-2 s [s, s, s, s] [0, 1] v) (hT : TermsOn 2 ns tbl)
    {S : Type} {is : IStream S} {dbg : Bool} {P : Params S} {j : ReadJunk} {V : FullSolver ℝ}
    (hr : FineRun is dbg P j V β 2 ns a (bareH 2 ns (fun _ _ _ => (0 : ℝ)) a) tbl 0 4) (m : ℕ) :
    ∀ᵐ x : Fin m → Pt ∂MeasureTheory.Measure.pi fun _ => pointMeasure β V.c.tbl,
      ∃ w > 0, weight V.c.NI V.c.nf V.c.G0 V.c.tbl ((List.ofFn x).map vertAt) = U ^ (List.ofFn x).length * w := by
  have hnf : V.c.nf = 2 := by rw [(C80_parameters hr.made).nf, hr.spins]
  have etbl := hr.terms
  rw [atomic_bare] at hr
  have hG := flat_green hβ hr
  rw [← etbl] at ht hT
  filter_upwards [ae_validPts β V.c.tbl m, ae_distinct β V.c.tbl m] with x hx hd
  refine atomic_weight hnf ha ht hT hG hx ?_
  rw [List.pairwise_ofFn]
  intro i j hij
  exact hd i j hij.ne

/-- Without hopping the Green's function between different sites vanishes. -/
theorem atomic_apart {ns : ℕ} (ha : Annihilators 2 ns a) {z s s' : ℕ} (hz : z < 2) (hs : s < ns) (hs' : s' < ns) (hne : s ≠ s') (t : ℝ) : greenOf β a 0 z s s' t = 0 := by
  have h := ha.mixed z hz s hs z hz s' hs'
  rw [if_neg fun q => hne q.2] at h
  have h2 := congrArg trace h
  rw [trace_add, trace_mul_comm (a z s')ᴴ, trace_zero] at h2
  unfold greenOf
  rw [atTime_flat, thermal_flat, show (a z s * (a z s')ᴴ).trace = 0 by linarith, zero_div, neg_zero]

/-- Any number of sites without hopping and any U ≠ 0: the program runs, with as many grid points, bins, Legendre polynomials and vertices as wanted. -/
theorem atomic_programs {S : Type} (is : IStream S) (dbg : Bool) (j : ReadJunk) (hβ : 1e-8 < β) {U : ℝ} (hU : U ≠ 0) {ns : ℕ} (hn : 0 < ns) : ∃ (n : Type) (_ : Fintype n) (_ : DecidableEq n) (_ : Nonempty n) (a : ℕ → ℕ → Matrix n n ℝ)
    (tbl : List (VDef ℝ)), Annihilators 2 ns a ∧ tbl.length = ns ∧ TermsOn 2 ns tbl ∧ (∃ σ π, HermitianTerms ns σ π tbl) ∧
    (exp (-β • (bareH 2 ns (fun _ _ _ => (0 : ℝ)) a + interactionH a tbl))).trace ≠ 0 ∧
    ∀ N : ℕ, ∃ file : GFile, HermitianFile ℝ file 2 ns ∧ ∀ δ : ℝ, 0 ≤ δ → ∀ m nl M : ℕ, 0 < m → 0 < nl →
      ∃ V : FullSolver ℝ, FineProgram is dbg (fineParams S ns β U file m nl M) (fun _ : Fin 1 => (⟨j, fun _ _ _ _ _ _ _ => 0, fun _ _ _ => 0⟩ : Memory ℝ)) V β 2 ns a
        (bareH 2 ns (fun _ _ _ => (0 : ℝ)) a) tbl δ N ∧ (0 < U → AlmostNonnegative V.c β M) := by
  obtain ⟨n, i1, i2, i3, a, ha⟩ := annihilators_exist ℝ 2 ns
  obtain ⟨tbl, t1, t1', t2, t3, t4⟩ := fine_runs (K := ℝ) (n := n) hβ (ns := ns) hn hU
  have hH : ∃ σ π, HermitianTerms ns σ π tbl := by
    obtain ⟨file, -, t5⟩ := t4 a (bareH 2 ns (fun _ _ _ => (0 : ℝ)) a) (bareH_hermitian (atomic_hops ns)) 0
    obtain ⟨V, hV, hr⟩ := t5 S is dbg j 0 le_rfl 1 1 1 one_pos one_pos
    have := C94_onsite hV.made rfl
    rw [hV.terms] at this
    exact ⟨_, _, this⟩
  have ht' : ∀ d ∈ tbl, ∃ s < ns, ∃ v : UDef ℝ, v.d = d ∧ OnsiteTerm U 1e-2 s [s, s, s, s] [0, 1] v := fun d hd => t1' d hd
  refine ⟨n, i1, i2, i3, a, tbl, ha, t1, t2, hH, density_terms_partition ha (atomic_hops ns) t2 t3 β, fun N => ?_⟩
  obtain ⟨file, hf, t5⟩ := t4 a (bareH 2 ns (fun _ _ _ => (0 : ℝ)) a) (bareH_hermitian (atomic_hops ns)) (max N 4)
  refine ⟨file, ⟨hf.grid, fun f hf' s hs s' hs' t ht => (hf.hermitian f s' s t hf' hs' hs ht).symm, ?_⟩,
    fun δ hδ m nl M hm hl => ?_⟩
  · intro f hf' s hs s' hs' hne
    obtain ⟨V, hV, -⟩ := t5 S is dbg j 0 le_rfl 1 1 1 one_pos one_pos
    obtain ⟨file', g6, -, g8⟩ := hV.file
    obtain rfl : file = file' := Option.some.inj (Option.some.inj g6)
    rw [atomic_bare] at g8
    have hg := hf.grid
    have hv : ∀ i : ℕ, (i : ℤ) < file.ntau → (file.value f s s' i : ℝ) = 0 := by
      intro i hi
      have := norm_le_zero_iff.1 (g8 f hf' s hs s' hs' i hi)
      rwa [atomic_apart ha hf' hs hs' hne, sub_zero] at this
    rw [hv 0 (by push_cast; omega), hv _ (by omega), add_zero]
  obtain ⟨V, hV, hr⟩ := t5 S is dbg j 0 le_rfl m nl M hm hl
  refine ⟨V, ⟨one_pos, fun _ => ?_, fineParams_usable hβ hm hl, ⟨?_, ?_, ?_, ?_, ?_⟩, rfl, by norm_num [fineParams, exParams], by norm_num [fineParams, exParams],
    by norm_num [fineParams, exParams], ?_⟩, fun hU0 => ?_⟩
  · obtain ⟨g1, g2, g3, g4, g5, file, g6, g7, g8⟩ := hV
    exact ⟨g1, g2, g3, g4, g5, file, g6, le_trans (by exact_mod_cast le_max_left _ _) g7, fun z hz s hs s' hs' i hi => (g8 z hz s hs s' hs' i hi).trans hδ⟩
  · intro h
    rw [h] at t1
    exact hn.ne t1
  · intro d hd
    obtain ⟨s, hs, v, rfl, hv⟩ := ht' d hd
    rw [hv.U]
    exact hU
  · intro d hd f hf r hr
    obtain ⟨s, hs, v, rfl, hv⟩ := ht' d hd
    rw [hv.numAf] at hf
    rw [hv.rank] at hr
    obtain rfl | rfl : f = 0 ∨ f = 1 := by omega
    all_goals obtain rfl | rfl : r = 0 ∨ r = 1 := by omega
    all_goals simp only [hv.down.1, hv.down.2, hv.up.1, hv.up.2]
    all_goals norm_num
  · intro d hd
    obtain ⟨s, hs, v, rfl, hv⟩ := ht' d hd
    rw [hv.numAf]
    norm_num
  · intro d hd z hz
    obtain ⟨s, hs, v, rfl, hv⟩ := ht' d hd
    rw [hv.rank, hv.flavors]
    obtain rfl | rfl : z = 0 ∨ z = 1 := by omega
    · exact ⟨0, by norm_num, rfl⟩
    · exact ⟨1, by norm_num, rfl⟩
  · obtain ⟨g1, g2, g3, g4, g5, file, g6, g7, g8⟩ := hV
    intro k _
    filter_upwards [atomic_values hβ ha ht' t2 ⟨g1, g2, g3, g4, g5, file, g6, le_trans (by exact_mod_cast le_max_right _ _) g7, g8⟩ k] with x hx
    obtain ⟨w, hw, e⟩ := hx
    rw [e]
    exact mul_ne_zero (pow_ne_zero _ hU) hw.ne'
  · obtain ⟨g1, g2, g3, g4, g5, file, g6, g7, g8⟩ := hV
    intro k _
    filter_upwards [atomic_values hβ ha ht' t2 ⟨g1, g2, g3, g4, g5, file, g6, le_trans (by exact_mod_cast le_max_right _ _) g7, g8⟩ k] with x hx
    obtain ⟨w, hw, e⟩ := hx
    rw [e]
    exact mul_nonneg (pow_nonneg hU0.le _) hw.le

end CTInt
