import Verif.Proofs.TwoDensities
import Verif.Proofs.Settle
import Verif.Props.Matsubara
import Verif.Props.Density

/-!
# What is written at the end, from the averages over the log
-/

set_option linter.all false

namespace CTInt

open MeasureTheory Set

/-- The average of a value over a list of records. -/
noncomputable def recMean (val : Record → ℝ) (l : List Record) : ℝ := (l.map val).sum / l.length

theorem logMean_eq (val : Record → ℝ) (l : List Measured) : logMean val l = recMean val (l.map fun r => r.values) := by
  unfold logMean recMean
  rw [List.map_map, List.length_map]
  rfl

theorem recMean_add (f g : Record → ℝ) (l : List Record) : recMean (fun r => f r + g r) l = recMean f l + recMean g l := by
  unfold recMean
  rw [List.sum_map_add, add_div]

theorem recMean_div (f : Record → ℝ) (x : ℝ) (l : List Record) : recMean (fun r => f r / x) l = recMean f l / x := by
  unfold recMean
  rw [show (fun r => f r / x) = fun r => f r * x⁻¹ from funext fun r => div_eq_mul_inv _ _, List.sum_map_mul_right, ← div_eq_mul_inv]
  ring

theorem recMean_sum (n : ℕ) (f : ℕ → Record → ℝ) (l : List Record) :
    recMean (fun r => ∑ i ∈ Finset.range n, f i r) l = ∑ i ∈ Finset.range n, recMean (f i) l := by
  induction n with
  | zero => simp [recMean]
  | succ n ih =>
    simp only [Finset.sum_range_succ]
    rw [recMean_add, ih]

theorem recMean_congr {f g : Record → ℝ} {l : List Record} (h : ∀ r ∈ l, f r = g r) : recMean f l = recMean g l := by
  unfold recMean
  rw [List.map_congr_left h]

theorem recMean_zero (l : List Record) : recMean (fun _ => 0) l = 0 := by
  simp [recMean]

/-- The vectors have the lengths that are read. -/
structure RecShape (nf ns nb : ℕ) (r : Record) : Prop where
  order : r.pertOrder.length = nf
  re : ∀ f < nf, ∀ a < ns, ∀ b < ns, (r.stauRe f a b).length = nb
  im : ∀ f < nf, ∀ a < ns, ∀ b < ns, (r.stauIm f a b).length = nb
  mean : r.dens.mean.length = nf
  nre : r.dens.ninjRe.length = nf * ns * nf * ns
  nim : r.dens.ninjIm.length = nf * ns * nf * ns

theorem meanVec_spec {l : List (List ℝ)} (hl : l ≠ []) {n : ℕ} (h : ∀ v ∈ l, v.length = n) :
    meanVec l = .ok ((List.range n).map fun i => (l.map fun w => w.getD i 0).sum / l.length) := by
  match l, hl, h with
  | v :: l, _, h =>
    have hv := h v (by simp)
    have hh : ∀ w ∈ l, w.length = v.length := fun w hw => by rw [h w (by simp [hw]), hv]
    show (Res.assert (∀ w ∈ l, w.length = v.length) >>= fun _ => _) = _
    rw [Res.assert_true hh, hv]
    simp only [Res.bind_ok, Res.pure_eq, List.length_cons, Nat.cast_add, Nat.cast_one]

theorem meanVec_rec {l : List Record} (hl : l ≠ []) (f : Record → List ℝ) {n : ℕ} (h : ∀ r ∈ l, (f r).length = n) :
    meanVec (l.map f) = .ok ((List.range n).map fun i => recMean (fun r => (f r).getD i 0) l) := by
  rw [meanVec_spec (n := n) (by simpa using hl) (by simpa using h)]
  congr 1
  refine List.map_congr_left fun i _ => ?_
  unfold recMean
  rw [List.map_map, List.length_map]
  rfl

theorem getD_rangeMap {α : Type} {n i : ℕ} (h : i < n) (f : ℕ → α) (d : α) : ((List.range n).map f).getD i d = f i := by
  simp [List.getD, h]

theorem get_rangeMap {α : Type} {n i : ℕ} (h : i < n) (f : ℕ → α) : Res.get ((List.range n).map f) i = .ok (f i) := by
  unfold Res.get
  simp [h]

theorem mapM_get {α : Type} (n : ℕ) (f : ℕ → α) :
    Res.mapM (fun i => Res.get ((List.range n).map f) i) (List.range n) = .ok ((List.range n).map f) := by
  have : ∀ k, k ≤ n → ∀ l : List ℕ, (∀ i ∈ l, i < n) → Res.mapM (fun i => Res.get ((List.range n).map f) i) l = .ok (l.map f) := by
    intro k _ l hl
    induction l with
    | nil => rfl
    | cons i l ih =>
      rw [Res.mapM, get_rangeMap (hl i (by simp)), Res.bind_ok, ih fun j hj => hl j (by simp [hj])]
      rfl
  exact this n le_rfl _ fun i hi => List.mem_range.1 hi

theorem loadStau_spec (nf ns nb : ℕ) {l : List Record} (hl : l ≠ []) (h : ∀ r ∈ l, RecShape nf ns nb r) :
    ∃ S, loadStau nf ns nb l = .ok S ∧ ∀ f < nf, ∀ a < ns, ∀ b < ns, ∀ ib < nb, S (off4 ns ns nb f a b ib) =
      ⟨recMean (fun r => (r.stauRe f a b).getD ib 0) l, recMean (fun r => (r.stauIm f a b).getD ib 0) l⟩ := by
  have h := MeasIn.loops4 nf ns ns nb (fun f a b ib (S : ℕ → ℂ) => do
      let re ← meanVec (l.map fun r => r.stauRe f a b)
      let im ← meanVec (l.map fun r => r.stauIm f a b)
      let x ← Res.get re ib
      let y ← Res.get im ib
      pure (Function.update S (off4 ns ns nb f a b ib) (⟨x, y⟩ : ℂ)))
    (fun p S => ∀ f < nf, ∀ a < ns, ∀ b < ns, ∀ ib < nb, off4 ns ns nb f a b ib < p → S (off4 ns ns nb f a b ib) =
      ⟨recMean (fun r => (r.stauRe f a b).getD ib 0) l, recMean (fun r => (r.stauIm f a b).getD ib 0) l⟩) (fun _ => 0)
    (fun _ _ _ _ _ _ _ _ h => by omega) ?_
  · obtain ⟨S, e, hS⟩ := h
    exact ⟨S, e, fun f hf a ha b hb ib hib => hS f hf a ha b hb ib hib (MeasIn.off4_lt hf ha hb hib)⟩
  · intro f hf a ha b hb ib hib S hS
    refine ⟨Function.update S (off4 ns ns nb f a b ib) ⟨recMean (fun r => (r.stauRe f a b).getD ib 0) l,
      recMean (fun r => (r.stauIm f a b).getD ib 0) l⟩, ?_, ?_⟩
    · rw [meanVec_rec hl (fun r => r.stauRe f a b) fun r hr => (h r hr).re f hf a ha b hb, Res.bind_ok,
        meanVec_rec hl (fun r => r.stauIm f a b) fun r hr => (h r hr).im f hf a ha b hb, Res.bind_ok,
        get_rangeMap hib, Res.bind_ok, get_rangeMap hib, Res.bind_ok]
      rfl
    · intro f' hf' a' ha' b' hb' n' hn' hlt
      by_cases heq : off4 ns ns nb f' a' b' n' = off4 ns ns nb f a b ib
      · obtain ⟨rfl, rfl, rfl, rfl⟩ := (off4_inj ha' ha hb' hb hn' hib).1 heq
        rw [Function.update_self]
      · rw [Function.update_of_ne heq]
        exact hS f' hf' a' ha' b' hb' n' hn' (by omega)

/-- What is written. -/
theorem postprocess_spec (nf ns nb nl nm : ℕ) (hnl : 0 < nl) (beta : ℝ) (sj : ℕ → ℝ → ℝ) (junkP : ℕ → ℕ → ℝ) {l : List Record} (hl : l ≠ [])
    (h : ∀ r ∈ l, RecShape nf ns nb r) (hs : recMean (fun r => r.sign) l ≠ 0) :
    ∃ ar, postprocess nf ns nb nl nm beta sj junkP l = .ok ar ∧
      ar.matrixSize = (List.range nf).map (fun z => recMean (fun r => r.pertOrder.getD z 0) l) ∧
      ar.sign = recMean (fun r => r.sign) l ∧
      (∀ f < nf, ∀ a < ns, ∀ b < ns, ∀ i < nb, ar.tau (off4 ns ns nf i a b f) =
        (⟨recMean (fun r => (r.stauRe f a b).getD i 0) l, recMean (fun r => (r.stauIm f a b).getD i 0) l⟩ : ℂ) / (ar.sign : ℂ)) ∧
      (∀ f < nf, ∀ a < ns, ∀ b < ns, ∀ k < nl, ar.legendre (off4 ns ns nf k a b f) =
        ∑ i ∈ Finset.range nb, ((Real.sqrt (2 * k + 1) * (legendreP k).eval (((i : ℝ) + 1 / 2) * (2 / nb) - 1) : ℝ) : ℂ) *
          ar.tau (off4 ns ns nf i a b f) * ((beta / nb : ℝ) : ℂ)) ∧
      (∀ f < nf, ∀ a < ns, ∀ b < ns, ∀ n < nm, ar.omega (off4 ns ns nf n a b f) =
        ∑ k ∈ Finset.range nl, tnl sj nm nl n k * ar.legendre (off4 ns ns nf k a b f)) ∧
      ar.densities = (List.range nf).map (fun z => recMean (fun r => r.dens.mean.getD z 0) l / ar.sign) ∧
      ∀ f1 < nf, ∀ i < ns, ∀ f2 < nf, ∀ j < ns, ar.ninj f1 i f2 j =
        (⟨recMean (fun r => r.dens.ninjRe.getD (off4 ns nf ns f1 i f2 j) 0) l,
          recMean (fun r => r.dens.ninjIm.getD (off4 ns nf ns f1 i f2 j) 0) l⟩ : ℂ) / (ar.sign : ℂ) := by
  set σ := recMean (fun r => r.sign) l with hσ
  obtain ⟨S0, e1, q1⟩ := loadStau_spec nf ns nb hl h
  obtain ⟨S, Sl, e2, q2, q3⟩ := postBinning_spec nf ns nb nl hnl beta σ junkP S0
  obtain ⟨Sw, e3, q4⟩ := postFreq_spec nf ns nm nl (tnl sj nm nl) Sl
  obtain ⟨x, e4, q5⟩ := MeasIn.postNinj_spec nf ns σ
    ((List.range (nf * ns * nf * ns)).map fun i => recMean (fun r => r.dens.ninjRe.getD i 0) l)
    ((List.range (nf * ns * nf * ns)).map fun i => recMean (fun r => r.dens.ninjIm.getD i 0) l) (by simp) (by simp)
  have eσ : meanOf (l.map fun r => r.sign) = .ok σ := by
    unfold meanOf
    rw [Res.assert_true (by simpa using hl), hσ]
    unfold recMean
    simp only [Res.bind_ok, Res.pure_eq, List.length_map]
  refine ⟨⟨(List.range nf).map fun z => recMean (fun r => r.pertOrder.getD z 0) l, σ, Sl, Sw, S,
    (List.range nf).map fun z => recMean (fun r => r.dens.mean.getD z 0) l / σ, x.1⟩, ?_, rfl, rfl, ?_, ?_, q4, rfl, ?_⟩
  · unfold postprocess
    rw [meanVec_rec hl (fun r => r.pertOrder) fun r hr => (h r hr).order, Res.bind_ok, mapM_get, Res.bind_ok, eσ, Res.bind_ok,
      Res.assert_true hs, Res.bind_ok, e1, Res.bind_ok, e2, Res.bind_ok, e3, Res.bind_ok,
      meanVec_rec hl (fun r => r.dens.mean) fun r hr => (h r hr).mean, Res.bind_ok,
      meanVec_rec hl (fun r => r.dens.ninjRe) fun r hr => (h r hr).nre, Res.bind_ok,
      meanVec_rec hl (fun r => r.dens.ninjIm) fun r hr => (h r hr).nim, Res.bind_ok, e4, Res.bind_ok, List.map_map]
    rfl
  · intro f hf a ha b hb i hi
    show S _ = _
    rw [q2 f hf a ha b hb i hi, q1 f hf a ha b hb i hi]
  · intro f hf a ha b hb k hk
    show Sl _ = _
    rw [q3 f hf a ha b hb k hk]
    refine Finset.sum_congr rfl fun i hi => ?_
    rw [← q2 f hf a ha b hb i (Finset.mem_range.1 hi)]
  · intro f1 hf1 i hi f2 hf2 j hj
    show x.1 f1 i f2 j = _
    rw [q5 f1 hf1 i hi f2 hf2 j hj, getD_rangeMap (MeasIn.off4_lt hf1 hi hf2 hj), getD_rangeMap (MeasIn.off4_lt hf1 hi hf2 hj)]

section
variable {K : Type} [RCLike K] [DecidableEq K]

/-- The vectors of a measurement. -/
theorem record_shape {c : Ctx K} {q : MeasPar K} {junk : ℕ → ℕ → K} {u : ℕ → ℝ} {s : Sub K} {p p' : ℕ} {r : Record}
    (e : measureObservables q c junk u s p = .ok (r, p')) : RecShape c.nf q.ns q.nb r := by
  unfold measureObservables at e
  simp only [Res.bind_eq_ok] at e
  obtain ⟨M, eM, S, eS, d, ed, t, et, e⟩ := e
  rw [Res.pure_eq] at e
  injection e with e
  injection e with e e'
  subst e
  unfold MeasIn.measureDensities at ed
  simp only [Res.bind_eq_ok] at ed
  obtain ⟨d0, ed0, x, ex, ed⟩ := ed
  obtain ⟨x', ex', l1, l2, -⟩ := MeasIn.ninjAll_spec (measIn q c s M) d0
  rw [ex] at ex'
  cases Res.ok.inj ex'
  rw [Res.pure_eq] at ed
  injection ed with ed
  subst ed
  exact ⟨by simp, fun _ _ _ _ _ _ => by simp, fun _ _ _ _ _ _ => by simp, by simp [measIn], by simpa [measIn] using l1, by simpa [measIn] using l2⟩

variable {c : Ctx K} {q : MeasPar K} {G : ℝ → ℕ → ℕ → ℕ → K} {m : Mgr} {kIns maxOrder : ℕ} {sz : ℝ}

open Classical in
/-- What holds for every record a measurement can make holds for all records of a simulation. -/
theorem log_all (h : SimOK c q G m kIns maxOrder sz) {P : Record → Prop}
    (hP : ∀ (s : Sub K) (y : List Pt) (u : ℕ → ℝ) (junk : ℕ → ℕ → K) (p : ℕ) (r : Record) (p' : ℕ), At c s y → TimesIn q.beta s.verts → GoodS u →
      measureObservables q c junk u s p = .ok (r, p') → P r)
    (a : SimPar) (hp : 0 < a.steps.period) {s : Sim K} (hs : AtStart m c q.beta maxOrder s) (J : ℕ → ℕ → ℕ → ℕ → ℕ → ℕ → ℕ → K)
    (junk : ℕ → ℕ → ℕ → K) {u : ℕ → ℝ} (hu : GoodS u) (n : ℕ) {y : Sim K}
    (hy : Returns (fun fuel => s.passes a m q c J junk u fuel (a.steps.therm / a.steps.period + n)) y) : ∀ r ∈ y.log, P r.values := by
  obtain ⟨hSA, hL⟩ := hs.at h
  have hdiv := Nat.div_add_mod a.steps.therm a.steps.period
  have hmod := Nat.mod_lt a.steps.therm hp
  rw [Nat.mul_comm] at hdiv
  obtain ⟨y', l, t1, t2, t3, t4⟩ := passes_sim h a hu J junk (a.steps.therm / a.steps.period) n hSA (by rw [hs.step]; omega) (by rw [hs.step]; omega)
  cases hy.unique t1
  rw [hs.log, List.nil_append] at t2
  have h1 : ReadsAs c q (fun r => if P r then 1 else 0) (fun _ => 1) := by
    intro s y u junk p r p' a1 a2 a3 a4
    exact if_pos (hP s y u junk p r p' a1 a2 a3 a4)
  have h2 := t4 _ _ h1
  intro r hr
  rw [t2] at hr
  have h3 := List.mem_map_of_mem (f := fun r : Measured => if P r.values then (1 : ℝ) else 0) hr
  rw [h2, List.mem_map] at h3
  obtain ⟨j, -, e⟩ := h3
  have e : (1 : ℝ) = if P r.values then 1 else 0 := e
  by_contra hn
  rw [if_neg hn] at e
  exact one_ne_zero e

/-- The sum of the moduli of the weights. -/
theorem configSum_norm {B beta : ℝ} (hB : ∀ a b, ‖c.G0 a b‖ ≤ B) (hG : MeasurableG0 c.G0) (M : ℕ) :
    (configSum c beta M fun x => ‖wt c x‖) = (ensemble c beta M 1).toReal ∧ 0 < (ensemble c beta M 1).toReal := by
  have h1 := ensVal_indicator (c := c) hB hG beta M MeasurableSet.univ
  have hZ := ensemble_lt_top (beta := beta) hB M
  have hZ1 := one_le_ensemble c beta M
  have hZ0 : 0 < (ensemble c beta M 1).toReal := ENNReal.toReal_pos (by intro h; rw [h] at hZ1; simp at hZ1) hZ.ne
  rw [Set.indicator_univ, Set.indicator_univ, ENNReal.toReal_div, div_self hZ0.ne'] at h1
  unfold ensVal at h1
  rw [div_eq_one_iff_eq hZ0.ne'] at h1
  simp only [Pi.one_apply, mul_one] at h1
  exact ⟨h1, hZ0⟩

end

end CTInt
