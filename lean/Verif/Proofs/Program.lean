import Verif.Model.Program
import Verif.Spec.Program
import Verif.Props.RunLoop
import Verif.Props.Solver
import Verif.Props.SelfComplex

/-!
# Several processes: pooled averages, the end of the loop, what the processes record
-/

set_option linter.all false

namespace CTInt

open MeasureTheory

variable {K : Type} [RCLike K] [DecidableEq K] {S : Type}

/-! ## Pooled averages -/

theorem pooled_tendsto {n : ℕ} {F : Fin n → ℕ → ℝ} {x : ℝ} (hF : ∀ i, Filter.Tendsto (fun k : ℕ => F i k / k) Filter.atTop (nhds x))
    {N : ℕ → Fin n → ℕ} (hN : Filter.Tendsto (fun l => ∑ i, N l i) Filter.atTop Filter.atTop) :
    Filter.Tendsto (fun l => (∑ i, F i (N l i)) / ((∑ i, N l i : ℕ) : ℝ)) Filter.atTop (nhds x) := by
  rw [Metric.tendsto_atTop]
  intro ε hε
  have h1 : ∀ i, ∃ C : ℝ, 0 ≤ C ∧ ∀ k : ℕ, |F i k - k * x| ≤ ε / 2 * k + C := by
    intro i
    obtain ⟨k0, hk0⟩ := Metric.tendsto_atTop.1 (hF i) (ε / 2) (by positivity)
    refine ⟨∑ k ∈ Finset.range (k0 + 1), |F i k - k * x|, Finset.sum_nonneg fun _ _ => abs_nonneg _, fun k => ?_⟩
    have hS : 0 ≤ ∑ k ∈ Finset.range (k0 + 1), |F i k - k * x| := Finset.sum_nonneg fun _ _ => abs_nonneg _
    rcases Nat.lt_or_ge k (k0 + 1) with hk | hk
    · have h2 := Finset.single_le_sum (f := fun k : ℕ => |F i k - k * x|) (fun _ _ => abs_nonneg _) (Finset.mem_range.2 hk)
      have : 0 ≤ ε / 2 * (k : ℝ) := by positivity
      linarith
    · have h2 := hk0 k (by omega)
      rw [Real.dist_eq] at h2
      have hk' : (0 : ℝ) < k := by
        have : 0 < k := by omega
        exact_mod_cast this
      have e : F i k - k * x = (F i k / k - x) * k := by field_simp
      rw [e, abs_mul, abs_of_pos hk']
      have := mul_le_mul_of_nonneg_right h2.le hk'.le
      linarith
  choose C hC0 hC using h1
  obtain ⟨l0, hl0⟩ := Filter.tendsto_atTop_atTop.1 hN (⌈2 * (∑ i, C i) / ε⌉₊ + 1)
  refine ⟨l0, fun l hl => ?_⟩
  have hM := hl0 l hl
  set M := ∑ i, N l i with hMdef
  have hM0 : (0 : ℝ) < M := by
    have : 0 < M := by omega
    exact_mod_cast this
  have hM1 : 2 * (∑ i, C i) / ε < M := by
    have h2 := Nat.le_ceil (2 * (∑ i, C i) / ε)
    have h3 : ((⌈2 * (∑ i, C i) / ε⌉₊ + 1 : ℕ) : ℝ) ≤ M := by exact_mod_cast hM
    push_cast at h3
    linarith
  rw [div_lt_iff₀ hε] at hM1
  have e : (∑ i, F i (N l i)) / (M : ℝ) - x = (∑ i, (F i (N l i) - N l i * x)) / M := by
    rw [Finset.sum_sub_distrib, ← Finset.sum_mul, ← Nat.cast_sum, ← hMdef]
    field_simp
  rw [Real.dist_eq, e, abs_div, abs_of_pos hM0, div_lt_iff₀ hM0]
  have h4 : |∑ i, (F i (N l i) - N l i * x)| ≤ ∑ i, (ε / 2 * (N l i : ℝ) + C i) :=
    (Finset.abs_sum_le_sum_abs _ _).trans (Finset.sum_le_sum fun i _ => hC i _)
  rw [Finset.sum_add_distrib, ← Finset.mul_sum, ← Nat.cast_sum, ← hMdef] at h4
  linarith

/-! ## The end of the loop -/

theorem reachable_full {c : Steps} {n : ℕ} (hn : 0 < n) {w : World n} (h : w.Reachable c) :
    (∀ i, (w.proc i).at_ = .returned true) → 1 ≤ ∑ i, fraction c (w.proc i).step := by
  unfold World.Reachable at h
  induction h with
  | refl =>
    intro hall
    cases hall ⟨0, hn⟩
  | @tail w w' h1 hs ih =>
    have t := reachable_together (w := w) h1
    intro hall
    cases hs with
    | pass i pending stop hi =>
      exfalso
      have h2 := hall i
      simp only [if_true] at h2
      obtain ⟨b0, hb0⟩ := hi
      unfold Proc.pass at h2
      rw [hb0] at h2
      simp only at h2
      split at h2 <;> cases h2
    | reduce hred =>
      have hv : ∀ i, (w.proc i).value = fraction c (w.proc i).step ∧ ((w.proc i).leave (∑ j, (w.proc j).value)).step = (w.proc i).step ∧
          1 ≤ ∑ j, (w.proc j).value := by
        intro i
        obtain ⟨b, v, e⟩ := hred i
        have hi := hall i
        simp only at hi
        have hl : (w.proc i).leave (∑ j, (w.proc j).value) =
            ⟨open Classical in if ∑ j, (w.proc j).value ≥ 1 then .returned (!b) else .running b, (w.proc i).step, (w.proc i).entered⟩ := by
          unfold Proc.leave
          rw [e]
        rw [hl] at hi
        simp only at hi
        split at hi
        · rename_i hge
          injection hi with hi
          have hb : b = false := by simpa using hi
          subst hb
          have hval := t.val i false v e
          refine ⟨?_, by rw [hl], hge⟩
          unfold Proc.value
          rw [e]
          simpa using hval
        · cases hi
      have h3 := (hv ⟨0, hn⟩).2.2
      simp only
      rw [Finset.sum_congr rfl fun i _ => congrArg (fraction c) (hv i).2.1, ← Finset.sum_congr rfl fun i _ => (hv i).1]
      exact h3

/-- A completed run has at least as many recorded steps as requested. -/
theorem completes_enough {c : Steps} {n : ℕ} (hn : 0 < n) {passes : Fin n → ℕ} (h : Completes c passes) :
    c.mc ≤ c.period * ∑ i, (passes i - c.therm / c.period) := by
  obtain ⟨w, hw, hall⟩ := h
  have h1 := reachable_full hn hw fun i => (hall i).1
  rcases Nat.eq_zero_or_pos c.mc with h0 | h0
  · rw [h0]; exact Nat.zero_le _
  have hmc : (0 : ℝ) < c.mc := by exact_mod_cast h0
  have h2 : ∀ i, fraction c (w.proc i).step ≤ ((c.period * (passes i - c.therm / c.period) : ℕ) : ℝ) / c.mc := by
    intro i
    unfold fraction
    split
    · positivity
    · rename_i ht
      refine div_le_div_of_nonneg_right ?_ hmc.le
      have hs := (hall i).2
      have ht : c.therm < (w.proc i).step := by
        unfold Steps.isTherm at ht
        simpa using ht
      rw [hs] at ht ⊢
      have hd : c.period * (c.therm / c.period) ≤ c.therm := Nat.mul_div_le _ _
      have h4 : c.period * (passes i - c.therm / c.period) = passes i * c.period - c.period * (c.therm / c.period) := by
        rw [Nat.mul_sub, Nat.mul_comm]
      have h5 : passes i * c.period ≤ c.period * (passes i - c.therm / c.period) + c.therm := by omega
      have h6 : ((passes i * c.period : ℕ) : ℝ) ≤ ((c.period * (passes i - c.therm / c.period) : ℕ) : ℝ) + (c.therm : ℝ) := by exact_mod_cast h5
      linarith
  have h3 : (1 : ℝ) ≤ (∑ i, ((c.period * (passes i - c.therm / c.period) : ℕ) : ℝ)) / c.mc := by
    rw [Finset.sum_div]
    exact h1.trans (Finset.sum_le_sum fun i _ => h2 i)
  rw [le_div_iff₀ hmc, one_mul, ← Nat.cast_sum, ← Finset.mul_sum] at h3
  exact_mod_cast h3

theorem completes_grow {n : ℕ} (hn : 0 < n) {T : ℕ → ℕ} (hT : Filter.Tendsto T Filter.atTop Filter.atTop) {therm period : ℕ} {k : ℕ → Fin n → ℕ}
    (hC : ∀ l, Completes ⟨T l, therm, period⟩ (k l)) (hp : 0 < period) :
    Filter.Tendsto (fun l => ∑ i, (k l i - therm / period)) Filter.atTop Filter.atTop ∧
      ∀ l, T l ≤ period * ∑ i, (k l i - therm / period) := by
  have h1 : ∀ l, T l ≤ period * ∑ i, (k l i - therm / period) := fun l => completes_enough hn (hC l)
  refine ⟨?_, h1⟩
  rw [Filter.tendsto_atTop_atTop] at hT ⊢
  intro b
  obtain ⟨l0, hl0⟩ := hT (period * b)
  exact ⟨l0, fun l hl => Nat.le_of_mul_le_mul_left ((hl0 l hl).trans (h1 l)) hp⟩

/-- All processes may be asked to stop after one pass. -/
theorem ends_once {n : ℕ} (hn : 0 < n) (c : Steps) : Ends c (fun _ : Fin n => 1) := by
  classical
  have h1 : ∀ A : Finset (Fin n), (⟨fun i => if i ∈ A then ⟨.reducing true 1, c.period, 1⟩ else Proc.start, []⟩ : World n).Reachable c := by
    intro A
    induction A using Finset.induction with
    | empty => exact Relation.ReflTransGen.refl
    | insert a A ha ih =>
      have hs := World.Step.pass (c := c) (⟨fun i => if i ∈ A then ⟨.reducing true 1, c.period, 1⟩ else Proc.start, []⟩ : World n) a true true
        ⟨false, by simp [ha, Proc.start]⟩
      have e : (fun j => if j = a then ((fun i => if i ∈ A then (⟨.reducing true 1, c.period, 1⟩ : Proc) else Proc.start) a).pass c true true
          else if j ∈ A then (⟨.reducing true 1, c.period, 1⟩ : Proc) else Proc.start) =
          fun i => if i ∈ insert a A then (⟨.reducing true 1, c.period, 1⟩ : Proc) else Proc.start := by
        funext j
        by_cases hj : j = a
        · simp [hj, ha, Proc.pass, Proc.start]
        · simp [hj]
      simp only at hs
      rw [e] at hs
      exact ih.tail hs
  have h2 := h1 Finset.univ
  simp only [Finset.mem_univ, if_true] at h2
  have hs := World.Step.reduce (c := c) (⟨fun i => ⟨.reducing true 1, c.period, 1⟩, []⟩ : World n) fun i => ⟨true, 1, rfl⟩
  refine ⟨_, h2.tail hs, fun i => ?_⟩
  have hsum : (∑ j : Fin n, (⟨.reducing true 1, c.period, 1⟩ : Proc).value) ≥ 1 := by
    have : (1 : ℝ) ≤ n := by exact_mod_cast hn
    simp [Proc.value, this]
  constructor
  · refine ⟨false, ?_⟩
    show ((⟨.reducing true 1, c.period, 1⟩ : Proc).leave (∑ j : Fin n, (⟨.reducing true 1, c.period, 1⟩ : Proc).value)).at_ = _
    simp only [Proc.leave]
    rw [if_pos hsum]
    rfl
  · show ((⟨.reducing true 1, c.period, 1⟩ : Proc).leave (∑ j : Fin n, (⟨.reducing true 1, c.period, 1⟩ : Proc).value)).step = _
    simp [Proc.leave]

/-- The loop can complete: every process makes the same number of passes and checks only after the last. -/
theorem completes_exists {n : ℕ} (hn : 0 < n) (c : Steps) (hmc : 0 < c.mc) (hp : 0 < c.period) :
    Completes c (fun _ : Fin n => (c.therm + c.mc) / c.period + 1) := by
  classical
  set k := (c.therm + c.mc) / c.period with hk
  set fin : Proc := ⟨.reducing false (fraction c ((k + 1) * c.period)), (k + 1) * c.period, 1⟩ with hfin
  -- some processes have arrived, one is on its way, the others have not begun
  have h1 : ∀ A : Finset (Fin n), (⟨fun i => if i ∈ A then fin else Proc.start, []⟩ : World n).Reachable c := by
    intro A
    induction A using Finset.induction with
    | empty => exact Relation.ReflTransGen.refl
    | insert a A ha ih =>
      have h2 : ∀ r, (⟨fun i => if i = a then ⟨.running false, r * c.period, 0⟩ else if i ∈ A then fin else Proc.start, []⟩ : World n).Reachable c := by
        intro r
        induction r with
        | zero =>
          refine (congrArg (fun f => World.Reachable c (⟨f, []⟩ : World n)) (funext fun i => ?_)).mpr ih
          by_cases hi : i = a
          · subst hi
            simp [ha, Proc.start]
          · simp [hi]
        | succ r ihr =>
          have hs := World.Step.pass (c := c)
            (⟨fun i => if i = a then ⟨.running false, r * c.period, 0⟩ else if i ∈ A then fin else Proc.start, []⟩ : World n) a false false
            ⟨false, by simp⟩
          refine (congrArg (fun f => World.Reachable c (⟨f, []⟩ : World n)) (funext fun i => ?_)).mpr (ihr.tail hs)
          by_cases hi : i = a
          · simp [hi, Proc.pass, Nat.succ_mul]
          · simp [hi]
      have hs := World.Step.pass (c := c)
        (⟨fun i => if i = a then ⟨.running false, k * c.period, 0⟩ else if i ∈ A then fin else Proc.start, []⟩ : World n) a true false
        ⟨false, by simp⟩
      refine (congrArg (fun f => World.Reachable c (⟨f, []⟩ : World n)) (funext fun i => ?_)).mpr ((h2 k).tail hs)
      by_cases hi : i = a
      · simp [hi, Proc.pass, hfin, Nat.succ_mul]
      · simp [hi]
  have h2 := h1 Finset.univ
  simp only [Finset.mem_univ, if_true] at h2
  have hfr : 1 ≤ fraction c ((k + 1) * c.period) := by
    rw [(C51_fraction hmc).2.2.2]
    have : c.therm + c.mc < (k + 1) * c.period := Nat.lt_mul_of_div_lt (Nat.lt_succ_self _) hp
    omega
  have hs := World.Step.reduce (c := c) (⟨fun i => fin, []⟩ : World n) fun i => ⟨false, _, rfl⟩
  have hsum : (∑ j : Fin n, fin.value) ≥ 1 := by
    have h3 : (1 : ℝ) ≤ n := by exact_mod_cast hn
    have h4 : fin.value = fraction c ((k + 1) * c.period) := rfl
    rw [Finset.sum_const, Finset.card_univ, Fintype.card_fin, nsmul_eq_mul, h4]
    nlinarith
  refine ⟨_, h2.tail hs, fun i => ?_⟩
  have hl : fin.leave (∑ j : Fin n, fin.value) = ⟨.returned true, (k + 1) * c.period, 1⟩ := by
    unfold Proc.leave
    simp only [hfin]
    simp only [hfin] at hsum
    rw [if_pos hsum]
    rfl
  constructor
  · show (fin.leave (∑ j : Fin n, fin.value)).at_ = _
    rw [hl]
  · show (fin.leave (∑ j : Fin n, fin.value)).step = _
    rw [hl]

/-! ## The total number of steps does not enter a pass -/

theorem passes_mc (nIR nSh nSF mc mc' therm period : ℕ) (m : Mgr) (q : MeasPar K) (c : Ctx K) (J : ℕ → ℕ → ℕ → ℕ → ℕ → ℕ → ℕ → K)
    (junk : ℕ → ℕ → ℕ → K) (u : ℕ → ℝ) (fuel : ℕ) (n : ℕ) (s : Sim K) :
    s.passes ⟨nIR, nSh, nSF, ⟨mc, therm, period⟩⟩ m q c J junk u fuel n = s.passes ⟨nIR, nSh, nSF, ⟨mc', therm, period⟩⟩ m q c J junk u fuel n := by
  induction n generalizing s with
  | zero => rfl
  | succ n ih =>
    unfold Sim.passes
    have e : s.pass ⟨nIR, nSh, nSF, ⟨mc, therm, period⟩⟩ m q c J junk u fuel = s.pass ⟨nIR, nSh, nSF, ⟨mc', therm, period⟩⟩ m q c J junk u fuel := rfl
    rw [e]
    congr 1
    exact funext ih

/-- Another total number of steps changes nothing else in the solver. -/
theorem create_total {is : IStream S} {dbg : Bool} {P : Params S} {j : ReadJunk} {V : FullSolver K}
    (h : FullSolver.create is dbg P j = .ok V) (T : ℕ) :
    FullSolver.create is dbg { P with total := T } j = .ok { V with a := ⟨V.a.nIR, V.a.nSh, V.a.nSF, ⟨T, V.a.steps.therm, V.a.steps.period⟩⟩ } := by
  unfold FullSolver.create at h ⊢
  simp only [Res.bind_eq_ok] at h ⊢
  obtain ⟨t, ht, leg, hleg, x1, h1, x2, h2, g, hg, x3, h3, ini, hini, sub, hsub, h⟩ := h
  refine ⟨t, ht, leg, hleg, x1, h1, x2, h2, g, hg, x3, h3, ini, hini, sub, hsub, ?_⟩
  have h := Res.ok.inj h
  rw [← h]
  rfl

/-! ## What a process records -/

variable {c : Ctx K} {q : MeasPar K} {G : ℝ → ℕ → ℕ → ℕ → K} {m : Mgr} {kIns maxOrder : ℕ} {sz : ℝ}

theorem count_passes (period therm : ℕ) (hp : 0 < period) (n : ℕ) :
    ((List.range n).countP fun k => decide (0 + (k + 1) * period > therm)) = n - therm / period := by
  induction n with
  | zero => simp
  | succ n ih =>
    rw [List.range_succ, List.countP_append, ih]
    have h1 : therm < (n + 1) * period ↔ therm / period < n + 1 := (Nat.div_lt_iff_lt_mul hp).symm
    by_cases h2 : therm / period < n + 1
    · have h3 := h1.2 h2
      simp [h3]
      omega
    · have h3 : ¬ therm < (n + 1) * period := fun h => h2 (h1.1 h)
      rw [List.countP_singleton, if_neg (by simpa using h3)]
      omega

/-- Every number of passes returns; the records after `k` passes are those of the passes after the thermalisation. -/
theorem process_records (h : SimOK c q G m kIns maxOrder sz) (a : SimPar) (hp : 0 < a.steps.period) {s : Sim K}
    (hs : AtStart m c q.beta maxOrder s) (J : ℕ → ℕ → ℕ → ℕ → ℕ → ℕ → ℕ → K) (junk : ℕ → ℕ → ℕ → K) {u : ℕ → ℝ} (hu : GoodS u) :
    ∃ y : ℕ → Sim K, ∀ k, Returns (fun fuel => s.passes a m q c J junk u fuel k) (y k) ∧ (y k).log.length = k - a.steps.therm / a.steps.period := by
  obtain ⟨b, b1, b2⟩ := hs.reached.means h.ht h.hf h.hm
  have hB : Between c q m s := by
    refine ⟨⟨b, b1, b2⟩, fun v hv => ?_, ?_⟩
    · have := hs.valid (ptOf v) (List.mem_map_of_mem hv)
      exact ⟨this.2.2.1, this.2.2.2.le⟩
    · have : m.maxOrder = maxOrder := by rw [h.hm]; rfl
      rw [this]; exact hs.order
  have : ∀ k, ∃ y, Returns (fun fuel => s.passes a m q c J junk u fuel k) y ∧ y.log.length = k - a.steps.therm / a.steps.period := by
    intro k
    have ht := passes_total h a hu.2 J junk k hB
    obtain ⟨F, y, hy⟩ := ht.ends hu.1
    refine ⟨y, ⟨F, hy⟩, ?_⟩
    have h1 := ht.good F
    rw [hy F le_rfl] at h1
    obtain ⟨-, -, h2⟩ := h1
    rw [h2, hs.step, hs.log, count_passes _ _ hp]
    simp
  choose y hy using this
  exact ⟨y, hy⟩

/-- What holds for every record a measurement can make holds for what a process records. -/
theorem process_all (h : SimOK c q G m kIns maxOrder sz) {P : Record → Prop}
    (hP : ∀ (s : Sub K) (y : List Pt) (u : ℕ → ℝ) (junk : ℕ → ℕ → K) (p : ℕ) (r : Record) (p' : ℕ), At c s y → TimesIn q.beta s.verts → GoodS u →
      measureObservables q c junk u s p = .ok (r, p') → P r)
    (a : SimPar) (hp : 0 < a.steps.period) {s : Sim K} (hs : AtStart m c q.beta maxOrder s) {J : ℕ → ℕ → ℕ → ℕ → ℕ → ℕ → ℕ → K}
    {junk : ℕ → ℕ → ℕ → K} {u : ℕ → ℝ} (hu : GoodS u) {y : ℕ → Sim K}
    (hy : ∀ k, Returns (fun fuel => s.passes a m q c J junk u fuel k) (y k) ∧ (y k).log.length = k - a.steps.therm / a.steps.period) (k : ℕ) :
    ∀ r ∈ (y k).log, P r.values := by
  rcases Nat.lt_or_ge k (a.steps.therm / a.steps.period) with hlt | hge
  · have : (y k).log = [] := List.length_eq_zero_iff.1 (by rw [(hy k).2]; omega)
    rw [this]
    intro r hr
    cases hr
  · obtain ⟨d, rfl⟩ := Nat.exists_eq_add_of_le hge
    exact log_all h hP a hp hs J junk hu d (hy _).1

theorem recMean_flatMap {n : ℕ} (f : Record → ℝ) (R : Fin n → List Record) :
    recMean f ((List.finRange n).flatMap R) = (∑ i, ((R i).map f).sum) / ((∑ i, (R i).length : ℕ) : ℝ) := by
  unfold recMean
  congr 1
  · rw [List.map_flatMap, ← List.sum_ofFn, List.ofFn_eq_map]
    induction List.finRange n with
    | nil => rfl
    | cons a l ih => rw [List.flatMap_cons, List.sum_append, ih, List.map_cons, List.sum_cons]
  · rw [List.length_flatMap, ← List.sum_ofFn, List.ofFn_eq_map]

/-- The averages over the records of all processes. -/
theorem pooled_mean (a : SimPar) {n : ℕ} {s : Sim K} {J : Fin n → ℕ → ℕ → ℕ → ℕ → ℕ → ℕ → ℕ → K} {junk : Fin n → ℕ → ℕ → ℕ → K} {u : Fin n → ℕ → ℝ}
    {y : Fin n → ℕ → Sim K} (hy : ∀ i k, Returns (fun fuel => s.passes a m q c (J i) (junk i) (u i) fuel k) (y i k) ∧
      (y i k).log.length = k - a.steps.therm / a.steps.period)
    {f : Record → ℝ} {x : ℝ} (hT : ∀ i, Settles a m q c (J i) (junk i) s f x (u i)) {k : ℕ → Fin n → ℕ}
    (hk : Filter.Tendsto (fun l => ∑ i, (k l i - a.steps.therm / a.steps.period)) Filter.atTop Filter.atTop) :
    Filter.Tendsto (fun l => recMean f ((List.finRange n).flatMap fun i => (y i (k l i)).log.map fun r => r.values)) Filter.atTop (nhds x) := by
  set t0 := a.steps.therm / a.steps.period with ht0
  have h1 : ∀ i, Filter.Tendsto (fun N : ℕ => (((y i (t0 + N)).log.map fun r => r.values).map f).sum / N) Filter.atTop (nhds x) := by
    intro i
    have := (hT i).atK fun N => (hy i (t0 + N)).1
    refine this.congr fun N => ?_
    unfold recMean
    rw [List.length_map, (hy i (t0 + N)).2, Nat.add_sub_cancel_left]
  refine (pooled_tendsto h1 hk).congr fun l => ?_
  rw [recMean_flatMap]
  congr 1
  · refine Finset.sum_congr rfl fun i _ => ?_
    rcases Nat.lt_or_ge (k l i) t0 with hlt | hge
    · have e1 : (y i (k l i)).log = [] := List.length_eq_zero_iff.1 (by rw [(hy i _).2]; omega)
      have e2 : (y i (t0 + (k l i - t0))).log = [] := List.length_eq_zero_iff.1 (by rw [(hy i _).2]; omega)
      rw [e1, e2]
    · rw [show t0 + (k l i - t0) = k l i by omega]
  · congr 1
    refine Finset.sum_congr rfl fun i _ => ?_
    rw [List.length_map, (hy i _).2]

theorem foldl_collect {α β : Type} {f : ℕ → α → Run (List β)} {R : α → List β} (l : List α) (h : ∀ i ∈ l, Returns (fun fuel => f fuel i) (R i)) (acc : List β) :
    Returns (fun fuel => Run.foldl (fun rs i => do let r ← f fuel i; pure (rs ++ r)) acc l) (acc ++ l.flatMap R) := by
  induction l generalizing acc with
  | nil => exact ⟨0, fun _ _ => by simp⟩
  | cons i l ih =>
    simp only [Run.foldl_cons]
    obtain ⟨F, hF⟩ := h i (by simp)
    obtain ⟨F', hF'⟩ := ih (fun j hj => h j (List.mem_cons_of_mem _ hj)) (acc ++ R i)
    refine ⟨max F F', fun fuel hfuel => ?_⟩
    have h1 : f fuel i = .ok (R i) := hF fuel (le_trans (le_max_left _ _) hfuel)
    simp only [h1, Run.bind_ok, Run.pure_eq]
    have := hF' fuel (le_trans (le_max_right _ _) hfuel)
    simp only [Run.pure_eq] at this
    rw [this, List.flatMap_cons, List.append_assoc]

end CTInt
