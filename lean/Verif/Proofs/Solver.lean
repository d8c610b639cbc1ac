import Verif.Model.Solver
import Verif.Props.Green
import Verif.Props.GreenRead
import Verif.Props.SplineUnique
import Verif.Spec.Simulation
import Mathlib.MeasureTheory.Constructions.BorelSpace.Order
import Mathlib.Topology.Order.ProjIcc

/-!
# Supporting lemmas: the bare Green's function as the solver uses it
-/

set_option linter.all false

namespace CTInt

open MeasureTheory

variable {K : Type} [RCLike K] [DecidableEq K]

theorem Run.outcome_ok {α : Type} {f : ℕ → Run α} {a : α} (h : ∃ N, ∀ fuel, N ≤ fuel → f fuel = .ok a) : Run.outcome f = .ok a := by
  have h' : ∃ a, ∃ N, ∀ fuel, N ≤ fuel → f fuel = .ok a := ⟨a, h⟩
  unfold Run.outcome
  rw [dif_pos h']
  obtain ⟨N, hN⟩ := h
  obtain ⟨M, hM⟩ := h'.choose_spec
  have e1 := hM (max N M) (le_max_right _ _)
  rw [hN _ (le_max_left _ _)] at e1
  rw [← Run.ok.inj e1]

theorem Run.outcome_never {α : Type} [Zero α] {f : ℕ → Run α} (h : ∀ fuel a, f fuel ≠ .ok a) : (Run.outcome f).valueD = 0 := by
  unfold Run.outcome
  rw [dif_neg]
  · split_ifs <;> rfl
  · rintro ⟨a, N, hN⟩
    exact h N a (hN N le_rfl)

/-- The antiperiodic continuation, written out. -/
noncomputable def contin (β : ℝ) (G : ℝ → K) (t : ℝ) : K := (-1) ^ ⌊t / β⌋ * G (t - ⌊t / β⌋ * β)

theorem contin_anti {β : ℝ} (hβ : 0 < β) (G : ℝ → K) : IsAntiperiodic β G (contin β G) := by
  refine ⟨?_, ?_⟩
  · intro t h0 h1
    have : ⌊t / β⌋ = 0 := by
      rw [Int.floor_eq_zero_iff]
      exact ⟨div_nonneg h0 hβ.le, (div_lt_one hβ).2 h1⟩
    simp [contin, this]
  · intro t
    have e : (t + β) / β = t / β + 1 := by rw [add_div, div_self hβ.ne']
    have h1 : (-1 : K) ≠ 0 := by norm_num
    simp only [contin, e, Int.floor_add_one]
    rw [zpow_add_one₀ h1, show t + β - ((⌊t / β⌋ + 1 : ℤ) : ℝ) * β = t - ⌊t / β⌋ * β by push_cast; ring]
    ring

theorem contin_measurable {β : ℝ} {G : ℝ → K} (hG : Continuous G) : Measurable (contin β G) := by
  have hf : Measurable fun t : ℝ => ⌊t / β⌋ := Int.measurable_floor.comp (measurable_id.div_const β)
  have hz : Measurable fun n : ℤ => ((-1 : K)) ^ n := measurable_of_countable _
  have hc : Measurable fun n : ℤ => (n : ℝ) := measurable_of_countable _
  exact (hz.comp hf).mul (hG.measurable.comp (measurable_id.sub ((hc.comp hf).mul_const β)))

theorem contin_norm {β : ℝ} {G : ℝ → K} {B : ℝ} (hB : ∀ t, ‖G t‖ ≤ B) (t : ℝ) : ‖contin β G t‖ ≤ B := by
  unfold contin
  rw [norm_mul, norm_zpow, norm_neg, norm_one, one_zpow, one_mul]
  exact hB _

/-- Two antiperiodic continuations of the same values agree. -/
theorem IsAntiperiodic.unique {β : ℝ} (hβ : 0 < β) {G G' F F' : ℝ → K} (hG : ∀ t, 0 ≤ t → t < β → G t = G' t)
    (h : IsAntiperiodic β G F) (h' : IsAntiperiodic β G' F') (t : ℝ) : F t = F' t := by
  obtain ⟨k, s, rfl, h0, h1⟩ := Green.period hβ t
  rw [h.periods, h'.periods, h.agree s h0 h1, h'.agree s h0 h1, hG s h0 h1]

namespace Green

theorem interpolate_range {g : Green K} {f s1 s2 : ℕ} {τ : ℝ} {v : K} (h : g.interpolate f s1 s2 τ = .ok v) :
    f < g.nf ∧ s1 < g.ns ∧ s2 < g.ns := by
  unfold Green.interpolate at h
  rw [Res.bind_eq_ok] at h
  obtain ⟨_, _, h⟩ := h
  rw [Res.bind_eq_ok] at h
  obtain ⟨_, _, h⟩ := h
  rw [Res.bind_eq_ok] at h
  obtain ⟨_, h3, h⟩ := h
  exact Res.assert_eq_ok.1 h3

theorem ofOps_range {g : Green K} {fuel : ℕ} {a b : Op} {v : K} (h : g.ofOps fuel a b = .ok v) :
    a.flavor = b.flavor ∧ a.flavor < g.nf ∧ a.site < g.ns ∧ b.site < g.ns := by
  unfold Green.ofOps at h
  rw [Run.bind_eq_ok] at h
  obtain ⟨_, h0, h⟩ := h
  have h0 := Run.assert_eq_ok.1 h0
  refine ⟨h0, ?_⟩
  simp only at h
  split_ifs at h
  · exact interpolate_range (Run.lift_eq_ok.1 h)
  · rw [Run.bind_eq_ok] at h
    obtain ⟨_, h1, _⟩ := h
    exact interpolate_range (Run.lift_eq_ok.1 h1)
  · rw [Run.bind_eq_ok] at h
    obtain ⟨_, _, h⟩ := h
    rw [Run.bind_eq_ok] at h
    obtain ⟨_, _, h⟩ := h
    rw [Run.bind_eq_ok] at h
    obtain ⟨_, h1, _⟩ := h
    exact interpolate_range (Run.lift_eq_ok.1 h1)

theorem ofTime_range {g : Green K} {fuel : ℕ} {t : ℝ} {f s1 s2 : ℕ} {v : K} (h : g.ofTime fuel t f s1 s2 = .ok v) :
    f < g.nf ∧ s1 < g.ns ∧ s2 < g.ns := by
  unfold Green.ofTime at h
  rw [Run.bind_eq_ok] at h
  obtain ⟨_, _, h⟩ := h
  rw [Run.bind_eq_ok] at h
  obtain ⟨_, _, h⟩ := h
  rw [Run.bind_eq_ok] at h
  obtain ⟨_, h1, _⟩ := h
  exact interpolate_range (Run.lift_eq_ok.1 h1)

/-- The function read from an accepted file, continued by constants outside `[0, β]`. -/
theorem read_fun {file : GFile} {β : ℝ} {F S : ℕ} {g : Green K} (hβ : 0 < β) (h : Green.read (some file) β F S = .ok g) :
    g.nf = F ∧ g.ns = S ∧ g.beta = β ∧ ∃ (G : ℕ → ℕ → ℕ → ℝ → K) (B : ℝ), 0 ≤ B ∧ ∀ f < F, ∀ s1 < S, ∀ s2 < S,
      Continuous (G f s1 s2) ∧ (∀ τ, ‖G f s1 s2 τ‖ ≤ B) ∧
      ∀ τ, 0 ≤ τ → τ ≤ β → g.interpolate f s1 s2 τ = .ok (G f s1 s2 τ) := by
  obtain ⟨h1, h2, h3, n1, n2, n3, n4, n5, n6, -, -⟩ := Green.read_inv h
  refine ⟨n1, n2, n3, ?_⟩
  obtain ⟨-, -, -, -, G, hG⟩ := C56_read file β F S g h
  have key : ∀ f s1 s2, ∃ (H : ℝ → K) (B : ℝ), 0 ≤ B ∧ (f < F → s1 < S → s2 < S → Continuous H ∧ (∀ τ, ‖H τ‖ ≤ B) ∧
      ∀ τ, 0 ≤ τ → τ ≤ β → g.interpolate f s1 s2 τ = .ok (H τ)) := by
    intro f s1 s2
    by_cases hx : f < F ∧ s1 < S ∧ s2 < S
    · obtain ⟨e, -, c1, c2, -⟩ := hG f hx.1 s1 hx.2.1 s2 hx.2.2
      have hT : 2 ≤ file.ntau.toNat := by
        by_contra hT
        have := e β hβ.le le_rfl
        unfold Green.interpolate at this
        rw [Res.bind_eq_ok] at this
        obtain ⟨_, _, this⟩ := this
        rw [Res.bind_eq_ok] at this
        obtain ⟨_, a2, this⟩ := this
        have := Res.assert_eq_ok.1 a2
        omega
      have hT' : (file.ntau : ℝ) - 1 ≠ 0 := by
        have : (2 : ℝ) ≤ file.ntau := by exact_mod_cast (by omega : (2 : ℤ) ≤ file.ntau)
        linarith
      have g0 : file.grid β 0 = 0 := by simp [GFile.grid]
      have g1 : file.grid β (file.ntau.toNat - 1) = β := by
        unfold GFile.grid
        rw [Nat.cast_sub (by omega), show ((file.ntau.toNat : ℕ) : ℝ) = file.ntau by
          have : ((file.ntau.toNat : ℕ) : ℤ) = file.ntau := by omega
          exact_mod_cast congrArg (fun n : ℤ => (n : ℝ)) this]
        push_cast; field_simp
      have s1' := c1.smooth
      have s2' := c2.smooth
      rw [g0, g1] at s1' s2'
      have hc : ContinuousOn (G f s1 s2) (Set.Icc 0 β) := by
        have : G f s1 s2 = fun τ => ((RCLike.re (G f s1 s2 τ) : ℝ) : K) + ((RCLike.im (G f s1 s2 τ) : ℝ) : K) * RCLike.I := by
          funext τ; exact (RCLike.re_add_im _).symm
        rw [this]
        exact (RCLike.continuous_ofReal.comp_continuousOn s1'.continuousOn).add
          ((RCLike.continuous_ofReal.comp_continuousOn s2'.continuousOn).mul continuousOn_const)
      obtain ⟨B, hB⟩ := isCompact_Icc.exists_bound_of_continuousOn hc
      refine ⟨Set.IccExtend hβ.le ((Set.Icc 0 β).restrict (G f s1 s2)), B, (norm_nonneg _).trans (hB 0 ⟨le_rfl, hβ.le⟩), fun _ _ _ =>
        ⟨(continuousOn_iff_continuous_restrict.1 hc).Icc_extend' , fun τ => ?_, fun τ t0 t1 => ?_⟩⟩
      · exact hB _ (Set.projIcc 0 β hβ.le τ).2
      · rw [Set.IccExtend_of_mem hβ.le _ ⟨t0, t1⟩]
        exact e τ t0 t1
    · exact ⟨0, 0, le_rfl, fun a b c => absurd ⟨a, b, c⟩ hx⟩
  choose H B hB hH using key
  refine ⟨H, ∑ f ∈ Finset.range F, ∑ s1 ∈ Finset.range S, ∑ s2 ∈ Finset.range S, B f s1 s2,
    Finset.sum_nonneg fun f _ => Finset.sum_nonneg fun _ _ => Finset.sum_nonneg fun _ _ => hB _ _ _, fun f hf s1 hs1 s2 hs2 => ?_⟩
  obtain ⟨a1, a2, a3⟩ := hH f s1 s2 hf hs1 hs2
  refine ⟨a1, fun τ => (a2 τ).trans ?_, a3⟩
  have l1 : B f s1 s2 ≤ ∑ s2 ∈ Finset.range S, B f s1 s2 :=
    Finset.single_le_sum (f := fun s2 => B f s1 s2) (fun _ _ => hB _ _ _) (Finset.mem_range.2 hs2)
  have l2 : ∑ s2 ∈ Finset.range S, B f s1 s2 ≤ ∑ s1 ∈ Finset.range S, ∑ s2 ∈ Finset.range S, B f s1 s2 :=
    Finset.single_le_sum (f := fun s1 => ∑ s2 ∈ Finset.range S, B f s1 s2) (fun _ _ => Finset.sum_nonneg fun _ _ => hB _ _ _)
      (Finset.mem_range.2 hs1)
  have l3 := Finset.single_le_sum (f := fun f => ∑ s1 ∈ Finset.range S, ∑ s2 ∈ Finset.range S, B f s1 s2)
    (fun _ _ => Finset.sum_nonneg fun _ _ => Finset.sum_nonneg fun _ _ => hB _ _ _) (Finset.mem_range.2 hf)
  exact l1.trans (l2.trans l3)

/-- The call on two operators, as a function. -/
noncomputable def opsFn (β : ℝ) (G : ℝ → K) (a b : Op) : K :=
  if a.time ≠ b.time then contin β G (a.time - b.time) else if b.small < a.small then G 0 else - G β

open Classical in
/-- The call on a time difference, as a function. -/
noncomputable def timeFn (β : ℝ) (G : ℝ → K) (t : ℝ) : K :=
  if ∃ k : ℤ, t = k * β then contin β G (t + 1e-8) else contin β G t

theorem ops_returns {g : Green K} {β : ℝ} (hβ : 0 < β) (hb : g.beta = β) {a b : Op} (hfl : a.flavor = b.flavor) {G : ℝ → K}
    (hG : ∀ τ, 0 ≤ τ → τ ≤ β → g.interpolate a.flavor a.site b.site τ = .ok (G τ)) :
    ∃ N, ∀ fuel, N ≤ fuel → g.ofOps fuel a b = .ok (opsFn β G a b) := by
  subst hb
  exact C42_operators g hβ a b hfl G _ hG (contin_anti hβ G)

theorem outcome_ops {g : Green K} {β : ℝ} (hβ : 0 < β) (hb : g.beta = β) {a b : Op} (hfl : a.flavor = b.flavor) {G : ℝ → K}
    (hG : ∀ τ, 0 ≤ τ → τ ≤ β → g.interpolate a.flavor a.site b.site τ = .ok (G τ)) :
    (Run.outcome fun fuel => g.ofOps fuel a b) = .ok (opsFn β G a b) := by
  exact Run.outcome_ok (ops_returns hβ hb hfl hG)

theorem outcome_time {g : Green K} {β : ℝ} (hβ : 1e-8 < β) (hb : g.beta = β) {f s1 s2 : ℕ} {G : ℝ → K}
    (hG : ∀ τ, 0 ≤ τ → τ ≤ β → g.interpolate f s1 s2 τ = .ok (G τ)) (t : ℝ) :
    (Run.outcome fun fuel => g.ofTime fuel t f s1 s2) = .ok (timeFn β G t) := by
  subst hb
  have hβ0 : 0 < g.beta := lt_trans (by norm_num) hβ
  obtain ⟨N, hN⟩ := C42_times g hβ t f s1 s2 G _ hG (contin_anti hβ0 G)
  refine Run.outcome_ok ⟨N, fun fuel hf => ?_⟩
  unfold timeFn
  split_ifs with hk
  · obtain ⟨k, hk⟩ := hk
    exact (hN fuel hf).2 k hk
  · exact (hN fuel hf).1 fun k e => hk ⟨k, e⟩

theorem timeFn_measurable {β : ℝ} {G : ℝ → K} (hG : Continuous G) : Measurable (timeFn β G) := by
  have hm := contin_measurable (β := β) hG
  refine Measurable.ite ?_ (hm.comp (measurable_id.add_const _)) hm
  have : {t : ℝ | ∃ k : ℤ, t = k * β} = Set.range fun k : ℤ => (k : ℝ) * β := by
    ext t; simp [eq_comm]
  rw [this]
  exact (Set.countable_range _).measurableSet

theorem timeFn_norm {β : ℝ} {G : ℝ → K} {B : ℝ} (hB : ∀ t, ‖G t‖ ≤ B) (t : ℝ) : ‖timeFn β G t‖ ≤ B := by
  unfold timeFn
  split_ifs <;> exact contin_norm hB _

theorem opsFn_norm {β : ℝ} {G : ℝ → K} {B : ℝ} (hB : ∀ t, ‖G t‖ ≤ B) (a b : Op) : ‖opsFn β G a b‖ ≤ B := by
  unfold opsFn
  split_ifs
  · exact contin_norm hB _
  · exact hB _
  · rw [norm_neg]; exact hB _

theorem opsFn_measurable {β : ℝ} {G : ℝ → K} (hG : Continuous G) (f s : ℕ) (x : ℤ) (f' s' : ℕ) (x' : ℤ) :
    Measurable fun z : ℝ × ℝ => opsFn β G ⟨f, s, z.1, x⟩ ⟨f', s', z.2, x'⟩ := by
  have hm := contin_measurable (β := β) hG
  have hs : Measurable fun z : ℝ × ℝ => z.1 - z.2 := measurable_fst.sub measurable_snd
  unfold opsFn
  refine Measurable.ite ?_ (hm.comp hs) (show Measurable fun _ : ℝ × ℝ => if x' < x then G 0 else - G β from measurable_const)
  exact (measurableSet_eq_fun measurable_fst measurable_snd).compl

end Green
end CTInt
