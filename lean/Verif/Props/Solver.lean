import Verif.Proofs.Solver
import Verif.Proofs.Simulate
import Verif.Spec.Solver
import Verif.Props.UMatrix
import Verif.Props.Observables
import Verif.Props.Postprocess
import Verif.Props.Legendre

/-!
# C80: from the parameters and input files to the Monte Carlo chain
-/

set_option linter.all false

namespace CTInt

open MeasureTheory

variable {K : Type} [RCLike K] [DecidableEq K]
variable {S : Type} {is : IStream S}

theorem legendre_nl {n : ℕ} {l : Legendre} (h : Legendre.create n = .ok l) : l.nl = n := by
  unfold Legendre.create at h
  rw [Res.bind_eq_ok] at h
  obtain ⟨_, _, h⟩ := h
  have h := Res.ok.inj h
  rw [← h]
  have : ∀ (f : Legendre → ℕ → Legendre), (∀ s l, (f s l).nl = s.nl) → ∀ (L : List ℕ) (s : Legendre), (L.foldl f s).nl = s.nl := by
    intro f hf L
    induction L with
    | nil => intro s; rfl
    | cons a L ih => intro s; rw [List.foldl_cons, ih, hf]
  refine this _ ?_ _ ⟨n, _, _⟩
  intro s l; rfl

theorem legendre_ok {n : ℕ} (h : 0 < n) : ∃ l, Legendre.create n = .ok l := by
  unfold Legendre.create
  rw [Res.assert_true h, Res.bind_ok]
  exact ⟨_, rfl⟩

/-- What a completed construction went through. -/
theorem create_inv {dbg : Bool} {P : Params S} {j : ReadJunk} {V : FullSolver K} (h : FullSolver.create is dbg P j = .ok V) :
    ∃ (t : UTable K) (leg : Legendre) (file : GFile) (g : Green K) (sub : Sub K),
      UTable.create is dbg (mycast : ℂ → K) P.sites P.spins P.uFile (P.U.map fun x => (x : K)) ((1e-2 : ℝ) : K) j.u = .ok t ∧
      Legendre.create P.nLegendre = .ok leg ∧ P.rates.getD 1 = 1 ∧ P.g0File = some (some file) ∧
      Green.read (some file) P.beta P.spins P.sites = .ok g ∧ 0 < P.period ∧
      ((P.config = none ∧ V.init = []) ∨ ∃ s s', P.config = some s ∧ loadConfig is t.list s j.i j.t = .ok (V.init, s')) ∧
      Sub.create (solverCtx P.spins g t) V.init = .ok sub ∧
      V.c = solverCtx P.spins g t ∧
      V.q = ⟨P.sites, P.beta, leg, fun τ z s1 s2 => Run.outcome fun fuel => g.ofTime fuel τ z s1 s2, P.nSamples, P.nBin⟩ ∧
      V.m = Mgr.create P.beta P.kIns P.maxOrder P.stepSize (t.list.map (·.d)) ∧
      V.a = ⟨P.nIR, P.nSh, P.nSF, ⟨P.total, P.therm, P.period.toNat⟩⟩ ∧
      V.s = ⟨⟨⟨sub, ⟨0, 0⟩, 0⟩, ⟨0, 0⟩⟩, 0, false, []⟩ := by
  unfold FullSolver.create at h
  rw [Res.bind_eq_ok] at h
  obtain ⟨t, et, h⟩ := h
  rw [Res.bind_eq_ok] at h
  obtain ⟨leg, el, h⟩ := h
  rw [Res.bind_eq_ok] at h
  obtain ⟨_, h1, h⟩ := h
  have h1 := Res.throwIf_eq_ok.1 h1
  rw [Res.bind_eq_ok] at h
  obtain ⟨_, h2, h⟩ := h
  have h2 := Res.throwIf_eq_ok.1 h2
  rw [Res.bind_eq_ok] at h
  obtain ⟨g, eg, h⟩ := h
  rw [Res.bind_eq_ok] at h
  obtain ⟨_, h3, h⟩ := h
  have h3 := Res.throwIf_eq_ok.1 h3
  rw [Res.bind_eq_ok] at h
  obtain ⟨init, ei, h⟩ := h
  rw [Res.bind_eq_ok] at h
  obtain ⟨sub, es, h⟩ := h
  have h := Res.ok.inj h
  obtain ⟨file, hfile⟩ : ∃ file, P.g0File = some (some file) := by
    match hg : P.g0File with
    | none => rw [hg] at h2; exact absurd rfl h2
    | some none => rw [hg] at eg; cases eg
    | some (some file) => exact ⟨file, rfl⟩
  rw [hfile] at eg
  subst h
  refine ⟨t, leg, file, g, sub, et, el, not_not.1 h1, hfile, eg, not_le.1 h3, ?_, es, rfl, rfl, rfl, rfl, rfl⟩
  match hc : P.config with
  | none =>
    rw [hc] at ei
    exact Or.inl ⟨rfl, (Res.ok.inj ei).symm⟩
  | some s =>
    rw [hc] at ei
    simp only at ei
    rw [Res.bind_eq_ok] at ei
    obtain ⟨r, er, ei⟩ := ei
    have ei := Res.ok.inj ei
    exact Or.inr ⟨s, r.2, rfl, by rw [er]; simp only; rw [← ei]⟩

/-- **C80, parameters.**  Every parameter arrives where it is used. -/
theorem C80_parameters {dbg : Bool} {P : Params S} {j : ReadJunk} {V : FullSolver K} (h : FullSolver.create is dbg P j = .ok V) :
    Passed P V := by
  obtain ⟨t, leg, file, g, sub, -, el, -, -, -, hp, -, -, hc, hq, hm, ha, -⟩ := create_inv h
  have := legendre_nl el
  constructor <;> simp only [hc, hq, hm, ha, solverCtx, Mgr.create] <;> first | rfl | omega

/-- The Green's function of the solver, for indices in range: `A + i B` interpolated on `[0, β]`, `F` its antiperiodic
    continuation. -/
theorem green_of {dbg : Bool} {P : Params S} {j : ReadJunk} {V : FullSolver K} (h : FullSolver.create is dbg P j = .ok V)
    (hβ : 1e-8 < P.beta) : ∃ (G : ℕ → ℕ → ℕ → ℝ → K) (B : ℝ), 0 ≤ B ∧
      (∀ f < P.spins, ∀ s1 < P.sites, ∀ s2 < P.sites, Continuous (G f s1 s2) ∧ ∀ τ, ‖G f s1 s2 τ‖ ≤ B) ∧
      (∀ a b : Op, V.c.G0 a b = if a.flavor = b.flavor ∧ a.flavor < P.spins ∧ a.site < P.sites ∧ b.site < P.sites then
        Green.opsFn P.beta (G a.flavor a.site b.site) a b else 0) ∧
      (∀ z < P.spins, ∀ s1 < P.sites, ∀ s2 < P.sites, ∀ t, V.q.g0 t z s1 s2 = .ok (Green.timeFn P.beta (G z s1 s2) t)) ∧
      ∃ (file : GFile) (g : Green K), P.g0File = some (some file) ∧ Green.read (some file) P.beta P.spins P.sites = .ok g ∧
        ∀ f < P.spins, ∀ s1 < P.sites, ∀ s2 < P.sites, ∀ τ, 0 ≤ τ → τ ≤ P.beta → g.interpolate f s1 s2 τ = .ok (G f s1 s2 τ) := by
  obtain ⟨t, leg, file, g, sub, -, -, -, hfile, eg, -, -, -, hc, hq, -, -, -⟩ := create_inv h
  have hβ0 : 0 < P.beta := lt_trans (by norm_num) hβ
  obtain ⟨n1, n2, n3, G, B, hB, hG⟩ := Green.read_fun hβ0 eg
  refine ⟨G, B, hB, fun f hf s1 h1 s2 h2 => ⟨(hG f hf s1 h1 s2 h2).1, (hG f hf s1 h1 s2 h2).2.1⟩, fun a b => ?_, fun z hz s1 h1 s2 h2 τ => ?_,
    file, g, hfile, eg, fun f hf s1 h1 s2 h2 => (hG f hf s1 h1 s2 h2).2.2⟩
  · rw [hc]
    show (Run.outcome fun fuel => g.ofOps fuel a b).valueD = _
    split_ifs with hr
    · obtain ⟨r1, r2, r3, r4⟩ := hr
      rw [Green.outcome_ops hβ0 n3 r1 (hG _ r2 _ r3 _ r4).2.2]
      rfl
    · refine Run.outcome_never fun fuel v hv => hr ?_
      obtain ⟨r1, r2, r3, r4⟩ := Green.ofOps_range hv
      exact ⟨r1, by omega, by omega, by omega⟩
  · rw [hq]
    exact Green.outcome_time hβ n3 (hG _ hz _ h1 _ h2).2.2 τ

/-- **C80, Green's function.**  Whatever natural cubic splines `A`, `B` the real and imaginary values in the file have, and
    whatever antiperiodic continuation `F` of `A + i B`: the updates use `F` of the difference of the times, and at equal times
    the value at `0` or minus the value at `β`; the measurements use `F`, a multiple of `β` being taken later by 10⁻⁸. -/
theorem C80_green {dbg : Bool} {P : Params S} {j : ReadJunk} {V : FullSolver K} (h : FullSolver.create is dbg P j = .ok V)
    (hβ : 1e-8 < P.beta) : ∃ file, P.g0File = some (some file) ∧ file.Ordered ∧ ∀ z < P.spins, ∀ s1 < P.sites, ∀ s2 < P.sites,
      (∃ A B, NaturalSpline file P.beta (fun t => RCLike.re (file.value z s1 s2 t : K)) A ∧
        NaturalSpline file P.beta (fun t => RCLike.im (file.value z s1 s2 t : K)) B) ∧
      ∀ A B, NaturalSpline file P.beta (fun t => RCLike.re (file.value z s1 s2 t : K)) A →
        NaturalSpline file P.beta (fun t => RCLike.im (file.value z s1 s2 t : K)) B →
        ∀ F : ℝ → K, IsAntiperiodic P.beta (fun τ => (RCLike.ofReal (A τ) : K) + RCLike.ofReal (B τ) * RCLike.I) F →
        (∀ a b : Op, a.flavor = z → b.flavor = z → a.site = s1 → b.site = s2 →
          V.c.G0 a b = if a.time ≠ b.time then F (a.time - b.time)
            else if b.small < a.small then (RCLike.ofReal (A 0) : K) + RCLike.ofReal (B 0) * RCLike.I
            else - ((RCLike.ofReal (A P.beta) : K) + RCLike.ofReal (B P.beta) * RCLike.I)) ∧
        ∀ t, ((∀ k : ℤ, t ≠ k * P.beta) → V.q.g0 t z s1 s2 = .ok (F t)) ∧
          ∀ k : ℤ, t = k * P.beta → V.q.g0 t z s1 s2 = .ok (F (t + 1e-8)) := by
  have hβ0 : 0 < P.beta := lt_trans (by norm_num) hβ
  obtain ⟨G, B0, -, -, hops, htime, file, g, hfile, eg, hG⟩ := green_of h hβ
  refine ⟨file, hfile, (C56_read file _ _ _ g eg).2.2.2.1, fun z hz s1 h1 s2 h2 => ?_⟩
  obtain ⟨hex, hall⟩ := C56_natural file _ _ _ g eg z hz s1 h1 s2 h2
  refine ⟨hex, fun A B hA hB F hF => ?_⟩
  have eG : ∀ τ, 0 ≤ τ → τ ≤ P.beta → G z s1 s2 τ = (RCLike.ofReal (A τ) : K) + RCLike.ofReal (B τ) * RCLike.I := by
    intro τ t0 t1
    have e1 := hG z hz s1 h1 s2 h2 τ t0 t1
    rw [hall A B hA hB τ t0 t1] at e1
    exact (Res.ok.inj e1).symm
  have eF : ∀ t, contin P.beta (G z s1 s2) t = F t :=
    IsAntiperiodic.unique hβ0 (fun t t0 t1 => eG t t0 t1.le) (contin_anti hβ0 _) hF
  constructor
  · rintro a b ha hb rfl rfl
    rw [hops, if_pos ⟨by rw [ha, hb], by omega, h1, h2⟩, ha]
    unfold Green.opsFn
    rw [eF, eG 0 le_rfl hβ0.le, eG P.beta hβ0.le le_rfl]
  · intro t
    rw [htime z hz s1 h1 s2 h2 t]
    unfold Green.timeFn
    constructor
    · intro hk
      rw [if_neg (by rintro ⟨k, e⟩; exact hk k e), eF]
    · intro k hk
      rw [if_pos ⟨k, hk⟩, eF]

/-- The pairs of operators the updates form never leave the range where the Green's function is defined: the call returns. -/
theorem C80_green_defined {dbg : Bool} {P : Params S} {j : ReadJunk} {V : FullSolver K} (h : FullSolver.create is dbg P j = .ok V)
    (hβ : 1e-8 < P.beta) : ∃ (file : GFile) (g : Green K), P.g0File = some (some file) ∧ Green.read (some file) P.beta P.spins P.sites = .ok g ∧
      ∀ a b : Op, a.flavor = b.flavor → a.flavor < P.spins → a.site < P.sites → b.site < P.sites →
        ∃ N, ∀ fuel, N ≤ fuel → g.ofOps fuel a b = .ok (V.c.G0 a b) := by
  obtain ⟨t, leg, file, g, sub, -, -, -, hfile, eg, -, -, -, hc, hq, -, -, -⟩ := create_inv h
  have hβ0 : 0 < P.beta := lt_trans (by norm_num) hβ
  obtain ⟨n1, n2, n3, G, B, hB, hG⟩ := Green.read_fun hβ0 eg
  refine ⟨file, g, hfile, eg, fun a b r1 r2 r3 r4 => ?_⟩
  have e : V.c.G0 a b = Green.opsFn P.beta (G a.flavor a.site b.site) a b := by
    rw [hc]
    show (Run.outcome fun fuel => g.ofOps fuel a b).valueD = _
    rw [Green.outcome_ops hβ0 n3 r1 (hG _ r2 _ r3 _ r4).2.2]
    rfl
  rw [e]
  exact Green.ops_returns hβ0 n3 r1 (hG _ r2 _ r3 _ r4).2.2

/-! ### Tables -/

/-- The terms set from "model.U". -/
theorem onsite_terms {ns nf : ℕ} {U δ : K} {t : UTable K} (ht : UTable.onsite ns nf U δ = .ok t) :
    (nf = 1 ∧ t.list.length = ns / 2 ∨ nf = 2 ∧ t.list.length = ns) ∧
    ∀ d ∈ t.list.map (·.d), GoodDef ns nf d ∧ d.U = U ∧ d.numAf = 2 ∧ d.rank = 2 ∧
      (∀ z < nf, ∃ r < d.rank, d.flavors.getD r 0 = z) ∧ ∀ s < 2, ∀ r < 2, d.alpha s r = 1 + δ ∨ d.alpha s r = -δ := by
  have hal : ∀ {s si fl} {v : UDef K}, OnsiteTerm U δ s si fl v → ∀ a < 2, ∀ r < 2, v.d.alpha a r = 1 + δ ∨ v.d.alpha a r = -δ := by
    intro s si fl v hv a ha r hr
    have e1 := hv.up; have e2 := hv.down
    interval_cases a <;> interval_cases r
    all_goals first
      | exact Or.inl e1.1
      | exact Or.inl e1.2
      | exact Or.inr e1.1
      | exact Or.inr e1.2
      | exact Or.inr (e2.1.trans e1.2)
      | exact Or.inl (e2.2.trans e1.1)
  by_cases c2 : nf = 2
  · subst c2
    obtain ⟨t', e, hl, -, -, h, -⟩ := C28_two_flavors ns U δ
    obtain rfl : t' = t := Res.ok.inj (e.symm.trans ht)
    refine ⟨Or.inr ⟨rfl, hl⟩, fun d hd => ?_⟩
    obtain ⟨v, hv, rfl⟩ := List.mem_map.1 hd
    obtain ⟨s, hs, rfl⟩ := List.getElem_of_mem hv
    obtain ⟨v, e, hv⟩ := h s (by omega)
    rw [List.getElem?_eq_getElem hs] at e
    cases e
    refine ⟨⟨?_, ?_, ?_, ?_⟩, hv.U, hv.numAf, hv.rank, ?_, hal hv⟩
    · rw [hv.flavors, hv.rank]; rfl
    · rw [hv.sites, hv.rank]; rfl
    · rw [hv.flavors]; simp
    · rw [hv.sites]; simp; omega
    · intro z hz
      refine ⟨z, by rw [hv.rank]; exact hz, ?_⟩
      rw [hv.flavors]
      interval_cases z <;> rfl
  by_cases c1 : nf = 1
  · subst c1
    obtain ⟨t', e, hl, -, -, h, -⟩ := C28_one_flavor ns U δ
    obtain rfl : t' = t := Res.ok.inj (e.symm.trans ht)
    refine ⟨Or.inl ⟨rfl, hl⟩, fun d hd => ?_⟩
    obtain ⟨v, hv, rfl⟩ := List.mem_map.1 hd
    obtain ⟨s, hs, rfl⟩ := List.getElem_of_mem hv
    obtain ⟨v, e, hv, hb⟩ := h s (by omega)
    rw [List.getElem?_eq_getElem hs] at e
    cases e
    refine ⟨⟨?_, ?_, ?_, ?_⟩, hv.U, hv.numAf, hv.rank, ?_, hal hv⟩
    · rw [hv.flavors, hv.rank]; rfl
    · rw [hv.sites, hv.rank]; rfl
    · rw [hv.flavors]; simp
    · rw [hv.sites]; simp; omega
    · intro z hz
      refine ⟨0, by rw [hv.rank]; norm_num, ?_⟩
      rw [hv.flavors]
      interval_cases z; rfl
  · rw [C28_refused ns nf U δ c1 c2] at ht; cases ht

/-- Whatever the source of the table, its terms have the right shape and their indices are in range. -/
theorem table_good {dbg : Bool} {cast : ℂ → K} {ns nf : ℕ} {file : Option (Bool × S)} {U : Option K} {δ : K} {junk : ℕ → ℕ}
    {t : UTable K} (h : UTable.create is dbg cast ns nf file U δ junk = .ok t) : ∀ d ∈ t.list.map (·.d), GoodDef ns nf d := by
  intro d hd
  match file, U with
  | some (o, s), none =>
    obtain ⟨-, -, -, -, h1, -⟩ := C29_in_range is dbg cast ns nf o s junk t h
    obtain ⟨v, hv, rfl⟩ := List.mem_map.1 hd
    obtain ⟨i, hi, rfl⟩ := List.getElem_of_mem hv
    exact (h1 i _ (List.getElem?_eq_getElem hi)).2
  | none, some U => exact ((onsite_terms h).2 d hd).1
  | none, none => cases h
  | some _, some _ => cases h

/-- **C80.**  A constructed solver is ready to run: with usable terms and a usable start it meets everything the theorems about
    the simulation ask for; the bare Green's functions are bounded and measurable. -/
theorem C80_ready {dbg : Bool} {P : Params S} {j : ReadJunk} {V : FullSolver K} (h : FullSolver.create is dbg P j = .ok V)
    (hP : UsableParams P) (ht : UsableTerms P.spins V.c.tbl) (hs : UsableStart P V) : Ready P V := by
  have hβ0 : 0 < P.beta := lt_trans (by norm_num) hP.beta
  obtain ⟨G, B, hB, hG, hops, htime, -⟩ := green_of h hP.beta
  obtain ⟨t, leg, file, g, sub, et, -, -, -, -, -, hi, es, hc, hq, hm, ha, hS⟩ := create_inv h
  have hgood := table_good et
  have htbl : V.c.tbl = t.list.map (·.d) := by rw [hc]; rfl
  have hnf : V.c.nf = P.spins := by rw [hc]; rfl
  have hNI : V.c.NI = ((10 ^ 100 : ℝ) : K) := by rw [hc]; rfl
  have hT : TblOK V.c.NI V.c.nf V.c.tbl := by
    rw [hnf, hNI]
    refine ⟨?_, ?_, ?_, ht.U, ht.fields⟩ <;> rw [htbl] <;> intro d hd
    · exact (hgood d hd).fl
    · exact (hgood d hd).si
    · exact (hgood d hd).flavor
  have hF : FullTerms V.c := fun d hd => ⟨ht.states d hd, fun fl hfl => ht.flavors d hd fl (by rw [hnf] at hfl; exact hfl)⟩
  classical
  set G' : ℝ → ℕ → ℕ → ℕ → K := fun τ z s1 s2 => if z < P.spins ∧ s1 < P.sites ∧ s2 < P.sites then Green.timeFn P.beta (G z s1 s2) τ else 0
    with hG'
  have hbeta : V.q.beta = P.beta := by rw [hq]
  have hns : V.q.ns = P.sites := by rw [hq]
  have hok : SimOK V.c V.q G' V.m P.kIns P.maxOrder P.stepSize := by
    refine ⟨hT, hF, ht.some, by rw [hbeta]; exact hβ0, by rw [hq]; exact hP.bins, ?_, ?_, hP.step, by rw [hm, hbeta, htbl]⟩
    · rw [hns, htbl]
      intro d hd
      exact (hgood d hd).site
    · intro τ z s1 s2 hz h1 h2
      rw [hnf] at hz
      rw [hns] at h1 h2
      rw [htime z hz s1 h1 s2 h2 τ, hG']
      simp only
      rw [if_pos ⟨hz, h1, h2⟩]
  have hreg : Regular V.c G' B := by
    refine ⟨?_, ?_, ?_, ?_⟩
    · intro f s x f' s' x'
      simp only [hops]
      by_cases hr : f = f' ∧ f < P.spins ∧ s < P.sites ∧ s' < P.sites
      · simp only [if_pos hr]
        obtain ⟨rfl, r2, r3, r4⟩ := hr
        exact Green.opsFn_measurable (hG _ r2 _ r3 _ r4).1 _ _ _ _ _ _
      · simp only [hr, if_false]
        exact measurable_const
    · intro a b
      rw [hops]
      split_ifs with hr
      · exact Green.opsFn_norm (hG _ hr.2.1 _ hr.2.2.1 _ hr.2.2.2).2 a b
      · rw [norm_zero]; exact hB
    · intro z s1 s2
      rw [hG']
      by_cases hr : z < P.spins ∧ s1 < P.sites ∧ s2 < P.sites
      · simp only [hr, and_self, if_true]
        exact Green.timeFn_measurable (hG _ hr.1 _ hr.2.1 _ hr.2.2).1
      · simp only [hr, if_false]
        exact measurable_const
    · intro τ z s1 s2
      rw [hG']
      simp only
      split_ifs with hr
      · exact Green.timeFn_norm (hG _ hr.1 _ hr.2.1 _ hr.2.2).2 τ
      · rw [norm_zero]; exact hB
  have hstart : GoodStart V.c.NI V.c.nf V.c.G0 V.c.tbl V.init ∧ ValidPts P.beta V.c.tbl (ptsOf V.init) ∧ V.init.length ≤ P.maxOrder := by
    rcases hs with hs | hs
    · rcases hi with ⟨-, hi⟩ | ⟨s, s', e, -⟩
      · rw [hi]
        exact ⟨empty_goodStart V.c, fun p hp => by simp [ptsOf] at hp, Nat.zero_le _⟩
      · rw [hs] at e; cases e
    · exact hs
  rw [← hc] at es
  obtain ⟨s0, e0, m0⟩ := create_means hT hstart.1
  obtain rfl : s0 = sub := Res.ok.inj (e0.symm.trans es)
  have hv : s0.verts = numbered 0 V.init := m0.cfg
  refine ⟨G', B, hok, hreg, ?_⟩
  rw [hS]
  refine ⟨⟨V.init, s0, ⟨0, 0⟩, 0, fun _ _ _ _ _ _ => 0, fun _ => 0, 0, [], ⟨s0, ⟨0, 0⟩, 0⟩, hstart.1, fun _ => ⟨le_rfl, one_pos⟩, e0, rfl, rfl⟩,
    ?_, ?_, rfl, rfl, rfl⟩
  · simp only
    rw [hv, ptsOf_numbered, hbeta]
    exact hstart.2.1
  · simp only
    rw [hv]
    have := congrArg List.length (ptsOf_numbered 0 V.init)
    simp only [ptsOf, List.length_map] at this
    rw [this]
    exact hstart.2.2

theorem accepts {dbg : Bool} {P : Params S} {j : ReadJunk} {t : UTable K} {file : GFile}
    (et : UTable.create is dbg (mycast : ℂ → K) P.sites P.spins P.uFile (P.U.map fun x => (x : K)) ((1e-2 : ℝ) : K) j.u = .ok t)
    (hP : UsableParams P) (hg : P.g0File = some (some file)) (hf : UsableGreen K file P.beta P.spins P.sites)
    (hc : P.config = none) (ht : UsableTerms P.spins (t.list.map (·.d))) :
    ∃ V : FullSolver K, FullSolver.create is dbg P j = .ok V ∧ V.c.tbl = t.list.map (·.d) ∧ V.init = [] ∧ Ready P V := by
  have hβ0 : 0 < P.beta := lt_trans (by norm_num) hP.beta
  obtain ⟨leg, el⟩ := legendre_ok hP.legendre
  obtain ⟨g, eg⟩ := C56_accept (K := K) file P.beta P.spins P.sites hβ0 hf.grid hf.flavors hf.sites hf.beta hf.lines hf.hermitian
  have hgood := table_good et
  have hT : TblOK (solverCtx P.spins g t).NI (solverCtx P.spins g t).nf (solverCtx P.spins g t).tbl :=
    ⟨fun d hd => (hgood d hd).fl, fun d hd => (hgood d hd).si, fun d hd => (hgood d hd).flavor, ht.U, ht.fields⟩
  obtain ⟨sub, es, -⟩ := create_means hT (empty_goodStart (solverCtx P.spins g t))
  obtain ⟨V, e, hV, hi⟩ : ∃ V : FullSolver K, FullSolver.create is dbg P j = .ok V ∧ V.c.tbl = t.list.map (·.d) ∧ V.init = [] := by
    unfold FullSolver.create
    rw [et, Res.bind_ok, el, Res.bind_ok, Res.throwIf_false (by rcases hP.rates with h | h <;> rw [h] <;> simp), Res.bind_ok,
      Res.throwIf_false (by rw [hg]; simp), Res.bind_ok, hg]
    simp only [Option.getD_some]
    rw [eg, Res.bind_ok, Res.throwIf_false (not_le.2 hP.period), Res.bind_ok, hc]
    simp only [Res.pure_eq, Res.bind_ok]
    rw [es, Res.bind_ok]
    exact ⟨_, rfl, rfl, rfl⟩
  exact ⟨V, e, hV, hi, C80_ready e hP (by rw [hV]; exact ht) (Or.inl hc)⟩

/-- **C80, model.U.**  Usable parameters with a number U ≠ 0, no interaction file and a usable Green's function file, two flavors
    and a site or one flavor and two sites: the solver is constructed and ready to run. -/
theorem C80_onsite (dbg : Bool) (P : Params S) (j : ReadJunk) (file : GFile) (U : ℝ) (hP : UsableParams P)
    (hu : P.uFile = none) (hU : P.U = some U) (hU0 : U ≠ 0) (hs : P.spins = 2 ∧ 0 < P.sites ∨ P.spins = 1 ∧ 2 ≤ P.sites)
    (hg : P.g0File = some (some file)) (hf : UsableGreen K file P.beta P.spins P.sites) (hc : P.config = none) :
    ∃ V : FullSolver K, FullSolver.create is dbg P j = .ok V ∧ Ready P V := by
  obtain ⟨t, et⟩ : ∃ t : UTable K, UTable.onsite P.sites P.spins (U : K) ((1e-2 : ℝ) : K) = .ok t := by
    rcases hs with ⟨h, -⟩ | ⟨h, -⟩ <;> rw [h]
    · obtain ⟨t, e, -⟩ := C28_two_flavors P.sites (U : K) ((1e-2 : ℝ) : K); exact ⟨t, e⟩
    · obtain ⟨t, e, -⟩ := C28_one_flavor P.sites (U : K) ((1e-2 : ℝ) : K); exact ⟨t, e⟩
  obtain ⟨hl, h⟩ := onsite_terms et
  suffices ht : UsableTerms P.spins (t.list.map (·.d)) by
    obtain ⟨V, e, -, -, hr⟩ := accepts (is := is) (dbg := dbg) (P := P) (j := j) (t := t)
      (by unfold UTable.create; rw [hu, hU]; exact et) hP hg hf hc ht
    exact ⟨V, e, hr⟩
  have hlen : 0 < t.list.length := by omega
  refine ⟨?_, ?_, ?_, ?_, ?_⟩
  · intro hn
    have := congrArg List.length hn
    simp only [List.length_map, List.length_nil] at this
    omega
  · intro d hd; rw [(h d hd).2.1]; exact_mod_cast hU0
  · intro d hd s hs' r hr
    obtain ⟨-, -, h2, h3, -, h4⟩ := h d hd
    have a1 : (1 + (1e-2 : ℝ) : ℝ) ≠ 10 ^ 100 ∧ (1 + (1e-2 : ℝ) : ℝ) ≠ 0 ∧ (1 + (1e-2 : ℝ) : ℝ) ≠ 1 := by norm_num
    have a2 : (-(1e-2 : ℝ) : ℝ) ≠ 10 ^ 100 ∧ (-(1e-2 : ℝ) : ℝ) ≠ 0 ∧ (-(1e-2 : ℝ) : ℝ) ≠ 1 := by norm_num
    rcases h4 s (by omega) r (by omega) with e | e <;> rw [e]
    · refine ⟨?_, ?_, ?_⟩
      · rw [← RCLike.ofReal_one, ← RCLike.ofReal_add]; exact fun h => a1.1 (RCLike.ofReal_injective h)
      · rw [← RCLike.ofReal_one, ← RCLike.ofReal_add]; exact fun h => a1.2.1 (RCLike.ofReal_eq_zero.1 h)
      · rw [← RCLike.ofReal_one, ← RCLike.ofReal_add]; exact fun h => a1.2.2 (RCLike.ofReal_injective h)
    · rw [← RCLike.ofReal_neg]
      refine ⟨fun h => a2.1 (RCLike.ofReal_injective h), fun h => a2.2.1 (RCLike.ofReal_eq_zero.1 h), fun h => a2.2.2 ?_⟩
      rw [← RCLike.ofReal_one] at h
      exact RCLike.ofReal_injective h
  · intro d hd; rw [(h d hd).2.2.1]; norm_num
  · intro d hd; exact (h d hd).2.2.2.2.1

/-- **C80, interaction file.**  Usable parameters with a well-formed interaction file with usable entries and a usable Green's
    function file: the solver is constructed, its terms are those of the file in their order, and it is ready to run. -/
theorem C80_file {sp : ℂ → Tok} (hsp : ∀ z, (sp z).Spells z) (dbg : Bool) (P : Params (Option (List Tok))) (j : ReadJunk)
    (file : GFile) (es : List Entry) (hP : UsableParams P)
    (hU : P.U = none) (hu : P.uFile = some (true, some (fileText es sp))) (hne : es ≠ []) (hsh : ∀ e ∈ es, e.Shape)
    (hr2 : dbg = true → ∀ e ∈ es, e.rank = 2) (hin : ∀ e ∈ es, e.InRange P.sites P.spins)
    (hes : ∀ e ∈ es, UsableEntry (mycast : ℂ → K) P.spins e)
    (hg : P.g0File = some (some file)) (hf : UsableGreen K file P.beta P.spins P.sites) (hc : P.config = none) :
    ∃ V : FullSolver K, FullSolver.create Tok.stream dbg P j = .ok V ∧ V.c.tbl.length = es.length ∧
      (∀ (i : ℕ) e, es[i]? = some e → ∃ d, V.c.tbl[i]? = some d ∧ SaysSame (mycast : ℂ → K) e d) ∧ Ready P V := by
  obtain ⟨t, et, hl, h⟩ := (C29_file hsp dbg (mycast : ℂ → K) P.sites P.spins es hsh hr2 j.u).1 hin
  have hh : ∀ d ∈ t.list.map (·.d), ∃ e ∈ es, SaysSame (mycast : ℂ → K) e d := by
    intro d hd
    obtain ⟨v, hv, rfl⟩ := List.mem_map.1 hd
    obtain ⟨i, hi, rfl⟩ := List.getElem_of_mem hv
    obtain ⟨v, e, -, hv⟩ := h i _ (List.getElem?_eq_getElem (by omega))
    rw [List.getElem?_eq_getElem hi] at e
    cases e
    exact ⟨_, List.getElem_mem _, hv⟩
  suffices ht : UsableTerms P.spins (t.list.map (·.d)) by
    obtain ⟨V, e, hV, -, hr⟩ := accepts (is := Tok.stream) (dbg := dbg) (P := P) (j := j) (t := t)
      (by unfold UTable.create; rw [hu, hU]; exact et) hP hg hf hc ht
    refine ⟨V, e, by rw [hV, List.length_map, hl], fun i e' he => ?_, hr⟩
    obtain ⟨v, ev, -, hv⟩ := h i e' he
    exact ⟨v.d, by rw [hV, List.getElem?_map, ev]; rfl, hv⟩
  refine ⟨?_, ?_, ?_, ?_, ?_⟩
  · intro hn
    have := congrArg List.length hn
    rw [List.length_map, hl] at this
    exact hne (List.length_eq_zero_iff.1 this)
  all_goals
    intro d hd
    obtain ⟨e', he', hs⟩ := hh d hd
    have hu := hes e' he'
  · rw [hs.U]; exact hu.U
  · intro s hs' r hr'
    rw [hs.numAf] at hs'
    rw [hs.rank] at hr'
    rw [hs.alpha s hs' r hr']
    exact hu.fields s hs' r hr'
  · rw [hs.numAf]; exact hu.states
  · rw [hs.rank, hs.flavors]; exact hu.flavors

/-- **C80, terms from model.U.**  With a number U the terms are the on-site repulsions: with two flavors one per site, with one
    flavor one per pair of sites; the fields are 1.01 and -0.01. -/
theorem C80_hubbard {dbg : Bool} {P : Params S} {j : ReadJunk} {V : FullSolver K} (h : FullSolver.create is dbg P j = .ok V) {U : ℝ}
    (hU : P.U = some U) :
    (P.spins = 2 ∧ V.c.tbl.length = P.sites ∧ ∀ s < P.sites, ∃ v : UDef K, V.c.tbl[s]? = some v.d ∧
      OnsiteTerm (U : K) ((1e-2 : ℝ) : K) s [s, s, s, s] [0, 1] v) ∨
    (P.spins = 1 ∧ V.c.tbl.length = P.sites / 2 ∧ ∀ s < P.sites / 2, ∃ v : UDef K, V.c.tbl[s]? = some v.d ∧
      OnsiteTerm (U : K) ((1e-2 : ℝ) : K) s [2 * s, 2 * s, 2 * s + 1, 2 * s + 1] [0, 0] v) := by
  obtain ⟨t, leg, file, g, sub, et, -, -, -, -, -, -, -, hc, -⟩ := create_inv h
  have htbl : V.c.tbl = t.list.map (·.d) := by rw [hc]; rfl
  have et : UTable.onsite P.sites P.spins (U : K) ((1e-2 : ℝ) : K) = .ok t := by
    unfold UTable.create at et
    match hu : P.uFile with
    | none => rw [hu, hU] at et; exact et
    | some _ => rw [hu, hU] at et; cases et
  by_cases c2 : P.spins = 2
  · rw [c2] at et
    obtain ⟨t', e, hl, -, -, h, -⟩ := C28_two_flavors P.sites (U : K) ((1e-2 : ℝ) : K)
    obtain rfl : t' = t := Res.ok.inj (e.symm.trans et)
    refine Or.inl ⟨c2, by rw [htbl, List.length_map, hl], fun s hs => ?_⟩
    obtain ⟨v, ev, hv⟩ := h s hs
    exact ⟨v, by rw [htbl, List.getElem?_map, ev]; rfl, hv⟩
  by_cases c1 : P.spins = 1
  · rw [c1] at et
    obtain ⟨t', e, hl, -, -, h, -⟩ := C28_one_flavor P.sites (U : K) ((1e-2 : ℝ) : K)
    obtain rfl : t' = t := Res.ok.inj (e.symm.trans et)
    refine Or.inr ⟨c1, by rw [htbl, List.length_map, hl], fun s hs => ?_⟩
    obtain ⟨v, ev, hv, -⟩ := h s hs
    exact ⟨v, by rw [htbl, List.getElem?_map, ev]; rfl, hv⟩
  · rw [C28_refused _ _ _ _ c1 c2] at et; cases et

/-! ### Refusals -/

/-- **C80, no surprises.**  Whatever the parameters and files contain, as long as they are harmless the release build constructs a
    solver or throws `runtime_error`. -/
theorem C80_total (P : Params S) (j : ReadJunk) (h : Harmless P) :
    (∃ V : FullSolver K, FullSolver.create is false P j = .ok V) ∨ (FullSolver.create is false P j : Res (FullSolver K)) = .throw .runtimeError := by
  change Green.Fine _
  unfold FullSolver.create
  refine Green.Fine.bind ?_ fun t et => ?_
  · unfold UTable.create
    match P.uFile, P.U with
    | some (o, s), none => exact C29_total (is := is) _ _ _ _ _ _
    | none, some U =>
      show Green.Fine (UTable.onsite _ _ _ _)
      by_cases c2 : P.spins = 2
      · rw [c2]; obtain ⟨t, e, -⟩ := C28_two_flavors P.sites (U : K) ((1e-2 : ℝ) : K); exact Or.inl ⟨t, e⟩
      by_cases c1 : P.spins = 1
      · rw [c1]; obtain ⟨t, e, -⟩ := C28_one_flavor P.sites (U : K) ((1e-2 : ℝ) : K); exact Or.inl ⟨t, e⟩
      · exact Or.inr (C28_refused _ _ _ _ c1 c2)
    | none, none => exact Or.inr rfl
    | some _, some _ => exact Or.inr rfl
  obtain ⟨leg, el⟩ := legendre_ok h.legendre
  rw [el, Res.bind_ok]
  refine Green.Fine.throwIf.bind fun _ _ => Green.Fine.throwIf.bind fun _ hg => Green.Fine.bind ?_ fun g _ => Green.Fine.throwIf.bind fun _ _ => ?_
  · match hf : P.g0File with
    | none => exact Or.inr rfl
    | some none => exact Or.inr rfl
    | some (some file) =>
      obtain ⟨h1, h2⟩ := h.green file hf
      exact C56_total file P.beta P.spins P.sites h.beta h1 h2
  · rw [h.config]
    exact Or.inl ⟨_, rfl⟩

/-- **C80, refusals.**  Harmless but senseless input is refused with `runtime_error`. -/
theorem C80_refused (P : Params S) (j : ReadJunk) (h : Harmless P) (hs : Senseless P) :
    (FullSolver.create is false P j : Res (FullSolver K)) = .throw .runtimeError := by
  rcases C80_total (K := K) (is := is) P j h with ⟨V, e⟩ | e
  swap
  · exact e
  exfalso
  obtain ⟨t, leg, file, g, sub, et, -, hr, hf, eg, hp, -⟩ := create_inv e
  obtain ⟨a, b, c', d, -⟩ := C56_read file P.beta P.spins P.sites g eg
  rcases hs with hs | ⟨s, hs⟩ | ⟨h1, h2, h3⟩ | ⟨n, h1, h2⟩ | hs | hs | ⟨file', h1, hs⟩ | hs
  · unfold UTable.create at et
    match hu : P.uFile, hU : P.U with
    | some (o, s), none => exact absurd (hs.2 hU) (by rw [hu]; simp)
    | none, some U => exact absurd (hs.1 hu) (by rw [hU]; simp)
    | none, none => rw [hu, hU] at et; cases et
    | some _, some _ => rw [hu, hU] at et; cases et
  · unfold UTable.create at et
    rw [hs] at et
    match hU : P.U with
    | none =>
      rw [hU] at et
      exact absurd (C29_in_range is false _ _ _ _ _ _ _ et).1 (by simp)
    | some U => rw [hU] at et; cases et
  · unfold UTable.create at et
    match hu : P.uFile, hU : P.U with
    | none, some U =>
      rw [hu, hU] at et
      exact absurd ((C28_refused _ _ _ _ h2 h3).symm.trans et) (by simp)
    | _, none => exact h1 hU
    | some _, some _ => rw [hu, hU] at et; cases et
  · rw [h1] at hr; exact h2 hr
  · rw [hs] at hf; cases hf
  · rw [hs] at hf; cases hf
  · rw [hf] at h1
    cases h1
    rcases hs with h | h | h | h
    · exact h a
    · exact h b
    · exact absurd c' (not_le.2 h)
    · exact h d
  · omega

/-- The number of Legendre polynomials is not checked: with 0 of them an otherwise good input ends in undefined behaviour. -/
theorem C80_legendre_violation (dbg : Bool) (P : Params S) (j : ReadJunk) (U : ℝ) (hu : P.uFile = none) (hU : P.U = some U)
    (hs : P.spins = 1 ∨ P.spins = 2) (hl : P.nLegendre = 0) : (FullSolver.create is dbg P j : Res (FullSolver K)) = .ub := by
  obtain ⟨t, et⟩ : ∃ t : UTable K, UTable.onsite P.sites P.spins (U : K) ((1e-2 : ℝ) : K) = .ok t := by
    rcases hs with h | h <;> rw [h]
    · obtain ⟨t, e, -⟩ := C28_one_flavor P.sites (U : K) ((1e-2 : ℝ) : K); exact ⟨t, e⟩
    · obtain ⟨t, e, -⟩ := C28_two_flavors P.sites (U : K) ((1e-2 : ℝ) : K); exact ⟨t, e⟩
  unfold FullSolver.create
  have : UTable.create is dbg (mycast : ℂ → K) P.sites P.spins P.uFile (P.U.map fun x => (x : K)) ((1e-2 : ℝ) : K) j.u = .ok t := by
    unfold UTable.create; rw [hu, hU]; exact et
  rw [this, Res.bind_ok, hl]
  rfl

/-! ### Running it -/

/-- What holds between two passes. -/
def Between (c : Ctx K) (q : MeasPar K) (m : Mgr) (s : Sim K) : Prop :=
  Closed c s.x.w.s ∧ TimesIn q.beta s.x.w.s.verts ∧ s.x.w.s.verts.length ≤ m.maxOrder

theorem closed_fields {c : Ctx K} {s : Sub K} (h : Closed c s) : FieldsOK s.verts := by
  obtain ⟨a, a1, a2⟩ := h
  have hR := a1.cl a2
  intro v hv
  exact ((hR.ok v hv).2 (hR.int v hv)).1

/-- A call keeps a property of what it returns. -/
theorem Total.keeps {α : Type} {u : ℕ → ℝ} {f : ℕ → Run α} {P Q : α → Prop} (h : Total u f P) (h' : ∀ fuel x, f fuel = .ok x → Q x) :
    Total u f (fun x => P x ∧ Q x) := by
  refine ⟨fun fuel => ?_, h.ends⟩
  have h1 := h.good fuel
  have h2 := h' fuel
  cases e : f fuel with
  | ok x => rw [e] at h1; exact ⟨h1, h2 x e⟩
  | more => trivial
  | throw _ => rw [e] at h1; exact h1
  | ub => rw [e] at h1; exact h1

variable {c : Ctx K} {q : MeasPar K} {G : ℝ → ℕ → ℕ → ℕ → K} {m : Mgr} {kIns maxOrder : ℕ} {sz : ℝ}

theorem pass_total (h : SimOK c q G m kIns maxOrder sz) (a : SimPar) {u : ℕ → ℝ} (hu : ∀ k, 0 ≤ u k ∧ u k < 1) {s : Sim K}
    (hs : Between c q m s) (J : ℕ → ℕ → ℕ → ℕ → ℕ → ℕ → ℕ → K) (junk : ℕ → ℕ → ℕ → K) :
    Total u (fun fuel => s.pass a m q c J junk u fuel) (fun y => Between c q m y ∧ y.step = s.step + a.steps.period ∧
      y.log.length = s.log.length + if s.step + a.steps.period > a.steps.therm then 1 else 0) := by
  have hbm : m.beta = q.beta := by rw [h.hm]; rfl
  have hst : 0 ≤ m.shiftStep := by rw [h.hm]; exact mul_nonneg h.hb.le h.hsz
  have hrun : Total u (fun fuel => s.x.run m c (J s.step) u fuel (updateUpdates a.nIR a.nSh a.nSF a.steps.period s.step))
      (fun y => Closed c y.w.s ∧ TimesIn q.beta y.w.s.verts ∧ y.w.s.verts.length ≤ m.maxOrder) := by
    unfold McState.run
    refine ((run_total h.ht h.hf h.hm hu hs.1 (J s.step) (updateUpdates a.nIR a.nSh a.nSF a.steps.period s.step)).keeps
      (Q := fun y => TimesIn q.beta y.s.verts ∧ y.s.verts.length ≤ m.maxOrder) fun fuel y ey => ⟨?_, ?_⟩).bind fun y hy => Total.ok hy
    · rw [← hbm]
      exact run_times hu (by rw [hbm]; exact h.hb) hst ey ⟨closed_fields hs.1, by rw [hbm]; exact hs.2.1⟩
    · exact C38_max_order hu (by rw [hbm]; exact h.hb) hst ey hs.2.2 (closed_fields hs.1)
  have hup : Total u (fun fuel => s.update a m c (J s.step) u fuel) (fun y => Between c q m y ∧ y.step = s.step + a.steps.period ∧ y.log = s.log) := by
    unfold Sim.update
    refine hrun.bind fun y hy => Total.ok ⟨?_, rfl, rfl⟩
    unfold Between
    simp only
    split <;> exact hy
  unfold Sim.pass
  refine hup.bind fun y ⟨hy, hstep, hlog⟩ => ?_
  unfold Sim.measure
  by_cases hth : s.step + a.steps.period > a.steps.therm
  · have : a.steps.isTherm y.step = true := by rw [hstep]; unfold Steps.isTherm; exact decide_eq_true hth
    rw [this]
    obtain ⟨r, er, -⟩ := measureObservables_spec h.ht h.hb h.hnb h.hsite h.hg hy.1 hy.2.1 hu (junk y.step) y.x.w.p rfl (fun _ => rfl) rfl rfl (fun _ _ _ => rfl)
    have em : y.x.measure q c (junk y.step) u = .ok (⟨r, y.x.w.stat.result, y.x.shift.result⟩, ⟨⟨y.x.w.s, ⟨0, 0⟩, y.x.w.p + q.nShifts + 1⟩, ⟨0, 0⟩⟩) := by
      unfold McState.measure
      rw [er, Res.bind_ok]
      rfl
    simp only [Bool.not_true, Bool.false_eq_true, if_false, em, Run.lift_ok, Run.bind_ok, Run.pure_eq]
    exact Total.ok ⟨hy, hstep, by rw [if_pos hth, List.length_append, hlog]; rfl⟩
  · have : a.steps.isTherm y.step = false := by rw [hstep]; unfold Steps.isTherm; exact decide_eq_false hth
    rw [this]
    simp only [Bool.not_false, if_true, Run.pure_eq]
    exact Total.ok ⟨hy, hstep, by rw [if_neg hth, hlog]; rfl⟩

theorem passes_total (h : SimOK c q G m kIns maxOrder sz) (a : SimPar) {u : ℕ → ℝ} (hu : ∀ k, 0 ≤ u k ∧ u k < 1)
    (J : ℕ → ℕ → ℕ → ℕ → ℕ → ℕ → ℕ → K) (junk : ℕ → ℕ → ℕ → K) (n : ℕ) {s : Sim K} (hs : Between c q m s) :
    Total u (fun fuel => Sim.passes a m q c J junk u fuel s n) (fun y => Between c q m y ∧ y.step = s.step + n * a.steps.period ∧
      y.log.length = s.log.length + ((List.range n).countP fun k => decide (s.step + (k + 1) * a.steps.period > a.steps.therm))) := by
  induction n generalizing s with
  | zero => exact Total.ok ⟨hs, by simp, by simp⟩
  | succ n ih =>
    unfold Sim.passes
    refine (pass_total h a hu hs J junk).bind fun y ⟨hy, h1, h2⟩ => ?_
    refine ⟨fun fuel => ?_, (ih hy).ends⟩
    have h3 := (ih hy).good fuel
    cases e : Sim.passes a m q c J junk u fuel y n with
    | ok z =>
      rw [e] at h3
      obtain ⟨z1, z2, z3⟩ := h3
      refine ⟨z1, by rw [z2, h1]; ring, ?_⟩
      rw [z3, h2, List.range_succ_eq_map, List.countP_cons, List.countP_map]
      have : (List.range n).countP (fun k => decide (y.step + (k + 1) * a.steps.period > a.steps.therm)) =
          (List.range n).countP ((fun k => decide (s.step + (k + 1) * a.steps.period > a.steps.therm)) ∘ Nat.succ) := by
        refine List.countP_congr fun k _ => ?_
        simp only [Function.comp, decide_eq_true_eq]
        rw [h1, show s.step + a.steps.period + (k + 1) * a.steps.period = s.step + (k.succ + 1) * a.steps.period by rw [Nat.succ_eq_add_one]; ring]
      rw [this]
      simp only [zero_add, one_mul, decide_eq_true_eq]
      omega
    | more => trivial
    | throw _ => rw [e] at h3; exact h3
    | ub => rw [e] at h3; exact h3

/-- **C80, running.**  A ready solver makes any number of passes of the main loop with any random numbers in [0,1) and never fails
    (no exception, no violated assertion, no access outside a container, no inversion of a singular matrix): it is still drawing
    random numbers, or it has made the `n` passes, and then the step counter is `n` times the period, one record was made for every
    pass that ended after the thermalisation, the matrices are exact for the vertices, the order is within its bound, the times are
    in [0,β].  On a stream that keeps producing every value it does make them. -/
theorem C80_runs {P : Params S} {V : FullSolver K} (hV : Ready P V) (hP : Passed P V) {u : ℕ → ℝ} (hu : ∀ k, 0 ≤ u k ∧ u k < 1)
    (J : ℕ → ℕ → ℕ → ℕ → ℕ → ℕ → ℕ → K) (junk : ℕ → ℕ → ℕ → K) (n : ℕ) :
    (∀ fuel, V.s.passes V.a V.m V.q V.c J junk u fuel n = .more ∨ ∃ y, V.s.passes V.a V.m V.q V.c J junk u fuel n = .ok y ∧
      (y.step : ℤ) = n * P.period ∧ y.log.length = ((List.range n).countP fun k : ℕ => decide (((k : ℤ) + 1) * P.period > P.therm)) ∧
      ExactFor V.c y.x.w.s ∧ y.x.w.s.verts.length ≤ P.maxOrder ∧ TimesIn P.beta y.x.w.s.verts) ∧
    (Fair u → ∃ F y, ∀ fuel ≥ F, V.s.passes V.a V.m V.q V.c J junk u fuel n = .ok y) := by
  obtain ⟨G, B, hok, -, hs⟩ := hV
  obtain ⟨b, b1, b2⟩ := hs.reached.means hok.ht hok.hf hok.hm
  have ht := passes_total hok V.a hu J junk n (s := V.s) ⟨⟨b, b1, b2⟩, ?_, by rw [hP.maxOrder]; exact hs.order⟩
  · refine ⟨fun fuel => ?_, ht.ends⟩
    have h1 := ht.good fuel
    rcases hr : V.s.passes V.a V.m V.q V.c J junk u fuel n with y | e | _ | _
    · rw [hr] at h1
      obtain ⟨⟨⟨b', c1, c2⟩, h3, h4⟩, h5, h6⟩ := h1
      rw [hs.step] at h5 h6
      refine Or.inr ⟨y, rfl, ?_, ?_, c1.exactFor hok.ht c2, by rw [← hP.maxOrder]; exact h4, by rw [← hP.beta]; exact h3⟩
      · rw [h5, ← hP.period]; push_cast; ring
      · rw [h6, hs.log]
        simp only [List.length_nil, zero_add]
        refine List.countP_congr fun k _ => ?_
        simp only [decide_eq_true_eq]
        rw [← hP.period, ← hP.therm]
        exact_mod_cast Iff.rfl
    · rw [hr] at h1; exact h1.elim
    · rw [hr] at h1; exact h1.elim
    · exact Or.inl rfl
  · intro v hv
    have := hs.valid (ptOf v) (List.mem_map_of_mem hv)
    exact ⟨this.2.2.1, this.2.2.2.le⟩

/-- **C80, from the input files to the results.**  Real weights.  From parameters and files to the archive: with probability one the
    constructed solver makes every number of passes, post-processing writes an archive once there are enough of them, and every
    number in it converges to the value the expansion defines for the terms and the bare Green's function of the solver. -/
theorem C80_archive {dbg : Bool} {P : Params S} {j : ReadJunk} {V : FullSolver ℝ} (h : FullSolver.create is dbg P j = .ok V)
    (hP : UsableParams P) (ht : UsableTerms P.spins V.c.tbl) (hs : UsableStart P V) (hk : 0 < P.kIns) (hn : 0 < P.nIR)
    (hsm : 0 < P.nSamples) {w : ℝ} (hw : 0 < w)
    (hlow : ∀ x, ValidPts P.beta V.c.tbl x → x.length ≤ P.maxOrder → w ≤ |weight V.c.NI V.c.nf V.c.G0 V.c.tbl (x.map vertAt)|)
    (hS : (configSum V.c P.beta P.maxOrder fun x => weight V.c.NI V.c.nf V.c.G0 V.c.tbl (x.map vertAt)) ≠ 0)
    {sj : ℕ → ℝ → ℝ} (hsj : IsSphBessel sj) (nm : ℕ) (junkP : ℕ → ℕ → ℕ → ℝ)
    (J : ℕ → ℕ → ℕ → ℕ → ℕ → ℕ → ℕ → ℝ) (junk : ℕ → ℕ → ℕ → ℝ) :
    ∃ G : ℝ → ℕ → ℕ → ℕ → ℝ, (∀ t, ∀ z < P.spins, ∀ s1 < P.sites, ∀ s2 < P.sites, V.q.g0 t z s1 s2 = .ok (G t z s1 s2)) ∧
      ∀ᵐ u ∂streams, ∃ y : ℕ → Sim ℝ,
        (∀ n, Returns (fun fuel => V.s.passes V.a V.m V.q V.c J junk u fuel (P.therm / P.period.toNat + n)) (y n) ∧ (y n).log.length = n) ∧
        ∃ ar : ℕ → Archive, (∀ᶠ n in Filter.atTop, postprocess P.spins P.sites P.nBin P.nLegendre nm P.beta sj (junkP n)
            ((y n).log.map fun r => r.values) = .ok (ar n)) ∧
          ArchiveTo V.c V.q G P.maxOrder P.nLegendre nm ar := by
  have hp := C80_parameters h
  obtain ⟨G, B, hok, hreg, hst⟩ := C80_ready h hP ht hs
  have hper : V.a.steps.period = P.period.toNat := by have := hp.period; omega
  refine ⟨G, fun t z hz s1 h1 s2 h2 => hok.hg t z s1 s2 (by rw [hp.nf]; exact hz) (by rw [hp.ns]; exact h1) (by rw [hp.ns]; exact h2), ?_⟩
  have := C76_archive hok hreg hk hw (by rw [hp.beta]; exact hlow) V.a (by rw [hp.nIR]; exact hn)
    (by have := hP.period; omega) (by rw [hp.samples]; exact hsm) (by rw [hp.beta]; exact hS) hsj hP.legendre nm junkP hst J junk
  rw [hp.nf, hp.ns, hp.bins, hp.beta, hp.therm, hper] at this
  exact this

/-! ### The theorems apply: two flavors, one site, U = 1, β = 1, at most one vertex -/

noncomputable def exGreenFile : GFile := ⟨2, 1, 3, 1, [⟨0, 0, 0, 0, -1 / 2, 0⟩, ⟨0, 0, 0, 1, -1 / 2, 0⟩, ⟨0, 0, 0, 2, -1 / 2, 0⟩,
  ⟨1, 0, 0, 0, -1 / 2, 0⟩, ⟨1, 0, 0, 1, -1 / 2, 0⟩, ⟨1, 0, 0, 2, -1 / 2, 0⟩]⟩

/-- `S` is arbitrary: no stream is read. -/
noncomputable def exParams (S : Type) : Params S where
  sites := 1
  spins := 2
  beta := 1
  uFile := none
  U := some 1
  g0File := some (some exGreenFile)
  total := 1000
  therm := 10
  period := 2
  maxOrder := 1
  nIR := 1
  nSh := 1
  nSF := 1
  stepSize := 0.1
  kIns := 3
  nLegendre := 4
  nSamples := 5
  nBin := 6
  rates := none
  config := none

theorem ex_params : UsableParams (exParams S) :=
  ⟨by norm_num [exParams], by norm_num [exParams], by norm_num [exParams], by norm_num [exParams], by norm_num [exParams], Or.inl rfl⟩

theorem ex_greenFile : UsableGreen K exGreenFile 1 2 1 := by
  refine ⟨by norm_num [exGreenFile], rfl, rfl, by norm_num [exGreenFile], ?_, ?_⟩
  · intro f s1 s2 t hf h1 h2 ht
    simp only [exGreenFile] at hf h1 h2 ht
    obtain rfl : s1 = 0 := by omega
    obtain rfl : s2 = 0 := by omega
    obtain rfl | rfl : f = 0 ∨ f = 1 := by omega
    all_goals
      obtain rfl | rfl | rfl : t = 0 ∨ t = 1 ∨ t = 2 := by omega
      all_goals exact ⟨_, rfl, rfl, rfl, rfl, rfl⟩
  · intro f s1 s2 t hf h1 h2 ht
    simp only [exGreenFile] at ht
    obtain rfl : s1 = 0 := by omega
    obtain rfl : s2 = 0 := by omega
    obtain rfl | rfl : f = 0 ∨ f = 1 := by omega
    all_goals
      obtain rfl | rfl | rfl : t = 0 ∨ t = 1 ∨ t = 2 := by omega
      all_goals simp [GFile.value, GFile.line, exGreenFile]

theorem ex_create (dbg : Bool) (j : ReadJunk) : ∃ V : FullSolver K, FullSolver.create is dbg (exParams S) j = .ok V ∧ Ready (exParams S) V :=
  C80_onsite dbg _ j exGreenFile 1 ex_params rfl rfl one_ne_zero (Or.inl ⟨rfl, by norm_num [exParams]⟩) rfl ex_greenFile rfl

section
variable {dbg : Bool} {j : ReadJunk} {V : FullSolver ℝ}

theorem ex_G0 (h : FullSolver.create is dbg (exParams S) j = .ok V) {a b : Op} (h1 : a.flavor = b.flavor) (h2 : a.flavor < 2)
    (h3 : a.site = 0) (h4 : b.site = 0) (h5 : a.time = b.time) (h6 : a.small = b.small) : V.c.G0 a b = 1 / 2 := by
  obtain ⟨file, e, -, hall⟩ := C80_green h ex_params.beta
  obtain rfl : exGreenFile = file := Option.some.inj (Option.some.inj e)
  obtain ⟨⟨A, B, hA, hB⟩, hAB⟩ := hall a.flavor h2 0 (by norm_num [exParams]) 0 (by norm_num [exParams])
  obtain ⟨hG, -⟩ := hAB A B hA hB _ (contin_anti (by norm_num [exParams]) _)
  rw [hG a b rfl h1.symm h3 h4, if_neg (by simp [h5]), if_neg (by simp [h6])]
  have eA := hA.spline.through 2 (by norm_num [exGreenFile])
  have e1 : exGreenFile.grid (exParams S).beta 2 = 1 := by norm_num [GFile.grid, exGreenFile, exParams]
  rw [e1] at eA
  have e2 : (exParams S).beta = 1 := rfl
  rw [e2, eA]
  obtain h | h : a.flavor = 0 ∨ a.flavor = 1 := by omega
  all_goals
    rw [h]
    simp [GFile.value, GFile.line, exGreenFile]
    try norm_num

theorem ex_table (h : FullSolver.create is dbg (exParams S) j = .ok V) : ∃ v : UDef ℝ, V.c.tbl = [v.d] ∧
    OnsiteTerm (1 : ℝ) (1e-2 : ℝ) 0 [0, 0, 0, 0] [0, 1] v := by
  rcases C80_hubbard h rfl with ⟨-, hl, ht⟩ | ⟨h1, -⟩
  · obtain ⟨v, e, hv⟩ := ht 0 (by norm_num [exParams])
    refine ⟨v, ?_, hv⟩
    obtain ⟨d, hd⟩ := List.length_eq_one_iff.1 hl
    rw [hd] at e ⊢
    simp at e
    rw [e]
  · simp [exParams] at h1

theorem ex_single_weight (h : FullSolver.create is dbg (exParams S) j = .ok V) {p : Pt} (hp : ValidPts 1 V.c.tbl [p]) :
    weight V.c.NI V.c.nf V.c.G0 V.c.tbl [vertAt p] = 0.2601 := by
  obtain ⟨v, ht, hv⟩ := ex_table h
  obtain ⟨h1, h2, -⟩ := hp p (by simp)
  have h1 : p.1 = 0 := by rw [ht] at h1; simpa using h1
  have hT : termOf V.c.tbl (vertAt p) = v.d := by unfold termOf; rw [ht]; show [v.d].getD p.1 _ = _; rw [h1]; rfl
  have hn : p.2.1 < 2 := by
    have : numStates V.c.tbl p.1 = 2 := by rw [ht, h1]; exact hv.numAf
    omega
  have hi : interacting [vertAt p] = [vertAt p] := by simp [interacting, vertAt]
  have hf : ∀ r < 2, flavorOf V.c.tbl (vertAt p) r = r := by
    intro r hr
    unfold flavorOf
    rw [hT, hv.flavors]
    interval_cases r <;> rfl
  have r0 : rowsOf V.c.NI V.c.tbl [vertAt p] 0 = [rowOf V.c.NI V.c.tbl (vertAt p) 0] := by
    simp [rowsOf, rowsV, hT, hv.rank, List.range_succ, List.filter_cons, hf]
  have r1 : rowsOf V.c.NI V.c.tbl [vertAt p] 1 = [rowOf V.c.NI V.c.tbl (vertAt p) 1] := by
    simp [rowsOf, rowsV, hT, hv.rank, List.range_succ, List.filter_cons, hf]
  have hG : ∀ r < 2, V.c.G0 (rowOf V.c.NI V.c.tbl (vertAt p) r).an (rowOf V.c.NI V.c.tbl (vertAt p) r).cr = 1 / 2 := by
    intro r hr
    refine ex_G0 h rfl ?_ ?_ ?_ rfl rfl
    · show flavorOf V.c.tbl (vertAt p) r < 2
      rw [hf r hr]; exact hr
    · show (termOf V.c.tbl (vertAt p)).sites.getD (2 * r + 1) 0 = 0
      rw [hT, hv.sites]; interval_cases r <;> rfl
    · show (termOf V.c.tbl (vertAt p)).sites.getD (2 * r) 0 = 0
      rw [hT, hv.sites]; interval_cases r <;> rfl
  have hal : ∀ r, (rowOf V.c.NI V.c.tbl (vertAt p) r).al = v.d.alpha p.2.1 r := by
    intro r
    show fieldOf V.c.NI V.c.tbl (vertAt p) r = _
    unfold fieldOf
    rw [hT]
    simp [vertAt]
  have hnf : V.c.nf = 2 := (C80_parameters h).nf
  unfold weight detWeight uWeight
  rw [hi, hnf, Finset.prod_range_succ, Finset.prod_range_succ, Finset.prod_range_zero, r0, r1]
  simp only [List.length_singleton, List.map_cons, List.map_nil, List.prod_cons, List.prod_nil, hT]
  unfold detN
  rw [Matrix.det_fin_one, Matrix.det_fin_one]
  simp only [toM_apply, rowG, specG, Fin.val_zero, if_true, List.getD_cons_zero]
  rw [hG 0 (by norm_num), hG 1 (by norm_num), hal, hal, hv.U]
  have e1 := hv.up; have e2 := hv.down
  rw [e1.1, e1.2] at e2
  obtain h' | h' : p.2.1 = 0 ∨ p.2.1 = 1 := by omega
  · rw [h', e1.1, e1.2]; norm_num
  · rw [h', e2.1, e2.2]; norm_num

/-- `C80_runs` applies to this input: whatever the random numbers, 100 passes record 95 times or are still drawing. -/
example (h : FullSolver.create is dbg (exParams S) j = .ok V) {u : ℕ → ℝ} (hu : ∀ k, 0 ≤ u k ∧ u k < 1) (fuel : ℕ) :
    V.s.passes V.a V.m V.q V.c (fun _ _ _ _ _ _ _ => 0) (fun _ _ _ => 0) u fuel 100 = .more ∨
      ∃ y, V.s.passes V.a V.m V.q V.c (fun _ _ _ _ _ _ _ => 0) (fun _ _ _ => 0) u fuel 100 = .ok y ∧ y.log.length = 95 := by
  obtain ⟨V', e, hr⟩ := ex_create (K := ℝ) (is := is) (S := S) dbg j
  obtain rfl : V' = V := Res.ok.inj (e.symm.trans h)
  rcases (C80_runs hr (C80_parameters h) hu (fun _ _ _ _ _ _ _ => 0) (fun _ _ _ => 0) 100).1 fuel with e | ⟨y, e, -, hl, -⟩
  · exact Or.inl e
  · exact Or.inr ⟨y, e, hl.trans (by
      change (List.range 100).countP (fun k : ℕ => decide (((k : ℤ) + 1) * 2 > ((10 : ℕ) : ℤ))) = 95
      decide)⟩

/-- `C80_refused` applies to senseless input: the period is missing. -/
example : (FullSolver.create is false { exParams S with period := 0 } j : Res (FullSolver ℝ)) = .throw .runtimeError := by
  refine C80_refused _ j ⟨by norm_num [exParams], by norm_num [exParams], rfl, fun file e => ?_⟩ ?_
  · obtain rfl : exGreenFile = file := Option.some.inj (Option.some.inj e)
    exact ⟨by norm_num [exGreenFile], by simp [exGreenFile]⟩
  · exact Or.inr (Or.inr (Or.inr (Or.inr (Or.inr (Or.inr (Or.inr le_rfl))))))

/-- `C80_file` applies: the same input with the interaction in a file. -/
noncomputable def exEntry80 : Entry := ⟨2, 2, 1, [0, 0, 0, 0], [0, 1], fun s r => if s = r then 2 else -1⟩

noncomputable def exParamsFile : Params (Option (List Tok)) :=
  { exParams (Option (List Tok)) with U := none, uFile := some (true, some (fileText [exEntry80])) }

example : ∃ V : FullSolver ℂ, FullSolver.create Tok.stream true exParamsFile j = .ok V ∧ V.c.tbl.length = 1 ∧ Ready exParamsFile V := by
  obtain ⟨V, e, hl, -, hr⟩ := C80_file (K := ℂ) spells_cplx true exParamsFile j exGreenFile [exEntry80]
    ⟨by norm_num [exParamsFile, exParams], by norm_num [exParamsFile, exParams], by norm_num [exParamsFile, exParams],
      by norm_num [exParamsFile, exParams], by norm_num [exParamsFile, exParams], Or.inl rfl⟩ rfl rfl (by simp)
    (by simp only [List.mem_singleton, forall_eq]; exact ⟨rfl, rfl⟩) (by simp [exEntry80])
    (by simp only [List.mem_singleton, forall_eq]; exact ⟨by simp [exEntry80, exParamsFile, exParams], by simp [exEntry80, exParamsFile, exParams]⟩)
    (by
      simp only [List.mem_singleton, forall_eq]
      refine ⟨by simp [mycast, exEntry80], ?_, by norm_num [exEntry80], ?_⟩
      · intro s _ r _
        have e1 : (mycast (exEntry80.alpha s r) : ℂ) = ((if s = r then 2 else -1 : ℝ) : ℂ) := by
          unfold mycast exEntry80
          simp only
          split <;> simp
        rw [e1]
        refine ⟨fun h => ?_, fun h => ?_, fun h => ?_⟩
        · have := Complex.ofReal_injective h
          split at this <;> norm_num at this
        · have := Complex.ofReal_eq_zero.1 h
          split at this <;> norm_num at this
        · have := Complex.ofReal_eq_one.1 h
          split at this <;> norm_num at this
      · intro z hz
        have hz : z < 2 := hz
        exact ⟨z, hz, by interval_cases z <;> rfl⟩)
    rfl ex_greenFile rfl
  exact ⟨V, e, hl, hr⟩

theorem ex_weights (h : FullSolver.create is dbg (exParams S) j = .ok V) : ∀ x, ValidPts 1 V.c.tbl x → x.length ≤ 1 → 0.2601 ≤ weight V.c.NI V.c.nf V.c.G0 V.c.tbl (x.map vertAt) := by
  intro x hx hn
  match x, hx, hn with
  | [], _, _ => rw [List.map_nil, weight_nil]; norm_num
  | [p], hx, _ => rw [List.map_cons, List.map_nil, ex_single_weight h hx]

theorem ex_terms (h : FullSolver.create is dbg (exParams S) j = .ok V) : UsableTerms 2 V.c.tbl := by
  obtain ⟨V', e, G, B, hok, -, -⟩ := ex_create (K := ℝ) (is := is) (S := S) dbg j
  obtain rfl : V' = V := Res.ok.inj (e.symm.trans h)
  have hp := C80_parameters h
  have hni : V'.c.NI = ((10 ^ 100 : ℝ)) := by
    obtain ⟨t, leg, file, g, sub, -, -, -, -, -, -, -, -, hc, -⟩ := create_inv h
    rw [hc]; rfl
  refine ⟨hok.hT, hok.ht.U, ?_, fun d hd => (hok.hf d hd).1, fun d hd z hz => (hok.hf d hd).2 z (by rw [hp.nf]; exact hz)⟩
  have := hok.ht.al
  rw [hni] at this
  exact this

theorem ex_sum (h : FullSolver.create is dbg (exParams S) j = .ok V) : (configSum V.c 1 1 fun x => weight V.c.NI V.c.nf V.c.G0 V.c.tbl (x.map vertAt)) ≠ 0 := by
  have e : (configSum V.c 1 1 fun x => weight V.c.NI V.c.nf V.c.G0 V.c.tbl (x.map vertAt)) =
      configSum V.c 1 1 fun x => if x = [] then 1 else 0.2601 := by
    refine configSum_congr_live fun x hx hn => ?_
    match x, hx, hn with
    | [], _, _ => rw [List.map_nil, weight_nil, if_pos rfl]
    | [v], hx, _ => rw [List.map_cons, List.map_nil, ex_single_weight h hx, if_neg (by simp)]
  rw [e]
  unfold configSum
  rw [Finset.sum_range_succ, Finset.sum_range_one]
  refine ne_of_gt (add_pos_of_pos_of_nonneg ?_ ?_)
  · rw [Measure.pi_of_empty]
    simp
  · refine mul_nonneg (by positivity) (integral_nonneg fun x => ?_)
    simp
    norm_num

/-- `C80_archive` applies to this input. -/
example (h : FullSolver.create is dbg (exParams S) j = .ok V) :
    ∃ G : ℝ → ℕ → ℕ → ℕ → ℝ, (∀ t, ∀ z < 2, ∀ s1 < 1, ∀ s2 < 1, V.q.g0 t z s1 s2 = .ok (G t z s1 s2)) ∧
      ∀ᵐ u ∂streams, ∃ y : ℕ → Sim ℝ,
        (∀ n, Returns (fun fuel => V.s.passes V.a V.m V.q V.c (fun _ _ _ _ _ _ _ => 0) (fun _ _ _ => 0) u fuel (5 + n)) (y n) ∧
          (y n).log.length = n) ∧
        ∃ ar : ℕ → Archive, (∀ᶠ n in Filter.atTop, postprocess 2 1 6 4 6 1 sphJ (fun _ _ => 0) ((y n).log.map fun r => r.values) = .ok (ar n)) ∧
          ArchiveTo V.c V.q G 1 4 6 ar := by
  have hall := ex_weights h
  have hterms := ex_terms h
  have hsum := ex_sum h
  have key := C80_archive h ex_params hterms (Or.inl rfl) (by norm_num [exParams]) (by norm_num [exParams]) (by norm_num [exParams])
    (w := 0.2601) (by norm_num) (fun x hx hn => (hall x hx hn).trans (le_abs_self _)) hsum (sj := sphJ) (fun _ _ _ => rfl) 6 (fun _ _ _ => 0)
    (fun _ _ _ _ _ _ _ => 0) (fun _ _ _ => 0)
  have e5 : (exParams S).therm / (exParams S).period.toNat = 5 := by simp [exParams]
  simp only [e5] at key
  exact key

end

end CTInt
