import Verif.Proofs.DebugSim
import Verif.Proofs.DebugGreen

/-!
# C79: the debug build of the solver

`Walker.runD`, `Sim.passesD`, `Green.interpolateD`, `Green.readD` are the functions of the debug build
(`Verif.Model.DebugSim`, `Verif.Model.DebugGreen`): every check that is compiled in stops the program (`ub`) when it
fails.  `Walker.run`, `Sim.passes`, `Green.interpolate`, `Green.read` are those of the release build.
-/

set_option linter.all false

namespace CTInt

variable {K : Type} [RCLike K] [DecidableEq K]
variable {c : Ctx K}

/-- **C79.**  From any admissible initial configuration, for any sequence of updates and any random numbers, the debug
    build performs the same chain as the release build: it never stops at one of its checks, it either is still drawing
    random numbers or has returned the same state, which is exact for its vertex list; and on a stream that keeps
    producing every value it does return. -/
theorem C79_same_chain (ht : TblOK c.NI c.nf c.tbl) (hf : FullTerms c) {beta : ℝ} {kIns maxOrder : ℕ} {sz : ℝ}
    {m : Mgr} (hm : m = Mgr.create beta kIns maxOrder sz c.tbl) {u : ℕ → ℝ} (hu : ∀ k, 0 ≤ u k ∧ u k < 1)
    {vs : List Vert} (hs : GoodStart c.NI c.nf c.G0 c.tbl vs) (st : AccStat) (p : ℕ)
    (J : ℕ → ℕ → ℕ → ℕ → ℕ → ℕ → K) (l : List Upd) :
    ∃ s0, Sub.create c vs = .ok s0 ∧
      (∀ fuel, (⟨s0, st, p⟩ : Walker K).runD m c J u fuel l = (⟨s0, st, p⟩ : Walker K).run m c J u fuel l) ∧
      (∀ fuel, (⟨s0, st, p⟩ : Walker K).runD m c J u fuel l = .more ∨
        ∃ y, (⟨s0, st, p⟩ : Walker K).runD m c J u fuel l = .ok y ∧ ExactFor c y.s) ∧
      (Fair u → ∃ F y, ∀ fuel ≥ F, (⟨s0, st, p⟩ : Walker K).runD m c J u fuel l = .ok y) := by
  obtain ⟨s0, e0, h1, h2⟩ := C53_updates_never_fail ht hf hm hu hs st p J l
  obtain ⟨s1, e1, m1⟩ := create_means ht hs
  rw [e0] at e1
  obtain rfl : s0 = s1 := by injection e1
  have key : ∀ fuel, (⟨s0, st, p⟩ : Walker K).runD m c J u fuel l = (⟨s0, st, p⟩ : Walker K).run m c J u fuel l :=
    fun fuel => walkerRunD_eq ht hf hm hu ⟨_, m1, rfl⟩ J fuel l
  refine ⟨s0, e0, key, fun fuel => ?_, fun hF => ?_⟩
  · rw [key]; exact h1 fuel
  · obtain ⟨F, y, h⟩ := h2 hF
    exact ⟨F, y, fun fuel hfu => by rw [key]; exact h fuel hfu⟩

/-- **C79.**  Any number of passes of the main loop, with thermalisation and measurements, is the same in both builds:
    the same state, step count and recorded values, and the same failure if one of the measurements fails. -/
theorem C79_same_measurements (ht : TblOK c.NI c.nf c.tbl) (hf : FullTerms c) {beta : ℝ} {kIns maxOrder : ℕ} {sz : ℝ}
    {m : Mgr} (hm : m = Mgr.create beta kIns maxOrder sz c.tbl) {u : ℕ → ℝ} (hu : ∀ k, 0 ≤ u k ∧ u k < 1)
    (a : SimPar) (q : MeasPar K) {vs : List Vert} (hs : GoodStart c.NI c.nf c.G0 c.tbl vs) {s : Sim K}
    (h0 : Sub.create c vs = .ok s.x.w.s) (J : ℕ → ℕ → ℕ → ℕ → ℕ → ℕ → ℕ → K) (junk : ℕ → ℕ → ℕ → K) (n fuel : ℕ) :
    Sim.passesD a m q c J junk u fuel s n = Sim.passes a m q c J junk u fuel s n := by
  obtain ⟨s1, e1, m1⟩ := create_means ht hs
  rw [h0] at e1
  obtain rfl : s.x.w.s = s1 := by injection e1
  exact passesD_eq ht hf hm hu a q n ⟨_, m1, rfl⟩ J junk fuel

omit [DecidableEq K] in
/-- **C79.**  The bare Green function: a file is accepted by the debug build exactly if it is by the release build, with
    the same table; the value of the debug build is that of the release build, at any time: the check that compares the
    stored polynomial with the splines never stops the program.  The two ways to call it are the same too. -/
theorem C79_green (file : Option GFile) (β : ℝ) (F S : ℕ) :
    Green.readD (K := K) file β F S = Green.read file β F S ∧
    ∀ g : Green K, Green.read file β F S = .ok g →
      (∀ f s1 s2 τ, g.interpolateD f s1 s2 τ = g.interpolate f s1 s2 τ) ∧
      (∀ fuel a b, g.ofOpsD fuel a b = g.ofOps fuel a b) ∧
      (∀ fuel τ f s1 s2, g.ofTimeD fuel τ f s1 s2 = g.ofTime fuel τ f s1 s2) := by
  refine ⟨Green.readD_eq file β F S, fun g h => ?_⟩
  cases file with
  | none => cases h
  | some file =>
    obtain ⟨-, -, -, n1, n2, n3, -, n5, n6, ⟨st, hp, hd, hc⟩, -⟩ := Green.read_inv h
    have key := Green.interpolateD_eq g (F := F) (S := S) (R := file.rows) (by rw [n3]; exact hp) n1 n2 n5 n6 hd hc
    refine ⟨key, fun fuel a b => ?_, fun fuel τ f s1 s2 => ?_⟩
    · unfold Green.ofOpsD Green.ofOps
      simp only [key]
    · unfold Green.ofTimeD Green.ofTime
      simp only [key]

/-- The check in `interpolate` is a real one: a table whose coefficients are not those of the spline of its data stops
    the debug build, while the release build returns a value. -/
theorem C79_green_check_detects : ∃ g : Green ℝ, (∃ v, g.interpolate 0 0 0 0 = .ok v) ∧ g.interpolateD 0 0 0 0 = .ub := by
  refine ⟨⟨1, 1, 3, 1, 1 / 2, 2, fun _ _ _ _ => 0, fun _ _ _ _ p => if p = 0 then 1 else 0⟩, ⟨1, ?_⟩, ?_⟩
  · unfold Green.interpolate
    rw [Res.assert_true (by norm_num)]
    simp [Res.assert_true, mycast]
  · have hg : ∃ s B, Spline.setPoints .default (Green.times 3 1) ((List.range 3).map fun _ => (0 : ℝ)) true = .ok s ∧
        Spline.Solved .default (Green.times 3 1) ((List.range 3).map fun _ => (0 : ℝ)) B s :=
      Spline.setPoints_ok _ _ _ (by simp [Green.times]) (by rw [Green.times_length]; norm_num)
        (Green.times_increasing (by norm_num) (by norm_num))
    obtain ⟨s, B, e, -⟩ := hg
    have hv : Spline.value s 0 = 0 :=
      Green.value_zero e (fun _ _ => rfl) (i := 0) (by norm_num) (by norm_num) (by norm_num)
    have he := Green.eval_value e 0
    unfold Green.times at e
    unfold Green.interpolateD Green.splines
    rw [Res.assert_true (by norm_num)]
    simp only [Res.bind_ok, map_zero]
    simp only [e, Res.bind_ok, Res.pure_eq, he, hv]
    simp [Res.assert_true, Res.assert_false, mycast]
    have hz : ((1 : ℂ) - ⟨0, 0⟩) = 1 := by apply Complex.ext <;> simp
    rw [hz, norm_one, Res.assert_false (by norm_num)]
    rfl

/-! ## The theorems apply -/

/-- Ten steps of the debug build with all kinds of updates starting from the empty configuration return. -/
example : ∃ s0 fuel y, Sub.create exCtx [] = .ok s0 ∧
    (⟨s0, ⟨0, 0⟩, 0⟩ : Walker ℝ).runD (Mgr.create 1 3 5 (1 / 10) exCtx.tbl) exCtx (fun _ _ _ _ _ _ => 0) exStream fuel
      ((List.range 10).flatMap (updateUpdates 2 1 1 4)) = .ok y := by
  obtain ⟨s0, h1, -, -, h3⟩ := C79_same_chain ex_tbl ex_full (beta := 1) (kIns := 3) (maxOrder := 5) (sz := 1 / 10) rfl
    exStream_range (empty_goodStart exCtx) ⟨0, 0⟩ 0 (fun _ _ _ _ _ _ => 0) ((List.range 10).flatMap (updateUpdates 2 1 1 4))
  obtain ⟨F, y, h4⟩ := h3 exStream_fair
  exact ⟨s0, F, y, h1, h4 F le_rfl⟩

/-- `C79_same_measurements` applies to the object created from the empty configuration. -/
example (a : SimPar) (q : MeasPar ℝ) (J : ℕ → ℕ → ℕ → ℕ → ℕ → ℕ → ℕ → ℝ) (junk : ℕ → ℕ → ℕ → ℝ) : ∃ s0,
    Sub.create exCtx [] = .ok s0 ∧ ∀ n fuel,
      Sim.passesD a (Mgr.create 1 3 5 (1 / 10) exCtx.tbl) q exCtx J junk exStream fuel ⟨⟨⟨s0, ⟨0, 0⟩, 0⟩, ⟨0, 0⟩⟩, 0, false, []⟩ n =
      Sim.passes a (Mgr.create 1 3 5 (1 / 10) exCtx.tbl) q exCtx J junk exStream fuel ⟨⟨⟨s0, ⟨0, 0⟩, 0⟩, ⟨0, 0⟩⟩, 0, false, []⟩ n := by
  obtain ⟨s0, e, -⟩ := create_means ex_tbl (empty_goodStart exCtx)
  exact ⟨s0, e, fun n fuel => C79_same_measurements ex_tbl ex_full rfl exStream_range a q (empty_goodStart exCtx) e J junk n fuel⟩

end CTInt
