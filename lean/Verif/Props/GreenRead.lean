import Verif.Proofs.GreenRead
import Verif.Proofs.SplineNeg

/-!
# C56: reading the bare Green function
-/

set_option linter.all false

namespace CTInt

variable {K : Type} [RCLike K]

namespace Green

/-- A loop of checks that ended well has passed them all. -/
theorem checks_post {f : ℕ → Res Unit} {n : ℕ} (h : Res.foldl (fun _ i => f i) () (List.range n) = .ok ()) :
    ∀ i < n, f i = .ok () := by
  have := Res.foldl_range_post (f := fun _ i => f i) (fun k _ => ∀ i < k, f i = .ok ()) n () () (fun i hi => by omega)
    (fun i _ _ _ hs e j hj => by
      rcases Nat.lt_succ_iff_lt_or_eq.1 hj with hlt | rfl
      · exact hs j hlt
      · exact e) h
  exact this

/-- A loop of checks that all pass ends well. -/
theorem checks_ok {f : ℕ → Res Unit} {n : ℕ} (h : ∀ i < n, f i = .ok ()) :
    Res.foldl (fun _ i => f i) () (List.range n) = .ok () := by
  obtain ⟨s, e, _⟩ := Res.foldl_range_inv (f := fun _ i => f i) (fun _ _ => True) n () trivial
    (fun i hi _ _ => ⟨(), h i hi, trivial⟩)
  exact e

/-- A spline is still one after multiplication of all values. -/
theorem spline_smul {n : ℕ} {x y S : ℕ → ℝ} {F : ℝ → ℝ} (h : IsCubicSpline n x y F) (c : ℝ) :
    IsCubicSpline n x (fun i => y i * c) (fun t => F t * c) := by
  refine ⟨fun i hi => by simp only [h.through i hi], fun i hi => ?_, h.smooth.mul contDiffOn_const⟩
  obtain ⟨p, hp, hF⟩ := h.cubic i hi
  refine ⟨p * Polynomial.C c, (Polynomial.natDegree_mul_C_le _ _).trans hp, fun t ht => ?_⟩
  simp [hF t ht]

/-- What a successful call has checked. -/
theorem read_inv {file : GFile} {β : ℝ} {F S : ℕ} {g : Green K} (h : read (some file) β F S = .ok g) :
    file.nf = F ∧ file.ns = S ∧ |file.beta - β| ≤ 1e-8 ∧ g.nf = F ∧ g.ns = S ∧ g.beta = β ∧
    (g.ntau : ℤ) = file.ntau ∧ g.dtau = g.beta / ((g.ntau : ℝ) - 1) ∧ g.invDtau = 1 / g.dtau ∧
    (∃ st, PairsInv file.rows g.ntau S β (F * S * S) st ∧ g.data = st.data ∧ g.co = st.co) ∧
    ∀ f < F, ∀ s1 < S, ∀ s2 < S, ∀ τ ∈ [0, 0.5 * β, β], ∃ a b, g.interpolate f s1 s2 τ = .ok a ∧
      g.interpolate f s2 s1 τ = .ok b ∧ ‖a - starRingEnd K b‖ ≤ 1e-8 := by
  unfold read at h
  simp only [Res.bind_eq_ok, Res.throwIf_eq_ok, Res.assert_eq_ok, not_or, not_not, not_lt] at h
  obtain ⟨_, ⟨h1, h2⟩, _, h3, _, h4, st, est, _, ech, e⟩ := h
  cases e
  refine ⟨h1.symm, h2.symm, h3, rfl, rfl, rfl, ?_, rfl, rfl, ⟨st, readAll_post est, rfl, rfl⟩, ?_⟩
  · show ((file.ntau.toNat : ℕ) : ℤ) = _
    omega
  · intro f hf s1 hs1 s2 hs2 τ hτ
    have c1 := checks_post ech f hf
    have c2 := checks_post c1 s1 hs1
    have c3 := checks_post c2 s2 hs2
    simp only [Res.foldl_cons, Res.foldl_nil, Res.bind_eq_ok, Res.throwIf_eq_ok, not_lt] at c3
    obtain ⟨_, ⟨a1, x1, b1, y1, z1⟩, _, ⟨a2, x2, b2, y2, z2⟩, _, ⟨a3, x3, b3, y3, z3⟩, _⟩ := c3
    simp only [List.mem_cons, List.not_mem_nil, or_false] at hτ
    rcases hτ with rfl | rfl | rfl
    · exact ⟨a1, b1, x1, y1, z1⟩
    · exact ⟨a2, b2, x2, y2, z2⟩
    · exact ⟨a3, b3, x3, y3, z3⟩

/-- The lines read are those of the file. -/
theorem rowOK_line {file : GFile} {T S f s1 s2 t : ℕ} {v : K} (hT : (T : ℤ) = file.ntau) (hS : file.ns = S)
    (h : RowOK file.rows (pairIx S f s1 s2 * T + t) f s1 s2 t v) :
    (∃ row, file.line f s1 s2 t = some row ∧ row.f = f ∧ row.i = s1 ∧ row.j = s2 ∧ row.t = t) ∧
    v = file.value f s1 s2 t := by
  obtain ⟨row, e, a, b, c, d, hv⟩ := h
  have hl : file.line f s1 s2 t = some row := by
    unfold GFile.line
    rw [hS, ← hT]
    exact e
  refine ⟨⟨row, hl, a, b, c, d⟩, ?_⟩
  rw [hv]
  simp only [GFile.value, hl]
  rfl

end Green

open Green in
/-- **C56.**  If the file is accepted then flavours, sites and `β` agree with the request, all lines are there in
    lexicographic order, and for every flavour and pair of sites the interpolated function `G` takes the value in
    the file at every grid point, its real and imaginary parts being natural cubic splines on `[0, β]`; and `G` is
    Hermitian to within `10⁻⁸` at `0`, `β/2` and `β`. -/
theorem C56_read (file : GFile) (β : ℝ) (F S : ℕ) (g : Green K) (h : Green.read (some file) β F S = .ok g) :
    file.nf = F ∧ file.ns = S ∧ |file.beta - β| ≤ 1e-8 ∧ file.Ordered ∧
    ∃ G : ℕ → ℕ → ℕ → ℝ → K, ∀ f < F, ∀ s1 < S, ∀ s2 < S,
      (∀ τ, 0 ≤ τ → τ ≤ β → g.interpolate f s1 s2 τ = .ok (G f s1 s2 τ)) ∧
      (∀ t : ℕ, (t : ℤ) < file.ntau → G f s1 s2 (file.grid β t) = file.value f s1 s2 t) ∧
      IsCubicSpline file.ntau.toNat (file.grid β) (fun t => RCLike.re (file.value f s1 s2 t : K))
        (fun τ => RCLike.re (G f s1 s2 τ)) ∧
      IsCubicSpline file.ntau.toNat (file.grid β) (fun t => RCLike.im (file.value f s1 s2 t : K))
        (fun τ => RCLike.im (G f s1 s2 τ)) ∧
      (∀ τ ∈ [0, β / 2, β], ‖G f s1 s2 τ - starRingEnd K (G f s2 s1 τ)‖ ≤ 1e-8) := by
  obtain ⟨h1, h2, h3, n1, n2, n3, n4, n5, n6, ⟨st, hp, hd, hc⟩, hh⟩ := Green.read_inv h
  have hpair := fun f s1 s2 hf hs1 hs2 => hp.pairs f s1 s2 hs1 hs2 (pairIx_lt (F := F) hf hs1 hs2)
  have hnt : file.ntau.toNat = g.ntau := by omega
  refine ⟨h1, h2, h3, ?_, ?_⟩
  · intro f s1 s2 t hf hs1 hs2 ht
    have := (hpair f s1 s2 (by omega) (by omega) (by omega)).rows t (by omega)
    exact (Green.rowOK_line n4 h2 this).1
  · have hex : ∀ f s1 s2, ∃ re im, f < F → s1 < S → s2 < S →
        CoOK g.ntau β (st.data f s1 s2) (g.co f s1 s2) re im := by
      intro f s1 s2
      by_cases hx : f < F ∧ s1 < S ∧ s2 < S
      · obtain ⟨re, im, hco⟩ := (hpair f s1 s2 hx.1 hx.2.1 hx.2.2).co
        exact ⟨re, im, fun _ _ _ => by rw [hc]; exact hco⟩
      · exact ⟨⟨0, 0, 0, 0, 0, 0, 0, 0⟩, ⟨0, 0, 0, 0, 0, 0, 0, 0⟩, fun a b c => absurd ⟨a, b, c⟩ hx⟩
    choose re im hall using hex
    have key : ∀ f < F, ∀ s1 < S, ∀ s2 < S, ∀ τ, 0 ≤ τ → τ ≤ β → g.interpolate f s1 s2 τ = .ok
        (mycast ⟨Spline.value (re f s1 s2) τ, Spline.value (im f s1 s2) τ⟩) := by
      intro f hf s1 hs1 s2 hs2 τ h0 hβ
      exact Green.interpolate_value g rfl n3 n5 n6 (by omega) (by omega) (by omega) (hall f s1 s2 hf hs1 hs2) τ ⟨h0, hβ⟩
    refine ⟨fun f s1 s2 τ => mycast ⟨Spline.value (re f s1 s2) τ, Spline.value (im f s1 s2) τ⟩, ?_⟩
    intro f hf s1 hs1 s2 hs2
    have hco := hall f s1 s2 hf hs1 hs2
    obtain ⟨sr, -, -⟩ := Green.spline_of hco.eRe
    obtain ⟨si, -, -⟩ := Green.spline_of hco.eIm
    have hval : ∀ t < g.ntau, st.data f s1 s2 t = file.value f s1 s2 t := fun t ht =>
      (Green.rowOK_line n4 h2 ((hpair f s1 s2 hf hs1 hs2).rows t ht)).2
    have hgrid : (fun t : ℕ => β * (t : ℝ) / ((g.ntau : ℝ) - 1)) = file.grid β := by
      funext t
      unfold GFile.grid
      rw [← n4]
      push_cast
      ring
    rw [hgrid] at sr si
    have sr' : IsCubicSpline g.ntau (file.grid β) (fun t => RCLike.re (file.value f s1 s2 t : K)) _ :=
      ⟨fun i hi => by rw [sr.through i hi, hval i hi], sr.cubic, sr.smooth⟩
    have si' : IsCubicSpline g.ntau (file.grid β) (fun t => RCLike.im (file.value f s1 s2 t : K)) _ :=
      ⟨fun i hi => by rw [si.through i hi, hval i hi], si.cubic, si.smooth⟩
    refine ⟨key f hf s1 hs1 s2 hs2, ?_, ?_, ?_, ?_⟩
    · intro t ht
      simp only
      rw [sr'.through t (by omega), si'.through t (by omega), mycast_self]
    · simp only [mycast_re, hnt]
      exact sr'
    · have := Green.spline_smul (S := fun _ => 0) si' (RCLike.im (RCLike.I : K))
      simp only [RCLike.mul_im_I_ax] at this
      simp only [mycast_im, hnt]
      exact this
    · intro τ hτ
      have hτ' : τ ∈ [0, 0.5 * β, β] := by
        rw [show (0.5 : ℝ) * β = β / 2 by norm_num; ring]; exact hτ
      obtain ⟨a, b, ea, eb, hab⟩ := hh f hf s1 hs1 s2 hs2 τ hτ'
      have hβ : 0 < β := (Green.grid_pos hco.eRe).2.1
      have hr : 0 ≤ τ ∧ τ ≤ β := by
        simp only [List.mem_cons, List.not_mem_nil, or_false] at hτ
        rcases hτ with rfl | rfl | rfl <;> constructor <;> linarith
      have k1 := key f hf s1 hs1 s2 hs2 τ hr.1 hr.2
      have k2 := key f hf s2 hs2 s1 hs1 τ hr.1 hr.2
      rw [ea] at k1
      rw [eb] at k2
      simp only
      rw [← Res.ok.inj k1, ← Res.ok.inj k2]
      exact hab


namespace Green

/-- Neither undefined nor an exception of another kind. -/
def Fine {α : Type} (x : Res α) : Prop := (∃ a, x = .ok a) ∨ x = .throw .runtimeError

theorem Fine.bind {α β : Type} {x : Res α} {f : α → Res β} (h : Fine x) (hf : ∀ a, x = .ok a → Fine (f a)) :
    Fine (x >>= f) := by
  rcases h with ⟨a, rfl⟩ | rfl
  · exact hf a rfl
  · exact Or.inr rfl

theorem Fine.throwIf {p : Prop} [Decidable p] : Fine (Res.throwIf p .runtimeError) := by
  unfold Res.throwIf; split
  · exact Or.inr rfl
  · exact Or.inl ⟨(), rfl⟩

/-- A loop all of whose steps are fine. -/
theorem Fine.loop {β : Type} {f : β → ℕ → Res β} (P : ℕ → β → Prop) (n : ℕ) (s : β) (h0 : P 0 s)
    (step : ∀ i < n, ∀ s, P i s → Fine (f s i) ∧ ∀ s', f s i = .ok s' → P (i + 1) s') :
    Fine (Res.foldl f s (List.range n)) := by
  induction n with
  | zero => exact Or.inl ⟨s, rfl⟩
  | succ n ih =>
    rw [List.range_succ, Res.foldl_append]
    refine (ih fun i hi => step i (by omega)).bind fun s' e => ?_
    have hP := Res.foldl_range_post P n s s' h0 (fun i hi s s' hs e => (step i (by omega) s hs).2 s' e) e
    rw [Res.foldl_cons]
    exact (step n (by omega) s' hP).1.bind fun a _ => Or.inl ⟨a, rfl⟩

theorem getCoeff_ok {s : Spline} {t p : ℕ} (ht : t < s.n) (hp : p < 4) : ∃ x, s.getCoeff t p = .ok x := by
  unfold Spline.getCoeff
  rw [Res.assert_true ht, Res.bind_ok]
  obtain rfl | rfl | rfl | rfl : p = 0 ∨ p = 1 ∨ p = 2 ∨ p = 3 := by omega
  all_goals exact ⟨_, rfl⟩

theorem setPoints_times {T : ℕ} {β : ℝ} (hT : 3 ≤ T) (hβ : 0 < β) (d : ℕ → ℝ) :
    ∃ s, Spline.setPoints .default (times T β) ((List.range T).map d) true = .ok s ∧ s.n = T := by
  obtain ⟨s, B, e, hs⟩ := Spline.setPoints_ok .default (times T β) ((List.range T).map d) (by simp [times])
    (by rw [times_length]; exact hT) (times_increasing hβ (by omega))
  exact ⟨s, e, by rw [hs.n, times_length]⟩

/-- Everything after the lines of a pair succeeds. -/
theorem coeffs_ok {T : ℕ} {re im : Spline} (h1 : re.n = T) (h2 : im.n = T) (f s1 s2 : ℕ) (st : GRead K) :
    ∃ st', Res.foldl (fun st t => Res.foldl (fun (st : GRead K) p => do
      let x ← re.getCoeff t p
      let y ← im.getCoeff t p
      let co : ℕ → ℕ → ℕ → ℕ → ℕ → ℂ := fun a b c d e =>
        if a = f ∧ b = s1 ∧ c = s2 ∧ d = t ∧ e = p then ⟨x, y⟩ else st.co a b c d e
      pure { st with co := co }) st (List.range 4)) st (List.range (T - 1)) = .ok st' := by
  have hloop := Res.foldl_range_inv (fun _ _ => True) (T - 1) st trivial (f := fun st t =>
      Res.foldl (fun (st : GRead K) p => do
      let x ← re.getCoeff t p
      let y ← im.getCoeff t p
      let co : ℕ → ℕ → ℕ → ℕ → ℕ → ℂ := fun a b c d e =>
        if a = f ∧ b = s1 ∧ c = s2 ∧ d = t ∧ e = p then ⟨x, y⟩ else st.co a b c d e
      pure { st with co := co }) st (List.range 4)) ?_
  · obtain ⟨s, e, -⟩ := hloop
    exact ⟨s, e⟩
  · intro t ht s _
    refine Res.foldl_range_inv (fun _ _ => True) 4 s trivial ?_
    intro p hp s _
    obtain ⟨x, ex⟩ := getCoeff_ok (s := re) (t := t) (p := p) (by omega) hp
    obtain ⟨y, ey⟩ := getCoeff_ok (s := im) (t := t) (p := p) (by omega) hp
    rw [ex, Res.bind_ok, ey, Res.bind_ok]
    exact ⟨_, rfl, trivial⟩

theorem readLine_fine {f s1 s2 t : ℕ} {st : GRead K} {first : Bool} (h : first = false ∨ st.rest ≠ []) :
    Fine (readLine first f s1 s2 st t) := by
  unfold readLine
  split
  · rename_i hr
    rcases h with h | h
    · simp [h, Fine]
    · exact absurd hr h
  · refine Fine.throwIf.bind fun _ _ => Fine.throwIf.bind fun _ _ => Fine.throwIf.bind fun _ _ =>
      Fine.throwIf.bind fun _ _ => Or.inl ⟨_, rfl⟩

theorem readPair_fine {T S : ℕ} {β : ℝ} (hT : 3 ≤ T) (hβ : 0 < β) {R : List GRow} (hR : R ≠ []) {f s1 s2 : ℕ}
    {st : GRead K} (h : PairsInv R T S β (pairIx S f s1 s2) st) : Fine (readPair T β f s1 st s2) := by
  unfold readPair
  refine Fine.bind ?_ fun sl el => ?_
  · refine Fine.loop (LinesInv R T S f s1 s2 st) T st
      ⟨by rw [h.rest, Nat.add_zero], fun t ht => by omega, fun _ _ _ _ _ => rfl, rfl⟩ ?_
    intro t ht s hs
    refine ⟨readLine_fine ?_, fun s' e => readLine_step hs e⟩
    by_cases hc : f = 0 ∧ s1 = 0 ∧ s2 = 0 ∧ t = 0
    · right
      obtain ⟨rfl, rfl, rfl, rfl⟩ := hc
      rw [hs.rest]
      simpa [pairIx] using hR
    · left; simpa using hc
  · obtain ⟨re, e1, n1⟩ := setPoints_times hT hβ fun t => RCLike.re (sl.data f s1 s2 t)
    obtain ⟨im, e2, n2⟩ := setPoints_times hT hβ fun t => RCLike.im (sl.data f s1 s2 t)
    unfold times at e1 e2
    simp only [e1, e2, Res.bind_ok]
    exact Or.inl (coeffs_ok n1 n2 f s1 s2 sl)

theorem readAll_fine {T S F : ℕ} {β : ℝ} (hT : 3 ≤ T) (hβ : 0 < β) {R : List GRow} (hR : R ≠ []) :
    Fine (Res.foldl (fun st f => Res.foldl (fun st s1 => Res.foldl (readPair T β f s1) st
      (List.range S)) st (List.range S)) (⟨R, fun _ _ _ _ => 0, fun _ _ _ _ _ => 0⟩ : GRead K)
      (List.range F)) := by
  refine Fine.loop (fun f => PairsInv R T S β (f * S * S)) F _ ⟨by simp, fun f s1 s2 _ _ h => by omega⟩ ?_
  intro f _ s hs
  have hin : ∀ s1 < S, ∀ s : GRead K, PairsInv R T S β ((f * S + s1) * S) s →
      Fine (Res.foldl (readPair T β f s1) s (List.range S)) ∧
      ∀ s', Res.foldl (readPair T β f s1) s (List.range S) = .ok s' → PairsInv R T S β ((f * S + (s1 + 1)) * S) s' := by
    intro s1 hs1 s hs
    have hst : ∀ s2 < S, ∀ s : GRead K, PairsInv R T S β (pairIx S f s1 s2) s → Fine (readPair T β f s1 s s2) ∧
        ∀ s', readPair T β f s1 s s2 = .ok s' → PairsInv R T S β (pairIx S f s1 (s2 + 1)) s' :=
      fun s2 hs2 s hs => ⟨readPair_fine hT hβ hR hs, fun s' e => readPair_step hs1 hs2 hs e⟩
    refine ⟨Fine.loop (fun s2 => PairsInv R T S β (pairIx S f s1 s2)) S s (by simpa [pairIx] using hs) hst, ?_⟩
    intro s' e
    have := Res.foldl_range_post (fun s2 => PairsInv R T S β (pairIx S f s1 s2)) S s s' (by simpa [pairIx] using hs)
      (fun s2 h2 s s' hs e => (hst s2 h2 s hs).2 s' e) e
    rw [show (f * S + (s1 + 1)) * S = pairIx S f s1 S by unfold pairIx; ring]; exact this
  refine ⟨Fine.loop (fun s1 => PairsInv R T S β ((f * S + s1) * S)) S s (by simpa using hs) hin, ?_⟩
  intro s' e
  have := Res.foldl_range_post (fun s1 => PairsInv R T S β ((f * S + s1) * S)) S s s' (by simpa using hs)
    (fun s1 h1 s s' hs e => (hin s1 h1 s hs).2 s' e) e
  rw [show (f + 1) * S * S = (f * S + S) * S by ring]; exact this

end Green

open Green in
/-- **C56, totality.**  With at least three grid points, `β > 0` and at least one line of data the call either
    succeeds or throws `runtime_error`. -/
theorem C56_total (file : GFile) (β : ℝ) (F S : ℕ) (hβ : 0 < β) (hT : 3 ≤ file.ntau) (hR : file.rows ≠ []) :
    (∃ g : Green K, Green.read (some file) β F S = .ok g) ∨
      (Green.read (some file) β F S : Res (Green K)) = .throw .runtimeError := by
  change Fine _
  unfold Green.read
  refine Fine.throwIf.bind fun _ _ => Fine.throwIf.bind fun _ _ => ?_
  rw [Res.assert_true (by omega), Res.bind_ok]
  refine (readAll_fine (by omega) hβ hR).bind fun st est => ?_
  have hp := readAll_post est
  refine Fine.bind ?_ fun _ _ => Or.inl ⟨_, rfl⟩
  refine Fine.loop (fun _ _ => True) F () trivial fun f hf _ _ => ⟨?_, fun _ _ => trivial⟩
  refine Fine.loop (fun _ _ => True) S () trivial fun s1 hs1 _ _ => ⟨?_, fun _ _ => trivial⟩
  refine Fine.loop (fun _ _ => True) S () trivial fun s2 hs2 _ _ => ⟨?_, fun _ _ => trivial⟩
  have hin : ∀ s1 s2, s1 < S → s2 < S → ∀ τ, 0 ≤ τ → τ ≤ β → ∃ a, (Green.mk F S file.ntau.toNat β
      (β / ((file.ntau.toNat : ℝ) - 1)) (1 / (β / ((file.ntau.toNat : ℝ) - 1))) st.data st.co).interpolate f s1 s2 τ =
      .ok a := by
    intro s1 s2 hs1 hs2 τ h0 h1
    obtain ⟨re, im, hco⟩ := (hp.pairs f s1 s2 hs1 hs2 (pairIx_lt hf hs1 hs2)).co
    exact ⟨_, Green.interpolate_value _ rfl rfl rfl rfl hf hs1 hs2 hco τ ⟨h0, h1⟩⟩
  have hstep : ∀ τ, 0 ≤ τ → τ ≤ β → Fine (do
      let a ← (Green.mk F S file.ntau.toNat β
      (β / ((file.ntau.toNat : ℝ) - 1)) (1 / (β / ((file.ntau.toNat : ℝ) - 1))) st.data st.co).interpolate f s1 s2 τ
      let b ← (Green.mk F S file.ntau.toNat β
      (β / ((file.ntau.toNat : ℝ) - 1)) (1 / (β / ((file.ntau.toNat : ℝ) - 1))) st.data st.co).interpolate f s2 s1 τ
      Res.throwIf (‖a - starRingEnd K b‖ > 1e-8) .runtimeError) := by
    intro τ h0 h1
    obtain ⟨a, ea⟩ := hin s1 s2 hs1 hs2 τ h0 h1
    obtain ⟨b, eb⟩ := hin s2 s1 hs2 hs1 τ h0 h1
    rw [ea, Res.bind_ok, eb, Res.bind_ok]
    exact Fine.throwIf
  simp only [Res.foldl_cons, Res.foldl_nil]
  refine (hstep 0 le_rfl hβ.le).bind fun _ _ => (hstep (0.5 * β) (by positivity) (by linarith)).bind fun _ _ =>
    (hstep β hβ.le le_rfl).bind fun _ _ => Or.inl ⟨_, rfl⟩

/-- **C56, rejection.**  A file whose lines are not all there in order, or whose first line does not agree with the
    request, is rejected with `runtime_error`; so is a file that cannot be opened. -/
theorem C56_reject (file : GFile) (β : ℝ) (F S : ℕ) (hβ : 0 < β) (hT : 3 ≤ file.ntau) (hR : file.rows ≠ [])
    (h : file.nf ≠ F ∨ file.ns ≠ S ∨ 1e-8 < |file.beta - β| ∨ ¬ file.Ordered) :
    (Green.read (some file) β F S : Res (Green K)) = .throw .runtimeError := by
  rcases C56_total (K := K) file β F S hβ hT hR with ⟨g, e⟩ | e
  · obtain ⟨a, b, c, d, -⟩ := C56_read file β F S g e
    rcases h with h | h | h | h
    · exact absurd a h
    · exact absurd b h
    · exact absurd c (not_le.2 h)
    · exact absurd d h
  · exact e

theorem C56_missing (β : ℝ) (F S : ℕ) : (Green.read none β F S : Res (Green K)) = .throw .runtimeError := rfl


namespace Green

theorem readLine_ok {R : List GRow} {T S f s1 s2 t : ℕ} {st0 st : GRead K} {first : Bool} {row : GRow}
    (h : LinesInv R T S f s1 s2 st0 t st) (hr : R[pairIx S f s1 s2 * T + t]? = some row) (a : row.f = f)
    (b : row.i = s1) (c : row.j = s2) (d : row.t = t) : ∃ st', readLine first f s1 s2 st t = .ok st' := by
  have hlt : pairIx S f s1 s2 * T + t < R.length := by
    by_contra hc
    rw [List.getElem?_eq_none (by omega)] at hr
    simp at hr
  have hd := List.drop_eq_getElem_cons hlt
  rw [List.getElem?_eq_getElem hlt] at hr
  rw [Option.some.inj hr, ← h.rest] at hd
  unfold readLine
  rw [hd]
  simp only
  rw [Res.throwIf_false (by simpa using a), Res.bind_ok, Res.throwIf_false (by simpa using b), Res.bind_ok,
    Res.throwIf_false (by simpa using c), Res.bind_ok, Res.throwIf_false (by simpa using d), Res.bind_ok]
  exact ⟨_, rfl⟩

/-- The lines of the file are as expected. -/
def AllRows (R : List GRow) (T S F : ℕ) : Prop := ∀ f < F, ∀ s1 < S, ∀ s2 < S, ∀ t < T,
  ∃ row, R[pairIx S f s1 s2 * T + t]? = some row ∧ row.f = f ∧ row.i = s1 ∧ row.j = s2 ∧ row.t = t

theorem readPair_ok {T S F : ℕ} {β : ℝ} (hT : 3 ≤ T) (hβ : 0 < β) {R : List GRow} (hR : AllRows R T S F) {f s1 s2 : ℕ}
    (hf : f < F) (h1 : s1 < S) (h2 : s2 < S) {st : GRead K} (h : PairsInv R T S β (pairIx S f s1 s2) st) :
    ∃ st', readPair T β f s1 st s2 = .ok st' := by
  obtain ⟨sl, el, -⟩ := Res.foldl_range_inv (LinesInv R T S f s1 s2 st) T st
    ⟨by rw [h.rest, Nat.add_zero], fun t ht => by omega, fun _ _ _ _ _ => rfl, rfl⟩
    (f := fun st t => readLine (f = 0 ∧ s1 = 0 ∧ s2 = 0 ∧ t = 0) f s1 s2 st t) (by
      intro t ht s hs
      obtain ⟨row, hr, a, b, c, d⟩ := hR f hf s1 h1 s2 h2 t ht
      obtain ⟨s', e⟩ := readLine_ok (first := decide (f = 0 ∧ s1 = 0 ∧ s2 = 0 ∧ t = 0)) hs hr a b c d
      exact ⟨s', e, readLine_step hs e⟩)
  unfold readPair
  rw [el, Res.bind_ok]
  obtain ⟨re, e1, n1⟩ := setPoints_times hT hβ fun t => RCLike.re (sl.data f s1 s2 t)
  obtain ⟨im, e2, n2⟩ := setPoints_times hT hβ fun t => RCLike.im (sl.data f s1 s2 t)
  unfold times at e1 e2
  simp only [e1, e2, Res.bind_ok]
  exact coeffs_ok n1 n2 f s1 s2 sl

theorem readAll_ok {T S F : ℕ} {β : ℝ} (hT : 3 ≤ T) (hβ : 0 < β) {R : List GRow} (hR : AllRows R T S F) :
    ∃ st', Res.foldl (fun st f => Res.foldl (fun st s1 => Res.foldl (readPair T β f s1) st
      (List.range S)) st (List.range S)) (⟨R, fun _ _ _ _ => 0, fun _ _ _ _ _ => 0⟩ : GRead K)
      (List.range F) = .ok st' := by
  have hloop := Res.foldl_range_inv (f := fun st f => Res.foldl (fun st s1 => Res.foldl (readPair T β f s1) st
      (List.range S)) st (List.range S)) (fun f => PairsInv R T S β (f * S * S)) F
      (⟨R, fun _ _ _ _ => 0, fun _ _ _ _ _ => 0⟩ : GRead K) ⟨by simp, fun f s1 s2 _ _ h => by omega⟩ ?_
  · obtain ⟨s, e, -⟩ := hloop
    exact ⟨s, e⟩
  · intro f hf s hs
    have := Res.foldl_range_inv (f := fun st s1 => Res.foldl (readPair T β f s1) st (List.range S))
      (fun s1 => PairsInv R T S β ((f * S + s1) * S)) S s (by simpa using hs) ?_
    · rw [show (f + 1) * S * S = (f * S + S) * S by ring]; exact this
    · intro s1 hs1 s hs
      have := Res.foldl_range_inv (f := readPair T β f s1)
        (fun s2 => PairsInv R T S β (pairIx S f s1 s2)) S s (by simpa [pairIx] using hs) ?_
      · rw [show (f * S + (s1 + 1)) * S = pairIx S f s1 S by unfold pairIx; ring]; exact this
      · intro s2 hs2 s hs
        obtain ⟨s', e⟩ := readPair_ok hT hβ hR hf hs1 hs2 hs
        exact ⟨s', e, readPair_step hs1 hs2 hs e⟩

/-- Conjugate data give conjugate functions. -/
theorem conj_value {T : ℕ} {β : ℝ} {d d' : ℕ → K} {co co' : ℕ → ℕ → ℂ} {re im re' im' : Spline}
    (h : CoOK T β d co re im) (h' : CoOK T β d' co' re' im') (hd : ∀ t < T, d t = starRingEnd K (d' t)) (τ : ℝ) :
    (mycast ⟨Spline.value re τ, Spline.value im τ⟩ : K) =
      starRingEnd K (mycast ⟨Spline.value re' τ, Spline.value im' τ⟩) := by
  have e1 : (List.range T).map (fun t => RCLike.re (d t)) = (List.range T).map fun t => RCLike.re (d' t) := by
    refine List.map_congr_left fun t ht => ?_
    rw [hd t (List.mem_range.1 ht)]; simp
  have e2 : (List.range T).map (fun t => RCLike.im (d t)) =
      ((List.range T).map fun t => RCLike.im (d' t)).map fun y => -y := by
    rw [List.map_map]
    refine List.map_congr_left fun t ht => ?_
    rw [hd t (List.mem_range.1 ht)]; simp
  have r1 : re = re' := by
    have := h.eRe
    rw [e1, h'.eRe] at this
    exact (Res.ok.inj this).symm
  have r2 : im = im'.neg := by
    have := h.eIm
    rw [e2, Spline.setPoints_neg, h'.eIm] at this
    exact (Res.ok.inj this).symm
  rw [r1, r2, Spline.value_neg]
  simp [mycast]

end Green

open Green in
/-- **C56, acceptance.**  A file that agrees with the request, with all lines in order, at least three grid points
    and Hermitian values is accepted. -/
theorem C56_accept (file : GFile) (β : ℝ) (F S : ℕ) (hβ : 0 < β) (hT : 3 ≤ file.ntau) (h1 : file.nf = F)
    (h2 : file.ns = S) (h3 : |file.beta - β| ≤ 1e-8) (h4 : file.Ordered)
    (h5 : ∀ f s1 s2 t : ℕ, f < F → s1 < S → s2 < S → (t : ℤ) < file.ntau →
      (file.value f s1 s2 t : K) = starRingEnd K (file.value f s2 s1 t)) :
    ∃ g : Green K, Green.read (some file) β F S = .ok g := by
  obtain ⟨T, hT'⟩ : ∃ T : ℕ, (T : ℤ) = file.ntau := ⟨file.ntau.toNat, by omega⟩
  have hTn : file.ntau.toNat = T := by omega
  have hrows : AllRows file.rows T S F := by
    intro f hf s1 hs1 s2 hs2 t ht
    have := h4 f s1 s2 t (by omega) (by omega) (by omega) (by omega)
    unfold GFile.line at this
    rw [hTn, h2] at this
    exact this
  obtain ⟨st, est⟩ := readAll_ok (K := K) (F := F) (by omega : 3 ≤ T) hβ hrows
  have hp := readAll_post est
  unfold Green.read
  simp only
  rw [Res.throwIf_false (by simp [h1, h2]), Res.bind_ok, Res.throwIf_false (not_lt.2 h3), Res.bind_ok,
    Res.assert_true (by omega), Res.bind_ok, hTn, est, Res.bind_ok]
  have hin : ∀ f < F, ∀ s1 < S, ∀ s2 < S, ∀ τ, 0 ≤ τ → τ ≤ β → ∃ a b, (Green.mk F S T β
      (β / ((T : ℝ) - 1)) (1 / (β / ((T : ℝ) - 1))) st.data st.co).interpolate f s1 s2 τ = .ok a ∧
      (Green.mk F S T β (β / ((T : ℝ) - 1)) (1 / (β / ((T : ℝ) - 1))) st.data st.co).interpolate f s2 s1 τ = .ok b ∧
      a = starRingEnd K b := by
    intro f hf s1 hs1 s2 hs2 τ h0 hτ
    have p := hp.pairs f s1 s2 hs1 hs2 (pairIx_lt hf hs1 hs2)
    have p' := hp.pairs f s2 s1 hs2 hs1 (pairIx_lt hf hs2 hs1)
    obtain ⟨re, im, hco⟩ := p.co
    obtain ⟨re', im', hco'⟩ := p'.co
    refine ⟨_, _, Green.interpolate_value _ rfl rfl rfl rfl hf hs1 hs2 hco τ ⟨h0, hτ⟩,
      Green.interpolate_value _ rfl rfl rfl rfl hf hs2 hs1 hco' τ ⟨h0, hτ⟩, conj_value hco hco' ?_ τ⟩
    intro t ht
    rw [(Green.rowOK_line hT' h2 (p.rows t ht)).2, (Green.rowOK_line hT' h2 (p'.rows t ht)).2]
    exact h5 f s1 s2 t hf hs1 hs2 (by omega)
  have hstep : ∀ f < F, ∀ s1 < S, ∀ s2 < S, ∀ τ, 0 ≤ τ → τ ≤ β → (do
      let a ← (Green.mk F S T β
      (β / ((T : ℝ) - 1)) (1 / (β / ((T : ℝ) - 1))) st.data st.co).interpolate f s1 s2 τ
      let b ← (Green.mk F S T β
      (β / ((T : ℝ) - 1)) (1 / (β / ((T : ℝ) - 1))) st.data st.co).interpolate f s2 s1 τ
      Res.throwIf (‖a - starRingEnd K b‖ > 1e-8) .runtimeError) = .ok () := by
    intro f hf s1 hs1 s2 hs2 τ h0 h1
    obtain ⟨a, b, ea, eb, hab⟩ := hin f hf s1 hs1 s2 hs2 τ h0 h1
    rw [ea, Res.bind_ok, eb, Res.bind_ok, Res.throwIf_false]
    rw [hab, sub_self, norm_zero]; norm_num
  rw [checks_ok, Res.bind_ok]
  · exact ⟨_, rfl⟩
  intro f hf
  refine checks_ok fun s1 hs1 => checks_ok fun s2 hs2 => ?_
  simp only [Res.foldl_cons, Res.foldl_nil]
  rw [hstep f hf s1 hs1 s2 hs2 0 le_rfl hβ.le, Res.bind_ok,
    hstep f hf s1 hs1 s2 hs2 (0.5 * β) (by positivity) (by linarith), Res.bind_ok,
    hstep f hf s1 hs1 s2 hs2 β hβ.le le_rfl, Res.bind_ok]

/-- A file with only two grid points. -/
noncomputable def exTwo : GFile := ⟨1, 1, 2, 1, [⟨0, 0, 0, 0, -1, 0⟩, ⟨0, 0, 0, 1, -1, 0⟩]⟩

/-- **C56, violation.**  A well-formed file with two grid points is not rejected: the call is undefined. -/
theorem C56_two_points_violation : exTwo.Ordered ∧ (Green.read (some exTwo) 1 1 1 : Res (Green ℝ)) = .ub := by
  constructor
  · intro f s1 s2 t hf h1 h2 ht
    simp only [exTwo] at hf h1 h2 ht
    obtain rfl : f = 0 := by omega
    obtain rfl : s1 = 0 := by omega
    obtain rfl : s2 = 0 := by omega
    obtain rfl | rfl : t = 0 ∨ t = 1 := by omega
    · exact ⟨_, rfl, rfl, rfl, rfl, rfl⟩
    · exact ⟨_, rfl, rfl, rfl, rfl, rfl⟩
  · change (Green.read (some ⟨1, 1, 2, 1, [⟨0, 0, 0, 0, -1, 0⟩, ⟨0, 0, 0, 1, -1, 0⟩]⟩) 1 1 1 : Res (Green ℝ)) = .ub
    unfold Green.read
    simp only
    have t1 : Res.throwIf (((1 : ℕ) : ℤ) ≠ 1 ∨ ((1 : ℕ) : ℤ) ≠ 1) Exn.runtimeError = .ok () := rfl
    have t2 : Res.throwIf (|(1 : ℝ) - 1| > 1e-8) Exn.runtimeError = .ok () := Res.throwIf_false (by norm_num) _
    have t3 : Res.assert ((1 : ℤ) ≤ 2) = .ok () := rfl
    rw [t1, Res.bind_ok, t2, Res.bind_ok, t3, Res.bind_ok]
    have h2 : (2 : ℤ).toNat = 2 := rfl
    simp only [h2, List.range_one, Res.foldl_cons, Res.foldl_nil]
    have : Green.readPair (K := ℝ) 2 1 0 0 ⟨[⟨0, 0, 0, 0, -1, 0⟩, ⟨0, 0, 0, 1, -1, 0⟩], fun _ _ _ _ => 0,
        fun _ _ _ _ _ => 0⟩ 0 = .ub := by
      unfold Green.readPair
      simp only [show List.range 2 = [0, 1] from rfl, Res.foldl_cons, Res.foldl_nil, Green.readLine,
        List.map_cons, List.map_nil, Spline.setPoints]
      simp [Res.throwIf, Res.assert]
    rw [this]; rfl

/-- **C56, violation.**  So is a file that ends after the first line. -/
theorem C56_no_lines_violation : (Green.read (some ⟨1, 1, 3, 1, []⟩) 1 1 1 : Res (Green ℝ)) = .ub := by
  unfold Green.read
  simp only
  have t1 : Res.throwIf (((1 : ℕ) : ℤ) ≠ 1 ∨ ((1 : ℕ) : ℤ) ≠ 1) Exn.runtimeError = .ok () := rfl
  have t2 : Res.throwIf (|(1 : ℝ) - 1| > 1e-8) Exn.runtimeError = .ok () := Res.throwIf_false (by norm_num) _
  have t3 : Res.assert ((1 : ℤ) ≤ 3) = .ok () := rfl
  rw [t1, Res.bind_ok, t2, Res.bind_ok, t3, Res.bind_ok]
  rfl

/-- The hypotheses of `C56_accept`, `C56_total` can be met: one flavour, one site, three grid points. -/
example : ∃ g : Green ℂ, Green.read (some ⟨1, 1, 3, 2, [⟨0, 0, 0, 0, -1 / 2, 0⟩, ⟨0, 0, 0, 1, -1 / 4, 0⟩,
    ⟨0, 0, 0, 2, -1 / 2, 0⟩]⟩) 2 1 1 = .ok g := by
  refine C56_accept _ 2 1 1 (by norm_num) (by norm_num) rfl rfl (by norm_num) ?_ ?_
  · intro f s1 s2 t hf h1 h2 ht
    simp only at hf h1 h2 ht
    obtain rfl : f = 0 := by omega
    obtain rfl : s1 = 0 := by omega
    obtain rfl : s2 = 0 := by omega
    obtain rfl | rfl | rfl : t = 0 ∨ t = 1 ∨ t = 2 := by omega
    all_goals exact ⟨_, rfl, rfl, rfl, rfl, rfl⟩
  · intro f s1 s2 t hf h1 h2 ht
    simp only at ht
    obtain rfl : f = 0 := by omega
    obtain rfl : s1 = 0 := by omega
    obtain rfl : s2 = 0 := by omega
    obtain rfl | rfl | rfl : t = 0 ∨ t = 1 ∨ t = 2 := by omega
    all_goals simp [GFile.value, GFile.line, map_ofNat]

end CTInt
