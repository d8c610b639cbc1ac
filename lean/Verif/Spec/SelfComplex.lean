import Verif.Spec.Postprocess

/-!
# Specification: the self-energy of the expansion for real or complex weights
-/

set_option linter.all false

namespace CTInt

variable {K : Type} [RCLike K] [DecidableEq K]

/-- The sum of the weights with one creation operator of flavor `z` on site `a` replaced (`weightOther`), over those whose time,
    shifted by `t` and folded back to [0,β), is in bin `i` of `n`; with the sign of the fold and divided by the width of the bin. -/
noncomputable def binnedSum (c : Ctx K) (β : ℝ) (n i : ℕ) (G : ℝ → ℕ → ℕ → ℕ → K) (z a b : ℕ) (t : ℝ) (vs : List Vert) : K :=
  ∑ q ∈ Finset.range (rowsOf c.NI c.tbl (interacting vs) z).length,
    if ((rowsOf c.NI c.tbl (interacting vs) z).getD q default).cr.site = a then
      (((-1) ^ ⌊(((rowsOf c.NI c.tbl (interacting vs) z).getD q default).cr.time + t) / β⌋ *
        (if β * i / n ≤ foldTime β (((rowsOf c.NI c.tbl (interacting vs) z).getD q default).cr.time + t) ∧
          foldTime β (((rowsOf c.NI c.tbl (interacting vs) z).getD q default).cr.time + t) < β * (i + 1) / n then n / β else 0) : ℝ) : K) *
        weightOther c G z q b t vs
    else 0

/-- The sum of a complex quantity over all configurations: the sum of its real parts and the sum of its imaginary parts. -/
noncomputable def configSumC (c : Ctx K) (beta : ℝ) (M : ℕ) (F : List Vert → K) : ℂ :=
  ⟨configSum c beta M fun x => RCLike.re (F (x.map vertAt)), configSum c beta M fun x => RCLike.im (F (x.map vertAt))⟩

/-- The partition function of the expansion with at most `M` vertices. -/
noncomputable def partitionC (c : Ctx K) (beta : ℝ) (M : ℕ) : ℂ := configSumC c beta M (weight c.NI c.nf c.G0 c.tbl)

/-- The sum over all configurations that defines self-energy times Green's function in bin `i` of `n`, before division by the
    partition function; averaged over the time shift. -/
noncomputable def sigmaSum (c : Ctx K) (G : ℝ → ℕ → ℕ → ℕ → K) (beta : ℝ) (M n z a b i : ℕ) : ℂ :=
  configSumC c beta M fun vs => ((1 / beta : ℝ) : K) * ∫ t in (0 : ℝ)..beta, binnedSum c beta n i G z a b t vs

/-- Its Legendre coefficients by the midpoint rule: √(2l+1) Σ_i P_l(x_i) S_i β/n with x_i the centre of bin `i`, moved to [-1,1]. -/
noncomputable def sigmaSumLegendre (c : Ctx K) (G : ℝ → ℕ → ℕ → ℕ → K) (beta : ℝ) (M n z a b l : ℕ) : ℂ :=
  ∑ i ∈ Finset.range n, ((Real.sqrt (2 * l + 1) * (legendreP l).eval (2 * (beta * (i + 1 / 2) / n) / beta - 1) : ℝ) : ℂ) *
    sigmaSum c G beta M n z a b i * ((beta / n : ℝ) : ℂ)

/-- The numbers written converge to those of the expansion with at most `M` vertices when everything is divided by `Z`: the
    self-energy in the bins, its Legendre coefficients, and at the frequencies the Fourier transform of the function with these
    coefficients. -/
structure SelfTo (c : Ctx K) (q : MeasPar K) (G : ℝ → ℕ → ℕ → ℕ → K) (M nl nm : ℕ) (Z : ℂ) (ar : ℕ → Archive) : Prop where
  sign : Filter.Tendsto (fun n => (ar n).sign) Filter.atTop
    (nhds (Z.re / configSum c q.beta M fun x => ‖weight c.NI c.nf c.G0 c.tbl (x.map vertAt)‖))
  sizes : ∀ z < c.nf, Filter.Tendsto (fun n => (ar n).matrixSize.getD z 0) Filter.atTop
    (nhds ((configSum c q.beta M fun x => ‖weight c.NI c.nf c.G0 c.tbl (x.map vertAt)‖ * (rowsOf c.NI c.tbl (x.map vertAt) z).length) /
      configSum c q.beta M fun x => ‖weight c.NI c.nf c.G0 c.tbl (x.map vertAt)‖))
  tau : ∀ z < c.nf, ∀ a < q.ns, ∀ b < q.ns, ∀ i < q.nb, Filter.Tendsto (fun n => (ar n).tau (off4 q.ns q.ns c.nf i a b z)) Filter.atTop
    (nhds (sigmaSum c G q.beta M q.nb z a b i / Z))
  legendre : ∀ z < c.nf, ∀ a < q.ns, ∀ b < q.ns, ∀ l < nl, Filter.Tendsto (fun n => (ar n).legendre (off4 q.ns q.ns c.nf l a b z)) Filter.atTop
    (nhds (sigmaSumLegendre c G q.beta M q.nb z a b l / Z))
  omega : ∀ z < c.nf, ∀ a < q.ns, ∀ b < q.ns, ∀ k < nm, Filter.Tendsto (fun n => (ar n).omega (off4 q.ns q.ns c.nf k a b z)) Filter.atTop
    (nhds (fourier q.beta (expansion q.beta nl fun l => sigmaSumLegendre c G q.beta M q.nb z a b l / Z) k))

end CTInt
