import Verif.Model.Postprocess
import Verif.Spec.Simulation
import Verif.Spec.Matsubara

/-!
# Specification: what the entries of the archive should be
-/

set_option linter.all false

namespace CTInt

variable {K : Type} [RCLike K] [DecidableEq K]

/-- The weight of a configuration with operators for the product of the densities of flavor `f1` on site `i` and flavor `f2` on
    site `j` at time `τ`: one more pair if they are the same, two more pairs otherwise. -/
noncomputable def weightTwo (c : Ctx K) (G : ℝ → ℕ → ℕ → ℕ → K) (ε τ : ℝ) (f1 i f2 j : ℕ) (vs : List Vert) : K :=
  (∏ fl ∈ Finset.range c.nf,
    if f1 = f2 then
      if fl = f1 then
        if i = j then
          detN ((rowsOf c.NI c.tbl (interacting vs) fl).length + 1) (extraPair c.G0 G fl (rowsOf c.NI c.tbl (interacting vs) fl) ε τ i i)
        else
          detN ((rowsOf c.NI c.tbl (interacting vs) fl).length + 2) (twoPairs c.G0 G fl (rowsOf c.NI c.tbl (interacting vs) fl) ε τ i j)
      else detN (rowsOf c.NI c.tbl (interacting vs) fl).length (rowG c.G0 (rowsOf c.NI c.tbl (interacting vs) fl))
    else if fl = f1 then
      detN ((rowsOf c.NI c.tbl (interacting vs) fl).length + 1) (extraPair c.G0 G fl (rowsOf c.NI c.tbl (interacting vs) fl) ε τ i i)
    else if fl = f2 then
      detN ((rowsOf c.NI c.tbl (interacting vs) fl).length + 1) (extraPair c.G0 G fl (rowsOf c.NI c.tbl (interacting vs) fl) ε τ j j)
    else detN (rowsOf c.NI c.tbl (interacting vs) fl).length (rowG c.G0 (rowsOf c.NI c.tbl (interacting vs) fl))) *
  uWeight c.tbl vs

/-- The sums over all configurations that define an expectation value: weighted sum of `F` over the sum of the weights. -/
noncomputable def expect (c : Ctx ℝ) (beta : ℝ) (M : ℕ) (F : List Vert → ℝ) : ℝ :=
  (configSum c beta M fun x => F (x.map vertAt)) / configSum c beta M fun x => weight c.NI c.nf c.G0 c.tbl (x.map vertAt)

/-- The self-energy times Green's function of the expansion in bin `i` of `n`, averaged over the time shift. -/
noncomputable def sigmaG (c : Ctx ℝ) (G : ℝ → ℕ → ℕ → ℕ → ℝ) (beta : ℝ) (M n z a b i : ℕ) : ℝ :=
  expect c beta M fun vs => (1 / beta) * ∫ t in (0 : ℝ)..beta, binnedWeights c beta n i G z a b t vs

/-- Its Legendre coefficients by the midpoint rule: √(2l+1) Σ_i P_l(x_i) S_i β/n with x_i the centre of bin `i`, moved to [-1,1]. -/
noncomputable def sigmaGLegendre (c : Ctx ℝ) (G : ℝ → ℕ → ℕ → ℕ → ℝ) (beta : ℝ) (M n z a b l : ℕ) : ℝ :=
  ∑ i ∈ Finset.range n, Real.sqrt (2 * l + 1) * (legendreP l).eval (2 * (beta * (i + 1 / 2) / n) / beta - 1) *
    sigmaG c G beta M n z a b i * (beta / n)

/-- The densities of a flavor averaged over the sites. -/
noncomputable def meanDensity (c : Ctx ℝ) (G : ℝ → ℕ → ℕ → ℕ → ℝ) (beta : ℝ) (M ns z : ℕ) : ℝ :=
  (∑ a ∈ Finset.range ns, expect c beta M fun vs => (1 / beta) * ∫ τ in (0 : ℝ)..beta, weightExtra c G z (-beta * 1e-10) τ a a vs) / ns

/-- The product of two densities. -/
noncomputable def densDens (c : Ctx ℝ) (G : ℝ → ℕ → ℕ → ℕ → ℝ) (beta : ℝ) (M f1 i f2 j : ℕ) : ℝ :=
  expect c beta M fun vs => (1 / beta) * ∫ τ in (0 : ℝ)..beta, weightTwo c G (-beta * 1e-10) τ f1 i f2 j vs

/-- The numbers written converge to those of the expansion with at most `M` vertices: the sign to the sum of the weights over the
    sum of their moduli, the sizes of the matrices to their mean with the moduli as probabilities, everything else to the sums
    over all configurations with signs; the frequencies to the Fourier transform of the function with the Legendre
    coefficients. -/
structure ArchiveTo (c : Ctx ℝ) (q : MeasPar ℝ) (G : ℝ → ℕ → ℕ → ℕ → ℝ) (M nl nm : ℕ) (ar : ℕ → Archive) : Prop where
  sign : Filter.Tendsto (fun n => (ar n).sign) Filter.atTop
    (nhds ((configSum c q.beta M fun x => weight c.NI c.nf c.G0 c.tbl (x.map vertAt)) /
      configSum c q.beta M fun x => |weight c.NI c.nf c.G0 c.tbl (x.map vertAt)|))
  sizes : ∀ z < c.nf, Filter.Tendsto (fun n => (ar n).matrixSize.getD z 0) Filter.atTop
    (nhds ((configSum c q.beta M fun x => |weight c.NI c.nf c.G0 c.tbl (x.map vertAt)| * (rowsOf c.NI c.tbl (x.map vertAt) z).length) /
      configSum c q.beta M fun x => |weight c.NI c.nf c.G0 c.tbl (x.map vertAt)|))
  tau : ∀ z < c.nf, ∀ a < q.ns, ∀ b < q.ns, ∀ i < q.nb, Filter.Tendsto (fun n => (ar n).tau (off4 q.ns q.ns c.nf i a b z)) Filter.atTop
    (nhds ((sigmaG c G q.beta M q.nb z a b i : ℝ) : ℂ))
  legendre : ∀ z < c.nf, ∀ a < q.ns, ∀ b < q.ns, ∀ l < nl, Filter.Tendsto (fun n => (ar n).legendre (off4 q.ns q.ns c.nf l a b z)) Filter.atTop
    (nhds ((sigmaGLegendre c G q.beta M q.nb z a b l : ℝ) : ℂ))
  omega : ∀ z < c.nf, ∀ a < q.ns, ∀ b < q.ns, ∀ k < nm, Filter.Tendsto (fun n => (ar n).omega (off4 q.ns q.ns c.nf k a b z)) Filter.atTop
    (nhds (fourier q.beta (expansion q.beta nl fun l => ((sigmaGLegendre c G q.beta M q.nb z a b l : ℝ) : ℂ)) k))
  densities : ∀ z < c.nf, Filter.Tendsto (fun n => (ar n).densities.getD z 0) Filter.atTop (nhds (meanDensity c G q.beta M q.ns z))
  ninj : ∀ f1 < c.nf, ∀ i < q.ns, ∀ f2 < c.nf, ∀ j < q.ns, Filter.Tendsto (fun n => (ar n).ninj f1 i f2 j) Filter.atTop
    (nhds ((densDens c G q.beta M f1 i f2 j : ℝ) : ℂ))

end CTInt
