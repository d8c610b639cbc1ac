import Verif.Model.Measure
import Verif.Spec.Legendre

/-!
# What is to be measured
-/

set_option linter.all false

namespace CTInt

variable {K : Type} [RCLike K]

/-- The time in `[0, β)` that differs from `t` by a multiple of `β`. -/
noncomputable def foldTime (β t : ℝ) : ℝ := t - ⌊t / β⌋ * β

/-- The sign of a fermionic operator moved by `⌊t / β⌋` periods. -/
noncomputable def foldSign (β t : ℝ) : ℂ := (-1) ^ ⌊t / β⌋

/-- The configuration to be measured is in order: for each flavour as many creation as annihilation operators, on
    existing sites, creation operators at times in `[0, β]`, and a square matrix `M` of that size. -/
structure MeasOK (m : MeasIn K) : Prop where
  beta : 0 < m.beta
  rows : ∀ z < m.nf, (m.M z).rows = (m.cr z).length
  cols : ∀ z < m.nf, (m.M z).cols = (m.cr z).length
  ann : ∀ z < m.nf, (m.an z).length = (m.cr z).length
  annSite : ∀ z < m.nf, ∀ a ∈ m.an z, a.site < m.ns
  creSite : ∀ z < m.nf, ∀ c ∈ m.cr z, c.site < m.ns
  creTime : ∀ z < m.nf, ∀ c ∈ m.cr z, 0 ≤ c.time ∧ c.time ≤ m.beta

/-- `G` are the values of the bare Green function the call `g0_intpl` returns. -/
def HasG0 (m : MeasIn K) (G : ℝ → ℕ → ℕ → ℕ → K) : Prop :=
  ∀ t z s1 s2, z < m.nf → s1 < m.ns → s2 < m.ns → m.g0 t z s1 s2 = .ok (G t z s1 s2)

/-- `∑_p M(q, p) G0(τ_p + shift; s_p, B)`: the improved estimator for creation operator `q`, Eq. (197) of Gull et
    al., RMP 83, 349 (2011). -/
noncomputable def MeasIn.improved (m : MeasIn K) (G : ℝ → ℕ → ℕ → ℕ → K) (z q B : ℕ) (shift : ℝ) : K :=
  ∑ p ∈ Finset.range (m.cr z).length, (m.M z).val q p *
    G (((m.an z).getD p default).time + shift) z ((m.an z).getD p default).site B

/-- The average over the shifts of `∑_q ± sign ρ(τ_q) (M G0)(q, B)` over the creation operators on site `c`, where
    `τ_q` is the shifted time folded into `[0, β)`. -/
noncomputable def MeasIn.estimator (m : MeasIn K) (G : ℝ → ℕ → ℕ → ℕ → K) (shifts : List ℝ) (ρ : ℝ → ℂ)
    (z c B : ℕ) : ℂ :=
  (shifts.map fun shift => ∑ q ∈ Finset.range (m.cr z).length,
    if ((m.cr z).getD q default).site = c then
      foldSign m.beta (((m.cr z).getD q default).time + shift) * toC m.sign *
        ρ (foldTime m.beta (((m.cr z).getD q default).time + shift)) * toC (m.improved G z q B shift)
    else 0).sum / (shifts.length : ℂ)

/-- Legendre weight `√(2l+1) P_l(2 τ / β - 1)`. -/
noncomputable def legWeight (β : ℝ) (l : ℕ) (τ : ℝ) : ℂ :=
  ((Real.sqrt (2 * l + 1) * (legendreP l).eval (2 * τ / β - 1) : ℝ) : ℂ)

open Classical in
/-- Weight of bin `b` of `n`: `1 / Δτ` inside `[b Δτ, (b + 1) Δτ)`. -/
noncomputable def binWeight (β : ℝ) (n b : ℕ) (τ : ℝ) : ℂ :=
  if β * b / n ≤ τ ∧ τ < β * (b + 1) / n then ((n / β : ℝ) : ℂ) else 0

/-- The single-particle density matrix `⟨c†_s c_{s2}⟩` of the configuration at time `τ`:
    `G0(-0; s2, s) - ∑_{q, p} G0(τ - τ_q; s2, s_q) M(q, p) G0(τ_p - τ; s_p, s)`. -/
noncomputable def MeasIn.rho (m : MeasIn K) (G : ℝ → ℕ → ℕ → ℕ → K) (τ : ℝ) (z s s2 : ℕ) : K :=
  G (-m.beta * 1e-10) z s2 s -
    ∑ q ∈ Finset.range (m.cr z).length, G (τ - ((m.cr z).getD q default).time) z s2 ((m.cr z).getD q default).site *
      ∑ p ∈ Finset.range (m.cr z).length, (m.M z).val q p *
        G (((m.an z).getD p default).time - τ) z ((m.an z).getD p default).site s

/-- Wick's theorem for `⟨n_i n_j⟩` of one configuration: the determinant of the density matrices for the same
    flavour and different sites, the product for different flavours, the density itself for the same orbital. -/
noncomputable def wick (ρ : ℕ → ℕ → ℕ → ℂ) (f1 i f2 j : ℕ) : ℂ :=
  if f1 = f2 then if i = j then ρ f1 i i else ρ f1 i i * ρ f1 j j - ρ f1 i j * ρ f1 j i
  else ρ f1 i i * ρ f2 j j

end CTInt

namespace CTInt

/-- Centre of the bin that contains `τ`, for `n` bins on `[0, β)`. -/
noncomputable def binCenter (β : ℝ) (n : ℕ) (τ : ℝ) : ℝ := β * (⌊τ * n / β⌋ + 1 / 2) / n

end CTInt
