import Verif.Base.DMat
import Verif.Base.Types
import Verif.Model.Green
import Verif.Model.Legendre

/-!
# Measurements: src/measurement.ipp and src/postprocess.hpp

`M_TYPE` is an `RCLike` field `K`; `double` is ℝ.  The clock readings are not modelled, nor are the accumulators of
ALPSCore: an observable is the sequence of the values passed to it, and `mean` is their arithmetic mean.
A `boost::multi_array` is its shape and its row-major storage (a function of the storage position); an index out of
range is undefined.
-/

set_option linter.all false

namespace CTInt

variable {K : Type} [RCLike K]

/-- Conversion of `M_TYPE` to `std::complex<double>`. -/
noncomputable def toC (z : K) : ℂ := ⟨RCLike.re z, RCLike.im z⟩

/-- Storage position of an element of an array with three indices. -/
def off3 (d2 d3 i j k : ℕ) : ℕ := (i * d2 + j) * d3 + k
/-- Storage position of an element of an array with four indices. -/
def off4 (d2 d3 d4 i j k l : ℕ) : ℕ := ((i * d2 + j) * d3 + k) * d4 + l

/-- `a[i][j][k][l] += x` on an array with the given shape. -/
def addAt (d1 d2 d3 d4 : ℕ) (a : ℕ → ℂ) (i j k l : ℕ) (x : ℂ) : Res (ℕ → ℂ) := do
  Res.assert (i < d1 ∧ j < d2 ∧ k < d3 ∧ l < d4)
  pure (a + fun n => if n = off4 d2 d3 d4 i j k l then x else 0)

/-- What the measurements read: `n_flavors`, `n_site`, `beta`, the sign and the operators of
    `submatrix_update`, `M_flavors`, `legendre_transformer`, and the call `g0_intpl(time, flavor, site1, site2)`
    (`Green.ofTime`). -/
structure MeasIn (K : Type) where
  nf : ℕ
  ns : ℕ
  beta : ℝ
  sign : K
  leg : Legendre
  g0 : ℝ → ℕ → ℕ → ℕ → Res K
  M : ℕ → DMat K
  an : ℕ → List Op
  cr : ℕ → List Op

namespace MeasIn

open Classical in
/-- `tmp < beta ? tmp : tmp - beta`, measurement.ipp 265, 383, 479. -/
noncomputable def wrap (m : MeasIn K) (tmp : ℝ) : ℝ := if tmp < m.beta then tmp else tmp - m.beta

/-- Filling `gR`, measurement.ipp 367-374 and 465-472. -/
noncomputable def fillG (m : MeasIn K) (junk : ℕ → ℕ → K) (z Nv : ℕ) (shift : ℝ) : Res (DMat K) :=
  Res.foldl (fun g p => do
    let a ← Res.get (m.an z) p
    Res.foldl (fun (g : DMat K) B => do
      let v ← m.g0 (a.time + shift) z a.site B
      pure (g.set p B v)) g (List.range m.ns)) (DMat.destructiveResize junk Nv m.ns) (List.range Nv)

/-- `x_vals`, measurement.ipp 381-385. -/
noncomputable def xVals (m : MeasIn K) (z Nv : ℕ) (shift : ℝ) : Res (List ℝ) :=
  Res.mapM (fun q => do
    let c ← Res.get (m.cr z) q
    pure (2 * m.wrap (c.time + shift) * (1 / m.beta) - 1)) (List.range Nv)

open Classical in
/-- The accumulation for one time shift, measurement.ipp 389-402. -/
noncomputable def slWalk (m : MeasIn K) (junk : ℕ → ℕ → K) (junkP : ℕ → ℕ → ℝ) (z Nv : ℕ) (shifts : List ℝ)
    (Sl : ℕ → ℂ) (shift : ℝ) : Res (ℕ → ℂ) := do
  let gR ← m.fillG junk z Nv shift
  Res.assert ((m.M z).cols = gR.rows)
  let MgR := (m.M z).mul gR
  let xs ← m.xVals z Nv shift
  let P ← m.leg.computeAll xs m.leg.nl junkP
  Res.foldl (fun Sl q => do
    let c ← Res.get (m.cr z) q
    let coeff : ℂ := (if c.time + shift < m.beta then 1 else -1) * toC (m.sign / (1 * (shifts.length : K)))
    Res.foldl (fun Sl B => Res.foldl (fun Sl l =>
      addAt m.nf m.ns m.ns m.leg.nl Sl z c.site B l
        (coeff * (m.leg.sqrt l : ℂ) * (P l q : ℂ) * toC (MgR.val q B)))
      Sl (List.range m.leg.nl)) Sl (List.range m.ns)) Sl (List.range Nv)

/-- `compute_Sl`, measurement.ipp 321-411; `Sl` has the shape `[n_flavors][n_site][n_site][n_legendre]`. -/
noncomputable def computeSl (m : MeasIn K) (junk : ℕ → ℕ → K) (junkP : ℕ → ℕ → ℝ) (shifts : List ℝ) :
    Res (ℕ → ℂ) :=
  Res.foldl (fun Sl z =>
    let Nv := (m.M z).cols
    if Nv = 0 then pure Sl
    else Res.foldl (m.slWalk junk junkP z Nv shifts) Sl shifts) (fun _ => 0) (List.range m.nf)

/-- Filling the array `gR[Nv][n_site][num_random_walk]`, measurement.ipp 241-248. -/
noncomputable def fillG3 (m : MeasIn K) (junk : ℕ → K) (z Nv : ℕ) (shifts : List ℝ) : Res (ℕ → K) :=
  Res.foldl (fun g w => do
    let shift ← Res.get shifts w
    Res.foldl (fun g p => do
      let a ← Res.get (m.an z) p
      Res.foldl (fun (g : ℕ → K) B => do
        let v ← m.g0 (a.time + shift) z a.site B
        Res.assert (p < Nv ∧ B < m.ns ∧ w < shifts.length)
        pure (Function.update g (off3 m.ns shifts.length p B w) v)) g (List.range m.ns)) g (List.range Nv))
    junk (List.range shifts.length)

/-- `x_vals` of all walks, measurement.ipp 260-268. -/
noncomputable def xValsAll (m : MeasIn K) (z Nv : ℕ) (shifts : List ℝ) : Res (List ℝ) :=
  Res.foldl (fun xs w => do
    let shift ← Res.get shifts w
    Res.foldl (fun xs q => do
      let c ← Res.get (m.cr z) q
      pure (xs ++ [2 * m.wrap (c.time + shift) * (1 / m.beta) - 1])) xs (List.range Nv))
    [] (List.range shifts.length)

open Classical in
/-- The accumulation for one creation operator, measurement.ipp 277-308.  The loops 280-292 fill the two matrices
    completely; they are written as functions of their indices.  The map over the storage of `Sl` starts at
    `Sl[z][site_c][0][0]`. -/
noncomputable def slCreator (m : MeasIn K) (z Nv : ℕ) (shifts : List ℝ) (MgR : ℕ → K) (P : ℕ → ℝ) (Sl : ℕ → ℂ)
    (q : ℕ) : Res (ℕ → ℂ) := do
  let c ← Res.get (m.cr z) q
  let coeff (w : ℕ) : K := (if c.time + shifts.getD w 0 < m.beta then 1 else -1) *
    (m.sign / (1 * (shifts.length : K)))
  let MgRtmp : DMat K := ⟨shifts.length, m.ns, fun w B => coeff w * MgR (off3 m.ns shifts.length q B w)⟩
  let legTmp : DMat K := ⟨m.leg.nl, shifts.length, fun l w =>
    ((m.leg.sqrt l * P (off3 shifts.length Nv l w q) : ℝ) : K)⟩
  Res.assert (z < m.nf ∧ c.site < m.ns ∧ 0 < m.ns ∧ 0 < m.leg.nl)
  let base := off4 m.ns m.ns m.leg.nl z c.site 0 0
  let X := legTmp.mul MgRtmp
  pure (Sl + fun n => if base ≤ n ∧ n < base + m.ns * m.leg.nl then
    toC (X.val ((n - base) % m.leg.nl) ((n - base) / m.leg.nl)) else 0)

/-- `compute_Sl_optimized`, measurement.ipp 206-319.  `gR` and `M_gR` are seen as matrices with `Nv` rows and
    `n_site * num_random_walk` columns (253-255), the Legendre values as an array
    `[n_legendre][num_random_walk * Nv]` (270-272). -/
noncomputable def computeSlOpt (m : MeasIn K) (junk : ℕ → K) (junkP : ℕ → ℕ → ℝ) (shifts : List ℝ) :
    Res (ℕ → ℂ) :=
  Res.foldl (fun Sl z =>
    let Nv := (m.M z).cols
    if Nv = 0 then pure Sl
    else do
      let gR ← m.fillG3 junk z Nv shifts
      let cols := m.ns * shifts.length
      Res.assert ((m.M z).rows = Nv)
      let MgRmap := (m.M z).mul ⟨Nv, cols, fun p k => gR (p * cols + k)⟩
      let MgR := fun n => MgRmap.val (n / cols) (n % cols)
      let xs ← m.xValsAll z Nv shifts
      let P ← m.leg.computeAll xs m.leg.nl junkP
      let Pflat := fun n => P (n / (shifts.length * Nv)) (n % (shifts.length * Nv))
      Res.foldl (m.slCreator z Nv shifts MgR Pflat) Sl (List.range Nv)) (fun _ => 0) (List.range m.nf)

open Classical in
/-- `static_cast<int>(x)`. -/
noncomputable def trunc (x : ℝ) : ℤ := if 0 ≤ x then ⌊x⌋ else ⌈x⌉

open Classical in
/-- `compute_Stau` for one time shift, measurement.ipp 463-488. -/
noncomputable def stauWalk (m : MeasIn K) (junk : ℕ → ℕ → K) (z Nv nb : ℕ) (shifts : List ℝ) (S : ℕ → ℂ)
    (shift : ℝ) : Res (ℕ → ℂ) := do
  let gR ← m.fillG junk z Nv shift
  Res.assert ((m.M z).cols = gR.rows)
  let MgR := (m.M z).mul gR
  let dtau := m.beta / nb
  Res.foldl (fun S q => do
    let c ← Res.get (m.cr z) q
    let ibin := trunc (m.wrap (c.time + shift) / dtau)
    let coeff : ℂ := (if c.time + shift < m.beta then 1 else -1) *
      toC (m.sign / ((dtau * (shifts.length : ℝ) : ℝ) : K))
    Res.foldl (fun S B => do
      Res.assert (0 ≤ ibin)
      addAt m.nf m.ns m.ns nb S z c.site B ibin.toNat (coeff * toC (MgR.val q B))) S (List.range m.ns))
    S (List.range Nv)

/-- `compute_Stau`, measurement.ipp 423-492; `Stau` has the shape `[n_flavors][n_site][n_site][n_bin]`. -/
noncomputable def computeStau (m : MeasIn K) (junk : ℕ → ℕ → K) (nb : ℕ) (shifts : List ℝ) : Res (ℕ → ℂ) :=
  Res.foldl (fun S z =>
    let Nv := (m.M z).cols
    if Nv = 0 then pure S
    else Res.foldl (m.stauWalk junk z Nv nb shifts) S shifts) (fun _ => 0) (List.range m.nf)

/-- `dens` and `dense_mat` of `measure_densities`. -/
abbrev DensAcc := (ℕ → ℕ → ℝ) × (ℕ → ℕ → ℕ → ℂ)

/-- One pair of sites, measurement.ipp 521-541; `gq` is `g0_tauq`. -/
noncomputable def densPair (m : MeasIn K) (tau : ℝ) (z s : ℕ) (gq : List K) (d : DensAcc) (s2 : ℕ) :
    Res DensAcc := do
  let Nv := (m.M z).cols
  let gp ← Res.mapM (fun p => do
    let c ← Res.get (m.cr z) p
    m.g0 (tau - c.time) z s2 c.site) (List.range Nv)
  let Mg : ℕ → K := fun q => ∑ p ∈ Finset.range Nv, (m.M z).val q p * gq.getD p 0
  let d ← if s = s2 then do
      let e ← m.g0 (-m.beta * 1e-10) z s s
      let d : DensAcc := (d.1 + fun a b => if a = z ∧ b = s then RCLike.re e else 0, d.2)
      Res.foldl (fun d q => pure (d.1 + (fun a b => if a = z ∧ b = s then -RCLike.re (gp.getD q 0 * Mg q) else 0), d.2))
        d (List.range Nv)
    else pure d
  let e ← m.g0 (-m.beta * 1e-10) z s2 s
  let d : DensAcc := (d.1, d.2 + fun a b c => if a = z ∧ b = s ∧ c = s2 then (RCLike.re e : ℂ) else 0)
  Res.foldl (fun d q => pure (d.1, d.2 + fun a b c => if a = z ∧ b = s ∧ c = s2 then
    -(RCLike.re (gp.getD q 0 * Mg q) : ℂ) else 0)) d (List.range Nv)

/-- The accumulation of densities and density matrices, measurement.ipp 499-543. -/
noncomputable def densAll (m : MeasIn K) (tau : ℝ) : Res DensAcc :=
  Res.foldl (fun d z => Res.foldl (fun d s => do
    let gq ← Res.mapM (fun q => do
      let a ← Res.get (m.an z) q
      m.g0 (a.time - tau) z a.site s) (List.range (m.M z).cols)
    Res.foldl (m.densPair tau z s gq) d (List.range m.ns)) d (List.range m.ns))
    (fun _ _ => 0, fun _ _ _ => 0) (List.range m.nf)

/-- What is passed to the observables `densities_z`, `densities`, `n_i_n_j_real`, `n_i_n_j_imag`. -/
structure DensOut where
  site : ℕ → List ℝ
  mean : List ℝ
  ninjRe : List ℝ
  ninjIm : List ℝ

/-- `ninj_`, measurement.ipp 572-580. -/
noncomputable def ninj (d : DensAcc) (f1 i f2 j : ℕ) : ℂ :=
  if f1 = f2 then
    if i = j then (d.1 f1 i : ℂ)
    else (d.1 f1 i : ℂ) * (d.1 f1 j : ℂ) - d.2 f1 i j * d.2 f1 j i
  else (d.1 f1 i : ℂ) * (d.1 f2 j : ℂ)

/-- The loop that writes `ninj_real` and `ninj_imag`, measurement.ipp 566-587: the two vectors and `pos`. -/
noncomputable def ninjAll (m : MeasIn K) (d : DensAcc) : Res (List ℝ × List ℝ × ℕ) :=
  let n := m.ns * m.ns * m.nf * m.nf
  Res.foldl (fun x f1 => Res.foldl (fun x i => Res.foldl (fun x f2 => Res.foldl
    (fun (x : List ℝ × List ℝ × ℕ) j => do
      Res.assert (x.2.2 < n)
      pure (x.1.set x.2.2 (ninj d f1 i f2 j).re, x.2.1.set x.2.2 (ninj d f1 i f2 j).im, x.2.2 + 1))
    x (List.range m.ns)) x (List.range m.nf)) x (List.range m.ns))
    (List.replicate n 0, List.replicate n 0, 0) (List.range m.nf)

/-- `measure_densities`, measurement.ipp 495-591, for the random time `tau`. -/
noncomputable def measureDensities (m : MeasIn K) (tau : ℝ) : Res DensOut := do
  let d ← m.densAll tau
  let sr := RCLike.re m.sign
  let x ← m.ninjAll d
  pure ⟨fun z => (List.range m.ns).map fun i => sr * d.1 z i,
    (List.range m.nf).map fun z => sr * (((List.range m.ns).map fun i => d.1 z i).sum / m.ns),
    x.1.map (sr * ·), x.2.1.map (sr * ·)⟩

end MeasIn

/-- `postprocess_densities`, the loop of postprocess.hpp 179-189: from the means of `n_i_n_j_real` and
    `n_i_n_j_imag` to the array `ni_nj[n_flavors][n_site][n_flavors][n_site]`. -/
noncomputable def postNinj (nf ns : ℕ) (sign : ℝ) (re im : List ℝ) : Res ((ℕ → ℕ → ℕ → ℕ → ℂ) × ℕ) :=
  Res.foldl (fun x f1 => Res.foldl (fun x s1 => Res.foldl (fun x f2 => Res.foldl
    (fun (x : (ℕ → ℕ → ℕ → ℕ → ℂ) × ℕ) s2 => do
      let r ← Res.get re x.2
      let i ← Res.get im x.2
      pure (fun a b c d => if a = f1 ∧ b = s1 ∧ c = f2 ∧ d = s2 then (⟨r, i⟩ : ℂ) / (sign : ℂ) else x.1 a b c d,
        x.2 + 1))
    x (List.range ns)) x (List.range nf)) x (List.range ns))
    (fun _ _ _ _ => 0, 0) (List.range nf)

/-- `evaluate_selfenergy_measurement_binning`, postprocess.hpp 96-139: from the means of `Stau_real_*`,
    `Stau_imag_*` (here one array of complex numbers `stau` with the shape it was measured in) to
    `Stau[n_bin][n_site][n_site][n_flavors]` and the Legendre coefficients
    `Sl[n_legendre][n_site][n_site][n_flavors]`.  The transformation to frequencies is `postFreq` (Model/Matsubara.lean). -/
noncomputable def postBinning (nf ns nb nl : ℕ) (beta sign : ℝ) (junkP : ℕ → ℕ → ℝ) (stau : ℕ → ℂ) :
    Res ((ℕ → ℂ) × (ℕ → ℂ)) := do
  let S : ℕ → ℂ ← Res.foldl (fun S f => Res.foldl (fun S a => Res.foldl (fun S b => Res.foldl (fun S ib => do
      Res.assert (ib < nb ∧ a < ns ∧ b < ns ∧ f < nf)
      pure (Function.update S (off4 ns ns nf ib a b f) (stau (off4 ns ns nb f a b ib) / (sign : ℂ))))
    S (List.range nb)) S (List.range ns)) S (List.range ns)) (fun _ => 0) (List.range nf)
  let t ← Legendre.create nl
  let xs := (List.range nb).map fun ib : ℕ => ((ib : ℝ) + 1 / 2) * (2 / nb) - 1
  let P ← t.computeAll xs nl junkP
  let Sl ← Res.foldl (fun Sl f => Res.foldl (fun Sl a => Res.foldl (fun Sl b => Res.foldl (fun Sl l =>
      Res.foldl (fun Sl ib => addAt nl ns ns nf Sl l a b f
        ((t.sqrt l : ℂ) * (P l ib : ℂ) * S (off4 ns ns nf ib a b f) * ((beta / nb : ℝ) : ℂ)))
    Sl (List.range nb)) Sl (List.range nl)) Sl (List.range ns)) Sl (List.range ns)) (fun _ => 0) (List.range nf)
  pure (S, Sl)

end CTInt
