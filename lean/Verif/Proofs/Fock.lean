import Verif.Spec.Fock
import Verif.Proofs.Inner

/-!
# Fermions on sites: creators, annihilators and their thermal averages
-/

set_option linter.all false

namespace CTInt

open NormedSpace Matrix ComplexOrder

variable {K : Type} [RCLike K] {n : Type} [Fintype n] [DecidableEq n] {nf ns : ℕ} {c : ℕ → ℕ → Matrix n n K} {h : ℕ → ℕ → ℕ → K}

/-- The space of the creators of the flavors in `Z`. -/
def crSpan (Z : Set ℕ) (ns : ℕ) (c : ℕ → ℕ → Matrix n n K) : Submodule K (Matrix n n K) :=
  Submodule.span K {b | ∃ z ∈ Z, ∃ s < ns, b = (c z s)ᴴ}

/-- The space of the annihilators of the flavors in `Z`. -/
def anSpan (Z : Set ℕ) (ns : ℕ) (c : ℕ → ℕ → Matrix n n K) : Submodule K (Matrix n n K) :=
  Submodule.span K {d | ∃ z ∈ Z, ∃ s < ns, d = c z s}

theorem Annihilators.mixed' (hc : Annihilators nf ns c) {Z Z' : Set ℕ} (hZ : ∀ z ∈ Z, z < nf) (hZ' : ∀ z ∈ Z', z < nf) {b d : Matrix n n K}
    (hb : b ∈ crSpan Z ns c) (hd : d ∈ anSpan Z' ns c) : ∃ k : K, b * d + d * b = algebraMap K _ k ∧ ((∀ z ∈ Z, z ∉ Z') → k = 0) := by
  unfold crSpan at hb
  unfold anSpan at hd
  induction hb using Submodule.span_induction with
  | mem b hb =>
    obtain ⟨z, hz, s, hs, rfl⟩ := hb
    induction hd using Submodule.span_induction with
    | mem d hd =>
      obtain ⟨z', hz', s', hs', rfl⟩ := hd
      rw [add_comm, hc.mixed _ (hZ' _ hz') _ hs' _ (hZ _ hz) _ hs]
      refine ⟨if z' = z ∧ s' = s then 1 else 0, by split_ifs <;> simp, fun hn => if_neg ?_⟩
      rintro ⟨rfl, _⟩
      exact hn _ hz hz'
    | zero => exact ⟨0, by simp, fun _ => rfl⟩
    | add x y _ _ hx hy =>
      obtain ⟨k, h1, h1'⟩ := hx
      obtain ⟨l, h2, h2'⟩ := hy
      refine ⟨k + l, ?_, fun hn => by rw [h1' hn, h2' hn, add_zero]⟩
      rw [map_add, ← h1, ← h2, mul_add, add_mul]
      abel
    | smul a x _ hx =>
      obtain ⟨k, h1, h1'⟩ := hx
      refine ⟨a * k, ?_, fun hn => by rw [h1' hn, mul_zero]⟩
      rw [Matrix.mul_smul, Matrix.smul_mul, ← smul_add, h1, map_mul, Algebra.smul_def]
  | zero => exact ⟨0, by simp, fun _ => rfl⟩
  | add x y _ _ hx hy =>
    obtain ⟨k, h1, h1'⟩ := hx
    obtain ⟨l, h2, h2'⟩ := hy
    refine ⟨k + l, ?_, fun hn => by rw [h1' hn, h2' hn, add_zero]⟩
    rw [map_add, ← h1, ← h2, mul_add, add_mul]
    abel
  | smul a x _ hx =>
    obtain ⟨k, h1, h1'⟩ := hx
    refine ⟨a * k, ?_, fun hn => by rw [h1' hn, mul_zero]⟩
    rw [Matrix.mul_smul, Matrix.smul_mul, ← smul_add, h1, map_mul, Algebra.smul_def]

theorem anti_span {S : Set (Matrix n n K)} (hS : ∀ x ∈ S, ∀ y ∈ S, x * y + y * x = 0) {x y : Matrix n n K} (hx : x ∈ Submodule.span K S)
    (hy : y ∈ Submodule.span K S) : x * y + y * x = 0 := by
  induction hx using Submodule.span_induction with
  | mem x hx =>
    induction hy using Submodule.span_induction with
    | mem y hy => exact hS x hx y hy
    | zero => simp
    | add a b _ _ ha hb => rw [mul_add, add_mul, add_add_add_comm, ha, hb, add_zero]
    | smul a b _ hb => rw [Matrix.mul_smul, Matrix.smul_mul, ← smul_add, hb, smul_zero]
  | zero => simp
  | add a b _ _ ha hb => rw [mul_add, add_mul, add_add_add_comm, ha, hb, add_zero]
  | smul a b _ hb => rw [Matrix.mul_smul, Matrix.smul_mul, ← smul_add, hb, smul_zero]

theorem Annihilators.fermions (hc : Annihilators nf ns c) :
    ∃ p, Fermions (crSpan (Set.Iio nf) ns c) (anSpan (Set.Iio nf) ns c) p := by
  classical
  refine ⟨fun b d => if hx : ∃ k : K, b * d + d * b = algebraMap K _ k then hx.choose else 0, ?_, ?_, ?_⟩
  · intro b hb d hd
    obtain ⟨k, hk, _⟩ := hc.mixed' (fun z hz => hz) (fun z hz => hz) hb hd
    have hx : ∃ k : K, b * d + d * b = algebraMap K (Matrix n n K) k := ⟨k, hk⟩
    rw [dif_pos hx]
    exact hx.choose_spec
  · intro b hb b' hb'
    refine anti_span ?_ hb hb'
    rintro x ⟨z, hz, s, hs, rfl⟩ y ⟨z', hz', s', hs', rfl⟩
    rw [← Matrix.conjTranspose_mul, ← Matrix.conjTranspose_mul, ← Matrix.conjTranspose_add, add_comm, hc.same _ hz _ hs _ hz' _ hs',
      Matrix.conjTranspose_zero]
  · intro d hd d' hd'
    refine anti_span ?_ hd hd'
    rintro x ⟨z, hz, s, hs, rfl⟩ y ⟨z', hz', s', hs', rfl⟩
    exact hc.same _ hz _ hs _ hz' _ hs'

theorem bareH_hermitian (hh : HermitianHops nf ns h) : (bareH nf ns h c).IsHermitian := by
  show (bareH nf ns h c)ᴴ = _
  unfold bareH
  rw [Matrix.conjTranspose_sum]
  refine Finset.sum_congr rfl fun z hz => ?_
  simp only [Matrix.conjTranspose_sum, Matrix.conjTranspose_smul, Matrix.conjTranspose_mul, Matrix.conjTranspose_conjTranspose]
  refine Finset.sum_comm.trans (Finset.sum_congr rfl fun s hs => Finset.sum_congr rfl fun s' hs' => ?_)
  rw [Finset.mem_range] at hz hs hs'
  congr 1
  exact hh z hz s' hs' s hs

/-- The commutator with the Hamiltonian of a creator is a combination of creators of its flavor. -/
theorem comm_cr (hc : Annihilators nf ns c) {Z : Set ℕ} (hZ : ∀ z ∈ Z, z < nf) {b : Matrix n n K} (hb : b ∈ crSpan Z ns c) :
    bareH nf ns h c * b - b * bareH nf ns h c ∈ crSpan Z ns c := by
  unfold crSpan at hb
  induction hb using Submodule.span_induction with
  | mem b hb =>
    obtain ⟨z, hz, s, hs, rfl⟩ := hb
    unfold bareH
    simp only [Finset.sum_mul, Finset.mul_sum, ← Finset.sum_sub_distrib]
    refine Submodule.sum_mem _ fun w hw => Submodule.sum_mem _ fun u hu => Submodule.sum_mem _ fun u' hu' => ?_
    rw [Finset.mem_range] at hw hu hu'
    rw [Matrix.mul_smul, Matrix.smul_mul, ← smul_sub]
    refine Submodule.smul_mem _ _ ?_
    have e1 := hc.mixed _ hw _ hu' _ (hZ _ hz) _ hs
    have e2 : (c w u)ᴴ * (c z s)ᴴ + (c z s)ᴴ * (c w u)ᴴ = 0 := by
      rw [← Matrix.conjTranspose_mul, ← Matrix.conjTranspose_mul, ← Matrix.conjTranspose_add, add_comm, hc.same _ hw _ hu _ (hZ _ hz) _ hs,
        Matrix.conjTranspose_zero]
    have e : (c w u)ᴴ * c w u' * (c z s)ᴴ - (c z s)ᴴ * ((c w u)ᴴ * c w u') =
        (c w u)ᴴ * (c w u' * (c z s)ᴴ + (c z s)ᴴ * c w u') - ((c w u)ᴴ * (c z s)ᴴ + (c z s)ᴴ * (c w u)ᴴ) * c w u' := by
      noncomm_ring
    rw [e, e1, e2, zero_mul, sub_zero]
    split_ifs with hi
    · rw [mul_one]
      exact Submodule.subset_span ⟨w, hi.1 ▸ hz, u, hu, rfl⟩
    · rw [mul_zero]
      exact Submodule.zero_mem _
  | zero => simp
  | add x y _ _ hx hy =>
    have := Submodule.add_mem _ hx hy
    convert this using 1
    noncomm_ring
  | smul a x _ hx =>
    have := Submodule.smul_mem _ a hx
    rw [smul_sub] at this
    rwa [Matrix.mul_smul, Matrix.smul_mul]

theorem comm_an (hc : Annihilators nf ns c) {Z : Set ℕ} (hZ : ∀ z ∈ Z, z < nf) {d : Matrix n n K} (hd : d ∈ anSpan Z ns c) :
    bareH nf ns h c * d - d * bareH nf ns h c ∈ anSpan Z ns c := by
  unfold anSpan at hd
  induction hd using Submodule.span_induction with
  | mem b hb =>
    obtain ⟨z, hz, s, hs, rfl⟩ := hb
    unfold bareH
    simp only [Finset.sum_mul, Finset.mul_sum, ← Finset.sum_sub_distrib]
    refine Submodule.sum_mem _ fun w hw => Submodule.sum_mem _ fun u hu => Submodule.sum_mem _ fun u' hu' => ?_
    rw [Finset.mem_range] at hw hu hu'
    rw [Matrix.mul_smul, Matrix.smul_mul, ← smul_sub]
    refine Submodule.smul_mem _ _ ?_
    have e1 := hc.mixed _ (hZ _ hz) _ hs _ hw _ hu
    have e2 := hc.same _ hw _ hu' _ (hZ _ hz) _ hs
    have e : (c w u)ᴴ * c w u' * c z s - c z s * ((c w u)ᴴ * c w u') =
        (c w u)ᴴ * (c w u' * c z s + c z s * c w u') - (c z s * (c w u)ᴴ + (c w u)ᴴ * c z s) * c w u' := by
      noncomm_ring
    rw [e, e1, e2, mul_zero, zero_sub]
    refine Submodule.neg_mem _ ?_
    split_ifs with hi
    · rw [one_mul]
      exact Submodule.subset_span ⟨w, hi.1 ▸ hz, u', hu', rfl⟩
    · rw [zero_mul]
      exact Submodule.zero_mem _
  | zero => simp
  | add x y _ _ hx hy =>
    have := Submodule.add_mem _ hx hy
    convert this using 1
    noncomm_ring
  | smul a x _ hx =>
    have := Submodule.smul_mem _ a hx
    rw [smul_sub] at this
    rwa [Matrix.mul_smul, Matrix.smul_mul]

theorem atTime_mem {V : Submodule K (Matrix n n K)} {H : Matrix n n K} (hV : ∀ b ∈ V, H * b - b * H ∈ V) (t : ℝ) {b : Matrix n n K} (hb : b ∈ V) :
    atTime H t b ∈ V := by
  refine matrix_conj_mem (fun b hb => ?_) hb
  rw [Matrix.mul_smul, Matrix.smul_mul, ← smul_sub]
  exact V.smul_mem _ (hV b hb)

theorem atTime_mul (H : Matrix n n K) (t : ℝ) (X Y : Matrix n n K) : atTime H t (X * Y) = atTime H t X * atTime H t Y := by
  unfold atTime
  calc _ = exp ((t : K) • H) * X * 1 * Y * exp (-((t : K) • H)) := by simp only [mul_assoc, one_mul, mul_one]
    _ = _ := by rw [← matrix_exp_neg_mul ((t : K) • H)]; simp only [mul_assoc]

theorem atTime_sub (H : Matrix n n K) (t : ℝ) (X Y : Matrix n n K) : atTime H t (X - Y) = atTime H t X - atTime H t Y := by
  unfold atTime; rw [mul_sub, sub_mul]

theorem atTime_smul (H : Matrix n n K) (t : ℝ) (k : K) (X : Matrix n n K) : atTime H t (k • X) = k • atTime H t X := by
  unfold atTime; rw [Matrix.mul_smul, Matrix.smul_mul]

theorem atTime_one (H : Matrix n n K) (t : ℝ) : atTime H t 1 = 1 := by
  unfold atTime; rw [mul_one, matrix_exp_mul_neg]

theorem atTime_prod (H : Matrix n n K) (t : ℝ) (l : List (Matrix n n K)) : atTime H t l.prod = (l.map (atTime H t)).prod := by
  induction l with
  | nil => exact atTime_one H t
  | cons a l ih => rw [List.prod_cons, atTime_mul, ih, List.map_cons, List.prod_cons]

theorem thermal_eq (β : ℝ) (H X : Matrix n n K) : thermal β H X = thermalL β H X := rfl

/-- Averages of a creator and an annihilator of different flavors vanish. -/
theorem thermal_cross [Nonempty n] (β : ℝ) (hc : Annihilators nf ns c) (hh : HermitianHops nf ns h) {z z' : ℕ} (hz : z < nf) (hz' : z' < nf) (hne : z ≠ z')
    {b d : Matrix n n K} (hb : b ∈ crSpan {z} ns c) (hd : d ∈ anSpan {z'} ns c) :
    thermal β (bareH nf ns h c) (b * d) = 0 ∧ thermal β (bareH nf ns h c) (d * b) = 0 := by
  have hZ : ∀ w ∈ ({z} : Set ℕ), w < nf := by rintro w rfl; exact hz
  have hZ' : ∀ w ∈ ({z'} : Set ℕ), w < nf := by rintro w rfl; exact hz'
  have hn : ∀ w ∈ ({z} : Set ℕ), w ∉ ({z'} : Set ℕ) := by rintro w rfl e; exact hne e
  have anti : ∀ b ∈ crSpan {z} ns c, b * d + d * b = 0 := by
    intro b hb
    obtain ⟨k, hk, h0⟩ := hc.mixed' hZ hZ' hb hd
    rw [hk, h0 hn, map_zero]
  have hq := thermal_quasi β (bareH_hermitian (c := c) hh) (V := crSpan {z} ns c) fun b hb => comm_cr hc hZ hb
  obtain ⟨b₀, hb₀, e⟩ := hq.free b hb
  have h1 : thermal β (bareH nf ns h c) (b * d) = 0 := by
    rw [thermal_eq, e, anti b₀ hb₀, map_zero]
  refine ⟨h1, ?_⟩
  have : d * b = - (b * d) := eq_neg_of_add_eq_zero_right (anti b hb)
  rw [this, thermal_eq, map_neg, ← thermal_eq, h1, neg_zero]

end CTInt
