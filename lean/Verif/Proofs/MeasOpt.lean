import Verif.Proofs.MeasSl

/-!
# The optimised version
-/

set_option linter.all false

namespace CTInt

variable {K : Type} [RCLike K]

theorem radix2 {d a b x y : ℕ} (hx : x < d) (hy : y < d) : a * d + x = b * d + y ↔ a = b ∧ x = y := by
  constructor
  · intro h
    have h1 := congrArg (· % d) h
    have h2 := congrArg (· / d) h
    have hd : 0 < d := by omega
    simp only [Nat.mul_add_mod_self_right, Nat.mod_eq_of_lt hx, Nat.mod_eq_of_lt hy] at h1
    simp only [Nat.add_comm (_ * d), Nat.add_mul_div_right _ _ hd, Nat.div_eq_of_lt hx, Nat.div_eq_of_lt hy] at h2
    omega
  · rintro ⟨rfl, rfl⟩; rfl

theorem radix_div {d a x : ℕ} (hx : x < d) : (a * d + x) / d = a := by
  have hd : 0 < d := by omega
  rw [Nat.add_comm, Nat.add_mul_div_right _ _ hd, Nat.div_eq_of_lt hx, zero_add]
theorem radix_mod {d a x : ℕ} (hx : x < d) : (a * d + x) % d = x := by
  rw [Nat.mul_add_mod_self_right, Nat.mod_eq_of_lt hx]
theorem radix_lt {d e a x : ℕ} (ha : a < e) (hx : x < d) : a * d + x < e * d := by
  calc a * d + x < a * d + d := by omega
    _ = (a + 1) * d := by ring
    _ ≤ e * d := Nat.mul_le_mul_right _ ha

theorem off3_inj {d2 d3 i j k i' j' k' : ℕ} (hj : j < d2) (hj' : j' < d2) (hk : k < d3) (hk' : k' < d3) :
    off3 d2 d3 i j k = off3 d2 d3 i' j' k' ↔ i = i' ∧ j = j' ∧ k = k' := by
  unfold off3
  rw [radix2 hk hk', radix2 hj hj']
  tauto

theorem off3_split (d2 d3 i j k : ℕ) : off3 d2 d3 i j k = i * (d2 * d3) + (j * d3 + k) := by unfold off3; ring
theorem off4_split (d2 d3 d4 i j k l : ℕ) :
    off4 d2 d3 d4 i j k l = (i * d2 + j) * (d3 * d4) + (k * d4 + l) := by unfold off4; ring

/-- A loop that appends. -/
theorem Res.foldl_append_acc {α β : Type} {f : List β → α → Res (List β)} {e : α → List β} {l : List α} (d : List β)
    (h : ∀ d, ∀ a ∈ l, f d a = .ok (d ++ e a)) : Res.foldl f d l = .ok (d ++ l.flatMap e) := by
  induction l generalizing d with
  | nil => simp
  | cons a l ih =>
    rw [Res.foldl_cons, h d a (by simp), Res.bind_ok, ih _ fun d b hb => h d b (by simp [hb])]
    simp

theorem flatMap_length {β : Type} {N : ℕ} {F : ℕ → List β} (hF : ∀ w, (F w).length = N) (W : ℕ) :
    ((List.range W).flatMap F).length = W * N := by
  induction W with
  | zero => simp
  | succ W ih => rw [List.range_succ, List.flatMap_append, List.length_append, ih]; simp [hF]; ring

theorem flatMap_getD {β : Type} {N : ℕ} {F : ℕ → List β} (hF : ∀ w, (F w).length = N) (W : ℕ) (b : β) {w q : ℕ}
    (hw : w < W) (hq : q < N) : ((List.range W).flatMap F).getD (w * N + q) b = (F w).getD q b := by
  induction W with
  | zero => omega
  | succ W ih =>
    rw [List.range_succ, List.flatMap_append]
    have hl := flatMap_length hF W
    by_cases h : w < W
    · rw [← ih h]
      simp only [List.getD]
      rw [List.getElem?_append_left (by rw [hl]; exact radix_lt h hq)]
    · have : w = W := by omega
      subst this
      simp only [List.getD]
      rw [List.getElem?_append_right (by rw [hl]; omega), hl]
      simp

namespace MeasIn

theorem fillG3_spec {m : MeasIn K} {G : ℝ → ℕ → ℕ → ℕ → K} (hG : HasG0 m G) (hm : MeasOK m) (junk : ℕ → K)
    {z : ℕ} (hz : z < m.nf) (shifts : List ℝ) :
    ∃ g, m.fillG3 junk z (m.cr z).length shifts = .ok g ∧
      ∀ w < shifts.length, ∀ p < (m.cr z).length, ∀ B < m.ns, g (off3 m.ns shifts.length p B w) =
        G (((m.an z).getD p default).time + shifts.getD w default) z ((m.an z).getD p default).site B := by
  let Good (D : ℕ → ℕ → ℕ → Prop) (g : ℕ → K) : Prop :=
    ∀ w < shifts.length, ∀ p < (m.cr z).length, ∀ B < m.ns, D w p B → g (off3 m.ns shifts.length p B w) =
        G (((m.an z).getD p default).time + shifts.getD w default) z ((m.an z).getD p default).site B
  have h := Res.foldl_range_inv (fun w g => Good (fun w' _ _ => w' < w) g)
    (f := fun g w => do
      let shift ← Res.get shifts w
      Res.foldl (fun g p => do
        let a ← Res.get (m.an z) p
        Res.foldl (fun (g : ℕ → K) B => do
          let v ← m.g0 (a.time + shift) z a.site B
          Res.assert (p < (m.cr z).length ∧ B < m.ns ∧ w < shifts.length)
          pure (Function.update g (off3 m.ns shifts.length p B w) v)) g (List.range m.ns)) g
            (List.range (m.cr z).length))
    shifts.length junk (fun w _ p _ B _ h => by omega) ?_
  · obtain ⟨g, e, hg⟩ := h
    exact ⟨g, e, fun w hw p hp B hB => hg w hw p hp B hB hw⟩
  intro w hw g hg
  simp only [get_getD hw, Res.bind_ok]
  have h := Res.foldl_range_inv (fun p g => Good (fun w' p' _ => w' < w ∨ w' = w ∧ p' < p) g)
    (f := fun g p => do
        let a ← Res.get (m.an z) p
        Res.foldl (fun (g : ℕ → K) B => do
          let v ← m.g0 (a.time + shifts.getD w default) z a.site B
          Res.assert (p < (m.cr z).length ∧ B < m.ns ∧ w < shifts.length)
          pure (Function.update g (off3 m.ns shifts.length p B w) v)) g (List.range m.ns))
    (m.cr z).length g (fun w' hw' p hp B hB h => hg w' hw' p hp B hB (by omega)) ?_
  · obtain ⟨g', e, hg'⟩ := h
    exact ⟨g', e, fun w' hw' p hp B hB h => hg' w' hw' p hp B hB (by omega)⟩
  intro p hp g hg
  have hl : p < (m.an z).length := by rw [hm.ann z hz]; exact hp
  simp only [get_getD hl, Res.bind_ok]
  have h := Res.foldl_range_inv (fun B g => Good (fun w' p' B' => w' < w ∨ w' = w ∧ (p' < p ∨ p' = p ∧ B' < B)) g)
    (f := fun (g : ℕ → K) B => do
          let v ← m.g0 (((m.an z).getD p default).time + shifts.getD w default) z ((m.an z).getD p default).site B
          Res.assert (p < (m.cr z).length ∧ B < m.ns ∧ w < shifts.length)
          pure (Function.update g (off3 m.ns shifts.length p B w) v))
    m.ns g (fun w' hw' p hp B hB h => hg w' hw' p hp B hB (by omega)) ?_
  · obtain ⟨g', e, hg'⟩ := h
    exact ⟨g', e, fun w' hw' p hp B hB h => hg' w' hw' p hp B hB (by omega)⟩
  intro B hB g hg
  have hs := hm.annSite z hz _ (getD_in hl)
  refine ⟨Function.update g (off3 m.ns shifts.length p B w)
    (G (((m.an z).getD p default).time + shifts.getD w default) z ((m.an z).getD p default).site B), ?_, ?_⟩
  · rw [hG _ _ _ _ hz hs hB, Res.bind_ok, Res.assert_true ⟨hp, hB, hw⟩]; rfl
  · intro w' hw' p' hp' B' hB' h
    by_cases e : off3 m.ns shifts.length p' B' w' = off3 m.ns shifts.length p B w
    · rw [e, Function.update_self]
      rw [off3_inj hB' hB hw' hw] at e
      obtain ⟨rfl, rfl, rfl⟩ := e
      rfl
    · rw [Function.update_of_ne e]
      refine hg w' hw' p' hp' B' hB' ?_
      by_contra hc
      apply e
      have : w' = w ∧ p' = p ∧ B' = B := by omega
      rw [this.1, this.2.1, this.2.2]

theorem xValsAll_spec {m : MeasIn K} (z : ℕ) (shifts : List ℝ) :
    ∃ xs, m.xValsAll z (m.cr z).length shifts = .ok xs ∧ xs.length = shifts.length * (m.cr z).length ∧
      ∀ w < shifts.length, ∀ q < (m.cr z).length, xs.getD (w * (m.cr z).length + q) 0 =
        2 * m.wrap (((m.cr z).getD q default).time + shifts.getD w default) * (1 / m.beta) - 1 := by
  refine ⟨(List.range shifts.length).flatMap fun w => (List.range (m.cr z).length).map fun q =>
    2 * m.wrap (((m.cr z).getD q default).time + shifts.getD w default) * (1 / m.beta) - 1, ?_, ?_, ?_⟩
  · unfold xValsAll
    rw [show ∀ l : List ℝ, Res.ok l = Res.ok ([] ++ l) from fun _ => rfl]
    refine Res.foldl_append_acc [] fun d w hw => ?_
    rw [get_getD (List.mem_range.1 hw), Res.bind_ok]
    rw [Res.foldl_append_acc (e := fun q => [2 * m.wrap (((m.cr z).getD q default).time + shifts.getD w default) * (1 / m.beta) - 1])]
    · congr 2
      exact List.map_eq_flatMap.symm
    · intro d q hq
      rw [get_getD (List.mem_range.1 hq)]; rfl
  · exact flatMap_length (by simp) _
  · intro w hw q hq
    rw [flatMap_getD (N := (m.cr z).length) (by simp) _ _ hw hq]
    simp [List.getD, hq]

theorem sum_map_range {α : Type} [Inhabited α] (l : List α) (f : α → ℂ) :
    (l.map f).sum = ∑ w ∈ Finset.range l.length, f (l.getD w default) := by
  induction l with
  | nil => simp
  | cons a l ih => rw [List.map_cons, List.sum_cons, ih, List.length_cons, Finset.sum_range_succ']; simp [add_comm]

theorem slOpt_flavor {m : MeasIn K} {G : ℝ → ℕ → ℕ → ℕ → K} (hG : HasG0 m G) (hm : MeasOK m)
    (ht : Legendre.create m.leg.nl = .ok m.leg) (junk : ℕ → K) (junkP : ℕ → ℕ → ℝ) {z : ℕ} (hz : z < m.nf)
    (shifts : List ℝ) (hs : ∀ s ∈ shifts, 0 ≤ s ∧ s < m.beta) (Nv : ℕ) (hNv : Nv = (m.cr z).length) :
    ∃ e : ℕ → ℂ, (∀ Sl : ℕ → ℂ, (do
      let gR ← m.fillG3 junk z Nv shifts
      let cols := m.ns * shifts.length
      Res.assert ((m.M z).rows = Nv)
      let MgRmap := (m.M z).mul ⟨Nv, cols, fun p k => gR (p * cols + k)⟩
      let MgR := fun n => MgRmap.val (n / cols) (n % cols)
      let xs ← m.xValsAll z Nv shifts
      let P ← m.leg.computeAll xs m.leg.nl junkP
      let Pflat := fun n => P (n / (shifts.length * Nv)) (n % (shifts.length * Nv))
      Res.foldl (m.slCreator z Nv shifts MgR Pflat) Sl (List.range Nv)) = Res.ok (Sl + e)) ∧
      ∀ z' c B l, c < m.ns → B < m.ns → l < m.leg.nl → e (off4 m.ns m.ns m.leg.nl z' c B l) =
        if z' = z then m.estimator G shifts (legWeight m.beta l) z c B else 0 := by
  subst hNv
  have hn := create_pos ht
  have hsq := legendre_sqrt ht hn
  obtain ⟨gR, e1, hv⟩ := fillG3_spec hG hm junk hz shifts
  obtain ⟨xs, e2, hxl, hx⟩ := xValsAll_spec (m := m) z shifts
  obtain ⟨P, e3, hP⟩ := legendre_all ht hn xs junkP
  simp only [e1, e2, e3, Res.bind_ok, Res.assert_true (hm.rows z hz)]
  set W := shifts.length with hW
  set N := (m.cr z).length with hN
  -- matrix entries in terms of the original indices
  let X (q l B : ℕ) : K := ∑ w ∈ Finset.range W,
    ((m.leg.sqrt l * (legendreP l).eval (2 * m.wrap (((m.cr z).getD q default).time + shifts.getD w default) *
        (1 / m.beta) - 1) : ℝ) : K) *
    ((if ((m.cr z).getD q default).time + shifts.getD w default < m.beta then 1 else -1) *
      (m.sign / (1 * (W : K))) * m.improved G z q B (shifts.getD w default))
  let e (q : ℕ) : ℕ → ℂ := fun n =>
    if off4 m.ns m.ns m.leg.nl z ((m.cr z).getD q default).site 0 0 ≤ n ∧
      n < off4 m.ns m.ns m.leg.nl z ((m.cr z).getD q default).site 0 0 + m.ns * m.leg.nl then
    toC (X q ((n - off4 m.ns m.ns m.leg.nl z ((m.cr z).getD q default).site 0 0) % m.leg.nl)
      ((n - off4 m.ns m.ns m.leg.nl z ((m.cr z).getD q default).site 0 0) / m.leg.nl)) else 0
  refine ⟨∑ q ∈ Finset.range N, e q, fun Sl => Res.foldl_range_acc Sl fun d q hq => ?_,
    fun z' c B l hc hB hl => ?_⟩
  · have hsite := hm.creSite z hz _ (getD_in hq)
    unfold slCreator
    rw [get_getD hq, Res.bind_ok, Res.assert_true ⟨hz, hsite, by omega, hn⟩, Res.bind_ok, Res.pure_eq]
    congr 2
    funext n
    simp only [e]
    by_cases hcond : off4 m.ns m.ns m.leg.nl z ((m.cr z).getD q default).site 0 0 ≤ n ∧
      n < off4 m.ns m.ns m.leg.nl z ((m.cr z).getD q default).site 0 0 + m.ns * m.leg.nl
    · simp only [if_pos hcond]
      congr 1
      set r := n - off4 m.ns m.ns m.leg.nl z ((m.cr z).getD q default).site 0 0 with hr
      have hB : r / m.leg.nl < m.ns := by rw [Nat.div_lt_iff_lt_mul hn]; omega
      have hl : r % m.leg.nl < m.leg.nl := Nat.mod_lt _ hn
      rw [DMat.mul_val]
      refine Finset.sum_congr rfl fun w hw => ?_
      have hw := Finset.mem_range.1 hw
      have i1 : r / m.leg.nl * W + w < m.ns * W := radix_lt hB hw
      have i2 : w * N + q < W * N := radix_lt hw hq
      simp only [off3_split, ← hW, radix_div i1, radix_mod i1, radix_div i2, radix_mod i2]
      rw [hP _ hl _ (by rw [hxl]; exact i2), hx w hw q hq]
      congr 2
      rw [DMat.mul_val, hm.cols z hz]
      refine Finset.sum_congr rfl fun p hp => ?_
      dsimp only
      rw [← off3_split, hv w hw p (Finset.mem_range.1 hp) _ hB]
    · simp only [if_neg hcond]
  · simp only [Finset.sum_apply]
    have hkl : B * m.leg.nl + l < m.ns * m.leg.nl := radix_lt hB hl
    have val : ∀ q < N, e q (off4 m.ns m.ns m.leg.nl z' c B l) =
        if z' = z ∧ ((m.cr z).getD q default).site = c then toC (X q l B) else 0 := by
      intro q hq
      have hsite := hm.creSite z hz _ (getD_in hq)
      simp only [e]
      have hb : off4 m.ns m.ns m.leg.nl z ((m.cr z).getD q default).site 0 0 =
        (z * m.ns + ((m.cr z).getD q default).site) * (m.ns * m.leg.nl) := by rw [off4_split]; simp
      rw [hb, off4_split]
      by_cases h : z' = z ∧ ((m.cr z).getD q default).site = c
      · rw [if_pos h, h.1, h.2, if_pos ⟨by omega, by omega⟩, Nat.add_sub_cancel_left, radix_div hl, radix_mod hl]
      · rw [if_neg h, if_neg]
        rintro ⟨h1, h2⟩
        apply h
        obtain ⟨k, hk⟩ := Nat.exists_eq_add_of_le h1
        have hk' : k < m.ns * m.leg.nl := by omega
        have h3 := (radix2 hkl hk').1 hk
        have h4 := (radix2 hc hsite).1 h3.1
        exact ⟨h4.1, h4.2.symm⟩
    rw [Finset.sum_congr rfl fun q hq => val q (Finset.mem_range.1 hq)]
    by_cases hzz : z' = z
    · subst hzz
      rw [if_pos rfl, estimator_eq, sum_map_range, Finset.sum_comm, Finset.sum_div]
      refine Finset.sum_congr rfl fun q hq => ?_
      have hq := Finset.mem_range.1 hq
      have htime := hm.creTime z' hz _ (getD_in hq)
      by_cases hcc : ((m.cr z').getD q default).site = c
      · rw [if_pos ⟨rfl, hcc⟩, toC_sum, Finset.sum_div]
        refine Finset.sum_congr rfl fun w hw => ?_
        have hw := Finset.mem_range.1 hw
        have hsh := hs _ (getD_in hw)
        have hwr := wrap_eq m hm.beta (t := ((m.cr z').getD q default).time + shifts.getD w default)
          (by linarith) (by linarith)
        unfold term
        rw [if_pos hcc, ← hwr.2, ← hwr.1]
        rw [toC_mul, toC_mul, toC_mul, toC_ofReal, toC_div, one_mul, toC_natCast, hsq l hl]
        unfold legWeight
        rw [show ∀ a b : ℝ, 2 * a * (1 / b) = 2 * a / b from fun a b => by ring]
        split
        · rw [toC_one]; push_cast; ring
        · rw [toC_neg, toC_one]; push_cast; ring
      · rw [if_neg (fun h => hcc h.2)]
        have h0 : ∀ w, m.term G (legWeight m.beta l) z' c B q w = 0 := fun w => by unfold term; rw [if_neg hcc]
        simp [h0]
    · rw [if_neg hzz]
      exact Finset.sum_eq_zero fun q hq => if_neg fun h => hzz h.1

end MeasIn
end CTInt
