import Verif.Spec.Bipartite
import Verif.Proofs.HubbardAtom

/-!
# Exchanging particles and holes
-/

set_option linter.all false

namespace CTInt

open NormedSpace Matrix

variable {n : Type} [Fintype n] [DecidableEq n] {ns : ℕ} {β U : ℝ} {a : ℕ → ℕ → Matrix n n ℝ} {h : ℕ → ℕ → ℕ → ℝ} {sgn : ℕ → ℝ}

/-- a + σ a†, for a mode given by flavor and site. -/
noncomputable def holeOne (a : ℕ → ℕ → Matrix n n ℝ) (sgn : ℕ → ℝ) (m : ℕ × ℕ) : Matrix n n ℝ := a m.1 m.2 + sgn m.2 • (a m.1 m.2)ᴴ

noncomputable def holes (a : ℕ → ℕ → Matrix n n ℝ) (sgn : ℕ → ℝ) (l : List (ℕ × ℕ)) : Matrix n n ℝ := (l.map (holeOne a sgn)).prod

def ModesOn (ns : ℕ) (l : List (ℕ × ℕ)) : Prop := ∀ m ∈ l, m.1 < 2 ∧ m.2 < ns

theorem holeOne_sq (ha : Annihilators 2 ns a) (hσ : ∀ s, sgn s = 1 ∨ sgn s = -1) {m : ℕ × ℕ} (hm : m.1 < 2 ∧ m.2 < ns) :
    holeOne a sgn m * (sgn m.2 • holeOne a sgn m) = 1 := by
  have h := ha.mixed m.1 hm.1 m.2 hm.2 m.1 hm.1 m.2 hm.2
  rw [if_pos ⟨rfl, rfl⟩] at h
  obtain ⟨h1, h2⟩ := nilpotent ha hm.1 hm.2
  unfold holeOne
  rw [mul_smul_comm, add_mul, mul_add, mul_add, h1, smul_mul_assoc, smul_mul_assoc, mul_smul_comm, mul_smul_comm, h2, smul_zero, smul_zero, zero_add, add_zero, ← smul_add, h, smul_smul]
  rcases hσ m.2 with e | e <;> rw [e] <;> norm_num

theorem holeOne_self (ha : Annihilators 2 ns a) (hσ : ∀ s, sgn s = 1 ∨ sgn s = -1) {m : ℕ × ℕ} (hm : m.1 < 2 ∧ m.2 < ns) :
    holeOne a sgn m * a m.1 m.2 = sgn m.2 • ((a m.1 m.2)ᴴ * holeOne a sgn m) ∧ holeOne a sgn m * (a m.1 m.2)ᴴ = sgn m.2 • (a m.1 m.2 * holeOne a sgn m) := by
  obtain ⟨h1, h2⟩ := nilpotent ha hm.1 hm.2
  unfold holeOne
  constructor
  · rw [add_mul, mul_add, h1, mul_smul_comm, h2, smul_mul_assoc, smul_zero, zero_add, add_zero]
  · rw [add_mul, mul_add, h1, mul_smul_comm, smul_mul_assoc, h2, smul_zero, zero_add, add_zero, smul_smul]
    rcases hσ m.2 with e | e <;> rw [e] <;> norm_num

theorem holeOne_other (ha : Annihilators 2 ns a) {m k : ℕ × ℕ} (hm : m.1 < 2 ∧ m.2 < ns) (hk : k.1 < 2 ∧ k.2 < ns) (hne : m ≠ k) :
    holeOne a sgn m * a k.1 k.2 = -(a k.1 k.2 * holeOne a sgn m) ∧ holeOne a sgn m * (a k.1 k.2)ᴴ = -((a k.1 k.2)ᴴ * holeOne a sgn m) := by
  have hne' : ¬ (m.1 = k.1 ∧ m.2 = k.2) := fun e => hne (Prod.ext e.1 e.2)
  have e1 : a m.1 m.2 * a k.1 k.2 = - (a k.1 k.2 * a m.1 m.2) := eq_neg_of_add_eq_zero_left (ha.same _ hm.1 _ hm.2 _ hk.1 _ hk.2)
  have e2 : a m.1 m.2 * (a k.1 k.2)ᴴ = - ((a k.1 k.2)ᴴ * a m.1 m.2) := by
    have := ha.mixed _ hm.1 _ hm.2 _ hk.1 _ hk.2
    rw [if_neg hne'] at this
    exact eq_neg_of_add_eq_zero_left this
  have e3 : (a m.1 m.2)ᴴ * a k.1 k.2 = - (a k.1 k.2 * (a m.1 m.2)ᴴ) := by
    have := ha.mixed _ hk.1 _ hk.2 _ hm.1 _ hm.2
    rw [if_neg fun q => hne' ⟨q.1.symm, q.2.symm⟩] at this
    exact eq_neg_of_add_eq_zero_right this
  have e4 : (a m.1 m.2)ᴴ * (a k.1 k.2)ᴴ = - ((a k.1 k.2)ᴴ * (a m.1 m.2)ᴴ) := by
    have := congrArg conjTranspose (ha.same _ hk.1 _ hk.2 _ hm.1 _ hm.2)
    rw [Matrix.conjTranspose_add, Matrix.conjTranspose_mul, Matrix.conjTranspose_mul, Matrix.conjTranspose_zero] at this
    exact eq_neg_of_add_eq_zero_left this
  unfold holeOne
  constructor
  · rw [add_mul, mul_add, e1, smul_mul_assoc, e3, mul_smul_comm]
    module
  · rw [add_mul, mul_add, e2, smul_mul_assoc, e4, mul_smul_comm]
    module

theorem holes_inv (ha : Annihilators 2 ns a) (hσ : ∀ s, sgn s = 1 ∨ sgn s = -1) : ∀ l : List (ℕ × ℕ), ModesOn ns l → ∃ K', holes a sgn l * K' = 1
  | [], _ => ⟨1, by simp [holes]⟩
  | m :: l, hl => by
    obtain ⟨K', hK⟩ := holes_inv ha hσ l fun m hm => hl m (List.mem_cons_of_mem _ hm)
    refine ⟨K' * (sgn m.2 • holeOne a sgn m), ?_⟩
    rw [show holes a sgn (m :: l) = holeOne a sgn m * holes a sgn l from rfl, mul_assoc, ← mul_assoc (holes a sgn l), hK, one_mul, holeOne_sq ha hσ (hl m List.mem_cons_self)]

theorem holes_out (ha : Annihilators 2 ns a) {k : ℕ × ℕ} (hk : k.1 < 2 ∧ k.2 < ns) : ∀ l : List (ℕ × ℕ), ModesOn ns l → k ∉ l →
    holes a sgn l * a k.1 k.2 = ((-1 : ℝ) ^ l.length) • (a k.1 k.2 * holes a sgn l) ∧ holes a sgn l * (a k.1 k.2)ᴴ = ((-1 : ℝ) ^ l.length) • ((a k.1 k.2)ᴴ * holes a sgn l)
  | [], _, _ => by simp [holes]
  | m :: l, hl, hkl => by
    obtain ⟨q1, q2⟩ := holes_out ha hk l (fun m hm => hl m (List.mem_cons_of_mem _ hm)) fun e => hkl (List.mem_cons_of_mem _ e)
    obtain ⟨r1, r2⟩ := holeOne_other (sgn := sgn) ha (hl m List.mem_cons_self) hk fun e => hkl (e ▸ List.mem_cons_self)
    rw [show holes a sgn (m :: l) = holeOne a sgn m * holes a sgn l from rfl]
    constructor
    · rw [mul_assoc, q1, mul_smul_comm, ← mul_assoc, r1, Matrix.neg_mul, mul_assoc (_ : Matrix n n ℝ), List.length_cons, pow_succ]
      module
    · rw [mul_assoc, q2, mul_smul_comm, ← mul_assoc, r2, Matrix.neg_mul, mul_assoc (_ : Matrix n n ℝ), List.length_cons, pow_succ]
      module

theorem holes_in (ha : Annihilators 2 ns a) (hσ : ∀ s, sgn s = 1 ∨ sgn s = -1) {k : ℕ × ℕ} : ∀ l : List (ℕ × ℕ), ModesOn ns l → l.Nodup → k ∈ l →
    holes a sgn l * a k.1 k.2 = (-(-1 : ℝ) ^ l.length * sgn k.2) • ((a k.1 k.2)ᴴ * holes a sgn l) ∧
    holes a sgn l * (a k.1 k.2)ᴴ = (-(-1 : ℝ) ^ l.length * sgn k.2) • (a k.1 k.2 * holes a sgn l)
  | [], _, _, hk => by simp at hk
  | m :: l, hl, hn, hk => by
    have hl' : ModesOn ns l := fun m hm => hl m (List.mem_cons_of_mem _ hm)
    rw [show holes a sgn (m :: l) = holeOne a sgn m * holes a sgn l from rfl]
    by_cases e : k = m
    · subst e
      obtain ⟨q1, q2⟩ := holes_out (sgn := sgn) ha (hl k hk) l hl' (List.nodup_cons.1 hn).1
      obtain ⟨r1, r2⟩ := holeOne_self ha hσ (hl k hk)
      constructor
      · rw [mul_assoc, q1, mul_smul_comm, ← mul_assoc, r1, smul_mul_assoc, mul_assoc, List.length_cons, pow_succ]
        module
      · rw [mul_assoc, q2, mul_smul_comm, ← mul_assoc, r2, smul_mul_assoc, mul_assoc, List.length_cons, pow_succ]
        module
    · have hk' : k ∈ l := (List.mem_cons.1 hk).resolve_left e
      obtain ⟨q1, q2⟩ := holes_in ha hσ l hl' (List.nodup_cons.1 hn).2 hk'
      obtain ⟨r1, r2⟩ := holeOne_other (sgn := sgn) ha (hl m List.mem_cons_self) (hl k hk) (Ne.symm e)
      constructor
      · rw [mul_assoc, q1, mul_smul_comm, ← mul_assoc, r2, Matrix.neg_mul, mul_assoc (_ : Matrix n n ℝ), List.length_cons, pow_succ]
        module
      · rw [mul_assoc, q2, mul_smul_comm, ← mul_assoc, r1, Matrix.neg_mul, mul_assoc (_ : Matrix n n ℝ), List.length_cons, pow_succ]
        module

/-- There is an invertible operator that exchanges annihilators and creators, with the signs of the sublattices. -/
theorem holes_exist (ha : Annihilators 2 ns a) (hσ : ∀ s, sgn s = 1 ∨ sgn s = -1) : ∃ (W W' : Matrix n n ℝ) (c : ℝ), W * W' = 1 ∧ c * c = 1 ∧
    ∀ z < 2, ∀ s < ns, W * a z s = (c * sgn s) • ((a z s)ᴴ * W) ∧ W * (a z s)ᴴ = (c * sgn s) • (a z s * W) := by
  set l := (List.range 2).product (List.range ns) with hl
  have hm : ∀ m : ℕ × ℕ, m ∈ l ↔ m.1 < 2 ∧ m.2 < ns := fun m => by
    obtain ⟨z, s⟩ := m
    rw [hl, List.pair_mem_product, List.mem_range, List.mem_range]
  have hn : l.Nodup := List.Nodup.product List.nodup_range List.nodup_range
  obtain ⟨K', hK⟩ := holes_inv ha hσ l fun m => (hm m).1
  refine ⟨holes a sgn l, K', -(-1) ^ l.length, hK, ?_, fun z hz s hs => holes_in ha hσ (k := (z, s)) l (fun m => (hm m).1) hn ((hm (z, s)).2 ⟨hz, hs⟩)⟩
  rw [neg_mul_neg, ← mul_pow]
  norm_num

theorem holes_pair {W : Matrix n n ℝ} {c : ℝ} (hc : c * c = 1)
    (hW : ∀ z < 2, ∀ s < ns, W * a z s = (c * sgn s) • ((a z s)ᴴ * W) ∧ W * (a z s)ᴴ = (c * sgn s) • (a z s * W)) {z s s' : ℕ} (hz : z < 2) (hs : s < ns) (hs' : s' < ns) :
    W * ((a z s)ᴴ * a z s') = (sgn s * sgn s') • (a z s * (a z s')ᴴ * W) := by
  rw [← mul_assoc, (hW z hz s hs).2, smul_mul_assoc, mul_assoc, (hW z hz s' hs').1, mul_smul_comm, smul_smul, mul_assoc (a z s)]
  congr 1
  linear_combination sgn s * sgn s' * hc

theorem sgn_sq (hσ : ∀ s, sgn s = 1 ∨ sgn s = -1) (s : ℕ) : sgn s * sgn s = 1 := by rcases hσ s with e | e <;> rw [e] <;> norm_num

theorem holes_half (ha : Annihilators 2 ns a) (hσ : ∀ s, sgn s = 1 ∨ sgn s = -1) {W : Matrix n n ℝ} {c : ℝ} (hc : c * c = 1)
    (hW : ∀ z < 2, ∀ s < ns, W * a z s = (c * sgn s) • ((a z s)ᴴ * W) ∧ W * (a z s)ᴴ = (c * sgn s) • (a z s * W)) {z s : ℕ} (hz : z < 2) (hs : s < ns) :
    W * halfOcc a z s = -(halfOcc a z s * W) := by
  have h := ha.mixed z hz s hs z hz s hs
  rw [if_pos ⟨rfl, rfl⟩] at h
  unfold halfOcc
  rw [mul_sub, holes_pair hc hW hz hs hs, sgn_sq hσ, one_smul, eq_sub_of_add_eq h, sub_mul, sub_mul, mul_smul_comm, smul_mul_assoc, one_mul, mul_one]
  module

/-- The Hubbard model on a bipartite lattice is invariant. -/
theorem holes_commute (ha : Annihilators 2 ns a) (hh : HermitianHops 2 ns h) (hb : BipartiteHops ns sgn h) {W : Matrix n n ℝ} {c : ℝ} (hc : c * c = 1)
    (hW : ∀ z < 2, ∀ s < ns, W * a z s = (c * sgn s) • ((a z s)ᴴ * W) ∧ W * (a z s)ᴴ = (c * sgn s) • (a z s * W)) (U : ℝ) :
    Commute W (bareH 2 ns h a + hubbardV U ns a) := by
  refine Commute.add_right ?_ ?_
  · show W * _ = _ * W
    unfold bareH
    rw [Finset.mul_sum, Finset.sum_mul]
    refine Finset.sum_congr rfl fun z hz => ?_
    have hz := Finset.mem_range.1 hz
    simp only [Finset.mul_sum, Finset.sum_mul]
    rw [Finset.sum_comm]
    refine Finset.sum_congr rfl fun s' hs' => Finset.sum_congr rfl fun s hs => ?_
    have hs := Finset.mem_range.1 hs
    have hs' := Finset.mem_range.1 hs'
    rw [mul_smul_comm, smul_mul_assoc, holes_pair hc hW hz hs hs', ← show h z s s' = h z s' s from hh z hz s hs s' hs']
    by_cases e : sgn s = sgn s'
    · rw [hb.2 z hz s hs s' hs' e, zero_smul, zero_smul]
    · have hne : ¬ (z = z ∧ s = s') := fun q => e (q.2 ▸ rfl)
      have q := ha.mixed z hz s hs z hz s' hs'
      rw [if_neg hne] at q
      rw [eq_neg_of_add_eq_zero_left q, show sgn s * sgn s' = -1 by
        rcases hb.1 s with e1 | e1 <;> rcases hb.1 s' with e2 | e2
        · exact absurd (e1.trans e2.symm) e
        · rw [e1, e2]; norm_num
        · rw [e1, e2]; norm_num
        · exact absurd (e1.trans e2.symm) e]
      rw [neg_mul]
      module
  · unfold hubbardV
    refine Commute.smul_right (Commute.sum_right _ _ _ fun s hs => ?_) _
    have hs := Finset.mem_range.1 hs
    show _ * _ = _ * _
    rw [pairOn_half, ← mul_assoc, holes_half ha hb.1 hc hW (by norm_num) hs, neg_mul, mul_assoc, holes_half ha hb.1 hc hW (by norm_num) hs, mul_neg, neg_neg, mul_assoc]

theorem bipartite_half (ha : Annihilators 2 ns a) (hh : HermitianHops 2 ns h) (hb : BipartiteHops ns sgn h) {z s : ℕ} (hz : z < 2) (hs : s < ns) (β U : ℝ) :
    thermal β (bareH 2 ns h a + hubbardV U ns a) (halfOcc a z s) = 0 := by
  obtain ⟨W, W', c, h1, hc, hW⟩ := holes_exist ha hb.1
  exact flip_thermal h1 (holes_commute ha hh hb hc hW U) (holes_half ha hb.1 hc hW hz hs) β

end CTInt
