import Verif.Proofs.Bipartite

/-!
# Exchanging the flavors
-/

set_option linter.all false

namespace CTInt

open NormedSpace Matrix

variable {n : Type} [Fintype n] [DecidableEq n] {ns : ℕ} {β U : ℝ} {a : ℕ → ℕ → Matrix n n ℝ} {h : ℕ → ℕ → ℕ → ℝ}

/-- Averages are the same for operators that are exchanged by a symmetry of the Hamiltonian. -/
theorem thermal_symmetry {W W' H X Y : Matrix n n ℝ} (hW : W * W' = 1) (hH : Commute W H) (hX : W * X = Y * W) (β : ℝ) : thermal β H X = thermal β H Y := by
  have hE : Commute W (exp (-β • H)) := by
    open scoped Matrix.Norms.Operator in
    exact (hH.smul_right _).exp_right
  have hW' : W' * W = 1 := _root_.mul_eq_one_comm.1 hW
  have h1 : (W * (exp (-β • H) * X * W')).trace = (exp (-β • H) * X).trace := by rw [trace_mul_comm, mul_assoc, hW', mul_one]
  have h2 : W * (exp (-β • H) * X * W') = exp (-β • H) * Y := by
    rw [mul_assoc (exp (-β • H)), ← mul_assoc, hE.eq, mul_assoc, ← mul_assoc W, hX, mul_assoc, hW, mul_one]
  rw [h2] at h1
  unfold thermal
  simp only [RCLike.ofReal_real_eq_id, id]
  rw [h1]

theorem atTime_symmetry {W H X Y : Matrix n n ℝ} (hH : Commute W H) (hX : W * X = Y * W) (t : ℝ) : W * atTime H t X = atTime H t Y * W := by
  have q1 : Commute W (exp (t • H)) := by
    open scoped Matrix.Norms.Operator in
    exact (hH.smul_right _).exp_right
  have q2 : Commute W (exp (-(t • H))) := by
    open scoped Matrix.Norms.Operator in
    exact ((hH.smul_right _).neg_right).exp_right
  unfold atTime
  simp only [RCLike.ofReal_real_eq_id, id]
  calc W * (exp (t • H) * X * exp (-(t • H))) = W * exp (t • H) * X * exp (-(t • H)) := by simp only [mul_assoc]
    _ = exp (t • H) * (W * X) * exp (-(t • H)) := by rw [q1.eq]; simp only [mul_assoc]
    _ = exp (t • H) * Y * (W * exp (-(t • H))) := by rw [hX]; simp only [mul_assoc]
    _ = _ := by rw [q2.eq]; simp only [mul_assoc]

/-- Exchanges the flavors on one site. -/
noncomputable def swapOne (a : ℕ → ℕ → Matrix n n ℝ) (s : ℕ) : Matrix n n ℝ := 1 - (a 0 s - a 1 s)ᴴ * (a 0 s - a 1 s)

noncomputable def swaps (a : ℕ → ℕ → Matrix n n ℝ) (l : List ℕ) : Matrix n n ℝ := (l.map (swapOne a)).prod

section
variable (ha : Annihilators 2 ns a)
include ha

theorem anti_same {z s z' s' : ℕ} (hz : z < 2) (hs : s < ns) (hz' : z' < 2) (hs' : s' < ns) : a z s * a z' s' = -(a z' s' * a z s) :=
  eq_neg_of_add_eq_zero_left (ha.same z hz s hs z' hz' s' hs')

theorem anti_mixed {z s z' s' : ℕ} (hz : z < 2) (hs : s < ns) (hz' : z' < 2) (hs' : s' < ns) (hne : ¬ (z = z' ∧ s = s')) : (a z s)ᴴ * a z' s' = -(a z' s' * (a z s)ᴴ) := by
  have := ha.mixed z' hz' s' hs' z hz s hs
  rw [if_neg fun q => hne ⟨q.1.symm, q.2.symm⟩] at this
  exact eq_neg_of_add_eq_zero_right this

theorem anti_self {z s : ℕ} (hz : z < 2) (hs : s < ns) : (a z s)ᴴ * a z s = 1 - a z s * (a z s)ᴴ := by
  have := ha.mixed z hz s hs z hz s hs
  rw [if_pos ⟨rfl, rfl⟩] at this
  exact eq_sub_of_add_eq' this

theorem swapOne_facts {s : ℕ} (hs : s < ns) : swapOne a s * swapOne a s = 1 ∧ swapOne a s * a 0 s = a 1 s * swapOne a s ∧ swapOne a s * a 1 s = a 0 s * swapOne a s := by
  have z0 : 0 < 2 := by norm_num
  have z1 : 1 < 2 := by norm_num
  obtain ⟨n0, n0'⟩ := nilpotent ha z0 hs
  obtain ⟨n1, n1'⟩ := nilpotent ha z1 hs
  have e10 := anti_same ha z1 hs z0 hs
  have m01 := anti_mixed ha z0 hs z1 hs (by simp)
  have m10 := anti_mixed ha z1 hs z0 hs (by simp)
  have s0 := anti_self ha z0 hs
  have s1 := anti_self ha z1 hs
  set c := a 0 s - a 1 s with hc
  have c1 : c * c = 0 := by
    rw [hc, mul_sub, sub_mul, sub_mul, n0, n1, e10]
    abel
  have c2 : cᴴ * c = (2 : ℝ) • 1 - c * cᴴ := by
    rw [hc, Matrix.conjTranspose_sub, mul_sub, sub_mul, sub_mul, mul_sub, sub_mul, sub_mul, s0, s1, m01, m10]
    module
  have c3 : cᴴ * a 0 s = 1 - a 0 s * cᴴ := by
    rw [hc, Matrix.conjTranspose_sub, sub_mul, mul_sub, s0, m10]
    abel
  have c4 : c * a 0 s = -(a 0 s * c) := by
    rw [hc, mul_sub, sub_mul, n0, e10]
    abel
  have c5 : c * (cᴴ * c) = (2 : ℝ) • c := by
    rw [c2, mul_sub, ← mul_assoc, c1, zero_mul, sub_zero, mul_smul_comm, mul_one]
  have c6 : cᴴ * c * (cᴴ * c) = (2 : ℝ) • (cᴴ * c) := by rw [mul_assoc, c5, mul_smul_comm]
  have c7 : cᴴ * c * a 0 s = a 0 s * (cᴴ * c) - c := by
    rw [mul_assoc, c4, mul_neg, ← mul_assoc, c3, Matrix.sub_mul, one_mul, mul_assoc, neg_sub]
  have c8 : a 1 s = a 0 s - c := by rw [hc]; abel
  have hS : swapOne a s = 1 - cᴴ * c := rfl
  clear_value c
  have f1 : swapOne a s * swapOne a s = 1 := by
    rw [hS]
    generalize cᴴ * c = D at *
    simp only [sub_mul, mul_sub, one_mul, mul_one, c6]
    module
  have f2 : swapOne a s * a 0 s = a 1 s * swapOne a s := by
    rw [hS, c8]
    generalize cᴴ * c = D at *
    simp only [sub_mul, mul_sub, one_mul, mul_one, c7, c5]
    module
  refine ⟨f1, f2, ?_⟩
  have h3 : swapOne a s * (swapOne a s * a 0 s) * swapOne a s = swapOne a s * (a 1 s * swapOne a s) * swapOne a s := by rw [f2]
  rw [← mul_assoc, f1, one_mul, mul_assoc, mul_assoc (a 1 s), f1, mul_one] at h3
  exact h3.symm

theorem swapOne_other {s z s' : ℕ} (hs : s < ns) (hz : z < 2) (hs' : s' < ns) (hne : s ≠ s') : Commute (swapOne a s) (a z s') := by
  have z0 : 0 < 2 := by norm_num
  have z1 : 1 < 2 := by norm_num
  set c := a 0 s - a 1 s with hc
  have e1 : c * a z s' = -(a z s' * c) := by
    rw [hc, sub_mul, mul_sub, anti_same ha z0 hs hz hs', anti_same ha z1 hs hz hs']
    abel
  have e2 : cᴴ * a z s' = -(a z s' * cᴴ) := by
    rw [hc, Matrix.conjTranspose_sub, sub_mul, mul_sub, anti_mixed ha z0 hs hz hs' fun q => hne q.2, anti_mixed ha z1 hs hz hs' fun q => hne q.2]
    abel
  unfold swapOne
  refine (Commute.one_left _).sub_left ?_
  show _ * _ = _ * _
  rw [← hc, mul_assoc, e1, mul_neg, ← mul_assoc, e2, neg_mul, neg_neg, mul_assoc]

theorem swapOne_adjoint (s : ℕ) : (swapOne a s)ᴴ = swapOne a s := by
  unfold swapOne
  rw [Matrix.conjTranspose_sub, Matrix.conjTranspose_one, Matrix.conjTranspose_mul, Matrix.conjTranspose_conjTranspose]

theorem swaps_facts : ∀ l : List ℕ, (∀ s ∈ l, s < ns) → l.Nodup → (∃ W', swaps a l * W' = 1) ∧
    (∀ z < 2, ∀ s ∈ l, swaps a l * a z s = a (1 - z) s * swaps a l ∧ swaps a l * (a z s)ᴴ = (a (1 - z) s)ᴴ * swaps a l) ∧
    ∀ z < 2, ∀ s < ns, s ∉ l → Commute (swaps a l) (a z s) ∧ Commute (swaps a l) (a z s)ᴴ
  | [], _, _ => ⟨⟨1, by simp [swaps]⟩, by simp, fun z _ s _ _ => by simp [swaps]⟩
  | x :: l, hl, hn => by
    obtain ⟨⟨W', q1⟩, q2, q3⟩ := swaps_facts l (fun s hs => hl s (List.mem_cons_of_mem _ hs)) (List.nodup_cons.1 hn).2
    have hx := hl x List.mem_cons_self
    obtain ⟨f1, f2, f3⟩ := swapOne_facts ha hx
    have hxl := (List.nodup_cons.1 hn).1
    have e : swaps a (x :: l) = swapOne a x * swaps a l := rfl
    have hz : ∀ z < 2, swapOne a x * a z x = a (1 - z) x * swapOne a x := fun z hz => by
      obtain rfl | rfl : z = 0 ∨ z = 1 := by omega
      · exact f2
      · exact f3
    have hz' : ∀ z < 2, swapOne a x * (a z x)ᴴ = (a (1 - z) x)ᴴ * swapOne a x := fun z hz2 => by
      have := congrArg conjTranspose (hz (1 - z) (by omega))
      rw [Matrix.conjTranspose_mul, Matrix.conjTranspose_mul, swapOne_adjoint ha, show 1 - (1 - z) = z by omega] at this
      exact this.symm
    have ho : ∀ z < 2, ∀ s < ns, x ≠ s → Commute (swapOne a x) (a z s) ∧ Commute (swapOne a x) (a z s)ᴴ := fun z hz s hs hne => by
      have h1 := swapOne_other ha hx hz hs hne
      refine ⟨h1, ?_⟩
      have := congrArg conjTranspose h1.eq
      rw [Matrix.conjTranspose_mul, Matrix.conjTranspose_mul, swapOne_adjoint ha] at this
      exact this.symm
    rw [e]
    refine ⟨⟨W' * swapOne a x, ?_⟩, fun z hz2 s hs => ?_, fun z hz2 s hs hsl => ?_⟩
    · rw [mul_assoc, ← mul_assoc (swaps a l), q1, one_mul, f1]
    · by_cases hsx : s = x
      · subst hsx
        obtain ⟨r1, r2⟩ := q3 z hz2 s hx hxl
        constructor
        · rw [mul_assoc, r1.eq, ← mul_assoc, hz z hz2, mul_assoc]
        · rw [mul_assoc, r2.eq, ← mul_assoc, hz' z hz2, mul_assoc]
      · have hs' := (List.mem_cons.1 hs).resolve_left hsx
        obtain ⟨r1, r2⟩ := q2 z hz2 s hs'
        obtain ⟨t1, t2⟩ := ho (1 - z) (by omega) s (hl s hs) (Ne.symm hsx)
        constructor
        · rw [mul_assoc, r1, ← mul_assoc, t1.eq, mul_assoc]
        · rw [mul_assoc, r2, ← mul_assoc, t2.eq, mul_assoc]
    · obtain ⟨r1, r2⟩ := q3 z hz2 s hs fun q => hsl (List.mem_cons_of_mem _ q)
      obtain ⟨t1, t2⟩ := ho z hz2 s hs fun q => hsl (q ▸ List.mem_cons_self)
      exact ⟨t1.mul_left r1, t2.mul_left r2⟩

/-- There is an invertible operator that exchanges the flavors. -/
theorem swaps_exist : ∃ W W' : Matrix n n ℝ, W * W' = 1 ∧ ∀ z < 2, ∀ s < ns, W * a z s = a (1 - z) s * W ∧ W * (a z s)ᴴ = (a (1 - z) s)ᴴ * W := by
  obtain ⟨⟨W', q1⟩, q2, -⟩ := swaps_facts ha (List.range ns) (fun s => List.mem_range.1) List.nodup_range
  exact ⟨_, W', q1, fun z hz s hs => q2 z hz s (List.mem_range.2 hs)⟩

end

theorem swaps_pair {W : Matrix n n ℝ} (hW : ∀ z < 2, ∀ s < ns, W * a z s = a (1 - z) s * W ∧ W * (a z s)ᴴ = (a (1 - z) s)ᴴ * W) {z s s' : ℕ} (hz : z < 2) (hs : s < ns) (hs' : s' < ns) :
    W * ((a z s)ᴴ * a z s') = (a (1 - z) s)ᴴ * a (1 - z) s' * W := by
  rw [← mul_assoc, (hW z hz s hs).2, mul_assoc, (hW z hz s' hs').1, mul_assoc]

theorem swaps_bare {W : Matrix n n ℝ} (hW : ∀ z < 2, ∀ s < ns, W * a z s = a (1 - z) s * W ∧ W * (a z s)ᴴ = (a (1 - z) s)ᴴ * W)
    (hh : ∀ s < ns, ∀ s' < ns, h 0 s s' = h 1 s s') : Commute W (bareH 2 ns h a) := by
  show W * _ = _ * W
  unfold bareH
  rw [Finset.sum_range_succ, Finset.sum_range_one, mul_add, add_mul, add_comm]
  congr 1
  all_goals
    rw [Finset.mul_sum, Finset.sum_mul]
    refine Finset.sum_congr rfl fun s hs => ?_
    rw [Finset.mul_sum, Finset.sum_mul]
    refine Finset.sum_congr rfl fun s' hs' => ?_
    have hs := Finset.mem_range.1 hs
    have hs' := Finset.mem_range.1 hs'
    rw [mul_smul_comm, smul_mul_assoc, swaps_pair hW (by norm_num) hs hs', hh s hs s' hs']

theorem swaps_hubbard (ha : Annihilators 2 ns a) {W : Matrix n n ℝ} (hW : ∀ z < 2, ∀ s < ns, W * a z s = a (1 - z) s * W ∧ W * (a z s)ᴴ = (a (1 - z) s)ᴴ * W) (U : ℝ) :
    Commute W (hubbardV U ns a) := by
  unfold hubbardV
  refine Commute.smul_right (Commute.sum_right _ _ _ fun s hs => ?_) _
  have hs := Finset.mem_range.1 hs
  have e : ∀ z < 2, W * halfOcc a z s = halfOcc a (1 - z) s * W := fun z hz => by
    unfold halfOcc
    rw [mul_sub, sub_mul, swaps_pair hW hz hs hs, mul_smul_comm, smul_mul_assoc, one_mul, mul_one]
  show _ * _ = _ * _
  rw [pairOn_half, ← mul_assoc, e 0 (by norm_num), mul_assoc, e 1 (by norm_num), ← mul_assoc]
  congr 1
  exact (half_commute ha (by norm_num) hs (by norm_num) hs).eq

end CTInt
