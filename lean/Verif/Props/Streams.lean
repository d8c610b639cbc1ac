import Verif.Proofs.StreamPick
import Verif.Props.Manager

/-!
# C62: with probability one the updates return; C32: every selection is equally likely
-/

set_option linter.all false

namespace CTInt

open MeasureTheory Set

variable {K : Type} [RCLike K] [DecidableEq K]

theorem pickEv_uniform {N : ℕ} {L : List ℕ} (hnd : L.Nodup) (hlt : ∀ x ∈ L, x < N) (t l : List ℕ) (hL : L = l ++ t) :
    streams (PickEv N (fun L' => {_u | L' = L}) l t.length) =
      ENNReal.ofReal (1 / ((N - l.length).descFactorial t.length : ℝ)) := by
  induction t generalizing l with
  | nil =>
    rw [List.append_nil] at hL
    subst hL
    rw [List.length_nil, pickEv_zero]
    simp
  | cons x t ih =>
    have hle : L.length ≤ N := by
      have : L.Subperm (List.range N) := List.subperm_of_subset hnd fun k hk => List.mem_range.mpr (hlt k hk)
      simpa using this.length_le
    have hlen : L.length = l.length + (t.length + 1) := by rw [hL]; simp
    have hl : l.length < N := by omega
    have hsub : ∀ y ∈ l, y < N := fun y hy => hlt y (by rw [hL]; simp [hy])
    have hndl : l.Nodup := by rw [hL] at hnd; exact (List.nodup_append.1 hnd).1
    have hx : x ∉ l := by
      rw [hL] at hnd
      intro h
      exact (List.nodup_append.1 hnd).2.2 x h x (by simp) rfl
    have hxN : x < N := hlt x (by rw [hL]; simp)
    rw [List.length_cons, pickEv_step _ hndl hsub hl, Finset.sum_eq_single x]
    · rw [ih (l ++ [x]) (by rw [hL]; simp), ← ENNReal.ofReal_mul (by positivity)]
      congr 1
      rw [List.length_append, List.length_singleton]
      obtain ⟨m, hm⟩ : ∃ m, N - l.length = m + 1 := ⟨N - l.length - 1, by omega⟩
      rw [hm, show N - (l.length + 1) = m by omega, Nat.succ_descFactorial_succ]
      push_cast
      rw [div_mul_div_comm, one_mul]
    · intro k hk hne
      have : PickEv N (fun L' => {_u | L' = L}) (l ++ [k]) t.length = ∅ := by
        ext u
        simp only [mem_empty_iff_false, iff_false]
        rintro ⟨L', p, ⟨F, hF⟩, rfl⟩
        have hpre : ∀ (n p : ℕ) (a : List ℕ) (r : List ℕ × ℕ), pickLoop u N F a n p = .ok r → a <+: r.1 := by
          intro n
          induction n with
          | zero => intro p a r h; unfold pickLoop at h; injection h with h; rw [← h]
          | succ n ih =>
            intro p a r h
            unfold pickLoop at h
            rw [Run.bind_eq_ok] at h
            obtain ⟨⟨y, q⟩, _, h⟩ := h
            exact (List.prefix_append a [y]).trans (ih _ _ _ h)
        have := hpre _ _ _ _ (hF F le_rfl)
        rw [hL] at this
        have h2 : [k] <+: x :: t := (List.prefix_append_right_inj l).1 this
        rw [List.cons_prefix_cons] at h2
        exact hne h2.1
      rw [this]; simp
    · intro h
      exact absurd (Finset.mem_sdiff.2 ⟨Finset.mem_range.2 hxN, fun q => hx (List.mem_toFinset.1 q)⟩) h

/-- **C32.**  `pickup_a_few_numbers` returns every list of `n` different numbers below `N` with the same probability,
    1 / (N (N-1) ... (N-n+1)). -/
theorem C32_uniform {N : ℕ} {L : List ℕ} (hnd : L.Nodup) (hlt : ∀ x ∈ L, x < N) :
    streams {u | ∃ p, Returns (fun fuel => pickNumbers u fuel N L.length 0) (L, p)} =
      ENNReal.ofReal (1 / (N.descFactorial L.length : ℝ)) := by
  rw [← Nat.sub_zero N, ← show ([] : List ℕ).length = 0 from rfl, ← pickEv_uniform (N := N) hnd hlt L [] rfl]
  congr 1
  ext u
  constructor
  · rintro ⟨p, h⟩; exact ⟨L, p, h, rfl⟩
  · rintro ⟨_, p, h, rfl⟩; exact ⟨p, h⟩

/-- Three different numbers below 5. -/
example : streams {u | ∃ p, Returns (fun fuel => pickNumbers u fuel 5 3 0) ([4, 0, 2], p)} = ENNReal.ofReal (1 / 60) := by
  have := C32_uniform (N := 5) (L := [4, 0, 2]) (by simp) (by simp)
  rw [show ((5 : ℕ).descFactorial [4, 0, 2].length : ℝ) = 60 by norm_num [Nat.descFactorial]] at this
  exact this

variable {c : Ctx K}

/-- **C62.**  With probability one, every sequence of updates returns, after finitely many random numbers, and leaves
    an object that is exact; the random numbers are independent and uniform in [0,1). -/
theorem C62_updates_return (ht : TblOK c.NI c.nf c.tbl) (hf : FullTerms c) {beta : ℝ} {kIns maxOrder : ℕ} {sz : ℝ}
    {m : Mgr} (hm : m = Mgr.create beta kIns maxOrder sz c.tbl)
    {vs : List Vert} (hs : GoodStart c.NI c.nf c.G0 c.tbl vs) (st : AccStat) (p : ℕ)
    (J : ℕ → ℕ → ℕ → ℕ → ℕ → ℕ → K) (l : List Upd) :
    ∃ s0, Sub.create c vs = .ok s0 ∧
      ∀ᵐ u ∂streams, ∃ y, Returns (fun fuel => (⟨s0, st, p⟩ : Walker K).run m c J u fuel l) y ∧ ExactFor c y.s := by
  obtain ⟨s0, e0, -⟩ := C53_updates_never_fail (u := fun _ => 0) ht hf hm (fun _ => ⟨le_rfl, one_pos⟩) hs st p J l
  refine ⟨s0, e0, ?_⟩
  filter_upwards [ae_good] with u hu
  obtain ⟨s1, e1, h1, h2⟩ := C53_updates_never_fail ht hf hm hu.2 hs st p J l
  obtain rfl : s0 = s1 := by rw [e0] at e1; injection e1
  obtain ⟨F, y, hF⟩ := h2 hu.1
  refine ⟨y, ⟨F, hF⟩, ?_⟩
  rcases h1 F with q | ⟨y', q, hy⟩
  · rw [hF F le_rfl] at q; cases q
  · rw [hF F le_rfl] at q
    injection q with q
    rw [q]; exact hy

/-- Ten steps with all kinds of updates, starting from the empty configuration, return with probability one. -/
example : ∃ s0, Sub.create exCtx [] = .ok s0 ∧ ∀ᵐ u ∂streams, ∃ y, Returns (fun fuel =>
    (⟨s0, ⟨0, 0⟩, 0⟩ : Walker ℝ).run (Mgr.create 1 3 5 (1 / 10) exCtx.tbl) exCtx (fun _ _ _ _ _ _ => 0) u fuel
      ((List.range 10).flatMap (updateUpdates 2 1 1 4))) y ∧ ExactFor exCtx y.s :=
  C62_updates_return ex_tbl ex_full rfl (empty_goodStart exCtx) ⟨0, 0⟩ 0 _ _

/-- **C62.**  Almost every stream lies in [0,1) and produces every index of every range again and again. -/
theorem C62_fair : ∀ᵐ u ∂streams, (∀ k, 0 ≤ u k ∧ u k < 1) ∧ ∀ N x : ℕ, x < N → ∀ m, ∃ k ≥ m, ⌊u k * (N : ℝ)⌋₊ = x := by
  filter_upwards [ae_good] with u hu using ⟨hu.2, hu.1⟩

end CTInt
