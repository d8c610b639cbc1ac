import Verif.Proofs.Minor

/-!
# A configuration that cannot be left
-/

set_option linter.all false

namespace CTInt

open MeasureTheory Set

variable {K : Type} [RCLike K] [DecidableEq K]
variable {c : Ctx K} {beta : ℝ} {M : ℕ}

/-- No vertex alone has weight. -/
def NoSingle (c : Ctx K) (beta : ℝ) : Prop := ∀ v, ValidPts beta c.tbl [v] → wt c [v] = 0

theorem mixOp_nil (h : NoSingle c beta) {F : List Pt → ENNReal} (hF : F [] = 0) : mixOp c beta M F [] = 0 := by
  have hi : insOp c beta M F [] = 0 := by
    unfold insOp
    by_cases hM : M < ([] : List Pt).length + 1
    · rw [if_pos hM]; exact hF
    · rw [if_neg hM, lintegral_congr_ae (g := fun _ => 0)]
      · simp
      · filter_upwards [ae_validPt beta c.tbl] with v hv
        rw [hF, mul_zero, add_zero, List.nil_append, accept_zero (h v (by intro p hp; rw [List.mem_singleton.1 hp]; exact hv))]
        simp
  unfold mixOp
  rw [hi]
  simp [remOp, hF]

theorem pickOp_nil (κ : Pt → Measure Pt) (k : ℕ) (F : List Pt → ENNReal) : pickOp c κ k F [] = F [] := by
  simp [pickOp, pickMean, moveOps]

theorem simRun_nil (hf : FullTerms c) (hT : c.tbl ≠ []) (hG : MeasurableG0 c.G0) (hb : 0 < beta) {kIns : ℕ} {sz : ℝ}
    {m : Mgr} (hm : m = Mgr.create beta kIns M sz c.tbl) (h : NoSingle c beta) (l : List Upd) :
    ∃ A, Samples (simRun m c l) A ∧ ∀ F, Nice F → Nice (A F) ∧ (F [] = 0 → A F [] = 0) := by
  have hs : ∀ d ∈ c.tbl, 0 < d.numAf := fun d hd => (hf d hd).1
  subst hm
  induction l with
  | nil => exact ⟨_, Samples.id, fun F hF => ⟨hF, fun h => h⟩⟩
  | cons up l ih =>
    obtain ⟨A, h1, h2⟩ := ih
    have hB : ∃ B, Samples (simUpd (Mgr.create beta kIns M sz c.tbl) c up) B ∧ ∀ F, Nice F → Nice (B F) ∧ (F [] = 0 → B F [] = 0) := by
      cases up with
      | insRem =>
        obtain ⟨A, h1, h2⟩ := simInsRem_law hb hT hs hG M kIns
        refine ⟨A, h1, fun F hF => ?_⟩
        rw [h2 F hF]
        generalize 2 * kIns = n
        induction n with
        | zero => exact ⟨hF, fun h => h⟩
        | succ n ih =>
          rw [Function.iterate_succ_apply']
          exact ⟨mixOp_nice hG beta M ih.1, fun h0 => mixOp_nil h (ih.2 h0)⟩
      | shift =>
        obtain ⟨A, h1, h2⟩ := simShift_law (c := c) hb (beta * sz) hG kIns
        refine ⟨A, h1, fun F hF => ?_⟩
        rw [h2 F hF]
        exact ⟨pickOp_nice hG (shiftK_rev hb _ c.tbl) kIns hF, fun h0 => by rw [pickOp_nil, h0]⟩
      | spinFlip =>
        exact ⟨_, simSpinFlip_law hG (2 * kIns), fun F hF => ⟨pickOp_nice hG (flipK_rev beta c.tbl) _ hF, fun h0 => by rw [pickOp_nil, h0]⟩⟩
      | recompute => exact ⟨_, Samples.id, fun F hF => ⟨hF, fun h => h⟩⟩
    obtain ⟨B, h3, h4⟩ := hB
    refine ⟨_, h1.comp h3, fun F hF => ?_⟩
    obtain ⟨q1, q2⟩ := h2 F hF
    obtain ⟨r1, r2⟩ := h4 _ q1
    exact ⟨r1, fun h0 => r2 (q2 h0)⟩

end CTInt
