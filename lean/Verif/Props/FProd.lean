import Verif.Props.Flavor

/-!
# C05: det(1-F)
-/

set_option linter.all false

namespace CTInt

variable {K : Type} [Field K] [DecidableEq K]

/-- C05: `compute_f_prod` returns the number by which det A has to be divided to obtain det(G0 - α). -/
theorem C05_compute_f_prod {NI : K} {G0 : Op → Op → K} {A : InvA K} {n : ℕ} (hA : A.Aligned n) (h : ∀ j < n, GoodAlpha NI (A.al.getD j 0)) :
    ∃ p, A.computeFProd NI = .ok p ∧ p ≠ 0 ∧ detN n (flavorA NI G0 A.an A.cr A.al) / p = detN n (flavorG G0 A.an A.cr A.al) := by
  have hp : ∏ j ∈ Finset.range n, (1 - specF NI (A.al.getD j 0)) ≠ 0 :=
    Finset.prod_ne_zero_iff.mpr fun j hj => one_sub_specF_ne_zero (h j (Finset.mem_range.mp hj))
  refine ⟨_, ?_, hp, ?_⟩
  · unfold InvA.computeFProd
    rw [hA.an, hA.cr, hA.al, Res.assert_true ⟨le_rfl, le_rfl⟩]
    simp only [Res.bind_ok, Res.pure_eq, evalF_eq]
  · rw [det_flavorA (G0 := G0) (an := A.an) (cr := A.cr) h, mul_div_cancel_right₀ _ hp]

/-- Two operator pairs with different α. -/
example : ∃ A : InvA ℚ, A.Aligned 2 ∧ (∀ j < 2, GoodAlpha 7 (A.al.getD j 0)) ∧
    ∃ p, A.computeFProd 7 = .ok p ∧ p ≠ 0 ∧ detN 2 (flavorA 7 (fun _ _ => 1) A.an A.cr A.al) / p = detN 2 (flavorG (fun _ _ => 1) A.an A.cr A.al) := by
  have hA : (⟨⟨0, 0, fun _ _ => 0⟩, ⟨0, 0, fun _ _ => 0⟩, [default, default], [default, default], [2, 3], [⟨0, 0, 5⟩, ⟨0, 1, 6⟩], ⟨0, 0, fun _ _ => 0⟩, [], 0⟩ : InvA ℚ).Aligned 2 :=
    ⟨rfl, rfl, rfl, rfl⟩
  have h : ∀ j < 2, GoodAlpha (7 : ℚ) (([2, 3] : List ℚ).getD j 0) := by
    intro j hj
    interval_cases j <;> norm_num [GoodAlpha]
  exact ⟨_, hA, h, C05_compute_f_prod hA h⟩

end CTInt
