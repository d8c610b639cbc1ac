import Verif.Proofs.SubFinal

/-!
# C11: operators that are not there cannot be removed
-/

set_option linter.all false

namespace CTInt

variable {K : Type} [Field K] [DecidableEq K]

theorem find_missing {G : Gamma K} {p : ℕ} (h : ∀ r ∈ G.info, r.pos ≠ p) : G.find p = .throw .runtimeError := by
  unfold Gamma.find
  rw [List.find?_eq_none.2 fun i hi => ?_]
  have hi' := List.mem_range.1 hi
  rw [List.getD_eq_getElem _ _ hi', decide_eq_true_eq]
  exact h _ (List.getElem_mem hi')

theorem find_total (G : Gamma K) (p : ℕ) : (∃ i, G.find p = .ok i) ∨ G.find p = .throw .runtimeError := by
  unfold Gamma.find
  split
  · exact Or.inl ⟨_, rfl⟩
  · exact Or.inr rfl

/-- C11: a removal of operators one of which is not among the changed ones ends with a runtime error, both alone and together with insertions. -/
theorem C11_missing {NI : K} {G : Gamma K} {ops : List (OpU K)} (h : ∃ o ∈ ops, ∀ r ∈ G.info, r.pos ≠ o.pos) :
    G.tryRemove NI ops = .throw .runtimeError ∧ ∀ (A : InvA K) (ins : List (OpU K)), G.tryAddRemove NI A ins ops = .throw .runtimeError := by
  obtain ⟨o, ho, h⟩ := h
  have e : Res.mapM (fun o : OpU K => G.find o.pos) ops = .throw .runtimeError :=
    mapM_throw (fun o _ => find_total G o.pos) ⟨o, ho, find_missing h⟩
  refine ⟨?_, fun A ins => ?_⟩
  · unfold Gamma.tryRemove
    rw [e]
    rfl
  · unfold Gamma.tryAddRemove
    rw [e]
    rfl

/-- Nothing is changed yet, one operator is to be removed. -/
example (o : OpU ℚ) : (Gamma.empty : Gamma ℚ).tryRemove 1e20 [o] = .throw .runtimeError :=
  (C11_missing ⟨o, List.mem_singleton.2 rfl, fun r hr => absurd hr (List.not_mem_nil)⟩).1

end CTInt
