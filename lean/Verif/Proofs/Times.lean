import Verif.Spec.Observables
import Verif.Props.Manager

/-!
# The updates keep all times in [0,β]
-/

set_option linter.all false

namespace CTInt

variable {K : Type} [RCLike K] [DecidableEq K]
variable {c : Ctx K}

theorem TimesIn.flipAll {β : ℝ} {vs : List Vert} (h : TimesIn β vs) (ps : List (ℕ × ℤ)) : TimesIn β (flipAll vs ps) := by
  induction ps generalizing vs with
  | nil => exact h
  | cons x ps ih =>
    obtain ⟨i, z⟩ := x
    refine ih ?_
    intro v hv
    obtain ⟨j, hj, rfl⟩ := List.getElem_of_mem hv
    rw [List.getElem_modify]
    rw [List.length_modify] at hj
    split
    · unfold flipTo
      split <;> exact h vs[j] (List.getElem_mem hj)
    · exact h _ (List.getElem_mem hj)

theorem metropolis_times {β : ℝ} {s s' : Sub K} {junk : ℕ → ℕ → ℕ → K} {pos : List ℕ} {spins : List ℤ} {corr r : ℝ}
    {o : Option K} {w : K} (e : metropolis c junk s pos spins corr r = .ok (s', o, w)) (h : TimesIn β s.verts) :
    TimesIn β s'.verts := by
  rw [(metropolis_verts e).1]
  split
  · exact h.flipAll _
  · exact h

theorem insRemTurn_times {β : ℝ} {m : Mgr} {J : ℕ → ℕ → ℕ → ℕ → ℕ → K} {u : ℕ → ℝ} {Us : ℝ} {posIns numIns : List ℕ}
    {tryIns : List Bool} {x x' : Mgr.InsRem K} {i : ℕ}
    (e : m.insRemTurn c J u Us posIns numIns tryIns x i = .ok x') (h : TimesIn β x.s.verts) : TimesIn β x'.s.verts := by
  unfold Mgr.insRemTurn at e
  rw [Res.bind_eq_ok] at e
  obtain ⟨b, _, e⟩ := e
  rw [Res.bind_eq_ok] at e
  obtain ⟨⟨s, o, p, ins⟩, e1, e⟩ := e
  cases e
  show TimesIn β s.verts
  cases b with
  | true =>
    rw [if_pos rfl] at e1
    rw [Res.bind_eq_ok] at e1
    obtain ⟨q, _, e1⟩ := e1
    rw [Res.bind_eq_ok] at e1
    obtain ⟨n, _, e1⟩ := e1
    split at e1
    · cases e1; exact h
    · rw [Res.bind_eq_ok] at e1
      obtain ⟨⟨s1, o1, p1⟩, e2, e1⟩ := e1
      cases e1
      unfold Mgr.insertionStep at e2
      rw [Res.bind_eq_ok] at e2
      obtain ⟨_, hlen, e2⟩ := e2
      split at e2
      · cases e2; exact h
      · simp only [Res.bind_eq_ok] at e2
        obtain ⟨_, _, corr, _, ⟨s1, o1, w1⟩, e3, e2⟩ := e2
        cases e2
        exact metropolis_times e3 h
  | false =>
    rw [if_neg (by simp), Res.bind_eq_ok] at e1
    obtain ⟨⟨s1, o1, p1⟩, e2, e1⟩ := e1
    cases e1
    unfold Mgr.removalStep at e2
    rw [Res.bind_eq_ok] at e2
    obtain ⟨⟨i, corr, p1⟩, _, e2⟩ := e2
    cases i with
    | none => cases e2; exact h
    | some i =>
      simp only [Res.bind_eq_ok] at e2
      obtain ⟨_, _, ⟨s1, o1, w1⟩, e3, e2⟩ := e2
      cases e2
      exact metropolis_times e3 h

theorem genAll_times {m : Mgr} (hb : 0 < m.beta) {tbl : List (VDef K)} {u : ℕ → ℝ} (hu : ∀ k, 0 ≤ u k ∧ u k < 1)
    {Nv0 n p : ℕ} {g : Mgr.GenAll} (e : m.genAll tbl u Nv0 n p = .ok g) : TimesIn m.beta g.new := by
  unfold Mgr.genAll at e
  have : ∀ (l : List ℕ) (x : Mgr.GenAll), TimesIn m.beta x.new → Res.foldl (fun (x : Mgr.GenAll) (_ : ℕ) => do
      let (vs, p) ← m.genVertex tbl u x.p
      pure (⟨x.new ++ vs, x.pos ++ [x.b], x.num ++ [vs.length], x.b + vs.length, p⟩ : Mgr.GenAll)) x l = .ok g →
      TimesIn m.beta g.new := by
    intro l
    induction l with
    | nil => intro x hx e; cases e; exact hx
    | cons i l ih =>
      intro x hx e
      rw [Res.foldl_cons, Res.bind_eq_ok] at e
      obtain ⟨x1, e1, e2⟩ := e
      refine ih x1 ?_ e2
      rw [Res.bind_eq_ok] at e1
      obtain ⟨⟨vs, p⟩, e3, e1⟩ := e1
      cases e1
      intro v hv
      rcases List.mem_append.mp hv with hv1 | hv1
      · exact hx v hv1
      · unfold Mgr.genVertex at e3
        split at e3
        · cases e3; cases hv1
        · simp only [Res.bind_eq_ok] at e3
          obtain ⟨t, _, d, _, e3⟩ := e3
          cases e3
          rw [List.mem_singleton] at hv1
          subst hv1
          obtain ⟨h0, h1⟩ := hu x.p
          exact ⟨mul_nonneg h0 hb.le, by nlinarith⟩
  exact this _ _ (by intro v hv; cases hv) e

theorem fresh_times {β : ℝ} {k : ℕ} {vs : List Vert} (h : TimesIn β vs) : TimesIn β (fresh k vs) := by
  induction vs generalizing k with
  | nil => exact h
  | cons v vs ih =>
    intro w hw
    rw [fresh, List.mem_cons] at hw
    rcases hw with rfl | hw
    · exact h v (by simp)
    · exact ih (fun w hw => h w (List.mem_cons_of_mem _ hw)) w hw

theorem numbered_times {β : ℝ} {k : ℕ} {vs : List Vert} (h : TimesIn β vs) : TimesIn β (numbered k vs) := by
  induction vs generalizing k with
  | nil => exact h
  | cons v vs ih =>
    intro w hw
    rw [numbered, List.mem_cons] at hw
    rcases hw with rfl | hw
    · exact h v (by simp)
    · exact ih (fun w hw => h w (List.mem_cons_of_mem _ hw)) w hw

theorem doInsRem_times {m : Mgr} (hb : 0 < m.beta) {J : ℕ → ℕ → ℕ → ℕ → ℕ → K} {u : ℕ → ℝ} (hu : ∀ k, 0 ≤ u k ∧ u k < 1)
    {Us : ℝ} {s : Sub K} {st : AccStat} {p : ℕ} {x : Mgr.InsRem K} (e : m.doInsRem c J u Us s st p = .ok x)
    (h : TimesIn m.beta s.verts) : TimesIn m.beta x.s.verts := by
  unfold Mgr.doInsRem at e
  simp only [Res.bind_eq_ok] at e
  obtain ⟨g, eg, s1, e1, y, e2, _, _, s2, e3, e⟩ := e
  cases e
  obtain ⟨a1, a2, a3⟩ := initUpdate_verts e1
  have h1 : TimesIn m.beta s1.verts := by
    rw [a1]
    intro v hv
    rcases List.mem_append.mp hv with hv | hv
    · exact h v hv
    · exact fresh_times (genAll_times hb hu eg) v hv
  have h2 : TimesIn m.beta y.s.verts :=
    insRem_fold (P := fun x => TimesIn m.beta x.s.verts) (fun x x' i hx ex => insRemTurn_times ex hx) e2 h1
  show TimesIn m.beta s2.verts
  rw [(finalizeUpdate_verts e3).1]
  exact fun v hv => h2 v (List.mem_filter.mp hv).1

theorem step_times {m : Mgr} {J : ℕ → ℕ → ℕ → ℕ → ℕ → K} {u : ℕ → ℝ} (hu : ∀ k, 0 ≤ u k ∧ u k < 1) (hb : 0 < m.beta)
    (hs : 0 ≤ m.shiftStep) {fuel : ℕ} {x x' : Walker K} {a : Upd} (e : x.step m c J u fuel a = .ok x')
    (h : FieldsOK x.s.verts ∧ TimesIn m.beta x.s.verts) : FieldsOK x'.s.verts ∧ TimesIn m.beta x'.s.verts := by
  cases a with
  | insRem =>
    simp only [Walker.step, Run.bind_eq_ok, Run.lift_eq_ok] at e
    obtain ⟨r, e1, e⟩ := e
    cases e
    exact ⟨doInsRem_fields e1 h.1, doInsRem_times hb hu e1 h.2⟩
  | shift =>
    simp only [Walker.step, Run.bind_eq_ok, Run.lift_eq_ok] at e
    obtain ⟨⟨s', w, p⟩, e1, e⟩ := e
    cases e
    obtain ⟨⟨L, h1, h2⟩, _⟩ := doShift_verts hu hb hs h.1 e1
    have key : ∀ v ∈ s'.verts, 0 ≤ v.af ∧ 0 ≤ v.time ∧ v.time ≤ m.beta := by
      intro v hv
      have hv : v ∈ L := h2.mem_iff.mp hv
      obtain ⟨i, hi, rfl⟩ := List.getElem_of_mem hv
      have hi' : i < x.s.verts.length := by rw [h1.length_eq]; exact hi
      have h3 := h1.get hi' hi
      simp only [List.get_eq_getElem] at h3
      have h4 := h.1 _ (List.getElem_mem hi')
      rcases h3 with h3 | ⟨t, k, id, h3, h5, h6, _⟩
      · rw [h3]; exact ⟨h4, h.2 _ (List.getElem_mem hi')⟩
      · rw [h3]; exact ⟨h4, h5, h6⟩
    exact ⟨fun v hv => (key v hv).1, fun v hv => (key v hv).2⟩
  | spinFlip =>
    simp only [Walker.step, Run.bind_eq_ok, Run.lift_eq_ok] at e
    obtain ⟨⟨s', w, p⟩, e1, e⟩ := e
    cases e
    obtain ⟨h1, _⟩ := doSpinFlip_verts hu e1
    have key : ∀ v ∈ s'.verts, 0 ≤ v.af ∧ 0 ≤ v.time ∧ v.time ≤ m.beta := by
      intro v hv
      obtain ⟨i, hi, rfl⟩ := List.getElem_of_mem hv
      have hi' : i < x.s.verts.length := by rw [h1.length_eq]; exact hi
      obtain ⟨z, h3, h5⟩ := h1.get hi' hi
      simp only [List.get_eq_getElem] at h3 h5
      have h4 := h.1 _ (List.getElem_mem hi')
      have h6 := h.2 _ (List.getElem_mem hi')
      rw [h3]
      refine ⟨?_, h6⟩
      show 0 ≤ z
      rcases h5 with h5 | h5
      · rw [h5]; exact h4
      · exact h5.1
    exact ⟨fun v hv => (key v hv).1, fun v hv => (key v hv).2⟩
  | recompute =>
    simp only [Walker.step, Run.bind_eq_ok, Run.lift_eq_ok] at e
    obtain ⟨s', e1, e⟩ := e
    cases e
    show FieldsOK s'.verts ∧ TimesIn m.beta s'.verts
    rw [recompute_verts e1]; exact h

theorem run_times {m : Mgr} {J : ℕ → ℕ → ℕ → ℕ → ℕ → ℕ → K} {u : ℕ → ℝ} (hu : ∀ k, 0 ≤ u k ∧ u k < 1)
    (hb : 0 < m.beta) (hs : 0 ≤ m.shiftStep) {fuel : ℕ} {x x' : Walker K} {l : List Upd}
    (e : x.run m c J u fuel l = .ok x') (h : FieldsOK x.s.verts ∧ TimesIn m.beta x.s.verts) :
    TimesIn m.beta x'.s.verts := by
  induction l generalizing x with
  | nil => cases e; exact h.2
  | cons a l ih =>
    simp only [Walker.run, Run.bind_eq_ok] at e
    obtain ⟨x1, e1, e2⟩ := e
    exact ih e2 (step_times hu hb hs e1 h)

end CTInt
