import Verif.Proofs.UMatrix
import Verif.Spec.GreenText

/-!
# The reader of words does what the reader of lines does
-/

set_option linter.all false

namespace CTInt

variable {K : Type} [RCLike K]

/-- Two outcomes of the same kind, with related values. -/
def Res.Sim {α β : Type} (R : α → β → Prop) : Res α → Res β → Prop
  | .ok a, .ok b => R a b
  | .throw e, .throw e' => e = e'
  | .ub, .ub => True
  | _, _ => False

theorem Res.Sim.bind {α β γ δ : Type} {R : α → β → Prop} {S : γ → δ → Prop} {x : Res α} {y : Res β} {f : α → Res γ}
    {g : β → Res δ} (h : Res.Sim R x y) (hf : ∀ a b, R a b → Res.Sim S (f a) (g b)) : Res.Sim S (x >>= f) (y >>= g) := by
  cases x <;> cases y <;> simp_all [Res.Sim]

theorem Res.Sim.same {α γ δ : Type} {S : γ → δ → Prop} (x : Res α) {f : α → Res γ} {g : α → Res δ}
    (hf : ∀ a, Res.Sim S (f a) (g a)) : Res.Sim S (x >>= f) (x >>= g) := by
  cases x <;> simp_all [Res.Sim]

theorem Res.Sim.fold {ι α β : Type} {R : ℕ → α → β → Prop} {c : ℕ} {f : α → ι → Res α} {g : β → ι → Res β}
    (h : ∀ a st st' i, R (a + c) st st' → Res.Sim (R a) (f st i) (g st' i)) (l : List ι) (a : ℕ) (st : α) (st' : β)
    (hr : R (a + l.length * c) st st') : Res.Sim (R a) (Res.foldl f st l) (Res.foldl g st' l) := by
  induction l generalizing st st' with
  | nil => simpa [Res.Sim] using hr
  | cons i l ih =>
    rw [Res.foldl_cons, Res.foldl_cons]
    refine Res.Sim.bind (h (a + l.length * c) st st' i ?_) fun x y hxy => ih x y hxy
    rw [List.length_cons, Nat.succ_mul, ← Nat.add_assoc] at hr
    exact hr

theorem Res.Sim.eq {α : Type} {x y : Res α} (h : Res.Sim (fun a b => a = b) x y) : x = y := by
  cases x <;> cases y <;> simp_all [Res.Sim]

/-- The variables after the line `r` has been read. -/
def GVars.of (r : GRow) : GVars := ⟨some r.f, some r.i, some r.j, some r.t, some r.re, some r.im⟩

/-- The values of the variables. -/
noncomputable def GVars.row (v : GVars) : GRow :=
  ⟨v.f.getD 0, v.i.getD 0, v.j.getD 0, v.t.getD 0, v.re.getD 0, v.im.getD 0⟩

@[simp] theorem GVars.of_row (r : GRow) : (GVars.of r).row = r := rfl

theorem into_some {α : Type} (zero : α) (rd : Tok → Option α) (s : TokS) (a : α) :
    ∃ b s', Tok.into zero rd s (some a) = (some b, s') := by
  unfold Tok.into
  split
  · split <;> exact ⟨_, _, rfl⟩
  · exact ⟨_, _, rfl⟩

theorem next_of (r : GRow) (s : TokS) : ∃ r' s', (GVars.of r).next s = (GVars.of r', s') := by
  obtain ⟨f, s1, e1⟩ := into_some 0 Tok.asInt s r.f
  obtain ⟨i, s2, e2⟩ := into_some 0 Tok.asInt s1 r.i
  obtain ⟨j, s3, e3⟩ := into_some 0 Tok.asInt s2 r.j
  obtain ⟨t, s4, e4⟩ := into_some 0 Tok.asInt s3 r.t
  obtain ⟨x, s5, e5⟩ := into_some 0 Tok.asDbl s4 r.re
  obtain ⟨y, s6, e6⟩ := into_some 0 Tok.asDbl s5 r.im
  exact ⟨⟨f, i, j, t, x, y⟩, s6, by simp [GVars.next, GVars.of, e1, e2, e3, e4, e5, e6]⟩

/-- The values the variables take in the next `m` passes. -/
noncomputable def seen : ℕ → GVars → TokS → List GRow
  | 0, _, _ => []
  | m + 1, v, s => (v.next s).1.row :: seen m (v.next s).1 (v.next s).2

/-- The reader of words is where the reader of lines is that is given the values of the variables as lines. -/
def SameSoFar (extra : List GRow) (m : ℕ) (st : GReadT K) (st' : GRead K) : Prop :=
  st'.rest = seen m st.v st.s ++ extra ∧ st'.data = st.data ∧ st'.co = st.co ∧ ∃ r, (st.v.next st.s).1 = GVars.of r

theorem readLine_sim (extra : List GRow) (first : Bool) (f s1 s2 t a : ℕ) (st : GReadT K) (st' : GRead K)
    (h : SameSoFar extra (a + 1) st st') :
    Res.Sim (SameSoFar extra a) (Green.readLineT f s1 s2 st t) (Green.readLine first f s1 s2 st' t) := by
  obtain ⟨h1, h2, h3, r, h4⟩ := h
  obtain ⟨s', e⟩ : ∃ s', st.v.next st.s = (GVars.of r, s') := ⟨(st.v.next st.s).2, by rw [← h4]⟩
  rw [seen, e] at h1
  obtain ⟨rest, data, co⟩ := st'
  simp only [List.cons_append, GVars.of_row] at h1
  subst h1
  simp only at h2 h3
  subst h2 h3
  unfold Green.readLineT Green.readLine
  simp only [e, GVars.of, Res.val, Res.bind_ok]
  refine Res.Sim.same _ fun _ => Res.Sim.same _ fun _ => Res.Sim.same _ fun _ => Res.Sim.same _ fun _ => ?_
  obtain ⟨r', s'', e'⟩ := next_of r s'
  exact ⟨rfl, rfl, rfl, r', congrArg Prod.fst e'⟩

theorem readPair_sim (extra : List GRow) (ntau : ℕ) (beta : ℝ) (f s1 s2 a : ℕ) (st : GReadT K) (st' : GRead K)
    (h : SameSoFar extra (a + ntau) st st') :
    Res.Sim (SameSoFar extra a) (Green.readPairT ntau beta f s1 st s2) (Green.readPair ntau beta f s1 st' s2) := by
  unfold Green.readPairT Green.readPair
  refine Res.Sim.bind (R := SameSoFar extra a)
    (Res.Sim.fold (R := SameSoFar extra) (c := 1) (fun a st st' t hh => readLine_sim extra _ f s1 s2 t a st st' hh) _ a st st'
      (by simpa using h)) fun x y hxy => ?_
  obtain ⟨h1, h2, h3, r, h4⟩ := hxy
  rw [h2]
  refine Res.Sim.same _ fun re => Res.Sim.same _ fun im => ?_
  refine Res.Sim.fold (R := fun (m : ℕ) => SameSoFar extra a) (c := 0) (fun _ u w t hh => ?_) _ 0 x y ⟨h1, h2, h3, r, h4⟩
  refine Res.Sim.fold (R := fun (m : ℕ) => SameSoFar extra a) (c := 0) (fun _ u w p hh => ?_) _ 0 u w hh
  refine Res.Sim.same _ fun cx => Res.Sim.same _ fun cy => ?_
  obtain ⟨k1, k2, k3, r, k4⟩ := hh
  exact ⟨k1, k2, by simp only [k3], r, k4⟩

/-- Whatever the words are, the reader does what the reader of lines does with the values of the variables as lines,
    if the first line gives all of them a value. -/
theorem readText_eq (file : GFile) {h : List Tok} (hh : file.WritesHead h) (body : List Tok) (β : ℝ) (F S : ℕ)
    (extra : List GRow)
    (hf : ∃ r, (GVars.unset.next (some body)).1 = GVars.of r) :
    (Green.readText (some (h ++ body)) β F S : Res (Green K)) =
      Green.read (some ⟨file.nf, file.ns, file.ntau, file.beta,
        seen (F * (S * (S * file.ntau.toNat))) GVars.unset (some body) ++ extra⟩) β F S := by
  obtain ⟨b, rfl, hb, hc⟩ := hh
  have hd : Tok.into 0 Tok.asDbl (some (b :: body)) none = (some file.beta, some body) := by
    rcases hb with ⟨n, rfl, e⟩ | ⟨y, rfl, e⟩ | e
    · have : file.beta = n := by exact_mod_cast e
      simp [Tok.into, Tok.asDbl, this]
    · have : file.beta = y := by exact_mod_cast e
      simp [Tok.into, Tok.asDbl, this]
    · exact absurd e (hc _)
  have hi : ∀ (z : ℤ) (l : List Tok), Tok.into 0 Tok.asInt (some (.int z :: l)) none = (some z, some l) := fun _ _ => rfl
  unfold Green.readText Green.read
  simp only [List.cons_append, List.nil_append, hi, hd, Res.val, Res.bind_ok]
  by_cases h1 : (F : ℤ) ≠ file.nf
  · rw [Res.throwIf_true h1, Res.throwIf_true (Or.inl h1)]; rfl
  rw [Res.throwIf_false h1]
  by_cases h2 : (S : ℤ) ≠ file.ns
  · rw [Res.bind_ok, Res.throwIf_true h2, Res.throwIf_true (Or.inr h2)]; rfl
  rw [Res.bind_ok, Res.throwIf_false h2, Res.throwIf_false (show ¬ ((F : ℤ) ≠ file.nf ∨ (S : ℤ) ≠ file.ns) by tauto), Res.bind_ok, Res.bind_ok]
  refine Res.Sim.eq (Res.Sim.same _ fun _ => Res.Sim.same _ fun _ => ?_)
  refine Res.Sim.bind (R := SameSoFar extra 0) (Res.Sim.fold (R := SameSoFar extra) (c := S * (S * file.ntau.toNat))
    (fun a st st' f hh => Res.Sim.fold (R := SameSoFar extra) (c := S * file.ntau.toNat)
      (fun a st st' s1 hh => Res.Sim.fold (R := SameSoFar extra) (c := file.ntau.toNat)
        (fun a st st' s2 hh => readPair_sim extra _ β f s1 s2 a st st' hh) _ a st st' (by simpa using hh))
        _ a st st' (by simpa using hh)) _ 0 _ _ ?_) fun x y hxy => ?_
  · refine ⟨?_, rfl, rfl, hf⟩
    simp
  · obtain ⟨-, k2, k3, -⟩ := hxy
    rw [k2, k3]
    exact Res.Sim.same _ fun _ => rfl

end CTInt
