import Verif.Proofs.ManagerRun

/-!
# The updates with unbounded loops: they never fail, and return on every fair stream of random numbers
-/

set_option linter.all false

namespace CTInt

variable {K : Type} [RCLike K] [DecidableEq K]
variable {c : Ctx K} {s : Sub K} {a : Abs}

/-- The stream keeps producing every index of every range. -/
def Fair (u : ℕ → ℝ) : Prop := ∀ N x : ℕ, x < N → ∀ m, ∃ k ≥ m, ⌊u k * (N : ℝ)⌋₊ = x

/-- No failure: the call needs more iterations, or it returns a result with property `P`. -/
def Run.Good {α : Type} (P : α → Prop) : Run α → Prop
  | .ok a => P a
  | .more => True
  | _ => False

/-- Never a failure, and on a fair stream a result once there are enough iterations. -/
structure Total {α : Type} (u : ℕ → ℝ) (f : ℕ → Run α) (P : α → Prop) : Prop where
  good : ∀ fuel, (f fuel).Good P
  ends : Fair u → ∃ F r, ∀ fuel ≥ F, f fuel = .ok r

theorem Total.ok {α : Type} {u : ℕ → ℝ} {P : α → Prop} {x : α} (h : P x) : Total u (fun _ => .ok x) P :=
  ⟨fun _ => h, fun _ => ⟨0, x, fun _ _ => rfl⟩⟩

theorem Total.bind {α β : Type} {u : ℕ → ℝ} {f : ℕ → Run α} {g : ℕ → α → Run β} {P : α → Prop} {Q : β → Prop}
    (hf : Total u f P) (hg : ∀ x, P x → Total u (fun n => g n x) Q) : Total u (fun n => f n >>= g n) Q := by
  refine ⟨fun n => ?_, fun hu => ?_⟩
  · have := hf.good n
    show (f n >>= g n).Good Q
    cases h : f n with
    | ok x =>
      rw [h] at this
      exact (hg x this).good n
    | more => trivial
    | throw e => rw [h] at this; exact this
    | ub => rw [h] at this; exact this
  · obtain ⟨F, r, h⟩ := hf.ends hu
    have hr : P r := by
      have := hf.good F
      rw [h F le_rfl] at this
      exact this
    obtain ⟨F', r', h'⟩ := (hg r hr).ends hu
    refine ⟨max F F', r', fun n hn => ?_⟩
    show (f n >>= g n) = _
    rw [h n (le_trans (le_max_left _ _) hn)]
    exact h' n (le_trans (le_max_right _ _) hn)

theorem pickNumbers_total {u : ℕ → ℝ} (hu : ∀ k, 0 ≤ u k ∧ u k < 1) {N n : ℕ} (hn : n ≤ N) (p : ℕ) :
    Total u (fun fuel => pickNumbers u fuel N n p) (fun r => r.1.length = n ∧ r.1.Nodup ∧ ∀ x ∈ r.1, x < N) := by
  refine ⟨fun fuel => ?_, fun hfair => C32_returns hu (hfair N) hn p⟩
  by_cases h0 : N = 0
  · have : n = 0 := by omega
    subst this
    subst h0
    exact ⟨rfl, List.nodup_nil, by simp⟩
  · rcases pickLoop_not_ub hu (N := N) (by omega) fuel [] n p with h | ⟨⟨l, p'⟩, h⟩
    · show (pickLoop u N fuel [] n p).Good _
      rw [h]; trivial
    · obtain ⟨a, b, c, -⟩ := C32_distinct (show pickNumbers u fuel N n p = _ from h)
      show (pickLoop u N fuel [] n p).Good _
      rw [h]; exact ⟨a, b, c⟩

theorem drawOther_ends {u : ℕ → ℝ} {n : ℕ} {now : ℤ} {p k : ℕ} (hk : p ≤ k) (h : (⌊u k * (n : ℝ)⌋₊ : ℤ) ≠ now) :
    ∃ r, ∀ fuel ≥ k - p + 1, Mgr.drawOther u n now fuel p = .ok r := by
  obtain ⟨d, rfl⟩ := Nat.exists_eq_add_of_le hk
  induction d generalizing p with
  | zero =>
    refine ⟨((⌊u p * (n : ℝ)⌋₊ : ℕ), p + 1), fun fuel hf => ?_⟩
    obtain ⟨f, rfl⟩ : ∃ f, fuel = f + 1 := ⟨fuel - 1, by omega⟩
    unfold Mgr.drawOther
    simp only []
    rw [Nat.add_zero] at h
    rw [if_neg h]
  | succ d ih =>
    obtain ⟨r, hr⟩ := ih (p := p + 1) (by omega) (by rw [show p + 1 + d = p + (d + 1) by omega]; exact h)
    by_cases h0 : (⌊u p * (n : ℝ)⌋₊ : ℤ) = now
    · refine ⟨r, fun fuel hf => ?_⟩
      obtain ⟨f, rfl⟩ : ∃ f, fuel = f + 1 := ⟨fuel - 1, by omega⟩
      unfold Mgr.drawOther
      simp only []
      rw [if_pos h0]
      exact hr f (by omega)
    · refine ⟨((⌊u p * (n : ℝ)⌋₊ : ℕ), p + 1), fun fuel hf => ?_⟩
      obtain ⟨f, rfl⟩ : ∃ f, fuel = f + 1 := ⟨fuel - 1, by omega⟩
      unfold Mgr.drawOther
      simp only []
      rw [if_neg h0]

theorem drawOther_total {u : ℕ → ℝ} (hu : ∀ k, 0 ≤ u k ∧ u k < 1) {n : ℕ} (hn : 2 ≤ n) (now : ℤ) (p : ℕ) :
    Total u (fun fuel => Mgr.drawOther u n now fuel p) (fun r => 0 ≤ r.1 ∧ r.1 < n ∧ r.1 ≠ now) := by
  refine ⟨fun fuel => ?_, fun hfair => ?_⟩
  · have key : ∀ fuel p, Mgr.drawOther u n now fuel p = .more ∨ ∃ r, Mgr.drawOther u n now fuel p = .ok r := by
      intro fuel
      induction fuel with
      | zero => intro p; left; rfl
      | succ f ih =>
        intro p
        unfold Mgr.drawOther
        simp only []
        split
        · exact ih _
        · exact Or.inr ⟨_, rfl⟩
    rcases key fuel p with h | ⟨⟨x, p'⟩, h⟩
    · rw [h]; trivial
    · obtain ⟨q1, q2, q3, q4⟩ := drawOther_ok hu h
      rw [h]; exact ⟨q1, q3 (by omega), q4⟩
  · obtain ⟨x, hx, hne⟩ : ∃ x : ℕ, x < n ∧ (x : ℤ) ≠ now := by
      by_cases h : (0 : ℤ) = now
      · exact ⟨1, by omega, by rw [← h]; simp⟩
      · exact ⟨0, by omega, by simpa using h⟩
    obtain ⟨k, hk, e⟩ := hfair n x hx p
    obtain ⟨r, hr⟩ := drawOther_ends (u := u) (n := n) (now := now) hk (by rw [e]; exact hne)
    exact ⟨_, r, hr⟩

/-! ## Spin flips -/

/-- The invariant of the loop of `do_spin_flip_update`; `l` are the positions still to come. -/
structure FlipInv (c : Ctx K) (a0 : Abs) (w0 : K) (l : List ℕ) (s : Sub K) (w : K) (a : Abs) : Prop where
  means : Means c s a
  op : a.isOpen = true
  reach : Reach c a0 a
  todo : ∀ i ∈ l, i < a.cfg.length ∧ a.cfg.getD i default = a.base.getD i default
  w : w * w0 = weight c.NI c.nf c.G0 c.tbl a.cfg

theorem decision_ratio (ht : TblOK c.NI c.nf c.tbl) {a' : Abs} (h : Means c s a) {o : Option K} {r corr : ℝ}
    {new : List Vert} {w w0 : K} (hw : w * w0 = weight c.NI c.nf c.G0 c.tbl a.cfg)
    (ho : o = decision r (weight c.NI c.nf c.G0 c.tbl new / weight c.NI c.nf c.G0 c.tbl a.cfg) corr) :
    w * o.getD 1 * w0 = weight c.NI c.nf c.G0 c.tbl (if o.isSome then new else a.cfg) := by
  cases o with
  | none => simpa using hw
  | some y =>
    have hy := (decision_some ho.symm).1
    have hne := h.weight_ne_zero ht
    simp only [Option.getD_some, Option.isSome_some, if_true]
    rw [hy, mul_right_comm, hw]
    field_simp

theorem spinFlipStep_total (ht : TblOK c.NI c.nf c.tbl) {u : ℕ → ℝ} (hu : ∀ k, 0 ≤ u k ∧ u k < 1)
    {a0 : Abs} {w0 w : K} {i : ℕ} {l : List ℕ} (hi : i ∉ l) (h : FlipInv c a0 w0 (i :: l) s w a)
    (junk : ℕ → ℕ → ℕ → K) (p : ℕ) :
    Total u (fun fuel => Mgr.spinFlipStep c junk u fuel s i p)
      (fun r => ∃ a', FlipInv c a0 w0 l r.1 (w * r.2.1.getD 1) a') := by
  obtain ⟨hil, hib⟩ := h.todo i (by simp)
  have hcfg := h.means.cfg
  have hv := h.means.vertOK (a.cfg.getD i default) (by rw [List.getD_eq_getElem _ _ hil]; exact List.getElem_mem _)
  unfold Mgr.spinFlipStep
  rw [hcfg, Res.get_of_lt hil]
  simp only [Run.lift_ok, Run.bind_ok]
  rw [List.getD_eq_getElem _ _ hil] at hv hib
  have hv1 : (a.cfg[i]).type < c.tbl.length := hv.1
  rw [Res.get_of_lt hv1]
  simp only [Run.lift_ok, Run.bind_ok]
  have hterm : termOf c.tbl (a.cfg.getD i default) = c.tbl[(a.cfg[i]).type]'hv1 := by
    unfold termOf; rw [List.getD_eq_getElem _ _ hil, List.getD_eq_getElem _ _ hv1]
  by_cases hn : (c.tbl[(a.cfg[i]).type]'hv1).numAf ≤ 1
  · simp only [hn, if_true, Run.pure_eq]
    refine Total.ok ⟨a, h.means, h.op, h.reach, fun j hj => h.todo j (List.mem_cons_of_mem _ hj), ?_⟩
    simpa using h.w
  · simp only [hn, if_false]
    refine (drawOther_total hu (by omega) _ p).bind ?_
    rintro ⟨x, p'⟩ ⟨x0, x1, x2⟩
    obtain ⟨s', o, e1, e2, e3, e4⟩ := flip_one_spec ht h.means h.op hil (z := x)
      (Or.inr ⟨x0, by rw [hterm]; exact x1⟩) (Or.inl (by rw [List.getD_eq_getElem _ _ hil]; exact hib)) (hu p').1 1 junk
    simp only [e1, Run.lift_ok, Run.bind_ok, Run.pure_eq]
    refine Total.ok ⟨_, e3, h.op, h.reach.trans e4, ?_, decision_ratio (a' := a) ht h.means h.w e2⟩
    intro j hj
    obtain ⟨t1, t2⟩ := h.todo j (List.mem_cons_of_mem _ hj)
    have hne : i ≠ j := fun q => hi (q ▸ hj)
    show j < (if o.isSome then _ else _ : List Vert).length ∧ (if o.isSome then _ else _ : List Vert).getD j default = _
    split
    · rw [List.length_modify, getD_modify _ _ _ _ hil, if_neg hne]
      exact ⟨t1, t2⟩
    · exact ⟨t1, t2⟩

theorem spinFlipLoop_total (ht : TblOK c.NI c.nf c.tbl) {u : ℕ → ℝ} (hu : ∀ k, 0 ≤ u k ∧ u k < 1)
    {a0 : Abs} {w0 w : K} {l : List ℕ} (hl : l.Nodup) (h : FlipInv c a0 w0 l s w a)
    (J : ℕ → ℕ → ℕ → ℕ → ℕ → K) (p : ℕ) :
    Total u (fun fuel => Mgr.spinFlipLoop c J u fuel l s w p) (fun r => ∃ a', FlipInv c a0 w0 [] r.1 r.2.1 a') := by
  induction l generalizing s w a p with
  | nil => exact Total.ok ⟨a, h⟩
  | cons i l ih =>
    rw [List.nodup_cons] at hl
    unfold Mgr.spinFlipLoop
    refine (spinFlipStep_total ht hu hl.1 h _ p).bind ?_
    rintro ⟨s', o, p'⟩ ⟨a', h'⟩
    exact ih hl.2 h' p'

theorem doSpinFlip_total (ht : TblOK c.NI c.nf c.tbl) (hf : FullTerms c) {u : ℕ → ℝ} (hu : ∀ k, 0 ≤ u k ∧ u k < 1)
    (m : Mgr) (h : Means c s a) (hcl : a.isOpen = false) (J : ℕ → ℕ → ℕ → ℕ → ℕ → K) (p : ℕ) :
    Total u (fun fuel => m.doSpinFlip c J u fuel s p) (fun r => ∃ a', Means c r.1 a' ∧ a'.isOpen = false ∧ Reach c a a' ∧
      r.2.1 = weight c.NI c.nf c.G0 c.tbl a'.cfg / weight c.NI c.nf c.G0 c.tbl a.cfg) := by
  unfold Mgr.doSpinFlip
  refine (pickNumbers_total hu (min_le_right _ _) p).bind ?_
  rintro ⟨l, p1⟩ ⟨_, hnd, hlt⟩
  obtain ⟨s1, e1, m1, ad1⟩ := start_spec ht h hcl (new := []) (by simp) (J 0 0) (J 0 1) (J 0 2)
  simp only [e1, Run.lift_ok, Run.bind_ok]
  have hne := h.weight_ne_zero ht
  have hinv : FlipInv c a (weight c.NI c.nf c.G0 c.tbl a.cfg) l s1 1 (a.step (.start [])) := by
    refine ⟨m1, rfl, (Reach.refl a).step ad1, ?_, ?_⟩
    · intro i hi
      refine ⟨?_, rfl⟩
      show i < (a.cfg ++ []).length
      have := hlt i hi
      rw [h.cfg] at this
      simpa using this
    · show 1 * _ = weight c.NI c.nf c.G0 c.tbl (a.cfg ++ fresh a.lastId [])
      rw [one_mul, weight_start]
  refine (spinFlipLoop_total ht hu hnd hinv J p1).bind ?_
  rintro ⟨s2, w, p2⟩ ⟨a', h'⟩
  obtain ⟨s3, e3, m3, ad3⟩ := finish_spec ht hf h'.means h'.op (J 1 0) (J 1 1) (J 1 2)
  simp only [e3, Run.lift_ok, Run.bind_ok, Run.pure_eq]
  refine Total.ok ⟨_, m3, rfl, h'.reach.step ad3, ?_⟩
  show w = weight c.NI c.nf c.G0 c.tbl (interacting a'.cfg) / _
  rw [weight_finish, ← h'.w]
  field_simp

/-! ## Shifts -/

/-- What the loop of `do_shift_update` still finds: the vertices at the listed positions as they were at the start, and
    their hidden copies from `k` on. -/
def ShiftTodo (n0 : ℕ) (base cfg : List Vert) : List ℕ → ℕ → Prop
  | [], _ => True
  | i :: l, k => (i ∉ l ∧ i < n0 ∧ k < cfg.length ∧ cfg.getD i default = base.getD i default ∧
      cfg.getD k default = base.getD k default ∧ (cfg.getD i default).nonInt = false ∧ (cfg.getD k default).nonInt = true ∧
      (cfg.getD i default).type = (cfg.getD k default).type) ∧ ShiftTodo n0 base cfg l (k + 1)

theorem ShiftTodo.mono {n0 : ℕ} {base cfg cfg' : List Vert} {i k0 : ℕ} {l : List ℕ} {k : ℕ} (hk : k0 < k)
    (hn : n0 ≤ k0) (hi : i ∉ l) (hin : i < n0) (hlen : cfg'.length = cfg.length)
    (hc : ∀ j, j ≠ i → j ≠ k0 → cfg'.getD j default = cfg.getD j default)
    (h : ShiftTodo n0 base cfg l k) : ShiftTodo n0 base cfg' l k := by
  induction l generalizing k with
  | nil => trivial
  | cons a l ih =>
    obtain ⟨⟨h1, h2, h3, h4, h5, h6, h7, h8⟩, h9⟩ := h
    simp only [List.mem_cons, not_or] at hi
    have ea := hc a (by omega) (by omega)
    have ek := hc k (by omega) (by omega)
    refine ⟨⟨h1, h2, by omega, ?_, ?_, ?_, ?_, ?_⟩, ih (by omega) hi.2 h9⟩
    · rw [ea]; exact h4
    · rw [ek]; exact h5
    · rw [ea]; exact h6
    · rw [ek]; exact h7
    · rw [ea, ek]; exact h8

/-- Moving a vertex does not change the product of couplings. -/
theorem uWeight_move {tbl : List (VDef K)} {cfg : List Vert} {i k : ℕ} {z : ℤ} (hi : i < cfg.length) (hk : k < cfg.length)
    (hik : i ≠ k) (hii : (cfg.getD i default).nonInt = false) (hkk : (cfg.getD k default).nonInt = true)
    (ht : (cfg.getD i default).type = (cfg.getD k default).type) (hz : z ≠ -1) :
    uWeight tbl ((cfg.modify i (flipTo · (-1))).modify k (flipTo · z)) = uWeight tbl cfg := by
  rw [List.getD_eq_getElem _ _ hi] at hii ht
  rw [List.getD_eq_getElem _ _ hk] at hkk ht
  have h1 := interacting_hide hi hii
  have hk' : k < (cfg.modify i (flipTo · (-1))).length := by rw [List.length_modify]; exact hk
  have ek : (cfg.modify i (flipTo · (-1)))[k] = cfg[k] := by rw [List.getElem_modify, if_neg hik]
  have h2 := interacting_show hk' (by rw [ek]; exact hkk) hz
  rw [ek] at h2
  unfold uWeight
  rw [(h1.map _).prod_eq, (h2.map _).prod_eq, List.map_cons, List.map_cons, List.prod_cons, List.prod_cons]
  congr 2
  have : termOf tbl (flipTo cfg[k] z) = termOf tbl cfg[i] := by
    unfold termOf flipTo
    rw [if_neg hz, ht]
  rw [this]

theorem flip_two_spec (ht : TblOK c.NI c.nf c.tbl) (h : Means c s a) (hop : a.isOpen = true) {i k : ℕ} (hik : i ≠ k)
    (hi : i < a.cfg.length) (hk : k < a.cfg.length) (hib : a.cfg.getD i default = a.base.getD i default)
    (hkb : a.cfg.getD k default = a.base.getD k default)
    (hii : (a.cfg.getD i default).nonInt = false) (hkk : (a.cfg.getD k default).nonInt = true)
    (hty : (a.cfg.getD i default).type = (a.cfg.getD k default).type)
    {r : ℝ} (hr : 0 ≤ r) (corr : ℝ) (junk : ℕ → ℕ → ℕ → K) :
    ∃ s' o new, new = (a.cfg.modify i (flipTo · (-1))).modify k (flipTo · (a.cfg.getD i default).af) ∧
      metropolis c junk s [i, k] [-1, (a.cfg.getD i default).af] corr r = .ok (s', o, 1) ∧
      o = decision r (weight c.NI c.nf c.G0 c.tbl new / weight c.NI c.nf c.G0 c.tbl a.cfg) corr ∧
      Means c s' { a with cfg := if o.isSome then new else a.cfg } ∧
      Reach c a { a with cfg := if o.isSome then new else a.cfg } := by
  have hv := h.vertOK (a.cfg.getD i default) (by rw [List.getD_eq_getElem _ _ hi]; exact List.getElem_mem _)
  obtain ⟨af0, af1⟩ := hv.2 hii
  have hterm : termOf c.tbl (a.cfg.getD k default) = termOf c.tbl (a.cfg.getD i default) := by
    unfold termOf; rw [hty]
  obtain ⟨s', o, e1, e2, e3, e4⟩ := metropolis_spec ht h hop (pos := [i, k]) (spins := [-1, (a.cfg.getD i default).af])
    ⟨rfl, by simpa using hik, by simp [hi, hk], by
      intro x hx
      rw [List.zip_cons_cons, List.zip_cons_cons, List.zip_nil_right] at hx
      rcases List.mem_cons.mp hx with rfl | hx
      · left; rfl
      · rw [List.mem_singleton] at hx
        subst hx
        right
        exact ⟨af0, by rw [hterm]; exact af1⟩⟩
    (fun fl _ => Or.inl (onlyLeaves_of_eq (by
      intro x hx
      rw [List.zip_cons_cons, List.zip_cons_cons, List.zip_nil_right] at hx
      rcases List.mem_cons.mp hx with rfl | hx
      · exact hib
      · rw [List.mem_singleton] at hx
        subst hx
        exact hkb) fl)) hr corr junk
  refine ⟨s', o, _, rfl, ?_, e2, ?_⟩
  · rw [e1]
    have hu := uWeight_move (tbl := c.tbl) hi hk hik hii hkk hty (z := (a.cfg.getD i default).af) (by omega)
    have hne : uWeight c.tbl a.cfg ≠ 0 := uWeight_ne_zero ht h.vertOK
    rw [show flipAll a.cfg ([i, k].zip [-1, (a.cfg.getD i default).af]) =
      (a.cfg.modify i (flipTo · (-1))).modify k (flipTo · (a.cfg.getD i default).af) from rfl, hu, div_self hne]
  · have hst : a.step (.flip [i, k] [-1, (a.cfg.getD i default).af] o.isSome) =
        { a with cfg := if o.isSome then (a.cfg.modify i (flipTo · (-1))).modify k (flipTo · (a.cfg.getD i default).af) else a.cfg } := by
      cases o.isSome <;> rfl
    rw [← hst]
    exact ⟨e3, (Reach.refl a).step e4⟩

theorem shiftLoop_spec (ht : TblOK c.NI c.nf c.tbl) {u : ℕ → ℝ} (hu : ∀ k, 0 ≤ u k ∧ u k < 1)
    {a0 : Abs} {w0 w : K} {n0 : ℕ} {l : List ℕ} {k : ℕ} (hk : n0 ≤ k) (h : FlipInv c a0 w0 [] s w a)
    (hn : n0 ≤ a.cfg.length) (htodo : ShiftTodo n0 a.base a.cfg l k) (J : ℕ → ℕ → ℕ → ℕ → ℕ → K) (p : ℕ) :
    ∃ s' w' a', Mgr.shiftLoop c J u l k s w p = .ok (s', w') ∧ FlipInv c a0 w0 [] s' w' a' := by
  induction l generalizing s w a k p with
  | nil => exact ⟨s, w, a, rfl, h⟩
  | cons i l ih =>
    obtain ⟨⟨q1, q2, q3, q4, q5, q6, q7, q8⟩, q9⟩ := htodo
    have hi : i < a.cfg.length := by omega
    obtain ⟨s', o, new, enew, e1, e2, e3, e4⟩ := flip_two_spec ht h.means h.op (by omega) hi q3 q4 q5 q6 q7 q8 (hu p).1 1
      (J (l.length + 2) 0)
    have hinv : FlipInv c a0 w0 [] s' (w * o.getD 1) { a with cfg := if o.isSome then new else a.cfg } :=
      ⟨e3, h.op, h.reach.trans e4, by simp, decision_ratio (a' := a) ht h.means h.w e2⟩
    have hlen : (if o.isSome then new else a.cfg).length = a.cfg.length := by
      split
      · rw [enew, List.length_modify, List.length_modify]
      · rfl
    obtain ⟨s2, w2, a2, f1, f2⟩ := ih (k := k + 1) (p := p + 1) (by omega) hinv (by show n0 ≤ _; rw [hlen]; exact hn) (by
      refine q9.mono (i := i) (k0 := k) (by omega) hk q1 q2 hlen ?_
      intro j hj1 hj2
      show (if o.isSome then new else a.cfg).getD j default = _
      split
      · rw [enew, getD_modify _ _ _ _ (by rw [List.length_modify]; exact q3), if_neg (by omega),
          getD_modify _ _ _ _ hi, if_neg (by omega)]
      · rfl)
    refine ⟨s2, w2, a2, ?_, f2⟩
    unfold Mgr.shiftLoop
    rw [h.means.cfg, Res.get_of_lt hi, Res.get_of_lt q3]
    simp only [Res.bind_ok]
    rw [List.getD_eq_getElem _ _ hi] at q8 e1
    rw [List.getD_eq_getElem _ _ q3] at q8
    rw [Res.assert_true q8]
    simp only [Res.bind_ok]
    rw [e1]
    simp only [Res.bind_ok]
    rw [Res.assert_true (by simp)]
    exact f1

theorem shiftNew_spec {m : Mgr} {u : ℕ → ℝ} {vs : List Vert} {l : List ℕ} (hl : ∀ i ∈ l, i < vs.length) (p : ℕ) :
    ∃ new, m.shiftNew u vs l p = .ok new ∧ new.length = l.length ∧
      ∀ j < l.length, (new.getD j default).type = (vs.getD (l.getD j 0) default).type ∧ (new.getD j default).nonInt = true := by
  induction l generalizing p with
  | nil => exact ⟨[], rfl, rfl, by simp⟩
  | cons i l ih =>
    obtain ⟨new, e, e1, e2⟩ := ih (fun j hj => hl j (List.mem_cons_of_mem _ hj)) (p + 1)
    have hi := hl i (by simp)
    unfold Mgr.shiftNew
    rw [Res.get_of_lt hi, e]
    refine ⟨_, rfl, by simp [e1], ?_⟩
    intro j hj
    cases j with
    | zero =>
      rw [List.getD_cons_zero, List.getD_cons_zero, List.getD_eq_getElem _ _ hi]
      exact ⟨rfl, rfl⟩
    | succ j =>
      rw [List.getD_cons_succ, List.getD_cons_succ]
      exact e2 j (by simpa using hj)

theorem shiftTodo_start {n0 : ℕ} {base : List Vert} {l : List ℕ} {k : ℕ} (hnd : l.Nodup) (hl : ∀ i ∈ l, i < n0)
    (hold : ∀ i < n0, (base.getD i default).nonInt = false)
    (hnew : ∀ j < l.length, k + j < base.length ∧ (base.getD (k + j) default).nonInt = true ∧
      (base.getD (k + j) default).type = (base.getD (l.getD j 0) default).type) : ShiftTodo n0 base base l k := by
  induction l generalizing k with
  | nil => trivial
  | cons i l ih =>
    rw [List.nodup_cons] at hnd
    obtain ⟨h1, h2, h3⟩ := hnew 0 (by simp)
    refine ⟨⟨hnd.1, hl i (by simp), h1, rfl, rfl, hold i (hl i (by simp)), h2, h3.symm⟩, ?_⟩
    refine ih hnd.2 (fun j hj => hl j (List.mem_cons_of_mem _ hj)) fun j hj => ?_
    have := hnew (j + 1) (by simpa using hj)
    rw [List.getD_cons_succ, show k + (j + 1) = k + 1 + j by omega] at this
    exact this

theorem doShift_total (ht : TblOK c.NI c.nf c.tbl) (hf : FullTerms c) {u : ℕ → ℝ} (hu : ∀ k, 0 ≤ u k ∧ u k < 1)
    (m : Mgr) (h : Means c s a) (hcl : a.isOpen = false) (J : ℕ → ℕ → ℕ → ℕ → ℕ → K) (p : ℕ) :
    Total u (fun fuel => m.doShift c J u fuel s p) (fun r => ∃ a', Means c r.1 a' ∧ a'.isOpen = false ∧ Reach c a a' ∧
      r.2.1 = weight c.NI c.nf c.G0 c.tbl a'.cfg / weight c.NI c.nf c.G0 c.tbl a.cfg) := by
  unfold Mgr.doShift
  refine (pickNumbers_total hu (min_le_left _ _) p).bind ?_
  rintro ⟨l, p1⟩ ⟨_, hnd, hlt⟩
  have hlt : ∀ x ∈ l, x < a.cfg.length := by rw [← h.cfg]; exact hlt
  rw [h.cfg]
  obtain ⟨new, en, n1, n2⟩ := shiftNew_spec (m := m) (u := u) hlt p1
  have hty : ∀ i, i < a.cfg.length → (a.cfg.getD i default).type < c.tbl.length := by
    intro i hi
    rw [List.getD_eq_getElem _ _ hi]
    exact (h.vertOK _ (List.getElem_mem hi)).1
  have hln : ∀ j < l.length, l.getD j 0 < a.cfg.length := by
    intro j hj
    rw [List.getD_eq_getElem _ _ hj]
    exact hlt _ (List.getElem_mem hj)
  obtain ⟨s1, e1, m1, ad1⟩ := start_spec ht h hcl (new := new) (by
    intro v hv
    obtain ⟨j, hj, rfl⟩ := List.getElem_of_mem hv
    have := (n2 j (by omega)).1
    rw [List.getD_eq_getElem _ _ hj] at this
    rw [this]
    exact hty _ (hln j (by omega))) (J 0 0) (J 0 1) (J 0 2)
  simp only [en, e1, Run.lift_ok, Run.bind_ok]
  have hne := h.weight_ne_zero ht
  have hbase : (a.step (.start new)).base = a.cfg ++ fresh a.lastId new := rfl
  have hinv : FlipInv c a (weight c.NI c.nf c.G0 c.tbl a.cfg) [] s1 1 (a.step (.start new)) := by
    refine ⟨m1, rfl, (Reach.refl a).step ad1, by simp, ?_⟩
    show 1 * _ = weight c.NI c.nf c.G0 c.tbl (a.cfg ++ fresh a.lastId new)
    rw [one_mul, weight_start]
  have htodo : ShiftTodo a.cfg.length (a.step (.start new)).base (a.step (.start new)).cfg l a.cfg.length := by
    show ShiftTodo a.cfg.length (a.cfg ++ fresh a.lastId new) (a.cfg ++ fresh a.lastId new) l a.cfg.length
    refine shiftTodo_start hnd hlt ?_ ?_
    · intro i hi
      rw [List.getD_append _ _ _ _ hi, List.getD_eq_getElem _ _ hi]
      exact h.all_int hcl _ (List.getElem_mem hi)
    · intro j hj
      have hjn : j < new.length := by omega
      rw [getD_append_right' _ _ _ (by omega), Nat.add_sub_cancel_left, fresh_getD hjn, List.length_append, fresh_length]
      refine ⟨by omega, rfl, ?_⟩
      rw [List.getD_append _ _ _ _ (hln j hj)]
      exact (n2 j hj).1
  obtain ⟨s2, w2, a2, f1, f2⟩ := shiftLoop_spec ht hu le_rfl hinv (by
    show _ ≤ (a.cfg ++ fresh a.lastId new).length
    rw [List.length_append]; omega) htodo J (p1 + min a.cfg.length m.kIns)
  simp only [f1, Run.lift_ok, Run.bind_ok]
  obtain ⟨s3, e3, m3, ad3⟩ := finish_spec ht hf f2.means f2.op (J 1 0) (J 1 1) (J 1 2)
  simp only [e3, Run.lift_ok, Run.bind_ok, Run.pure_eq]
  refine Total.ok ⟨_, m3, rfl, f2.reach.step ad3, ?_⟩
  show w2 = weight c.NI c.nf c.G0 c.tbl (interacting a2.cfg) / _
  rw [weight_finish, ← f2.w]
  field_simp

end CTInt
