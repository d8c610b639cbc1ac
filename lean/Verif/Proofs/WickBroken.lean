import Verif.Proofs.FockWeight

/-!
# Wick's theorem for a product of pairs, one of which is pulled apart
-/

set_option linter.all false

namespace CTInt

section det

variable {K : Type} [Field K]

theorem detN_congr_below {n : ℕ} {g g' : ℕ → ℕ → K} (h : ∀ i < n, ∀ j < n, g i j = g' i j) : detN n g = detN n g' := by
  unfold detN
  rw [toM_congr h]

theorem detN_corner' {n : ℕ} {g g' : ℕ → ℕ → K} (h : ∀ i < n + 1, ∀ j < n + 1, i ≠ 0 ∨ j ≠ 0 → g' i j = g i j) :
    detN (n + 1) g' = detN (n + 1) g + (g' 0 0 - g 0 0) * detN n fun i j => g (i + 1) (j + 1) := by
  have e : detN (n + 1) g' = detN (n + 1) fun i j => if i = 0 ∧ j = 0 then g' 0 0 else g i j := by
    refine detN_congr_below fun i hi j hj => ?_
    beta_reduce
    split_ifs with q
    · rw [q.1, q.2]
    · exact h i hi j hj (by tauto)
  rw [e, detN_corner (g := g)]
  · simp
  · intro i j hij
    rw [if_neg (by tauto)]

theorem detN_entry {n : ℕ} {g g' : ℕ → ℕ → K} (h : ∀ i < n + 2, ∀ j < n + 2, i ≠ 1 ∨ j ≠ 0 → g' i j = g i j) :
    detN (n + 2) g' = detN (n + 2) g - (g' 1 0 - g 1 0) * detN (n + 1) fun i j => g (if i = 0 then 0 else i + 1) (j + 1) := by
  have hs : ∀ f : ℕ → ℕ → K, detN (n + 2) (fun i j => f (if i = 0 then 1 else if i = 1 then 0 else i) j) = - detN (n + 2) f := by
    intro f
    unfold detN
    have := Matrix.det_permute (Equiv.swap (0 : Fin (n + 2)) 1) (toM (n + 2) (n + 2) f)
    rw [Equiv.Perm.sign_swap (by simp)] at this
    simp only [Units.val_neg, Units.val_one, Int.cast_neg, Int.cast_one, neg_mul, one_mul] at this
    rw [← this]
    congr 1
    ext i j
    show f _ _ = f _ _
    congr 1
    by_cases h0 : i = 0
    · subst h0; simp
    · by_cases h1 : i = 1
      · subst h1; simp
      · have q0 : (i : ℕ) ≠ 0 := fun q => h0 (Fin.ext (by simpa using q))
        have q1 : (i : ℕ) ≠ 1 := fun q => h1 (Fin.ext (by simpa using q))
        rw [Equiv.swap_apply_of_ne_of_ne h0 h1, if_neg q0, if_neg q1]
  have h1 := hs g'
  have h2 := hs g
  have h3 := detN_corner' (n := n + 1) (g := fun i j => g (if i = 0 then 1 else if i = 1 then 0 else i) j)
    (g' := fun i j => g' (if i = 0 then 1 else if i = 1 then 0 else i) j) (by
      intro i hi j hj hij
      refine h _ (by split_ifs <;> omega) _ (by omega) ?_
      rcases hij with q | q
      · left
        split_ifs <;> omega
      · exact Or.inr q)
  rw [h1, h2] at h3
  have e : (fun i j => g (if i + 1 = 0 then 1 else if i + 1 = 1 then 0 else i + 1) (j + 1)) = fun i j => g (if i = 0 then 0 else i + 1) (j + 1) := by
    funext i j
    simp
  simp only [e, if_true] at h3
  linear_combination - h3

end det

variable {K : Type} [RCLike K] {A : Type} [Ring A] [Algebra K A] {V D : Submodule K A} {p : A → A → K} {α : Type} [Inhabited α]
  {ω : A →ₗ[K] K} {f : α → A × A × K} {g : α → α → K}

/-- `ρ` stands left of `σ`, as seen by the contractions. -/
def Stands (ω : A →ₗ[K] K) (f : α → A × A × K) (g : α → α → K) (ρ σ : α) : Prop :=
  g ρ σ = - ω ((f ρ).2.1 * (f σ).1) ∧ g σ ρ = ω ((f ρ).1 * (f σ).2.1)

theorem wick_labels (hF : Fermions V D p) (hω : Quasi V ω) {l : List α} (hl : ∀ ρ ∈ l, (f ρ).1 ∈ V ∧ (f ρ).2.1 ∈ D)
    (hp : l.Pairwise (Stands ω f g)) (hd : ∀ ρ ∈ l, g ρ ρ = ω ((f ρ).1 * (f ρ).2.1)) :
    ω ((l.map f).map pairOp).prod = detN l.length (kernelG (fun ρ => - (f ρ).2.2) g l) := by
  rw [wick_pairs hF _ (by intro x hx; obtain ⟨ρ, hρ, rfl⟩ := List.mem_map.1 hx; exact hl ρ hρ) hω, List.length_map]
  refine detN_congr_below fun i hi j hj => ?_
  have hget : ∀ i < l.length, (l.map f).getD i (0, 0, 0) = f (l.getD i default) := by
    intro i hi
    rw [List.getD_eq_getElem _ _ (by rwa [List.length_map]), List.getD_eq_getElem _ _ hi, List.getElem_map]
  have hmem : ∀ i < l.length, l.getD i default ∈ l := fun i hi => by rw [List.getD_eq_getElem _ _ hi]; exact List.getElem_mem _
  have hleft : ∀ i j, i < j → j < l.length → Stands ω f g (l.getD i default) (l.getD j default) := by
    intro i j hij hj
    rw [List.getD_eq_getElem _ _ hj, List.getD_eq_getElem _ _ (hij.trans hj)]
    exact List.pairwise_iff_getElem.1 hp i j _ _ hij
  unfold wickG kernelG
  rw [hget i hi, hget j hj]
  rcases lt_trichotomy (i : ℕ) j with q | q | q
  · rw [if_neg (by omega), if_neg (by omega), if_neg (by omega), (hleft i j q hj).1]
    ring
  · rw [if_pos (by omega), if_pos q, if_pos q, q, hd _ (hmem j hj)]
    ring
  · rw [if_pos (by omega), if_neg (by omega), if_neg (by omega), (hleft j i q hi).2]
    ring

local instance instInhK : Inhabited K := ⟨0⟩

/-- Contractions with one more pair, whose contractions with the others are carried by them. -/
def bordered (g : α → α → K) (w : K) : Option (α × K × K) → Option (α × K × K) → K
  | some ρ, some σ => g ρ.1 σ.1
  | some ρ, none => ρ.2.1
  | none, some σ => σ.2.2
  | none, none => w

def borderD (f : α → A × A × K) : Option (α × K × K) → K
  | some ρ => - (f ρ.1).2.2
  | none => 0

/-- The determinant of pairs and one more. -/
def bdet (f : α → A × A × K) (g : α → α → K) (w : K) (l : List (α × K × K)) : K :=
  detN (none :: l.map some).length (kernelG (borderD f) (bordered g w) (none :: l.map some))

theorem bdet_perm {w : K} {l l' : List (α × K × K)} (h : l.Perm l') : bdet f g w l = bdet f g w l' :=
  detN_list_perm (borderD f) (bordered g w) ((h.map some).cons none)

theorem kernel_cons_succ {β : Type} [Inhabited β] (D' : β → K) (g' : β → β → K) (b : β) (l : List β) (i j : ℕ) :
    kernelG D' g' (b :: l) (i + 1) (j + 1) = kernelG D' g' l i j := by
  unfold kernelG
  simp

theorem getD_some {l : List (α × K × K)} {i : ℕ} (hi : i < l.length) : (l.map some).getD i default = some (l.getD i default) := by
  rw [List.getD_eq_getElem _ _ (by rwa [List.length_map]), List.getD_eq_getElem _ _ hi, List.getElem_map]

theorem getD_fst {l : List (α × K × K)} {i : ℕ} (hi : i < l.length) : (l.map Prod.fst).getD i default = (l.getD i default).1 := by
  rw [List.getD_eq_getElem _ _ (by rwa [List.length_map]), List.getD_eq_getElem _ _ hi, List.getElem_map]

theorem bdet_corner (w w' : K) (l : List (α × K × K)) :
    bdet f g w' l = bdet f g w l + (w' - w) * detN l.length (kernelG (fun ρ => - (f ρ).2.2) g (l.map Prod.fst)) := by
  unfold bdet
  rw [List.length_cons, List.length_map, detN_corner' (g := kernelG (borderD f) (bordered g w) (none :: l.map some))]
  · congr 1
    congr 1
    · simp [kernelG, borderD, bordered]
    · refine detN_congr_below fun i hi j hj => ?_
      rw [kernel_cons_succ]
      unfold kernelG
      rw [getD_some hi, getD_some hj, getD_fst hi, getD_fst hj]
      rfl
  · intro i hi j hj hij
    rcases i with _ | i <;> rcases j with _ | j
    · simp at hij
    · unfold kernelG
      simp only [List.getD_cons_zero, List.getD_cons_succ]
      rw [getD_some (by omega)]
      rfl
    · unfold kernelG
      simp only [List.getD_cons_zero, List.getD_cons_succ]
      rw [getD_some (by omega)]
      rfl
    · unfold kernelG
      simp only [List.getD_cons_zero, List.getD_cons_succ]
      rw [getD_some (by omega), getD_some (by omega)]
      rfl

/-- The contraction of one pair with the creator of the broken one changes by the contraction without both. -/
theorem bdet_entry (w : K) (ρ : α) (c c' r : K) (l : List (α × K × K)) :
    bdet f g w ((ρ, c', r) :: l) = bdet f g w ((ρ, c, r) :: l) - (c' - c) * bdet f g r (l.map fun σ => (σ.1, g σ.1 ρ, σ.2.2)) := by
  unfold bdet
  simp only [List.length_cons, List.length_map, List.map_cons]
  rw [detN_entry (g := kernelG (borderD f) (bordered g w) (none :: some (ρ, c, r) :: l.map some))]
  · congr 1
    congr 1
    · simp [kernelG, borderD, bordered]
    · refine detN_congr_below fun i hi j hj => ?_
      have e : ∀ j < l.length, ((l.map fun σ => (σ.1, g σ.1 ρ, σ.2.2)).map some).getD j default =
          some ((l.getD j default).1, g (l.getD j default).1 ρ, (l.getD j default).2.2) := by
        intro j hj
        rw [List.getD_eq_getElem _ _ (by simpa using hj), List.getD_eq_getElem _ _ hj, List.getElem_map, List.getElem_map]
      unfold kernelG
      rcases i with _ | i <;> rcases j with _ | j
      · simp [borderD, bordered]
      · simp only [if_true, List.getD_cons_zero, List.getD_cons_succ]
        rw [getD_some (by omega), e _ (by omega)]
        simp [bordered]
      · simp only [if_true, List.getD_cons_zero, List.getD_cons_succ, Nat.add_eq_zero_iff, one_ne_zero, and_false, if_false]
        rw [getD_some (by omega), e _ (by omega)]
        simp [bordered]
      · simp only [if_true, List.getD_cons_zero, List.getD_cons_succ, Nat.add_eq_zero_iff, one_ne_zero, and_false, if_false]
        rw [getD_some (by omega), getD_some (by omega), e _ (by omega), e _ (by omega)]
        simp [bordered, borderD]
  · intro i hi j hj hij
    unfold kernelG
    rcases i with _ | _ | i <;> rcases j with _ | _ | j
    all_goals try simp at hij
    all_goals simp only [List.getD_cons_zero, List.getD_cons_succ]
    all_goals try rw [getD_some (l := l) (i := i) (by omega)]
    all_goals try rw [getD_some (l := l) (i := j) (by omega)]
    all_goals rfl

/-! ## The broken pair -/

/-- The product of pairs. -/
def opsProd (f : α → A × A × K) (l : List (α × K × K)) : A := (l.map fun x => pairOp (f x.1)).prod

theorem opsProd_append (l l' : List (α × K × K)) : opsProd f (l ++ l') = opsProd f l * opsProd f l' := by
  unfold opsProd
  rw [List.map_append, List.prod_append]

theorem opsProd_cons (x : α × K × K) (l : List (α × K × K)) : opsProd f (x :: l) = pairOp (f x.1) * opsProd f l := by
  unfold opsProd
  rw [List.map_cons, List.prod_cons]

/-- A creator moves through a pair. -/
theorem cross_pair (hF : Fermions V D p) {b : A} (hb : b ∈ V) {x : A × A × K} (hx : x.1 ∈ V ∧ x.2.1 ∈ D) :
    b * pairOp x = pairOp x * b - p b x.2.1 • x.1 := by
  unfold pairOp
  have e1 := hF.mixed b hb x.2.1 hx.2
  have e2 := hF.creators b hb x.1 hx.1
  rw [Algebra.algebraMap_eq_smul_one] at e1 ⊢
  have k1 : x.2.1 * b = p b x.2.1 • (1 : A) - b * x.2.1 := by rw [← e1]; abel
  have k2 : x.1 * b = - (b * x.1) := by rw [eq_neg_iff_add_eq_zero, add_comm]; exact e2
  rw [mul_sub, sub_mul, ← mul_assoc, mul_assoc x.1, k1, mul_sub, ← mul_assoc x.1, k2]
  simp only [mul_smul_comm, mul_one, smul_mul_assoc, one_mul, neg_mul]
  abel

/-- What is needed of pairs, the broken one among them. -/
structure Border (V D : Submodule K A) (ω : A →ₗ[K] K) (f : α → A × A × K) (g : α → α → K) (b d : A) (cl cr rl rr l : List (α × K × K)) : Prop where
  mem : ∀ x ∈ l, (f x.1).1 ∈ V ∧ (f x.1).2.1 ∈ D
  diag : ∀ x ∈ l, g x.1 x.1 = ω ((f x.1).1 * (f x.1).2.1)
  pair : l.Pairwise fun x y => Stands ω f g x.1 y.1
  cl : ∀ x ∈ cl, x.2.1 = - ω ((f x.1).2.1 * b)
  cr : ∀ x ∈ cr, x.2.1 = ω (b * (f x.1).2.1)
  rl : ∀ x ∈ rl, x.2.2 = ω ((f x.1).1 * d)
  rr : ∀ x ∈ rr, x.2.2 = - ω (d * (f x.1).1)

theorem broken_base (hF : Fermions V D p) (hω : Quasi V ω) {b d : A} (hb : b ∈ V) (hd : d ∈ D) {L1 L3 : List (α × K × K)}
    (h : Border V D ω f g b d L1 L3 L1 L3 (L1 ++ L3)) :
    ω (opsProd f L1 * (b * d) * opsProd f L3) = bdet f g (ω (b * d)) (L1 ++ L3) := by
  set F : Option (α × K × K) → A × A × K := fun x => match x with | some y => f y.1 | none => (b, d, 0) with hFdef
  have h1 := wick_labels (f := F) (g := bordered g (ω (b * d))) (l := L1.map some ++ none :: L3.map some) hF hω ?_ ?_ ?_
  · have e1 : ((L1.map some ++ none :: L3.map some).map F).map pairOp = (L1.map fun x => pairOp (f x.1)) ++ (b * d) :: (L3.map fun x => pairOp (f x.1)) := by
      simp only [List.map_append, List.map_cons, List.map_map]
      congr 1
      congr 1
      simp [hFdef, pairOp]
    rw [e1, List.prod_append, List.prod_cons] at h1
    rw [mul_assoc]
    refine Eq.trans h1 ?_
    have e2 : (fun ρ => - (F ρ).2.2) = borderD f := by
      funext x
      cases x with
      | none => simp [hFdef, borderD]
      | some y => rfl
    rw [e2]
    refine (detN_list_perm (borderD f) (bordered g (ω (b * d))) ?_)
    rw [List.map_append]
    exact List.perm_middle
  · intro x hx
    rcases List.mem_append.1 hx with q | q
    · obtain ⟨y, hy, rfl⟩ := List.mem_map.1 q
      exact h.mem y (List.mem_append_left _ hy)
    · rcases List.mem_cons.1 q with rfl | q
      · exact ⟨hb, hd⟩
      · obtain ⟨y, hy, rfl⟩ := List.mem_map.1 q
        exact h.mem y (List.mem_append_right _ hy)
  · have hp := List.pairwise_append.1 h.pair
    rw [List.pairwise_append, List.pairwise_map, List.pairwise_cons, List.pairwise_map]
    refine ⟨hp.1, ⟨?_, hp.2.1⟩, ?_⟩
    · intro x hx
      obtain ⟨y, hy, rfl⟩ := List.mem_map.1 hx
      exact ⟨h.rr y hy, h.cr y hy⟩
    · intro x hx y hy
      obtain ⟨x, hx', rfl⟩ := List.mem_map.1 hx
      rcases List.mem_cons.1 hy with rfl | hy
      · exact ⟨h.cl x hx', h.rl x hx'⟩
      · obtain ⟨y, hy', rfl⟩ := List.mem_map.1 hy
        exact hp.2.2 x hx' y hy'
  · intro x hx
    rcases List.mem_append.1 hx with q | q
    · obtain ⟨y, hy, rfl⟩ := List.mem_map.1 q
      exact h.diag y (List.mem_append_left _ hy)
    · rcases List.mem_cons.1 q with rfl | q
      · rfl
      · obtain ⟨y, hy, rfl⟩ := List.mem_map.1 q
        exact h.diag y (List.mem_append_right _ hy)

theorem opsProd_map (φ : α × K × K → K × K) (l : List (α × K × K)) : opsProd f (l.map fun x => (x.1, φ x)) = opsProd f l := by
  unfold opsProd
  rw [List.map_map]
  rfl

theorem mixed_sum (hF : Fermions V D p) (hω : Quasi V ω) {b d : A} (hb : b ∈ V) (hd : d ∈ D) : ω (b * d) - - ω (d * b) = p b d := by
  rw [sub_neg_eq_add, ← map_add, hF.mixed b hb d hd, Algebra.algebraMap_eq_smul_one, map_smul, hω.one, smul_eq_mul, mul_one]

/-- The creator stands left of its annihilator. -/
theorem broken_left (hF : Fermions V D p) (hω : Quasi V ω) {b d : A} (hb : b ∈ V) (hd : d ∈ D) {L1 L2 L3 : List (α × K × K)}
    (h : Border V D ω f g b d L1 (L2 ++ L3) (L1 ++ L2) L3 (L1 ++ (L2 ++ L3))) :
    ω (opsProd f L1 * b * opsProd f L2 * d * opsProd f L3) = bdet f g (ω (b * d)) (L1 ++ (L2 ++ L3)) := by
  induction hn : L2.length generalizing L1 L2 L3 b with
  | zero =>
    obtain rfl := List.length_eq_zero_iff.1 hn
    rw [List.append_nil] at h
    rw [List.nil_append] at h ⊢
    have := broken_base hF hω hb hd (L1 := L1) (L3 := L3) h
    rw [← this]
    congr 1
    simp [opsProd, mul_assoc]
  | succ m ih =>
    obtain ⟨P, L2, rfl⟩ := List.exists_cons_of_length_eq_add_one hn
    obtain ⟨ρ, c, r⟩ := P
    have hm : L2.length = m := by simpa using hn
    have hmP : (ρ, c, r) ∈ L1 ++ ((ρ, c, r) :: L2 ++ L3) := by simp
    have hmem : (f ρ).1 ∈ V ∧ (f ρ).2.1 ∈ D := h.mem _ hmP
    have hp := h.pair
    rw [List.cons_append, List.pairwise_append, List.pairwise_cons] at hp
    obtain ⟨hp1, ⟨hp2, hp3⟩, hp4⟩ := hp
    have e0 : ω (opsProd f L1 * b * opsProd f ((ρ, c, r) :: L2) * d * opsProd f L3) =
        ω (opsProd f (L1 ++ [(ρ, - ω ((f ρ).2.1 * b), r)]) * b * opsProd f L2 * d * opsProd f L3) -
        p b (f ρ).2.1 * ω (opsProd f L1 * (f ρ).1 * opsProd f L2 * d * opsProd f L3) := by
      rw [← smul_eq_mul (p b (f ρ).2.1), ← map_smul, ← map_sub]
      congr 1
      rw [opsProd_cons, opsProd_append, opsProd_cons]
      have := cross_pair hF hb hmem
      simp only [mul_assoc]
      rw [← mul_assoc b (pairOp (f ρ)), this]
      simp only [opsProd, List.map_nil, List.prod_nil, one_mul, sub_mul, mul_sub, smul_mul_assoc, mul_smul_comm, mul_assoc]
    have e1 := ih hb (L1 := L1 ++ [(ρ, - ω ((f ρ).2.1 * b), r)]) (L2 := L2) (L3 := L3) ?_ hm
    have e2 := ih hmem.1 (L1 := L1.map fun σ => (σ.1, g σ.1 ρ, σ.2.2)) (L2 := L2.map fun σ => (σ.1, g σ.1 ρ, σ.2.2))
      (L3 := L3.map fun σ => (σ.1, g σ.1 ρ, σ.2.2)) ?_ (by rw [List.length_map, hm])
    · rw [opsProd_map, opsProd_map, opsProd_map] at e2
      rw [e0, e1, e2]
      have hr : r = ω ((f ρ).1 * d) := h.rl (ρ, c, r) (by simp)
      have hcc : c = ω (b * (f ρ).2.1) := h.cr (ρ, c, r) (by simp)
      have k1 : bdet f g (ω (b * d)) (L1 ++ ((ρ, c, r) :: L2 ++ L3)) = bdet f g (ω (b * d)) ((ρ, c, r) :: (L1 ++ (L2 ++ L3))) := by
        rw [List.cons_append]
        exact bdet_perm List.perm_middle
      have k2 : bdet f g (ω (b * d)) (L1 ++ [(ρ, - ω ((f ρ).2.1 * b), r)] ++ (L2 ++ L3)) =
          bdet f g (ω (b * d)) ((ρ, - ω ((f ρ).2.1 * b), r) :: (L1 ++ (L2 ++ L3))) := by
        rw [List.append_assoc, List.singleton_append]
        exact bdet_perm List.perm_middle
      rw [k1, k2, bdet_entry (c := - ω ((f ρ).2.1 * b)) (c' := c), List.map_append, List.map_append, hcc, mixed_sum hF hω hb hmem.2, ← hr]
    · refine ⟨?_, ?_, ?_, ?_, ?_, ?_, ?_⟩
      · intro x hx
        rw [← List.map_append, ← List.map_append] at hx
        obtain ⟨y, hy, rfl⟩ := List.mem_map.1 hx
        exact h.mem y (by simp at hy ⊢; tauto)
      · intro x hx
        rw [← List.map_append, ← List.map_append] at hx
        obtain ⟨y, hy, rfl⟩ := List.mem_map.1 hx
        exact h.diag y (by simp at hy ⊢; tauto)
      · rw [← List.map_append, ← List.map_append, List.pairwise_map, List.pairwise_append]
        exact ⟨hp1, hp3, fun x hx y hy => hp4 x hx y (List.mem_cons_of_mem _ hy)⟩
      · intro x hx
        obtain ⟨y, hy, rfl⟩ := List.mem_map.1 hx
        exact (hp4 y hy _ List.mem_cons_self).1
      · intro x hx
        rw [← List.map_append] at hx
        obtain ⟨y, hy, rfl⟩ := List.mem_map.1 hx
        exact (hp2 y hy).2
      · intro x hx
        rw [← List.map_append] at hx
        obtain ⟨y, hy, rfl⟩ := List.mem_map.1 hx
        exact h.rl y (by simp at hy ⊢; tauto)
      · intro x hx
        obtain ⟨y, hy, rfl⟩ := List.mem_map.1 hx
        exact h.rr y hy
    · refine ⟨?_, ?_, ?_, ?_, ?_, ?_, ?_⟩
      · intro x hx
        simp only [List.append_assoc, List.singleton_append, List.mem_append, List.mem_cons] at hx
        rcases hx with q | rfl | q | q
        · exact h.mem x (by simp [q])
        · exact hmem
        · exact h.mem x (by simp [q])
        · exact h.mem x (by simp [q])
      · intro x hx
        simp only [List.append_assoc, List.singleton_append, List.mem_append, List.mem_cons] at hx
        rcases hx with q | rfl | q | q
        · exact h.diag x (by simp [q])
        · exact h.diag (ρ, c, r) hmP
        · exact h.diag x (by simp [q])
        · exact h.diag x (by simp [q])
      · rw [List.append_assoc, List.singleton_append, List.pairwise_append, List.pairwise_cons]
        refine ⟨hp1, ⟨hp2, hp3⟩, fun x hx y hy => ?_⟩
        rcases List.mem_cons.1 hy with rfl | hy
        · exact hp4 x hx (ρ, c, r) List.mem_cons_self
        · exact hp4 x hx y (List.mem_cons_of_mem _ hy)
      · intro x hx
        rcases List.mem_append.1 hx with q | q
        · exact h.cl x q
        · rw [List.mem_singleton.1 q]
      · exact fun x hx => h.cr x (by simp at hx ⊢; tauto)
      · intro x hx
        simp only [List.append_assoc, List.singleton_append, List.mem_append, List.mem_cons] at hx
        rcases hx with q | rfl | q
        · exact h.rl x (by simp [q])
        · exact h.rl (ρ, c, r) (by simp)
        · exact h.rl x (by simp [q])
      · exact h.rr

/-- The annihilator stands left of its creator. -/
theorem broken_right (hF : Fermions V D p) (hω : Quasi V ω) {b d : A} (hb : b ∈ V) (hd : d ∈ D) {L1 L2 L3 : List (α × K × K)}
    (h : Border V D ω f g b d (L1 ++ L2) L3 L1 (L2 ++ L3) (L1 ++ L2 ++ L3)) :
    ω (opsProd f L1 * d * opsProd f L2 * b * opsProd f L3) = - bdet f g (- ω (d * b)) (L1 ++ L2 ++ L3) := by
  induction hn : L2.length generalizing L1 L2 L3 b with
  | zero =>
    obtain rfl := List.length_eq_zero_iff.1 hn
    rw [List.append_nil] at h ⊢
    rw [List.nil_append] at h
    have h1 := broken_base hF hω hb hd (L1 := L1) (L3 := L3) h
    have h2 := wick_labels (f := f) (g := g) (l := (L1 ++ L3).map Prod.fst) hF hω
      (by intro x hx; obtain ⟨y, hy, rfl⟩ := List.mem_map.1 hx; exact h.mem y hy) (by rw [List.pairwise_map]; exact h.pair)
      (by intro x hx; obtain ⟨y, hy, rfl⟩ := List.mem_map.1 hx; exact h.diag y hy)
    have e1 : (((L1 ++ L3).map Prod.fst).map f).map pairOp = (L1.map fun x => pairOp (f x.1)) ++ L3.map fun x => pairOp (f x.1) := by
      rw [List.map_map, List.map_map, List.map_append]
      rfl
    rw [e1, List.prod_append, List.length_map] at h2
    rw [bdet_corner (ω (b * d)), ← h1, ← h2, show - ω (d * b) - ω (b * d) = - p b d by rw [← mixed_sum hF hω hb hd]; ring]
    have e2 : opsProd f L1 * d * opsProd f [] * b * opsProd f L3 = p b d • (opsProd f L1 * opsProd f L3) - opsProd f L1 * (b * d) * opsProd f L3 := by
      have := hF.mixed b hb d hd
      rw [Algebra.algebraMap_eq_smul_one] at this
      have k : d * b = p b d • (1 : A) - b * d := by rw [← this]; abel
      rw [show opsProd f ([] : List (α × K × K)) = 1 from rfl, mul_one, mul_assoc (opsProd f L1), k]
      simp [mul_sub, sub_mul]
    rw [e2, map_sub, map_smul, smul_eq_mul]
    show _ = - (ω (opsProd f L1 * (b * d) * opsProd f L3) + - p b d * ω (opsProd f L1 * opsProd f L3))
    ring
  | succ m ih =>
    obtain ⟨L2, P, rfl⟩ : ∃ l x, L2 = l ++ [x] := ⟨L2.dropLast, L2.getLast (by intro q; rw [q] at hn; simp at hn), (List.dropLast_append_getLast _).symm⟩
    obtain ⟨ρ, c, r⟩ := P
    have hm : L2.length = m := by simpa using hn
    have hmP : (ρ, c, r) ∈ L1 ++ (L2 ++ [(ρ, c, r)]) ++ L3 := by simp
    have hmem : (f ρ).1 ∈ V ∧ (f ρ).2.1 ∈ D := h.mem _ hmP
    have hp := h.pair
    have hass : L1 ++ (L2 ++ [(ρ, c, r)]) ++ L3 = (L1 ++ L2) ++ (ρ, c, r) :: L3 := by simp
    rw [hass, List.pairwise_append, List.pairwise_cons] at hp
    obtain ⟨hp1, ⟨hp2, hp3⟩, hp4⟩ := hp
    have e0 : ω (opsProd f L1 * d * opsProd f (L2 ++ [(ρ, c, r)]) * b * opsProd f L3) =
        ω (opsProd f L1 * d * opsProd f L2 * b * opsProd f ((ρ, ω (b * (f ρ).2.1), r) :: L3)) +
        p b (f ρ).2.1 * ω (opsProd f L1 * d * opsProd f L2 * (f ρ).1 * opsProd f L3) := by
      rw [← smul_eq_mul (p b (f ρ).2.1), ← map_smul, ← map_add]
      congr 1
      rw [opsProd_cons, opsProd_append, opsProd_cons]
      have := cross_pair hF hb hmem
      simp only [mul_assoc]
      rw [← mul_assoc b (pairOp (f ρ)), this]
      simp only [opsProd, List.map_nil, List.prod_nil, one_mul, sub_mul, mul_sub, smul_mul_assoc, mul_smul_comm, mul_assoc]
      abel
    have e1 := ih hb (L1 := L1) (L2 := L2) (L3 := (ρ, ω (b * (f ρ).2.1), r) :: L3) ?_ hm
    have e2 := ih hmem.1 (L1 := L1.map fun σ => (σ.1, g σ.1 ρ, σ.2.2)) (L2 := L2.map fun σ => (σ.1, g σ.1 ρ, σ.2.2))
      (L3 := L3.map fun σ => (σ.1, g σ.1 ρ, σ.2.2)) ?_ (by rw [List.length_map, hm])
    · rw [opsProd_map, opsProd_map, opsProd_map] at e2
      rw [e0, e1, e2]
      have hr : r = - ω (d * (f ρ).1) := h.rr (ρ, c, r) (by simp)
      have hcc : c = - ω ((f ρ).2.1 * b) := h.cl (ρ, c, r) (by simp)
      have k1 : bdet f g (- ω (d * b)) (L1 ++ (L2 ++ [(ρ, c, r)]) ++ L3) = bdet f g (- ω (d * b)) ((ρ, c, r) :: (L1 ++ L2 ++ L3)) := by
        rw [hass]
        exact bdet_perm List.perm_middle
      have k2 : bdet f g (- ω (d * b)) (L1 ++ L2 ++ (ρ, ω (b * (f ρ).2.1), r) :: L3) =
          bdet f g (- ω (d * b)) ((ρ, ω (b * (f ρ).2.1), r) :: (L1 ++ L2 ++ L3)) := bdet_perm List.perm_middle
      rw [k1, k2, bdet_entry (c := ω (b * (f ρ).2.1)) (c' := c), List.map_append, List.map_append, hcc,
        show - ω ((f ρ).2.1 * b) - ω (b * (f ρ).2.1) = - p b (f ρ).2.1 by rw [← mixed_sum hF hω hb hmem.2]; ring, ← hr]
      ring
    · refine ⟨?_, ?_, ?_, ?_, ?_, ?_, ?_⟩
      · intro x hx
        rw [← List.map_append, ← List.map_append] at hx
        obtain ⟨y, hy, rfl⟩ := List.mem_map.1 hx
        exact h.mem y (by simp at hy ⊢; tauto)
      · intro x hx
        rw [← List.map_append, ← List.map_append] at hx
        obtain ⟨y, hy, rfl⟩ := List.mem_map.1 hx
        exact h.diag y (by simp at hy ⊢; tauto)
      · rw [← List.map_append, ← List.map_append, List.pairwise_map, List.pairwise_append]
        exact ⟨hp1, hp3, fun x hx y hy => hp4 x hx y (List.mem_cons_of_mem _ hy)⟩
      · intro x hx
        rw [← List.map_append] at hx
        obtain ⟨y, hy, rfl⟩ := List.mem_map.1 hx
        exact (hp4 y hy _ List.mem_cons_self).1
      · intro x hx
        obtain ⟨y, hy, rfl⟩ := List.mem_map.1 hx
        exact (hp2 y hy).2
      · intro x hx
        obtain ⟨y, hy, rfl⟩ := List.mem_map.1 hx
        exact h.rl y hy
      · intro x hx
        rw [← List.map_append] at hx
        obtain ⟨y, hy, rfl⟩ := List.mem_map.1 hx
        exact h.rr y (by simp at hy ⊢; tauto)
    · refine ⟨?_, ?_, ?_, ?_, ?_, ?_, ?_⟩
      · intro x hx
        simp only [List.mem_append, List.mem_cons] at hx
        rcases hx with (q | q) | rfl | q
        · exact h.mem x (by simp [q])
        · exact h.mem x (by simp [q])
        · exact hmem
        · exact h.mem x (by simp [q])
      · intro x hx
        simp only [List.mem_append, List.mem_cons] at hx
        rcases hx with (q | q) | rfl | q
        · exact h.diag x (by simp [q])
        · exact h.diag x (by simp [q])
        · exact h.diag (ρ, c, r) hmP
        · exact h.diag x (by simp [q])
      · rw [List.pairwise_append, List.pairwise_cons]
        refine ⟨hp1, ⟨hp2, hp3⟩, fun x hx y hy => ?_⟩
        rcases List.mem_cons.1 hy with rfl | hy
        · exact hp4 x hx (ρ, c, r) List.mem_cons_self
        · exact hp4 x hx y (List.mem_cons_of_mem _ hy)
      · exact fun x hx => h.cl x (by simp at hx ⊢; tauto)
      · intro x hx
        rcases List.mem_cons.1 hx with rfl | q
        · rfl
        · exact h.cr x q
      · exact h.rl
      · intro x hx
        simp only [List.mem_append, List.mem_cons] at hx
        rcases hx with q | rfl | q
        · exact h.rr x (by simp [q])
        · exact h.rr (ρ, c, r) (by simp)
        · exact h.rr x (by simp [q])

end CTInt
