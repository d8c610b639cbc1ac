import Verif.Proofs.PartSide

/-!
# Marking operators and undoing it in the partitioned determinant matrix (helper lemmas for C27, C60)
-/

set_option linter.all false

namespace CTInt

variable {T X : Type} [LinearOrder T]

/-- The members when the sets hold `L`, and `adds` and `rems` are marked. -/
def sideOf (τ : X → T) (σ : X → ℕ) (n N : ℕ) (order L adds rems : List X) : PSide X :=
  ⟨order, byTime τ L, tab n fun k => byTime τ (inSec σ k L), tab N fun k => inSec σ k adds, tab N fun k => inSec σ k rems⟩

variable {τ : X → T} {σ : X → ℕ} {n N : ℕ} {order L L' adds rems : List X} {x : X}

theorem tab_push (l : List X) (x : X) : (tab N fun k => inSec σ k l).set (σ x) (inSec σ (σ x) l ++ [x]) =
    tab N fun k => inSec σ k (l ++ [x]) := by
  rw [tab_set]
  refine tab_congr fun k _ => ?_
  rw [inSec_append, inSec_cons]
  by_cases h : k = σ x
  · subst h; rw [if_pos rfl, if_pos rfl]; rfl
  · rw [if_neg h, if_neg (Ne.symm h)]; simp [inSec]

theorem secs_insert (h : ((x :: L).map τ).Nodup) :
    (tab n fun k => byTime τ (inSec σ k L)).set (σ x) (Side.setInsert τ (byTime τ (inSec σ (σ x) L)) x) =
    tab n fun k => byTime τ (inSec σ k (x :: L)) := by
  rw [tab_set]
  refine tab_congr fun k _ => ?_
  rw [inSec_cons]
  have := inSec_nodup σ (σ x) h
  rw [inSec_cons, if_pos rfl] at this
  by_cases h : k = σ x
  · subst h; rw [if_pos rfl, if_pos rfl, byTime_insert this]
  · rw [if_neg h, if_neg (Ne.symm h)]

theorem secs_erase (h : (L.map τ).Nodup) (hp : L.Perm (x :: L')) :
    (tab n fun k => byTime τ (inSec σ k L)).set (σ x) (Side.setErase τ (byTime τ (inSec σ (σ x) L)) x) =
    tab n fun k => byTime τ (inSec σ k L') := by
  rw [tab_set]
  refine tab_congr fun k _ => ?_
  have hk := inSec_perm σ k hp
  rw [inSec_cons] at hk
  by_cases e : k = σ x
  · subst e
    rw [if_pos rfl] at hk
    rw [if_pos rfl, byTime_erase (inSec_nodup _ _ h) hk]
  · rw [if_neg (Ne.symm e)] at hk
    rw [if_neg e, byTime_congr hk (inSec_nodup _ _ h)]

theorem insert_ok (h : ((x :: L).map τ).Nodup) (hL : ∀ y ∈ L, σ y < n) (hx : σ x < n) :
    (sideOf τ σ n N order L adds rems).insert τ x (σ x) =
      .ok (secSign τ σ n L * secSign τ σ n (x :: L), sideOf τ σ n N order (x :: L) adds rems) := by
  unfold PSide.insert sideOf PSide.passed
  dsimp only
  rw [tab_get hx, Res.bind_ok, Res.pure_eq, secs_insert h, byTime_insert h]
  congr 2
  rw [secSign_cons h hL hx, ← mul_assoc, secSign_sq, one_mul]

theorem erase_ok (h : (L.map τ).Nodup) (hL : ∀ y ∈ L, σ y < n) (hp : L.Perm (x :: L')) :
    (sideOf τ σ n N order L adds rems).erase τ x (σ x) =
      .ok (secSign τ σ n L * secSign τ σ n L', sideOf τ σ n N order L' adds rems) := by
  have hx : σ x < n := hL x (hp.mem_iff.mpr (by simp))
  have hn : ((x :: L').map τ).Nodup := (hp.map τ).nodup_iff.mp h
  have hL' : ∀ y ∈ L', σ y < n := fun y hy => hL y (hp.mem_iff.mpr (by simp [hy]))
  unfold PSide.erase sideOf PSide.passed
  dsimp only
  rw [tab_get hx, Res.bind_ok, Res.pure_eq, secs_erase h hp, byTime_erase h hp]
  congr 2
  have e1 : secSign τ σ n L = secSign τ σ n (x :: L') := by unfold secSign; rw [secList_congr hp h]
  rw [e1, secSign_cons hn hL' hx, mul_right_comm, secSign_sq, one_mul, parity_eq_pow, parity_eq_pow]
  refine neg_pow_congr ?_
  have c1 : (byTime τ L).countP (fun y => decide (τ x ≤ τ y)) = (byTime τ L').countP (fun y => decide (τ x ≤ τ y)) + 1 := by
    rw [((byTime_perm τ L).trans hp).countP_eq, List.countP_cons, (byTime_perm τ L').countP_eq]; simp
  have c2 : (byTime τ (inSec σ (σ x) L)).countP (fun y => decide (τ x ≤ τ y)) =
      (byTime τ (inSec σ (σ x) L')).countP (fun y => decide (τ x ≤ τ y)) + 1 := by
    have hk := inSec_perm σ (σ x) hp
    rw [inSec_cons, if_pos rfl] at hk
    rw [((byTime_perm τ _).trans hk).countP_eq, List.countP_cons, (byTime_perm τ (inSec σ (σ x) L')).countP_eq]; simp
  have c3 : (((tab n fun k => byTime τ (inSec σ k L)).drop (σ x + 1)).map List.length) =
      (((tab n fun k => byTime τ (inSec σ k L')).drop (σ x + 1)).map List.length) := by
    refine List.ext_getElem? fun i => ?_
    rw [List.getElem?_map, List.getElem?_map, List.getElem?_drop, List.getElem?_drop]
    by_cases hi : σ x + 1 + i < n
    · rw [tab_getElem? hi, tab_getElem? hi, Option.map_some, Option.map_some, (byTime_perm τ _).length_eq,
        (byTime_perm τ _).length_eq, (inSec_perm σ _ hp).length_eq, inSec_cons, if_neg (by omega)]
    · rw [List.getElem?_eq_none (by rw [tab_length]; omega), List.getElem?_eq_none (by rw [tab_length]; omega)]
  rw [c1, c2, c3]
  omega

variable {f : X → ℕ} {sector : List ℕ}

theorem markAdd_ok (hs : Res.get sector (f x) = .ok (σ x)) (hN : n ≤ N) (h : ((x :: L).map τ).Nodup)
    (hL : ∀ y ∈ L, σ y < n) (hx : σ x < n) :
    PSide.markAdd τ f sector (sideOf τ σ n N order L adds rems) x =
      .ok (secSign τ σ n L * secSign τ σ n (x :: L), sideOf τ σ n N order (x :: L) (adds ++ [x]) rems) := by
  unfold PSide.markAdd
  rw [hs, Res.bind_ok]
  have : Res.get (sideOf τ σ n N order L adds rems).add (σ x) = .ok (inSec σ (σ x) adds) := tab_get (by omega)
  rw [this, Res.bind_ok]
  have e : ({ sideOf τ σ n N order L adds rems with
      add := (sideOf τ σ n N order L adds rems).add.set (σ x) (inSec σ (σ x) adds ++ [x]) } : PSide X) =
      sideOf τ σ n N order L (adds ++ [x]) rems := by
    unfold sideOf; dsimp only; rw [tab_push]
  rw [e]
  exact insert_ok h hL hx

theorem markRem_ok (hs : Res.get sector (f x) = .ok (σ x)) (hN : n ≤ N) (h : (L.map τ).Nodup)
    (hL : ∀ y ∈ L, σ y < n) (hp : L.Perm (x :: L')) :
    PSide.markRem τ f sector (sideOf τ σ n N order L adds rems) x =
      .ok (secSign τ σ n L * secSign τ σ n L', sideOf τ σ n N order L' adds (rems ++ [x])) := by
  have hx : σ x < n := hL x (hp.mem_iff.mpr (by simp))
  unfold PSide.markRem
  rw [hs, Res.bind_ok]
  have : Res.get (sideOf τ σ n N order L adds rems).rem (σ x) = .ok (inSec σ (σ x) rems) := tab_get (by omega)
  rw [this, Res.bind_ok]
  have e : ({ sideOf τ σ n N order L adds rems with
      rem := (sideOf τ σ n N order L adds rems).rem.set (σ x) (inSec σ (σ x) rems ++ [x]) } : PSide X) =
      sideOf τ σ n N order L adds (rems ++ [x]) := by
    unfold sideOf; dsimp only; rw [tab_push]
  rw [e]
  exact erase_ok h hL hp

theorem sideOf_congr (hp : L.Perm L') (h : (L.map τ).Nodup) :
    sideOf τ σ n N order L adds rems = sideOf τ σ n N order L' adds rems := by
  unfold sideOf
  rw [byTime_congr hp h, tab_congr fun k _ => byTime_congr (inSec_perm σ k hp) (inSec_nodup σ k h)]

theorem secSign_congr (hp : L.Perm L') (h : (L.map τ).Nodup) : secSign τ σ n L = secSign τ σ n L' := by
  unfold secSign; rw [secList_congr hp h]

/-- The loop over the operators to be added. -/
theorem marksAdd_ok (hN : n ≤ N) (l : List X) (hs : ∀ x ∈ l, Res.get sector (f x) = .ok (σ x) ∧ σ x < n) :
    ∀ (L adds : List X), ((L ++ l).map τ).Nodup → (∀ y ∈ L, σ y < n) → ∀ e : ℤ,
    Res.foldl (fun (y : ℤ × PSide X) x => do
        let r ← PSide.markAdd τ f sector y.2 x
        pure (y.1 * r.1, r.2)) (e, sideOf τ σ n N order L adds rems) l =
      .ok (e * (secSign τ σ n L * secSign τ σ n (L ++ l)), sideOf τ σ n N order (L ++ l) (adds ++ l) rems) := by
  induction l with
  | nil =>
    intro L adds _ _ e
    rw [Res.foldl_nil, List.append_nil, secSign_sq, mul_one, List.append_nil]
  | cons x l ih =>
    intro L adds h hL e
    have hp : (L ++ x :: l).Perm ((x :: L) ++ l) := List.perm_middle
    have hn : (((x :: L) ++ l).map τ).Nodup := (hp.map τ).nodup_iff.mp h
    have hn' : ((x :: L).map τ).Nodup := by rw [List.map_append] at hn; exact (List.nodup_append.mp hn).1
    rw [Res.foldl_cons]
    dsimp only
    rw [markAdd_ok (hs x (by simp)).1 hN hn' hL (hs x (by simp)).2, Res.bind_ok, Res.pure_eq, Res.bind_ok]
    dsimp only
    rw [ih (fun y hy => hs y (by simp [hy])) (x :: L) (adds ++ [x]) hn
      (by intro y hy; rcases List.mem_cons.mp hy with rfl | hy
          · exact (hs _ (by simp)).2
          · exact hL y hy)]
    rw [sideOf_congr hp.symm hn, secSign_congr hp.symm hn, List.append_assoc]
    congr 2
    have := secSign_sq τ σ n (x :: L)
    calc _ = e * secSign τ σ n L * (secSign τ σ n (x :: L) * secSign τ σ n (x :: L)) * secSign τ σ n (L ++ x :: l) := by ring
      _ = _ := by rw [this]; ring

/-- The loop over the operators to be removed. -/
theorem marksRem_ok (hN : n ≤ N) (l : List X) (hs : ∀ x ∈ l, Res.get sector (f x) = .ok (σ x)) :
    ∀ (L R rems : List X), L.Perm (R ++ l) → (L.map τ).Nodup → (∀ y ∈ L, σ y < n) → ∀ e : ℤ,
    Res.foldl (fun (y : ℤ × PSide X) x => do
        let r ← PSide.markRem τ f sector y.2 x
        pure (y.1 * r.1, r.2)) (e, sideOf τ σ n N order L adds rems) l =
      .ok (e * (secSign τ σ n L * secSign τ σ n R), sideOf τ σ n N order R adds (rems ++ l)) := by
  induction l with
  | nil =>
    intro L R rems hp h hL e
    rw [List.append_nil] at hp
    rw [Res.foldl_nil, List.append_nil, secSign_congr hp h, secSign_sq, mul_one, sideOf_congr hp h]
  | cons x l ih =>
    intro L R rems hp h hL e
    have hp' : L.Perm (x :: (R ++ l)) := hp.trans List.perm_middle
    have hn : ((R ++ l).map τ).Nodup := by
      have := (hp'.map τ).nodup_iff.mp h
      rw [List.map_cons, List.nodup_cons] at this; exact this.2
    have hL' : ∀ y ∈ R ++ l, σ y < n := fun y hy => hL y (hp'.mem_iff.mpr (by simp only [List.mem_cons]; exact Or.inr hy))
    rw [Res.foldl_cons]
    dsimp only
    rw [markRem_ok (hs x (by simp)) hN h hL hp', Res.bind_ok, Res.pure_eq, Res.bind_ok]
    dsimp only
    rw [ih (fun y hy => hs y (by simp [hy])) (R ++ l) R (rems ++ [x]) (.refl _) hn hL', List.append_assoc]
    congr 2
    have := secSign_sq τ σ n (R ++ l)
    calc _ = e * secSign τ σ n L * (secSign τ σ n (R ++ l) * secSign τ σ n (R ++ l)) * secSign τ σ n R := by ring
      _ = _ := by rw [this]; ring

/-- Taking the added operators of one sector out again. -/
theorem unAdd_loop (k : ℕ) (hk : k < n) (l : List X) (hs : ∀ x ∈ l, σ x = k) :
    ∀ (L R : List X), L.Perm (R ++ l) → (L.map τ).Nodup →
    Res.foldl (fun (S : PSide X) x => do
      let sec ← Res.get S.secs k
      pure { S with set := Side.setErase τ S.set x, secs := S.secs.set k (Side.setErase τ sec x) })
      (sideOf τ σ n N order L adds rems) l = .ok (sideOf τ σ n N order R adds rems) := by
  induction l with
  | nil =>
    intro L R hp h
    rw [List.append_nil] at hp
    rw [Res.foldl_nil, sideOf_congr hp h]
  | cons x l ih =>
    intro L R hp h
    have hp' : L.Perm (x :: (R ++ l)) := hp.trans List.perm_middle
    have hn : ((R ++ l).map τ).Nodup := by
      have := (hp'.map τ).nodup_iff.mp h
      rw [List.map_cons, List.nodup_cons] at this; exact this.2
    have hx := hs x (by simp)
    rw [Res.foldl_cons]
    have e1 : Res.get (sideOf τ σ n N order L adds rems).secs k = .ok (byTime τ (inSec σ k L)) := tab_get hk
    rw [e1, Res.bind_ok, Res.pure_eq, Res.bind_ok]
    have e2 : ({ sideOf τ σ n N order L adds rems with
        set := Side.setErase τ (sideOf τ σ n N order L adds rems).set x,
        secs := (sideOf τ σ n N order L adds rems).secs.set k (Side.setErase τ (byTime τ (inSec σ k L)) x) } : PSide X) =
        sideOf τ σ n N order (R ++ l) adds rems := by
      subst hx
      unfold sideOf; dsimp only; rw [secs_erase h hp', byTime_erase h hp']
    rw [e2]
    exact ih (fun y hy => hs y (by simp [hy])) (R ++ l) R (.refl _) hn

/-- Putting the removed operators of one sector back. -/
theorem unRem_loop (k : ℕ) (hk : k < n) (l : List X) (hs : ∀ x ∈ l, σ x = k) :
    ∀ (L : List X), ((L ++ l).map τ).Nodup →
    Res.foldl (fun (S : PSide X) x => do
      let sec ← Res.get S.secs k
      pure { S with set := Side.setInsert τ S.set x, secs := S.secs.set k (Side.setInsert τ sec x) })
      (sideOf τ σ n N order L adds rems) l = .ok (sideOf τ σ n N order (L ++ l) adds rems) := by
  induction l with
  | nil => intro L h; rw [Res.foldl_nil, List.append_nil]
  | cons x l ih =>
    intro L h
    have hp : (L ++ x :: l).Perm ((x :: L) ++ l) := List.perm_middle
    have hn : (((x :: L) ++ l).map τ).Nodup := (hp.map τ).nodup_iff.mp h
    have hn' : ((x :: L).map τ).Nodup := by rw [List.map_append] at hn; exact (List.nodup_append.mp hn).1
    have hx := hs x (by simp)
    rw [Res.foldl_cons]
    have e1 : Res.get (sideOf τ σ n N order L adds rems).secs k = .ok (byTime τ (inSec σ k L)) := tab_get hk
    rw [e1, Res.bind_ok, Res.pure_eq, Res.bind_ok]
    have e2 : ({ sideOf τ σ n N order L adds rems with
        set := Side.setInsert τ (sideOf τ σ n N order L adds rems).set x,
        secs := (sideOf τ σ n N order L adds rems).secs.set k (Side.setInsert τ (byTime τ (inSec σ k L)) x) } : PSide X) =
        sideOf τ σ n N order (x :: L) adds rems := by
      subst hx
      unfold sideOf; dsimp only; rw [secs_insert hn', byTime_insert hn']
    rw [e2, ih (fun y hy => hs y (by simp [hy])) (x :: L) hn, sideOf_congr hp.symm hn]

theorem inSec_mem {k : ℕ} {l : List X} : ∀ x ∈ inSec σ k l, σ x = k := by
  intro x hx; unfold inSec at hx; simpa using (List.mem_filter.mp hx).2

theorem unAdd_all (hN : n ≤ N) (ks : List ℕ) (hk : ∀ k ∈ ks, k < n) :
    ∀ (L R : List X), L.Perm (R ++ ks.flatMap fun k => inSec σ k adds) → (L.map τ).Nodup →
    Res.foldl (fun S k => PSide.unAdd τ S k) (sideOf τ σ n N order L adds rems) ks =
      .ok (sideOf τ σ n N order R adds rems) := by
  induction ks with
  | nil =>
    intro L R hp h
    rw [Res.foldl_nil, sideOf_congr (by simpa using hp) h]
  | cons k ks ih =>
    intro L R hp h
    have hkn := hk k (by simp)
    have hp' : L.Perm ((R ++ ks.flatMap fun k => inSec σ k adds) ++ inSec σ k adds) := by
      refine hp.trans ?_
      rw [List.flatMap_cons, List.append_assoc]
      exact List.Perm.append_left R List.perm_append_comm
    have hn : ((R ++ ks.flatMap fun k => inSec σ k adds).map τ).Nodup := by
      have := (hp'.map τ).nodup_iff.mp h
      rw [List.map_append] at this; exact (List.nodup_append.mp this).1
    rw [Res.foldl_cons]
    unfold PSide.unAdd
    have e1 : Res.get (sideOf τ σ n N order L adds rems).add k = .ok (inSec σ k adds) := tab_get (by omega)
    rw [e1, Res.bind_ok, unAdd_loop k hkn _ inSec_mem L _ hp' h, Res.bind_ok]
    exact ih (fun k hk' => hk k (by simp [hk'])) _ R (.refl _) hn

theorem unRem_all (hN : n ≤ N) (ks : List ℕ) (hk : ∀ k ∈ ks, k < n) :
    ∀ (L : List X), ((L ++ ks.flatMap fun k => inSec σ k rems).map τ).Nodup →
    Res.foldl (fun S k => PSide.unRem τ S k) (sideOf τ σ n N order L adds rems) ks =
      .ok (sideOf τ σ n N order (L ++ ks.flatMap fun k => inSec σ k rems) adds rems) := by
  induction ks with
  | nil => intro L h; rw [Res.foldl_nil]; simp
  | cons k ks ih =>
    intro L h
    have hkn := hk k (by simp)
    rw [List.flatMap_cons, ← List.append_assoc] at h ⊢
    have hn : ((L ++ inSec σ k rems).map τ).Nodup := by
      rw [List.map_append] at h; exact (List.nodup_append.mp h).1
    rw [Res.foldl_cons]
    unfold PSide.unRem
    have e1 : Res.get (sideOf τ σ n N order L adds rems).rem k = .ok (inSec σ k rems) := tab_get (by omega)
    rw [e1, Res.bind_ok, unRem_loop k hkn _ inSec_mem L hn, Res.bind_ok]
    exact ih (fun k hk' => hk k (by simp [hk'])) _ h

/-- The work lists are cleared. -/
theorem clear_ok (hN : n ≤ N) (h1 : ∀ x ∈ adds, σ x < n) (h2 : ∀ x ∈ rems, σ x < n) :
    (sideOf τ σ n N order L adds rems).clear n = .ok (sideOf τ σ n N order L [] []) := by
  have key : ∀ l : List X, (∀ x ∈ l, σ x < n) →
      List.replicate n ([] : List X) ++ (tab N fun k => inSec σ k l).drop n = tab N fun k => inSec σ k [] := by
    intro l hl
    refine List.ext_getElem? fun i => ?_
    by_cases hi : i < N
    · rw [tab_getElem? hi]
      by_cases hn : i < n
      · rw [List.getElem?_append_left (by simpa using hn)]; simp [hn, inSec]
      · rw [List.getElem?_append_right (by simp; omega), List.getElem?_drop, List.length_replicate,
          show n + (i - n) = i by omega, tab_getElem? hi]
        congr 1
        unfold inSec
        rw [List.filter_nil, List.filter_eq_nil_iff]
        intro x hx
        have := hl x hx
        simp only [decide_eq_true_eq]; omega
    · rw [List.getElem?_eq_none (by simp [tab_length]; omega), List.getElem?_eq_none (by rw [tab_length]; omega)]
  unfold PSide.clear
  have e : n ≤ (sideOf τ σ n N order L adds rems).add.length ∧ n ≤ (sideOf τ σ n N order L adds rems).rem.length := by
    constructor
    · show n ≤ (tab N _).length
      rw [tab_length]; exact hN
    · show n ≤ (tab N _).length
      rw [tab_length]; exact hN
  rw [Res.assert_true e, Res.bind_ok, Res.pure_eq]
  unfold sideOf
  dsimp only
  rw [key adds h1, key rems h2]

end CTInt
