import Verif.Model.Clustering
import Verif.Spec.Clustering
import Mathlib.Data.List.GetD
import Mathlib.Data.List.Nodup
import Mathlib.Order.Basic
import Mathlib.Order.Nat
import Mathlib.Tactic.Common

/-!
# C22, C23: clusters and groups
-/

set_option linter.all false

namespace CTInt
namespace Clus

/-! ## C22 -/

/-- Labels only point downwards, labels outside the range to themselves. -/
structure Good (c : Clus) : Prop where
  le : ∀ i, c.al i ≤ i
  out : ∀ i, c.N ≤ i → c.al i = i

/-- Follow the labels to the end. -/
def root (al : ℕ → ℕ) (i : ℕ) : ℕ := if h : al i < i then root al (al i) else i
termination_by i

theorem root_self {al : ℕ → ℕ} {i : ℕ} (h : al i = i) : root al i = i := by
  rw [root, dif_neg (by omega)]

theorem root_step {al : ℕ → ℕ} {i : ℕ} (h : al i ≤ i) : root al (al i) = root al i := by
  by_cases e : al i = i
  · rw [e]
  · conv_rhs => rw [root, dif_pos (by omega)]

theorem root_le {al : ℕ → ℕ} (i : ℕ) : root al i ≤ i := by
  induction i using Nat.strongRecOn with
  | ind i ih =>
    rw [root]
    split
    · rename_i h
      exact (ih _ h).trans h.le
    · exact le_rfl

theorem root_fix {al : ℕ → ℕ} (h : ∀ i, al i ≤ i) (i : ℕ) : al (root al i) = root al i := by
  induction i using Nat.strongRecOn with
  | ind i ih =>
    by_cases e : al i < i
    · rw [← root_step (h i)]; exact ih _ e
    · have : al i = i := le_antisymm (h i) (by omega)
      rw [root_self this, this]

theorem root_root {al : ℕ → ℕ} (h : ∀ i, al i ≤ i) (i : ℕ) : root al (root al i) = root al i := root_self (root_fix h i)

/-- Redirecting labels inside their cluster does not change the clusters. -/
theorem root_congr {al al' : ℕ → ℕ} (h : ∀ i, al i ≤ i) (h' : ∀ i, al' i ≤ i)
    (h1 : ∀ i, root al (al' i) = root al i) (h2 : ∀ i, al' i = i → al i = i) (i : ℕ) : root al' i = root al i := by
  induction i using Nat.strongRecOn with
  | ind i ih =>
    by_cases e : al' i = i
    · rw [root_self e, root_self (h2 i e)]
    · have : al' i < i := lt_of_le_of_ne (h' i) e
      rw [← root_step (h' i), ih _ this, h1]

theorem chase_spec {c : Clus} (h : c.Good) {i : ℕ} (hi : i < c.N) {fuel : ℕ} (hf : i < fuel) :
    ∃ vs, c.chase fuel i = .ok (root c.al i, vs) ∧
      ∀ v ∈ vs, root c.al v = root c.al i ∧ root c.al i < v := by
  induction fuel generalizing i with
  | zero => omega
  | succ n ih =>
    unfold chase
    rw [if_neg (not_not.mpr hi)]
    by_cases e : i = c.al i
    · rw [if_pos e]
      exact ⟨[], by rw [root_self e.symm], by simp⟩
    · rw [if_neg e]
      have hlt : c.al i < i := lt_of_le_of_ne (h.le i) (Ne.symm e)
      obtain ⟨vs, e1, e2⟩ := ih (i := c.al i) (by omega) (by omega)
      rw [e1]
      refine ⟨i :: vs, ?_, ?_⟩
      · simp only [Res.bind_ok, Res.pure_eq, root_step (h.le i)]
      · intro v hv
        rw [← root_step (h.le i)]
        rcases List.mem_cons.mp hv with rfl | hv
        · exact ⟨(root_step (h.le v)).symm, lt_of_le_of_lt (root_le _) hlt⟩
        · exact e2 v hv

theorem foldl_update (vs : List ℕ) (r : ℕ) (al : ℕ → ℕ) (i : ℕ) :
    vs.foldl (fun al v => Function.update al v r) al i = if i ∈ vs then r else al i := by
  induction vs generalizing al with
  | nil => simp
  | cons v vs ih =>
    rw [List.foldl_cons, ih]
    by_cases h1 : i ∈ vs
    · simp [h1]
    · by_cases h2 : i = v
      · subst h2; simp [h1]
      · simp [h1, h2]

theorem trueLabel_spec {c : Clus} (h : c.Good) {i : ℕ} (hi : i < c.N) :
    ∃ c', c.trueLabel i = .ok (root c.al i, c') ∧ c'.Good ∧ c'.N = c.N ∧ (∀ j, root c'.al j = root c.al j) ∧
      ∀ j, c'.al j = c.al j ∨ c'.al j = root c.al j := by
  obtain ⟨vs, e1, e2⟩ := chase_spec h hi (fuel := c.N + 1) (by omega)
  unfold trueLabel
  rw [e1]
  simp only [Res.bind_ok, Res.pure_eq]
  have hle : ∀ j, (vs.foldl (fun al v => Function.update al v (root c.al i)) c.al) j ≤ j := by
    intro j
    rw [foldl_update]
    split
    · exact (e2 j (by assumption)).2.le
    · exact h.le j
  refine ⟨_, rfl, ⟨hle, ?_⟩, rfl, ?_, fun j => ?_⟩
  · intro j hj
    show (vs.foldl (fun al v => Function.update al v (root c.al i)) c.al) j = j
    rw [foldl_update, if_neg]
    · exact h.out j hj
    · intro hm
      have q := e2 j hm
      have := root_le (al := c.al) i
      rw [root_self (h.out j hj)] at q
      have hj : c.N ≤ j := hj
      omega
  · refine root_congr h.le hle ?_ ?_
    · intro j
      show root c.al ((vs.foldl (fun al v => Function.update al v (root c.al i)) c.al) j) = _
      rw [foldl_update]
      split
      · rename_i hm
        rw [root_root h.le, (e2 j hm).1]
      · exact root_step (h.le j)
    · intro j
      show (vs.foldl (fun al v => Function.update al v (root c.al i)) c.al) j = j → _
      rw [foldl_update]
      split
      · rename_i hm
        intro e
        have := (e2 j hm).2
        omega
      · exact id
  · show (vs.foldl (fun al v => Function.update al v (root c.al i)) c.al) j = _ ∨
      (vs.foldl (fun al v => Function.update al v (root c.al i)) c.al) j = _
    rw [foldl_update]
    split
    · exact Or.inr (e2 j (by assumption)).1.symm
    · exact Or.inl rfl

/-- Linking one root below another. -/
theorem root_link {al : ℕ → ℕ} (h : ∀ i, al i ≤ i) {a b : ℕ} (ha : al a = a) (hb : al b = b) (hab : a < b) (i : ℕ) :
    root (Function.update al b a) i = if root al i = b then a else root al i := by
  have h' : ∀ j, Function.update al b a j ≤ j := by
    intro j
    by_cases e : j = b
    · subst e; rw [Function.update_self]; omega
    · rw [Function.update_of_ne e]; exact h j
  induction i using Nat.strongRecOn with
  | ind i ih =>
    by_cases e : i = b
    · subst e
      rw [root_self hb, if_pos rfl, ← root_step (h' i), Function.update_self, ih a hab, root_self ha, if_neg (by omega)]
    · by_cases e2 : al i = i
      · rw [root_self (al := Function.update al b a) (by rw [Function.update_of_ne e, e2]), root_self e2, if_neg e]
      · have hlt : al i < i := lt_of_le_of_ne (h i) e2
        rw [← root_step (h' i), Function.update_of_ne e, ih _ hlt, root_step (h i)]

theorem linked_snoc {ps : List (ℕ × ℕ)} {al : ℕ → ℕ} {al' : ℕ → ℕ} {v1 v2 : ℕ}
    (hI : ∀ i j, root al i = root al j ↔ Linked ps i j)
    (h1 : ∀ i j, root al i = root al j → root al' i = root al' j) (h2 : root al' v1 = root al' v2)
    (h3 : ∀ i j, root al' i = root al' j → root al i = root al j ∨ (root al i = root al v1 ∧ root al j = root al v2) ∨
      root al i = root al v2 ∧ root al j = root al v1) (i j : ℕ) :
    root al' i = root al' j ↔ Linked (ps ++ [(v1, v2)]) i j := by
  have hmono : ∀ a b, Linked ps a b → Linked (ps ++ [(v1, v2)]) a b := fun a b hab =>
    Relation.EqvGen.mono (r := fun a b => (a, b) ∈ ps) (p := fun a b => (a, b) ∈ ps ++ [(v1, v2)])
      (fun x y (hxy : (x, y) ∈ ps) => List.mem_append_left _ hxy) a b hab
  have hnew : Linked (ps ++ [(v1, v2)]) v1 v2 := Relation.EqvGen.rel _ _ (by simp)
  constructor
  · intro h
    rcases h3 i j h with q | ⟨q1, q2⟩ | ⟨q1, q2⟩
    · exact hmono _ _ ((hI i j).mp q)
    · exact ((hmono _ _ ((hI _ _).mp q1)).trans _ _ _ hnew).trans _ _ _ ((hmono _ _ ((hI _ _).mp q2)).symm)
    · exact ((hmono _ _ ((hI _ _).mp q1)).trans _ _ _ hnew.symm).trans _ _ _ ((hmono _ _ ((hI _ _).mp q2)).symm)
  · intro h
    induction h with
    | rel x y hxy =>
      rcases List.mem_append.mp hxy with q | q
      · exact h1 _ _ ((hI _ _).mpr (Relation.EqvGen.rel _ _ q))
      · simp only [List.mem_singleton, Prod.mk.injEq] at q
        rw [q.1, q.2]; exact h2
    | refl x => rfl
    | symm x y _ ih => exact ih.symm
    | trans x y z _ _ ih1 ih2 => exact ih1.trans ih2

theorem connect_spec {c : Clus} {ps : List (ℕ × ℕ)} (h : c.Good)
    (hI : ∀ i j, root c.al i = root c.al j ↔ Linked ps i j) {v1 v2 : ℕ} (h1 : v1 < c.N) (h2 : v2 < c.N) :
    ∃ c', c.connect v1 v2 = .ok c' ∧ c'.Good ∧ c'.N = c.N ∧
      ∀ i j, root c'.al i = root c'.al j ↔ Linked (ps ++ [(v1, v2)]) i j := by
  have hv1 := h.le v1
  obtain ⟨c', e1, g1, n1, r1, -⟩ := trueLabel_spec h (i := c.al v1) (by omega)
  have hv2 := g1.le v2
  obtain ⟨c'', e2, g2, n2, r2, -⟩ := trueLabel_spec g1 (i := c'.al v2) (by omega)
  have hr : ∀ j, root c''.al j = root c.al j := fun j => (r2 j).trans (r1 j)
  rw [root_step (h.le v1)] at e1
  rw [root_step (g1.le v2), r1] at e2
  unfold connect
  rw [Res.assert_true h1, Res.bind_ok, e1]
  simp only [Res.bind_ok]
  rw [Res.assert_true h2, Res.bind_ok, e2]
  simp only [Res.bind_ok, Res.pure_eq]
  have hfix : ∀ j, c''.al (root c.al j) = root c.al j := by
    intro j; rw [← hr j]; exact root_fix g2.le j
  have hlt : ∀ j < c.N, root c.al j < c.N := fun j hj => lt_of_le_of_lt (root_le j) hj
  have good : ∀ {a b : ℕ}, a < b → b < c.N →
      (⟨c''.N, Function.update c''.al b a⟩ : Clus).Good := by
    intro a b hab hb
    refine ⟨?_, ?_⟩
    · intro j
      show Function.update c''.al b a j ≤ j
      by_cases e : j = b
      · subst e; rw [Function.update_self]; omega
      · rw [Function.update_of_ne e]; exact g2.le j
    · intro j hj
      have hj : c''.N ≤ j := hj
      show Function.update c''.al b a j = j
      rw [Function.update_of_ne (by omega)]
      exact g2.out j hj
  by_cases e : root c.al v1 = root c.al v2
  · rw [if_pos e]
    refine ⟨_, rfl, g2, n2.trans n1, linked_snoc hI ?_ ?_ ?_⟩
    · intro i j q; rw [hr, hr, q]
    · rw [hr, hr, e]
    · intro i j q
      rw [hr, hr] at q
      exact Or.inl q
  · rw [if_neg e]
    by_cases hl : root c.al v1 < root c.al v2
    · rw [if_pos hl]
      have hroot := root_link g2.le (hfix v1) (hfix v2) hl
      refine ⟨_, rfl, good hl (hlt _ h2), n2.trans n1, linked_snoc hI ?_ ?_ ?_⟩
      · intro i j q; simp only [hroot, hr, q]
      · simp only [hroot, hr]
        rw [if_neg e, if_pos trivial]
      · intro i j q
        simp only [hroot, hr] at q
        split_ifs at q with q1 q2 q2
        · exact Or.inl (q1.trans q2.symm)
        · exact Or.inr (Or.inr ⟨q1, q.symm⟩)
        · exact Or.inr (Or.inl ⟨q, q2⟩)
        · exact Or.inl q
    · rw [if_neg hl]
      have hl' : root c.al v2 < root c.al v1 := by omega
      have hroot := root_link g2.le (hfix v2) (hfix v1) hl'
      refine ⟨_, rfl, good hl' (hlt _ h1), n2.trans n1, linked_snoc hI ?_ ?_ ?_⟩
      · intro i j q; simp only [hroot, hr, q]
      · simp only [hroot, hr]
        rw [if_pos trivial, if_neg (Ne.symm e)]
      · intro i j q
        simp only [hroot, hr] at q
        split_ifs at q with q1 q2 q2
        · exact Or.inl (q1.trans q2.symm)
        · exact Or.inr (Or.inl ⟨q1, q.symm⟩)
        · exact Or.inr (Or.inr ⟨q, q2⟩)
        · exact Or.inl q

theorem connects_spec {c : Clus} {qs : List (ℕ × ℕ)} (h : c.Good)
    (hI : ∀ i j, root c.al i = root c.al j ↔ Linked qs i j) {ps : List (ℕ × ℕ)}
    (hp : ∀ p ∈ ps, p.1 < c.N ∧ p.2 < c.N) :
    ∃ c', c.connects ps = .ok c' ∧ c'.Good ∧ c'.N = c.N ∧
      ∀ i j, root c'.al i = root c'.al j ↔ Linked (qs ++ ps) i j := by
  induction ps generalizing c qs with
  | nil => exact ⟨c, rfl, h, rfl, by simpa using hI⟩
  | cons p ps ih =>
    obtain ⟨c1, e1, g1, n1, i1⟩ := connect_spec h hI (hp p (by simp)).1 (hp p (by simp)).2
    obtain ⟨c2, e2, g2, n2, i2⟩ := ih g1 i1 (fun q hq => by rw [n1]; exact hp q (by simp [hq]))
    refine ⟨c2, ?_, g2, n2.trans n1, ?_⟩
    · show Res.foldl _ _ (p :: ps) = _
      rw [Res.foldl_cons, e1]
      exact e2
    · simpa using i2

/-- What the first loop of `finalize_labeling` has established after `m` sites. -/
theorem collect_spec {c : Clus} (h : c.Good) {m : ℕ} (hm : m ≤ c.N) :
    ∃ c' valid, Res.foldl (fun (x : Clus × List ℕ) i => do
        let (r, c') ← x.1.trueLabel i
        let c'' := { c' with al := Function.update c'.al i r }
        Res.assert (c''.al i < c''.N)
        pure (c'', if c''.al i ∈ x.2 then x.2 else x.2 ++ [c''.al i])) (c, []) (List.range m) =
        .ok (c', valid) ∧ c'.Good ∧ c'.N = c.N ∧ (∀ j, root c'.al j = root c.al j) ∧
      (∀ i < m, c'.al i = root c.al i) ∧ valid.Nodup ∧ ∀ x, x ∈ valid ↔ ∃ i < m, root c.al i = x := by
  induction m with
  | zero => exact ⟨c, [], rfl, h, rfl, fun _ => rfl, fun i hi => by omega, by simp, by simp⟩
  | succ m ih =>
    obtain ⟨c1, valid, e1, g1, n1, r1, a1, nd, mem⟩ := ih (by omega)
    rw [List.range_succ, Res.foldl_append, e1, Res.bind_ok, Res.foldl_cons]
    obtain ⟨c2, e2, g2, n2, r2, p2⟩ := trueLabel_spec g1 (i := m) (by omega)
    rw [e2]
    simp only [Res.bind_ok, Function.update_self]
    have hrl := root_le (al := c1.al) m
    rw [Res.assert_true (by omega)]
    simp only [Res.bind_ok, Res.pure_eq, Res.foldl_nil]
    rw [r1]
    have hr12 : ∀ j, root c2.al j = root c.al j := fun j => (r2 j).trans (r1 j)
    have hle : ∀ j, Function.update c2.al m (root c.al m) j ≤ j := by
      intro j
      by_cases e : j = m
      · subst e; rw [Function.update_self]; exact root_le _
      · rw [Function.update_of_ne e]; exact g2.le j
    have hroot : ∀ j, root (Function.update c2.al m (root c.al m)) j = root c.al j := by
      intro j
      rw [← hr12 j]
      refine root_congr g2.le hle ?_ ?_ j
      · intro k
        by_cases e : k = m
        · subst e; rw [Function.update_self, ← hr12 k, root_root g2.le]
        · rw [Function.update_of_ne e]; exact root_step (g2.le k)
      · intro k
        by_cases e : k = m
        · subst e
          rw [Function.update_self, ← hr12]
          intro q
          have := root_fix g2.le k
          rwa [q] at this
        · rw [Function.update_of_ne e]; exact id
    refine ⟨_, _, rfl, ⟨hle, ?_⟩, n2.trans n1, hroot, ?_, ?_, ?_⟩
    · intro j hj
      have hj : c2.N ≤ j := hj
      show Function.update c2.al m _ j = j
      rw [Function.update_of_ne (by omega)]
      exact g2.out j hj
    · intro i hi
      show Function.update c2.al m _ i = _
      by_cases e : i = m
      · subst e; rw [Function.update_self]
      · rw [Function.update_of_ne e]
        rcases p2 i with q | q
        · rw [q, a1 i (by omega)]
        · rw [q, r1]
    · split
      · exact nd
      · rename_i hn
        rw [List.nodup_append]
        exact ⟨nd, by simp, by
          intro a ha b hb
          simp only [List.mem_singleton] at hb
          subst hb
          intro e; subst e; exact hn ha⟩
    · intro x
      have : (∃ i < m + 1, root c.al i = x) ↔ (∃ i < m, root c.al i = x) ∨ root c.al m = x := by
        constructor
        · rintro ⟨i, hi, e⟩
          by_cases him : i = m
          · subst him; exact Or.inr e
          · exact Or.inl ⟨i, by omega, e⟩
        · rintro (⟨i, hi, e⟩ | e)
          · exact ⟨i, by omega, e⟩
          · exact ⟨m, by omega, e⟩
      rw [this, ← mem]
      split
      · rename_i hmem
        exact ⟨Or.inl, fun q => q.elim id fun q => q ▸ hmem⟩
      · rw [List.mem_append, List.mem_singleton]
        exact ⟨fun q => q.imp_right Eq.symm, fun q => q.imp_right Eq.symm⟩

theorem labelMap_spec {valid : List ℕ} (h : valid.Nodup) {l : ℕ} (hl : l < valid.length) :
    labelMap valid (valid.getD l 0) = l := by
  have key : ∀ m ≤ valid.length, l < m →
      ((List.range m).foldl (fun m l => Function.update m (valid.getD l 0) l) fun _ => 0) (valid.getD l 0) = l := by
    intro m
    induction m with
    | zero => intro _ h; omega
    | succ m ih =>
      intro h1 h2
      rw [List.range_succ, List.foldl_append]
      simp only [List.foldl_cons, List.foldl_nil]
      by_cases e : l = m
      · subst e; rw [Function.update_self]
      · rw [Function.update_of_ne, ih (by omega) (by omega)]
        rw [List.getD_eq_getElem _ _ hl, List.getD_eq_getElem _ _ (by omega)]
        intro q
        exact e ((List.Nodup.getElem_inj_iff h).mp q)
  exact key _ le_rfl hl

end Clus

/-- C22.  For every number of vertices and every sequence of connections between existing vertices: the calls and
    `finalize_labeling` succeed; two vertices get the same label exactly when a chain of connections links them; the
    labels used are exactly `0, ..., k-1`; and the member list of label `l` contains exactly the vertices with label
    `l`, once each and in increasing order. -/
theorem C22_clusters (N : ℕ) (ps : List (ℕ × ℕ)) (hp : ∀ p ∈ ps, p.1 < N ∧ p.2 < N) :
    ∃ c F, (Clus.create N).connects ps = .ok c ∧ c.finalize = .ok F ∧ F.labels.length = N ∧
      (∀ i (hi : i < F.labels.length) j (hj : j < F.labels.length), F.labels[i] = F.labels[j] ↔ Linked ps i j) ∧
      (∀ l, l ∈ F.labels ↔ l < F.members.length) ∧
      ∀ l (hl : l < F.members.length), F.members[l].Pairwise (· < ·) ∧
        ∀ i, i ∈ F.members[l] ↔ ∃ hi : i < F.labels.length, F.labels[i] = l := by
  have h0 : (Clus.create N).Good := ⟨fun i => le_rfl, fun i _ => rfl⟩
  have hI0 : ∀ i j, Clus.root (Clus.create N).al i = Clus.root (Clus.create N).al j ↔ Linked [] i j := by
    intro i j
    rw [Clus.root_self rfl, Clus.root_self rfl]
    constructor
    · rintro rfl; exact Relation.EqvGen.refl _
    · intro h
      induction h with
      | rel x y h => simp at h
      | refl => rfl
      | symm _ _ _ ih => exact ih.symm
      | trans _ _ _ _ _ ih1 ih2 => exact ih1.trans ih2
  obtain ⟨c, e1, g1, n1, i1⟩ := Clus.connects_spec h0 hI0 (ps := ps) hp
  have n1 : c.N = N := n1
  obtain ⟨c', valid, e2, g2, n2, r2, a2, nd, mem⟩ := Clus.collect_spec g1 (m := c.N) le_rfl
  rw [List.nil_append] at i1
  have e2 : c.collect = .ok (c', valid) := e2
  have hmap : ∀ i < c.N, ∃ hl : Clus.labelMap valid (Clus.root c.al i) < valid.length,
      valid[Clus.labelMap valid (Clus.root c.al i)] = Clus.root c.al i := by
    intro i hi
    obtain ⟨l, hl, e⟩ := List.getElem_of_mem ((mem _).mpr ⟨i, hi, rfl⟩)
    have q := Clus.labelMap_spec nd hl
    rw [List.getD_eq_getElem _ _ hl, e] at q
    exact ⟨q ▸ hl, by simp only [q, e]⟩
  refine ⟨c, ⟨(List.range c'.N).map fun i => Clus.labelMap valid (c'.al i),
    (List.range valid.length).map fun l => (List.range c'.N).filter fun i =>
      ((List.range c'.N).map fun i => Clus.labelMap valid (c'.al i)).getD i 0 = l⟩, e1, ?_, ?_, ?_, ?_, ?_⟩
  · unfold Clus.finalize
    rw [e2]
    simp only [Res.bind_ok]
    rw [Res.assert_true]
    · rfl
    · intro l hl
      obtain ⟨i, hi, rfl⟩ := List.mem_map.mp hl
      rw [List.mem_range, n2] at hi
      rw [a2 i hi]
      exact (hmap i hi).1
  · simp [n2, n1]
  · intro i hi j hj
    simp only [List.length_map, List.length_range, n2] at hi hj
    simp only [List.getElem_map, List.getElem_range]
    rw [a2 i hi, a2 j hj, ← i1]
    constructor
    · intro q
      obtain ⟨_, qi⟩ := hmap i hi
      obtain ⟨_, qj⟩ := hmap j hj
      rw [← qi, ← qj]
      simp only [q]
    · intro q; rw [q]
  · intro l
    simp only [List.mem_map, List.mem_range, List.length_map, List.length_range, n2]
    constructor
    · rintro ⟨i, hi, rfl⟩
      rw [a2 i hi]
      exact (hmap i hi).1
    · intro hl
      obtain ⟨i, hi, e⟩ := (mem valid[l]).mp (List.getElem_mem hl)
      refine ⟨i, hi, ?_⟩
      have q := Clus.labelMap_spec nd hl
      rw [List.getD_eq_getElem _ _ hl] at q
      rw [a2 i hi, e, q]
  · intro l hl
    simp only [List.getElem_map, List.getElem_range, List.length_map, List.length_range]
    refine ⟨List.Pairwise.filter _ List.pairwise_lt_range, ?_⟩
    intro i
    rw [List.mem_filter, List.mem_range]
    constructor
    · rintro ⟨hi, e⟩
      refine ⟨hi, ?_⟩
      rw [List.getD_eq_getElem _ _ (by simpa using hi)] at e
      simpa using e
    · rintro ⟨hi, e⟩
      refine ⟨hi, ?_⟩
      rw [List.getD_eq_getElem _ _ (by simpa using hi)]
      simpa using e

/-- The hypothesis of `C22_clusters` is met: five vertices, a chain 4-2, 2-0 and a pair 3-1 (and 1-1). -/
example : ∀ p ∈ [(4, 2), (2, 0), (3, 1), (1, 1)], p.1 < 5 ∧ p.2 < 5 := by decide

/-! ## C23 -/

/-- What `make_groups` keeps after `m` sites. -/
theorem makeGroups_inv (R : ℕ → ℕ → Bool) (m : ℕ) :
    ∀ g, g = (List.range m).foldl (groupStep R) ⟨[], []⟩ → g.map.length = m ∧
      (∀ x ∈ g.map, x < g.groups.length) ∧ (∀ gr ∈ g.groups, gr ≠ []) ∧
      (∀ k (hk : k < g.groups.length), g.groups[k].Pairwise (· < ·) ∧
        ∀ i, i ∈ g.groups[k] ↔ ∃ hi : i < g.map.length, g.map[i] = k) ∧
      ∀ i (hi : i < g.map.length), (∃ j, ∃ hj : j < i, R i j = true ∧ (∀ k < j, R i k = false) ∧ g.map[i] = g.map[j]) ∨
        (∀ j < i, R i j = false) ∧ ∀ j (hj : j < i), g.map[j] ≠ g.map[i] := by
  induction m with
  | zero => rintro g rfl; simp
  | succ m ih =>
    rintro g' hg'
    rw [List.range_succ, List.foldl_append] at hg'
    obtain ⟨g, hg⟩ : ∃ g, g = (List.range m).foldl (groupStep R) ⟨[], []⟩ := ⟨_, rfl⟩
    rw [← hg] at hg'
    obtain ⟨h1, h2, h3, h4, h5⟩ := ih g hg
    simp only [List.foldl_cons, List.foldl_nil] at hg'
    unfold groupStep at hg'
    split at hg'
    · rename_i hnone
      rw [List.find?_eq_none] at hnone
      subst hg'
      refine ⟨by simp [h1], ?_, ?_, ?_, ?_⟩
      · intro x hx
        simp only [List.mem_append, List.mem_singleton, List.length_append, List.length_singleton] at hx ⊢
        rcases hx with hx | rfl
        · have := h2 x hx; omega
        · omega
      · intro gr hgr
        simp only [List.mem_append, List.mem_singleton] at hgr
        rcases hgr with q | rfl
        · exact h3 _ q
        · simp
      · intro k hk
        simp only [List.length_append, List.length_singleton] at hk ⊢
        by_cases e : k < g.groups.length
        · rw [List.getElem_append_left e]
          refine ⟨(h4 k e).1, fun i => ?_⟩
          rw [(h4 k e).2]
          constructor
          · rintro ⟨hi, q⟩
            exact ⟨by omega, by rw [List.getElem_append_left hi]; exact q⟩
          · rintro ⟨hi, q⟩
            by_cases hi' : i < g.map.length
            · rw [List.getElem_append_left hi'] at q
              exact ⟨hi', q⟩
            · rw [List.getElem_append_right (by omega)] at q
              simp at q; omega
        · have ek : k = g.groups.length := by omega
          subst ek
          simp only [le_refl, List.getElem_append_right, Nat.sub_self, List.getElem_cons_zero]
          refine ⟨by simp, fun i => ?_⟩
          rw [List.mem_singleton]
          constructor
          · rintro rfl
            exact ⟨by omega, by simp [List.getElem_append_right, h1]⟩
          · rintro ⟨hi, q⟩
            by_cases hi' : i < g.map.length
            · rw [List.getElem_append_left hi'] at q
              have := h2 _ (List.getElem_mem hi')
              omega
            · omega
      · intro i hi
        simp only [List.length_append, List.length_singleton] at hi
        by_cases hi' : i < g.map.length
        · rcases h5 i hi' with ⟨j, hj, q1, q2, q3⟩ | ⟨q1, q2⟩
          · refine Or.inl ⟨j, hj, q1, q2, ?_⟩
            rw [List.getElem_append_left hi', List.getElem_append_left (by omega)]
            exact q3
          · refine Or.inr ⟨q1, fun j hj => ?_⟩
            rw [List.getElem_append_left hi', List.getElem_append_left (by omega)]
            exact q2 j hj
        · have : i = m := by omega
          subst this
          refine Or.inr ⟨fun j hj => by simpa using hnone j (by simpa using hj), fun j hj => ?_⟩
          rw [List.getElem_append_left (by omega)]
          have := h2 _ (List.getElem_mem (l := g.map) (n := j) (by omega))
          simp [List.getElem_append_right, h1]
          omega
    · rename_i s hsome
      rw [List.find?_eq_some_iff_getElem] at hsome
      obtain ⟨hR, s', hs', es, hfirst⟩ := hsome
      simp only [List.getElem_range, List.length_range] at es hs' hfirst
      subst es
      have hsl : s' < g.map.length := by omega
      rw [List.getD_eq_getElem _ _ hsl] at hg'
      have hgl := h2 _ (List.getElem_mem hsl)
      subst hg'
      refine ⟨by simp [h1], ?_, ?_, ?_, ?_⟩
      · intro x hx
        simp only [List.mem_append, List.mem_singleton, List.length_modify] at hx ⊢
        rcases hx with hx | rfl
        · exact h2 x hx
        · exact hgl
      · intro gr hgr
        obtain ⟨k, hk, rfl⟩ := List.getElem_of_mem hgr
        rw [List.getElem_modify]
        split
        · simp
        · exact h3 _ (List.getElem_mem _)
      · intro k hk
        have hk' : k < g.groups.length := by simpa using hk
        simp only [List.getElem_modify]
        by_cases e : g.map[s'] = k
        · rw [if_pos e]
          refine ⟨?_, fun i => ?_⟩
          · rw [List.pairwise_append]
            refine ⟨(h4 k hk').1, by simp, ?_⟩
            intro a ha b hb
            simp only [List.mem_singleton] at hb
            subst hb
            obtain ⟨hi, _⟩ := ((h4 k hk').2 a).mp ha
            omega
          · rw [List.mem_append, (h4 k hk').2, List.mem_singleton]
            constructor
            · rintro (⟨hi, q⟩ | rfl)
              · exact ⟨by simp; omega, by rw [List.getElem_append_left hi]; exact q⟩
              · exact ⟨by simp; omega, by simp [List.getElem_append_right, h1, e]⟩
            · rintro ⟨hi, q⟩
              by_cases hi' : i < g.map.length
              · rw [List.getElem_append_left hi'] at q
                exact Or.inl ⟨hi', q⟩
              · simp at hi; exact Or.inr (by omega)
        · rw [if_neg e]
          refine ⟨(h4 k hk').1, fun i => ?_⟩
          rw [(h4 k hk').2]
          constructor
          · rintro ⟨hi, q⟩
            exact ⟨by simp; omega, by rw [List.getElem_append_left hi]; exact q⟩
          · rintro ⟨hi, q⟩
            by_cases hi' : i < g.map.length
            · rw [List.getElem_append_left hi'] at q
              exact ⟨hi', q⟩
            · rw [List.getElem_append_right (by omega)] at q
              simp at q; exact absurd q e
      · intro i hi
        simp only [List.length_append, List.length_singleton] at hi
        by_cases hi' : i < g.map.length
        · rcases h5 i hi' with ⟨j, hj, q1, q2, q3⟩ | ⟨q1, q2⟩
          · refine Or.inl ⟨j, hj, q1, q2, ?_⟩
            rw [List.getElem_append_left hi', List.getElem_append_left (by omega)]
            exact q3
          · refine Or.inr ⟨q1, fun j hj => ?_⟩
            rw [List.getElem_append_left hi', List.getElem_append_left (by omega)]
            exact q2 j hj
        · have : i = m := by omega
          subst this
          refine Or.inl ⟨s', by omega, hR, ?_, ?_⟩
          · intro k hk
            have := hfirst k hk
            simpa using this
          · rw [List.getElem_append_left hsl]
            simp [List.getElem_append_right, h1]

/-- C23, what holds for every relation: the groups are a partition of the sites into non-empty increasing lists, and
    the map gives for every site the index of the group containing it. -/
theorem C23_partition (N : ℕ) (R : ℕ → ℕ → Bool) :
    (makeGroups N R).map.length = N ∧ (∀ gr ∈ (makeGroups N R).groups, gr ≠ []) ∧
      (∀ x ∈ (makeGroups N R).map, x < (makeGroups N R).groups.length) ∧
      ∀ k (hk : k < (makeGroups N R).groups.length), (makeGroups N R).groups[k].Pairwise (· < ·) ∧
        ∀ i, i ∈ (makeGroups N R).groups[k] ↔ ∃ hi : i < (makeGroups N R).map.length, (makeGroups N R).map[i] = k := by
  obtain ⟨h1, h2, h3, h4, h5⟩ := makeGroups_inv R N _ rfl
  exact ⟨h1, h3, h2, h4⟩

theorem groups_chain (N : ℕ) (R : ℕ → ℕ → Bool) (symm : ∀ i j, R i j = true → R j i = true) (mp : List ℕ)
    (h1 : mp.length = N)
    (h5 : ∀ i (hi : i < mp.length), (∃ j, ∃ hj : j < i, R i j = true ∧ (∀ k < j, R i k = false) ∧ mp[i] = mp[j]) ∨
      (∀ j < i, R i j = false) ∧ ∀ j (hj : j < i), mp[j] ≠ mp[i])
    (i j : ℕ) (hi : i < mp.length) (hj : j < mp.length) :
    (mp[i] = mp[j] → LinkedBy N R i j) ∧
    ((∀ a < N, ∀ b c, b < a → c < a → R a b = true → R a c = true → LinkedBy a R b c) →
      LinkedBy N R i j → mp[i] = mp[j]) := by
  constructor
  · have key : ∀ n i j (hi : i < mp.length) (hj : j < mp.length), i + j < n → j ≤ i → mp[i] = mp[j] → LinkedBy N R i j := by
      intro n
      induction n with
      | zero => intros; omega
      | succ n ih =>
        intro i j hi hj hn hji e
        by_cases hij : j = i
        · subst hij; exact Relation.EqvGen.refl _
        rcases h5 i hi with ⟨s, hs, q1, q2, q3⟩ | ⟨q1, q2⟩
        · have hsj : LinkedBy N R s j := by
            by_cases hle : j ≤ s
            · exact ih s j (by omega) hj (by omega) hle (q3.symm.trans e)
            · exact (ih j s hj (by omega) (by omega) (by omega) (e.symm.trans q3)).symm
          exact (Relation.EqvGen.rel _ _ ⟨by omega, by omega, q1⟩).trans _ _ _ hsj
        · exact absurd e.symm (q2 j (by omega))
    intro e
    rcases Nat.le_total j i with q | q
    · exact key _ i j hi hj (Nat.lt_succ_self _) q e
    · exact (key _ j i hj hi (Nat.lt_succ_self _) q e.symm).symm
  · intro hyp
    have key : ∀ n ≤ N, ∀ i j, LinkedBy n R i j → ((hi : i < mp.length) → (hj : j < mp.length) → mp[i] = mp[j]) := by
      intro n
      induction n using Nat.strongRecOn with
      | ind n ih =>
        intro hn i j hl
        have edge : ∀ a b, b < a → (ha : a < n) → R a b = true → (hi : a < mp.length) → (hj : b < mp.length) →
            mp[a] = mp[b] := by
          intro a b hba ha hr hi hj
          rcases h5 a hi with ⟨s, hs, q1, q2, q3⟩ | ⟨q1, q2⟩
          · rw [q3]
            exact ih a ha (by omega) s b (hyp a (by omega) s b hs hba q1 hr) _ _
          · rw [q1 b hba] at hr; cases hr
        -- off the range nothing is linked, so the chain stays inside
        have main : i = j ∨ ∃ (hi : i < mp.length) (hj : j < mp.length), mp[i] = mp[j] := by
          induction hl with
          | rel x y h =>
            obtain ⟨hx, hy, hr⟩ := h
            rcases Nat.lt_trichotomy x y with q | q | q
            · exact Or.inr ⟨by omega, by omega, (edge y x q hy (symm _ _ hr) _ _).symm⟩
            · exact Or.inl q
            · exact Or.inr ⟨by omega, by omega, edge x y q hx hr _ _⟩
          | refl => exact Or.inl rfl
          | symm _ _ _ ih =>
            rcases ih with rfl | ⟨a, b, e⟩
            · exact Or.inl rfl
            · exact Or.inr ⟨b, a, e.symm⟩
          | trans _ _ _ _ _ ih1 ih2 =>
            rcases ih1 with rfl | ⟨a, b, e⟩
            · exact ih2
            · rcases ih2 with rfl | ⟨_, d, e'⟩
              · exact Or.inr ⟨a, b, e⟩
              · exact Or.inr ⟨a, d, e.trans e'⟩
        intro hi hj
        rcases main with rfl | ⟨_, _, e⟩
        · rfl
        · exact e
    intro hl
    exact key N le_rfl i j hl hi hj

/-- C23 (part).  For a symmetric relation: two sites in one group are linked by a chain of direct connections.  If
    moreover the earlier sites directly connected to a site are already linked among the earlier sites, then linked
    sites share a group.  Missing: relations for which a later site links two groups, see `C23_violation`. -/
theorem C23_chains_partial (N : ℕ) (R : ℕ → ℕ → Bool) (symm : ∀ i j, R i j = true → R j i = true)
    (i j : ℕ) (hi : i < (makeGroups N R).map.length) (hj : j < (makeGroups N R).map.length) :
    ((makeGroups N R).map[i] = (makeGroups N R).map[j] → LinkedBy N R i j) ∧
    ((∀ a < N, ∀ b c, b < a → c < a → R a b = true → R a c = true → LinkedBy a R b c) →
      LinkedBy N R i j → (makeGroups N R).map[i] = (makeGroups N R).map[j]) := by
  obtain ⟨h1, -, -, -, h5⟩ := makeGroups_inv R N _ rfl
  exact groups_chain N R symm _ h1 h5 i j hi hj

/-- The hypotheses of `C23_chains_partial` are met: even sites are connected to even sites, odd ones to odd ones. -/
example : (∀ i j : ℕ, (decide (i % 2 = j % 2)) = true → decide (j % 2 = i % 2) = true) ∧
    ∀ a < 6, ∀ b c, b < a → c < a → decide (a % 2 = b % 2) = true → decide (a % 2 = c % 2) = true →
      LinkedBy a (fun i j => decide (i % 2 = j % 2)) b c := by
  refine ⟨fun i j h => by simpa using (by simpa using h : i % 2 = j % 2).symm, ?_⟩
  intro a _ b c hb hc h1 h2
  simp only [decide_eq_true_eq] at h1 h2
  exact Relation.EqvGen.rel _ _ ⟨hb, hc, by simp; omega⟩

/-- C23 fails: with three sites where only 0-2 and 1-2 are connected, the directly connected sites 1 and 2 are put into
    different groups. -/
theorem C23_violation : ∃ R : ℕ → ℕ → Bool, (∀ i j, R i j = R j i) ∧ R 1 2 = true ∧
    (makeGroups 3 R).groups = [[0, 2], [1]] ∧ (makeGroups 3 R).map = [0, 1, 0] := by
  refine ⟨fun i j => (i == 2 && j != 2) || (j == 2 && i != 2), ?_, rfl, by decide, by decide⟩
  intro i j
  exact Bool.or_comm _ _

end CTInt
