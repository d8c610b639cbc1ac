import Verif.Proofs.ReplaceRC

/-!
# Collecting new rows and columns, and replacing several of them one after another (helpers for C68, C69)
-/

set_option linter.all false

namespace CTInt

/-! ### Positions in ascending order -/

/-- How many of the first `i` positions are not in `rc` / are in `rc`. -/
def cntOut (rc : List ℕ) (i : ℕ) : ℕ := ((List.range i).filter fun k => k ∉ rc).length
def cntIn (rc : List ℕ) (i : ℕ) : ℕ := ((List.range i).filter fun k => k ∈ rc).length

theorem cnt_succ (rc : List ℕ) (i : ℕ) :
    (i ∉ rc → cntOut rc (i + 1) = cntOut rc i + 1 ∧ cntIn rc (i + 1) = cntIn rc i) ∧
    (i ∈ rc → cntOut rc (i + 1) = cntOut rc i ∧ cntIn rc (i + 1) = cntIn rc i + 1) := by
  unfold cntOut cntIn
  rw [List.range_succ]
  constructor <;> intro h <;> simp [List.filter_append, h]

theorem filter_range_getD {p : ℕ → Bool} {N i : ℕ} (hi : i < N) (hp : p i = true) :
    ((List.range i).filter p).length < ((List.range N).filter p).length ∧
    ((List.range N).filter p).getD ((List.range i).filter p).length 0 = i := by
  obtain ⟨d, rfl⟩ : ∃ d, N = i + 1 + d := ⟨N - (i + 1), by omega⟩
  have : List.range (i + 1 + d) = List.range i ++ i :: (List.range d).map (i + 1 + ·) := by
    rw [List.range_add, List.range_succ, List.append_assoc]; rfl
  rw [this, List.filter_append, List.filter_cons_of_pos hp]
  constructor
  · simp
  · rw [List.getD_append_right _ _ _ _ (le_refl _)]; simp

theorem filter_mem_range {N : ℕ} {rc : List ℕ} (h : Ascending N rc) :
    (List.range N).filter (fun k => k ∈ rc) = rc := by
  have h1 : (List.range N).Pairwise (· < ·) := List.pairwise_lt_range
  refine List.Perm.eq_of_pairwise (le := (· < ·)) (fun a b _ _ h1 h2 => absurd h1 (by omega))
    (h1.filter _) h.1 ?_
  rw [List.perm_ext_iff_of_nodup ((List.nodup_range).filter _) (h.1.imp fun h => by omega)]
  intro a
  simp only [List.mem_filter, List.mem_range, decide_eq_true_eq]
  exact ⟨fun h => h.2, fun ha => ⟨h.2 a ha, ha⟩⟩

theorem cnt_add (rc : List ℕ) (i : ℕ) : cntOut rc i + cntIn rc i = i := by
  induction i with
  | zero => rfl
  | succ i ih =>
    by_cases h : i ∈ rc
    · have := (cnt_succ rc i).2 h; omega
    · have := (cnt_succ rc i).1 h; omega

theorem cntIn_all {N : ℕ} {rc : List ℕ} (h : Ascending N rc) : cntIn rc N = rc.length := by
  unfold cntIn; rw [filter_mem_range h]

theorem kept_length' {N : ℕ} {rc : List ℕ} (h : Ascending N rc) : (kept N rc).length + rc.length = N := by
  have := cnt_add rc N
  rw [cntIn_all h] at this
  exact this

theorem keptAt_cnt {N i : ℕ} {rc : List ℕ} (hi : i < N) (h : i ∉ rc) :
    cntOut rc i < (kept N rc).length ∧ keptAt N rc (cntOut rc i) = i :=
  filter_range_getD (p := fun k => decide (k ∉ rc)) hi (by simpa using h)

theorem rc_cnt {N i : ℕ} {rc : List ℕ} (ha : Ascending N rc) (hi : i < N) (h : i ∈ rc) :
    cntIn rc i < rc.length ∧ rc.getD (cntIn rc i) 0 = i := by
  have := filter_range_getD (p := fun k => decide (k ∈ rc)) hi (by simpa using h)
  rw [filter_mem_range ha] at this
  exact this

/-! ### Collecting the new row and column -/

theorem fillLoop_eq {N : ℕ} {rc : List ℕ} {new : ℕ → ℕ → ℝ} {Q R S : DMat ℝ} (ha : Ascending N rc)
    (hb : NaturalBlocks N rc new Q R S) {im : ℕ} (him : im < rc.length) (dr dc : ℕ → ℝ) (i : ℕ) (hi : i ≤ N) :
    Res.foldl (Src.fillStep Q R S (fun k => decide (k ∈ rc)) im) (dr, dc, 0, 0) (List.range i) =
      .ok (fun k => if k < i then new (rc.getD im 0) k else dr k,
        fun k => if k < i then new k (rc.getD im 0) else dc k, cntOut rc i, cntIn rc i) := by
  induction i with
  | zero => simp [cntOut, cntIn]
  | succ i ih =>
    have hk := kept_length' ha
    have hQr := hb.Qr
    have hRc := hb.Rc
    rw [List.range_succ, Res.foldl_append, ih (by omega)]
    simp only [Res.bind_ok, Res.foldl_cons, Res.foldl_nil]
    have up : ∀ (f h : ℕ → ℝ), Function.update (fun k => if k < i then f k else h k) i (f i) =
        fun k => if k < i + 1 then f k else h k := by
      intro f h
      funext k
      by_cases hk : k = i
      · subst hk; simp
      · rw [Function.update_of_ne hk]
        by_cases h1 : k < i
        · rw [if_pos h1, if_pos (by omega)]
        · rw [if_neg h1, if_neg (by omega)]
    unfold Src.fillStep Src.rd
    by_cases h : i ∈ rc
    · obtain ⟨c1, c2⟩ := rc_cnt ha (by omega) h
      rw [((cnt_succ rc i).2 h).1, ((cnt_succ rc i).2 h).2]
      simp only [h, decide_true, Bool.true_eq_false, if_false]
      rw [if_pos ⟨by rw [hb.Sr]; exact him, by rw [hb.Sc]; exact c1⟩,
        if_pos ⟨by rw [hb.Sr]; exact c1, by rw [hb.Sc]; exact him⟩]
      simp only [Res.bind_ok, Res.pure_eq]
      rw [hb.Sv im him _ c1, hb.Sv _ c1 im him, c2, up (fun k => new (rc.getD im 0) k),
        up (fun k => new k (rc.getD im 0))]
    · obtain ⟨c1, c2⟩ := keptAt_cnt (N := N) (by omega) h
      rw [((cnt_succ rc i).1 h).1, ((cnt_succ rc i).1 h).2]
      simp only [h, decide_false, if_true]
      rw [if_pos ⟨by rw [hb.Rr]; exact him, by omega⟩, if_pos ⟨by omega, by rw [hb.Qc]; exact him⟩]
      simp only [Res.bind_ok, Res.pure_eq]
      rw [hb.Rv im him _ c1, hb.Qv _ c1 im him, c2, up (fun k => new (rc.getD im 0) k),
        up (fun k => new k (rc.getD im 0))]

theorem fillRowCol_eq {N : ℕ} {rc : List ℕ} {new : ℕ → ℕ → ℝ} {Q R S : DMat ℝ} (ha : Ascending N rc)
    (hb : NaturalBlocks N rc new Q R S) {im : ℕ} (him : im < rc.length) (dr dc : ℕ → ℝ) :
    Src.fillRowCol N rc.length Q R S (fun k => decide (k ∈ rc)) im dr dc =
      .ok (fun k => if k < N then new (rc.getD im 0) k else dr k,
        fun k => if k < N then new k (rc.getD im 0) else dc k) := by
  have h1 := cnt_add rc N
  have h2 := cntIn_all ha
  unfold Src.fillRowCol
  rw [fillLoop_eq ha hb him dr dc N (le_refl _)]
  simp only [Res.bind_ok, Res.pure_eq]
  rw [Res.assert_true (by omega), Res.assert_true h2]
  rfl

/-! ### One replacement after another -/

theorem withRowCol_step {N : ℕ} {g new : ℕ → ℕ → ℝ} {rc : List ℕ} {k : ℕ} (hk : k < rc.length)
    {r c : ℕ → ℝ} (hr : ∀ j < N, r j = new (rc.getD k 0) j) (hc : ∀ i < N, c i = new i (rc.getD k 0)) :
    ∀ i < N, ∀ j < N, withRowCol (withRowsCols g new (rc.take k)) (rc.getD k 0) r c i j =
      withRowsCols g new (rc.take (k + 1)) i j := by
  intro i hi j hj
  have hm : ∀ x, x ∈ rc.take (k + 1) ↔ x ∈ rc.take k ∨ x = rc.getD k 0 := by
    intro x
    rw [List.take_add_one, List.getD_eq_getElem?_getD, List.getElem?_eq_getElem hk, List.mem_append]
    simp [eq_comm]
  unfold withRowCol withRowsCols
  simp only [hm]
  by_cases h1 : i = rc.getD k 0
  · rw [if_pos h1, if_pos (Or.inl (Or.inr h1)), hr j hj, ← h1]
  · rw [if_neg h1]
    by_cases h2 : j = rc.getD k 0
    · rw [if_pos h2, if_pos (Or.inr (Or.inr h2)), hc i hi, ← h2]
    · rw [if_neg h2]
      congr 1
      simp only [h1, h2, or_false]

theorem rc_detN_congr {N : ℕ} {g g' : ℕ → ℕ → ℝ} (h : ∀ i < N, ∀ j < N, g i j = g' i j) :
    detN N g = detN N g' := by
  unfold detN; rw [toM_congr h]

theorem succLoop_eq {n : ℕ} {rc : List ℕ} {g new : ℕ → ℕ → ℝ} {X Q R S : DMat ℝ} (eps : ℝ)
    (ha : Ascending (n + 1) rc) (hb : NaturalBlocks (n + 1) rc new Q R S) (hX : IsInvOf X (n + 1) g)
    (hreg : ∀ k < rc.length, detN (n + 1) (withRowsCols g new (rc.take (k + 1))) ≠ 0 ∧
      minorDet n (withRowsCols g new (rc.take k)) (rc.getD k 0) ≠ 0 ∧
      ¬ (|minorDet n (withRowsCols g new (rc.take k)) (rc.getD k 0) /
            detN (n + 1) (withRowsCols g new (rc.take k))| < eps ∧
         |minorDet n (withRowsCols g new (rc.take k)) (rc.getD k 0) /
            detN (n + 1) (withRowsCols g new (rc.take (k + 1)))| < eps))
    (dr dc : ℕ → ℝ) (k : ℕ) (hk : k ≤ rc.length) :
    ∃ Z dr' dc', Res.foldl (Src.succStep eps (n + 1) rc.length Q R S (fun k => decide (k ∈ rc)) rc false)
        (X, dr, dc, 1) (List.range k) =
        .ok (Z, dr', dc', detN (n + 1) (withRowsCols g new (rc.take k)) / detN (n + 1) g) ∧
      IsInvOf Z (n + 1) (withRowsCols g new (rc.take k)) := by
  induction k with
  | zero =>
    have e : withRowsCols g new (rc.take 0) = g := by funext i j; simp [withRowsCols]
    refine ⟨X, dr, dc, ?_, by rw [e]; exact hX⟩
    rw [e, div_self hX.det_ne_zero]; rfl
  | succ k ih =>
    obtain ⟨Z, dr', dc', h1, hZ⟩ := ih (by omega)
    obtain ⟨d1, d2, d3⟩ := hreg k (by omega)
    have hm : rc.getD k 0 < n + 1 := by
      refine ha.2 _ ?_
      rw [List.getD_eq_getElem _ _ (show k < rc.length by omega)]
      exact List.getElem_mem _
    have hget : Res.get rc k = .ok (rc.getD k 0) := by
      unfold Res.get
      rw [List.getD_eq_getElem?_getD, List.getElem?_eq_getElem (show k < rc.length by omega)]; rfl
    set Dr : DMat ℝ := ⟨1, n + 1, fun _ j => if j < n + 1 then new (rc.getD k 0) j else dr' j⟩ with hDr
    set Dc : DMat ℝ := ⟨n + 1, 1, fun i _ => if i < n + 1 then new i (rc.getD k 0) else dc' i⟩ with hDc
    have hstep := withRowCol_step (N := n + 1) (g := g) (new := new) (k := k) (rc := rc) (by omega)
      (r := fun j => Dr.val 0 j) (c := fun i => Dc.val i 0)
      (fun j hj => by simp only [hDr]; rw [if_pos hj]) (fun i hi => by simp only [hDc]; rw [if_pos hi])
    have hdet := rc_detN_congr hstep
    obtain ⟨W, w1, w2⟩ := replaceRowCol_spec (Dr := Dr) (Dc := Dc) eps false hm hZ ⟨rfl, rfl⟩ ⟨rfl, rfl⟩
      (by simp only [hDr, hDc]; rw [if_pos hm, if_pos hm])
    rw [hdet] at w1 w2
    have hval := inv_diag_minor hm hZ
    have hquot : Z.val (rc.getD k 0) (rc.getD k 0) /
        (detN (n + 1) (withRowsCols g new (rc.take (k + 1))) / detN (n + 1) (withRowsCols g new (rc.take k))) =
        minorDet n (withRowsCols g new (rc.take k)) (rc.getD k 0) /
          detN (n + 1) (withRowsCols g new (rc.take (k + 1))) := by
      rw [hval]
      have := hZ.det_ne_zero
      field_simp
    refine ⟨W, fun j => Dr.val 0 j, fun i => Dc.val i 0, ?_, ((w2 d1).2 ?_ ?_).congr hstep⟩
    rotate_left
    · rw [hquot, hval]; simpa using d3
    · rw [hval]; exact div_ne_zero d2 hZ.det_ne_zero
    · rw [List.range_succ, Res.foldl_append, h1]
      simp only [Res.bind_ok, Res.foldl_cons, Res.foldl_nil]
      unfold Src.succStep
      rw [fillRowCol_eq ha hb (by omega)]
      simp only [Res.bind_ok]
      rw [hget]
      simp only [Res.bind_ok]
      rw [← hDr, ← hDc, w1]
      simp only [Res.bind_ok, Res.pure_eq]
      congr 4
      have := hZ.det_ne_zero
      have := hX.det_ne_zero
      field_simp

end CTInt
