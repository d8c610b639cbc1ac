import Verif.Spec.Names

/-!
# The names of the observables
-/

set_option linter.all false

namespace CTInt

/-! ### Decimals -/

theorem digits_inj {m n : ℕ} (h : Nat.toDigits 10 m = Nat.toDigits 10 n) : m = n := by
  rw [← Nat.ofDigitChars_ten_toDigits (n := m), h, Nat.ofDigitChars_ten_toDigits]

theorem digits_no_underscore (n : ℕ) : '_' ∉ Nat.toDigits 10 n := Nat.underscore_not_in_toDigits

/-- Two texts without underscore, each followed by an underscore. -/
theorem underscore_split {a b : List Char} (ha : '_' ∉ a) (hb : '_' ∉ b) {x y : List Char}
    (h : a ++ '_' :: x = b ++ '_' :: y) : a = b ∧ x = y := by
  induction a generalizing b with
  | nil =>
    cases b with
    | nil => simpa using h
    | cons c b => simp only [List.nil_append, List.cons_append, List.cons.injEq] at h; exact absurd (by rw [← h.1]; simp) hb
  | cons c a ih =>
    cases b with
    | nil => simp only [List.nil_append, List.cons_append, List.cons.injEq] at h; exact absurd (by rw [h.1]; simp) ha
    | cons d b =>
      simp only [List.cons_append, List.cons.injEq] at h
      obtain ⟨e1, e2⟩ := ih (fun h => ha (by simp [h])) (fun h => hb (by simp [h])) h.2
      exact ⟨by rw [h.1, e1], e2⟩

theorem toString_toList (n : ℕ) : (toString n : String).toList = Nat.toDigits 10 n := Nat.toList_repr

/-! ### Keys -/

/-- What an observable stands for. -/
inductive ObsKey where
  | sign | order | orderType | dens | ninjRe | ninjIm | insRem | shift | timings
  | stauRe (f a b : ℕ) | stauIm (f a b : ℕ) | site (f : ℕ) | single (f : ℕ) | pair (f i : ℕ)
  deriving DecidableEq

namespace ObsKey

/-- The name. -/
def name : ObsKey → String
  | .sign => "Sign" | .order => "PertOrder" | .orderType => "PerturbationOrderVertex" | .dens => "densities"
  | .ninjRe => "n_i_n_j_real" | .ninjIm => "n_i_n_j_imag"
  | .insRem => "VertexInsertionRemoval_Acceptance_Rate" | .shift => "VertexShift_Acceptance_Rate" | .timings => "Timings"
  | .stauRe f a b => stauName "real" f a b | .stauIm f a b => stauName "imag" f a b
  | .site f => "densities_" ++ toString f | .single f => "density_" ++ toString f
  | .pair f i => "density_" ++ toString f ++ "_" ++ toString i

theorem name_inj {k l : ObsKey} (h : k.name = l.name) : k = l := by
  have h := congrArg String.toList h
  rcases k with _ | _ | _ | _ | _ | _ | _ | _ | _ | ⟨f, a, b⟩ | ⟨f, a, b⟩ | f | f | ⟨f, i⟩ <;>
  rcases l with _ | _ | _ | _ | _ | _ | _ | _ | _ | ⟨g, a', b'⟩ | ⟨g, a', b'⟩ | g | g | ⟨g, i'⟩ <;>
    simp [name, stauName, String.toList_append, toString_toList] at h ⊢
  · obtain ⟨h1, h2⟩ := underscore_split (digits_no_underscore _) (digits_no_underscore _) h
    obtain ⟨h2, h3⟩ := underscore_split (digits_no_underscore _) (digits_no_underscore _) h2
    exact ⟨digits_inj h1, digits_inj h2, digits_inj h3⟩
  · obtain ⟨h1, h2⟩ := underscore_split (digits_no_underscore _) (digits_no_underscore _) h
    obtain ⟨h2, h3⟩ := underscore_split (digits_no_underscore _) (digits_no_underscore _) h2
    exact ⟨digits_inj h1, digits_inj h2, digits_inj h3⟩
  · exact digits_inj h
  · exact digits_inj h
  · have := digits_no_underscore f
    rw [h] at this; simp at this
  · have := digits_no_underscore g
    rw [← h] at this; simp at this
  · obtain ⟨h1, h2⟩ := underscore_split (digits_no_underscore _) (digits_no_underscore _) h
    exact ⟨digits_inj h1, digits_inj h2⟩

/-- The keys of the observables created. -/
def all (nf ns : ℕ) : List (ObsKey × ObsKind) :=
  [(.sign, .scalar), (.order, .vector)] ++
  ((List.range nf).flatMap fun f => (List.range ns).flatMap fun a => (List.range ns).flatMap fun b =>
    [(.stauRe f a b, .vector), (.stauIm f a b, .vector)]) ++
  [(.dens, .vector)] ++ ((List.range nf).map fun f => (.site f, .vector)) ++
  [(.ninjRe, .vector), (.ninjIm, .vector)] ++
  ((List.range nf).flatMap fun f => (List.range ns).map fun i => (if ns > 1 then .pair f i else .single f, .scalar)) ++
  [(.orderType, .vector), (.timings, .vector), (.insRem, .vector), (.shift, .vector)]

/-- The keys of the values passed. -/
def passed (nf ns : ℕ) (m : Measured × List ℝ) : List (ObsKey × ObsVal) :=
  [(.sign, .num m.1.values.sign)] ++
  ((List.range nf).flatMap fun z => (List.range ns).flatMap fun a => (List.range ns).flatMap fun b =>
    [(.stauRe z a b, .vec (m.1.values.stauRe z a b)), (.stauIm z a b, .vec (m.1.values.stauIm z a b))]) ++
  ((List.range nf).map fun z => (.site z, .vec (m.1.values.dens.site z))) ++
  [(.dens, .vec m.1.values.dens.mean), (.ninjRe, .vec m.1.values.dens.ninjRe), (.ninjIm, .vec m.1.values.dens.ninjIm),
   (.order, .vec m.1.values.pertOrder), (.orderType, .vec m.1.values.pertVertex),
   (.insRem, rateVal m.1.insRem), (.shift, rateVal m.1.shift), (.timings, .vec m.2)]

theorem all_eq (nf ns : ℕ) :
    solverObservables nf ns ++ managerObservables = (all nf ns).map fun p => (p.1.name, p.2) := by
  unfold solverObservables managerObservables all
  simp only [List.map_append, List.map_flatMap, List.map_map, List.map_cons, List.map_nil, List.append_assoc, List.cons_append,
    List.nil_append, Function.comp_def]
  by_cases h : ns > 1 <;> simp [h, name, String.append_assoc]

theorem ofRate_eq (o : Option (ℝ × ℝ)) : ObsVal.ofRate o = rateVal o := by
  rcases o with _ | ⟨a, r⟩ <;> rfl

theorem passed_eq (nf ns : ℕ) (m : Measured × List ℝ) :
    passedValues nf ns m = (passed nf ns m).map fun p => (p.1.name, p.2) := by
  unfold passedValues passed
  simp only [List.map_append, List.map_flatMap, List.map_map, List.map_cons, List.map_nil, List.append_assoc, List.cons_append,
    List.nil_append, Function.comp_def, ofRate_eq]
  rfl

theorem nodup_stau (nf ns : ℕ) : ((List.range nf).flatMap fun f => (List.range ns).flatMap fun a =>
    (List.range ns).flatMap fun b => [ObsKey.stauRe f a b, ObsKey.stauIm f a b]).Nodup := by
  rw [List.nodup_flatMap]
  refine ⟨fun f _ => ?_, ?_⟩
  · rw [List.nodup_flatMap]
    refine ⟨fun a _ => ?_, ?_⟩
    · rw [List.nodup_flatMap]
      refine ⟨fun b _ => by simp, ?_⟩
      refine List.nodup_range.imp fun {x y} hxy => ?_
      intro k h1 h2
      simp at h1 h2
      rcases h1 with rfl | rfl <;> simp [hxy] at h2
    · refine List.nodup_range.imp fun {x y} hxy => ?_
      intro k h1 h2
      simp at h1 h2
      obtain ⟨b, _, rfl | rfl⟩ := h1 <;> simp [hxy] at h2
  · refine List.nodup_range.imp fun {x y} hxy => ?_
    intro k h1 h2
    simp at h1 h2
    obtain ⟨a, _, b, _, rfl | rfl⟩ := h1 <;> simp [hxy] at h2

theorem nodup_density (nf ns : ℕ) : ((List.range nf).flatMap fun f => (List.range ns).map fun i =>
    (if ns > 1 then ObsKey.pair f i else .single f)).Nodup := by
  rw [List.nodup_flatMap]
  refine ⟨fun f _ => ?_, ?_⟩
  · by_cases h : ns > 1
    · simp only [h, if_true]
      exact List.nodup_range.map fun x y e => by simpa using e
    · have : ns = 0 ∨ ns = 1 := by omega
      rcases this with rfl | rfl <;> simp
  · refine List.nodup_range.imp fun {x y} hxy => ?_
    intro k h1 h2
    by_cases h : ns > 1
    · simp [h] at h1 h2
      obtain ⟨i, _, rfl⟩ := h1
      simp [hxy.symm] at h2
    · simp [h] at h1 h2
      obtain ⟨_, rfl⟩ := h1
      simp at h2
      exact hxy h2.2

theorem all_keys (nf ns : ℕ) : (all nf ns).map Prod.fst =
    [.sign, .order] ++ ((List.range nf).flatMap fun f => (List.range ns).flatMap fun a => (List.range ns).flatMap fun b =>
      [ObsKey.stauRe f a b, ObsKey.stauIm f a b]) ++ [.dens] ++ ((List.range nf).map ObsKey.site) ++ [.ninjRe, .ninjIm] ++
    ((List.range nf).flatMap fun f => (List.range ns).map fun i => (if ns > 1 then ObsKey.pair f i else .single f)) ++
    [.orderType, .timings, .insRem, .shift] := by
  unfold all
  simp only [List.map_append, List.map_flatMap, List.map_map, List.map_cons, List.map_nil, Function.comp_def]

theorem passed_keys (nf ns : ℕ) (m : Measured × List ℝ) : (passed nf ns m).map Prod.fst =
    [.sign] ++ ((List.range nf).flatMap fun f => (List.range ns).flatMap fun a => (List.range ns).flatMap fun b =>
      [ObsKey.stauRe f a b, ObsKey.stauIm f a b]) ++ ((List.range nf).map ObsKey.site) ++
    [.dens, .ninjRe, .ninjIm, .order, .orderType, .insRem, .shift, .timings] := by
  unfold passed
  simp only [List.map_append, List.map_flatMap, List.map_map, List.map_cons, List.map_nil, Function.comp_def]

theorem nodup_site (nf : ℕ) : ((List.range nf).map ObsKey.site).Nodup :=
  List.nodup_range.map fun x y e => by simpa using e

theorem all_nodup (nf ns : ℕ) : ((all nf ns).map Prod.fst).Nodup := by
  rw [all_keys]
  have h1 := nodup_stau nf ns
  have h2 := nodup_density nf ns
  have h3 := nodup_site nf
  by_cases h : ns > 1
  · simp only [h, if_true] at h2 ⊢
    simp [List.nodup_append, h1, h2, h3, List.mem_flatMap]
    refine ⟨⟨?_, ?_⟩, ?_⟩
    · rintro _ x _ y _ rfl; simp
    · rintro a _ b (⟨_, _, _, _, rfl⟩ | rfl | rfl | rfl | rfl) <;> simp
    · rintro _ x _ y _ z _ (rfl | rfl) <;> refine ⟨by simp, ?_⟩ <;>
        rintro b (⟨_, _, rfl⟩ | rfl | rfl | ⟨_, _, _, _, rfl⟩ | rfl | rfl | rfl | rfl) <;> simp
  · simp only [h, if_false] at h2 ⊢
    simp [List.nodup_append, h1, h2, h3, List.mem_flatMap]
    refine ⟨⟨⟨by simpa using h2, ?_⟩, ?_⟩, ?_⟩
    · rintro _ x _ _ rfl; simp
    · rintro a _ b (⟨_, _, _, rfl⟩ | rfl | rfl | rfl | rfl) <;> simp
    · rintro _ x _ y _ z _ (rfl | rfl) <;> refine ⟨by simp, ?_⟩ <;>
        rintro b (⟨_, _, rfl⟩ | rfl | rfl | ⟨_, _, _, rfl⟩ | rfl | rfl | rfl | rfl) <;> simp

theorem passed_nodup (nf ns : ℕ) (m : Measured × List ℝ) : ((passed nf ns m).map Prod.fst).Nodup := by
  rw [passed_keys]
  have h1 := nodup_stau nf ns
  have h3 := nodup_site nf
  simp [List.nodup_append, h1, h3, List.mem_flatMap]
  rintro _ x _ y _ z _ (rfl | rfl) <;>
    rintro b (⟨_, _, rfl⟩ | rfl | rfl | rfl | rfl | rfl | rfl | rfl | rfl) <;> simp

end ObsKey

theorem names_nodup {α : Type} {l : List (ObsKey × α)} (h : (l.map Prod.fst).Nodup) :
    ((l.map fun p => (p.1.name, p.2)).map Prod.fst).Nodup := by
  have : (l.map fun p => (p.1.name, p.2)).map Prod.fst = (l.map Prod.fst).map ObsKey.name := by
    simp [List.map_map, Function.comp_def]
  rw [this]
  exact h.map fun x y e => ObsKey.name_inj e

/-! ### Creating and writing -/

theorem create_all (L : List (String × ObsKind)) (hL : (L.map Prod.fst).Nodup) (S : ObsSet) (hS : ∀ p ∈ L, S p.1 = none) :
    ∃ S', Res.foldl ObsSet.create S L = .ok S' ∧ (∀ p ∈ L, S' p.1 = some (p.2, [])) ∧
      ∀ n, n ∉ L.map Prod.fst → S' n = S n := by
  induction L generalizing S with
  | nil => exact ⟨S, rfl, by simp, fun n _ => rfl⟩
  | cons p L ih =>
    simp only [List.map_cons, List.nodup_cons] at hL
    have hp := hS p (by simp)
    have e : ObsSet.create S p = .ok (Function.update S p.1 (some (p.2, []))) := by
      unfold ObsSet.create
      rw [Res.throwIf_false (by simp [hp])]; rfl
    have hne : ∀ q ∈ L, q.1 ≠ p.1 := fun q hq h => hL.1 (by rw [← h]; exact List.mem_map_of_mem hq)
    obtain ⟨S', e', h1, h2⟩ := ih hL.2 (Function.update S p.1 (some (p.2, []))) fun q hq => by
      rw [Function.update_of_ne (hne q hq)]; exact hS q (by simp [hq])
    refine ⟨S', by rw [Res.foldl_cons, e, Res.bind_ok, e'], fun q hq => ?_, fun n hn => ?_⟩
    · rcases List.mem_cons.mp hq with rfl | hq
      · rw [h2 _ hL.1, Function.update_self]
      · exact h1 q hq
    · simp only [List.map_cons, List.mem_cons, not_or] at hn
      rw [h2 n hn.2, Function.update_of_ne hn.1]

theorem push_all (L : List (String × ObsVal)) (hL : (L.map Prod.fst).Nodup) (S : ObsSet)
    (hS : ∀ p ∈ L, ∃ l, S p.1 = some (p.2.kind, l)) :
    ∃ S', Res.foldl ObsSet.push S L = .ok S' ∧
      (∀ p ∈ L, ∀ k l, S p.1 = some (k, l) → S' p.1 = some (k, l ++ [p.2])) ∧ ∀ n, n ∉ L.map Prod.fst → S' n = S n := by
  induction L generalizing S with
  | nil => exact ⟨S, rfl, by simp, fun n _ => rfl⟩
  | cons p L ih =>
    simp only [List.map_cons, List.nodup_cons] at hL
    obtain ⟨l0, hp⟩ := hS p (by simp)
    have e : ObsSet.push S p = .ok (Function.update S p.1 (some (p.2.kind, l0 ++ [p.2]))) := by
      unfold ObsSet.push
      rw [hp]
      simp
    have hne : ∀ q ∈ L, q.1 ≠ p.1 := fun q hq h => hL.1 (by rw [← h]; exact List.mem_map_of_mem hq)
    obtain ⟨S', e', h1, h2⟩ := ih hL.2 (Function.update S p.1 (some (p.2.kind, l0 ++ [p.2]))) fun q hq => by
      rw [Function.update_of_ne (hne q hq)]; exact hS q (by simp [hq])
    refine ⟨S', by rw [Res.foldl_cons, e, Res.bind_ok, e'], fun q hq k l hl => ?_, fun n hn => ?_⟩
    · rcases List.mem_cons.mp hq with rfl | hq
      · rw [h2 _ hL.1, Function.update_self]
        rw [hp] at hl
        cases hl
        rfl
      · exact h1 q hq k l (by rw [Function.update_of_ne (hne q hq)]; exact hl)
    · simp only [List.map_cons, List.mem_cons, not_or] at hn
      rw [h2 n hn.2, Function.update_of_ne hn.1]

theorem stauName_real (f a b : ℕ) :
    stauName "real" f a b = "Stau_real_" ++ toString f ++ "_" ++ toString a ++ "_" ++ toString b := rfl

theorem stauName_imag (f a b : ℕ) :
    stauName "imag" f a b = "Stau_imag_" ++ toString f ++ "_" ++ toString a ++ "_" ++ toString b := rfl

theorem created (nf ns : ℕ) : ∃ S, createObservables nf ns = .ok S ∧ Recorded nf ns [] S := by
  have hn : ((solverObservables nf ns ++ managerObservables).map Prod.fst).Nodup := by
    rw [ObsKey.all_eq]; exact names_nodup (ObsKey.all_nodup nf ns)
  obtain ⟨S, e, h1, h2⟩ := create_all _ hn ObsSet.empty fun _ _ => rfl
  refine ⟨S, e, ?_⟩
  have key : ∀ k o, (k, o) ∈ ObsKey.all nf ns → S k.name = some (o, []) := fun k o h =>
    h1 (k.name, o) (by rw [ObsKey.all_eq]; exact List.mem_map.mpr ⟨(k, o), h, rfl⟩)
  refine ⟨key .sign _ ?_, key .order _ ?_, key .orderType _ ?_, fun f hf a ha b hb => ?_, fun f hf a ha b hb => ?_,
    key .dens _ ?_, fun f hf => key (.site f) _ ?_, key .ninjRe _ ?_, key .ninjIm _ ?_, key .insRem _ ?_, key .shift _ ?_,
    key .timings _ ?_, fun hs f hf => key (.single f) _ ?_, fun hs f hf i hi => key (.pair f i) _ ?_, fun n hn => ?_⟩
  any_goals (simp [ObsKey.all]; done)
  · rw [← stauName_real]
    exact key (.stauRe f a b) _ (by simp [ObsKey.all, hf, ha, hb])
  · rw [← stauName_imag]
    exact key (.stauIm f a b) _ (by simp [ObsKey.all, hf, ha, hb])
  · simp [ObsKey.all, hf]
  · subst hs; simp [ObsKey.all, hf]
  · simp [ObsKey.all, hs, hf, hi]
  · have hm : n ∈ (solverObservables nf ns ++ managerObservables).map Prod.fst := by
      by_contra hc
      exact hn (h2 n hc)
    simp only [solverObservables, managerObservables, List.map_append, List.map_flatMap, List.map_map, List.map_cons,
      List.map_nil, Function.comp_def, List.mem_append, List.mem_cons, List.mem_flatMap, List.mem_map, List.mem_range,
      List.not_mem_nil, or_false, stauName_real, stauName_imag] at hm ⊢
    rcases hm with (((((((rfl | rfl) | ⟨f, hf, a, ha, b, hb, rfl | rfl⟩) | rfl) | ⟨f, hf, rfl⟩) | (rfl | rfl)) |
      ⟨f, hf, i, hi, rfl⟩) | (rfl | rfl)) | (rfl | rfl)
    any_goals (left; simp; done)
    · exact Or.inr (Or.inr (Or.inr ⟨f, hf, a, ha, b, hb, Or.inl rfl⟩))
    · exact Or.inr (Or.inr (Or.inr ⟨f, hf, a, ha, b, hb, Or.inr rfl⟩))
    · exact Or.inr (Or.inl ⟨f, hf, Or.inl rfl⟩)
    · by_cases h : ns > 1
      · exact Or.inr (Or.inr (Or.inl ⟨f, hf, i, hi, by simp [h, String.append_assoc]⟩))
      · exact Or.inr (Or.inl ⟨f, hf, Or.inr (by simp [h])⟩)

theorem passed_one {nf ns : ℕ} {log : List (Measured × List ℝ)} {S : ObsSet} (h : Recorded nf ns log S)
    (m : Measured × List ℝ) :
    ∃ S', Res.foldl ObsSet.push S (passedValues nf ns m) = .ok S' ∧ Recorded nf ns (log ++ [m]) S' := by
  have hn : ((passedValues nf ns m).map Prod.fst).Nodup := by
    rw [ObsKey.passed_eq]; exact names_nodup (ObsKey.passed_nodup nf ns m)
  have hpre : ∀ p ∈ passedValues nf ns m, ∃ l, S p.1 = some (p.2.kind, l) := by
    intro p hp
    simp only [passedValues, List.mem_append, List.mem_cons, List.mem_flatMap, List.mem_map, List.mem_range,
      List.not_mem_nil, or_false] at hp
    rcases hp with ((rfl | ⟨f, hf, a, ha, b, hb, rfl | rfl⟩) | ⟨f, hf, rfl⟩) | rfl | rfl | rfl | rfl | rfl | rfl | rfl | rfl
    · exact ⟨_, h.sign⟩
    · exact ⟨_, h.stauRe f hf a ha b hb⟩
    · exact ⟨_, h.stauIm f hf a ha b hb⟩
    · exact ⟨_, h.site f hf⟩
    · exact ⟨_, h.dens⟩
    · exact ⟨_, h.ninjRe⟩
    · exact ⟨_, h.ninjIm⟩
    · exact ⟨_, h.order⟩
    · exact ⟨_, h.orderType⟩
    · refine ⟨log.map fun m => rateVal m.1.insRem, h.insRem.trans ?_⟩
      rcases m.1.insRem with _ | ⟨x, y⟩ <;> rfl
    · refine ⟨log.map fun m => rateVal m.1.shift, h.shift.trans ?_⟩
      rcases m.1.shift with _ | ⟨x, y⟩ <;> rfl
    · exact ⟨_, h.timings⟩
  obtain ⟨S', e, h1, h2⟩ := push_all _ hn S hpre
  refine ⟨S', e, ?_⟩
  have key : ∀ k v o l, (k, v) ∈ ObsKey.passed nf ns m → S k.name = some (o, l) → S' k.name = some (o, l ++ [v]) :=
    fun k v o l hk hl => h1 (k.name, v) (by rw [ObsKey.passed_eq]; exact List.mem_map.mpr ⟨(k, v), hk, rfl⟩) o l hl
  have keep : ∀ k : ObsKey, k ∉ (ObsKey.passed nf ns m).map Prod.fst → S' k.name = S k.name := fun k hk => by
    refine h2 k.name fun hc => hk ?_
    rw [ObsKey.passed_eq, List.map_map] at hc
    obtain ⟨p, hp, e⟩ := List.mem_map.mp hc
    rw [← ObsKey.name_inj e]
    exact List.mem_map_of_mem hp
  have tail : ∀ f : Measured × List ℝ → ObsVal, (log ++ [m]).map f = log.map f ++ [f m] := fun f => by simp
  refine ⟨?_, ?_, ?_, fun f hf a ha b hb => ?_, fun f hf a ha b hb => ?_, ?_, fun f hf => ?_, ?_, ?_, ?_, ?_, ?_,
    fun hs f hf => ?_, fun hs f hf i hi => ?_, fun n hn => h.only n fun hc => hn ?_⟩
  · rw [tail]; exact key .sign _ _ _ (by simp [ObsKey.passed]) h.sign
  · rw [tail]; exact key .order _ _ _ (by simp [ObsKey.passed]) h.order
  · rw [tail]; exact key .orderType _ _ _ (by simp [ObsKey.passed]) h.orderType
  · rw [tail]; exact key (.stauRe f a b) _ _ _ (by simp [ObsKey.passed, hf, ha, hb]) (h.stauRe f hf a ha b hb)
  · rw [tail]; exact key (.stauIm f a b) _ _ _ (by simp [ObsKey.passed, hf, ha, hb]) (h.stauIm f hf a ha b hb)
  · rw [tail]; exact key .dens _ _ _ (by simp [ObsKey.passed]) h.dens
  · rw [tail]; exact key (.site f) _ _ _ (by simp [ObsKey.passed, hf]) (h.site f hf)
  · rw [tail]; exact key .ninjRe _ _ _ (by simp [ObsKey.passed]) h.ninjRe
  · rw [tail]; exact key .ninjIm _ _ _ (by simp [ObsKey.passed]) h.ninjIm
  · rw [tail]; exact key .insRem _ _ _ (by simp [ObsKey.passed]) h.insRem
  · rw [tail]; exact key .shift _ _ _ (by simp [ObsKey.passed]) h.shift
  · rw [tail]; exact key .timings _ _ _ (by simp [ObsKey.passed]) h.timings
  · exact (keep (.single f) (by rw [ObsKey.passed_keys]; simp)).trans (h.single hs f hf)
  · exact (keep (.pair f i) (by rw [ObsKey.passed_keys]; simp)).trans (h.pairs hs f hf i hi)
  · by_cases hm : n ∈ (passedValues nf ns m).map Prod.fst
    · obtain ⟨p, hp, rfl⟩ := List.mem_map.mp hm
      obtain ⟨l, hl⟩ := hpre p hp
      rw [hl] at hc
      cases hc
    · rw [h2 n hm, hc]

theorem passed_all {nf ns : ℕ} {S : ObsSet} (h : Recorded nf ns [] S) (log : List (Measured × List ℝ)) :
    ∃ S', passAll nf ns S log = .ok S' ∧ Recorded nf ns log S' := by
  unfold passAll
  induction log using List.reverseRecOn with
  | nil => exact ⟨S, rfl, h⟩
  | append_singleton log m ih =>
    obtain ⟨S1, e1, h1⟩ := ih
    obtain ⟨S2, e2, h2⟩ := passed_one h1 m
    exact ⟨S2, by rw [Res.foldl_append, e1, Res.bind_ok, Res.foldl_cons, e2]; rfl, h2⟩

/-! ### Reading -/

theorem mapM_read {α β : Type} {f : β → Res α} (g : α → β) (h : ∀ x, f (g x) = .ok x) (l : List α) :
    Res.mapM f (l.map g) = .ok l := by
  induction l with
  | nil => rfl
  | cons a l ih =>
    show (f (g a) >>= fun b => Res.mapM f (l.map g) >>= fun l' => _) = _
    rw [h, Res.bind_ok, ih]; rfl

theorem readVecs_eq {α : Type} {S : ObsSet} {n : String} {log : List α} (g : α → List ℝ)
    (h : S n = some (.vector, log.map fun m => .vec (g m))) : S.readVecs n = .ok (log.map g) := by
  unfold ObsSet.readVecs
  rw [h]
  have := mapM_read (f := fun v => match v with | .vec x => .ok x | _ => .ub) ObsVal.vec (fun x => rfl) (log.map g)
  rw [List.map_map] at this
  exact this

theorem readNums_eq {α : Type} {S : ObsSet} {n : String} {log : List α} (g : α → ℝ)
    (h : S n = some (.scalar, log.map fun m => .num (g m))) : S.readNums n = .ok (log.map g) := by
  unfold ObsSet.readNums
  rw [h]
  have := mapM_read (f := fun v => match v with | .num x => .ok x | _ => .ub) ObsVal.num (fun x => rfl) (log.map g)
  rw [List.map_map] at this
  exact this

/-- Two values obtained before a loop or in every pass of it. -/
theorem foldl_hoist {α β γ δ : Type} (x : Res γ) (y : Res δ) (f : γ → δ → α → β → Res α) {l : List β} (hl : l ≠ []) (a : α) :
    (do let u ← x; let v ← y; Res.foldl (f u v) a l) = Res.foldl (fun a b => do let u ← x; let v ← y; f u v a b) a l := by
  cases l with
  | nil => exact absurd rfl hl
  | cons b l =>
    cases x with
    | ok u =>
      cases y with
      | ok v => rfl
      | throw e => rfl
      | ub => rfl
    | throw e => rfl
    | ub => rfl

theorem foldl_same {α β : Type} {f g : α → β → Res α} {l : List β} (h : ∀ b ∈ l, ∀ a, f a b = g a b) (a : α) :
    Res.foldl f a l = Res.foldl g a l := by
  induction l generalizing a with
  | nil => rfl
  | cons b l ih =>
    rw [Res.foldl_cons, Res.foldl_cons, h b (by simp)]
    cases hx : g a b with
    | ok a' => exact ih (fun b hb => h b (by simp [hb])) a'
    | throw e => rfl
    | ub => rfl

theorem loadStau_named {nf ns nb : ℕ} (hb : 0 < nb) {log : List (Measured × List ℝ)} {S : ObsSet} (h : Recorded nf ns log S) :
    loadStauNamed nf ns nb S = loadStau nf ns nb (log.map fun m => m.1.values) := by
  unfold loadStauNamed loadStau
  refine foldl_same (fun f hf A => foldl_same (fun a ha A => foldl_same (fun b hb' A => ?_) A) A) _
  rw [List.mem_range] at hf ha hb'
  simp only [stauName_real, stauName_imag]
  rw [readVecs_eq (fun m : Measured × List ℝ => m.1.values.stauRe f a b) (h.stauRe f hf a ha b hb'),
    readVecs_eq (fun m : Measured × List ℝ => m.1.values.stauIm f a b) (h.stauIm f hf a ha b hb')]
  simp only [Res.bind_ok, List.map_map, Function.comp_def]
  have hne : List.range nb ≠ [] := fun hc => by rw [List.range_eq_nil] at hc; omega
  exact foldl_hoist _ _ (fun re im A ib => do
        let x ← Res.get re ib
        let y ← Res.get im ib
        pure (Function.update A (off4 ns ns nb f a b ib) (⟨x, y⟩ : ℂ))) hne A

end CTInt
