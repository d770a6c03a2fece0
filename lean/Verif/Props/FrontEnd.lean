import Verif.Spec.FrontEnd
import Verif.Lemmas.Verify
import Mathlib.Data.List.Basic
/-! # C86: what the mapper takes, and which inputs are `Const` -/

namespace Peak.FE
open Peak

/-! ## dictionaries -/

theorem dictSet_new {β : Type} (k : RPath) (v : β) : ∀ (d : List (RPath × β)), k ∉ d.map (·.1) → dictSet k v d = d ++ [(k, v)]
  | [], _ => rfl
  | (k', v') :: d, h => by
    simp only [List.map_cons, List.mem_cons, not_or] at h
    simp only [dictSet, if_neg h.1, dictSet_new k v d h.2, List.cons_append]

theorem update_new {β : Type} : ∀ (sub d : List (RPath × β)), ((d ++ sub).map (·.1)).Nodup → update d sub = d ++ sub
  | [], d, _ => by simp [update]
  | e :: sub, d, h => by
    have hn : e.1 ∉ d.map (·.1) := by
      rw [List.map_append, List.map_cons, List.nodup_append] at h
      intro hm
      exact h.2.2 _ hm _ (List.mem_cons_self ..) rfl
    have := update_new sub (d ++ [e]) (by simpa using h)
    simp only [update, List.foldl_cons] at this ⊢
    rw [dictSet_new _ _ _ hn, this]
    simp

/-! ## the leaves without the dictionary -/

mutual
/-- The leaves with their modifiers, as a list. -/
def flat : MTy → RPath → List Mod → List Mod → List (RPath × (List Mod × Ty))
  | .mod m t, p, new, mods => flat t p (new ++ [m]) mods
  | .prod _ fs, p, new, mods => flatF fs p (new ++ mods)
  | .sum _ fs, p, new, mods => flatF fs p (new ++ mods)
  | .bv c w, p, new, mods => [(p, (new ++ mods, .bv c w))]
  | .bit c, p, new, mods => [(p, (new ++ mods, .bit c))]
  | .enum c es, p, new, mods => [(p, (new ++ mods, .enum c es))]
def flatF : MFields → RPath → List Mod → List (RPath × (List Mod × Ty))
  | .nil, _, _ => []
  | .cons k t fs, p, mods => flat t (p ++ [k]) [] mods ++ flatF fs p mods
end

mutual
theorem flat_types : ∀ (t : MTy) (p : RPath) (new mods : List Mod), (flat t p new mods).map (fun e => (e.1, e.2.2)) = leafTypes t.strip p
  | .mod m t, p, new, mods => by rw [flat, MTy.strip]; exact flat_types t p _ _
  | .prod c fs, p, new, mods => by rw [flat, MTy.strip, leafTypes]; exact flatF_types fs p _
  | .sum c fs, p, new, mods => by rw [flat, MTy.strip, leafTypes]; exact flatF_types fs p _
  | .bv c w, p, new, mods => by simp [flat, MTy.strip, leafTypes]
  | .bit c, p, new, mods => by simp [flat, MTy.strip, leafTypes]
  | .enum c es, p, new, mods => by simp [flat, MTy.strip, leafTypes]
theorem flatF_types : ∀ (fs : MFields) (p : RPath) (ms : List Mod), (flatF fs p ms).map (fun e => (e.1, e.2.2)) = leafTypesF fs.strip p
  | .nil, p, ms => by simp [flatF, MFields.strip, leafTypesF]
  | .cons k t fs, p, ms => by
    rw [flatF, MFields.strip, leafTypesF, List.map_append, flat_types t, flatF_types fs]
end

mutual
/-- What is listed: the leaves below `p`. -/
theorem flat_mem : ∀ (t : MTy), t.Names → ∀ (p : RPath) (new mods : List Mod) (x : RPath) (l : List Mod) (u : Ty), (x, (l, u)) ∈ flat t p new mods →
    ∃ q, x = p ++ q ∧ LeafAt t q u ∧ ∀ m, m ∈ l ↔ m ∈ new ∨ m ∈ mods ∨ Under m t q
  | .mod m' t, hn, p, new, mods, x, l, u, h => by
    rw [flat] at h
    obtain ⟨q, h1, h2, h3⟩ := flat_mem t hn p _ _ x l u h
    refine ⟨q, h1, .mod _ _ _ _ h2, fun m => ?_⟩
    rw [h3 m]
    constructor
    · intro h
      rcases h with h | h | h
      · rcases List.mem_append.mp h with h | h
        · exact .inl h
        · rw [List.mem_singleton] at h; subst h; exact .inr (.inr (.here _ _))
      · exact .inr (.inl h)
      · exact .inr (.inr (.mod _ _ _ h))
    · intro h
      rcases h with h | h | h
      · exact .inl (List.mem_append.mpr (.inl h))
      · exact .inr (.inl h)
      · cases h with
        | here => exact .inl (List.mem_append.mpr (.inr (by simp)))
        | mod _ _ _ h => exact .inr (.inr h)
  | .prod c fs, hn, p, new, mods, x, l, u, h => by
    rw [flat] at h
    obtain ⟨k, t, q, h0, h1, h2, h3⟩ := flatF_mem fs hn.2 p _ x l u h
    refine ⟨k :: q, h1, .prod _ _ _ _ _ _ h0 h2, fun m => ?_⟩
    rw [h3 m, List.mem_append, or_assoc]
    refine or_congr_right (or_congr_right ⟨fun h => .prod _ _ _ _ _ h0 h, fun h => ?_⟩)
    cases h with
    | prod _ _ _ t' _ h4 h5 =>
      have := List.inj_on_of_nodup_map hn.1 h0 h4 rfl
      simp only [Prod.mk.injEq, true_and] at this
      exact this ▸ h5
  | .sum c fs, hn, p, new, mods, x, l, u, h => by
    rw [flat] at h
    obtain ⟨k, t, q, h0, h1, h2, h3⟩ := flatF_mem fs hn.2 p _ x l u h
    refine ⟨k :: q, h1, .sum _ _ _ _ _ _ h0 h2, fun m => ?_⟩
    rw [h3 m, List.mem_append, or_assoc]
    refine or_congr_right (or_congr_right ⟨fun h => .sum _ _ _ _ _ h0 h, fun h => ?_⟩)
    cases h with
    | sum _ _ _ t' _ h4 h5 =>
      have := List.inj_on_of_nodup_map hn.1 h0 h4 rfl
      simp only [Prod.mk.injEq, true_and] at this
      exact this ▸ h5
  | .bv c w, hn, p, new, mods, x, l, u, h => by
    simp only [flat, List.mem_singleton, Prod.mk.injEq] at h
    obtain ⟨rfl, rfl, rfl⟩ := h
    exact ⟨[], by simp, .bv _ _, fun m => by rw [List.mem_append, iff_comm, ← or_assoc]; exact or_iff_left (by intro h; cases h)⟩
  | .bit c, hn, p, new, mods, x, l, u, h => by
    simp only [flat, List.mem_singleton, Prod.mk.injEq] at h
    obtain ⟨rfl, rfl, rfl⟩ := h
    exact ⟨[], by simp, .bit _, fun m => by rw [List.mem_append, iff_comm, ← or_assoc]; exact or_iff_left (by intro h; cases h)⟩
  | .enum c es, hn, p, new, mods, x, l, u, h => by
    simp only [flat, List.mem_singleton, Prod.mk.injEq] at h
    obtain ⟨rfl, rfl, rfl⟩ := h
    exact ⟨[], by simp, .enum _ _, fun m => by rw [List.mem_append, iff_comm, ← or_assoc]; exact or_iff_left (by intro h; cases h)⟩
theorem flatF_mem : ∀ (fs : MFields), fs.Names → ∀ (p : RPath) (mods : List Mod) (x : RPath) (l : List Mod) (u : Ty), (x, (l, u)) ∈ flatF fs p mods →
    ∃ k t q, (k, t) ∈ fs.toList ∧ x = p ++ k :: q ∧ LeafAt t q u ∧ ∀ m, m ∈ l ↔ m ∈ mods ∨ Under m t q
  | .nil, _, p, mods, x, l, u, h => by simp [flatF] at h
  | .cons k t fs, hn, p, mods, x, l, u, h => by
    rw [flatF] at h
    rcases List.mem_append.mp h with h | h
    · obtain ⟨q, h1, h2, h3⟩ := flat_mem t hn.1 _ _ _ x l u h
      exact ⟨k, t, q, by simp [MFields.toList], by simp [h1], h2, fun m => by rw [h3 m]; simp⟩
    · obtain ⟨k', t', q, h0, h1⟩ := flatF_mem fs hn.2 p mods x l u h
      exact ⟨k', t', q, by simp [MFields.toList, h0], h1⟩
end

theorem flatF_of {fs : MFields} {k : Key} {t : MTy} (hk : (k, t) ∈ fs.toList) {p : RPath} {mods : List Mod} {e : RPath × (List Mod × Ty)}
    (h : e ∈ flat t (p ++ [k]) [] mods) : e ∈ flatF fs p mods := by
  match fs with
  | .nil => simp [MFields.toList] at hk
  | .cons k' t' fs =>
    simp only [MFields.toList, List.mem_cons, Prod.mk.injEq] at hk
    rw [flatF]
    rcases hk with ⟨rfl, rfl⟩ | hk
    · exact List.mem_append.mpr (.inl h)
    · exact List.mem_append.mpr (.inr (flatF_of hk h))

/-- Every leaf is listed. -/
theorem flat_of {t : MTy} {q : RPath} {u : Ty} (h : LeafAt t q u) : ∀ (p : RPath) (new mods : List Mod), ∃ l, (p ++ q, (l, u)) ∈ flat t p new mods := by
  induction h with
  | bv c w => intro p new mods; exact ⟨_, by simp only [flat, List.append_nil, List.mem_singleton]; rfl⟩
  | bit c => intro p new mods; exact ⟨_, by simp only [flat, List.append_nil, List.mem_singleton]; rfl⟩
  | enum c ms => intro p new mods; exact ⟨_, by simp only [flat, List.append_nil, List.mem_singleton]; rfl⟩
  | mod m t p u _ ih => intro p new mods; rw [flat]; exact ih _ _ _
  | prod c fs k t q u hk _ ih =>
    intro p new mods
    obtain ⟨l, h⟩ := ih (p ++ [k]) [] (new ++ mods)
    rw [flat]
    exact ⟨l, by have := flatF_of hk h; simpa using this⟩
  | sum c fs k t q u hk _ ih =>
    intro p new mods
    obtain ⟨l, h⟩ := ih (p ++ [k]) [] (new ++ mods)
    rw [flat]
    exact ⟨l, by have := flatF_of hk h; simpa using this⟩

mutual
theorem flat_nodup : ∀ (t : MTy), t.Names → ∀ (p : RPath) (new mods : List Mod), ((flat t p new mods).map (·.1)).Nodup
  | .mod m t, hn, p, new, mods => by rw [flat]; exact flat_nodup t hn p _ _
  | .prod c fs, hn, p, new, mods => by rw [flat]; exact flatF_nodup fs hn.1 hn.2 p _
  | .sum c fs, hn, p, new, mods => by rw [flat]; exact flatF_nodup fs hn.1 hn.2 p _
  | .bv c w, hn, p, new, mods => by simp [flat]
  | .bit c, hn, p, new, mods => by simp [flat]
  | .enum c es, hn, p, new, mods => by simp [flat]
theorem flatF_nodup : ∀ (fs : MFields), (fs.toList.map (·.1)).Nodup → fs.Names → ∀ (p : RPath) (mods : List Mod), ((flatF fs p mods).map (·.1)).Nodup
  | .nil, _, _, p, mods => by simp [flatF]
  | .cons k t fs, hd, hn, p, mods => by
    simp only [MFields.toList, List.map_cons, List.nodup_cons] at hd
    rw [flatF, List.map_append, List.nodup_append']
    refine ⟨flat_nodup t hn.1 _ _ _, flatF_nodup fs hd.2 hn.2 _ _, ?_⟩
    intro x h1 h2
    obtain ⟨⟨x1, l1, u1⟩, h3, rfl⟩ := List.mem_map.mp h1
    obtain ⟨⟨x2, l2, u2⟩, h4, h5⟩ := List.mem_map.mp h2
    obtain ⟨q, h6, _⟩ := flat_mem t hn.1 _ _ _ _ _ _ h3
    obtain ⟨k', t', q', h7, h8, _⟩ := flatF_mem fs hn.2 _ _ _ _ _ h4
    simp only at h5
    rw [h8, h6] at h5
    simp only [List.append_assoc, List.append_cancel_left_eq, List.cons_append, List.nil_append, List.cons.injEq] at h5
    exact hd.1 (h5.1 ▸ List.mem_map_of_mem (f := (·.1)) h7)
end

mutual
theorem pathTypes_flat : ∀ (t : MTy), t.Names → ∀ (p : RPath) (new mods : List Mod), pathTypes t p new mods = flat t p new mods
  | .mod m t, hn, p, new, mods => by rw [pathTypes, flat]; exact pathTypes_flat t hn p _ _
  | .prod c fs, hn, p, new, mods => by
    rw [pathTypes, flat, pathTypesF_flat fs hn.1 hn.2 p _ [] (by simpa using flatF_nodup fs hn.1 hn.2 p _)]; simp
  | .sum c fs, hn, p, new, mods => by
    rw [pathTypes, flat, pathTypesF_flat fs hn.1 hn.2 p _ [] (by simpa using flatF_nodup fs hn.1 hn.2 p _)]; simp
  | .bv c w, hn, p, new, mods => by simp [pathTypes, flat]
  | .bit c, hn, p, new, mods => by simp [pathTypes, flat]
  | .enum c es, hn, p, new, mods => by simp [pathTypes, flat]
theorem pathTypesF_flat : ∀ (fs : MFields), (fs.toList.map (·.1)).Nodup → fs.Names → ∀ (p : RPath) (mods : List Mod) (d : List (RPath × (List Mod × Ty))),
    ((d ++ flatF fs p mods).map (·.1)).Nodup → pathTypesF fs p mods d = d ++ flatF fs p mods
  | .nil, _, _, p, mods, d, _ => by simp [pathTypesF, flatF]
  | .cons k t fs, hd, hn, p, mods, d, h => by
    simp only [MFields.toList, List.map_cons, List.nodup_cons] at hd
    rw [flatF, ← List.append_assoc] at h
    rw [pathTypesF, pathTypes_flat t hn.1, update_new _ _ (by
      rw [List.map_append, List.nodup_append'] at h; exact h.1), pathTypesF_flat fs hd.2 hn.2 p mods _ h, flatF, List.append_assoc]
end

/-! ## the property -/

/-- C86: the mapper sees one entry for every leaf of an input type, with its type and exactly the modifiers around the leaf or around something it is part of. -/
theorem C86_leaves (t : MTy) (hn : t.Names) :
    ((pathTypes t [] [] []).map (·.1)).Nodup ∧
    (∀ p u, (∃ ms, (p, (ms, u)) ∈ pathTypes t [] [] []) ↔ LeafAt t p u) ∧
    ∀ p ms u, (p, (ms, u)) ∈ pathTypes t [] [] [] → ∀ m, m ∈ ms ↔ Under m t p := by
  rw [pathTypes_flat t hn]
  refine ⟨flat_nodup t hn _ _ _, fun p u => ⟨?_, fun h => by simpa using flat_of h [] [] []⟩, ?_⟩
  · rintro ⟨ms, h⟩
    obtain ⟨q, h1, h2, _⟩ := flat_mem t hn _ _ _ _ _ _ h
    rw [h1]; exact h2
  · intro p ms u h m
    obtain ⟨q, h1, _, h3⟩ := flat_mem t hn _ _ _ _ _ _ h
    rw [h3 m, h1]
    simp

/-- C86: the inputs the mapper solves for are the leaves that are `Const` or part of something that is. -/
theorem C86_const_paths (t : MTy) (hn : t.Names) (p : RPath) : p ∈ constPaths t ↔ (∃ u, LeafAt t p u) ∧ Under const t p := by
  obtain ⟨_, h1, h2⟩ := C86_leaves t hn
  simp only [constPaths, List.mem_map, List.mem_filter, List.contains_iff_mem]
  constructor
  · rintro ⟨⟨p', ms, u⟩, ⟨h3, h4⟩, rfl⟩
    exact ⟨⟨u, (h1 _ _).1 ⟨ms, h3⟩⟩, (h2 _ _ _ h3 _).1 h4⟩
  · rintro ⟨⟨u, h3⟩, h4⟩
    obtain ⟨ms, h5⟩ := (h1 _ _).2 h3
    exact ⟨(p, (ms, u)), ⟨h5, (h2 _ _ _ h5 _).2 h4⟩, rfl⟩

mutual
theorem constAt_roots : ∀ (t : MTy) (hn : t.Names) (p q : RPath) (u : Ty), LeafAt t q u → (constAt (constRoots t p) (p ++ q) = true ↔ Under const t q)
  | .mod m t, hn, p, q, u, h => by
    cases h with
    | mod _ _ _ _ h =>
      by_cases hm : m = const
      · subst hm
        simp only [constRoots, if_true]
        exact ⟨fun _ => .here _ _, fun _ => by simp [constAt]⟩
      · rw [constRoots, if_neg hm, constAt_roots t hn p q u h]
        exact ⟨fun h => .mod _ _ _ h, fun h => by cases h with | here => exact absurd rfl hm | mod _ _ _ h => exact h⟩
  | .prod c fs, hn, p, q, u, h => by
    cases h with
    | prod _ _ k t q u hk h =>
      rw [constRoots, constAt_rootsF fs hn.1 hn.2 p k q t u hk h]
      refine ⟨fun h => .prod _ _ _ _ _ hk h, fun h => ?_⟩
      cases h with
      | prod _ _ _ t' _ h4 h5 =>
        have := List.inj_on_of_nodup_map hn.1 hk h4 rfl
        simp only [Prod.mk.injEq, true_and] at this
        exact this ▸ h5
  | .sum c fs, hn, p, q, u, h => by
    cases h with
    | sum _ _ k t q u hk h =>
      rw [constRoots, constAt_rootsF fs hn.1 hn.2 p k q t u hk h]
      refine ⟨fun h => .sum _ _ _ _ _ hk h, fun h => ?_⟩
      cases h with
      | sum _ _ _ t' _ h4 h5 =>
        have := List.inj_on_of_nodup_map hn.1 hk h4 rfl
        simp only [Prod.mk.injEq, true_and] at this
        exact this ▸ h5
  | .bv c w, hn, p, q, u, h => by simp only [constRoots, constAt, List.any_nil, Bool.false_eq_true, false_iff]; intro h; cases h
  | .bit c, hn, p, q, u, h => by simp only [constRoots, constAt, List.any_nil, Bool.false_eq_true, false_iff]; intro h; cases h
  | .enum c es, hn, p, q, u, h => by simp only [constRoots, constAt, List.any_nil, Bool.false_eq_true, false_iff]; intro h; cases h
theorem constAt_rootsF : ∀ (fs : MFields) (hd : (fs.toList.map (·.1)).Nodup) (hn : fs.Names) (p : RPath) (k : Key) (q : RPath) (t : MTy) (u : Ty),
    (k, t) ∈ fs.toList → LeafAt t q u → (constAt (constRootsF fs p) (p ++ k :: q) = true ↔ Under const t q)
  | .nil, _, _, p, k, q, t, u, hk, _ => by simp [MFields.toList] at hk
  | .cons k' t' fs, hd, hn, p, k, q, t, u, hk, h => by
    simp only [MFields.toList, List.map_cons, List.nodup_cons] at hd
    have hsplit : constAt (constRootsF (.cons k' t' fs) p) (p ++ k :: q) = (constAt (constRoots t' (p ++ [k'])) (p ++ k :: q) || constAt (constRootsF fs p) (p ++ k :: q)) := by
      rw [constRootsF]; simp [constAt]
    simp only [MFields.toList, List.mem_cons, Prod.mk.injEq] at hk
    rw [hsplit, Bool.or_eq_true]
    rcases hk with ⟨rfl, rfl⟩ | hk
    · rw [or_iff_left]
      · have := constAt_roots t hn.1 (p ++ [k]) q u h
        simpa using this
      · intro hc
        obtain ⟨r, hr, hpre⟩ := List.any_eq_true.mp hc
        obtain ⟨k2, r', rfl, hk2⟩ := rootsF_pre fs p r hr
        rw [List.isPrefixOf_iff_prefix, List.prefix_append_right_inj, List.cons_prefix_cons] at hpre
        exact hd.1 (hpre.1 ▸ hk2)
    · rw [or_iff_right]
      · exact constAt_rootsF fs hd.2 hn.2 p k q t u hk h
      · intro hc
        obtain ⟨r, hr, hpre⟩ := List.any_eq_true.mp hc
        obtain ⟨r', rfl⟩ := roots_pre t' (p ++ [k']) r hr
        rw [List.isPrefixOf_iff_prefix, List.append_assoc, List.prefix_append_right_inj, List.cons_append, List.cons_prefix_cons] at hpre
        exact hd.1 (hpre.1 ▸ List.mem_map_of_mem (f := (·.1)) hk)
theorem roots_pre : ∀ (t : MTy) (p r : RPath), r ∈ constRoots t p → ∃ r', r = p ++ r'
  | .mod m t, p, r, h => by
    rw [constRoots] at h
    split at h
    · exact ⟨[], by simpa using h⟩
    · exact roots_pre t p r h
  | .prod c fs, p, r, h => by
    rw [constRoots] at h
    obtain ⟨k, r', h1, _⟩ := rootsF_pre fs p r h
    exact ⟨_, h1⟩
  | .sum c fs, p, r, h => by
    rw [constRoots] at h
    obtain ⟨k, r', h1, _⟩ := rootsF_pre fs p r h
    exact ⟨_, h1⟩
  | .bv c w, p, r, h => by simp [constRoots] at h
  | .bit c, p, r, h => by simp [constRoots] at h
  | .enum c es, p, r, h => by simp [constRoots] at h
theorem rootsF_pre : ∀ (fs : MFields) (p r : RPath), r ∈ constRootsF fs p → ∃ k r', r = p ++ k :: r' ∧ k ∈ fs.toList.map (·.1)
  | .nil, p, r, h => by simp [constRootsF] at h
  | .cons k t fs, p, r, h => by
    rw [constRootsF] at h
    rcases List.mem_append.mp h with h | h
    · obtain ⟨r', rfl⟩ := roots_pre t _ r h
      exact ⟨k, r', by simp, by simp [MFields.toList]⟩
    · obtain ⟨k', r', h1, h2⟩ := rootsF_pre fs p r h
      exact ⟨k', r', h1, by simp [MFields.toList, h2]⟩
end

/-- C86: the leaves with their types, and which of them are `Const`, are what the model of the mapper (`MapPb`, C33) is given for this input type. -/
theorem C86_mapper_input (t : MTy) (hn : t.Names) :
    typedLeaves (constRoots t []) t.strip = (pathTypes t [] [] []).map (fun e => (e.1, (e.2.1.contains const, e.2.2))) := by
  rw [pathTypes_flat t hn, typedLeaves, ← flat_types t [] [] [], List.map_map]
  refine List.map_congr_left (fun e he => ?_)
  obtain ⟨q, h1, h2, h3⟩ := flat_mem t hn _ _ _ e.1 e.2.1 e.2.2 he
  have h4 := constAt_roots t hn [] q _ h2
  have h5 := h3 const
  simp only [List.not_mem_nil, false_or] at h5
  simp only [List.nil_append] at h1 h4
  simp only [Function.comp_apply, Prod.mk.injEq, and_true, true_and]
  rw [h1, Bool.eq_iff_iff, h4, List.contains_iff_mem, h5]

theorem isConst_roots : ∀ (t : MTy) (p : RPath), t.isConst = (constRoots t p).contains p
  | .mod m t, p => by
    rw [MTy.isConst, constRoots]
    by_cases hm : m = const
    · subst hm; simp
    · rw [if_neg hm, isConst_roots t p]; simp [hm]
  | .prod c fs, p => by
    rw [constRoots, eq_comm, show ∀ b : Bool, (b = MTy.isConst _) = (b = false) from fun _ => rfl, ← Bool.not_eq_true, List.contains_iff_mem]
    intro h
    obtain ⟨k, r', h1, _⟩ := rootsF_pre fs p p h
    exact absurd (congrArg List.length h1) (by simp)
  | .sum c fs, p => by
    rw [constRoots, eq_comm, show ∀ b : Bool, (b = MTy.isConst _) = (b = false) from fun _ => rfl, ← Bool.not_eq_true, List.contains_iff_mem]
    intro h
    obtain ⟨k, r', h1, _⟩ := rootsF_pre fs p p h
    exact absurd (congrArg List.length h1) (by simp)
  | .bv c w, p => by simp [MTy.isConst, constRoots]
  | .bit c, p => by simp [MTy.isConst, constRoots]
  | .enum c es, p => by simp [MTy.isConst, constRoots]

theorem rootsF_field : ∀ (fs : MFields), (fs.toList.map (·.1)).Nodup → ∀ (p : RPath) (k : Key) (t : MTy), (k, t) ∈ fs.toList →
    (constRootsF fs p).contains (p ++ [k]) = t.isConst
  | .nil, _, p, k, t, hk => by simp [MFields.toList] at hk
  | .cons k' t' fs, hd, p, k, t, hk => by
    simp only [MFields.toList, List.map_cons, List.nodup_cons] at hd
    simp only [MFields.toList, List.mem_cons, Prod.mk.injEq] at hk
    rw [constRootsF]
    rcases hk with ⟨rfl, rfl⟩ | hk
    · rw [isConst_roots t (p ++ [k]), Bool.eq_iff_iff, List.contains_iff_mem, List.contains_iff_mem, List.mem_append, or_iff_left]
      intro h
      obtain ⟨k2, r', h1, h2⟩ := rootsF_pre fs p _ h
      simp only [List.append_cancel_left_eq, List.cons.injEq] at h1
      exact hd.1 (h1.1 ▸ h2)
    · rw [← rootsF_field fs hd.2 p k t hk, Bool.eq_iff_iff, List.contains_iff_mem, List.contains_iff_mem, List.mem_append, or_iff_right]
      intro h
      obtain ⟨r', h1⟩ := roots_pre t' _ _ h
      simp only [List.append_assoc, List.append_cancel_left_eq, List.cons_append, List.nil_append, List.cons.injEq] at h1
      exact hd.1 (h1.1 ▸ List.mem_map_of_mem (f := (·.1)) hk)

theorem strip_keys : ∀ (fs : MFields), fs.strip.toList.map (·.1) = fs.toList.map (·.1)
  | .nil => rfl
  | .cons k t fs => by simp [MFields.strip, Fields.toList, MFields.toList, strip_keys fs]

/-- C86: the fields whose values must be valid codes are the fields of the input type that are themselves wrapped in `Const`; these are the ones the
model of the mapper takes. -/
theorem C86_const_fields (c : Nat) (fs : MFields) (hd : (fs.toList.map (·.1)).Nodup) :
    (∀ k, k ∈ constFields fs ↔ ∃ t, (k, t) ∈ fs.toList ∧ t.isConst = true) ∧
    constFields fs = (fs.strip.toList.map (·.1)).filter (fun k => (constRoots (.prod c fs) []).contains [k]) := by
  refine ⟨fun k => ?_, ?_⟩
  · simp only [constFields, List.mem_map, List.mem_filter]
    exact ⟨fun ⟨e, ⟨h1, h2⟩, h3⟩ => ⟨e.2, h3 ▸ h1, h2⟩, fun ⟨t, h1, h2⟩ => ⟨(k, t), ⟨h1, h2⟩, rfl⟩⟩
  · rw [strip_keys, constFields, List.filter_map]
    congr 1
    refine List.filter_congr (fun e he => ?_)
    rw [Function.comp_apply, constRoots]
    exact (rootsF_field fs hd [] e.1 e.2 he).symm

/-! ## closures -/

theorem peakClasses_append : ∀ (a b : List Obj), peakClasses (a ++ b) = peakClasses a ++ peakClasses b
  | [], b => rfl
  | .peak i u :: a, b => by simp [peakClasses, peakClasses_append a b]
  | .other i :: a, b => by simp [peakClasses, peakClasses_append a b]

theorem peakClasses_nil : ∀ (l : List Obj), peakClasses l = [] ↔ ∀ i u, Obj.peak i u ∉ l
  | [] => by simp [peakClasses]
  | .peak i u :: l => by
    simp only [peakClasses, List.cons_ne_nil, false_iff]
    exact fun h => h i u (List.mem_cons_self ..)
  | .other i :: l => by simp [peakClasses, peakClasses_nil l]

theorem peakClasses_one : ∀ (l : List Obj) (c : Nat) (b : Bool), peakClasses l = [(c, b)] ↔ OnlyPeak l c b
  | [], c, b => by simp [peakClasses, OnlyPeak]
  | .peak i u :: l, c, b => by
    simp only [peakClasses, List.cons.injEq, Prod.mk.injEq, peakClasses_nil, OnlyPeak]
    constructor
    · rintro ⟨⟨rfl, rfl⟩, h⟩
      exact ⟨[], l, rfl, fun j v => ⟨by simp, h j v⟩⟩
    · rintro ⟨x, y, h1, h2⟩
      cases x with
      | nil => simp only [List.nil_append, List.cons.injEq, Obj.peak.injEq] at h1; exact ⟨h1.1, fun j v => h1.2 ▸ (h2 j v).2⟩
      | cons o x => simp only [List.cons_append, List.cons.injEq] at h1; exact absurd (h1.1 ▸ List.mem_cons_self ..) (h2 i u).1
  | .other i :: l, c, b => by
    rw [peakClasses, peakClasses_one l c b]
    constructor
    · rintro ⟨x, y, rfl, h⟩
      exact ⟨.other i :: x, y, rfl, fun j v => ⟨by simpa using (h j v).1, (h j v).2⟩⟩
    · rintro ⟨x, y, h1, h2⟩
      cases x with
      | nil => simp at h1
      | cons o x =>
        simp only [List.cons_append, List.cons.injEq] at h1
        exact ⟨x, y, h1.2, fun j v => ⟨fun h => (h2 j v).1 (List.mem_cons_of_mem _ h), (h2 j v).2⟩⟩

/-- The objects a closure returned. -/
def FcOut.objects : FcOut → List Obj
  | .one o => [o]
  | .tuple l => l

/-- C86: `Multi` takes a closure exactly when one Peak class with input and output types is among what it returns, and works on that class; any other
closure, and anything that is not a closure, is a ValueError. -/
theorem C86_multi (out : FcOut) (c : Nat) :
    (multiFront (some out) = .ok c ↔ OnlyPeak out.objects c true) ∧
    (∀ e, multiFront (some out) = .error e → e = .valueError) ∧ multiFront none = .error .valueError := by
  have hg : getPeakCls out = match peakClasses out.objects with | [c] => .ok c | _ => .error .valueError := by
    cases out <;> rfl
  refine ⟨?_, ?_, rfl⟩
  · rw [← peakClasses_one, multiFront, hg]
    rcases h : peakClasses out.objects with _ | ⟨⟨i, b⟩, _ | ⟨y, l⟩⟩
    · simp
    · cases b <;> simp
    · simp
  · intro e
    rw [multiFront, hg]
    rcases h : peakClasses out.objects with _ | ⟨⟨i, b⟩, _ | ⟨y, l⟩⟩
    · simp [eq_comm]
    · cases b <;> simp [eq_comm]
    · simp [eq_comm]

/-- C86 for `ArchMapper` and the IR instruction, as far as it holds: a closure that returns a Peak class, not in a tuple, is taken, and one that does not return exactly one
class is a ValueError. -/
theorem C86_mapper_partial (out py : FcOut) :
    (∀ c, out = .one (.peak c true) → (∃ d, py = .one (.peak d true)) → mapperFront (some out) (some py) = .ok c) ∧
    ((∀ c, ¬ OnlyPeak out.objects c true) → mapperFront (some out) (some py) = .error .valueError) := by
  refine ⟨?_, fun h => ?_⟩
  · rintro c rfl ⟨d, rfl⟩; rfl
  · rw [mapperFront]
    rcases hm : multiFront (some out) with e | c
    · rw [(C86_multi out 0).2.1 e hm]
    · exact absurd ((C86_multi out c).1.1 hm) (h c)

/-- C86, violated: a closure that returns a tuple with one Peak class among other objects, which `Multi` takes, makes the mapper raise an AttributeError. -/
theorem C86_violated_tuple (out : FcOut) (l : List Obj) (c : Nat) (h : OnlyPeak l c true) (hout : out = .tuple l) :
    multiFront (some out) = .ok c ∧ mapperFront (some out) (some out) = .error .attributeError := by
  subst hout
  have h1 := (C86_multi (.tuple l) c).1.2 h
  exact ⟨h1, by rw [mapperFront, h1]; rfl⟩

/-- A tuple of a Peak class and a type: a case of `C86_violated_tuple`. -/
example : OnlyPeak [.other 3, .peak 7 true, .other 4] 7 true := ⟨[.other 3], [.other 4], rfl, by simp⟩

/-- Two Peak classes in a tuple: no class is the only one. -/
example : ∀ c, ¬ OnlyPeak [.peak 7 true, .peak 8 true] c true := by
  intro c h
  rw [← peakClasses_one] at h
  simp [peakClasses] at h

/-- An input type as in the tests: a product of an instruction, which is `Const` and has parts, a word and a product with a `Const` part. -/
def exT : MTy := .prod 0 (.cons 1 (.mod const (.prod 2 (.cons 3 (.enum 4 [.lit 0]) (.cons 5 (.bv 0 8) .nil)))) (.cons 6 (.bv 0 8)
  (.cons 7 (.prod 8 (.cons 9 (.mod 1 (.mod const (.bit 0))) (.cons 10 (.bit 0) .nil))) .nil)))

/-- Its `Const` leaves; only one field is itself `Const`. -/
example : exT.Names ∧ constPaths exT = [[1, 3], [1, 5], [7, 9]] ∧ constRoots exT [] = [[1], [7, 9]] ∧
    (pathTypes exT [] [] []).map (·.1) = [[1, 3], [1, 5], [6], [7, 9], [7, 10]] := by
  refine ⟨by simp [exT, MTy.Names, MFields.Names, MFields.toList], by decide, by decide, by decide⟩

mutual
theorem strip_wraps : ∀ (m : MTy), Wraps m.strip m
  | .mod a m => by rw [MTy.strip]; exact .mod _ _ _ (strip_wraps m)
  | .bv c w => by rw [MTy.strip]; exact .bv c w
  | .bit c => by rw [MTy.strip]; exact .bit c
  | .enum c es => by rw [MTy.strip]; exact .enum c es
  | .prod c fs => by rw [MTy.strip]; exact .prod _ _ _ (strip_wrapsF fs)
  | .sum c fs => by rw [MTy.strip]; exact .sum _ _ _ (strip_wrapsF fs)
theorem strip_wrapsF : ∀ (fs : MFields), WrapsF fs.strip fs
  | .nil => by rw [MFields.strip]; exact .nil
  | .cons k m fs => by rw [MFields.strip]; exact .cons _ _ _ _ _ (strip_wraps m) (strip_wrapsF fs)
end

mutual
theorem wraps_strip : ∀ (m : MTy) (t : Ty), Wraps t m → m.strip = t
  | .mod a m, t, h => by cases h with | mod _ _ _ h => rw [MTy.strip]; exact wraps_strip m t h
  | .bv c w, t, h => by cases h; rw [MTy.strip]
  | .bit c, t, h => by cases h; rw [MTy.strip]
  | .enum c es, t, h => by cases h; rw [MTy.strip]
  | .prod c fs, t, h => by cases h with | prod _ fs' _ h => rw [MTy.strip, wraps_stripF fs fs' h]
  | .sum c fs, t, h => by cases h with | sum _ fs' _ h => rw [MTy.strip, wraps_stripF fs fs' h]
theorem wraps_stripF : ∀ (ms : MFields) (fs : Fields), WrapsF fs ms → ms.strip = fs
  | .nil, fs, h => by cases h; rw [MFields.strip]
  | .cons k m ms, fs, h => by
    cases h with | cons _ t _ fs' _ h1 h2 => rw [MFields.strip, wraps_strip m t h1, wraps_stripF ms fs' h2]
end

/-- C86: the type the mapper works on is the input type without its modifiers, wherever they stand: products stay products, unions stay unions,
and names, classes and order are kept. -/
theorem C86_strip (t : Ty) (m : MTy) : m.strip = t ↔ Wraps t m :=
  ⟨fun h => h ▸ strip_wraps m, wraps_strip m t⟩

/-- A `Const` union inside a product, with a second modifier on one of its options. -/
example : Wraps (.prod 0 (.cons 1 (.sum 2 (.cons 3 (.bv 0 8) (.cons 4 (.bit 0) .nil))) .nil))
    (.prod 0 (.cons 1 (.mod const (.sum 2 (.cons 3 (.mod 1 (.bv 0 8)) (.cons 4 (.bit 0) .nil)))) .nil)) :=
  (C86_strip _ _).1 (by decide)

end Peak.FE
