import Verif.Lemmas.RawForms
/-!
# Shapes of raw values
-/

namespace Peak.RF
open Peak Peak.Spec

mutual
/-- A raw value is its shape filled with its own leaves. -/
theorem fill_self : ∀ (t : Ty) (r : RVal) (ρ : RPath → Nat), RHas t r → (∀ p u n, (p, u, n) ∈ rawLeaves t r → ρ p % 2 ^ width u = n) →
    VF.fill t r ρ = r
  | .bv _ _, .leaf n, ρ, _, h => by simp only [VF.fill]; rw [h [] _ n (by simp [rawLeaves])]
  | .bit _, .leaf n, ρ, _, h => by simp only [VF.fill]; rw [h [] _ n (by simp [rawLeaves])]
  | .enum _ _, .leaf n, ρ, _, h => by simp only [VF.fill]; rw [h [] _ n (by simp [rawLeaves])]
  | .prod _ fs, .prod vs, ρ, hr, h => by
    simp only [VF.fill]
    rw [fillAll_self fs vs ρ hr h]
  | .sum _ fs, .sum k v, ρ, hr, h => by
    simp only [VF.fill]
    rw [fillAt_self fs k v ρ hr h]
  | .bv _ _, .prod _, _, h, _ => by simp [RHas] at h
  | .bv _ _, .sum _ _, _, h, _ => by simp [RHas] at h
  | .bit _, .prod _, _, h, _ => by simp [RHas] at h
  | .bit _, .sum _ _, _, h, _ => by simp [RHas] at h
  | .enum _ _, .prod _, _, h, _ => by simp [RHas] at h
  | .enum _ _, .sum _ _, _, h, _ => by simp [RHas] at h
  | .prod _ _, .leaf _, _, h, _ => by simp [RHas] at h
  | .prod _ _, .sum _ _, _, h, _ => by simp [RHas] at h
  | .sum _ _, .leaf _, _, h, _ => by simp [RHas] at h
  | .sum _ _, .prod _, _, h, _ => by simp [RHas] at h
theorem fillAll_self : ∀ (fs : Fields) (vs : List RVal) (ρ : RPath → Nat), RHasAll fs vs →
    (∀ p u n, (p, u, n) ∈ rawLeavesAll fs vs → ρ p % 2 ^ width u = n) → VF.fillAll fs vs ρ = vs
  | .nil, [], _, _, _ => rfl
  | .cons k t fs, v :: vs, ρ, hr, h => by
    simp only [VF.fillAll]
    rw [fill_self t v _ hr.1 (fun p u n hp => h (k :: p) u n (by
        simp only [rawLeavesAll, List.mem_append]; exact .inl (List.mem_map.mpr ⟨_, hp, rfl⟩))),
      fillAll_self fs vs ρ hr.2 (fun p u n hp => h p u n (by simp only [rawLeavesAll, List.mem_append]; exact .inr hp))]
  | .nil, _ :: _, _, h, _ => by simp [RHasAll] at h
  | .cons .., [], _, h, _ => by simp [RHasAll] at h
theorem fillAt_self : ∀ (fs : Fields) (k : Key) (v : RVal) (ρ : RPath → Nat), RHasAt fs k v →
    (∀ p u n, (p, u, n) ∈ rawLeavesAt fs k v → ρ p % 2 ^ width u = n) → VF.fillAt fs k v ρ = v
  | .nil, _, _, _, h, _ => by simp [RHasAt] at h
  | .cons k' t fs, k, v, ρ, hr, h => by
    simp only [RHasAt] at hr
    simp only [VF.fillAt]
    split at hr
    · next hk =>
      rw [if_pos hk]
      exact fill_self t v _ hr (fun p u n hp => h (k :: p) u n (by
        simp only [rawLeavesAt, if_pos hk]; exact List.mem_map.mpr ⟨_, hp, rfl⟩))
    · next hk =>
      rw [if_neg hk]
      exact fillAt_self fs k v ρ hr (fun p u n hp => h p u n (by simp only [rawLeavesAt, if_neg hk]; exact hp))
end

theorem all_head : ∀ (fs : Fields) (vs : List RVal), ∀ l ∈ rawLeavesAll fs vs, ∃ k p, l.1 = k :: p ∧ k ∈ fs.toList.map (·.1)
  | .nil, _, l, h => by simp [rawLeavesAll] at h
  | .cons .., [], l, h => by simp [rawLeavesAll] at h
  | .cons k t fs, v :: vs, l, h => by
    simp only [rawLeavesAll] at h
    rcases List.mem_append.mp h with h | h
    · obtain ⟨l', _, rfl⟩ := List.mem_map.mp h
      exact ⟨k, l'.1, rfl, by simp [Fields.toList]⟩
    · obtain ⟨k', p, h1, h2⟩ := all_head fs vs l h
      exact ⟨k', p, h1, by simp [Fields.toList, h2]⟩

theorem at_leaves : ∀ (fs : Fields) (k : Key) (v : RVal), RHasAt fs k v → ∃ t, (k, t) ∈ fs.toList ∧ RHas t v
  | .nil, _, _, h => by simp [RHasAt] at h
  | .cons k' t fs, k, v, h => by
    simp only [RHasAt] at h
    split at h
    · next hk => subst hk; exact ⟨t, by simp [Fields.toList], h⟩
    · obtain ⟨t', h1, h2⟩ := at_leaves fs k v h
      exact ⟨t', by simp [Fields.toList, h1], h2⟩

mutual
/-- Two raw values of a type have the same shape when one has the leaf paths of the other. -/
theorem shape_eq : ∀ (t : Ty) (r s : RVal), WF t → Buildable t → RHas t r → RHas t s →
    (∀ p ∈ (rawLeaves t r).map (·.1), p ∈ (rawLeaves t s).map (·.1)) → ∀ ρ, VF.fill t r ρ = VF.fill t s ρ
  | .bv _ _, .leaf _, .leaf _, _, _, _, _, _, ρ => by simp [VF.fill]
  | .bit _, .leaf _, .leaf _, _, _, _, _, _, ρ => by simp [VF.fill]
  | .enum _ _, .leaf _, .leaf _, _, _, _, _, _, ρ => by simp [VF.fill]
  | .prod _ fs, .prod vs, .prod ws, hw, hb, hr, hs, h, ρ => by
    simp only [VF.fill]
    rw [shapeAll_eq fs vs ws hw.1 hw.2 hb.2.2 hr hs h ρ]
  | .sum c fs, .sum k v, .sum k' v', hw, hb, hr, hs, h, ρ => by
    obtain ⟨t, hk, hv⟩ := at_leaves fs k v hr
    obtain ⟨t', hk', hv'⟩ := at_leaves fs k' v' hs
    have hbt := VF.buildables_mem fs hb.2.2 _ hk
    obtain ⟨l, hl⟩ := List.exists_mem_of_ne_nil _ (SB.leaves_ne t v hbt hv)
    obtain ⟨i, hi⟩ := List.getElem?_of_mem hk
    have hwt := wfs_mem fs hw.2.2 i k t hi
    obtain ⟨_, a2, a3, _⟩ := at_get (τ := fun _ => 0) fs [] k v t ρ hw.2.1 hk
    obtain ⟨_, b2, b3, _⟩ := at_get (τ := fun _ => 0) fs [] k' v' t' ρ hw.2.1 hk'
    simp only [rawLeaves, a2, b2, List.map_map] at h
    have hin := h (k :: l.1) (List.mem_map.mpr ⟨l, hl, rfl⟩)
    obtain ⟨l', _, he⟩ := List.mem_map.mp hin
    simp only [Function.comp_apply, List.cons.injEq] at he
    obtain ⟨rfl, _⟩ := he
    have htt : t' = t := by
      have e1 := SB.lookup_of_mem hw.2.1 hk
      have e2 := SB.lookup_of_mem hw.2.1 hk'
      rw [e1] at e2; cases e2; rfl
    subst htt
    simp only [VF.fill, a3, b3]
    congr 1
    refine shapeO_eq fs k' t' v v' hk hwt hbt hv hv' ?_ _
    intro p hp
    obtain ⟨l, hl, rfl⟩ := List.mem_map.mp hp
    have := h (k' :: l.1) (List.mem_map.mpr ⟨l, hl, rfl⟩)
    obtain ⟨l', hl', he⟩ := List.mem_map.mp this
    simp only [Function.comp_apply, List.cons.injEq, true_and] at he
    exact List.mem_map.mpr ⟨l', hl', he⟩
  | .bv _ _, .prod _, _, _, _, h, _, _, _ => by simp [RHas] at h
  | .bv _ _, .sum _ _, _, _, _, h, _, _, _ => by simp [RHas] at h
  | .bit _, .prod _, _, _, _, h, _, _, _ => by simp [RHas] at h
  | .bit _, .sum _ _, _, _, _, h, _, _, _ => by simp [RHas] at h
  | .enum _ _, .prod _, _, _, _, h, _, _, _ => by simp [RHas] at h
  | .enum _ _, .sum _ _, _, _, _, h, _, _, _ => by simp [RHas] at h
  | .prod _ _, .leaf _, _, _, _, h, _, _, _ => by simp [RHas] at h
  | .prod _ _, .sum _ _, _, _, _, h, _, _, _ => by simp [RHas] at h
  | .sum _ _, .leaf _, _, _, _, h, _, _, _ => by simp [RHas] at h
  | .sum _ _, .prod _, _, _, _, h, _, _, _ => by simp [RHas] at h
  | .bv _ _, .leaf _, .prod _, _, _, _, h, _, _ => by simp [RHas] at h
  | .bv _ _, .leaf _, .sum _ _, _, _, _, h, _, _ => by simp [RHas] at h
  | .bit _, .leaf _, .prod _, _, _, _, h, _, _ => by simp [RHas] at h
  | .bit _, .leaf _, .sum _ _, _, _, _, h, _, _ => by simp [RHas] at h
  | .enum _ _, .leaf _, .prod _, _, _, _, h, _, _ => by simp [RHas] at h
  | .enum _ _, .leaf _, .sum _ _, _, _, _, h, _, _ => by simp [RHas] at h
  | .prod _ _, .prod _, .leaf _, _, _, _, h, _, _ => by simp [RHas] at h
  | .prod _ _, .prod _, .sum _ _, _, _, _, h, _, _ => by simp [RHas] at h
  | .sum _ _, .sum _ _, .leaf _, _, _, _, h, _, _ => by simp [RHas] at h
  | .sum _ _, .sum _ _, .prod _, _, _, _, h, _, _ => by simp [RHas] at h
theorem shapeAll_eq : ∀ (fs : Fields) (vs ws : List RVal), (fs.toList.map (·.1)).Nodup → WFs fs → Buildables fs → RHasAll fs vs → RHasAll fs ws →
    (∀ p ∈ (rawLeavesAll fs vs).map (·.1), p ∈ (rawLeavesAll fs ws).map (·.1)) → ∀ ρ, VF.fillAll fs vs ρ = VF.fillAll fs ws ρ
  | .nil, [], [], _, _, _, _, _, _, _ => rfl
  | .cons k t fs, v :: vs, w :: ws, hn, hw, hb, hr, hs, h, ρ => by
    simp only [Fields.toList, List.map_cons, List.nodup_cons] at hn
    simp only [rawLeavesAll, List.map_append, List.map_map] at h
    simp only [VF.fillAll]
    rw [shape_eq t v w hw.1 hb.1 hr.1 hs.1 ?_ _, shapeAll_eq fs vs ws hn.2 hw.2 hb.2 hr.2 hs.2 ?_ ρ]
    · intro p hp
      have := h p (List.mem_append_right _ hp)
      rcases List.mem_append.mp this with h1 | h1
      · obtain ⟨l, hl, rfl⟩ := List.mem_map.mp hp
        obtain ⟨k', p', h2, h3⟩ := all_head fs vs l hl
        obtain ⟨l', _, he⟩ := List.mem_map.mp h1
        simp only [Function.comp_apply, h2, List.cons.injEq] at he
        exact absurd (he.1 ▸ h3) hn.1
      · exact h1
    · intro p hp
      obtain ⟨l, hl, rfl⟩ := List.mem_map.mp hp
      have := h (k :: l.1) (List.mem_append_left _ (List.mem_map.mpr ⟨l, hl, rfl⟩))
      rcases List.mem_append.mp this with h1 | h1
      · obtain ⟨l', hl', he⟩ := List.mem_map.mp h1
        simp only [Function.comp_apply, List.cons.injEq, true_and] at he
        exact List.mem_map.mpr ⟨l', hl', he⟩
      · obtain ⟨l', hl', he⟩ := List.mem_map.mp h1
        obtain ⟨k', p', h2, h3⟩ := all_head fs ws l' hl'
        rw [h2] at he
        simp only [List.cons.injEq] at he
        exact absurd (he.1 ▸ h3) hn.1
  | .nil, _ :: _, _, _, _, _, h, _, _, _ => by simp [RHasAll] at h
  | .nil, [], _ :: _, _, _, _, _, h, _, _ => by simp [RHasAll] at h
  | .cons .., [], _, _, _, _, h, _, _, _ => by simp [RHasAll] at h
  | .cons .., _ :: _, [], _, _, _, _, h, _, _ => by simp [RHasAll] at h
theorem shapeO_eq : ∀ (fs : Fields) (k : Key) (t : Ty) (v w : RVal), (k, t) ∈ fs.toList → WF t → Buildable t → RHas t v → RHas t w →
    (∀ p ∈ (rawLeaves t v).map (·.1), p ∈ (rawLeaves t w).map (·.1)) → ∀ ρ, VF.fill t v ρ = VF.fill t w ρ
  | .nil, _, _, _, _, h, _, _, _, _, _, _ => by simp [Fields.toList] at h
  | .cons k' t' fs, k, t, v, w, hm, hw, hb, hv, hs, h, ρ => by
    by_cases hh : t = t'
    · subst hh; exact shape_eq t v w hw hb hv hs h ρ
    · simp only [Fields.toList, List.mem_cons, Prod.mk.injEq] at hm
      exact shapeO_eq fs k t v w (hm.resolve_left (fun h => hh h.2)) hw hb hv hs h ρ
end

mutual
/-- Every raw value has a shape. -/
theorem skel_of : ∀ (t : Ty) (r : RVal), RHas t r → ∃ s ∈ skels t, RHas t s ∧ (rawLeaves t s).map (fun l => (l.1, l.2.1)) = (rawLeaves t r).map (fun l => (l.1, l.2.1))
  | .bv _ _, .leaf _, _ => ⟨.leaf 0, by simp [skels], by simp [RHas, Nat.two_pow_pos], by simp [rawLeaves]⟩
  | .bit _, .leaf _, _ => ⟨.leaf 0, by simp [skels], by simp [RHas, Nat.two_pow_pos], by simp [rawLeaves]⟩
  | .enum _ _, .leaf _, _ => ⟨.leaf 0, by simp [skels], by simp [RHas, Nat.two_pow_pos], by simp [rawLeaves]⟩
  | .prod _ fs, .prod vs, h => by
    obtain ⟨ss, h1, h2, h3⟩ := skelAll_of fs vs h
    exact ⟨.prod ss, by simp only [skels, List.mem_map]; exact ⟨ss, h1, rfl⟩, h2, by simpa only [rawLeaves] using h3⟩
  | .sum _ fs, .sum k v, h => by
    obtain ⟨s, h1, h2, h3⟩ := skelAt_of fs k v h
    exact ⟨.sum k s, by simpa only [skels] using h1, h2, by simpa only [rawLeaves] using h3⟩
  | .bv _ _, .prod _, h => by simp [RHas] at h
  | .bv _ _, .sum _ _, h => by simp [RHas] at h
  | .bit _, .prod _, h => by simp [RHas] at h
  | .bit _, .sum _ _, h => by simp [RHas] at h
  | .enum _ _, .prod _, h => by simp [RHas] at h
  | .enum _ _, .sum _ _, h => by simp [RHas] at h
  | .prod _ _, .leaf _, h => by simp [RHas] at h
  | .prod _ _, .sum _ _, h => by simp [RHas] at h
  | .sum _ _, .leaf _, h => by simp [RHas] at h
  | .sum _ _, .prod _, h => by simp [RHas] at h
theorem skelAll_of : ∀ (fs : Fields) (vs : List RVal), RHasAll fs vs → ∃ ss ∈ pyProduct (skelsF fs), RHasAll fs ss ∧
    (rawLeavesAll fs ss).map (fun l => (l.1, l.2.1)) = (rawLeavesAll fs vs).map (fun l => (l.1, l.2.1))
  | .nil, [], _ => ⟨[], by simp [skelsF, pyProduct], trivial, rfl⟩
  | .cons k t fs, v :: vs, h => by
    obtain ⟨s, h1, h2, h3⟩ := skel_of t v h.1
    obtain ⟨ss, h4, h5, h6⟩ := skelAll_of fs vs h.2
    refine ⟨s :: ss, ?_, ⟨h2, h5⟩, ?_⟩
    · simp only [skelsF, pyProduct, List.mem_flatMap, List.mem_map]
      exact ⟨s, h1, ss, h4, rfl⟩
    · simp only [rawLeavesAll, List.map_append, h6, List.map_map]
      congr 1
      have := congrArg (List.map (fun l : RPath × Ty => (k :: l.1, l.2))) h3
      simpa only [List.map_map, Function.comp_def] using this
  | .nil, _ :: _, h => by simp [RHasAll] at h
  | .cons .., [], h => by simp [RHasAll] at h
theorem skelAt_of : ∀ (fs : Fields) (k : Key) (v : RVal), RHasAt fs k v → ∃ s, .sum k s ∈ skelsO fs ∧ RHasAt fs k s ∧
    (rawLeavesAt fs k s).map (fun l => (l.1, l.2.1)) = (rawLeavesAt fs k v).map (fun l => (l.1, l.2.1))
  | .nil, _, _, h => by simp [RHasAt] at h
  | .cons k' t fs, k, v, h => by
    simp only [RHasAt] at h
    split at h
    · next hk =>
      obtain ⟨s, h1, h2, h3⟩ := skel_of t v h
      subst hk
      refine ⟨s, ?_, by simpa only [RHasAt, if_true] using h2, ?_⟩
      · simp only [skelsO, List.mem_append]; exact .inl (List.mem_map.mpr ⟨s, h1, rfl⟩)
      · simp only [rawLeavesAt, if_true, List.map_map]
        have := congrArg (List.map (fun l : RPath × Ty => (k :: l.1, l.2))) h3
        simpa only [List.map_map, Function.comp_def] using this
    · next hk =>
      obtain ⟨s, h1, h2, h3⟩ := skelAt_of fs k v h
      exact ⟨s, by simp only [skelsO, List.mem_append]; exact .inr h1, by simpa only [RHasAt, if_neg hk] using h2,
        by simpa only [rawLeavesAt, if_neg hk] using h3⟩
end

theorem sum_rep (n m : Nat) : (List.replicate n m).sum = n * m := by
  induction n with
  | zero => simp
  | succ n ih => rw [List.replicate_succ, List.sum_cons, ih, Nat.succ_mul, Nat.add_comm]

mutual
theorem skels_pos : ∀ (t : Ty), WF t → 1 ≤ (skels t).length
  | .bv _ _, _ => by simp [skels]
  | .bit _, _ => by simp [skels]
  | .enum _ _, _ => by simp [skels]
  | .prod _ fs, hw => by simp only [skels, List.length_map]; exact skelsF_pos fs hw.2
  | .sum _ fs, hw => by
    have := skelsO_pos fs hw.2.2
    have h0 : 1 ≤ fs.toList.length := by
      rcases h : fs.toList with _ | _
      · exact absurd h hw.1
      · simp
    simp only [skels]; omega
theorem skelsF_pos : ∀ (fs : Fields), WFs fs → 1 ≤ (pyProduct (skelsF fs)).length
  | .nil, _ => by simp [skelsF, pyProduct]
  | .cons k t fs, hw => by
    have h1 := skels_pos t hw.1
    have h2 := skelsF_pos fs hw.2
    simp only [skelsF, pyProduct, List.length_flatMap, List.length_map]
    rw [List.map_const', sum_rep]
    exact Nat.mul_pos h1 h2
theorem skelsO_pos : ∀ (fs : Fields), WFs fs → fs.toList.length ≤ (skelsO fs).length
  | .nil, _ => by simp [skelsO, Fields.toList]
  | .cons k t fs, hw => by
    have h1 := skels_pos t hw.1
    have h2 := skelsO_pos fs hw.2
    simp only [skelsO, List.length_append, List.length_map, Fields.toList, List.length_cons]
    omega
end

mutual
/-- A type with one form has no unions. -/
theorem unionFree_of_one : ∀ (t : Ty), WF t → Buildable t → (skels t).length ≤ 1 → UnionFree t
  | .bv _ _, _, _, _ => trivial
  | .bit _, _, _, _ => trivial
  | .enum _ _, _, _, _ => trivial
  | .prod _ fs, hw, hb, h => unionFrees_of_one fs hw.2 hb.2.2 (by simpa only [skels, List.length_map] using h)
  | .sum _ fs, hw, hb, h => by
    have h1 := skelsO_pos fs hw.2.2
    have h2 := hb.1
    simp only [skels] at h
    omega
theorem unionFrees_of_one : ∀ (fs : Fields), WFs fs → Buildables fs → (pyProduct (skelsF fs)).length ≤ 1 → UnionFrees fs
  | .nil, _, _, _ => trivial
  | .cons k t fs, hw, hb, h => by
    have h1 := skels_pos t hw.1
    have h2 := skelsF_pos fs hw.2
    simp only [skelsF, pyProduct, List.length_flatMap, List.length_map] at h
    rw [List.map_const', sum_rep] at h
    have h' : (skels t).length * (pyProduct (skelsF fs)).length ≤ 1 := h
    refine ⟨unionFree_of_one t hw.1 hb.1 ?_, unionFrees_of_one fs hw.2 hb.2 ?_⟩
    · exact Nat.le_trans (Nat.le_mul_of_pos_right _ h2) h'
    · exact Nat.le_trans (Nat.le_mul_of_pos_left _ h1) h'
end

mutual
theorem skels_one : ∀ (t : Ty), UnionFree t → (skels t).length = 1
  | .bv _ _, _ => rfl
  | .bit _, _ => rfl
  | .enum _ _, _ => rfl
  | .prod _ fs, h => by simp only [skels, List.length_map]; exact skelsF_one fs h
  | .sum _ _, h => by simp [UnionFree] at h
theorem skelsF_one : ∀ (fs : Fields), UnionFrees fs → (pyProduct (skelsF fs)).length = 1
  | .nil, _ => rfl
  | .cons k t fs, h => by
    simp only [skelsF, pyProduct, List.length_flatMap, List.length_map]
    rw [List.map_const', sum_rep, skels_one t h.1, skelsF_one fs h.2]
end

mutual
theorem tags_unionFree (τ : RPath → Nat) : ∀ (t : Ty) (p : RPath) (r : RVal), UnionFree t → tagsOk τ t p r = true
  | .bv _ _, _, _, _ => by simp [tagsOk]
  | .bit _, _, _, _ => by simp [tagsOk]
  | .enum _ _, _, _, _ => by simp [tagsOk]
  | .prod _ fs, p, .prod vs, h => by simp only [tagsOk]; exact tagsAll_unionFree τ fs p vs h
  | .prod _ _, _, .leaf _, _ => by simp [tagsOk]
  | .prod _ _, _, .sum _ _, _ => by simp [tagsOk]
  | .sum _ _, _, _, h => by simp [UnionFree] at h
theorem tagsAll_unionFree (τ : RPath → Nat) : ∀ (fs : Fields) (p : RPath) (vs : List RVal), UnionFrees fs → tagsOkAll τ fs p vs = true
  | .nil, _, _, _ => by simp [tagsOkAll]
  | .cons _ _ _, _, [], _ => by simp [tagsOkAll]
  | .cons k t fs, p, v :: vs, h => by
    simp only [tagsOkAll, tags_unionFree τ t (p ++ [k]) v h.1, tagsAll_unionFree τ fs p vs h.2, Bool.and_self]
end

mutual
/-- The tag at a path of a raw value. -/
def tagOf : Ty → RVal → RPath → Nat
  | .sum _ fs, .sum k _, [] => optionIndex fs k
  | .prod _ fs, .prod vs, k :: p => tagOfAll fs vs k p
  | .sum _ fs, .sum k v, k' :: p => if k = k' then tagOfAt fs k v p else 0
  | _, _, _ => 0
def tagOfAll : Fields → List RVal → Key → RPath → Nat
  | .cons k' t fs, v :: vs, k, p => if k = k' then tagOf t v p else tagOfAll fs vs k p
  | _, _, _, _ => 0
def tagOfAt : Fields → Key → RVal → RPath → Nat
  | .nil, _, _, _ => 0
  | .cons k' t fs, k, v, p => if k = k' then tagOf t v p else tagOfAt fs k v p
end

mutual
theorem tagsOk_of (τ : RPath → Nat) : ∀ (t : Ty) (r : RVal) (p : RPath), WF t → RHas t r → (∀ q, τ (p ++ q) = tagOf t r q) → tagsOk τ t p r = true
  | .bv _ _, _, _, _, _, _ => by simp [tagsOk]
  | .bit _, _, _, _, _, _ => by simp [tagsOk]
  | .enum _ _, _, _, _, _, _ => by simp [tagsOk]
  | .prod _ fs, .prod vs, p, hw, hr, h => by
    simp only [tagsOk]
    refine tagsAll_of τ fs vs p hw.1 hw.2 hr ?_
    intro k q _
    rw [h (k :: q)]
    simp only [tagOf]
  | .sum _ fs, .sum k v, p, hw, hr, h => by
    have h0 := h []
    simp only [List.append_nil, tagOf] at h0
    obtain ⟨t, hk, hv⟩ := at_leaves fs k v hr
    have hlt : optionIndex fs k < 2 ^ tagBits fs.toList.length := by
      obtain ⟨i, hi⟩ := List.getElem?_of_mem hk
      rw [optionIndex_of_get hw.2.1 hi]
      obtain ⟨hlen, _⟩ := List.getElem?_eq_some_iff.mp hi
      have hb := lt_two_pow_bitLength (fs.toList.length - 1)
      simp only [tagBits]
      omega
    simp only [tagsOk, h0, Nat.mod_eq_of_lt hlt, decide_true, Bool.true_and]
    refine tagsAt_of τ fs k v p hw.2.2 hr ?_
    intro q
    rw [h (k :: q)]
    simp only [tagOf, if_true]
  | .prod _ _, .leaf _, _, _, h, _ => by simp [RHas] at h
  | .prod _ _, .sum _ _, _, _, h, _ => by simp [RHas] at h
  | .sum _ _, .leaf _, _, _, h, _ => by simp [RHas] at h
  | .sum _ _, .prod _, _, _, h, _ => by simp [RHas] at h
theorem tagsAll_of (τ : RPath → Nat) : ∀ (fs : Fields) (vs : List RVal) (p : RPath), (fs.toList.map (·.1)).Nodup → WFs fs → RHasAll fs vs →
    (∀ k q, k ∈ fs.toList.map (·.1) → τ (p ++ k :: q) = tagOfAll fs vs k q) → tagsOkAll τ fs p vs = true
  | .nil, _, _, _, _, _, _ => by simp [tagsOkAll]
  | .cons k t fs, v :: vs, p, hn, hw, hr, h => by
    simp only [Fields.toList, List.map_cons, List.nodup_cons] at hn
    simp only [tagsOkAll, Bool.and_eq_true]
    refine ⟨tagsOk_of τ t v (p ++ [k]) hw.1 hr.1 ?_, tagsAll_of τ fs vs p hn.2 hw.2 hr.2 ?_⟩
    · intro q
      have := h k q (by simp [Fields.toList])
      simp only [tagOfAll, if_true] at this
      rw [← this]; simp
    · intro k' q hk'
      have := h k' q (by simp [Fields.toList, hk'])
      rw [this]
      simp only [tagOfAll]
      rw [if_neg (fun (e : k' = k) => hn.1 (e ▸ hk'))]
  | .cons _ _ _, [], _, _, _, h, _ => by simp [RHasAll] at h
theorem tagsAt_of (τ : RPath → Nat) : ∀ (fs : Fields) (k : Key) (v : RVal) (p : RPath), WFs fs → RHasAt fs k v →
    (∀ q, τ (p ++ k :: q) = tagOfAt fs k v q) → tagsOkAt τ fs p k v = true
  | .nil, _, _, _, _, h, _ => by simp [RHasAt] at h
  | .cons k' t fs, k, v, p, hw, hr, h => by
    simp only [RHasAt] at hr
    simp only [tagsOkAt]
    by_cases hk : k = k'
    · subst hk
      rw [if_pos rfl] at hr ⊢
      refine tagsOk_of τ t v (p ++ [k]) hw.1 hr ?_
      intro q
      have := h q
      simp only [tagOfAt, if_true] at this
      rw [← this]; simp
    · rw [if_neg hk] at hr ⊢
      refine tagsAt_of τ fs k v p hw.2 hr ?_
      intro q
      have := h q
      simpa only [tagOfAt, if_neg hk] using this
end

/-- Some assignment of the tags selects the shape. -/
theorem exists_tags {t : Ty} {r : RVal} (hw : WF t) (hr : RHas t r) : ∃ τ, tagsOk τ t [] r = true :=
  ⟨tagOf t r, tagsOk_of _ t r [] hw hr (fun q => by simp)⟩

mutual
/-- The leaf variables created are those of all leaves of the type. -/
theorem varmap_leaves (P : Process) (ρ τ : RPath → Nat) : ∀ (t : Ty) (p : RPath) (r : FormsRes), smtForms P.asm ρ τ t p = .ok r →
    r.varmap.leaves.map (·.1) = (leafTypes t p).map (·.1)
  | .bv _ _, p, r, h => by cases h; rfl
  | .bit _, p, r, h => by cases h; rfl
  | .enum _ _, p, r, h => by
    simp only [smtForms] at h
    split at h
    · cases h
    · split at h
      · cases h
      · cases h; rfl
  | .prod _ fs, p, r, h => by
    simp only [smtForms] at h
    split at h
    · cases h
    · next rows hrows =>
      split at h
      · cases h
      · split at h
        · cases h
        · cases h
          simp only [leafTypes]
          exact varmap_leavesF P ρ τ fs p rows hrows
  | .sum _ fs, p, r, h => by
    simp only [smtForms] at h
    split at h
    · cases h
    · split at h
      · cases h
      · split at h
        · cases h
        · next rows hrows =>
          split at h
          · cases h
          · cases h
            simp only [leafTypes, Varmap.append, List.nil_append]
            exact varmap_leavesO P ρ τ _ _ fs p rows hrows
theorem varmap_leavesF (P : Process) (ρ τ : RPath → Nat) : ∀ (fs : Fields) (p : RPath) (rows : List FormsRes), smtFields P.asm ρ τ fs p = .ok rows →
    (rows.foldr (fun (r : FormsRes) (vm : Varmap) => r.varmap.append vm) (⟨[], [], []⟩ : Varmap)).leaves.map (·.1) = (leafTypesF fs p).map (·.1)
  | .nil, p, rows, h => by cases h; rfl
  | .cons k t fs, p, rows, h => by
    simp only [smtFields] at h
    split at h
    · cases h
    · next r hr =>
      split at h
      · cases h
      · next rs hrs =>
        cases h
        simp only [List.foldr_cons, show ∀ a b : Varmap, (a.append b).leaves = a.leaves ++ b.leaves from fun _ _ => rfl, leafTypesF, List.map_append, varmap_leaves P ρ τ t _ r hr, varmap_leavesF P ρ τ fs p rs hrs]
theorem varmap_leavesO (P : Process) (ρ τ : RPath → Nat) (u : Ty) (tag : BV) : ∀ (fs : Fields) (p : RPath) (rows : List (Key × FormsRes × Bool)),
    smtOptions P.asm ρ τ u tag fs p = .ok rows →
    (rows.foldr (fun (r : Key × FormsRes × Bool) (vm : Varmap) => r.2.1.varmap.append vm) (⟨[], [], []⟩ : Varmap)).leaves.map (·.1) = (leafTypesF fs p).map (·.1)
  | .nil, p, rows, h => by cases h; rfl
  | .cons k t fs, p, rows, h => by
    simp only [smtOptions] at h
    split at h
    · cases h
    · next r hr =>
      split at h
      · cases h
      · split at h
        · cases h
        · split at h
          · cases h
          · split at h
            · cases h
            · next rs hrs =>
              cases h
              simp only [List.foldr_cons, show ∀ a b : Varmap, (a.append b).leaves = a.leaves ++ b.leaves from fun _ _ => rfl, leafTypesF, List.map_append, varmap_leaves P ρ τ t _ r hr, varmap_leavesO P ρ τ u tag fs p rs hrs]
end

end Peak.RF
