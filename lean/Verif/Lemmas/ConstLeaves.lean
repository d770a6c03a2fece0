import Verif.Lemmas.IRMapper2
/-!
# The leaves of a valid value are valid

Lemmas for the completeness of the mapper.
-/

namespace Peak.IM
open Peak.Spec

mutual
/-- If the bits of a raw value spell a value, so do the bits of each of its leaves. -/
theorem reads_leaf : ∀ (t : Ty) (r : RVal) (v : Val), WF t → RHas t r → Reads t (rawCode t r) v →
    ∀ l ∈ rawLeaves t r, ∃ v', Reads l.2.1 l.2.2 v'
  | .bv _ _, .leaf _, v, _, _, hr, l, hl => by
    simp only [rawLeaves, List.mem_singleton] at hl
    subst hl
    exact ⟨v, hr⟩
  | .bit _, .leaf _, v, _, _, hr, l, hl => by
    simp only [rawLeaves, List.mem_singleton] at hl
    subst hl
    exact ⟨v, hr⟩
  | .enum _ _, .leaf _, v, _, _, hr, l, hl => by
    simp only [rawLeaves, List.mem_singleton] at hl
    subst hl
    exact ⟨v, hr⟩
  | .prod _ fs, .prod vs, v, hw, h, hr, l, hl => by
    cases v with
    | prod ws => exact reads_leafAll fs vs ws hw.2 h hr l hl
    | _ => simp [Reads] at hr
  | .sum _ fs, .sum k r, v, hw, h, hr, l, hl => by
    cases v with
    | sum k' w =>
      simp only [Reads, rawCode] at hr
      have hi := lt_tagBits (VF.index_lt fs k r h)
      rw [Nat.add_mul_mod_self_left, Nat.mod_eq_of_lt hi, Nat.add_mul_div_left _ _ (Nat.two_pow_pos _), Nat.div_eq_of_lt hi, Nat.zero_add] at hr
      exact reads_leafAt fs k r k' w hw.2.2 h hr l hl
    | _ => simp [Reads] at hr
  | .bv _ _, .prod _, _, _, h, _, _, _ => by simp [RHas] at h
  | .bv _ _, .sum _ _, _, _, h, _, _, _ => by simp [RHas] at h
  | .bit _, .prod _, _, _, h, _, _, _ => by simp [RHas] at h
  | .bit _, .sum _ _, _, _, h, _, _, _ => by simp [RHas] at h
  | .enum _ _, .prod _, _, _, h, _, _, _ => by simp [RHas] at h
  | .enum _ _, .sum _ _, _, _, h, _, _, _ => by simp [RHas] at h
  | .prod _ _, .leaf _, _, _, h, _, _, _ => by simp [RHas] at h
  | .prod _ _, .sum _ _, _, _, h, _, _, _ => by simp [RHas] at h
  | .sum _ _, .leaf _, _, _, h, _, _, _ => by simp [RHas] at h
  | .sum _ _, .prod _, _, _, h, _, _, _ => by simp [RHas] at h
theorem reads_leafAll : ∀ (fs : Fields) (vs : List RVal) (ws : List Val), WFs fs → RHasAll fs vs → ReadsAll fs (rawCodeAll fs vs) ws →
    ∀ l ∈ rawLeavesAll fs vs, ∃ v', Reads l.2.1 l.2.2 v'
  | .nil, [], _, _, _, _, l, hl => by simp [rawLeavesAll] at hl
  | .nil, _ :: _, _, _, h, _, _, _ => by simp [RHasAll] at h
  | .cons .., [], _, _, h, _, _, _ => by simp [RHasAll] at h
  | .cons _ t fs, r :: vs, [], _, _, hr, _, _ => by simp [ReadsAll] at hr
  | .cons k t fs, r :: vs, w :: ws, hw, h, hr, l, hl => by
    simp only [ReadsAll, rawCodeAll] at hr
    have hc := SB.code_lt t r hw.1 h.1
    have h1 := (reads_mod t _ (width t) w (Nat.le_refl _)).mpr hr.1
    have h2 := hr.2
    rw [Nat.add_mul_mod_self_left, Nat.mod_eq_of_lt hc] at h1
    rw [Nat.add_mul_div_left _ _ (Nat.two_pow_pos _), Nat.div_eq_of_lt hc, Nat.zero_add] at h2
    simp only [rawLeavesAll, List.mem_append, List.mem_map] at hl
    rcases hl with ⟨l', hl', rfl⟩ | hl
    · exact reads_leaf t r w hw.1 h.1 h1 l' hl'
    · exact reads_leafAll fs vs ws hw.2 h.2 h2 l hl
theorem reads_leafAt : ∀ (fs : Fields) (k : Key) (r : RVal) (k' : Key) (w : Val), WFs fs → RHasAt fs k r →
    ReadsAt fs (optionIndex fs k) k' (rawCodeAt fs k r) w → ∀ l ∈ rawLeavesAt fs k r, ∃ v', Reads l.2.1 l.2.2 v'
  | .nil, _, _, _, _, _, h, _, _, _ => by simp [RHasAt] at h
  | .cons k0 t fs, k, r, k', w, hw, h, hr, l, hl => by
    simp only [RHasAt, optionIndex, rawCodeAt, rawLeavesAt] at h hr hl
    by_cases hk : k = k0
    · simp only [if_pos hk, ReadsAt] at h hr hl
      obtain ⟨l', hl', rfl⟩ := List.mem_map.mp hl
      exact reads_leaf t r w hw.1 h hr.2 l' hl'
    · simp only [if_neg hk, ReadsAt] at h hr hl
      exact reads_leafAt fs k r k' w hw.2 h hr l hl
end

/-- The field of an input in which a leaf lies. -/
theorem leaf_input : ∀ (fs : Fields) (vs : List RVal), RHasAll fs vs → ∀ l ∈ rawLeavesAll fs vs, ∃ k t r q, l.1 = k :: q ∧ (k, t) ∈ fs.toList ∧ RHas t r ∧
    (k, mkAV t (rawCode t r)) ∈ inputDict fs vs ∧ (q, l.2) ∈ rawLeaves t r
  | .nil, [], _, l, hl => by simp [rawLeavesAll] at hl
  | .nil, _ :: _, h, _, _ => by simp [RHasAll] at h
  | .cons .., [], h, _, _ => by simp [RHasAll] at h
  | .cons k t fs, r :: vs, h, l, hl => by
    simp only [rawLeavesAll, List.mem_append, List.mem_map] at hl
    rcases hl with ⟨l', hl', rfl⟩ | hl
    · exact ⟨k, t, r, l'.1, rfl, by simp [Fields.toList], h.1, by simp [inputDict], hl'⟩
    · obtain ⟨k1, t1, r1, q1, h1, h2, h3, h4, h5⟩ := leaf_input fs vs h.2 l hl
      exact ⟨k1, t1, r1, q1, h1, by simp [Fields.toList, h2], h3, by simp [inputDict, h4], h5⟩

end Peak.IM
