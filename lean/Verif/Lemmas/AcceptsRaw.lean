import Verif.Lemmas.Accepts
import Verif.Lemmas.SimplifyBinding
/-!
# What is accepted, leaf by leaf
-/

namespace Peak
open Peak.Spec

namespace Acc

theorem hasAt_key : ∀ (fs : Fields) (k : Key) (r : RVal), RHasAt fs k r → k ∈ fs.toList.map (·.1)
  | .nil, _, _, h => h.elim
  | .cons k' t fs, k, r, h => by
    simp only [RHasAt] at h
    by_cases e : k = k'
    · simp [Fields.toList, e]
    · rw [if_neg e] at h
      have := hasAt_key fs k r h
      simp only [Fields.toList, List.map_cons, List.mem_cons]
      exact .inr this

mutual
/-- A raw value is accepted if and only if its enum leaves are. -/
theorem accepts_leaves : ∀ (t : Ty) (r : RVal), WF t → RHas t r → (Accepts t (rawCode t r) ↔ ∀ l ∈ rawLeaves t r, Accepts l.2.1 l.2.2)
  | .bv c w, r, _, h => by
    cases r <;> simp only [RHas] at h
    simp [rawCode, rawLeaves, Accepts]
  | .bit c, r, _, h => by
    cases r <;> simp only [RHas] at h
    simp [rawCode, rawLeaves, Accepts]
  | .enum c ms, r, _, h => by
    cases r <;> simp only [RHas] at h
    simp [rawCode, rawLeaves]
  | .prod c fs, r, hw, h => by
    cases r <;> simp only [RHas] at h
    next vs =>
      simp only [rawCode, rawLeaves, Accepts]
      exact acceptsAll_leaves fs vs hw.2 h
  | .sum c fs, r, hw, h => by
    cases r <;> simp only [RHas] at h
    next k v =>
      have hi := lt_tagBits (optionIndex_lt fs k (hasAt_key fs k v h))
      simp only [rawCode, rawLeaves, Accepts]
      have e1 := join_low (optionIndex fs k) (rawCodeAt fs k v) (tagBits fs.toList.length)
      have e2 := join_high (optionIndex fs k) (rawCodeAt fs k v) (tagBits fs.toList.length)
      rw [Nat.mod_eq_of_lt hi] at e1 e2
      rw [e1, e2]
      exact acceptsAt_leaves fs k v hw.2.2 h
theorem acceptsAll_leaves : ∀ (fs : Fields) (vs : List RVal), WFs fs → RHasAll fs vs →
    (AcceptsAll fs (rawCodeAll fs vs) ↔ ∀ l ∈ rawLeavesAll fs vs, Accepts l.2.1 l.2.2)
  | .nil, vs, _, h => by
    cases vs <;> simp only [RHasAll] at h
    simp [AcceptsAll, rawLeavesAll]
  | .cons k t fs, vs, hw, h => by
    cases vs <;> simp only [RHasAll] at h
    next v vs =>
      have h1 := accepts_leaves t v hw.1 h.1
      have h2 := acceptsAll_leaves fs vs hw.2 h.2
      have hlt := SB.code_lt t v hw.1 h.1
      have e1 := accepts_join t (rawCode t v) (rawCodeAll fs vs)
      have e2 := join_high (rawCode t v) (rawCodeAll fs vs) (width t)
      rw [Nat.mod_eq_of_lt hlt] at e1 e2
      simp only [AcceptsAll, rawCodeAll, e1, e2, h1, h2, rawLeavesAll, List.mem_append, List.mem_map]
      constructor
      · rintro ⟨g1, g2⟩ l (⟨l', hl, rfl⟩ | hl)
        · exact g1 l' hl
        · exact g2 l hl
      · intro g
        exact ⟨fun l hl => g (k :: l.1, l.2) (.inl ⟨l, hl, rfl⟩), fun l hl => g l (.inr hl)⟩
theorem acceptsAt_leaves : ∀ (fs : Fields) (k : Key) (r : RVal), WFs fs → RHasAt fs k r →
    (AcceptsAt fs (optionIndex fs k) (rawCodeAt fs k r) ↔ ∀ l ∈ rawLeavesAt fs k r, Accepts l.2.1 l.2.2)
  | .nil, _, _, _, h => h.elim
  | .cons k' t fs, k, r, hw, h => by
    simp only [RHasAt] at h
    by_cases e : k = k'
    · rw [if_pos e] at h
      have h1 := accepts_leaves t r hw.1 h
      simp only [optionIndex, rawCodeAt, rawLeavesAt, if_pos e, AcceptsAt, h1, List.mem_map]
      constructor
      · rintro g l ⟨l', hl, rfl⟩
        exact g l' hl
      · intro g l hl
        exact g (k :: l.1, l.2) ⟨l, hl, rfl⟩
    · rw [if_neg e] at h
      have h1 := acceptsAt_leaves fs k r hw.2 h
      simp only [optionIndex, rawCodeAt, rawLeavesAt, if_neg e, AcceptsAt, h1]
end

end Acc

end Peak
