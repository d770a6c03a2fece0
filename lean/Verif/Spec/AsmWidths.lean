import Verif.Spec.Assembler
/-!
# The sets of codes of a type

Every enum has a set of codes, and every union has, for each option type, the set of tags of that type.
-/

namespace Peak.Spec
open Peak

mutual
/-- `CodeSet t S w`: somewhere in `t` there is an enum whose codes are the members of `S`, or a union and an option type whose
tags are the members of `S`; `w` is the number of bits of the field that holds the code. -/
def CodeSet : Ty → List Nat → Nat → Prop
  | .bv _ _, _, _ => False
  | .bit _, _, _ => False
  | .enum _ ms, S, w => (∀ x, x ∈ S ↔ x ∈ enumCodes ms) ∧ w = enumWidth ms
  | .prod _ fs, S, w => CodeSets fs S w
  | .sum _ fs, S, w =>
      CodeSets fs S w ∨ ∃ ty, (∀ x, x ∈ S ↔ x ∈ tagsOf ty fs.toList 0) ∧ w = tagBits fs.toList.length
def CodeSets : Fields → List Nat → Nat → Prop
  | .nil, _, _ => False
  | .cons _ t fs, S, w => CodeSet t S w ∨ CodeSets fs S w
end

/-- No sparse one-hot set of codes is used at two different widths by the types of the list. -/
def OneWidth (ts : List Ty) : Prop :=
  ∀ t₁ ∈ ts, ∀ t₂ ∈ ts, ∀ (S : List Nat) (w₁ w₂ : Nat), S.Nodup → SparseOneHotWithZero S →
    CodeSet t₁ S w₁ → CodeSet t₂ S w₂ → w₁ = w₂

end Peak.Spec
