import Verif.Model.Layout
/-!
# Layouts: where the fields of a word are
-/

namespace Peak.Spec

/-- Every range has a bit and lies within the word. -/
def InWord (width : Nat) (rs : List (Nat × Nat)) : Prop := ∀ r ∈ rs, r.1 < r.2 ∧ r.2 ≤ width

/-- No bit is in two ranges. -/
def Apart (rs : List (Nat × Nat)) : Prop := rs.Pairwise (fun r s => ∀ i, ¬ ((r.1 ≤ i ∧ i < r.2) ∧ s.1 ≤ i ∧ i < s.2))

/-- No range has the bit `i`. -/
def Uncovered (rs : List (Nat × Nat)) (i : Nat) : Prop := ∀ r ∈ rs, ¬ (r.1 ≤ i ∧ i < r.2)

end Peak.Spec
