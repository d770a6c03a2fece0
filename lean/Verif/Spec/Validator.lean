/-!
# Specification vocabulary for sets of codes
-/

namespace Peak.Spec

/-- The number of maximal contiguous runs in a set of codes: the codes whose successor is missing. -/
def runCount (ops : List Nat) : Nat := (ops.filter (fun x => x + 1 ∉ ops)).length

/-- Zero or a power of two. -/
def OneHotCode (x : Nat) : Prop := x = 0 ∨ ∃ i, x = 2 ^ i

/-- The sets for which the generator picks the "several ranges" strategy: at least three codes, more than one
run, not all one-hot, and `1.1 * runs < codes`. -/
def SeveralRanges (ops : List Nat) : Prop :=
  3 ≤ ops.length ∧ runCount ops ≠ 1 ∧ ¬ (∀ x ∈ ops, OneHotCode x) ∧ 11 * runCount ops < 10 * ops.length

end Peak.Spec
