import Verif.Model.Assemble
/-!
# What assembling a class may change
-/

namespace Peak.Fam

variable {τ : Type}

/-- The state of a process where class `c` has just been declared: references are to objects that exist, each class looks itself up
first, and no other class looks names up in `c`. -/
structure Declared (s : St τ) (c : Nat) : Prop where
  funs : ∀ k ∈ s.clss, ∀ f, k.call = some f → f < s.funs.length
  self : ∃ k, s.clss[c]? = some k ∧ k.mro.head? = some c
  last : ∀ d k, s.clss[d]? = some k → d ≠ c → c ∉ k.mro

/-- What calling an instance runs after assembling, given what it ran before. -/
def runs (isBox : Bool) (before : Code) : Family → Code
  | .py => before
  | .pyx => .rewritten before
  | .smt => if isBox then .box else .rewritten before

end Peak.Fam
