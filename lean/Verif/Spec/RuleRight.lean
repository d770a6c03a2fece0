import Verif.Spec.Verify
/-!
# A rule is right for two classes

`RuleCorrect` (Spec/Verify.lean) is about the functions the two classes compute.  Here these are not parameters: they are tied to what the
classes return when they are called (`Computes`).
-/

namespace Peak.Spec
open Peak

/-- The rule maps every input correctly: on inputs related by the rule the two classes, called, return outputs that agree where the rule
binds them, whatever the black boxes compute. -/
def RuleRight {B K : Type} [DecidableEq B] (P : Process) (ir arch : PeakObj B K) (rule : RRule) : Prop :=
  ∃ fi fa, Computes P ir fi ∧ Computes P arch fa ∧ RuleCorrect ir arch fi fa rule

/-- What a search for a rule reports. -/
theorem right_of {B K : Type} [DecidableEq B] {P : Process} {ir arch : PeakObj B K} {fi fa : Fn B} {inW : K → List Nat} (S : Setup P ir arch fi fa inW)
    {A C : Prop} {X Y : RRule → Prop} (h : (A → ∃ r, X r ∧ Y r ∧ RuleCorrect ir arch fi fa r) ∧ C) :
    (A → ∃ r, X r ∧ Y r ∧ RuleRight P ir arch r) ∧ C :=
  ⟨fun a => let ⟨r, x, y, z⟩ := h.1 a; ⟨r, x, y, fi, fa, S.ir_fn, S.arch_fn, z⟩, h.2⟩

end Peak.Spec
