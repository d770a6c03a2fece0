import Verif.Spec.Assembler
import Verif.Spec.Validator
/-!
# Types whose validator accepts everything
-/

namespace Peak.Spec

mutual
/-- All enums in the type have codes in several ranges, and there are no unions. -/
def Blind : Ty → Prop
  | .bv _ _ => True
  | .bit _ => True
  | .enum _ ms => SeveralRanges (enumCodes ms).dedup
  | .prod _ fs => Blinds fs
  | .sum _ _ => False
def Blinds : Fields → Prop
  | .nil => True
  | .cons _ t fs => Blind t ∧ Blinds fs
end

end Peak.Spec
