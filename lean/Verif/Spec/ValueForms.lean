import Verif.Spec.Assembler
/-!
# Where the parts of an encoded value are

`n` is the number that encodes a value (or any other number of the width of the type).
-/

namespace Peak.Spec
open Peak

mutual
/-- The bits of the leaf at a path, in the number `n` of type `t`. -/
def bitsAt : Ty → Nat → List Key → Nat
  | .prod _ fs, n, k :: p => bitsAtF fs n k p
  | .sum _ fs, n, k :: p => bitsAtO fs (n / 2 ^ tagBits fs.toList.length) k p
  | _, n, _ => n
/-- The fields of a product lie one after the other. -/
def bitsAtF : Fields → Nat → Key → List Key → Nat
  | .nil, _, _, _ => 0
  | .cons k' t fs, n, k, p => if k = k' then bitsAt t (n % 2 ^ width t) p else bitsAtF fs (n / 2 ^ width t) k p
/-- The options of a union lie on top of each other, above the tag. -/
def bitsAtO : Fields → Nat → Key → List Key → Nat
  | .nil, _, _, _ => 0
  | .cons k' t fs, n, k, p => if k = k' then bitsAt t (n % 2 ^ width t) p else bitsAtO fs n k p
end

mutual
/-- The tag of the union at a path. -/
def tagAt : Ty → Nat → List Key → Nat
  | .prod _ fs, n, k :: p => tagAtF fs n k p
  | .sum _ fs, n, k :: p => tagAtO fs (n / 2 ^ tagBits fs.toList.length) k p
  | .sum _ fs, n, [] => n % 2 ^ tagBits fs.toList.length
  | _, _, _ => 0
def tagAtF : Fields → Nat → Key → List Key → Nat
  | .nil, _, _, _ => 0
  | .cons k' t fs, n, k, p => if k = k' then tagAt t (n % 2 ^ width t) p else tagAtF fs (n / 2 ^ width t) k p
def tagAtO : Fields → Nat → Key → List Key → Nat
  | .nil, _, _, _ => 0
  | .cons k' t fs, n, k, p => if k = k' then tagAt t (n % 2 ^ width t) p else tagAtO fs n k p
end

mutual
/-- No union in the type is a `TaggedUnion`. -/
def NoTagged (tu : Nat → Bool) : Ty → Prop
  | .prod _ fs => NoTaggeds tu fs
  | .sum c fs => tu c = false ∧ NoTaggeds tu fs
  | _ => True
def NoTaggeds (tu : Nat → Bool) : Fields → Prop
  | .nil => True
  | .cons _ t fs => NoTagged tu t ∧ NoTaggeds tu fs
end

end Peak.Spec
