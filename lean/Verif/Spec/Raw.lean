import Verif.Spec.Assembler
/-!
# Raw values

A raw value is a value of a type whose leaves are arbitrary bits: an enum leaf need not be the code of a member.  This is what ranges over when
solver variables stand for the leaves of an input.
-/

namespace Peak.Spec
open Peak

inductive RVal
  | leaf (n : Nat)
  | prod (vs : List RVal)
  | sum (k : Key) (v : RVal)

mutual
/-- The raw values of a type. -/
def RHas : Ty → RVal → Prop
  | .prod _ fs, .prod vs => RHasAll fs vs
  | .sum _ fs, .sum k v => RHasAt fs k v
  | .bv c w, .leaf n => n < 2 ^ width (.bv c w)
  | .bit c, .leaf n => n < 2 ^ width (.bit c)
  | .enum c ms, .leaf n => n < 2 ^ width (.enum c ms)
  | _, _ => False
def RHasAll : Fields → List RVal → Prop
  | .nil, [] => True
  | .cons _ t fs, v :: vs => RHas t v ∧ RHasAll fs vs
  | _, _ => False
def RHasAt : Fields → Key → RVal → Prop
  | .nil, _, _ => False
  | .cons k' t fs, k, v => if k = k' then RHas t v else RHasAt fs k v
end

mutual
/-- The number that encodes a raw value; on the values of a type it is `encode`. -/
def rawCode : Ty → RVal → Nat
  | .prod _ fs, .prod vs => rawCodeAll fs vs
  | .sum _ fs, .sum k v => optionIndex fs k + 2 ^ tagBits fs.toList.length * rawCodeAt fs k v
  | _, .leaf n => n
  | _, _ => 0
def rawCodeAll : Fields → List RVal → Nat
  | .cons _ t fs, v :: vs => rawCode t v + 2 ^ width t * rawCodeAll fs vs
  | _, _ => 0
def rawCodeAt : Fields → Key → RVal → Nat
  | .nil, _, _ => 0
  | .cons k' t fs, k, v => if k = k' then rawCode t v else rawCodeAt fs k v
end

mutual
/-- The leaves of a raw value: path, type, bits. -/
def rawLeaves : Ty → RVal → List (List Key × Ty × Nat)
  | .prod _ fs, .prod vs => rawLeavesAll fs vs
  | .sum _ fs, .sum k v => rawLeavesAt fs k v
  | t, .leaf n => [([], t, n)]
  | _, _ => []
def rawLeavesAll : Fields → List RVal → List (List Key × Ty × Nat)
  | .cons k t fs, v :: vs => (rawLeaves t v).map (fun l => (k :: l.1, l.2)) ++ rawLeavesAll fs vs
  | _, _ => []
def rawLeavesAt : Fields → Key → RVal → List (List Key × Ty × Nat)
  | .nil, _, _ => []
  | .cons k' t fs, k, v => if k = k' then (rawLeaves t v).map (fun l => (k :: l.1, l.2)) else rawLeavesAt fs k v
end

mutual
/-- The part of a raw value at a path, with its type. -/
def rawAt : Ty → RVal → List Key → Option (Ty × RVal)
  | t, r, [] => some (t, r)
  | .prod _ fs, .prod vs, k :: p => rawAtAll fs vs k p
  | .sum _ fs, .sum k' v, k :: p => if k = k' then rawAtOpt fs k v p else none
  | _, _, _ => none
def rawAtAll : Fields → List RVal → Key → List Key → Option (Ty × RVal)
  | .cons k' t fs, v :: vs, k, p => if k = k' then rawAt t v p else rawAtAll fs vs k p
  | _, _, _, _ => none
def rawAtOpt : Fields → Key → RVal → List Key → Option (Ty × RVal)
  | .nil, _, _, _ => none
  | .cons k' t fs, k, v, p => if k = k' then rawAt t v p else rawAtOpt fs k v p
end

mutual
/-- The raw value of a value. -/
def rawOf : Ty → Val → RVal
  | .prod _ fs, .prod vs => .prod (rawOfAll fs vs)
  | .sum _ fs, .sum k v => .sum k (rawOfAt fs k v)
  | t, v => .leaf (encode t v)
def rawOfAll : Fields → List Val → List RVal
  | .cons _ t fs, v :: vs => rawOf t v :: rawOfAll fs vs
  | _, _ => []
def rawOfAt : Fields → Key → Val → RVal
  | .nil, _, _ => .leaf 0
  | .cons k' t fs, k, v => if k = k' then rawOf t v else rawOfAt fs k v
end

end Peak.Spec
