import Verif.Spec.Assembler
/-!
# Shapes of values

What the leaves and the union choices of a value are, and when an assignment of the leaf and tag variables of a type spells a value.
-/

namespace Peak.Spec
open Peak

mutual
/-- The union choices in a value: for every union inside, its path and the option held. -/
def decisions : Ty → List Key → Val → List (List Key × Key)
  | .prod _ fs, p, .prod vs => decisionsAll fs p vs
  | .sum _ fs, p, .sum k v => (p, k) :: decisionsAt fs p k v
  | _, _, _ => []
def decisionsAll : Fields → List Key → List Val → List (List Key × Key)
  | .cons k t fs, p, v :: vs => decisions t (p ++ [k]) v ++ decisionsAll fs p vs
  | _, _, _ => []
def decisionsAt : Fields → List Key → Key → Val → List (List Key × Key)
  | .nil, _, _, _ => []
  | .cons k' t fs, p, k, v => if k = k' then decisions t (p ++ [k']) v else decisionsAt fs p k v
end

mutual
/-- The leaves of a value: the path of each and its bits. -/
def leaves : Ty → List Key → Val → List (List Key × BV)
  | .prod _ fs, p, .prod vs => leavesAll fs p vs
  | .sum _ fs, p, .sum k v => leavesAt fs p k v
  | t, p, v => [(p, BV.ofNat (width t) (encode t v))]
def leavesAll : Fields → List Key → List Val → List (List Key × BV)
  | .cons k t fs, p, v :: vs => leaves t (p ++ [k]) v ++ leavesAll fs p vs
  | _, _, _ => []
def leavesAt : Fields → List Key → Key → Val → List (List Key × BV)
  | .nil, _, _, _ => []
  | .cons k' t fs, p, k, v => if k = k' then leaves t (p ++ [k']) v else leavesAt fs p k v
end

mutual
/-- The leaf variables `ρ` and tag variables `τ` spell the value: each leaf the value has gets that leaf's bits, each union's tag is the
number of the option held.  Variables of other options are unconstrained. -/
def Spells (ρ τ : List Key → Nat) : Ty → List Key → Val → Prop
  | .prod _ fs, p, .prod vs => SpellsAll ρ τ fs p vs
  | .sum _ fs, p, .sum k v => τ p % 2 ^ tagBits fs.toList.length = optionIndex fs k ∧ SpellsAt ρ τ fs p k v
  | t, p, v => ρ p % 2 ^ width t = encode t v
def SpellsAll (ρ τ : List Key → Nat) : Fields → List Key → List Val → Prop
  | .nil, _, [] => True
  | .cons k t fs, p, v :: vs => Spells ρ τ t (p ++ [k]) v ∧ SpellsAll ρ τ fs p vs
  | _, _, _ => False
def SpellsAt (ρ τ : List Key → Nat) : Fields → List Key → Key → Val → Prop
  | .nil, _, _, _ => False
  | .cons k' t fs, p, k, v => if k = k' then Spells ρ τ t (p ++ [k']) v else SpellsAt ρ τ fs p k v
end

mutual
/-- Types whose values can be put together from their fields (see C19): products are not empty and have no zero-width field next to
another, unions have at least two options, all of positive width. -/
def Buildable : Ty → Prop
  | .prod _ fs => fs.toList ≠ [] ∧ ((∀ kt ∈ fs.toList, 0 < width kt.2) ∨ fs.toList.length = 1) ∧ Buildables fs
  | .sum _ fs => 2 ≤ fs.toList.length ∧ (∀ kt ∈ fs.toList, 0 < width kt.2) ∧ Buildables fs
  | _ => True
def Buildables : Fields → Prop
  | .nil => True
  | .cons _ t fs => Buildable t ∧ Buildables fs
end

end Peak.Spec
