import Verif.Model.Types
import Verif.Spec.Validator
import Mathlib.Data.List.Dedup
/-!
# What an opcode means

The documented encoding, independent of the code of the assembler: enums are numbered, products are the
concatenation of their fields (first field lowest), unions are a tag followed by the payload.
-/

namespace Peak.Spec
open Peak

/-- The numbers explicitly given to enum members. -/
def explicitCodes : List EVal → List Nat
  | [] => []
  | .lit v :: l => v.toNat :: explicitCodes l
  | .auto _ :: l => explicitCodes l

/-- The `Auto()` members, in declaration order. -/
def autos : List EVal → List Nat
  | [] => []
  | .lit _ :: l => autos l
  | .auto i :: l => i :: autos l

/-- The `j`-th natural number (from 0) that is not in `used`. -/
def freeCode (used : List Nat) (j : Nat) : Option Nat :=
  ((List.range (j + 1 + used.length)).filter (fun x => x ∉ used))[j]?

/-- The number of an enum member: its explicit value, or for the `j`-th `Auto()` member the `j`-th number not
explicitly used. -/
def enumCode (ms : List EVal) : EVal → Option Nat
  | .lit v => if 0 ≤ v ∧ .lit v ∈ ms then some v.toNat else none
  | .auto i => match (autos ms).idxOf? i with
    | none => none
    | some j => freeCode (explicitCodes ms) j

/-- The numbers of all members. -/
def enumCodes (ms : List EVal) : List Nat := ms.filterMap (enumCode ms)

/-- The number of bits of the largest member. -/
def enumWidth (ms : List EVal) : Nat := bitLength ((enumCodes ms).foldl max 0)

/-- The number of bits needed to tell `n` options apart. -/
def tagBits (n : Nat) : Nat := bitLength (n - 1)

mutual
/-- The number of bits of the encoding of a type. -/
def width : Ty → Nat
  | .bv _ w => w
  | .bit _ => 1
  | .enum _ ms => enumWidth ms
  | .prod _ fs => sumWidths fs
  | .sum _ fs => tagBits fs.toList.length + maxWidth fs
def sumWidths : Fields → Nat
  | .nil => 0
  | .cons _ t fs => width t + sumWidths fs
def maxWidth : Fields → Nat
  | .nil => 0
  | .cons _ t fs => max (width t) (maxWidth fs)
end

mutual
/-- `Reads t n v`: the low `width t` bits of the number `n` spell the value `v` of type `t`. -/
def Reads : Ty → Nat → Val → Prop
  | .bv _ w, n, .bits b => b = BV.ofNat w n
  | .bit _, n, .bit b => b.toNat = n % 2
  | .enum _ ms, n, .enum e => enumCode ms e = some (n % 2 ^ enumWidth ms)
  | .prod _ fs, n, .prod vs => ReadsAll fs n vs
  | .sum _ fs, n, .sum k v =>
    ReadsAt fs (n % 2 ^ tagBits fs.toList.length) k (n / 2 ^ tagBits fs.toList.length) v
  | _, _, _ => False
/-- the fields of a product, one after the other, starting at bit 0 of `n` -/
def ReadsAll : Fields → Nat → List Val → Prop
  | .nil, _, [] => True
  | .cons _ t fs, n, v :: vs => Reads t n v ∧ ReadsAll fs (n / 2 ^ width t) vs
  | _, _, _ => False
/-- option number `tag` of a union has key `k` and its payload `n` spells `v` -/
def ReadsAt : Fields → Nat → Key → Nat → Val → Prop
  | .nil, _, _, _, _ => False
  | .cons k' t _, 0, k, n, v => k = k' ∧ Reads t n v
  | .cons _ _ fs, tag + 1, k, n, v => ReadsAt fs tag k n v
end

/-- The position of an option in a union. -/
def optionIndex : Fields → Key → Nat
  | .nil, _ => 0
  | .cons k' _ fs, k => if k = k' then 0 else optionIndex fs k + 1

mutual
/-- The number spelling the value `v` of type `t`, with zero in the bits `v` does not use. -/
def encode : Ty → Val → Nat
  | .bv _ _, .bits b => b.val
  | .bit _, .bit b => b.toNat
  | .enum _ ms, .enum e => (enumCode ms e).getD 0
  | .prod _ fs, .prod vs => encodeAll fs vs
  | .sum _ fs, .sum k v => optionIndex fs k + 2 ^ tagBits fs.toList.length * encodeAt fs k v
  | _, _ => 0
def encodeAll : Fields → List Val → Nat
  | .cons _ t fs, v :: vs => encode t v + 2 ^ width t * encodeAll fs vs
  | _, _ => 0
def encodeAt : Fields → Key → Val → Nat
  | .nil, _, _ => 0
  | .cons k' t fs, k, v => if k = k' then encode t v else encodeAt fs k v
end

mutual
/-- Types that can be encoded: enums are non-empty, with non-negative explicit values and a separate `Auto()` object for each
automatic member; products have distinct field names; unions are non-empty, with distinct option names. -/
def WF : Ty → Prop
  | .bv _ _ => True
  | .bit _ => True
  | .enum _ ms => ms ≠ [] ∧ (∀ v, .lit v ∈ ms → 0 ≤ v) ∧ (autos ms).Nodup
  | .prod _ fs => (fs.toList.map (·.1)).Nodup ∧ WFs fs
  | .sum _ fs => fs.toList ≠ [] ∧ (fs.toList.map (·.1)).Nodup ∧ WFs fs
def WFs : Fields → Prop
  | .nil => True
  | .cons _ t fs => WF t ∧ WFs fs
end

/-- The tags (positions, counted from `i`) of the options of type `ty`. -/
def tagsOf (ty : Ty) : List (Key × Ty) → Nat → List Nat
  | [], _ => []
  | (_, t) :: l, i => if t = ty then i :: tagsOf ty l (i + 1) else tagsOf ty l (i + 1)

/-- At least three codes with gaps, all of them 0 or a power of two, 0 among them: the sets for which a validator generated at a
larger width can reject a member. -/
def SparseOneHotWithZero (ops : List Nat) : Prop :=
  3 ≤ ops.length ∧ 0 ∈ ops ∧ runCount ops ≠ 1 ∧ ∀ x ∈ ops, OneHotCode x

mutual
/-- No union in `t` has an option type whose tags are sparse one-hot with zero; in particular this holds if no type is
listed under three or more names of one union. -/
def TagSafe : Ty → Prop
  | .bv _ _ => True
  | .bit _ => True
  | .enum _ _ => True
  | .prod _ fs => TagSafes fs
  | .sum _ fs => TagSafes fs ∧ ∀ ty, ¬ SparseOneHotWithZero (tagsOf ty fs.toList 0)
def TagSafes : Fields → Prop
  | .nil => True
  | .cons _ t fs => TagSafe t ∧ TagSafes fs
end

mutual
/-- The types whose validators are exact: every enum has a code other than 0 and is not of the "several ranges" kind, every
union has at least two options and its option types are distinct. -/
def Checkable : Ty → Prop
  | .bv _ _ => True
  | .bit _ => True
  | .enum _ ms => (∃ n ∈ enumCodes ms, n ≠ 0) ∧ ¬ SeveralRanges (enumCodes ms).dedup
  | .prod _ fs => Checkables fs
  | .sum _ fs => 2 ≤ fs.toList.length ∧ (fs.toList.map (·.2)).Nodup ∧ Checkables fs
def Checkables : Fields → Prop
  | .nil => True
  | .cons _ t fs => Checkable t ∧ Checkables fs
end

mutual
/-- The types whose validators are known exactly: every enum has a code other than 0, every union has at least two options and its
option types are distinct. -/
def Mild : Ty → Prop
  | .bv _ _ => True
  | .bit _ => True
  | .enum _ ms => ∃ n ∈ enumCodes ms, n ≠ 0
  | .prod _ fs => Milds fs
  | .sum _ fs => 2 ≤ fs.toList.length ∧ (fs.toList.map (·.2)).Nodup ∧ Milds fs
def Milds : Fields → Prop
  | .nil => True
  | .cons _ t fs => Mild t ∧ Milds fs
end

mutual
/-- The bit patterns that should be accepted for `t`, had an enum whose codes form several ranges every code for a member: the
lowest bits of `n` are an enum's code, the fields of a product one after the other, or the number of an option and its value. -/
def Accepts : Ty → Nat → Prop
  | .bv _ _, _ => True
  | .bit _, _ => True
  | .enum c ms, n => SeveralRanges (enumCodes ms).dedup ∨ n % 2 ^ width (.enum c ms) ∈ enumCodes ms
  | .prod _ fs, n => AcceptsAll fs n
  | .sum _ fs, n => AcceptsAt fs (n % 2 ^ tagBits fs.toList.length) (n / 2 ^ tagBits fs.toList.length)
def AcceptsAll : Fields → Nat → Prop
  | .nil, _ => True
  | .cons _ t fs, n => Accepts t n ∧ AcceptsAll fs (n / 2 ^ width t)
def AcceptsAt : Fields → Nat → Nat → Prop
  | .nil, _, _ => False
  | .cons _ t _, 0, n => Accepts t n
  | .cons _ _ fs, i + 1, n => AcceptsAt fs i n
end

mutual
/-- Bit `i` of the encoding of `v` carries information about `v` (the others are padding of a narrow union option). -/
def Used : Ty → Val → Nat → Prop
  | .prod _ fs, .prod vs, i => UsedAll fs vs i
  | .sum _ fs, .sum k v, i => i < tagBits fs.toList.length ∨
      tagBits fs.toList.length ≤ i ∧ UsedAt fs k v (i - tagBits fs.toList.length)
  | t, _, i => i < width t
def UsedAll : Fields → List Val → Nat → Prop
  | .cons _ t fs, v :: vs, i => (i < width t ∧ Used t v i) ∨ (width t ≤ i ∧ UsedAll fs vs (i - width t))
  | _, _, _ => False
def UsedAt : Fields → Key → Val → Nat → Prop
  | .nil, _, _, _ => False
  | .cons k' t fs, k, v, i => if k = k' then i < width t ∧ Used t v i else UsedAt fs k v i
end

mutual
/-- No union inside. -/
def UnionFree : Ty → Prop
  | .prod _ fs => UnionFrees fs
  | .sum _ _ => False
  | _ => True
def UnionFrees : Fields → Prop
  | .nil => True
  | .cons _ t fs => UnionFree t ∧ UnionFrees fs
end

/-- The ranges follow each other without gap or overlap from `lo` to `hi`. -/
def Tiles : Nat → Nat → List (Nat × Nat) → Prop
  | lo, hi, [] => lo = hi
  | lo, hi, (a, b) :: rs => a = lo ∧ a ≤ b ∧ Tiles b hi rs

/-- The field `k` of a product value. -/
def fieldOf : Fields → List Val → Key → Option (Ty × Val)
  | .cons k' t fs, v :: vs, k => if k = k' then some (t, v) else fieldOf fs vs k
  | _, _, _ => none

/-- The type of option `k`. -/
def optionTy : Fields → Key → Option Ty
  | .nil, _ => none
  | .cons k' t fs, k => if k = k' then some t else optionTy fs k

/-- The sub-value selected by one path component: a field of a product, or the held option of a union. -/
def stepInto : Ty → Val → Key → Option (Ty × Val)
  | .prod _ fs, .prod vs, k => fieldOf fs vs k
  | .sum _ fs, .sum k' v, k => if k = k' then (optionTy fs k).map (fun t => (t, v)) else none
  | _, _, _ => none

/-- The sub-value at a path. -/
def subValue : Ty → Val → List Key → Option (Ty × Val)
  | t, v, [] => some (t, v)
  | t, v, k :: p => match stepInto t v k with
    | none => none
    | some (t', v') => subValue t' v' p

end Peak.Spec
