import Verif.Model.Assembler
/-!
# `_create_from_layout` (peak/assembler2/assembler.py:67-97, peak/assembler/assembled_adt.py:33-52)

Both versions are the same up to the value of the unused bits and the error raised when there is no field at all.
-/

namespace Peak

/-- `bv.zext(n)` (hwtypes) (used at assembler2/assembler.py:67-97). -/
def BV.zext (b : BV) (n : Nat) : BV := BV.ofNat (b.size + n) b.val

/-- `x | y` for vectors of the same width (hwtypes; used at assembler2/assembler.py:67-97). -/
def BV.or (x y : BV) : BV := BV.ofNat x.size (x.val ||| y.val)

/-- `bv << i` for an int `i`: the int is coerced to the vector's width; bits shifted out are lost (hwtypes; used at assembler2/assembler.py:67-97). -/
def BV.shlInt (b : BV) (i : Nat) : BV := BV.ofNat b.size (b.val <<< (i % 2 ^ b.size))

/-- Lexicographic comparison of pairs (Python's order of tuples; assembler2/assembler.py:71). -/
def rangeLe (x y : Nat × Nat) : Bool := x.1 < y.1 || (x.1 == y.1 && x.2 ≤ y.2)

/-- One step of `sorted(layout.values())` (assembler2/assembler.py:71). -/
def insertRange (x : Nat × Nat) : List (Nat × Nat) → List (Nat × Nat)
  | [] => [x]
  | y :: l => if rangeLe x y then x :: y :: l else y :: insertRange x l

/-- `sorted(layout.values())` (assembler2/assembler.py:71, assembled_adt.py:36). -/
def sortRanges : List (Nat × Nat) → List (Nat × Nat)
  | [] => []
  | x :: l => insertRange x (sortRanges l)

/-- The check of consecutive ranges (assembler2/assembler.py:72-78, assembled_adt.py:37-43). -/
def rangesOk (width : Nat) : List (Nat × Nat) → Bool
  | r0 :: r1 :: rs =>
    decide (0 ≤ r0.1 ∧ r0.1 < r0.2 ∧ r0.2 ≤ r1.1 ∧ r1.1 < r1.2 ∧ r1.2 ≤ width) && rangesOk width (r1 :: rs)
  | _ => true

/-- `slots[low:hi] = bv, None, ..., None` with `hi - low - 1` times `None`
(assembler2/assembler.py:92, assembled_adt.py:48): Python slice assignment. -/
def setSlot (slots : List (Option BV)) (low hi : Nat) (bv : BV) : List (Option BV) :=
  slots.take low ++ (some bv :: List.replicate (hi - (low + 1)) none) ++ slots.drop (max low hi)

/-- `reduce(concat, ...)` of a non-empty sequence (assembler2/assembler.py:93, assembled_adt.py:49). -/
def concatAll : List BV → Option BV
  | [] => none
  | b :: bs => some (bs.foldl BV.concat b)

/-- `_create_from_layout(width, layout, field_bvs)` (peak/assembler2/assembler.py:67-97, peak/assembler/assembled_adt.py:33-52): layout and fields are given as one list of ranges with their
values, in the order of `layout.items()` (the equality of the key sets, line 68/34, is built into this pairing).
`noField` is the error for an empty field list: AssertionError in assembler2 (line 86), TypeError of `reduce` otherwise. -/
def createFromLayout (width : Nat) (parts : List ((Nat × Nat) × BV)) (dflt : Nat) (noField : Err) : Except Err BV :=
  if rangesOk width (sortRanges (parts.map (·.1))) then
    if parts = [] ∧ (noField = .assertionError ∨ width = 0) then .error noField
    else
      let slots := parts.foldl (fun s p => setSlot s p.1.1 p.1.2 p.2) (List.replicate width (some (BV.ofNat 1 dflt)))
      match concatAll (slots.filterMap id) with
      | none => .error .typeError
      | some bv => if bv.size = width then .ok (BV.ofNat width bv.val) else .error .assertionError
  else .error .valueError

end Peak
