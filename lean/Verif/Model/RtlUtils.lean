import Verif.Model.Layout
/-!
# `peak/rtl_utils.py`: a circuit whose instruction port is the assembled instruction

Magma is reduced to its connections: `m.wire(a, b)` of two values of the same number of bits connects bit `j` of `a` with bit `j` of `b`.
The port of the PE that has the instruction's type is a `MagmaADT`, whose field `k` is the range of its bits given by the PE's own assembler
(assembled_adt.py:262-278).
-/

namespace Peak.Rtl

/-- The kinds of instruction type, as far as the keys of `asm.layout` tell them apart (assembler.py:104, 137, 147-151, 187-210, 269). -/
inductive Kind
  | product            -- names
  | other              -- members, positions, types
deriving DecidableEq

/-- A port of the PE: whether it has the instruction's type, whether it is an output, and its number of bits (rtl_utils.py:7-12, 36-43). -/
structure Port where
  isInst : Bool
  isOut : Bool
  width : Nat

/-- The two sides of a connection (rtl_utils.py:38-43). -/
inductive Side
  | io
  | pe
deriving DecidableEq

/-- A connection of two bits: from a bit of a port to a bit of a port (magma's `m.wire`; rtl_utils.py:30, 41, 43). -/
structure Wire where
  src : Side
  srcBit : Nat
  dst : Side
  dstBit : Nat
deriving DecidableEq

/-- `m.wire` of `n` bits (a `Digital` field is wired with `m.bit` of its one-bit region, rtl_utils.py:28-29). -/
def wires (src : Side) (lo : Nat) (dst : Side) (lo' n : Nat) : List Wire := (List.range n).map (fun j => ⟨src, lo + j, dst, lo' + j⟩)

/-- `wire_inst_fields` (rtl_utils.py:14-30).  The wrapper's port is `Bits`, so that the first branch is never taken.  `getattr` with a key that is
not a string is a TypeError; `mine` is the layout of the PE's class. -/
def wireFields (kind : Kind) (mine : List (Key × (Nat × Nat))) : List (Key × (Nat × Nat)) → Except Err (List Wire)
  | [] => .ok []
  | (k, (lo, hi)) :: rest =>
    if kind = .product then
      match mine.lookup k with
      | none => .error .attributeError
      | some (lo', hi') =>
        if hi - lo = hi' - lo' then
          match wireFields kind mine rest with
          | .error e => .error e
          | .ok ws => .ok (wires .io lo .pe lo' (hi - lo) ++ ws)
        else .error .typeError
    else .error .typeError

/-- The connections of one port (rtl_utils.py:36-43).  `m.wire` exchanges its arguments when they are given the wrong way round, so that the driver is
the side that the port's direction makes it; `isOut` is the direction of the PE's port seen from outside. -/
def wirePort (kind : Kind) (mine layout : List (Key × (Nat × Nat))) (p : Port) : Except Err (List Wire) :=
  if p.isInst then wireFields kind mine layout
  else if p.isOut then .ok (wires .pe 0 .io 0 p.width)
  else .ok (wires .io 0 .pe 0 p.width)

/-- The wrapper's port (rtl_utils.py:7-12): its width and whether it is an output. -/
def wrapperPort (width : Nat) (p : Port) : Nat × Bool := if p.isInst then (width, false) else (p.width, p.isOut)

end Peak.Rtl
