/-!
# Python and hwtypes primitives used by the model

Nothing in this file is code of /repo: these are the library notions (Python ints, dicts,
exceptions, hwtypes bit vectors) in terms of which the code is written.  They are part of the
trusted base listed in DESIGN.md.
-/

namespace Peak

/-- Python exception classes raised by the modelled code (raised e.g. at peak/assembler/assembler.py:38, 63, 75-95). -/
inductive Err
  | valueError | keyError | typeError | indexError | assertionError
  | attributeError | nameError | notImplementedError
  deriving DecidableEq, Repr

/-- `int.bit_length()` of a non-negative int (Python; used at peak/assembler/assembler.py:57, 134). -/
def bitLength (n : Nat) : Nat := if n = 0 then 0 else Nat.log2 n + 1

/-- A `hwtypes.BitVector[size]` value: its unsigned value is below `2^size`. -/
structure BV where
  size : Nat
  val  : Nat
  isLt : val < 2 ^ size
  deriving DecidableEq

/-- `BitVector[n](v)`: hwtypes masks the integer to `n` bits (used at peak/assembler/assembler.py:58). -/
def BV.ofNat (n v : Nat) : BV := ⟨n, v % 2 ^ n, Nat.mod_lt _ (Nat.two_pow_pos n)⟩

/-- `bv[lo:hi]`: list-slice semantics on the bits, lowest bit first (out-of-range bounds clamp) (hwtypes; used at peak/assembler/assembled_adt.py:261-295). -/
def BV.slice (b : BV) (lo hi : Nat) : BV := BV.ofNat (min hi b.size - lo) (b.val / 2 ^ lo)

/-- `x.concat(y)`: `x` in the low bits, `y` in the high bits (hwtypes; used at peak/assembler/assembled_adt.py:33-52). -/
def BV.concat (x y : BV) : BV := BV.ofNat (x.size + y.size) (x.val + y.val * 2 ^ x.size)

/-- `bv == i` for an int `i`: the int is coerced to the vector's width (hwtypes; used at peak/assembler/assembler_util.py:42-45). -/
def BV.eqInt (b : BV) (i : Nat) : Bool := b.val == i % 2 ^ b.size

/-- `bv <= i`, unsigned, the int coerced to the vector's width (hwtypes; used at peak/assembler/assembler_util.py:55-62). -/
def BV.leInt (b : BV) (i : Nat) : Bool := b.val ≤ i % 2 ^ b.size

/-- `i <= bv` (Python evaluates it as the reflected `bv >= i`) (hwtypes; used at peak/assembler/assembler_util.py:58-62). -/
def BV.geInt (b : BV) (i : Nat) : Bool := i % 2 ^ b.size ≤ b.val

/-- `bv - 1` (wraps around; peak/assembler/assembler_util.py:84). -/
def BV.pred (b : BV) : BV := BV.ofNat b.size (b.val + 2 ^ b.size - 1)

/-- `x & y` for vectors of the same width (hwtypes; used at peak/assembler/assembler_util.py:84). -/
def BV.and (x y : BV) : BV := BV.ofNat x.size (x.val &&& y.val)

end Peak
