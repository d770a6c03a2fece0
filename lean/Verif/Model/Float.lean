import Verif.Model.Basic
/-!
# Rounding modes and floating-point closures (peak/float.py)

The arithmetic of the host library is not modelled: an operation is the host rounding mode it is performed with.
-/

namespace Peak

/-- `RoundingMode` (float.py:15-20). -/
inductive RM
  | RNE | RTZ | RDN | RUP | RMM
deriving DecidableEq, Repr

/-- `RoundingMode.value` (float.py:15-20). -/
def RM.value : RM → Nat
  | .RNE => 0 | .RTZ => 1 | .RDN => 2 | .RUP => 3 | .RMM => 4

/-- `hwtypes.RoundingMode`, the members the code translates to (float.py:27-33). -/
inductive HostRM
  | RNE | RTZ | RTN | RTP | RNA
deriving DecidableEq, Repr

/-- `RM_to_RM_hwtypes` (float.py:26-33). -/
def rmToHost : RM → HostRM
  | .RNE => .RNE | .RTZ => .RTZ | .RDN => .RTN | .RUP => .RTP | .RMM => .RNA

/-- `RM_hwtypes_to_RM` (float.py:34-41). -/
def hostToRm : HostRM → RM
  | .RNE => .RNE | .RTZ => .RTZ | .RTN => .RDN | .RTP => .RUP | .RNA => .RMM

/-- `BV3` (float.py:25): the low three bits of the value. -/
def bv3 (rm : RM) : Nat := rm.value % 8

/-- `from_rm` (float.py:43-56), for families whose equality of rounding modes is a Bit (the assembled ones). -/
def fromRm (rm : RM) : Nat :=
  if rm = .RNE then bv3 .RNE
  else if rm = .RTZ then bv3 .RTZ
  else if rm = .RDN then bv3 .RDN
  else if rm = .RUP then bv3 .RUP
  else bv3 .RMM

/-- `to_rm` (float.py:58-71) on a 3-bit code. -/
def toRm (code : Nat) : RM :=
  if code = bv3 .RNE then .RNE
  else if code = bv3 .RTZ then .RTZ
  else if code = bv3 .RDN then .RDN
  else if code = bv3 .RUP then .RUP
  else .RMM

/-- `RoundingMode_hwtypes.<name>`: the host enumeration has the five members above and no others (hwtypes, trusted) (used at float.py:26-41). -/
def hostMember (name : String) : Except Err HostRM :=
  if name = "RNE" then .ok .RNE
  else if name = "RTZ" then .ok .RTZ
  else if name = "RTN" then .ok .RTN
  else if name = "RTP" then .ok .RTP
  else if name = "RNA" then .ok .RNA
  else .error .attributeError

/-- The host rounding mode used by the generated closures with a rounding-mode input, in the Python family: `gen_binary`
(float.py:127-154), `gen_binary_bit` (165-192), `gen_unary` (203-225) and `fp_fma` (244-276) have the same five branches. -/
def opHostMode (rm : RM) : Except Err HostRM :=
  if rm = .RNE then hostMember "RNE"
  else if rm = .RTZ then hostMember "RTZ"
  else if rm = .RDN then hostMember "RDN"
  else if rm = .RUP then hostMember "RUP"
  else hostMember "RUP"

/-- The kinds of operations of `const_rm` (float.py:287-366). -/
inductive FpKind
  | unary | binary | compare | fma
deriving DecidableEq, Repr

/-- The host rounding mode used by a closure with constant rounding mode: `_get_cast_const_rm` (float.py:114-117), used in
float.py:290-340; the fused multiply-add refers to the undefined name `fp_fma_fc` (float.py:352-363). -/
def constHostMode (k : FpKind) (rm : RM) : Except Err HostRM :=
  match k with
  | .fma => .error .nameError
  | _ => .ok (rmToHost rm)

end Peak
