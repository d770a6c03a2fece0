import Verif.Model.Float
/-!
# The closures of `float_lib_gen` (peak/float.py:80-370), in the Python family

The host library (hwtypes) is a parameter: which methods `AbstractFPVector` has, and what each computes for the class with a given rounding mode.
A float is the pair of the rounding mode of its class and its bits.
-/

namespace Peak.Fl

/-- What a host method returns: a float or a `Bit` (float.py:121-237). -/
inductive HRes
  | fp (bits : Nat)
  | bit (b : Bool)
deriving DecidableEq

/-- hwtypes: the names in `AbstractFPVector.__dict__` with the number of parameters (`self` counts), and the methods (float.py:230-237, 343-350). -/
structure Host where
  methods : List (String × Nat)
  run : String → HostRM → List Nat → HRes

/-- What a call of a closure returns (float.py:127, 165, 203, 244). -/
inductive Out
  | data (bits : Nat)
  | bit (b : Bool)
deriving DecidableEq

/-- A value of `FPVector[exp_bits, frac_bits, rm, ieee_compliance]` (float.py:101-104). -/
structure Fp where
  rm : HostRM
  bits : Nat

/-- `_cast_py` (peak/float.py:101-104); the mode is a host mode in every call. -/
def cast (rm : HostRM) (x : Nat) : Fp := ⟨rm, x⟩

/-- `getattr(x, name)(*args)`: the method of the class of `x`; hwtypes refuses arguments of another class (float.py:131, 169, 206). -/
def method (H : Host) (name : String) (x : Fp) (args : List Fp) : Except Err HRes :=
  if args.all (fun a => a.rm = x.rm) then .ok (H.run name x.rm (x.bits :: args.map (·.bits))) else .error .typeError

/-- `out.reinterpret_as_bv()`: a `Bit` has no such attribute (float.py:132, 207). -/
def asBv : Except Err HRes → Except Err Out
  | .ok (.fp n) => .ok (.data n)
  | .ok (.bit _) => .error .attributeError
  | .error e => .error e

/-- `out = out_rne` in `gen_binary_bit` (peak/float.py:172): whatever the method returns; it is declared to be a `Bit`. -/
def asIs : Except Err HRes → Except Err Out
  | .ok (.fp n) => .ok (.data n)
  | .ok (.bit b) => .ok (.bit b)
  | .error e => .error e

/-- The five branches of `gen_binary.Op.__call__` (peak/float.py:127-154), `gen_binary_bit` (165-192), `gen_unary` (203-225) and `fp_fma` (244-276): the name of the host mode, then the operation. -/
def branches (rm : RM) (f : HostRM → Except Err Out) : Except Err Out :=
  let go (name : String) : Except Err Out := match hostMember name with
    | .error e => .error e
    | .ok h => f h
  if rm = .RNE then go "RNE"
  else if rm = .RTZ then go "RTZ"
  else if rm = .RDN then go "RDN"
  else if rm = .RUP then go "RUP"
  else go "RUP"

/-- `gen_unary(op_name)(Py)()(rm, in0)` (peak/float.py:197-227) -/
def unary (H : Host) (op : String) (rm : RM) (in0 : Nat) : Except Err Out :=
  branches rm (fun h => asBv (method H op (cast h in0) []))

/-- `gen_binary(op_name)(Py)()(rm, in0, in1)` (peak/float.py:121-156) -/
def binary (H : Host) (op : String) (rm : RM) (in0 in1 : Nat) : Except Err Out :=
  branches rm (fun h => asBv (method H op (cast h in0) [cast h in1]))

/-- `gen_binary_bit(op_name)(Py)()(rm, in0, in1)` (peak/float.py:159-194) -/
def compare (H : Host) (op : String) (rm : RM) (in0 in1 : Nat) : Except Err Out :=
  branches rm (fun h => asIs (method H op (cast h in0) [cast h in1]))

/-- `fp_fma(Py)()(rm, in0, in1, in2)` (peak/float.py:240-277) -/
def fma (H : Host) (rm : RM) (in0 in1 in2 : Nat) : Except Err Out :=
  branches rm (fun h => asBv (method H "fp_fma" (cast h in0) [cast h in1, cast h in2]))

/-- `gen_const_rm_unary`, `gen_const_rm_binary`, `gen_const_rm_binary_bit` (peak/float.py:290-340), with `_get_cast_const_rm` (114-117). -/
def constUnary (H : Host) (op : String) (rm : RM) (in_ : Nat) : Except Err Out :=
  asBv (method H op (cast (rmToHost rm) in_) [])
/-- `gen_const_rm_binary`: float.py:307-323. -/
def constBinary (H : Host) (op : String) (rm : RM) (in0 in1 : Nat) : Except Err Out :=
  asBv (method H op (cast (rmToHost rm) in0) [cast (rmToHost rm) in1])
/-- `gen_const_rm_binary_bit`: float.py:325-340. -/
def constCompare (H : Host) (op : String) (rm : RM) (in0 in1 : Nat) : Except Err Out :=
  asIs (method H op (cast (rmToHost rm) in0) [cast (rmToHost rm) in1])

/-- A closure of the library, called on the family, instantiated and called: with the mode as first argument if `const` is `none`, with a constant mode otherwise (float.py:121-280, 287-366). -/
inductive Closure
  | unary (op : String)
  | binary (op : String)
  | compare (op : String)
  | fma
deriving DecidableEq

/-- The call of an instance.  `_fp_fma` of a constant mode refers to the undefined name `fp_fma_fc` (peak/float.py:353).  Another number of arguments is a TypeError. -/
def Closure.call (H : Host) (rm : RM) (const : Bool) : Closure → List Nat → Except Err Out
  | .unary op, [a] => if const then constUnary H op rm a else Fl.unary H op rm a
  | .binary op, [a, b] => if const then constBinary H op rm a b else Fl.binary H op rm a b
  | .compare op, [a, b] => if const then constCompare H op rm a b else Fl.compare H op rm a b
  | .fma, [a, b, c] => if const then .error .nameError else Fl.fma H rm a b c
  | .fma, _ => if const then .error .nameError else .error .typeError
  | _, _ => .error .typeError

/-- `str.capitalize` on ASCII names (Python; used at float.py:76-78). -/
def capitalize : List Char → List Char
  | [] => []
  | c :: cs => c.toUpper :: cs.map Char.toLower

/-- `_format_name` (peak/float.py:76-78), for names that start with `fp_`. -/
def formatName (name : String) : List Char := capitalize (name.toList.drop 3) ++ "_fc".toList

/-- `k.startswith('fp_')` (peak/float.py:231, 345) -/
def isFp (name : String) : Bool := name.toList.take 3 == "fp_".toList

/-- The tuple in peak/float.py:234 and 348. -/
def comparisons : List String := ["fp_leq", "fp_lt", "fp_geq", "fp_gt", "fp_eq"]

/-- The closure stored for a method, if any (peak/float.py:232-237, 346-351). -/
def kind (name : String) (params : Nat) : Option Closure :=
  if params = 1 then some (.unary name)
  else if comparisons.contains name then some (.compare name)
  else if params = 2 then some (.binary name)
  else none

/-- The loop of peak/float.py:229-237 (and 343-351), then line 280 (366).  A dict: the newest entry of a name first. -/
def closures (H : Host) : List (List Char × Closure) :=
  (formatName "fp_fma", .fma) ::
    H.methods.foldl (fun d m => if isFp m.1 then match kind m.1 m.2 with
      | some c => (formatName m.1, c) :: d
      | none => d else d) []

/-- `float_lib_gen(..).<attr>(Py)()(rm, *args)` (`const = false`) and `float_lib_gen(..).const_rm(rm).<attr>(Py)()(*args)` (`const = true`), for `attr` other than `const_rm` (float.py:121-280, 287-370). -/
def call (H : Host) (attr : List Char) (rm : RM) (const : Bool) (args : List Nat) : Except Err Out :=
  match (closures H).lookup attr with
  | none => .error .attributeError
  | some c => c.call H rm const args

end Peak.Fl
