import Verif.Model.AssembledADT
/-!
# `peak/mapper/mapper.py:214-240, 362-410`: rewrite rules and their serialization

A path is the tuple of its elements (field names).  Path elements are opaque; those of unions, which are types, do not survive a JSON file,
but are handled by the code like names.
-/

namespace Peak

/-- A path: the tuple of its elements (mapper.py:214-238). -/
abbrev RPath := List Key

/-- A constant of a rule, after the constructor: a Python `BitVector` or `Bit` (mapper.py:214-238). -/
inductive RConst
  | bits (b : BV)
  | bit (b : Bool)
  deriving DecidableEq

/-- First component of an entry of `ibinding` of a rule (mapper.py:214-238). -/
inductive RSrc
  | path (p : RPath)
  | unbound
  | const (c : RConst)
  deriving DecidableEq

/-- First component of an entry of `ibinding` as passed to the constructor: a constant may be a bit vector, a `Bit`, an int or an enum
member (mapper.py:214-238). -/
inductive RArg
  | path (p : RPath)
  | unbound
  | bits (b : BV)
  | bit (b : Bool)
  | int (i : Int)
  | member (v : Val)

/-- The two bindings of a `RewriteRule` (mapper.py:214-238). -/
structure RRule where
  ib : List (RSrc × RPath)
  ob : List (Option RPath × RPath)
  deriving DecidableEq

/-- `aadt(ir_path)` (mapper.py:228-229).  Arguments of another kind (a `Bit` for a bit vector, a bit vector for a `Bit`) are not
modelled. -/
def rrWrap (A : Ty → Except Err AsmObj) : Ty → RArg → Except Err AV
  | .bv _ w, .int i => .ok (.bits (BV.ofNat w (i % 2 ^ w).toNat))
  | .bit _, .int i => if i = 0 then .ok (.bit false) else if i = 1 then .ok (.bit true) else .error .valueError
  | t, .bits b => AV.new A t (.asm (.bits b))
  | t, .bit b => AV.new A t (.asm (.bit b))
  | t, .member v => AV.new A t (.raw v)
  | _, _ => .error .typeError

/-- The constant stored for `ir_path` (mapper.py:226-234). -/
def rrConst (A : Ty → Except Err AsmObj) (t : Ty) (a : RArg) : Except Err RConst :=
  match rrWrap A t a with
  | .error e => .error e
  | .ok (.bit b) => .ok (.bit b)
  | .ok (.bits b) => .ok (.bits b)
  | .ok (.adt t' b) =>
    match A t' with
    | .error e => .error e
    | .ok o => if o.isValid b then .ok (.bits b) else .error .valueError

/-- One iteration of the constructor's loop (mapper.py:222-235).  The test for `Const` on line 223 is
`isinstance(<type>, Const)`, which is never true.  `types` is `arch_path_types`, with modifiers stripped. -/
def rrEntry (A : Ty → Except Err AsmObj) (types : RPath → Option Ty) (e : RArg × RPath) : Except Err (RSrc × RPath) :=
  match e.1 with
  | .path p => .ok (.path p, e.2)
  | .unbound => if (types e.2).isSome then .ok (.unbound, e.2) else .error .keyError
  | a =>
    match types e.2 with
    | none => .error .keyError
    | some t =>
      match rrConst A t a with
      | .error err => .error err
      | .ok c => .ok (.const c, e.2)

/-- The loop of the constructor over the entries of `ibinding` (mapper.py:214-238). -/
def rrEntries (A : Ty → Except Err AsmObj) (types : RPath → Option Ty) : List (RArg × RPath) → Except Err (List (RSrc × RPath))
  | [] => .ok []
  | e :: es =>
    match rrEntry A types e with
    | .error err => .error err
    | .ok e' =>
      match rrEntries A types es with
      | .error err => .error err
      | .ok es' => .ok (e' :: es')

/-- `RewriteRule.__init__` (mapper.py:215-238). -/
def mkRule (A : Ty → Except Err AsmObj) (types : RPath → Option Ty) (ib : List (RArg × RPath)) (ob : List (Option RPath × RPath)) :
    Except Err RRule :=
  match rrEntries A types ib with
  | .error err => .error err
  | .ok ib' => .ok ⟨ib', ob⟩

/-- What `serialize_bindings` puts in the first place of a pair, and what is found there after a JSON file (tuples have become lists) (mapper.py:362-410). -/
inductive SItem
  | dict (type : String) (width : Nat) (value : Nat)
  | str (s : String)
  | seq (p : RPath)
  deriving DecidableEq

/-- A serialized rule: the two lists of the dictionary (mapper.py:362-382). -/
structure SRule where
  ib : List (SItem × RPath)
  ob : List (SItem × RPath)

/-- `serialize_bindings` (mapper.py:362-382). -/
def RRule.serialize (r : RRule) : SRule :=
  { ib := r.ib.map (fun t => match t.1 with
      | .const (.bits b) => (.dict "BitVector" b.size b.val, t.2)
      | .const (.bit b) => (.dict "Bit" 1 b.toNat, t.2)
      | .unbound => (.str "unbound", t.2)
      | .path p => (.seq p, t.2))
    ob := r.ob.map (fun t => match t.1 with
      | none => (.str "unbound", t.2)
      | some p => (.seq p, t.2)) }

/-- One iteration of the first loop of `read_serialized_bindings` (mapper.py:389-402).  `tuple(s)` of any other string would give a path of
characters; strings other than "unbound" are never written. -/
def readI (i : SItem × RPath) : RArg × RPath :=
  match i.1 with
  | .dict ty w v => if ty = "BitVector" then (.bits (BV.ofNat w v), i.2) else (.bit (v != 0), i.2)
  | .str _ => (.unbound, i.2)
  | .seq p => (.path p, i.2)

/-- The second loop (mapper.py:404-408). -/
def readO (o : SItem × RPath) : Option RPath × RPath :=
  match o.1 with
  | .seq p => (some p, o.2)
  | _ => (none, o.2)

/-- `read_serialized_bindings` (mapper.py:384-410). -/
def readSerialized (A : Ty → Except Err AsmObj) (types : RPath → Option Ty) (s : SRule) : Except Err RRule :=
  mkRule A types (s.ib.map readI) (s.ob.map readO)

end Peak
