import Verif.Model.AssembledADT
/-!
# Constructors of families (peak/family.py:85-113, 276-281, peak/assembler/assembled_adt.py:68-130)

`family.get_constructor(T)` is `T` for the Python family and `from_fields` of the assembled class for the others.  Field names are keys; the
names of the two keyword-only parameters are keys as well, so that a field may have such a name (`RESERVED_NAMES`, assembled_adt.py:25-30, is
never used).  An int given for `default_bv` stands as the vector of one bit that it is converted to.
-/

namespace Peak.Ctor

/-- The names `default_bv` and `tag_bv` (assembled_adt.py:68-116). -/
structure Names where
  dflt : Key
  tag : Key

/-- Python's binding of arguments to the parameters `names` (`inspect.Signature.bind`, and the call of a Python function) (Python; the functions of assembled_adt.py:68-130). -/
def bind {α : Type} : List Key → List α → List (Key × α) → Except Err (List α)
  | [], [], [] => .ok []
  | [], _, _ => .error .typeError
  | k :: ks, a :: as, kw =>
    if (kw.lookup k).isSome then .error .typeError
    else (bind ks as kw).map (a :: ·)
  | k :: ks, [], kw =>
    match kw.lookup k with
    | none => .error .typeError
    | some a => (bind ks [] (kw.filter (fun p => p.1 != k))).map (a :: ·)

/-- `bv_type[1](default_value)` (assembled_adt.py:45). -/
def default : Option Arg → Except Err Nat
  | none => .ok 0
  | some (.raw (.bits b)) => if b.size = 1 then .ok b.val else .error .typeError
  | some (.asm (.bits b)) => if b.size = 1 then .ok b.val else .error .typeError
  | some (.raw (.bit b)) => .ok b.toNat
  | some (.asm (.bit b)) => .ok b.toNat
  | some _ => .error .typeError

/-- A keyword-only parameter takes its argument from the keywords (Python; the keyword-only parameters of assembled_adt.py:68-116). -/
def take {α : Type} (name : Key) (kw : List (Key × α)) : Option α × List (Key × α) := (kw.lookup name, kw.filter (fun p => p.1 != name))

/-- `_product_from_fields` (assembled_adt.py:107-116) -/
def product (A : Ty → Except Err AsmObj) (N : Names) (c : Nat) (fs : Fields) (pos : List Arg) (kw : List (Key × Arg)) : Except Err AV := do
  let (d, kw) := take N.dflt kw
  let as ← bind (fs.toList.map (·.1)) pos kw
  let d ← default d
  AV.fromFields A (.prod c fs) as d

/-- `AssembledADT.__init__(self, adt)` (assembled_adt.py:243-253) called with the given arguments; any other number or name is a TypeError. -/
def initCall (adt : Key) (o : AsmObj) (t : Ty) : List Arg → List (Key × Arg) → Except Err AV
  | [a], [] => AV.init o.width o.assemble t a
  | [], [(k, a)] => if k = adt then AV.init o.width o.assemble t a else .error .typeError
  | _, _ => .error .typeError

/-- The call of a product class itself (assembled_adt.py:152-163): `__init__`, whose parameter is named `adt`, and after a TypeError `from_fields`. -/
def call (A : Ty → Except Err AsmObj) (N : Names) (adt : Key) (c : Nat) (fs : Fields) (pos : List Arg) (kw : List (Key × Arg)) : Except Err AV :=
  match A (.prod c fs) with
  | .error e => .error e
  | .ok o =>
    match initCall adt o (.prod c fs) pos kw with
    | .error .typeError => product A N c fs pos kw
    | r => r

/-- `_tuple_from_fields` (assembled_adt.py:119-127): no keywords but `default_bv`. -/
def tuple (A : Ty → Except Err AsmObj) (N : Names) (c : Nat) (fs : Fields) (pos : List Arg) (kw : List (Key × Arg)) : Except Err AV := do
  let (d, kw) := take N.dflt kw
  if kw ≠ [] then .error .typeError
  if pos.length ≠ fs.toList.length then .error .typeError
  let d ← default d
  AV.fromFields A (.prod c fs) pos d

/-- The tag given explicitly: bits (assembled_adt.py:85-103). -/
def tagArg : Option Arg → Except Err (Option BV)
  | none => .ok none
  | some (.raw (.bits b)) => .ok (some b)
  | some (.asm (.bits b)) => .ok (some b)
  | some _ => .error .typeError

/-- `_taggedunion_from_fields` (assembled_adt.py:68-74); the name of the option is the key. -/
def tagged (A : Ty → Except Err AsmObj) (N : Names) (c : Nat) (fs : Fields) (pos : List Arg) (kw : List (Key × Arg)) : Except Err AV := do
  if pos ≠ [] then .error .typeError
  let (t, kw) := take N.tag kw
  let (d, kw) := take N.dflt kw
  match kw with
  | [(k, a)] => do
    let t ← tagArg t
    let d ← default d
    AV.fromOption A (.sum c fs) k a t d
  | _ => .error .typeError

/-- The call of a tagged union class itself (assembled_adt.py:152-163). -/
def callTagged (A : Ty → Except Err AsmObj) (N : Names) (adt : Key) (c : Nat) (fs : Fields) (pos : List Arg) (kw : List (Key × Arg)) : Except Err AV :=
  match A (.sum c fs) with
  | .error e => .error e
  | .ok o =>
    match initCall adt o (.sum c fs) pos kw with
    | .error .typeError => tagged A N c fs pos kw
    | r => r

/-- An argument of the constructor of a `Sum`: the class of an option, or a value (assembled_adt.py:78-82). -/
inductive SumArg
  | cls (k : Key)
  | val (a : Arg)

/-- `_sum_from_fields(tag, value)` (assembled_adt.py:78-82), positional arguments. -/
def sum (A : Ty → Except Err AsmObj) (c : Nat) (fs : Fields) : List SumArg → Except Err AV
  | [.cls k, .val a] => AV.fromOption A (.sum c fs) k a none 0
  | _ => .error .typeError

/-- The Python family (family.py:276-281): the ADT class itself.  A product checks the types of its fields. -/
def pyProduct (c : Nat) (fs : Fields) (pos : List Val) (kw : List (Key × Val)) : Except Err Val := do
  let vs ← bind (fs.toList.map (·.1)) pos kw
  if (Ty.prod c fs).isinst (.prod vs) then .ok (.prod vs) else .error .typeError

/-- hwtypes `TaggedUnion(**kwargs)`: one option by its name (not in /repo; family.py:280-281). -/
def pyTagged (c : Nat) (fs : Fields) (pos : List Val) (kw : List (Key × Val)) : Except Err Val :=
  match pos, kw with
  | [], [(k, v)] => if (Ty.sum c fs).isinst (.sum k v) then .ok (.sum k v) else .error .typeError
  | _, _ => .error .typeError

/-- hwtypes `Sum(value)`, as in examples/pico/asm.py:4: the option is the class of the value. -/
def pySum (c : Nat) (fs : Fields) (classOf : Val → Key) : List SumArg → Except Err Val
  | [.val (.raw v)] => if (Ty.sum c fs).isinst (.sum (classOf v) v) then .ok (.sum (classOf v) v) else .error .typeError
  | _ => .error .typeError

end Peak.Ctor
