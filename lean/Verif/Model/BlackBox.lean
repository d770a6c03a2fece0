import Verif.Model.Basic
/-!
# Black boxes (peak/black_box.py)
-/

namespace Peak

/-- A `BlackBox` instance (black_box.py:35-39): the names of `input_t` in order, the number of outputs of `output_t`, the stored
`_input_vals` and `_output_vals`.  A single output is stored bare by the code and unpacked by the caller; here outputs are always the
list of values. -/
structure BBox (α : Type) where
  inputs : List String
  nOut : Nat
  inVals : Option (List α)
  outVals : Option (List α)

variable {α : Type}

/-- `BlackBox.__init__` (black_box.py:37-39). -/
def BBox.new (inputs : List String) (nOut : Nat) : BBox α := ⟨inputs, nOut, none, none⟩

/-- Equality of two key views (black_box.py:55): the same set of names. -/
def sameKeys (xs ys : List String) : Bool := xs.all (ys.contains ·) && ys.all (xs.contains ·)

/-- `__call__` of `create_call` (black_box.py:44-58).  `kwargs` is in the order of the call. -/
def BBox.call (b : BBox α) (args : List α) (kwargs : List (String × α)) : Except Err (List α) × BBox α :=
  match b.outVals with
  | none => (.error .valueError, b)
  | some outs =>
    if (decide (args.length > 0)) == (decide (kwargs.length > 0)) then (.error .valueError, b)
    else if args.length > 0 then
      if args.length ≠ b.inputs.length then (.error .valueError, b)
      else (.ok outs, { b with inVals := some args })
    else
      if sameKeys (kwargs.map (·.1)) b.inputs = false then (.error .valueError, b)
      else (.ok outs, { b with inVals := some (kwargs.map (·.2)) })

/-- `_get_inputs` (black_box.py:65-68). -/
def BBox.getInputs (b : BBox α) : Except Err (List α) :=
  match b.inVals with
  | none => .error .valueError
  | some vs => .ok vs

/-- `_set_outputs` (black_box.py:70-77). -/
def BBox.setOutputs (b : BBox α) (args : List α) : Except Err Unit × BBox α :=
  if args.length ≠ b.nOut then (.error .valueError, b)
  else (.ok (), { b with outVals := some args })

/-- One operation on a black box (black_box.py:42-77). -/
inductive BBOp (α : Type)
  | setOutputs (args : List α)
  | call (args : List α) (kwargs : List (String × α))
  | getInputs

/-- What the operation returned (black_box.py:42-77). -/
inductive BBObs (α : Type)
  | done
  | values (vs : List α)
  | raised (e : Err)

/-- What a call that returned or raised shows (black_box.py:42-77). -/
def BBObs.of : Except Err (List α) → BBObs α
  | .ok vs => .values vs
  | .error e => .raised e

/-- One operation on the object: black_box.py:42-63 (call), 65-68 (inputs), 70-77 (outputs). -/
def BBox.step (b : BBox α) : BBOp α → BBObs α × BBox α
  | .setOutputs args =>
    match b.setOutputs args with
    | (.ok (), b') => (.done, b')
    | (.error e, b') => (.raised e, b')
  | .call args kwargs =>
    match b.call args kwargs with
    | (r, b') => (.of r, b')
  | .getInputs => (.of b.getInputs, b)

/-- A history (a sequence of the operations of black_box.py:42-77). -/
def BBox.exec (b : BBox α) : List (BBOp α) → BBox α
  | [] => b
  | op :: ops => (b.step op).2.exec ops

/-! ## Finding black boxes -/

/-- What `isinstance` tells about an object: a plain Peak object, a black box, an attribute register (a Peak object that `getattr`
replaces by its value), or not a Peak object (black_box.py:4-18, peak/family.py:231). -/
inductive InstKind
  | peak | box | reg | other
deriving DecidableEq, Repr

mutual
/-- An object with its identity and its `__dict__` (Python objects, as black_box.py:4-18 sees them). -/
inductive Inst
  | mk (id : Nat) (kind : InstKind) (fields : InstFields)
/-- A `__dict__`: attribute names and values in insertion order (black_box.py:4-18). -/
inductive InstFields
  | nil
  | cons (name : String) (obj : Inst) (rest : InstFields)
end

/-- The identity of an object (Python; used at black_box.py:4-18). -/
def Inst.id : Inst → Nat
  | .mk i _ _ => i

/-- The class of an object, as far as it matters at black_box.py:4-18. -/
def Inst.kind : Inst → InstKind
  | .mk _ k _ => k

/-- `vars(obj)` (black_box.py:4-18). -/
def Inst.fields : Inst → InstFields
  | .mk _ _ fs => fs

/-- `vars(obj).items()` (black_box.py:4-18). -/
def InstFields.toList : InstFields → List (String × Inst)
  | .nil => []
  | .cons n o fs => (n, o) :: fs.toList

mutual
/-- The recursion of `get_black_boxes` (black_box.py:12-18) on a Peak object.  The dictionaries merged by `{**ret, **…}` have
different keys (the attribute names at the end of the common path differ), so merging is concatenation. -/
def bbWalk : Inst → List String → List (List String × Inst)
  | .mk i k fs, path =>
    match k with
    | .box => [(path, .mk i k fs)]
    | _ => bbWalkFields fs path
/-- The loop of `get_black_boxes` over the attributes of one object (black_box.py:4-18). -/
def bbWalkFields : InstFields → List String → List (List String × Inst)
  | .nil, _ => []
  | .cons n (.mk i k fs) rest, path =>
    (match k with
      | .other => []
      | _ => bbWalk (.mk i k fs) (path ++ [n])) ++ bbWalkFields rest path
end

/-- `get_black_boxes(obj)` (black_box.py:3-18), without the cache. -/
def getBlackBoxes (obj : Inst) : Except Err (List (List String × Inst)) :=
  match obj.kind with
  | .other => .error .valueError
  | _ => .ok (bbWalk obj [])

/-- `get_black_box(obj, path)` (black_box.py:20-32), without the cache.  `getattr` on a Peak object finds the instance attribute, and
replaces an attribute register by its value, which is not a Peak object (peak.py:42-53). -/
def getBlackBox : Inst → List String → Except Err Inst
  | obj, [] => .ok obj
  | obj, n :: path =>
    match obj.fields.toList.lookup n with
    | none => .error .valueError
    | some c =>
      match c.kind with
      | .other => .error .valueError
      | .reg => .error .valueError
      | _ => getBlackBox c path

/-- The `lru_cache` around `get_black_boxes` (black_box.py:3), for one object: the first result is kept, whatever the object's
attributes are later; exceptions are not cached. -/
def getBlackBoxesCached (memo : Option (List (List String × Inst))) (obj : Inst) :
    Except Err (List (List String × Inst)) × Option (List (List String × Inst)) :=
  match memo with
  | some r => (.ok r, memo)
  | none => match getBlackBoxes obj with
    | .ok r => (.ok r, some r)
    | .error e => (.error e, none)

end Peak
