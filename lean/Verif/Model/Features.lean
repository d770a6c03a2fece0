import Verif.Model.Basic
/-!
# Signatures and type checking of Peak classes (peak/features.py:14-94, peak/peak.py:15-29)

`τ` stands for the annotation objects (types), `υ` for the values.
-/

namespace Peak
variable {τ υ : Type}

/-- A return annotation: `None`, a tuple of types, or one type (features.py:64-74). -/
inductive RetAnn (τ : Type)
  | none
  | tuple (ts : List τ)
  | one (t : τ)

/-- A function: its name, its positional parameters (including `self`), the names that follow them in `co_varnames`, namely
keyword-only parameters, `*args`/`**kwargs` names and local variables, the annotations of parameters, and the return annotation.
`fixedOut` is the `_output_t` set beforehand by `name_outputs` (features.py:14-28). -/
structure FnSig (τ : Type) where
  name : String
  pos : List String
  kwonly : List String := []
  starred : List String := []
  locals : List String := []
  ann : List (String × τ)
  ret : Option (RetAnn τ)
  fixedOut : Option (List (String × τ)) := none

/-- `call_fn.__code__.co_varnames` (features.py:38). -/
def FnSig.varnames (f : FnSig τ) : List String := f.pos ++ f.kwonly ++ f.starred ++ f.locals

/-- `call_fn.__code__.co_argcount` (features.py:37). -/
def FnSig.argcount (f : FnSig τ) : Nat := f.pos.length

/-- `gen_input_t` (features.py:30-57): the fields of `Product("Input", …)` in order, `none` for no inputs. -/
def genInputT (f : FnSig τ) : Except Err (Option (List (String × τ))) :=
  let offset := if f.name = "__call__" then 1 else 0
  let names := (f.varnames.take f.argcount).drop offset
  let keys := f.ann.map (·.1)
  if names.all (keys.contains ·) && keys.all (names.contains ·) then
    let fields := names.filterMap (fun n => (f.ann.lookup n).map (fun t => (n, t)))
    if fields.length = 0 then .ok none else .ok (some fields)
  else .error .valueError

/-- Field names of `Tuple[ts]`: the indices (hwtypes; features.py:74). -/
def tupleFields (ts : List τ) : List (String × τ) := (List.range ts.length).zip ts |>.map (fun p => (toString p.1, p.2))

/-- `gen_output_t` (features.py:59-76). -/
def genOutputT (f : FnSig τ) : Except Err (Option (List (String × τ))) :=
  match f.fixedOut with
  | some o => .ok (some o)
  | none => match f.ret with
    | none => .error .valueError
    | some .none => .ok none
    | some (.tuple ts) => .ok (some (tupleFields ts))
    | some (.one t) => .ok (some (tupleFields [t]))

/-- What a call returned: a Python tuple or a single value (features.py:84-87). -/
inductive Result (υ : Type)
  | tuple (vs : List υ)
  | one (v : υ)
deriving DecidableEq, Repr

/-- The results as a list: features.py:84-87. -/
def Result.list : Result υ → List υ
  | .tuple vs => vs
  | .one v => [v]

/-- The loop of `typecheck` (features.py:88-90) over the remaining results. -/
def checkLoop (isT : τ → υ → Bool) : List (String × τ) → List υ → Except Err Unit
  | [], _ => .ok ()
  | _ :: _, [] => .error .indexError
  | (_, t) :: os, v :: vs => if isT t v then checkLoop isT os vs else .error .typeError

/-- `call_wrapper` (features.py:83-93): `r` is what the wrapped function does on the arguments (which are not looked at). -/
def typechecked (isT : τ → υ → Bool) (out : Option (List (String × τ))) (r : Except Err (Result υ)) : Except Err (Result υ) :=
  match r with
  | .error e => .error e
  | .ok res =>
    match out with
    | none => .error .attributeError     -- None has no field_dict
    | some os =>
      match checkLoop isT os res.list with
      | .error e => .error e
      | .ok () => .ok res

/-- `PeakMeta.__new__` (peak.py:15-29) for a class that defines `__call__`: output type first, then input type. -/
def peakMeta (genIn genOut : Bool) (f : FnSig τ) :
    Except Err (Option (Option (List (String × τ))) × Option (Option (List (String × τ)))) := do
  let o ← if genOut then (genOutputT f).map some else .ok (f.fixedOut.map some)
  let i ← if genIn then (genInputT f).map some else .ok none
  .ok (i, o)

end Peak
