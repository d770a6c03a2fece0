import Verif.Model.Basic
/-!
# The IR table (peak/ir.py)
-/

namespace Peak

/-- `IR.add_instruction` (ir.py:16-19): the result and the new dictionary of instructions. -/
def irAdd {φ : Type} (table : List (String × φ)) (name : String) (fc : φ) : Except Err Unit × List (String × φ) :=
  match table.lookup name with
  | some _ => (.error .valueError, table)
  | none => (.ok (), table ++ [(name, fc)])

/-- A sequence of additions; the exceptions are caught by the caller (ir.py:16-19). -/
def irAddAll {φ : Type} (table : List (String × φ)) : List (String × φ) → List (Except Err Unit) × List (String × φ)
  | [] => ([], table)
  | (n, f) :: rest =>
    let (r, t') := irAdd table n f
    let (rs, t'') := irAddAll t' rest
    (r :: rs, t'')

/-! ## The class `add_peak_instruction` generates (ir.py:22-59) -/

/-- What a name in the generated source can denote: the family the closure is called with, the value of the i-th argument of the call,
the wrapped Python function, the generated class, the instance, or some other object (ir.py:35-57). -/
inductive GenVal
  | family | input (i : Nat) | func | cls | self | other
deriving DecidableEq, Repr

/-- The scope of `__call__`: `self` and the parameters (ir.py:41, 44). -/
def genCallScope (inputs : List String) : List (String × GenVal) :=
  ("self", .self) :: inputs.zip ((List.range inputs.length).map .input)

/-- The scope of `peak_fc` when `__call__` runs (ir.py:36-39): the parameter `family`, overwritten if the class has that name.  The names
`_t0, _t1, …` of the types are left out: they are not looked up by `__call__` unless a parameter has such a name, which then hides
them. -/
def genFcScope (clsName : String) : List (String × GenVal) := [(clsName, .cls), ("family", .family)]

/-- The globals of the generated source (ir.py:50-56), those that `__call__` can look up. -/
def genGlobals : List (String × GenVal) := [("_fun_", .func), ("Peak", .other), ("name_outputs", .other), ("_family_closure", .other)]

/-- Name lookup in the body of `__call__`: local, enclosing, global; `none` is a NameError (Python, for the code of ir.py:43-45). -/
def genResolve (clsName : String) (inputs : List String) (n : String) : Option GenVal :=
  match (genCallScope inputs).lookup n with
  | some v => some v
  | none => match (genFcScope clsName).lookup n with
    | some v => some v
    | none => genGlobals.lookup n

/-- The call `_fun_(family, i0, i1, …)` in the body (ir.py:42, 45): what is called, and with which arguments.  `none`: the source does
not compile, because two parameters have the same name. -/
def genCall (clsName : String) (inputs : List String) : Option (Option GenVal × List (Option GenVal)) :=
  if inputs.contains "self" || !(decide inputs.Nodup) then none
  else some (genResolve clsName inputs "_fun_", ("family" :: inputs).map (genResolve clsName inputs))

end Peak
