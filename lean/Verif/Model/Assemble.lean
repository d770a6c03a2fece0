import Verif.Model.Basic
/-!
# Assembling a class by a family (peak/family.py:68-78, 137-146, 246-253, 283-284, 304-316, 339-351, peak/black_box.py:41-63)

Functions are objects with the attributes `_input_t` and `_output_t`; classes have their own `__call__` or inherit one.  A family returns
the class it is given after changing it in place.  The class is decorated where it is declared, so that no other class inherits from it yet.
Magma's assemble is not modelled.
-/

namespace Peak.Fam

/-- What a function does: the text it was declared with, the result of the passes on a function, or the call of a black box
(black_box.py:44-59). -/
inductive Code
  | source (s : Nat)
  | rewritten (c : Code)
  | box
deriving DecidableEq

/-- A function object. `checked`: it is the wrapper made by `typecheck` (features.py:78-94) around a function with that code;
`input`, `output`: the attributes `_input_t`, `_output_t`, absent or not. -/
structure Fun (τ : Type) where
  code : Code
  checked : Bool
  input : Option τ
  output : Option τ

/-- A class: the `__call__` in its own namespace, the classes it looks names up in, and whether `BlackBox` is one of them (peak/peak.py:6-29, peak/black_box.py:35). -/
structure Cls where
  call : Option Nat
  mro : List Nat
  isBox : Bool

/-- The function objects and the classes of the process (Python; what peak/peak.py:6-29 and peak/features.py:78-94 make). -/
structure St (τ : Type) where
  funs : List (Fun τ)
  clss : List Cls

/-- The families: `PyFamily`, `PyXFamily`, `SMTFamily` (peak/family.py:256, 318, 322). -/
inductive Family
  | py
  | pyx
  | smt
deriving DecidableEq

variable {τ : Type}

/-- `cls.__call__`, as a reference; `none` when no class declares one, and `type.__call__` is found (Python's attribute lookup; used at peak/family.py:144, 307, 342, peak/black_box.py:42-63). -/
def callRef (s : St τ) (c : Nat) : Option Nat :=
  match s.clss[c]? with
  | none => none
  | some k => k.mro.findSome? (fun d => s.clss[d]?.bind (·.call))

/-- `cls.__call__`, the function object (Python's attribute lookup; used at peak/family.py:144, 307, 342). -/
def callOf (s : St τ) (c : Nat) : Option (Fun τ) := (callRef s c).bind (fun f => s.funs[f]?)

/-- `cls.__call__ = f` with a new function object (peak/family.py:144, peak/black_box.py:63). -/
def setCall (s : St τ) (c : Nat) (f : Fun τ) : St τ :=
  { funs := s.funs ++ [f], clss := s.clss.modify c (fun k => { k with call := some s.funs.length }) }

/-- `_RewriterFamily` (family.py:140-145).  `apply_passes` of ast_tools makes a new function from the source text of the given one, which is
that of the function inside a wrapper; `attrs`: the attributes the library gives the new function. -/
def rewrite (attrs : Fun τ → Option τ × Option τ) (s : St τ) (c : Nat) : Except Err (St τ) :=
  match callOf s c with
  | none => .error .typeError
  | some f => .ok (setCall s c { code := .rewritten f.code, checked := false, input := (attrs f).1, output := (attrs f).2 })

/-- `BlackBox.create_call` (black_box.py:41-63) under the condition of `_BBFamily` (family.py:250-252) -/
def blackBox (s : St τ) (c : Nat) : Except Err (St τ) :=
  if (s.clss[c]?.map (·.isBox)).getD false then
    match callOf s c with
    | none => .error .typeError
    | some f =>
      match f.input, f.output with
      | none, _ => .ok (setCall s c { code := .box, checked := false, input := none, output := none })
      | some _, none => .error .assertionError
      | some i, some o => .ok (setCall s c { code := .box, checked := false, input := some i, output := some o })
  else .ok s

/-- `deco` of `_StdMix.assemble` and of `SMTFamily.assemble` (family.py:306-316, 341-351) around the decorator of the base families. -/
def keepTypes (deco : St τ → Nat → Except Err (St τ)) (s : St τ) (c : Nat) : Except Err (St τ) :=
  match (callOf s c).bind (·.input), (callOf s c).bind (·.output) with
  | some i, some o =>
    match deco s c with
    | .error e => .error e
    | .ok s' =>
      match callRef s' c with
      | none => .error .attributeError
      | some f => .ok { s' with funs := s'.funs.modify f (fun x => { x with input := some i, output := some o }) }
  | _, _ => .error .attributeError

/-- `family.assemble(locals(), globals())(cls)`: the decorators in the order of the base classes (family.py:256, 289, 318, 322). -/
def assemble (attrs : Fun τ → Option τ × Option τ) (s : St τ) (c : Nat) : Family → Except Err (St τ)
  | .py => .ok s
  | .pyx => keepTypes (rewrite attrs) s c
  | .smt => keepTypes (fun s c =>
      match keepTypes (rewrite attrs) s c with
      | .error e => .error e
      | .ok s' => blackBox s' c) s c

/-- `cls.input_t` and `cls.output_t` (peak.py:7-13): AttributeError when absent. -/
def types (s : St τ) (c : Nat) : Option τ × Option τ := ((callOf s c).bind (·.input), (callOf s c).bind (·.output))

end Peak.Fam
