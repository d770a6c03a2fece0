import Verif.Model.Basic
/-!
# `peak/mapper/formula_constructor.py`
-/

namespace Peak

/-- An `SMTBit` expression built with `&`, `|`, `~` over atomic conditions (hwtypes; formula_constructor.py:4-5, 65). -/
inductive BitExpr
  | atom (n : Nat)
  | const (b : Bool)
  | not (e : BitExpr)
  | and (e f : BitExpr)
  | or (e f : BitExpr)
  deriving DecidableEq

/-- The value of a Bit expression under an assignment (hwtypes/pysmt semantics) (not in /repo; the terms of formula_constructor.py:41-65). -/
def BitExpr.eval (ρ : Nat → Bool) : BitExpr → Bool
  | .atom n => ρ n
  | .const b => b
  | .not e => !(e.eval ρ)
  | .and e f => e.eval ρ && f.eval ρ
  | .or e f => e.eval ρ || f.eval ρ

/-- What may be passed as an operand: an `SMTBit`, an object of one of the three classes (formula_constructor.py:33-65), or anything
else. -/
inductive FItem
  | bit (e : BitExpr)
  | all (vs : List FItem)
  | any (vs : List FItem)
  | implies (p q : FItem)
  | other

/-- The `isinstance` test of `_check` (formula_constructor.py:31-32). -/
def FItem.ok : FItem → Bool
  | .other => false
  | _ => true

/-- `_check` (formula_constructor.py:29-32). -/
def fcheck (vs : List FItem) : Except Err Unit :=
  if vs.length > 0 ∧ vs.all FItem.ok then .ok () else .error .assertionError

/-- `And(values)` (formula_constructor.py:33-36). -/
def mkAnd (vs : List FItem) : Except Err FItem :=
  match fcheck vs with | .error e => .error e | .ok _ => .ok (.all vs)

/-- `Or(values)` (formula_constructor.py:44-47). -/
def mkOr (vs : List FItem) : Except Err FItem :=
  match fcheck vs with | .error e => .error e | .ok _ => .ok (.any vs)

/-- `Implies(p, q)` (formula_constructor.py:55-59). -/
def mkImplies (p q : FItem) : Except Err FItem :=
  match fcheck [p, q] with | .error e => .error e | .ok _ => .ok (.implies p q)

/-- `functools.reduce(op, xs)`: a TypeError on an empty sequence (formula_constructor.py:4-5). -/
def pyReduce {α : Type} (op : α → α → α) : List α → Except Err α
  | [] => .error .typeError
  | x :: xs => .ok (xs.foldl op x)

mutual
/-- `_to_hwtypes` / `to_hwtypes` (formula_constructor.py:10-13, 41-42, 52-53, 64-65). -/
def FItem.toHw : FItem → Except Err BitExpr
  | .bit e => .ok e
  | .all vs =>
    match FItem.toHwAll vs with
    | .error e => .error e
    | .ok es => pyReduce .and es
  | .any vs =>
    match FItem.toHwAll vs with
    | .error e => .error e
    | .ok es => pyReduce .or es
  | .implies p q =>
    match p.toHw with
    | .error e => .error e
    | .ok p' =>
      match q.toHw with
      | .error e => .error e
      | .ok q' => .ok (.or (.not p') q')
  | .other => .error .typeError
/-- the elements, rendered (formula_constructor.py:42, 53) -/
def FItem.toHwAll : List FItem → Except Err (List BitExpr)
  | [] => .ok []
  | v :: vs =>
    match v.toHw with
    | .error e => .error e
    | .ok e =>
      match FItem.toHwAll vs with
      | .error err => .error err
      | .ok es => .ok (e :: es)
end

end Peak
