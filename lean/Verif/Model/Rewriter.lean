import Verif.Model.Basic
/-!
# Call bodies rewritten for the SMT family (peak/family.py:126-155, 276-302)

`_StdMix` applies to `__call__` the passes `ssa()`, `bool_to_bit()` and `if_to_phi(Bit.ite)` (family.py:301), in this order, for `PyXFamily` and
`SMTFamily`; `PyFamily` leaves `__call__` as it is (family.py:283-284, 142-143).  The passes are those of the library ast_tools, which is not part of
/repo: they are given their documented meaning here.

* `ssa`: the code becomes straight-line code.  Both branches of an `if` are executed; a variable or attribute that differs after them becomes a
  conditional expression; attributes of `self` are read at the beginning and written at the end; the returned value is the conditional
  expression over all `return` statements with the conditions they are under; a body that can end without `return` is rejected.
* `bool_to_bit`: `and`, `or`, `not` become `&`, `|`, `~`.
* `if_to_phi`: `t if c else f` becomes `Bit.ite(c, t, f)`, so that all three are evaluated.

Calls of components (`self.reg(x)`) stay calls.
-/

namespace Peak.Rw

/-- Values: bits, bit vectors, and tuples of them.  (For the SMT family: the values under an assignment of the symbols.) (hwtypes; the values of a `__call__` rewritten at family.py:144) -/
inductive V
  | bit (b : Bool)
  | bv (w : Nat) (x : BitVec w)
  | pair (a b : V)
  deriving DecidableEq

/-- Expressions of a call body: parameters and variables, attributes of `self`, values, operators and functions of one and two arguments,
calls of components, and the expressions the passes change (Python; what family.py:144 is applied to). -/
inductive Ex
  | var (x : Nat)
  | attr (a : Nat)
  | lit (v : V)
  | op1 (f : V → Except Err V) (e : Ex)
  | op2 (f : V → V → Except Err V) (e1 e2 : Ex)
  | sub (i : Nat) (e : Ex)
  | and (e1 e2 : Ex)
  | or (e1 e2 : Ex)
  | not (e : Ex)
  | cond (c t f : Ex)

/-- Statements (Python; what family.py:144 is applied to). -/
inductive St
  | skip
  | assign (x : Nat) (e : Ex)
  | setAttr (a : Nat) (e : Ex)
  | eval (e : Ex)
  | assert (e : Ex)
  | ret (e : Ex)
  | seq (s1 s2 : St)
  | ifte (c : Ex) (t f : St)

/-- The variables of a call (`none`: not assigned) and the attributes of `self` (Python; the calls of what family.py:144 makes). -/
structure Frame where
  vars : List (Option V)
  attrs : List V

/-- The components: a call of component `i` takes an argument and its state (Peak objects held in attributes; peak.py:40-69). -/
abbrev Comps := Nat → V → V → Except Err (V × V)

/-- Reading a variable (Python; bodies of what family.py:144 is applied to). -/
def Frame.getVar (fr : Frame) (x : Nat) : Except Err V :=
  match fr.vars[x]? with
  | some (some v) => .ok v
  | _ => .error .nameError

/-- Reading an attribute of `self` (peak.py:42-53). -/
def Frame.getAttr (fr : Frame) (a : Nat) : Except Err V :=
  match fr.attrs[a]? with
  | some v => .ok v
  | none => .error .attributeError

/-- Assigning a variable (Python; bodies of what family.py:144 is applied to). -/
def Frame.setVar (fr : Frame) (x : Nat) (v : V) : Frame := { fr with vars := fr.vars.set x (some v) }

/-- Assigning an attribute of `self` (peak.py:55-69). -/
def Frame.setAttr (fr : Frame) (a : Nat) (v : V) : Frame := { fr with attrs := fr.attrs.set a v }

/-- `self.sub_i(v)` on the list of the states of the components (Python; bodies of what family.py:144 is applied to). -/
def callComp (C : Comps) (i : Nat) (v : V) (ss : List V) : Except Err (V × List V) :=
  match ss[i]? with
  | none => .error .attributeError
  | some s => do
    let (r, s') ← C i v s
    .ok (r, ss.set i s')

/-- The type of a value, as far as `ite` sees it (hwtypes; the argument `self.Bit.ite` of family.py:301). -/
inductive Ty
  | bit
  | bv (w : Nat)
  | pair (a b : Ty)
  deriving DecidableEq

/-- The type of a value (hwtypes; family.py:301). -/
def tyOf : V → Ty
  | .bit _ => .bit
  | .bv w _ => .bv w
  | .pair a b => .pair (tyOf a) (tyOf b)

/-- `Bit.ite(c, t, f)` (hwtypes): the condition must be a bit and the branches of one type (family.py:301). -/
def iteV (c t f : V) : Except Err V :=
  match c with
  | .bit b => if tyOf t = tyOf f then .ok (if b then t else f) else .error .typeError
  | _ => .error .typeError

/-- `a & b` (hwtypes; what `bool_to_bit()` of family.py:301 produces) -/
def andV : V → V → Except Err V
  | .bit a, .bit b => .ok (.bit (a && b))
  | .bv w x, .bv w' y => if w = w' then .ok (.bv w (x &&& y.setWidth w)) else .error .typeError
  | _, _ => .error .typeError

/-- `a | b` (hwtypes; what `bool_to_bit()` of family.py:301 produces) -/
def orV : V → V → Except Err V
  | .bit a, .bit b => .ok (.bit (a || b))
  | .bv w x, .bv w' y => if w = w' then .ok (.bv w (x ||| y.setWidth w)) else .error .typeError
  | _, _ => .error .typeError

/-- `~a` (hwtypes; what `bool_to_bit()` of family.py:301 produces) -/
def notV : V → Except Err V
  | .bit a => .ok (.bit (!a))
  | .bv w x => .ok (.bv w (~~~x))
  | _ => .error .typeError

/-- Evaluation after `bool_to_bit` and `if_to_phi` (ast_tools, not in /repo; applied at family.py:144 with the passes of 301). -/
def rwEval (C : Comps) : Ex → Frame → List V → Except Err (V × List V)
  | .var x, fr, ss => do let v ← fr.getVar x; .ok (v, ss)
  | .attr a, fr, ss => do let v ← fr.getAttr a; .ok (v, ss)
  | .lit v, _, ss => .ok (v, ss)
  | .op1 f e, fr, ss => do
    let (a, ss) ← rwEval C e fr ss
    let v ← f a
    .ok (v, ss)
  | .op2 f e1 e2, fr, ss => do
    let (a, ss) ← rwEval C e1 fr ss
    let (b, ss) ← rwEval C e2 fr ss
    let v ← f a b
    .ok (v, ss)
  | .sub i e, fr, ss => do
    let (a, ss) ← rwEval C e fr ss
    callComp C i a ss
  | .and e1 e2, fr, ss => do
    let (a, ss) ← rwEval C e1 fr ss
    let (b, ss) ← rwEval C e2 fr ss
    let v ← andV a b
    .ok (v, ss)
  | .or e1 e2, fr, ss => do
    let (a, ss) ← rwEval C e1 fr ss
    let (b, ss) ← rwEval C e2 fr ss
    let v ← orV a b
    .ok (v, ss)
  | .not e, fr, ss => do
    let (a, ss) ← rwEval C e fr ss
    let v ← notV a
    .ok (v, ss)
  | .cond c t f, fr, ss => do
    let (c, ss) ← rwEval C c fr ss
    let (a, ss) ← rwEval C t fr ss
    let (b, ss) ← rwEval C f fr ss
    let v ← iteV c a b
    .ok (v, ss)

/-- A `return` statement: the conditions it is under (with the branch taken), its value and the attributes at that point (ast_tools, not in /repo; applied at family.py:144 with the passes of 301). -/
structure Ret where
  guards : List (V × Bool)
  val : V
  attrs : List V

/-- A return under one more condition (the pass `ssa()` of ast_tools; family.py:301). -/
def Ret.under (g : V × Bool) (r : Ret) : Ret := { r with guards := g :: r.guards }

/-- The conditional expression for one variable or attribute: none if it is the same in both branches (ast_tools, not in /repo; applied at family.py:144 with the passes of 301). -/
def phi (c a b : V) : Except Err V := if a = b then .ok a else iteV c a b

/-- The same for a variable, which may be assigned in one branch only (ast_tools, not in /repo; applied at family.py:144 with the passes of 301). -/
def phiVar (c : V) : Option V → Option V → Except Err (Option V)
  | some a, some b => do let v ← phi c a b; .ok (some v)
  | some a, none => .ok (some a)
  | none, b => .ok b

/-- Pointwise (ast_tools, not in /repo; applied at family.py:144 with the passes of 301). -/
def zipE {α : Type} (f : α → α → Except Err α) : List α → List α → Except Err (List α)
  | [], [] => .ok []
  | a :: as, b :: bs => do
    let c ← f a b
    let cs ← zipE f as bs
    .ok (c :: cs)
  | _, _ => .error .typeError

/-- The state after an `if`; a branch that has returned does not take part (ast_tools, not in /repo; applied at family.py:144 with the passes of 301). -/
def merge (c : V) : Option Frame → Option Frame → Except Err (Option Frame)
  | none, f => .ok f
  | some t, none => .ok (some t)
  | some t, some f => do
    let vars ← zipE (phiVar c) t.vars f.vars
    let attrs ← zipE (phi c) t.attrs f.attrs
    .ok (some ⟨vars, attrs⟩)

/-- The straight-line code: the returns in order, the state at the end (`none`: every path has returned) and the components (ast_tools, not in /repo; applied at family.py:144 with the passes of 301). -/
def rwExec (C : Comps) : St → Frame → List V → Except Err (List Ret × Option Frame × List V)
  | .skip, fr, ss => .ok ([], some fr, ss)
  | .assign x e, fr, ss => do
    let (v, ss) ← rwEval C e fr ss
    .ok ([], some (fr.setVar x v), ss)
  | .setAttr a e, fr, ss => do
    let (v, ss) ← rwEval C e fr ss
    .ok ([], some (fr.setAttr a v), ss)
  | .eval e, fr, ss => do
    let (_, ss) ← rwEval C e fr ss
    .ok ([], some fr, ss)
  | .assert e, fr, ss => do
    let (v, ss) ← rwEval C e fr ss
    if v = .bit true then .ok ([], some fr, ss) else .error .assertionError
  | .ret e, fr, ss => do
    let (v, ss) ← rwEval C e fr ss
    .ok ([⟨[], v, fr.attrs⟩], none, ss)
  | .seq s1 s2, fr, ss => do
    let (r1, f1, ss) ← rwExec C s1 fr ss
    match f1 with
    | none => .ok (r1, none, ss)
    | some fr => do
      let (r2, f2, ss) ← rwExec C s2 fr ss
      .ok (r1 ++ r2, f2, ss)
  | .ifte c t f, fr, ss => do
    let (cv, ss) ← rwEval C c fr ss
    let (rt, ft, ss) ← rwExec C t fr ss
    let (rf, ff, ss) ← rwExec C f fr ss
    let fr ← merge cv ft ff
    .ok (rt.map (Ret.under (cv, true)) ++ rf.map (Ret.under (cv, false)), fr, ss)

/-- A condition, or its negation in the other branch (ast_tools, not in /repo; applied at family.py:144 with the passes of 301). -/
def branchV (c : V) (p : Bool) : Except Err V := if p then .ok c else notV c

/-- `c1 & ~c2 & …`, the condition of a return (ast_tools, not in /repo; applied at family.py:144 with the passes of 301). -/
def guardV : List (V × Bool) → Except Err V
  | [] => .ok (.bit true)
  | (c, p) :: gs => do
    let a ← branchV c p
    let b ← guardV gs
    andV a b

/-- The conditional expressions over all returns, for the value and the attributes (ast_tools, not in /repo; applied at family.py:144 with the passes of 301). -/
def select : List Ret → Except Err (V × List V)
  | [] => .error .typeError
  | [r] => .ok (r.val, r.attrs)
  | r :: r' :: rs => do
    let (v, as) ← select (r' :: rs)
    let g ← guardV r.guards
    let v ← iteV g r.val v
    let as ← zipE (phi g) r.attrs as
    .ok (v, as)

/-- A call of the rewritten `__call__`: the value, the attributes and the components afterwards (family.py:144). -/
def rwCall (C : Comps) (body : St) (vars : List (Option V)) (attrs ss : List V) : Except Err (V × List V × List V) := do
  let (rets, fr, ss) ← rwExec C body ⟨vars, attrs⟩ ss
  match fr with
  | some _ => .error .typeError                             -- ssa(strict=True): a path without return
  | none => do
    let (v, as) ← select rets
    .ok (v, as, ss)

/-- A sequence of calls of one object (family.py:144). -/
def rwRun (C : Comps) (body : St) : List (List (Option V)) → List V → List V → Except Err (List V × List V × List V)
  | [], attrs, ss => .ok ([], attrs, ss)
  | args :: cs, attrs, ss => do
    let (v, attrs, ss) ← rwCall C body args attrs ss
    let (vs, attrs, ss) ← rwRun C body cs attrs ss
    .ok (v :: vs, attrs, ss)

end Peak.Rw
