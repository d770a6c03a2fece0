/-!
# `peak/assembler/utils.py`: ISA constants in a function replaced by their codes

Python objects and the operations on them are parameters (`World`); evaluation has no effects. `ast.NodeTransformer` visits the children of every node
that has no `visit_…` method, so all other expressions and statements are one kind of node.
-/

namespace Peak.Ic

/-- Exceptions that matter here (Python; utils.py:28). -/
inductive PErr | name | other (n : Nat)
  deriving DecidableEq

/-- `ast` nodes: a name, `e.a` in `Load` context, `e.a` in `Store` or `Del` context, a number, any other node with its children (Python's `ast`; utils.py:10-30). -/
inductive Expr
  | name (x : Nat)
  | attr (e : Expr) (a : Nat)
  | store (e : Expr) (a : Nat)
  | num (i : Int)
  | node (op : Nat) (args : List Expr)

/-- Python: objects, `getattr`, the place an attribute target names, integers, all other operations. `getattr` may raise anything but `NameError` (Python; utils.py:19-27). -/
structure World (O : Type) where
  getattr : O → Nat → Except Nat O
  slot : O → Nat → Except Nat O
  ofInt : Int → O
  apply : Nat → List O → Except PErr O
  hashable : O → Bool

/-- An entry of `assemblers`: `int(assembler(getattr(bv_type, attr)))` for the pair `(bv_type, assembler)` (utils.py:26-27). It may
raise anything but `NameError`. -/
abbrev Entry := Nat → Except Nat Int

/-- The names visible to `eval` (Python; utils.py:19-25). -/
abbrev Env (O : Type) := Nat → Option O

/-- An exception that is not a `NameError` (utils.py:28). -/
def other {α : Type} (r : Except Nat α) : Except PErr α := r.mapError .other

/-- Name lookup, `NameError` when there is none (Python; utils.py:19-28). -/
def lookupName {O : Type} (ρ : Env O) (x : Nat) : Except PErr O :=
  match ρ x with
  | some o => .ok o
  | none => .error .name

mutual
/-- Python's evaluation of an expression (Python, not in /repo; used at utils.py:19-25). -/
def eval {O : Type} (W : World O) (ρ : Env O) : Expr → Except PErr O
  | .name x => lookupName ρ x
  | .attr e a => (eval W ρ e).bind fun o => other (W.getattr o a)
  | .store e a => (eval W ρ e).bind fun o => other (W.slot o a)
  | .num i => .ok (W.ofInt i)
  | .node op es => (evalAll W ρ es).bind (W.apply op)
/-- Evaluation of a list of expressions from left to right (Python; see `eval`, utils.py:19-25). -/
def evalAll {O : Type} (W : World O) (ρ : Env O) : List Expr → Except PErr (List O)
  | [] => .ok []
  | e :: es => (eval W ρ e).bind fun o => (evalAll W ρ es).map (o :: ·)
end

/-- The names `eval(code, self._locals, self._globals)` sees (utils.py:19-21): the second argument of `eval` is the globals, the third the locals, and locals come first. -/
def passEnv {O : Type} (globals locals : Env O) : Env O := fun x => (globals x).or (locals x)

/-- `try: … except NameError: pass` (utils.py:18, 28-30). -/
def onNameError {α : Type} (r : Except PErr α) (d : α) : Except PErr α :=
  match r with
  | .error .name => .ok d
  | r => r

/-- The body of the `try` (utils.py:19-27), for the node `e.a`. -/
def tryAttr {O : Type} [DecidableEq O] (W : World O) (asm : List (O × Entry)) (ρ : Env O) (e : Expr) (a : Nat) : Except PErr Expr :=
  (eval W ρ e).bind fun o =>
    if W.hashable o then
      match asm.lookup o with
      | none => .ok (.attr e a)
      | some ent => (eval W ρ (.attr e a)).bind fun _ => (other (ent a)).map .num
    else .error (.other 0)

mutual
/-- `ISABuilderAssembler(assemblers, _locals, _globals).visit(node)` (utils.py:10-30). -/
def visit {O : Type} [DecidableEq O] (W : World O) (asm : List (O × Entry)) (ρ : Env O) : Expr → Except PErr Expr
  | .attr e a => onNameError (tryAttr W asm ρ e a) (.attr e a)
  | .store e a => .ok (.store e a)
  | .name x => .ok (.name x)
  | .num i => .ok (.num i)
  | .node op es => (visitAll W asm ρ es).map (.node op)
/-- `NodeTransformer.generic_visit` on a list of nodes (Python; utils.py:10-30, 35). -/
def visitAll {O : Type} [DecidableEq O] (W : World O) (asm : List (O × Entry)) (ρ : Env O) : List Expr → Except PErr (List Expr)
  | [] => .ok []
  | e :: es => (visit W asm ρ e).bind fun e' => (visitAll W asm ρ es).map (e' :: ·)
end

/-- What the names of a function mean when it is called: its parameters, then `outer` (Python; the function of utils.py:33-48). -/
def callEnv {O : Type} (params outer : Env O) : Env O := fun x => (params x).or (outer x)

/-- `assemble_values_in_func(assemblers, peak_fn, _locals, _globals)(*args)` for the body `e` (utils.py:33-48): the new function is compiled at
module level and executed in `_globals`, so it sees no name of an enclosing function.
Up to Python 3.7; later versions refuse `ast.Module([func_def])` (line 42) for its missing argument. Writing the source to a file (37-40) is not modelled. -/
def assembled {O : Type} [DecidableEq O] (W : World O) (asm : List (O × Entry)) (globals locals params : Env O) (e : Expr) : Except PErr O :=
  (visit W asm (passEnv globals locals) e).bind (eval W (callEnv params globals))

end Peak.Ic
