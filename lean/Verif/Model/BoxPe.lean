import Verif.Model.BlackBox
/-!
# The PE with three black boxes of `tests/test_black_box.py`
-/

namespace Peak.BxPe
open Peak

/-- `Data` (tests/test_black_box.py:12, 24). -/
abbrev Word := BitVec 8

/-- `BB.__call__` in the Python family (tests/test_black_box.py:15-17); its input is `x` and it has one output. -/
def bbPy (_ : Word) : Word := 0

/-- The result of the PE from its inputs and the outputs of its black boxes (tests/test_black_box.py:38-47). -/
def select (instr : BitVec 2) (x o1 o2 o3 : Word) : Word :=
  let b1 := o1
  let b2 := o2
  let b3 := ~~~ o3
  if instr == 0 then x + 5
  else if instr == 1 then b1
  else if instr == 2 then b2
  else b3

/-- The PE in the Python family (tests/test_black_box.py:34-47). -/
def pyCall (instr : BitVec 2) (x : Word) : Word := select instr x (bbPy x) (bbPy (~~~ x)) (bbPy x)

/-- The PE in the SMT family (tests/test_black_box.py:28-32): its three black boxes. A formula is modelled by its value. -/
structure St where
  b1 : BBox Word
  b2 : BBox Word
  b3 : BBox Word

/-- `__init__` (tests/test_black_box.py:29-32); a black box has the input `x` and one output (15). -/
def St.new : St := ⟨.new ["x"] 1, .new ["x"] 1, .new ["x"] 1⟩

/-- The call of a black box with one argument, whose only output is returned bare (black_box.py:44-61). -/
def callBox (b : BBox Word) (x : Word) : Except Err Word × BBox Word :=
  match b.call [x] [] with
  | (.ok [v], b') => (.ok v, b')
  | (.ok _, b') => (.error .typeError, b')
  | (.error e, b') => (.error e, b')

/-- `__call__` in the SMT family (tests/test_black_box.py:34-47).  The black boxes are called in turn; an exception leaves what was recorded before. -/
def St.call (s : St) (instr : BitVec 2) (x : Word) : Except Err Word × St :=
  match callBox s.b1 x with
  | (.error e, b1) => (.error e, { s with b1 })
  | (.ok o1, b1) =>
    match callBox s.b2 (~~~ x) with
    | (.error e, b2) => (.error e, { s with b1, b2 })
    | (.ok o2, b2) =>
      match callBox s.b3 x with
      | (.error e, b3) => (.error e, ⟨b1, b2, b3⟩)
      | (.ok o3, b3) => (.ok (select instr x o1 o2 o3), ⟨b1, b2, b3⟩)

/-- The black boxes `BB1`, `BB2` and `BB3` (tests/test_black_box.py:30-32). -/
inductive Box
  | one | two | three
deriving DecidableEq

/-- `pe_smt.BB1` and so on (tests/test_black_box.py:76-78). -/
def St.box (s : St) : Box → BBox Word
  | .one => s.b1
  | .two => s.b2
  | .three => s.b3

/-- What the test does with the PE (tests/test_black_box.py:76-97): set the output of a black box, call the PE, ask for what a black box was given. -/
inductive Op
  | set (b : Box) (o : Word)
  | call (instr : BitVec 2) (x : Word)
  | inputs (b : Box)

/-- The object after an operation (tests/test_black_box.py:76-97, black_box.py:65-77). -/
def St.step (s : St) : Op → St
  | .set .one o => { s with b1 := (s.b1.setOutputs [o]).2 }
  | .set .two o => { s with b2 := (s.b2.setOutputs [o]).2 }
  | .set .three o => { s with b3 := (s.b3.setOutputs [o]).2 }
  | .call instr x => (s.call instr x).2
  | .inputs _ => s

/-- The object after a history, the last operation first (tests/test_black_box.py:76-97). -/
def after : List Op → St
  | [] => .new
  | op :: past => (after past).step op

end Peak.BxPe
