import Verif.Model.AutoAssembler
/-!
# Values and types moved between families

`rebind_value` and `rebind_binding` of peak/mapper/utils.py, `strip_aadt` of peak/mapper/mapper.py, the port types `magmafy` of
peak/family.py computes, and the constants of peak/auto_assembler.py.
-/

namespace Peak.Conv
open Peak

/-- The two families whose values `rebind_value` accepts and the mapper rebinds to (peak/mapper/utils.py:340-354). -/
inductive Fam
  | py
  | smt
  deriving DecidableEq, Repr

/-- The class a vector belongs to: `BitVector`, `Signed` or `Unsigned` of its family (peak/family.py:265-275). -/
inductive Sign
  | plain
  | signed
  | unsigned
  deriving DecidableEq, Repr

/-- The contents of a vector or a bit: a constant, or an SMT term that is not one (`_value_.is_constant()`, utils.py:346, 350). -/
inductive Term (α : Type)
  | const (a : α)
  | sym (id : Nat)
  deriving DecidableEq, Repr

/-- What stands on the left of a binding when it is neither a path nor `Unbound` (peak/mapper/utils.py:361): a Python vector or bit, an
SMT vector or bit, an `AssembledADT` value, or anything else. -/
inductive HVal
  | pyBv (s : Sign) (size : Nat) (n : Nat)
  | pyBit (b : Bool)
  | smtBv (s : Sign) (size : Nat) (t : Term Nat)
  | smtBit (t : Term Bool)
  | aadt (inner : Nat)
  | other (id : Nat)
  deriving DecidableEq, Repr

/-- `family.BitVector[size](n)` (hwtypes, not in /repo; called in peak/mapper/utils.py:342, 348): the low `size` bits of `n`. -/
def mkBv (f : Fam) (size n : Nat) : HVal :=
  match f with
  | .py => .pyBv .plain size (n % 2 ^ size)
  | .smt => .smtBv .plain size (.const (n % 2 ^ size))

/-- `family.Bit(b)` (hwtypes, not in /repo; called in peak/mapper/utils.py:344, 352). -/
def mkBit (f : Fam) (b : Bool) : HVal :=
  match f with
  | .py => .pyBit b
  | .smt => .smtBit (.const b)

/-- `rebind_value` (peak/mapper/utils.py:340-354), branch by branch.  An `AssembledADT` is an instance of none of the four classes. -/
def rebindValue (v : HVal) (f : Fam) : Except Err HVal :=
  match v with
  | .pyBv _ size n => .ok (mkBv f size n)
  | .pyBit b => .ok (mkBit f b)
  | .smtBv _ size t => match t with
    | .sym _ => .error .valueError
    | .const n => .ok (mkBv f size n)
  | .smtBit t => match t with
    | .sym _ => .error .valueError
    | .const b => .ok (mkBit f b)
  | .aadt _ => .error .valueError
  | .other _ => .error .valueError

/-- One element of a path: a field name, or the option of a `Sum`, which is a type (peak/mapper/utils.py:357-364).  Of the type the
model keeps the family when it is a vector type. -/
inductive Elem
  | name (s : Nat)
  | vec (f : Fam) (s : Sign) (size : Nat)
  | cls (id : Nat)
  deriving DecidableEq, Repr

/-- `rebind_type` on a path element (hwtypes, not in /repo; called in peak/mapper/utils.py:360): names and classes without a family stay,
vector types move to the family.  Simplification: algebraic types built from vector types are `cls`, i.e. left alone. -/
def rebindElem (e : Elem) (f : Fam) : Elem :=
  match e with
  | .name s => .name s
  | .vec _ s size => .vec f s size
  | .cls i => .cls i

/-- The left side of a binding: a path, `Unbound` or a value (peak/mapper/utils.py:361). -/
inductive Lhs
  | path (p : List Elem)
  | unbound
  | val (v : HVal)
  deriving DecidableEq, Repr

/-- `rebind_binding` (peak/mapper/utils.py:357-365); `arch_path[-1]` of an empty path is an IndexError. -/
def rebindBinding : List (Lhs × List Elem) → Fam → Except Err (List (Lhs × List Elem))
  | [], _ => .ok []
  | (l, p) :: b, f =>
    match p.getLast? with
    | none => .error .indexError
    | some e =>
      let p' := p.dropLast ++ [rebindElem e f]
      match l with
      | .val v => match rebindValue v f with
        | .error e => .error e
        | .ok v' => match rebindBinding b f with
          | .error e => .error e
          | .ok r => .ok ((.val v', p') :: r)
      | l => match rebindBinding b f with
        | .error e => .error e
        | .ok r => .ok ((l, p') :: r)

/-- `strip_aadt` (peak/mapper/mapper.py:927-933). -/
def stripAadt (b : List (Lhs × List Elem)) : List (Lhs × List Elem) :=
  b.map fun (l, p) => match l with
    | .val (.aadt i) => (.val (.other i), p)
    | l => (l, p)

/-- The annotations of `__call__` (peak/family.py:396-415): a tuple of annotations, a type under a modifier such as `Const`, an algebraic
type, a vector or bit type of some family, or another class. -/
inductive PT
  | tuple (l : List PT)
  | modified (m : Nat) (t : PT)
  | adt (id : Nat)
  | vec (fam : Nat) (s : Sign) (size : Nat)
  | bit (fam : Nat)
  | other (id : Nat)

/-- The port types of the circuit (peak/family.py:396-415): magma's vectors and bit, `get_adt_t` of an algebraic type, or the class as
it was. -/
inductive MT
  | tuple (l : List MT)
  | aadt (id : Nat)
  | vec (s : Sign) (size : Nat)
  | bit
  | other (id : Nat)

/-- `strip_modifiers` (hwtypes, not in /repo; called in peak/family.py:399): removes every modifier around the type. -/
def strip : PT → PT
  | .modified _ t => strip t
  | t => t

/-- `magmafy` after the modifiers are gone (peak/family.py:400-415).  A tuple is not a class: `is_adt_type` and `issubclass` raise
TypeError. -/
def magmafyCls : PT → Except Err MT
  | .adt i => .ok (.aadt i)
  | .vec _ .signed size => .ok (.vec .signed size)
  | .vec _ .unsigned size => .ok (.vec .unsigned size)
  | .vec _ .plain size => .ok (.vec .plain size)
  | .bit _ => .ok .bit
  | .other i => .ok (.other i)
  | .modified _ _ => .error .typeError
  | .tuple _ => .error .typeError

mutual
/-- `magmafy` (peak/family.py:396-415). -/
def magmafy : PT → Except Err MT
  | .tuple l => match magmafyAll l with
    | .error e => .error e
    | .ok r => .ok (.tuple r)
  | .modified m t => magmafyCls (strip (.modified m t))
  | .adt i => magmafyCls (strip (.adt i))
  | .vec f s n => magmafyCls (strip (.vec f s n))
  | .bit f => magmafyCls (strip (.bit f))
  | .other i => magmafyCls (strip (.other i))
/-- `tuple(magmafy(t__) for t__ in t_)` (peak/family.py:398). -/
def magmafyAll : List PT → Except Err (List MT)
  | [] => .ok []
  | t :: l => match magmafy t with
    | .error e => .error e
    | .ok r => match magmafyAll l with
      | .error e => .error e
      | .ok rs => .ok (r :: rs)
end

/-- A constant in place of a type: a vector or a bit (peak/auto_assembler.py:177-178, 181-182). -/
inductive CV
  | bv (size val : Nat)
  | bit (b : Bool)
  deriving DecidableEq, Repr

/-- `inst != isa` (peak/auto_assembler.py:159, 163): vectors of different sizes raise InconsistentSizeError, a TypeError; a vector and a
bit are never compared here (simplification). -/
def cvNe : CV → CV → Except Err Bool
  | .bv s v, .bv s' v' => if s = s' then .ok (v != v') else .error .typeError
  | .bit b, .bit b' => .ok (b != b')
  | _, _ => .error .typeError

/-- What the generated functions return: the value, or, since line 160 and 164 say `return` and not `raise`, an exception object
(peak/auto_assembler.py:158-165). -/
inductive Ret
  | val (c : CV)
  | exc (e : Err)
  deriving DecidableEq, Repr

/-- The result of `generate_assembler` on a constant (peak/auto_assembler.py:156-166). -/
structure ConstObj where
  asm : CV → Except Err Ret
  dsm : CV → Except Err Ret
  width : Nat

/-- `get_width` of a constant (peak/auto_assembler.py:36-39). -/
def constWidth : CV → Nat
  | .bv s _ => s
  | .bit _ => 1

/-- `_bv_const` (peak/auto_assembler.py:156-166). -/
def bvConst (isa : CV) : ConstObj where
  asm inst := match cvNe inst isa with
    | .error e => .error e
    | .ok true => .ok (.exc .valueError)
    | .ok false => .ok (.val inst)
  dsm opcode := match cvNe opcode isa with
    | .error e => .error e
    | .ok true => .ok (.exc .valueError)
    | .ok false => .ok (.val opcode)
  width := constWidth isa

end Peak.Conv
