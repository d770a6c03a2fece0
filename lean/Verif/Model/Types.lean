import Verif.Model.Basic
/-!
# The types and values an assembler works on (hwtypes ADTs)

hwtypes itself is not in /repo; this is the input language of `peak/assembler/assembler.py:22-38`.
-/

namespace Peak

/-- A field name, tuple position, union option name or (for `Sum`) option class, coded by a number (hwtypes; assembler.py:20). -/
abbrev Key := Nat

/-- `_value_` of an enum member: an int, or an `Enum.Auto()` object (compared by identity) (hwtypes; assembler.py:110-119). -/
inductive EVal
  | lit (v : Int)
  | auto (id : Nat)
  deriving DecidableEq, Repr

mutual
/-- The types dispatched on in `Assembler.__init__` (assembler.py:22-38).  `cls` is class identity:
two Python classes are the same object iff the model types are equal.
* `prod` stands for `Tuple` and `Product` (same code path);
* `sum` stands for `Sum` (keys are the option classes) and `TaggedUnion` (keys are the option names).
  Its options are stored in the order of `sorted(..., key=repr)`; see `Ty.mkSum`. -/
inductive Ty
  | bv (cls w : Nat)
  | bit (cls : Nat)
  | enum (cls : Nat) (members : List EVal)
  | prod (cls : Nat) (fs : Fields)
  | sum (cls : Nat) (fs : Fields)
/-- The items of `field_dict`, in order (hwtypes; used at assembler.py:22-38). -/
inductive Fields
  | nil
  | cons (k : Key) (t : Ty) (rest : Fields)
end

deriving instance DecidableEq for Ty, Fields

/-- `list(field_dict.items())` (hwtypes; used at assembler.py:22-38). -/
def Fields.toList : Fields → List (Key × Ty)
  | .nil => []
  | .cons k t fs => (k, t) :: fs.toList

/-- The `field_dict` with the given items (hwtypes; assembler.py:191-194). -/
def Fields.ofList : List (Key × Ty) → Fields
  | [] => .nil
  | (k, t) :: l => .cons k t (Fields.ofList l)

/-- One step of a stable insertion sort by the first component (Python's `sorted`; assembler.py:191-194). -/
def insertByRepr (x : Nat × Key × Ty) : List (Nat × Key × Ty) → List (Nat × Key × Ty)
  | [] => [x]
  | y :: l => if x.1 ≤ y.1 then x :: y :: l else y :: insertByRepr x l

/-- assembler.py:191-194 `sorted(isa.field_dict.items(), key=repr)`: a stable sort.  The `repr` string of
each item is abstracted to a number (its rank in string order). -/
def sortByRepr : List (Nat × Key × Ty) → List (Nat × Key × Ty)
  | [] => []
  | x :: l => insertByRepr x (sortByRepr l)

/-- A union type declared with the given options (each with the rank of its `repr`), normalised to the
order `_sum` iterates in (assembler.py:191-194). -/
def Ty.mkSum (cls : Nat) (opts : List (Nat × Key × Ty)) : Ty :=
  .sum cls (Fields.ofList ((sortByRepr opts).map (·.2)))

/-- Values of ADT types.  A product value lists its field values in `field_dict` order; a union value
is the single non-`None` item of its `value_dict` (hwtypes; the argument of assembler.py:53-58). -/
inductive Val
  | bits (b : BV)
  | bit (b : Bool)
  | enum (e : EVal)
  | prod (vs : List Val)
  | sum (k : Key) (v : Val)

mutual
/-- `isinstance(v, T)`: `v` is a value of the type (hwtypes; the annotation of assembler.py:53-55). -/
def Ty.Has : Ty → Val → Prop
  | .bv _ w, .bits b => b.size = w
  | .bit _, .bit _ => True
  | .enum _ ms, .enum e => e ∈ ms
  | .prod _ fs, .prod vs => fs.HasAll vs
  | .sum _ fs, .sum k v => fs.HasAt k v
  | _, _ => False
/-- the values of a product: one value of each field type, in order (hwtypes; the annotation of assembler.py:53-55) -/
def Fields.HasAll : Fields → List Val → Prop
  | .nil, [] => True
  | .cons _ t fs, v :: vs => t.Has v ∧ fs.HasAll vs
  | _, _ => False
/-- the values of a union: an option key with a value of that option's type (hwtypes; the annotation of assembler.py:53-55) -/
def Fields.HasAt : Fields → Key → Val → Prop
  | .nil, _, _ => False
  | .cons k' t fs, k, v => (k = k' ∧ t.Has v) ∨ fs.HasAt k v
end

end Peak
