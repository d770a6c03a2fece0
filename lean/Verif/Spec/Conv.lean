import Verif.Model.Conv
/-!
# Specification for C82, C83 and the constants of C20

What a value is apart from its family (a vector of so many bits with this number, or a bit), and what shape a port has.
-/

namespace Peak.Conv
open Peak

/-- The number a value holds, apart from its family and class: `none` for what is not a constant vector or bit. -/
def HVal.meaning : HVal → Option (Nat × Nat ⊕ Bool)
  | .pyBv _ size n => some (.inl (size, n))
  | .pyBit b => some (.inr b)
  | .smtBv _ size (.const n) => some (.inl (size, n))
  | .smtBit (.const b) => some (.inr b)
  | _ => none

/-- The family of a value, and that it is a plain vector or a bit. -/
def HVal.PlainOf (f : Fam) : HVal → Prop
  | .pyBv s _ _ => f = .py ∧ s = .plain
  | .pyBit _ => f = .py
  | .smtBv s _ _ => f = .smt ∧ s = .plain
  | .smtBit _ => f = .smt
  | _ => False

/-- Vectors hold numbers that fit. -/
def HVal.Fits : HVal → Prop
  | .pyBv _ size n => n < 2 ^ size
  | .smtBv _ size (.const n) => n < 2 ^ size
  | _ => True

/-- What rebinding did to one line of a binding: paths and `Unbound` stay, values keep their number, the path on the right keeps
everything but the family of a vector type in its last place. -/
def LineOk (f : Fam) (x y : Lhs × List Elem) : Prop :=
  (match x.1 with
    | .path p => y.1 = .path p
    | .unbound => y.1 = .unbound
    | .val v => ∃ v', y.1 = .val v' ∧ v.meaning ≠ none ∧ (v.Fits → v'.meaning = v.meaning) ∧ v'.PlainOf f) ∧
  ∃ q e e', x.2 = q ++ [e] ∧ y.2 = q ++ [e'] ∧
    (∀ f₀ s n, e = .vec f₀ s n → e' = .vec f s n) ∧ ((∀ f₀ s n, e ≠ .vec f₀ s n) → e' = e)

/-- What a port is: an algebraic type, a vector of a signedness and a width, a bit, another class, or a tuple of ports. -/
inductive Shape
  | adt (id : Nat)
  | vec (s : Sign) (size : Nat)
  | bit
  | other (id : Nat)
  | tuple (l : List Shape)

/-- `t` annotates a port of shape `s`, whatever family its vectors are of and whatever modifiers stand around it. -/
inductive PT.Is : PT → Shape → Prop
  | adt (i) : PT.Is (.adt i) (.adt i)
  | vec (f s n) : PT.Is (.vec f s n) (.vec s n)
  | bit (f) : PT.Is (.bit f) .bit
  | other (i) : PT.Is (.other i) (.other i)
  | modified (m t s) : PT.Is t s → (∀ l, s ≠ .tuple l) → PT.Is (.modified m t) s
  | nil : PT.Is (.tuple []) (.tuple [])
  | cons (t s ts ss) : PT.Is t s → PT.Is (.tuple ts) (.tuple ss) → PT.Is (.tuple (t :: ts)) (.tuple (s :: ss))

mutual
/-- The shape of a port type of the circuit. -/
def MT.shape : MT → Shape
  | .tuple l => .tuple (MT.shapes l)
  | .aadt i => .adt i
  | .vec s n => .vec s n
  | .bit => .bit
  | .other i => .other i
/-- The shapes of a tuple of port types. -/
def MT.shapes : List MT → List Shape
  | [] => []
  | t :: l => t.shape :: MT.shapes l
end

end Peak.Conv
