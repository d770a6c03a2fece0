import Verif.Spec.IRMapper
/-!
# Conditions of the theorems about `simple_formula=True`
-/

namespace Peak.Spec
open Peak

/-- On arguments holding any bits, the object gives every black box inputs of its class's widths. -/
def TotalBoxes {B K : Type} [DecidableEq B] (obj : PeakObj B K) (inW : K → List Nat) : Prop :=
  ∀ ci fi, obj.inT = .prod ci fi → ∀ d bb, IsArgs fi d → (obj.run d bb).2.map (·.1) = obj.bbs.map (·.1) ∧
    ∀ b k, (b, k) ∈ obj.bbs → ∃ i, (obj.run d bb).2.lookup b = some i ∧ i.map BV.size = inW k

/-- The leaves of the type are its fields: no field is a product. -/
def Flat (t : Ty) : Prop := ∀ p u, (p, u) ∈ leafTypes t [] → ∃ k, p = [k]

/-- Two entries of input bindings that differ at most in a constant. -/
def SameButConst (e e' : RSrc × RPath) : Prop := e'.2 = e.2 ∧ (e'.1 = e.1 ∨ ∃ c c', e.1 = .const c ∧ e'.1 = .const c')

/-- Two entries of input bindings of the type `T` that are the same, except perhaps for the constant of a leaf in `X`; then the constant of the first is a value of the leaf's type. -/
def SameButAt (T : Ty) (X : RPath → Prop) (e e' : RSrc × RPath) : Prop :=
  e'.2 = e.2 ∧ (e'.1 = e.1 ∨ X e.2 ∧ ∃ c c' t n, e.1 = .const c ∧ e'.1 = .const c' ∧ (e.2, t) ∈ leafTypes T [] ∧ n < 2 ^ width t ∧ ConstIs c t n)

/-- A `Const` leaf of the architecture could be given a `Const` leaf of the IR instruction: they have the same type. -/
def CouldHold {B K : Type} (pb : MapPb B K) (p : RPath) : Prop :=
  IsConst pb.archConst p ∧ ∃ q t, IsConst pb.irConst q ∧ (q, t) ∈ leafTypes pb.ir.inT [] ∧ (p, t) ∈ leafTypes pb.arch.inT []

/-- `e'` is the entry `e`, where a constant for a leaf in `X` is replaced by the value `w` gives to the leaf. -/
def Replaced {B K : Type} (pb : MapPb B K) (X : RPath → Prop) (w : RPath → Nat) (e e' : RSrc × RPath) : Prop :=
  e'.2 = e.2 ∧ (((¬ X e.2 ∨ ∀ c, e.1 ≠ .const c) ∧ e'.1 = e.1) ∨
    (X e.2 ∧ (∃ c, e.1 = .const c) ∧ ∃ c t, e'.1 = .const c ∧ (e.2, t) ∈ leafTypes pb.arch.inT [] ∧ ConstIs c t (w e.2 % 2 ^ width t)))

end Peak.Spec
