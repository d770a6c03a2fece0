import Verif.Model.FrontEnd
/-! # What it means that an input is `Const`, and that a closure returns one Peak class -/

namespace Peak.FE

/-- On the way from the type `t` down the path `p` some type is wrapped in the modifier `m`. -/
inductive Under (m : Mod) : MTy → RPath → Prop
  | here (t : MTy) (p : RPath) : Under m (.mod m t) p
  | mod (m' : Mod) (t : MTy) (p : RPath) : Under m t p → Under m (.mod m' t) p
  | prod (c : Nat) (fs : MFields) (k : Key) (t : MTy) (p : RPath) : (k, t) ∈ fs.toList → Under m t p → Under m (.prod c fs) (k :: p)
  | sum (c : Nat) (fs : MFields) (k : Key) (t : MTy) (p : RPath) : (k, t) ∈ fs.toList → Under m t p → Under m (.sum c fs) (k :: p)

/-- `p` leads from `t` to a part of type `u` that has no parts: a bit vector, a bit or an enum. -/
inductive LeafAt : MTy → RPath → Ty → Prop
  | bv (c w : Nat) : LeafAt (.bv c w) [] (.bv c w)
  | bit (c : Nat) : LeafAt (.bit c) [] (.bit c)
  | enum (c : Nat) (ms : List EVal) : LeafAt (.enum c ms) [] (.enum c ms)
  | mod (m : Mod) (t : MTy) (p : RPath) (u : Ty) : LeafAt t p u → LeafAt (.mod m t) p u
  | prod (c : Nat) (fs : MFields) (k : Key) (t : MTy) (p : RPath) (u : Ty) : (k, t) ∈ fs.toList → LeafAt t p u → LeafAt (.prod c fs) (k :: p) u
  | sum (c : Nat) (fs : MFields) (k : Key) (t : MTy) (p : RPath) (u : Ty) : (k, t) ∈ fs.toList → LeafAt t p u → LeafAt (.sum c fs) (k :: p) u

mutual
/-- The names of the fields of a product or union are distinct, at every level. -/
def MTy.Names : MTy → Prop
  | .mod _ t => t.Names
  | .prod _ fs => (fs.toList.map (·.1)).Nodup ∧ fs.Names
  | .sum _ fs => (fs.toList.map (·.1)).Nodup ∧ fs.Names
  | _ => True
/-- As `MTy.Names`, for each of the fields. -/
def MFields.Names : MFields → Prop
  | .nil => True
  | .cons _ t fs => t.Names ∧ fs.Names
end

mutual
/-- `m` is the type `t` written with modifiers, any number of them at any of its parts. -/
inductive Wraps : Ty → MTy → Prop
  | mod (t : Ty) (a : Mod) (m : MTy) : Wraps t m → Wraps t (.mod a m)
  | bv (c w : Nat) : Wraps (.bv c w) (.bv c w)
  | bit (c : Nat) : Wraps (.bit c) (.bit c)
  | enum (c : Nat) (ms : List EVal) : Wraps (.enum c ms) (.enum c ms)
  | prod (c : Nat) (fs : Fields) (ms : MFields) : WrapsF fs ms → Wraps (.prod c fs) (.prod c ms)
  | sum (c : Nat) (fs : Fields) (ms : MFields) : WrapsF fs ms → Wraps (.sum c fs) (.sum c ms)
/-- As `Wraps`, field by field, under the same names. -/
inductive WrapsF : Fields → MFields → Prop
  | nil : WrapsF .nil .nil
  | cons (k : Key) (t : Ty) (m : MTy) (fs : Fields) (ms : MFields) : Wraps t m → WrapsF fs ms → WrapsF (.cons k t fs) (.cons k m ms)
end

/-- Among the objects is one Peak class, `c`, and no second one. -/
def OnlyPeak (l : List Obj) (c : Nat) (types : Bool) : Prop :=
  ∃ a b, l = a ++ .peak c types :: b ∧ ∀ i u, Obj.peak i u ∉ a ∧ Obj.peak i u ∉ b

end Peak.FE
