import Verif.Model.Construct
/-!
# Calls that give every field its argument
-/

namespace Peak.Ctor

/-- `pos` and `kw` pass the arguments `as` to the parameters `names`: the first ones in order, the others by name in any order. -/
def Given {α : Type} (names : List Key) (as : List α) (pos : List α) (kw : List (Key × α)) : Prop :=
  ∃ n, n ≤ names.length ∧ pos = as.take n ∧ kw.Perm ((names.zip as).drop n)

/-- The argument stands for the bit `b`: a bit or a vector of one bit, plain or of the family. -/
def OneBit (a : Arg) (b : Bool) : Prop :=
  a = .raw (.bit b) ∨ a = .asm (.bit b) ∨ a = .raw (.bits (BV.ofNat 1 b.toNat)) ∨ a = .asm (.bits (BV.ofNat 1 b.toNat))

end Peak.Ctor
