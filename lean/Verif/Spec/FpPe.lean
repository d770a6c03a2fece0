import Verif.Model.FpPe
/-!
# What the PE of `examples/fp_pe` can compute
-/

namespace Peak.FPe

/-- The operations of the ALU. -/
inductive AOp | add | sub | or | and | xor
  deriving DecidableEq

def AOp.eval : AOp → Word → Word → Word
  | .add, x, y => x + y
  | .sub, x, y => x - y
  | .or, x, y => x ||| y
  | .and, x, y => x &&& y
  | .xor, x, y => x ^^^ y

/-- The pairs of operands the PE can be given: two of two words, in either order; or one of at most two words, and a constant. -/
def Operands (n : Nat) (a b : List Word → Word) : Prop :=
  (n = 2 ∧ ∀ x y, a [x, y] = x ∧ b [x, y] = y) ∨
  (n = 2 ∧ ∀ x y, a [x, y] = y ∧ b [x, y] = x) ∨
  (n ≤ 2 ∧ ∃ i < n, ∃ c, ∀ xs, xs.length = n → xs[i]? = some (a xs) ∧ b xs = c)

/-- The instructions the PE can compute: an operation of the ALU on operands, where a black box, if there is one, does not matter; or what a black box computes that the PE has too, on the operands. -/
def Fits (n : Nat) (box : Option (Cls × (List Word → List Word))) (g : List Word → Word → Word) : Prop :=
  (∃ op a b, Operands n a b ∧ ∀ xs y, xs.length = n → (box = none → y = 0) → g xs y = AOp.eval op (a xs) (b xs)) ∨
  (∃ k h, box = some (k, h) ∧ (∀ xs y, xs.length = n → g xs y = y) ∧
    ((k = .add ∨ k = .mul) ∧ (∃ a b, Operands n a b ∧ ∀ xs, xs.length = n → h xs = [a xs, b xs]) ∨
      k = .sqrt ∧ n ≤ 2 ∧ ∃ i < n, ∀ xs, xs.length = n → ∃ x, xs[i]? = some x ∧ h xs = [x]))

end Peak.FPe
