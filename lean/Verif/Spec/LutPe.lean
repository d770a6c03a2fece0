import Verif.Model.LutPe
/-!
# What the PE of `examples/PE_lut` computes
-/

namespace Peak.LPe

/-- The word, as a number below `2 ^ w`, from the operands. -/
def goldWord (w : Nat) : Op → (imm d0 d1 : Nat) → (b0 : Bool) → Nat
  | .imm, imm, _, _, _ => imm
  | .add, _, d0, d1, _ => (d0 + d1) % 2 ^ w
  | .mux, _, d0, d1, b0 => if b0 then d0 else d1

/-- The bit: entry number `b2 b1 b0` of the table. -/
def goldBit (lut : Nat) (b0 b1 b2 : Bool) : Bool := lut.testBit (b0.toNat + 2 * b1.toNat + 4 * b2.toNat)

/-- The words the PE can compute from `n` words and `m` bits: a constant, the sum of two words, or one of two words chosen by a bit. -/
def WordOk {w : Nat} (n m : Nat) (g : List (BitVec w) → List Bool → BitVec w) : Prop :=
  (∃ c, ∀ xs bs, xs.length = n → bs.length = m → g xs bs = c) ∨
  (n = 2 ∧ ∀ x y bs, bs.length = m → g [x, y] bs = x + y) ∨
  (n = 2 ∧ ∃ i < m, (∀ x y bs, bs.length = m → g [x, y] bs = if bs[i]?.getD false then x else y) ∨ (∀ x y bs, bs.length = m → g [x, y] bs = if bs[i]?.getD false then y else x))

/-- The bits the PE can compute: those that do not depend on the words. -/
def BitOk {w : Nat} (n m : Nat) (g : List (BitVec w) → List Bool → Bool) : Prop :=
  ∃ h : List Bool → Bool, ∀ xs bs, xs.length = n → bs.length = m → g xs bs = h bs

/-- The instructions the PE can compute: at most two words and three bits, and outputs as above. -/
def Fits {w : Nat} (n m : Nat) (o : Outs) (f : List (BitVec w) → List Bool → BitVec w × Bool) : Prop :=
  n ≤ 2 ∧ m ≤ 3 ∧ match o with
    | .word => WordOk n m (fun xs bs => (f xs bs).1)
    | .bit => BitOk n m (fun xs bs => (f xs bs).2)
    | .both => WordOk n m (fun xs bs => (f xs bs).1) ∧ BitOk n m (fun xs bs => (f xs bs).2)

end Peak.LPe
