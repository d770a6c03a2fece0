import Verif.Model.BasicPe
import Verif.Spec.Verify
/-!
# What the architecture of `tests/test_basic_rr.py` computes, and which functions it can compute
-/

namespace Peak.BPe
open Peak Peak.Spec

/-- The first output, from the instruction and the words in the registers. -/
def res : RVal → Word → Word → Word
  | .sum 1 (.prod [.leaf op, _, _, _]), a, b => if op == 2 then a * b else a + b
  | .sum 0 (.prod [.leaf op, _, _, _, .leaf imm]), a, _ => if op == 3 then .ofNat 8 imm else a + .ofNat 8 imm
  | _, _, _ => 0

/-- The architecture on raw inputs. -/
def peFn : Fn Nat := fun r _ => match r with
  | .prod [inst, .leaf a, .leaf b] => (.prod [.leaf (res inst (.ofNat 8 a) (.ofNat 8 b)).toNat, .leaf (BitVec.ofNat 8 a).toNat], [])
  | r => (r, [])

/-- The data inputs. -/
def dIn : Fields := .cons 1 wordT (.cons 2 wordT .nil)

/-- The word number `i`. -/
def at' (xs : List Word) (i : Nat) : Word := xs[i]?.getD 0

/-- Word number `i` of `n` is not the constant. -/
def IsData (const : Bool) (n i : Nat) : Prop := (if const then 1 else 0) ≤ i ∧ i < n

/-- The functions of `n` words, of which the first is `Const` if `const`, that one instruction computes.  At most two words are not `Const`; the function is
- a fixed word, or a word that is not `Const` plus a fixed word,
- the sum or the product of two words, none of them `Const`,
- the constant, or a word that is not `Const` plus the constant. -/
def Fits (const : Bool) (n : Nat) (f : List Word → Word) : Prop :=
  n ≤ (if const then 3 else 2) ∧
    ((∃ k, ∀ xs, xs.length = n → f xs = k) ∨
     (∃ i k, IsData const n i ∧ ∀ xs, xs.length = n → f xs = at' xs i + k) ∨
     (const = false ∧ n = 2 ∧ ((∀ x y, f [x, y] = x + y) ∨ ∀ x y, f [x, y] = x * y)) ∨
     (const = true ∧ ((∀ xs, xs.length = n → f xs = at' xs 0) ∨ ∃ i, IsData const n i ∧ ∀ xs, xs.length = n → f xs = at' xs i + at' xs 0)))

/-- The function of `n` words depends on the first. -/
def Uses (n : Nat) (f : List Word → Word) : Prop := ∃ c c' xs, xs.length + 1 = n ∧ f (c :: xs) ≠ f (c' :: xs)

end Peak.BPe
