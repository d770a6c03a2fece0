import Verif.Model.PE1Asm
/-!
# What the names of the builders of examples/pe1/asm.py say
-/

namespace Peak.PE1.Asm

/-- The value of the 16-bit result, as an integer to be taken modulo `2^16`. -/
abbrev Value := (a b : Data) → (d : Bool) → Int

/-- Builders whose result does not depend on whether `Signed.unsigned` counts as true. -/
def results : List (Inst × Value) := [
  (add .BYPASS .BYPASS, fun a b _ => a.toNat + b.toNat),
  (sub, fun a b _ => a.toNat - b.toNat),
  (umult0, fun a b _ => a.toNat * b.toNat),
  (smult0, fun a b _ => a.toInt * b.toInt),
  (smult1, fun a b _ => a.toInt * b.toInt / 256),
  (smult2, fun a b _ => a.toInt * b.toInt / 65536),
  (and_ .BYPASS .BYPASS, fun a b _ => (a.toNat &&& b.toNat : Nat)),
  (or_ .BYPASS .BYPASS, fun a b _ => (a.toNat ||| b.toNat : Nat)),
  (xor .BYPASS .BYPASS, fun a b _ => (a.toNat ^^^ b.toNat : Nat)),
  (lsl, fun a b _ => a.toNat * 2 ^ (b.toNat % 16)),
  (asr, fun a b _ => a.toInt / 2 ^ (b.toNat % 16)),
  (sel, fun a b d => if d then a.toNat else b.toNat),
  (abs, fun a _ _ => if a.toInt < 0 then -a.toInt else a.toInt),
  (smin, fun a b _ => if a.toInt ≤ b.toInt then a.toInt else b.toInt),
  (smax, fun a b _ => if a.toInt ≤ b.toInt then b.toInt else a.toInt)]

/-- Builders whose result does. -/
def unsignedResults : List (Inst × Value) := [
  (umult1, fun a b _ => (a.toNat * b.toNat / 256 : Nat)),
  (umult2, fun a b _ => (a.toNat * b.toNat / 65536 : Nat)),
  (lsr, fun a b _ => (a.toNat / 2 ^ (b.toNat % 16) : Nat)),
  (umin, fun a b _ => if a.toNat ≤ b.toNat then a.toNat else b.toNat),
  (umax, fun a b _ => if a.toNat ≤ b.toNat then b.toNat else a.toNat)]

/-- Comparisons: the 1-bit result. -/
def comparisons : List (Inst × ((a b : Data) → Prop)) := [
  (eq, fun a b => a = b), (ne, fun a b => a ≠ b),
  (ult, fun a b => a.toNat < b.toNat), (ule, fun a b => a.toNat ≤ b.toNat), (ugt, fun a b => b.toNat < a.toNat), (uge, fun a b => b.toNat ≤ a.toNat),
  (slt, fun a b => a.toInt < b.toInt), (sle, fun a b => a.toInt ≤ b.toInt), (sgt, fun a b => b.toInt < a.toInt), (sge, fun a b => b.toInt ≤ a.toInt)]

end Peak.PE1.Asm
