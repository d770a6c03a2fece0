import Verif.Model.RtlUtils
/-!
# What a port receives
-/

namespace Peak.Rtl

/-- Bit `i` on side `s` is driven once, by bit `j` of the other side. -/
def DrivenBy (ws : List Wire) (s : Side) (i j : Nat) : Prop :=
  ∃ w ∈ ws, w.dst = s ∧ w.dstBit = i ∧ w.src ≠ s ∧ w.srcBit = j ∧ ∀ w' ∈ ws, w'.dst = s → w'.dstBit = i → w' = w

/-- Side `s` of the port has `n` bits, each driven by the bit of the same number on the other side, and nothing else is connected. -/
def Straight (ws : List Wire) (s : Side) (n : Nat) : Prop :=
  ws.Nodup ∧ (∀ i < n, DrivenBy ws s i i) ∧ ∀ w ∈ ws, w.dst = s ∧ w.dstBit < n

end Peak.Rtl
