import Verif.Model.Pdp8Asm
import Verif.Spec.Pdp8
/-!
# What the comments of examples/pdp8/asm.py say, in integers
-/

namespace Peak.Pdp8.Asm

/-- The builders of group 1 without keywords, and the new accumulator and link for the old `a` and `l`. -/
def effects : List (Except Err Inst × (Nat → Nat → Nat × Nat)) := [
  (nop, fun a l => (a, l)),
  (cla [], fun _ l => (0, l)),                                                    -- clear accumulator
  (cma [], fun a l => (4095 - a, l)),                                             -- complement accumulator
  (sta, fun _ l => (4095, l)),                                                    -- acc=-1
  (cll [], fun a _ => (a, 0)),                                                    -- lnk=0
  (cml [], fun a l => (a, 1 - l)),                                                -- lnk = ~lnk
  (stl, fun a _ => (a, 1)),                                                       -- lnk=1
  (iac [], fun a l => ((a + 1) % 4096, l)),                                       -- acc++
  (rar [], fun a l => (a / 2 + 2048 * l, a % 2)),                                 -- rotate acc and lnk right
  (rtr [], fun a l => (a / 4 + 1024 * l + 2048 * (a % 2), a / 2 % 2)),            -- twice
  (lsr, fun a _ => (a / 2, a % 2)),                                               -- logical shift right
  (ral [], fun a l => (2 * a % 4096 + l, a / 2048)),                              -- rotate acc and lnk left
  (rtl [], fun a l => (4 * a % 4096 + 2 * l + a / 2048, a / 1024 % 2)),           -- twice
  (lsl, fun a _ => (2 * a % 4096, a / 2048)),                                     -- logical shift left
  (cia [], fun a l => ((4096 - a) % 4096, l))]                                    -- negate

/-- The tests of the accumulator, and when the next instruction is skipped. -/
def accSkips : List (Except Err Inst × (Nat → Prop)) := [
  (sza [], fun a => a = 0), (sna [], fun a => a ≠ 0), (sma [], fun a => 2048 ≤ a), (spa [], fun a => a < 2048), (skp, fun _ => True)]

/-- The tests of the link. -/
def lnkSkips : List (Except Err Inst × (Nat → Prop)) := [(szl [], fun l => l = 0), (snl [], fun l => l ≠ 0)]

/-- A running machine at an instruction: its place, and the width of the program counter. -/
structure Before (s : St) (i : Inst) (w n : Nat) : Prop where
  running : s.running = true
  pc : s.pc = .bv w n
  code : s.mem[n]? = some (.inst i)

/-- The location a reference is about: `addr` itself, or the one whose number is stored there. -/
def Refers (s : St) (addr : Int) (indirect : Bool) (t : Nat) : Prop :=
  match indirect with
  | false => t = addr.toNat
  | true => s.mem[addr.toNat]? = some (.bv 12 t)

end Peak.Pdp8.Asm
