import Verif.Props.Bitfield
/-!
# The words of Pico instructions (examples/pico/isa.py, peak/bitfield.py, tests/test_pico_encode.py)
-/

namespace Peak.Pico

/-- The classes of examples/pico/isa.py: 0 is `Inst`, 1 `Logic`, 2 `Arith`, 3 `Memory`, 4 `Control`, 5 `Word`, 10 `RegA`, 11 `RegB`, 12 `Imm`, 13 `Cond`;
the products have no shift. -/
def bf : BfEnv where
  off c := if c = 0 then 14 else if 1 ≤ c ∧ c ≤ 4 then 12 else if c = 10 then 8 else if c = 11 then 4 else if c = 13 then 8 else 0
  tags _ := none

/-- `Mov`, … (isa.py:57-71) -/
def aluT (c : Nat) : Ty := .prod c (.cons 0 (.bv 10 4) (.cons 1 (.bv 11 4) .nil))
/-- `LDLO`, … (93-107) -/
def memT (c : Nat) : Ty := .prod c (.cons 0 (.bv 10 4) (.cons 1 (.bv 12 8) .nil))
/-- `Cond` (36-55), the aliases are not members -/
def condT : Ty := .enum 13 ((List.range 16).map (fun i => .lit i))
/-- `Jump`, … (113-124) -/
def ctrlT (c : Nat) : Ty := .prod c (.cons 0 (.bv 12 8) (.cons 1 condT .nil))

/-- `Inst` (130-131), options in the order they are written -/
def instT : Ty := .sum 0
  (.cons 0 (.sum 1 (.cons 0 (aluT 20) (.cons 1 (aluT 21) (.cons 2 (aluT 22) (.cons 3 (aluT 23) .nil)))))
  (.cons 1 (.sum 2 (.cons 0 (aluT 24) (.cons 1 (aluT 25) (.cons 2 (aluT 26) (.cons 3 (aluT 27) .nil)))))
  (.cons 2 (.sum 3 (.cons 0 (memT 28) (.cons 1 (memT 29) (.cons 2 (memT 30) (.cons 3 (memT 31) .nil)))))
  (.cons 3 (.sum 4 (.cons 0 (ctrlT 32) (.cons 1 (ctrlT 33) (.cons 2 (ctrlT 34) .nil))))
  (.cons 4 (.bv 5 16) .nil)))))

/-- `Inst(Logic(op(RegA(a), RegB(b))))`, `op` one of four. -/
def logicV (op : Nat) (a b : Nat) : Val := .sum 0 (.sum op (.prod [.bits (BV.ofNat 4 a), .bits (BV.ofNat 4 b)]))

theorem alu_swap (a b c : Nat) : bfEncode bf false (aluT c) (.prod [.bits (BV.ofNat 4 a), .bits (BV.ofNat 4 b)]) =
    bfEncode bf false (aluT c) (.prod [.bits (BV.ofNat 4 b), .bits (BV.ofNat 4 a)]) := by
  simp [aluT, bfEncode, bfLeft, bfSize, bf, ← Nat.shiftLeft_add, Nat.or_comm]

/-- The first and the second register of an ALU instruction are put in the same bits: swapping them gives the same word, for all registers and
instructions. -/
theorem C21_violated_pico (op a b : Nat) : bfEncode bf false instT (logicV op a b) = bfEncode bf false instT (logicV op b a) := by
  simp only [instT, logicV, bfEncode, bfOption, if_true, alu_swap a b]

/-- `mov r1, r2` and `mov r2, r1` are different instructions with a word. -/
example : instT.Has (logicV 0 1 2) ∧ instT.Has (logicV 0 2 1) ∧ logicV 0 1 2 ≠ logicV 0 2 1 ∧
    (bfEncode bf false instT (logicV 0 1 2)).toOption.isSome := by
  refine ⟨by simp [instT, logicV, aluT, Ty.Has, Fields.HasAll, Fields.HasAt], by simp [instT, logicV, aluT, Ty.Has, Fields.HasAll, Fields.HasAt], ?_, by decide +kernel⟩
  simp [logicV]; decide

/-- `encode(asm.jmp(0))` is not the documented word `0xcf00` (test_pico_encode.py:16-19, skipped). -/
theorem C21_violated_pico_jmp : bfEncode bf false instT (.sum 3 (.sum 0 (.prod [.bits (BV.ofNat 8 0), .enum (.lit 15)]))) ≠ .ok 0xcf00 ∧
    ∃ n, bfEncode bf false instT (.sum 3 (.sum 0 (.prod [.bits (BV.ofNat 8 0), .enum (.lit 15)]))) = .ok n ∧ 2 ^ 16 ≤ n := by
  have h : (bfEncode bf false instT (.sum 3 (.sum 0 (.prod [.bits (BV.ofNat 8 0), .enum (.lit 15)])))).toOption.map (fun n => decide (2 ^ 16 ≤ n)) = some true := by
    decide +kernel
  cases e : bfEncode bf false instT (.sum 3 (.sum 0 (.prod [.bits (BV.ofNat 8 0), .enum (.lit 15)]))) with
  | error _ => rw [e] at h; cases h
  | ok n =>
    rw [e] at h
    simp [Except.toOption] at h
    refine ⟨?_, n, rfl, h⟩
    intro e'
    cases e'
    omega

end Peak.Pico
