import Verif.Model.DemoPe
import Verif.Props.PE1
/-!
# C71: the PEs of examples/demo_pes and the ALU of examples/alu
-/

namespace Peak.Demo
open Peak.PE1 (Data adc adc_toNat)

theorem foldl_or (l : List Bool) (b : Bool) : l.foldl (· || ·) b = (b || l.any id) := by
  induction l generalizing b with
  | nil => simp
  | cons x l ih => rw [List.foldl_cons, ih, List.any_cons, Bool.or_assoc]; rfl

theorem isZero_eq (res : Data) : isZero res = decide (res = 0) := by
  rw [isZero, foldl_or, Bool.false_or, Bool.eq_iff_iff, Bool.not_eq_true', List.any_eq_false, decide_eq_true_iff]
  constructor
  · intro h
    apply BitVec.eq_of_getLsbD_eq
    intro i hi
    have := h (res.getLsbD i) (List.mem_map.mpr ⟨i, List.mem_range.mpr hi, rfl⟩)
    simpa using this
  · rintro rfl x hx
    obtain ⟨i, _, rfl⟩ := List.mem_map.mp hx
    simp

theorem adc_val (a b : Data) (c : Bool) : adc a b c = (BitVec.ofNat 16 (a.toNat + b.toNat + c.toNat), decide (2 ^ 16 ≤ a.toNat + b.toNat + c.toNat)) := by
  obtain ⟨h1, h2⟩ := adc_toNat a b c
  refine Prod.ext ?_ h2
  apply BitVec.eq_of_toNat_eq
  rw [h1, BitVec.toNat_ofNat]

/-- Specification of the result of the four operations with carry-in `c`, on numbers. -/
def resSpec (op : AluInst) (a b : Data) (c : Bool) : Data :=
  match op with
  | .Add => BitVec.ofNat 16 (a.toNat + b.toNat + c.toNat)
  | .And => a &&& b
  | .Xor => a ^^^ b
  | .Shft => BitVec.ofNat 16 (a.toNat * 2 ^ b.toNat)

/-- Specification of a flag: `C` is the carry out of an addition, `Z` says that the result is 0. -/
def flagSpec (op : AluInst) (flag : FlagInst) (a b : Data) (c : Bool) : Bool :=
  match flag with
  | .C => decide (op = .Add ∧ 2 ^ 16 ≤ a.toNat + b.toNat + c.toNat)
  | .Z => decide (resSpec op a b c = 0)

/-- The second operand. -/
def operand (inv : InverterInst) (b : Data) : Data := if inv = .Invert then BitVec.ofNat 16 (2 ^ 16 - 1 - b.toNat) else b

theorem operand_eq (inv : InverterInst) (b : Data) : inverter inv b = operand inv b := by
  cases inv
  · rfl
  · simp only [inverter, operand, if_true]
    apply BitVec.eq_of_toNat_eq
    rw [BitVec.toNat_not, BitVec.toNat_ofNat, Nat.mod_eq_of_lt]
    omega

theorem shl_eq (a b : Data) : a <<< b = BitVec.ofNat 16 (a.toNat * 2 ^ b.toNat) := by
  apply BitVec.eq_of_toNat_eq
  rw [BitVec.shiftLeft_eq', BitVec.toNat_shiftLeft, BitVec.toNat_ofNat, Nat.shiftLeft_eq]

theorem alu_eq (op : AluInst) (a b : Data) (c : Bool) : alu op a b c = (resSpec op a b c, flagSpec op .C a b c, flagSpec op .Z a b c) := by
  cases op <;> simp only [alu, resSpec, flagSpec, adc_val, isZero_eq, shl_eq, reduceCtorEq, true_and, false_and, decide_false] <;> congr

/-- C71, pe1: the result of the operation, and flag 0. -/
theorem C71_pe1 (op : AluInst) (a b : Data) : pe1 op a b = (resSpec op a b false, false) := by
  simp only [pe1, alu_eq]

/-- C71, pe2: the result and the flag asked for. -/
theorem C71_pe2 (op : AluInst) (flag : FlagInst) (a b : Data) : pe2 op flag a b = (resSpec op a b false, flagSpec op flag a b false) := by
  cases flag <;> simp only [pe2, alu_eq, flagMux]

/-- C71, pe3: the same with the second operand inverted or not. -/
theorem C71_pe3 (op : AluInst) (flag : FlagInst) (inv : InverterInst) (a b : Data) :
    pe3 op flag inv a b = (resSpec op a (operand inv b) false, flagSpec op flag a (operand inv b) false) := by
  cases flag <;> simp only [pe3, alu_eq, flagMux, operand_eq]

/-- C71, pe4: the same with a carry-in, but flag `C` is right only where there is no carry. -/
theorem C71_pe4_partial (op : AluInst) (flag : FlagInst) (inv : InverterInst) (bit : BitConstant) (a b : Data) :
    (pe4 op flag inv bit a b).1 = resSpec op a (operand inv b) (decide (bit = .One)) ∧
    ((pe4 op flag inv bit a b).2 = flagSpec op flag a (operand inv b) (decide (bit = .One)) ↔
      flag = .Z ∨ flagSpec op .C a (operand inv b) (decide (bit = .One)) = false) := by
  have hb : bit.bit = decide (bit = .One) := by cases bit <;> rfl
  have h4 : ∀ x y c, alu4 op x y c = ((alu op x y c).1, false, (alu op x y c).2.2) := by
    intro x y c; cases op <;> rfl
  simp only [pe4, operand_eq, hb, h4, alu_eq]
  refine ⟨trivial, ?_⟩
  cases flag
  · simp only [flagMux, reduceCtorEq, false_or]
    exact eq_comm
  · simp [flagMux]

/-- C71 is violated by pe4: flag `C` of an addition is 0 whatever the operands are, here `0xffff + 1`. -/
theorem C71_violated_carry : (∀ inv bit a b, (pe4 .Add .C inv bit a b).2 = false) ∧
    flagSpec .Add .C 0xffff (operand .Ident 1) false = true ∧ (pe2 .Add .C 0xffff 1).2 = true ∧ (pe5 .Add .C .Ident .Zero 0xffff 1).2 = true :=
  ⟨fun _ _ _ _ => rfl, by decide, by decide, by decide⟩

/-- Specification of pe5: `BIT` chooses between `and` and `or`, between the two shifts, and turns flag `Z` of `Xor` round. -/
def resSpec5 (op : AluInst) (a b : Data) (one : Bool) : Data :=
  match op, one with
  | .And, false => a ||| b
  | .Shft, false => BitVec.ofNat 16 (a.toNat / 2 ^ b.toNat)
  | op, c => resSpec op a b c

def flagSpec5 (op : AluInst) (flag : FlagInst) (a b : Data) (one : Bool) : Bool :=
  match op, flag, one with
  | .Xor, .Z, true => decide (a ≠ b)
  | .Xor, .Z, false => decide (a = b)
  | op, .Z, one => decide (resSpec5 op a b one = 0)
  | op, .C, one => decide (op = .Add ∧ 2 ^ 16 ≤ a.toNat + b.toNat + one.toNat)

theorem xor_zero_iff (a b : Data) : a ^^^ b = 0 ↔ a = b := by
  constructor
  · intro h
    have h' := congrArg (· ^^^ b) h
    simp only [BitVec.xor_assoc, BitVec.xor_self] at h'
    simpa [show (0 : Data) ^^^ b = b from BitVec.zero_xor] using h'
  · rintro rfl
    exact BitVec.xor_self

theorem shr_eq (a b : Data) : a >>> b = BitVec.ofNat 16 (a.toNat / 2 ^ b.toNat) := by
  apply BitVec.eq_of_toNat_eq
  rw [BitVec.ushiftRight_eq', BitVec.toNat_ushiftRight, BitVec.toNat_ofNat, Nat.shiftRight_eq_div_pow, Nat.mod_eq_of_lt]
  exact Nat.lt_of_le_of_lt (Nat.div_le_self _ _) a.isLt

/-- C71, pe5. -/
theorem C71_pe5 (op : AluInst) (flag : FlagInst) (inv : InverterInst) (bit : BitConstant) (a b : Data) :
    pe5 op flag inv bit a b = (resSpec5 op a (operand inv b) (decide (bit = .One)), flagSpec5 op flag a (operand inv b) (decide (bit = .One))) := by
  have hb : bit.bit = decide (bit = .One) := by cases bit <;> rfl
  simp only [pe5, operand_eq, hb]
  generalize operand inv b = y
  generalize decide (bit = .One) = c
  have hx := xor_zero_iff a y
  cases op <;> cases flag <;> cases c <;> simp only [alu5, flagMux, resSpec5, resSpec, flagSpec5, adc_val, isZero_eq, shl_eq, shr_eq, hx, reduceCtorEq, true_and, false_and, decide_false,
    Bool.false_xor, Bool.true_xor, if_true, if_false, Bool.false_eq_true, ne_eq, decide_not] <;> congr

/-- Subtraction and comparison: what `Add` with `Invert` and `One` does on pe5. -/
theorem C71_subtract (a b : Data) :
    pe5 .Add .C .Invert .One a b = (a - b, decide (b.toNat ≤ a.toNat)) ∧
    pe5 .Add .Z .Invert .One a b = (a - b, decide (a = b)) ∧
    (pe4 .Add .Z .Invert .One a b) = (a - b, decide (a = b)) := by
  have hs : BitVec.ofNat 16 (a.toNat + (2 ^ 16 - 1 - b.toNat) + 1) = a - b := by
    apply BitVec.eq_of_toNat_eq
    have := b.isLt
    rw [BitVec.toNat_sub, BitVec.toNat_ofNat]
    congr 1
    omega
  have ho : (operand .Invert b).toNat = 2 ^ 16 - 1 - b.toNat := by
    simp only [operand, if_true, BitVec.toNat_ofNat]
    exact Nat.mod_eq_of_lt (by omega)
  have hz : (a - b = 0) ↔ a = b := by
    constructor
    · intro h
      have h' := congrArg (· + b) h
      simp only [BitVec.sub_add_cancel, show (0 : Data) + b = b from BitVec.zero_add b] at h'
      exact h'
    · rintro rfl
      simp
  have hr : resSpec .Add a (operand .Invert b) true = a - b := by
    simp only [resSpec, ho, Bool.toNat_true, hs]
  refine ⟨?_, ?_, ?_⟩
  · rw [C71_pe5]
    refine Prod.ext hr ?_
    show decide (_ ∧ 2 ^ 16 ≤ a.toNat + (operand .Invert b).toNat + 1) = _
    rw [ho]
    have := b.isLt
    apply Bool.decide_congr
    constructor
    · rintro ⟨_, h⟩; omega
    · intro h; exact ⟨rfl, by omega⟩
  · rw [C71_pe5]
    refine Prod.ext hr ?_
    show decide (resSpec .Add a (operand .Invert b) true = 0) = _
    rw [hr]
    exact Bool.decide_congr hz
  · have h4 := C71_pe4_partial .Add .Z .Invert .One a b
    refine Prod.ext (h4.1.trans hr) ((h4.2.mpr (Or.inl rfl)).trans ?_)
    show decide (resSpec .Add a (operand .Invert b) true = 0) = _
    rw [hr]
    exact Bool.decide_congr hz

/-- No instruction of pe1, pe2 or pe3 subtracts, in either order of the operands. -/
theorem C71_no_subtract (op : AluInst) (flag : FlagInst) (inv : InverterInst) :
    (∃ a b, (pe1 op a b).1 ≠ a - b) ∧ (∃ a b, (pe2 op flag a b).1 ≠ a - b) ∧ (∃ a b, (pe3 op flag inv a b).1 ≠ a - b) ∧
    (∃ a b, (pe1 op a b).1 ≠ b - a) ∧ (∃ a b, (pe2 op flag a b).1 ≠ b - a) ∧ (∃ a b, (pe3 op flag inv a b).1 ≠ b - a) := by
  refine ⟨⟨1, 3, ?_⟩, ⟨1, 3, ?_⟩, ?_, ⟨3, 1, ?_⟩, ⟨3, 1, ?_⟩, ?_⟩
  · revert op; intro op; cases op <;> decide
  · cases op <;> cases flag <;> decide
  · cases op <;> cases flag <;> cases inv <;> first | exact ⟨1, 3, by decide⟩ | exact ⟨3, 1, by decide⟩
  · revert op; intro op; cases op <;> decide
  · cases op <;> cases flag <;> decide
  · cases op <;> cases flag <;> cases inv <;> first | exact ⟨1, 3, by decide⟩ | exact ⟨3, 1, by decide⟩

/-- C71, pe6: one operation when `choice` is 1, otherwise `op0` on the first operand and the result of `op1`. -/
theorem C71_pe6 (op0 op1 : AluInst) (choice : Bool) (a b : Data) :
    pe6 op0 op1 choice a b = (if choice then resSpec op1 a b false else resSpec op0 a (resSpec op1 a b false) false) := by
  have h : ∀ op x y, alu6 op x y = resSpec op x y false := by
    intro op x y
    cases op
    · apply BitVec.eq_of_toNat_eq
      simp [alu6, resSpec]
    · rfl
    · rfl
    · exact shl_eq x y
  simp only [pe6, h]

/-- The signed reading of examples/demo_pes/pe6/alu.py makes no difference: the sum is also the sum of the signed numbers. -/
theorem C71_signed_add (a b : Data) : resSpec .Add a b false = BitVec.ofInt 16 (a.toInt + b.toInt) := by
  apply BitVec.eq_of_toInt_eq
  have h : resSpec .Add a b false = a + b := by
    apply BitVec.eq_of_toNat_eq
    simp [resSpec]
  rw [h, BitVec.toInt_add, BitVec.toInt_ofInt]

/-- Specification of examples/alu, for words of any width. -/
def exSpec {w : Nat} (op : AluOp) (a b : BitVec w) : BitVec w :=
  match op with
  | .Add => BitVec.ofNat w (a.toNat + b.toNat)
  | .Sub => BitVec.ofInt w (a.toInt - b.toInt)
  | .Or => a ||| b
  | .And => a &&& b
  | .XOr => a ^^^ b

/-- C71, examples/alu: every member computes its operation, anything else raises `PeakNotImplementedError`. -/
theorem C71_alu {w : Nat} (op : Option AluOp) (a b : BitVec w) :
    exAlu op a b = match op with | some o => .ok (exSpec o a b) | none => .error .notImplementedError := by
  match op with
  | none => rfl
  | some .Add =>
    simp only [exAlu, exSpec, if_true, Except.ok.injEq]
    apply BitVec.eq_of_toNat_eq
    rw [BitVec.toNat_add, BitVec.toNat_ofNat]
  | some .Sub =>
    simp only [exAlu, exSpec, Option.some.injEq, reduceCtorEq, if_true, if_false, Except.ok.injEq]
    apply BitVec.eq_of_toInt_eq
    rw [BitVec.toInt_sub, BitVec.toInt_ofInt]
  | some .Or => rfl
  | some .And => rfl
  | some .XOr => rfl

/-- Instances. -/
example : pe5 .Shft .Z .Ident .Zero 0x8001 1 = (0x4000, false) ∧ pe5 .Shft .Z .Ident .One 0x8001 1 = (2, false) ∧ pe5 .Xor .Z .Ident .One 7 7 = (0, false) ∧
    pe6 .Add .Shft false 1 4 = 17 ∧ pe3 .Add .C .Invert 5 3 = (1, true) := by decide
example : exAlu (some .Sub) (1 : BitVec 16) 3 = .ok 0xfffe := rfl

end Peak.Demo
