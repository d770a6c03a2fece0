import Verif.Spec.RiscV
/-! # Word arithmetic of the RISC-V example -/

namespace Peak.RV
theorem sext_ofInt {w : Nat} (x : BitVec w) (n : Nat) : sext x n = BitVec.ofInt (w + n) x.toInt := rfl

theorem add_nat (a b : Word) : BitVec.ofNat 32 (a.toNat + b.toNat) = a + b := by
  apply BitVec.eq_of_toNat_eq; simp

theorem add4 (a : Word) : BitVec.ofNat 32 (a.toNat + 4) = a + 4 := by
  apply BitVec.eq_of_toNat_eq; simp

theorem ofInt_toNat (a : Word) : BitVec.ofInt 32 (a.toNat : Int) = a := by
  simp

theorem sub_nat (a b : Word) : BitVec.ofInt 32 ((a.toNat : Int) - b.toNat) = a - b := by
  rw [Int.sub_eq_add_neg, BitVec.ofInt_add, BitVec.ofInt_neg]; simp [BitVec.sub_eq_add_neg]

theorem add_imm (a : Word) (z : Int) : BitVec.ofInt 32 ((a.toNat : Int) + z) = a + BitVec.ofInt 32 z := by
  rw [BitVec.ofInt_add]; simp

theorem upper (i : BitVec 20) : (bvshl (sext i 12) 12 : Word) = BitVec.ofNat 32 (i.toNat * 4096) := by
  apply BitVec.eq_of_toNat_eq
  have h := i.isLt
  simp only [bvshl, sext, BitVec.toNat_shiftLeft, BitVec.toNat_signExtend, BitVec.toNat_ofNat, Nat.shiftLeft_eq]
  split <;> simp <;> omega

theorem twice {w : Nat} (i : BitVec w) (n : Nat) (h : w + n = 32) : bvshl (sext i n) 1 = BitVec.ofInt (w + n) (2 * i.toInt) := by
  have : (1 : BitVec (w+n)).toNat = 1 := by rw [h]; rfl
  rw [bvshl, this, sext_ofInt, BitVec.ofInt_mul]
  apply BitVec.eq_of_toNat_eq
  rw [h]
  simp [Nat.shiftLeft_eq, BitVec.toNat_mul]
  omega

theorem slt_spec (a b : Word) : bitWord (a.slt b) = if a.toInt < b.toInt then 1 else 0 := by
  simp [bitWord, BitVec.slt]

theorem ult_spec (a b : Word) : bitWord (a.ult b) = if a.toNat < b.toNat then 1 else 0 := by
  simp [bitWord, BitVec.ult]

theorem even_mask (a : Word) : a &&& ~~~1 = BitVec.ofInt 32 (2 * ((a.toNat / 2 : Nat) : Int)) := by
  have : (2 * ((a.toNat / 2 : Nat) : Int)) = ((2 * (a.toNat / 2) : Nat) : Int) := by push_cast; rfl
  rw [this]
  simp only [BitVec.ofInt_natCast]
  apply BitVec.eq_of_getLsbD_eq
  intro i hi
  rw [BitVec.getLsbD_and, BitVec.getLsbD_ofNat, BitVec.getLsbD_not]
  have h1 : (1 : Word).getLsbD i = decide (i = 0) := by
    show (BitVec.ofNat 32 1).getLsbD i = _
    rw [BitVec.getLsbD_ofNat]; cases i <;> simp [hi, Nat.testBit_succ]
  rw [h1]
  cases i with
  | zero => simp
  | succ i => simp [Nat.testBit_succ, BitVec.getLsbD, hi]

theorem full_mask (a : Word) : a &&& BitVec.ofInt 32 (-1) = a := by
  have : BitVec.ofInt 32 (-1) = BitVec.allOnes 32 := by decide
  rw [this, BitVec.and_allOnes]

theorem sll_spec (a b : Word) (h : b.toNat < 32) : bvshl a b = BitVec.ofNat 32 (a.toNat * 2 ^ (b.toNat % 32)) := by
  apply BitVec.eq_of_toNat_eq; rw [Nat.mod_eq_of_lt h]; simp [bvshl, Nat.shiftLeft_eq]

theorem srl_spec (a b : Word) (h : b.toNat < 32) : bvlshr a b = BitVec.ofNat 32 (a.toNat / 2 ^ (b.toNat % 32)) := by
  apply BitVec.eq_of_toNat_eq; rw [Nat.mod_eq_of_lt h]; simp [bvlshr, Nat.shiftRight_eq_div_pow]
  have := a.isLt
  rw [Nat.mod_eq_of_lt]
  exact Nat.lt_of_le_of_lt (Nat.div_le_self _ _) this

theorem sra_spec (a b : Word) (h : b.toNat < 32) : bvashr a b = BitVec.ofInt 32 (a.toInt / 2 ^ (b.toNat % 32)) := by
  rw [Nat.mod_eq_of_lt h, bvashr, BitVec.sshiftRight, Int.shiftRight_eq_div_pow]; simp
end Peak.RV
