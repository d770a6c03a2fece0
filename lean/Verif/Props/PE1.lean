import Verif.Spec.PE1
import Mathlib.Tactic.Ring
/-!
# C47, C48, C53: the PE example
-/

namespace Peak.PE1

theorem adc_toNat (a b : Data) (c : Bool) :
    (adc a b c).1.toNat = (a.toNat + b.toNat + c.toNat) % 2 ^ 16 ∧
    (adc a b c).2 = decide (2 ^ 16 ≤ a.toNat + b.toNat + c.toNat) := by
  have ha := a.isLt
  have hb := b.isLt
  have hc : c.toNat ≤ 1 := by cases c <;> decide
  have hr : (a.setWidth 17 + b.setWidth 17 + (BitVec.ofBool c).setWidth 17 : BitVec 17).toNat = a.toNat + b.toNat + c.toNat := by
    have : (BitVec.ofBool c).toNat = c.toNat := by cases c <;> rfl
    simp only [BitVec.toNat_add, BitVec.toNat_setWidth, this]
    omega
  constructor
  · show (BitVec.extractLsb' 0 16 _).toNat = _
    rw [BitVec.extractLsb'_toNat, hr, Nat.shiftRight_zero]
  · show (_ : BitVec 17).getLsbD 16 = _
    rw [BitVec.getLsbD, hr, Nat.testBit_eq_decide_div_mod_eq]
    congr 1
    apply propext
    omega

theorem msb_eq (a : Data) : a.msb = decide (2 ^ 15 ≤ a.toNat) := by
  rw [BitVec.msb_eq_decide]

theorem bit15 (a : Data) : a.getLsbD 15 = decide (2 ^ 15 ≤ a.toNat) := by
  rw [← msb_eq]
  rfl

theorem toInt_eq (a : Data) : a.toInt = if 2 ^ 15 ≤ a.toNat then (a.toNat : Int) - 65536 else (a.toNat : Int) := by
  rw [BitVec.toInt_eq_toNat_cond]
  have := a.isLt
  split <;> split <;> omega

/-- The flags of a subtraction. -/
theorem sub_flags (signed : Bool) (a b : Data) (d : Bool) :
    (alu .Sub signed a b d).Z = decide (a.toNat = b.toNat) ∧ (alu .Sub signed a b d).C = decide (b.toNat ≤ a.toNat) ∧
    ((alu .Sub signed a b d).N != (alu .Sub signed a b d).V) = decide (a.toInt < b.toInt) := by
  have ha := a.isLt
  have hb := b.isLt
  obtain ⟨h1, h2⟩ := adc_toNat a (~~~b) true
  have hn : (~~~b).toNat = 2 ^ 16 - 1 - b.toNat := by rw [BitVec.toNat_not]
  rw [hn] at h1 h2
  have hone : true.toNat = 1 := rfl
  rw [hone] at h1 h2
  refine ⟨?_, ?_, ?_⟩
  · show ((adc a (~~~b) true).1 == 0) = _
    rw [Bool.eq_iff_iff, beq_iff_eq, decide_eq_true_iff, ← BitVec.toNat_inj, h1]
    show _ % 2 ^ 16 = 0 ↔ _
    omega
  · show (adc a (~~~b) true).2 = _
    rw [h2, Bool.eq_iff_iff, decide_eq_true_iff, decide_eq_true_iff]
    omega
  · show ((adc a (~~~b) true).1.getLsbD 15 != overflow a (~~~b) (adc a (~~~b) true).1) = _
    unfold overflow
    rw [bit15, msb_eq, msb_eq, msb_eq, h1, hn, toInt_eq a, toInt_eq b, Bool.eq_iff_iff, decide_eq_true_iff]
    have c4 : (2 ^ 15 ≤ 2 ^ 16 - 1 - b.toNat) ↔ ¬ 2 ^ 15 ≤ b.toNat := by omega
    simp only [c4]
    by_cases c1 : 2 ^ 15 ≤ a.toNat <;> by_cases c2 : 2 ^ 15 ≤ b.toNat <;>
      by_cases c3 : 2 ^ 15 ≤ (a.toNat + (2 ^ 16 - 1 - b.toNat) + 1) % 2 ^ 16 <;>
      simp only [c1, c2, c3, if_true, if_false, decide_true, decide_false, not_true, not_false_iff] <;> simp <;> omega

/-- C47: after a subtraction of any two operands, signed or not, every comparison code returns its comparison of the operands. -/
theorem C47_comparisons (signed : Bool) (a b : Data) (d : Bool) (x y : PV) (code : Cond) (p : Data → Data → Bool) (h : compares code = some p) :
    let r := alu .Sub signed a b d
    cond code x y r.Z r.N r.C r.V = .bit (p a b) := by
  obtain ⟨hZ, hC, hS⟩ := sub_flags signed a b d
  have hS' : ((alu .Sub signed a b d).N == (alu .Sub signed a b d).V) = !decide (a.toInt < b.toInt) := by
    rw [← hS]
    cases (alu .Sub signed a b d).N <;> cases (alu .Sub signed a b d).V <;> rfl
  have hi : a.toInt = b.toInt ↔ a.toNat = b.toNat := by rw [BitVec.toInt_inj, BitVec.toNat_inj]
  simp only
  unfold cond
  cases code <;> simp only [compares, Option.some.injEq, reduceCtorEq] at h <;> subst h <;> simp only [hZ, hC, hS, hS'] <;> congr 1 <;>
    rw [Bool.eq_iff_iff] <;> simp only [Bool.not_eq_true', Bool.and_eq_true, Bool.or_eq_true, decide_eq_true_iff, decide_eq_false_iff_not,
      ← BitVec.toNat_inj, ne_eq] <;> omega

example : compares .SLE = some (fun a b => decide (a.toInt ≤ b.toInt)) ∧ (alu .Sub true 0x8000 1 false).V = true ∧
    cond .SLE (.bit false) (.bit false) false false true true = .bit true := ⟨rfl, by decide, rfl⟩

/-- C48: the LUT returns the bit of its table selected by its inputs, the first input being the lowest bit of the index. -/
theorem C48_lut (table : BitVec 8) (b0 b1 b2 : Bool) : lut table b0 b1 b2 = table.getLsbD (b0.toNat + 2 * b1.toNat + 4 * b2.toNat) := by
  have hb : ∀ b : Bool, b.toNat ≤ 1 := by decide
  have h0 := hb b0
  have h1 := hb b1
  have h2 := hb b2
  unfold lut
  have hi : ((BitVec.ofNat 3 (b0.toNat + 2 * b1.toNat + 4 * b2.toNat)).setWidth 8).toNat = b0.toNat + 2 * b1.toNat + 4 * b2.toNat := by
    simp only [BitVec.toNat_setWidth, BitVec.toNat_ofNat]
    omega
  simp only [hi]
  rw [BitVec.getLsbD_and, BitVec.getLsbD_ushiftRight]
  simp

theorem mode_step {α : Type} (init : α) (c : ModeArgs α) (earlier : List (ModeArgs α)) :
    modeCall (stored init earlier) c.mode c.const c.value c.clkEn = (.ok (returned init c earlier), stored init (c :: earlier)) := by
  obtain ⟨m, k, v, e⟩ := c
  cases m <;> cases e <;> rfl

theorem mode_gen {α : Type} (init : α) : ∀ (cs earlier : List (ModeArgs α)),
    (modeRun cs (stored init earlier)).2 = stored init (cs.reverse ++ earlier) ∧
    ∀ (i : Nat) (c : ModeArgs α), cs[i]? = some c → (modeRun cs (stored init earlier)).1[i]? = some (.ok (returned init c ((cs.take i).reverse ++ earlier)))
  | [], _ => ⟨rfl, fun i c h => by simp at h⟩
  | c :: cs, earlier => by
    obtain ⟨h1, h2⟩ := mode_gen init cs (c :: earlier)
    have hr : modeRun (c :: cs) (stored init earlier) =
        (.ok (returned init c earlier) :: (modeRun cs (stored init (c :: earlier))).1, (modeRun cs (stored init (c :: earlier))).2) := by
      show ((modeCall _ _ _ _ _).1 :: (modeRun cs (modeCall _ _ _ _ _).2).1, (modeRun cs (modeCall _ _ _ _ _).2).2) = _
      rw [mode_step]
    rw [hr]
    refine ⟨by rw [h1]; simp, ?_⟩
    intro i c' hi
    cases i with
    | zero => cases hi; rfl
    | succ i =>
      have := h2 i c' hi
      simpa using this

/-- C48: in any sequence of calls of a mode register, each call returns the constant, the input, or what the calls before it stored, and the
register ends with what the calls stored; only `DELAY` and enabled `VALID` calls store. -/
theorem C48_mode {α : Type} (init : α) (cs : List (ModeArgs α)) :
    (modeRun cs init).2 = stored init cs.reverse ∧
    ∀ (i : Nat) (c : ModeArgs α), cs[i]? = some c → (modeRun cs init).1[i]? = some (.ok (returned init c (cs.take i).reverse)) := by
  have := mode_gen init cs []
  simpa [stored] using this

example : (modeRun [⟨.DELAY, 9, 1, false⟩, ⟨.BYPASS, 9, 2, true⟩, ⟨.VALID, 9, 3, false⟩, ⟨.VALID, 9, 4, true⟩, ⟨.CONST, 9, 5, true⟩] 0).1 =
    [.ok 0, .ok 2, .ok 1, .ok 1, .ok 9] ∧
    (modeRun [⟨.DELAY, 9, 1, false⟩, ⟨.BYPASS, 9, 2, true⟩, ⟨.VALID, 9, 3, false⟩, ⟨.VALID, 9, 4, true⟩, ⟨.CONST, 9, 5, true⟩] 0).2 = 4 :=
  ⟨rfl, rfl⟩

/-! ## C53: the operations -/

theorem ofInt_num (s : Bool) (a : Data) : BitVec.ofInt 16 (num s a) = a := by
  unfold num
  cases s
  · simp
  · simp

theorem ofInt_num32 (s : Bool) (a : Data) : (if s then a.signExtend 32 else a.setWidth 32 : BitVec 32) = BitVec.ofInt 32 (num s a) := by
  cases s
  · simp only [Bool.false_eq_true, if_false, num]
    apply BitVec.eq_of_toNat_eq
    simp
  · rfl

theorem extract_ofInt (z : Int) (k : Nat) (hk : k = 0 ∨ k = 8 ∨ k = 16) :
    (BitVec.ofInt 32 z).extractLsb' k 16 = BitVec.ofInt 16 (z / 2 ^ k) := by
  apply BitVec.eq_of_toNat_eq
  rw [BitVec.extractLsb'_toNat, BitVec.toNat_ofInt, BitVec.toNat_ofInt, Nat.shiftRight_eq_div_pow]
  rcases hk with rfl | rfl | rfl <;> omega

theorem geData_num (s : Bool) (a b : Data) : geData s a b = decide (num s b ≤ num s a) := by
  unfold geData num
  cases s
  · simp [BitVec.ule]
  · simp [BitVec.sle]

theorem max_num (s : Bool) (a b : Data) : (if geData s a b then a else b) = BitVec.ofInt 16 (max (num s a) (num s b)) := by
  rw [geData_num]
  by_cases h : num s b ≤ num s a
  · rw [decide_eq_true h, if_pos rfl, Int.max_eq_left h, ofInt_num]
  · rw [decide_eq_false h, if_neg Bool.false_ne_true, Int.max_eq_right (by omega), ofInt_num]

theorem min_num (s : Bool) (a b : Data) : (if geData s b a then a else b) = BitVec.ofInt 16 (min (num s a) (num s b)) := by
  rw [geData_num]
  by_cases h : num s a ≤ num s b
  · rw [decide_eq_true h, if_pos rfl, Int.min_eq_left h, ofInt_num]
  · rw [decide_eq_false h, if_neg Bool.false_ne_true, Int.min_eq_right (by omega), ofInt_num]

theorem abs_num (s : Bool) (a : Data) : (if geData s a 0 then a else -a) = BitVec.ofInt 16 (Int.natAbs (num s a)) := by
  have h0 : num s 0 = 0 := by cases s <;> rfl
  rw [geData_num, h0]
  by_cases h : 0 ≤ num s a
  · rw [decide_eq_true h, if_pos rfl, Int.natAbs_of_nonneg h, ofInt_num]
  · rw [decide_eq_false h, if_neg Bool.false_ne_true]
    have : (Int.natAbs (num s a) : Int) = - num s a := by omega
    rw [this, BitVec.ofInt_neg, ofInt_num]

theorem amount (b : Data) : (b.extractLsb' 0 4).toNat = b.toNat % 16 := by
  rw [BitVec.extractLsb'_toNat, Nat.shiftRight_zero]

/-- C53: each operation's 16-bit result is its arithmetic meaning on the numbers the operands stand for, signed or unsigned as the
computation is; the zero and negative flags describe that result. -/
theorem C53_alu (op : Op) (signed : Bool) (a b : Data) (d : Bool) :
    (alu op signed a b d).res = opSpec op signed a b d ∧
    (alu op signed a b d).Z = decide (opSpec op signed a b d = 0) ∧
    (alu op signed a b d).N = decide ((opSpec op signed a b d).toInt < 0) := by
  have hres : (alu op signed a b d).res = opSpec op signed a b d := by
    cases op
    case Add =>
      show (adc a b false).1 = _
      apply BitVec.eq_of_toNat_eq
      rw [(adc_toNat a b false).1]
      show _ = (BitVec.ofInt 16 (num signed a + num signed b)).toNat
      rw [BitVec.ofInt_add, ofInt_num, ofInt_num, BitVec.toNat_add]
      rfl
    case Sub =>
      show (adc a (~~~b) true).1 = BitVec.ofInt 16 (num signed a - num signed b)
      rw [Int.sub_eq_add_neg, BitVec.ofInt_add, BitVec.ofInt_neg, ofInt_num, ofInt_num]
      apply BitVec.eq_of_toNat_eq
      rw [(adc_toNat a (~~~b) true).1, BitVec.toNat_add, BitVec.toNat_neg, BitVec.toNat_not]
      have hone : true.toNat = 1 := rfl
      have := b.isLt
      omega
    case Mult0 =>
      show ((if signed then a.signExtend 32 else a.setWidth 32) * (if signed then b.signExtend 32 else b.setWidth 32) : BitVec 32).extractLsb' 0 16 =
        BitVec.ofInt 16 (num signed a * num signed b)
      rw [ofInt_num32, ofInt_num32, ← BitVec.ofInt_mul, extract_ofInt _ _ (.inl rfl)]
      simp
    case Mult1 =>
      show ((if signed then a.signExtend 32 else a.setWidth 32) * (if signed then b.signExtend 32 else b.setWidth 32) : BitVec 32).extractLsb' 8 16 =
        BitVec.ofInt 16 (num signed a * num signed b / 2 ^ 8)
      rw [ofInt_num32, ofInt_num32, ← BitVec.ofInt_mul, extract_ofInt _ _ (.inr (.inl rfl))]
    case Mult2 =>
      show ((if signed then a.signExtend 32 else a.setWidth 32) * (if signed then b.signExtend 32 else b.setWidth 32) : BitVec 32).extractLsb' 16 16 =
        BitVec.ofInt 16 (num signed a * num signed b / 2 ^ 16)
      rw [ofInt_num32, ofInt_num32, ← BitVec.ofInt_mul, extract_ofInt _ _ (.inr (.inr rfl))]
    case GTE_Max => exact max_num signed a b
    case LTE_Min => exact min_num signed a b
    case Abs => exact abs_num signed a
    case SHR =>
      show (if signed then a.sshiftRight (b.extractLsb' 0 4).toNat else a >>> (b.extractLsb' 0 4).toNat) =
        BitVec.ofInt 16 (num signed a / 2 ^ (b.toNat % 16))
      rw [amount]
      cases signed
      · simp only [Bool.false_eq_true, if_false, num]
        apply BitVec.eq_of_toNat_eq
        rw [BitVec.toNat_ushiftRight, Nat.shiftRight_eq_div_pow, BitVec.toNat_ofInt]
        have h : (a.toNat : Int) / 2 ^ (b.toNat % 16) = ((a.toNat / 2 ^ (b.toNat % 16) : Nat) : Int) := by simp
        rw [h]
        have := a.isLt
        have : a.toNat / 2 ^ (b.toNat % 16) ≤ a.toNat := Nat.div_le_self _ _
        generalize a.toNat / 2 ^ (b.toNat % 16) = q at *
        omega
      · simp only [if_true, num]
        rw [BitVec.sshiftRight, Int.shiftRight_eq_div_pow]
        simp
    case SHL =>
      show a <<< (b.extractLsb' 0 4).toNat = BitVec.ofInt 16 (num signed a * 2 ^ (b.toNat % 16))
      rw [amount, BitVec.ofInt_mul, ofInt_num, BitVec.shiftLeft_eq_mul_twoPow]
      congr 1
      apply BitVec.eq_of_toNat_eq
      rw [BitVec.toNat_ofInt, BitVec.toNat_twoPow]
      have h : ((2 : Int) ^ (b.toNat % 16)) = ((2 ^ (b.toNat % 16) : Nat) : Int) := by simp
      rw [h]
      omega
    all_goals rfl
  refine ⟨hres, ?_, ?_⟩
  · rw [← hres]
    have : (alu op signed a b d).Z = ((alu op signed a b d).res == 0) := by cases op <;> rfl
    rw [this]
    rfl
  · rw [← hres]
    have : (alu op signed a b d).N = (alu op signed a b d).res.getLsbD 15 := by cases op <;> rfl
    rw [this, bit15, toInt_eq, Bool.eq_iff_iff, decide_eq_true_iff, decide_eq_true_iff]
    have := (alu op signed a b d).res.isLt
    split <;> omega

example : opSpec .SHR true 0x8000 3 false = 0xf000 ∧ opSpec .SHR false 0x8000 3 false = 0x1000 ∧
    opSpec .Mult2 true 0xffff 0xffff false = 0 ∧ opSpec .Mult2 false 0xffff 0xffff false = 0xfffe := by decide

/-- What a cycle of the PE uses as operands: the outputs of the five mode registers. -/
structure Operands where
  a : Data
  b : Data
  d : Bool
  e : Bool
  f : Bool

/-- C53, on the PE: in every state, for every instruction and input whose condition is not `Cond.ALU`, a cycle returns the operation on the
operands chosen by the mode registers, a bit, and no interrupt. -/
theorem C53_pe_partial (truth : Sgn → Bool) (s : PESt) (inst : Inst) (i : PEIn) (hc : inst.cond ≠ .ALU) :
    let o : Operands :=
      ⟨returned s.rega ⟨inst.rega, inst.data0, i.data0, i.clkEn⟩ [], returned s.regb ⟨inst.regb, inst.data1, i.data1, i.clkEn⟩ [],
       returned s.regd ⟨inst.regd, inst.bit0, i.bit0, i.clkEn⟩ [], returned s.rege ⟨inst.rege, inst.bit1, i.bit1, i.clkEn⟩ [],
       returned s.regf ⟨inst.regf, inst.bit2, i.bit2, i.clkEn⟩ []⟩
    ∃ bit, (peCall truth s inst i).1 = .ok (opSpec inst.alu (truth inst.signed) o.a o.b o.d, .bit bit, false) ∧
      (inst.cond = .LUT → bit = inst.lut.getLsbD (o.d.toNat + 2 * o.e.toNat + 4 * o.f.toNat)) ∧
      (∀ p, inst.alu = .Sub → compares inst.cond = some p → bit = p o.a o.b) := by
  intro o
  have key : ∀ {α : Type} (st : α) (m : Mode) (k v : α) (e : Bool), (modeCall st m k v e).1 = .ok (returned st ⟨m, k, v, e⟩ []) := by
    intro α st m k v e
    have := mode_step st ⟨m, k, v, e⟩ []
    exact congrArg Prod.fst this
  let r := alu inst.alu (truth inst.signed) o.a o.b o.d
  have hout : (peCall truth s inst i).1 = .ok (r.res, cond inst.cond (.data r.res) (.bit (lut inst.lut o.d o.e o.f)) r.Z r.N r.C r.V, false) := by
    unfold peCall
    simp only [key]
    rfl
  have hbit : ∃ bit, cond inst.cond (.data r.res) (.bit (lut inst.lut o.d o.e o.f)) r.Z r.N r.C r.V = .bit bit := by
    unfold cond
    cases h : inst.cond <;> simp only [PV.bit.injEq, exists_eq']
    exact absurd h hc
  obtain ⟨bit, hb⟩ := hbit
  refine ⟨bit, ?_, ?_, ?_⟩
  · rw [hout, hb, (C53_alu inst.alu (truth inst.signed) o.a o.b o.d).1]
  · intro hl
    rw [hl] at hb
    have : lut inst.lut o.d o.e o.f = bit := PV.bit.inj hb
    rw [← this, C48_lut]
  · intro p hs hp
    have h47 := C47_comparisons (truth inst.signed) o.a o.b o.d (.data r.res) (.bit (lut inst.lut o.d o.e o.f)) inst.cond p hp
    have hr : r = alu .Sub (truth inst.signed) o.a o.b o.d := by show alu inst.alu _ _ _ _ = _; rw [hs]
    rw [hr] at hb h47
    exact PV.bit.inj (hb.symm.trans h47)

/-- The registers after a cycle of the PE hold the inputs of the calls that stored, and are unchanged otherwise. -/
theorem C48_pe (truth : Sgn → Bool) (s : PESt) (inst : Inst) (i : PEIn) :
    (peCall truth s inst i).2 =
      { rega := stored s.rega [⟨inst.rega, inst.data0, i.data0, i.clkEn⟩]
        regb := stored s.regb [⟨inst.regb, inst.data1, i.data1, i.clkEn⟩]
        regd := stored s.regd [⟨inst.regd, inst.bit0, i.bit0, i.clkEn⟩]
        rege := stored s.rege [⟨inst.rege, inst.bit1, i.bit1, i.clkEn⟩]
        regf := stored s.regf [⟨inst.regf, inst.bit2, i.bit2, i.clkEn⟩] } := by
  have key : ∀ {α : Type} (st : α) (m : Mode) (k v : α) (e : Bool), (modeCall st m k v e).2 = stored st [⟨m, k, v, e⟩] := by
    intro α st m k v e
    have := mode_step st ⟨m, k, v, e⟩ []
    exact congrArg Prod.snd this
  unfold peCall
  simp only [key]

def demoInst : Inst :=
  { alu := .Sub, signed := .unsigned, lut := 0, cond := .SLT, rega := .BYPASS, data0 := 0, regb := .CONST, data1 := 7, regd := .CONST,
    bit0 := false, rege := .CONST, bit1 := false, regf := .CONST, bit2 := false }

example : demoInst.cond ≠ .ALU ∧ demoInst.alu = .Sub ∧ (compares demoInst.cond).isSome ∧
    (peCall (fun _ => true) {} demoInst { data0 := 5 }).1 = .ok (0xfffe, .bit true, false) := ⟨by decide, rfl, rfl, rfl⟩

/-- A new PE whose registers are all in `DELAY` mode computes on zeros in the first cycle, whatever its inputs. -/
theorem C53_fresh (truth : Sgn → Bool) (inst : Inst) (i : PEIn) (hc : inst.cond = .LUT)
    (hm : inst.rega = .DELAY ∧ inst.regb = .DELAY ∧ inst.regd = .DELAY ∧ inst.rege = .DELAY ∧ inst.regf = .DELAY) :
    (peCall truth {} inst i).1 = .ok (opSpec inst.alu (truth inst.signed) 0 0 false, .bit (inst.lut.getLsbD 0), false) := by
  obtain ⟨h1, h2, h3, h4, h5⟩ := hm
  obtain ⟨bit, h, hl, _⟩ := C53_pe_partial truth {} inst i (by rw [hc]; decide)
  rw [h, hl hc]
  simp [returned, stored, h1, h2, h3, h4, h5]

/-- The arguments that may be left out are zeros, and the clock is enabled: with all registers in `BYPASS` mode the operation is on the given word and zeros, and registers in `VALID` mode store. -/
theorem C53_defaults (truth : Sgn → Bool) (s : PESt) (inst : Inst) (a : Data) :
    (inst.cond = .LUT → inst.rega = .BYPASS → inst.regb = .BYPASS → inst.regd = .BYPASS → inst.rege = .BYPASS → inst.regf = .BYPASS →
      (peCall truth s inst { data0 := a }).1 = .ok (opSpec inst.alu (truth inst.signed) a 0 false, .bit (inst.lut.getLsbD 0), false)) ∧
    (inst.rega = .VALID → (peCall truth s inst { data0 := a }).2.rega = a) := by
  refine ⟨?_, ?_⟩
  · intro hc h1 h2 h3 h4 h5
    obtain ⟨bit, h, hl, _⟩ := C53_pe_partial truth s inst { data0 := a } (by rw [hc]; decide)
    rw [h, hl hc]
    simp [returned, h1, h2, h3, h4, h5]
  · intro h
    rw [C48_pe]
    simp [stored, h]

example : ∃ inst : Inst, inst.cond = .LUT ∧ inst.rega = .DELAY ∧ inst.regb = .DELAY ∧ inst.regd = .DELAY ∧ inst.rege = .DELAY ∧ inst.regf = .DELAY :=
  ⟨⟨.Add, .signed, 3, .LUT, .DELAY, 1, .DELAY, 2, .DELAY, true, .DELAY, true, .DELAY, true⟩, rfl, rfl, rfl, rfl, rfl, rfl⟩

/-- C53, violated: with `Cond.ALU` the 1-bit output of the PE is the 16-bit result of the operation. -/
theorem C53_violated_cond_alu (truth : Sgn → Bool) : ∃ (inst : Inst) (i : PEIn) (r : Data),
    (peCall truth {} inst i).1 = .ok (r, .data r, false) :=
  ⟨{ demoInst with alu := .And, cond := .ALU }, { data0 := 7 }, 7, by cases truth .unsigned <;> rfl⟩

/-- C53, violated: if a member of `Signed` is true as a condition whatever its value, as Python objects are unless they say otherwise, the PE
computes operations marked unsigned as signed ones. -/
theorem C53_violated_unsigned (truth : Sgn → Bool) (ht : truth .unsigned = true) : ∃ (inst : Inst) (i : PEIn) (r : Data),
    inst.signed = .unsigned ∧ inst.alu = .GTE_Max ∧ inst.rega = .BYPASS ∧ inst.regb = .BYPASS ∧
    (∃ p q, (peCall truth {} inst i).1 = .ok (r, p, q)) ∧ r ≠ opSpec .GTE_Max false i.data0 i.data1 false :=
  ⟨{ demoInst with alu := .GTE_Max, regb := .BYPASS }, { data0 := 0xffff, data1 := 1 }, 1, rfl, rfl, rfl, rfl, by
    obtain ⟨bit, h, _⟩ := C53_pe_partial truth {} { demoInst with alu := .GTE_Max, regb := .BYPASS } { data0 := 0xffff, data1 := 1 } (by decide)
    refine ⟨.bit bit, false, h.trans ?_⟩
    show (Except.ok (opSpec .GTE_Max (truth .unsigned) 0xffff 1 false, _) : Except Err (Data × PV × Bool)) = _
    rw [ht, (by decide : opSpec .GTE_Max true 0xffff 1 false = 1)], by decide⟩

example : ∃ truth : Sgn → Bool, truth .unsigned = true := ⟨fun _ => true, rfl⟩

/-- C53: the 1-bit result (except that of `LTE_Min`), the carry and the overflow flag of every operation. -/
theorem C53_alu_flags (op : Op) (signed : Bool) (a b : Data) (d : Bool) :
    (op ≠ .LTE_Min → (alu op signed a b d).resP = predSpec op signed a b) ∧
    (alu op signed a b d).C = (if op = .Add ∨ op = .Sub then predSpec op signed a b else false) ∧
    (alu op signed a b d).V = overflowSpec op a b := by
  have ha := a.isLt
  have hb := b.isLt
  have hn : (~~~b).toNat = 2 ^ 16 - 1 - b.toNat := by rw [BitVec.toNat_not]
  have hone : true.toNat = 1 := rfl
  have hzero : false.toNat = 0 := rfl
  obtain ⟨a1, a2⟩ := adc_toNat a b false
  obtain ⟨s1, s2⟩ := adc_toNat a (~~~b) true
  rw [hn, hone] at s1 s2
  rw [hzero, Nat.add_zero] at a1 a2
  have hsub : (adc a (~~~b) true).2 = decide (b.toNat ≤ a.toNat) := by
    rw [s2, Bool.eq_iff_iff, decide_eq_true_iff, decide_eq_true_iff]
    omega
  cases op
  case Add =>
    refine ⟨fun _ => a2, by rw [if_pos (.inl rfl)]; exact a2, ?_⟩
    show overflow a b (adc a b false).1 = decide _
    unfold overflow
    rw [msb_eq, msb_eq, msb_eq, a1, toInt_eq a, toInt_eq b, Bool.eq_iff_iff, decide_eq_true_iff]
    by_cases c1 : 2 ^ 15 ≤ a.toNat <;> by_cases c2 : 2 ^ 15 ≤ b.toNat <;> by_cases c3 : 2 ^ 15 ≤ (a.toNat + b.toNat) % 2 ^ 16 <;>
      simp only [c1, c2, c3, if_true, if_false, decide_true, decide_false, Bool.and_true, Bool.and_false, Bool.not_true, Bool.not_false, Bool.or_false,
        Bool.false_or, Bool.true_and, Bool.false_and, Bool.false_eq_true, true_iff, false_iff, not_not] <;> omega
  case Sub =>
    refine ⟨fun _ => hsub, by rw [if_pos (.inr rfl)]; exact hsub, ?_⟩
    show overflow a (~~~b) (adc a (~~~b) true).1 = decide _
    unfold overflow
    rw [msb_eq, msb_eq, msb_eq, s1, hn, toInt_eq a, toInt_eq b, Bool.eq_iff_iff, decide_eq_true_iff]
    have c4 : (2 ^ 15 ≤ 2 ^ 16 - 1 - b.toNat) ↔ ¬ 2 ^ 15 ≤ b.toNat := by omega
    simp only [c4]
    by_cases c1 : 2 ^ 15 ≤ a.toNat <;> by_cases c2 : 2 ^ 15 ≤ b.toNat <;>
      by_cases c3 : 2 ^ 15 ≤ (a.toNat + (2 ^ 16 - 1 - b.toNat) + 1) % 2 ^ 16 <;>
      simp only [c1, c2, c3, if_true, if_false, decide_true, decide_false, Bool.and_true, Bool.and_false, Bool.not_true, Bool.not_false, Bool.or_false,
        Bool.false_or, Bool.true_and, Bool.false_and, Bool.false_eq_true, true_iff, false_iff, not_not, not_true, not_false_iff] <;> omega
  case GTE_Max => exact ⟨fun _ => geData_num signed a b, rfl, rfl⟩
  case LTE_Min => exact ⟨fun h => absurd rfl h, rfl, rfl⟩
  case Abs =>
    refine ⟨fun _ => ?_, rfl, rfl⟩
    show a.getLsbD 15 = decide (a.toInt < 0)
    rw [bit15, toInt_eq, Bool.eq_iff_iff, decide_eq_true_iff, decide_eq_true_iff]
    split <;> omega
  all_goals exact ⟨fun _ => rfl, rfl, rfl⟩

example : (alu .Add false 0xffff 1 false).resP = true ∧ (alu .Sub true 0x8000 1 false).V = true ∧ predSpec .Sub true 0x8000 1 = true := by decide

/-- C53, violated: the 1-bit result of `LTE_Min` is `a >= b` (sim.py:67). -/
theorem C53_violated_lte_min (signed : Bool) (a b : Data) (d : Bool) :
    (alu .LTE_Min signed a b d).resP = decide (num signed a ≥ num signed b) ∧
    (num signed a ≠ num signed b → (alu .LTE_Min signed a b d).resP ≠ predSpec .LTE_Min signed a b) := by
  have h : (alu .LTE_Min signed a b d).resP = decide (num signed a ≥ num signed b) := geData_num signed a b
  refine ⟨h, ?_⟩
  intro hne
  rw [h]
  simp only [predSpec]
  by_cases h1 : num signed b ≤ num signed a <;> by_cases h2 : num signed a ≤ num signed b <;> simp [h1, h2] <;> omega

example : num false 1 ≠ num false 2 ∧ (alu .LTE_Min false 1 2 false).resP = false := by decide

end Peak.PE1
