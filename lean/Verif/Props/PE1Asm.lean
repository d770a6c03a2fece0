import Verif.Spec.PE1Asm
import Verif.Props.PE1
/-!
# C75: the builders of the PE example
-/

namespace Peak.PE1.Asm

/-- On every state and all inputs, the PE configured with `inst` returns the low 16 bits of `f` and some bit, raises no interrupt and keeps its state. -/
def Returns (truth : Sgn → Bool) (inst : Inst) (f : Value) : Prop :=
  ∀ (s : PESt) (i : PEIn), ∃ bit, peCall truth s inst i = (.ok (BitVec.ofInt 16 (f i.data0 i.data1 i.bit0), .bit bit, false), s)

theorem pe_bypass (truth : Sgn → Bool) (op : Op) (sg : Sgn) (c : Cond) (hc : c ≠ .ALU) (s : PESt) (i : PEIn) :
    ∃ bit, peCall truth s (inst op { signed := sg, cond := c }) i = (.ok (opSpec op (truth sg) i.data0 i.data1 i.bit0, .bit bit, false), s) ∧
      (∀ p, op = .Sub → compares c = some p → bit = p i.data0 i.data1) := by
  obtain ⟨bit, h1, _, h2⟩ := C53_pe_partial truth s (inst op { signed := sg, cond := c }) i hc
  refine ⟨bit, Prod.ext h1 ?_, h2⟩
  rw [C48_pe]
  rfl

theorem returns_of {truth : Sgn → Bool} {f : Value} (op : Op) (sg : Sgn)
    (h : ∀ a b d, opSpec op (truth sg) a b d = BitVec.ofInt 16 (f a b d)) : Returns truth (inst op { signed := sg }) f := by
  intro s i
  obtain ⟨bit, hb, _⟩ := pe_bypass truth op sg .Z (by decide) s i
  exact ⟨bit, by rw [hb, h]⟩

theorem ofInt_nat (a : Data) : BitVec.ofInt 16 (a.toNat : Int) = a := ofInt_num false a
theorem ofInt_int (a : Data) : BitVec.ofInt 16 a.toInt = a := ofInt_num true a

/-- C75: the operations that do not depend on `Signed.unsigned` being false, for every state and all inputs. -/
theorem C75_results (truth : Sgn → Bool) (ht : truth .signed = true) : ∀ p ∈ results, Returns truth p.1 p.2 := by
  intro p hp
  simp only [results, List.mem_cons, List.not_mem_nil, or_false] at hp
  rcases hp with rfl | rfl | rfl | rfl | rfl | rfl | rfl | rfl | rfl | rfl | rfl | rfl | rfl | rfl | rfl
  · exact returns_of .Add .unsigned (fun a b d => by simp only [opSpec, BitVec.ofInt_add, ofInt_num, ofInt_nat])
  · refine returns_of .Sub .unsigned (fun a b d => ?_)
    simp only [opSpec, Int.sub_eq_add_neg, BitVec.ofInt_add, BitVec.ofInt_neg, ofInt_num, ofInt_nat]
  · exact returns_of .Mult0 .unsigned (fun a b d => by simp only [opSpec, BitVec.ofInt_mul, ofInt_num, ofInt_nat])
  · exact returns_of .Mult0 .signed (fun a b d => by rw [ht]; rfl)
  · exact returns_of .Mult1 .signed (fun a b d => by rw [ht]; rfl)
  · exact returns_of .Mult2 .signed (fun a b d => by rw [ht]; rfl)
  · exact returns_of .And .unsigned (fun a b d => by show a &&& b = BitVec.ofInt 16 ((a.toNat &&& b.toNat : Nat) : Int); rw [← BitVec.toNat_and, ofInt_nat])
  · exact returns_of .Or .unsigned (fun a b d => by show a ||| b = BitVec.ofInt 16 ((a.toNat ||| b.toNat : Nat) : Int); rw [← BitVec.toNat_or, ofInt_nat])
  · exact returns_of .XOr .unsigned (fun a b d => by show a ^^^ b = BitVec.ofInt 16 ((a.toNat ^^^ b.toNat : Nat) : Int); rw [← BitVec.toNat_xor, ofInt_nat])
  · exact returns_of .SHL .unsigned (fun a b d => by simp only [opSpec, BitVec.ofInt_mul, ofInt_num, ofInt_nat])
  · exact returns_of .SHR .signed (fun a b d => by rw [ht]; rfl)
  · exact returns_of .Sel .unsigned (fun a b d => by cases d <;> simp [opSpec])
  · refine returns_of .Abs .signed (fun a b d => ?_)
    rw [ht]
    show BitVec.ofInt 16 (Int.natAbs a.toInt) = _
    congr 1
    dsimp only
    split <;> omega
  · refine returns_of .LTE_Min .signed (fun a b d => ?_)
    rw [ht]
    show BitVec.ofInt 16 (min a.toInt b.toInt) = BitVec.ofInt 16 (if a.toInt ≤ b.toInt then a.toInt else b.toInt)
    congr 1
  · refine returns_of .GTE_Max .signed (fun a b d => ?_)
    rw [ht]
    show BitVec.ofInt 16 (max a.toInt b.toInt) = BitVec.ofInt 16 (if a.toInt ≤ b.toInt then b.toInt else a.toInt)
    congr 1

/-- C75: the unsigned operations, if `Signed.unsigned` is false as a condition (an enum member of hwtypes with value 0). -/
theorem C75_unsigned_partial (truth : Sgn → Bool) (ht : truth .unsigned = false) : ∀ p ∈ unsignedResults, Returns truth p.1 p.2 := by
  intro p hp
  simp only [unsignedResults, List.mem_cons, List.not_mem_nil, or_false] at hp
  rcases hp with rfl | rfl | rfl | rfl | rfl
  · exact returns_of .Mult1 .unsigned (fun a b d => by rw [ht]; simp [opSpec, num])
  · exact returns_of .Mult2 .unsigned (fun a b d => by rw [ht]; simp [opSpec, num])
  · exact returns_of .SHR .unsigned (fun a b d => by rw [ht]; simp [opSpec, num])
  · refine returns_of .LTE_Min .unsigned (fun a b d => ?_)
    rw [ht]
    show BitVec.ofInt 16 (min (a.toNat : Int) b.toNat) = _
    congr 1
    dsimp only
    split <;> omega
  · refine returns_of .GTE_Max .unsigned (fun a b d => ?_)
    rw [ht]
    show BitVec.ofInt 16 (max (a.toNat : Int) b.toNat) = _
    congr 1
    dsimp only
    split <;> omega

/-- C75 fails for the unsigned operations if `Signed.unsigned` is true as a condition: each of them is then wrong on some operands. -/
theorem C75_violated_unsigned (truth : Sgn → Bool) (ht : truth .unsigned = true) : ∀ p ∈ unsignedResults, ¬ Returns truth p.1 p.2 := by
  have key : ∀ (op : Op) (f : Value) (a b : Data), opSpec op true a b false ≠ BitVec.ofInt 16 (f a b false) → ¬ Returns truth (inst op {}) f := by
    intro op f a b hne h
    obtain ⟨bit, hb⟩ := h {} { data0 := a, data1 := b }
    obtain ⟨bit', hb', _⟩ := pe_bypass truth op .unsigned .Z (by decide) {} { data0 := a, data1 := b }
    have := congrArg Prod.fst (hb'.symm.trans hb)
    simp only [Except.ok.injEq, Prod.mk.injEq, ht] at this
    exact hne this.1
  intro p hp
  simp only [unsignedResults, List.mem_cons, List.not_mem_nil, or_false] at hp
  rcases hp with rfl | rfl | rfl | rfl | rfl
  · exact key .Mult1 _ 0xffff 2 (by decide)
  · exact key .Mult2 _ 0xffff 2 (by decide)
  · exact key .SHR _ 0x8000 1 (by decide)
  · exact key .LTE_Min _ 0xffff 1 (by decide)
  · exact key .GTE_Max _ 0xffff 1 (by decide)

/-- C75: the comparisons: the 1-bit result holds exactly if the comparison does, on every state and all inputs, whatever `Signed` counts as. -/
theorem C75_comparisons (truth : Sgn → Bool) : ∀ p ∈ comparisons, ∀ (s : PESt) (i : PEIn),
    ∃ bit, peCall truth s p.1 i = (.ok (i.data0 - i.data1, .bit bit, false), s) ∧ (bit = true ↔ p.2 i.data0 i.data1) := by
  have key : ∀ (c : Cond) (p : Data → Data → Bool), c ≠ .ALU → compares c = some p → ∀ (s : PESt) (i : PEIn),
      ∃ bit, peCall truth s (inst .Sub { cond := c }) i = (.ok (i.data0 - i.data1, .bit bit, false), s) ∧ bit = p i.data0 i.data1 := by
    intro c p hc hp s i
    obtain ⟨bit, hb, h2⟩ := pe_bypass truth .Sub .unsigned c hc s i
    refine ⟨bit, ?_, h2 p rfl hp⟩
    rw [hb]
    simp only [opSpec, Int.sub_eq_add_neg, BitVec.ofInt_add, BitVec.ofInt_neg, ofInt_num, BitVec.sub_eq_add_neg]
  have fin : ∀ (c : Cond) (p : Data → Data → Bool) (q : Data → Data → Prop), c ≠ .ALU → compares c = some p → (∀ a b, p a b = true ↔ q a b) →
      ∀ (s : PESt) (i : PEIn), ∃ bit, peCall truth s (inst .Sub { cond := c }) i = (.ok (i.data0 - i.data1, .bit bit, false), s) ∧
        (bit = true ↔ q i.data0 i.data1) := by
    intro c p q hc hp hq s i
    obtain ⟨bit, hb, h2⟩ := key c p hc hp s i
    exact ⟨bit, hb, by rw [h2]; exact hq _ _⟩
  intro p hp
  simp only [comparisons, List.mem_cons, List.not_mem_nil, or_false] at hp
  rcases hp with rfl | rfl | rfl | rfl | rfl | rfl | rfl | rfl | rfl | rfl
  · exact fin .Z _ _ (by decide) rfl (fun _ _ => decide_eq_true_iff)
  · exact fin .Z_n _ _ (by decide) rfl (fun _ _ => decide_eq_true_iff)
  · exact fin .ULT _ _ (by decide) rfl (fun _ _ => decide_eq_true_iff)
  · exact fin .ULE _ _ (by decide) rfl (fun _ _ => decide_eq_true_iff)
  · exact fin .UGT _ _ (by decide) rfl (fun _ _ => decide_eq_true_iff)
  · exact fin .UGE _ _ (by decide) rfl (fun _ _ => decide_eq_true_iff)
  · exact fin .SLT _ _ (by decide) rfl (fun _ _ => decide_eq_true_iff)
  · exact fin .SLE _ _ (by decide) rfl (fun _ _ => decide_eq_true_iff)
  · exact fin .SGT _ _ (by decide) rfl (fun _ _ => decide_eq_true_iff)
  · exact fin .SGE _ _ (by decide) rfl (fun _ _ => decide_eq_true_iff)

/-- C75 fails for `neg`: it subtracts, so that with one operand the PE returns the operand itself. -/
theorem C75_violated_neg (truth : Sgn → Bool) (s : PESt) (a : Data) :
    ∃ bit, peCall truth s neg { data0 := a } = (.ok (a, .bit bit, false), s) := by
  obtain ⟨bit, hb, _⟩ := pe_bypass truth .Sub .unsigned .Z (by decide) s { data0 := a }
  refine ⟨bit, hb.trans ?_⟩
  simp only [opSpec, Int.sub_eq_add_neg, BitVec.ofInt_add, BitVec.ofInt_neg, ofInt_num]
  simp

/-- C75: the modes given to `add`, `and_`, `or_` and `xor` choose the operands: a constant is 0, `BYPASS` the input, the others the stored value. -/
theorem C75_modes (truth : Sgn → Bool) (s : PESt) (i : PEIn) (ra rb : Mode) :
    let pick (m : Mode) (stored input : Data) : Data := match m with | .CONST => 0 | .BYPASS => input | _ => stored
    let a := pick ra s.rega i.data0
    let b := pick rb s.regb i.data1
    (∃ bit, (peCall truth s (add ra rb) i).1 = .ok (a + b, .bit bit, false)) ∧ (∃ bit, (peCall truth s (and_ ra rb) i).1 = .ok (a &&& b, .bit bit, false)) ∧
    (∃ bit, (peCall truth s (or_ ra rb) i).1 = .ok (a ||| b, .bit bit, false)) ∧ (∃ bit, (peCall truth s (xor ra rb) i).1 = .ok (a ^^^ b, .bit bit, false)) := by
  intro pick a b
  have hp : ∀ (m : Mode) (st v : Data) (e : Bool), returned st ⟨m, BitVec.ofInt 16 0, v, e⟩ [] = pick m st v := by
    intro m st v e
    cases m <;> rfl
  have key : ∀ op : Op, ∃ bit, (peCall truth s (inst op { raMode := ra, rbMode := rb }) i).1 = .ok (opSpec op (truth .unsigned) a b i.bit0, .bit bit, false) := by
    intro op
    obtain ⟨bit, h1, _⟩ := C53_pe_partial truth s (inst op { raMode := ra, rbMode := rb }) i (fun h => by cases h)
    refine ⟨bit, h1.trans ?_⟩
    simp only [inst, hp]
    rfl
  refine ⟨?_, key .And, key .Or, key .XOr⟩
  obtain ⟨bit, h⟩ := key .Add
  exact ⟨bit, h.trans (by simp only [opSpec, BitVec.ofInt_add, ofInt_num])⟩

/-- C75: `inst` puts every argument into its field, integers in their lowest bits, and has 0, condition Z, unsigned and BYPASS for those not given;
every builder gives no others than the operation, the sign, the condition and the modes of the first two registers. -/
theorem C75_fields (op : Op) (sg : Sgn) (l : Int) (c : Cond) (m1 m2 m3 m4 m5 : Mode) (k1 k2 : Int) (b3 b4 b5 : Bool) :
    (inst op ⟨sg, l, c, m1, k1, m2, k2, m3, b3, m4, b4, m5, b5⟩ : Inst) =
      { alu := op, signed := sg, lut := BitVec.ofNat 8 (l % 256).toNat, cond := c, rega := m1, data0 := BitVec.ofNat 16 (k1 % 65536).toNat, regb := m2,
        data1 := BitVec.ofNat 16 (k2 % 65536).toNat, regd := m3, bit0 := b3, rege := m4, bit1 := b4, regf := m5, bit2 := b5 } ∧
    ∀ i ∈ [sub, neg, add m1 m2, and_ m1 m2, or_ m1 m2, xor m1 m2] ++ (results ++ unsignedResults).map (·.1) ++ comparisons.map (·.1),
      i.lut = 0 ∧ i.data0 = 0 ∧ i.data1 = 0 ∧ i.bit0 = false ∧ i.bit1 = false ∧ i.bit2 = false ∧ i.regd = .BYPASS ∧ i.rege = .BYPASS ∧ i.regf = .BYPASS := by
  constructor
  · simp only [inst, Inst.mk.injEq, true_and, and_true]
    refine ⟨?_, ?_, ?_⟩ <;> apply BitVec.eq_of_toNat_eq <;> rw [BitVec.toNat_ofInt, BitVec.toNat_ofNat] <;> omega
  · intro i hi
    simp only [results, unsignedResults, comparisons, List.map_append, List.map_cons, List.map_nil, List.cons_append, List.nil_append, List.append_assoc,
      List.mem_cons, List.not_mem_nil, or_false] at hi
    have key : ∀ (op : Op) (sg : Sgn) (c : Cond) (m1 m2 : Mode), i = inst op { signed := sg, cond := c, raMode := m1, rbMode := m2 } →
        i.lut = 0 ∧ i.data0 = 0 ∧ i.data1 = 0 ∧ i.bit0 = false ∧ i.bit1 = false ∧ i.bit2 = false ∧ i.regd = .BYPASS ∧ i.rege = .BYPASS ∧ i.regf = .BYPASS := by
      rintro op sg c m1 m2 rfl
      exact ⟨rfl, rfl, rfl, rfl, rfl, rfl, rfl, rfl, rfl⟩
    rcases hi with h | h | h | h | h | h | h | h | h | h | h | h | h | h | h | h | h | h | h | h | h | h | h | h | h | h | h | h | h | h | h | h | h | h | h | h <;>
      exact key _ _ _ _ _ h

/-- Cases: both truth values of `Signed.unsigned` are possible, and results of two builders. -/
example : (∃ truth : Sgn → Bool, truth .signed = true ∧ truth .unsigned = false) ∧ (∃ truth : Sgn → Bool, truth .unsigned = true) :=
  ⟨⟨fun s => decide (s = .signed), rfl, rfl⟩, ⟨fun _ => true, rfl⟩⟩
example : (peCall (fun s => decide (s = .signed)) {} smax { data0 := 0xffff, data1 := 1 }).1 = .ok (1, .bit false, false) := rfl
example : (peCall (fun s => decide (s = .signed)) {} umax { data0 := 0xffff, data1 := 1 }).1 = .ok (0xffff, .bit false, false) := rfl

end Peak.PE1.Asm
