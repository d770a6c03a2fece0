import Verif.Spec.RiscVAsmX
import Verif.Props.RiscVAsm
import Verif.Props.RiscVExt
import Verif.Props.RiscVM
/-!
# C80, C81: the assembler helpers of `examples/riscv_ext` and `examples/riscv_m`
-/

namespace Peak.RV

/-! ## C80: the builders of the extension -/

/-- C80: `asm_X(rs=..., rd=...)` and `asm_X(rs1=..., rd=...)`, for X in POPCNT, CNTLZ and CNTTZ, build an instruction that, executed from
any register file in which the source register can be read, writes the count of the source to `rd` (unless that is x0), leaves every other
register and goes on at `pc + 4`. -/
theorem C80_builders (t : BitInst) (src rd : Int) : ∃ inst, asmBit t (some src) (some rd) none = .ok inst ∧
    asmBit t none (some rd) (some src) = .ok inst ∧
    ∀ (rf : PyRF) (w : Word) (pc : Word), pyLoad rf (BitVec.ofInt 5 src) = .ok w →
      ∃ rf', extCall pyFile true rf inst pc = .ok (rf', pc + 4) ∧
        (BitVec.ofInt 5 rd ≠ 0 → ∃ r, pyLoad rf' (BitVec.ofInt 5 rd) = .ok r ∧ r.toNat = bitSpec t w) ∧
        ∀ i, i ≠ BitVec.ofInt 5 rd ∨ i = 0 → pyLoad rf' i = pyLoad rf i :=
  ⟨.Ext (ofPy 5 rd) (ofPy 5 src) t, rfl, rfl, fun _ _ pc h => C46_instruction h (ofPy 5 rd) t pc⟩

/-- C80: `asm_X` returns an instruction exactly when `rd` and exactly one of `rs` and `rs1` are given, and raises ValueError otherwise. -/
theorem C80_builders_arguments (t : BitInst) (rs rd rs1 : Option Int) :
    ((∃ inst, asmBit t rs rd rs1 = .ok inst) ↔ rd ≠ none ∧ (rs ≠ none ↔ rs1 = none)) ∧
      ((¬ ∃ inst, asmBit t rs rd rs1 = .ok inst) → asmBit t rs rd rs1 = .error .valueError) := by
  cases rs <;> cases rd <;> cases rs1 <;> simp [asmBit]

/-- Executing what a builder of the base set builds from two registers. -/
theorem built_runs (e : AluInst) (rs1 rd rs2 : Int) : ∃ inst, build e rs1 rd (some rs2) none = .ok inst ∧
    ∀ (rf : PyRF) (a b pc : Word), pyLoad rf (BitVec.ofInt 5 rs1) = .ok a → pyLoad rf (BitVec.ofInt 5 rs2) = .ok b →
      (∀ t, e = .shift t → b.toNat < 32) →
      ∃ rf', pyCall rf inst pc = .ok (rf', BitVec.ofNat 32 (pc.toNat + 4)) ∧
        (BitVec.ofInt 5 rd ≠ 0 → pyLoad rf' (BitVec.ofInt 5 rd) = .ok (isaAlu e a b)) ∧
        ∀ i, i ≠ BitVec.ofInt 5 rd ∨ i = 0 → pyLoad rf' i = pyLoad rf i := by
  have hb : build e rs1 rd (some rs2) none = .ok (.OP ⟨ofPy 5 rd, ofPy 5 rs1, ofPy 5 rs2⟩ e) := by
    cases e with
    | arith t => cases t <;> rfl
    | shift t => rfl
  refine ⟨_, hb, ?_⟩
  intro rf a b pc h1 h2 h3
  change pyLoad rf (ofPy 5 rs1) = .ok a at h1
  change pyLoad rf (ofPy 5 rs2) = .ok b at h2
  have hl : ∀ i v, pyLoad rf i = .ok v → (match pyLoad rf i with | .ok w => w | .error _ => 0) = v := by
    intro i v h
    rw [h]
  obtain ⟨rf', r1, r2⟩ := C44_step_partial (rf := rf) (x := fun i => match pyLoad rf i with | .ok w => w | .error _ => 0)
    (inst := .OP ⟨ofPy 5 rd, ofPy 5 rs1, ofPy 5 rs2⟩ e) pc (by
      intro i hi
      rcases List.mem_cons.mp hi with rfl | hi
      · simp only [h1]
      · rw [List.mem_singleton.mp hi]; simp only [h2]) (by
      cases e with
      | arith t => trivial
      | shift t =>
        show (match pyLoad rf (ofPy 5 rs2) with | .ok w => w | .error _ => (0 : Word)).toNat < 32
        rw [hl _ _ h2]
        exact h3 t rfl)
  refine ⟨rf', r1, ?_, ?_⟩
  · intro hz
    rw [r2 (BitVec.ofInt 5 rd), if_pos ⟨rfl, hz⟩]
    show Except.ok (isaAlu e (match pyLoad rf (ofPy 5 rs1) with | .ok w => w | .error _ => (0 : Word)) (match pyLoad rf (ofPy 5 rs2) with | .ok w => w | .error _ => (0 : Word))) = _
    rw [hl _ _ h1, hl _ _ h2]
  · intro i hi
    rw [r2 i, if_neg]
    rintro ⟨h, hz⟩
    rcases hi with hi | hi
    · exact hi (Option.some.inj h).symm
    · exact hz hi

/-- Executing what a builder of the base set builds from a register and an immediate. -/
theorem built_imm_runs (e : AluInst) (rs1 rd imm : Int) (h : ImmOk e imm) : ∃ inst, build e rs1 rd none (some imm) = .ok inst ∧
    ∀ (rf : PyRF) (a pc : Word), pyLoad rf (BitVec.ofInt 5 rs1) = .ok a →
      ∃ rf', pyCall rf inst pc = .ok (rf', BitVec.ofNat 32 (pc.toNat + 4)) ∧
        (BitVec.ofInt 5 rd ≠ 0 → pyLoad rf' (BitVec.ofInt 5 rd) = .ok (isaAlu e a (BitVec.ofInt 32 imm))) ∧
        ∀ i, i ≠ BitVec.ofInt 5 rd ∨ i = 0 → pyLoad rf' i = pyLoad rf i := by
  have shape : ∃ inst, build e rs1 rd none (some imm) = .ok inst ∧ inst.sources = [BitVec.ofInt 5 rs1] ∧ ∀ x, Covered x inst := by
    cases e with
    | arith t => cases t <;> exact ⟨_, rfl, rfl, fun x => by simp [Covered]⟩
    | shift t => exact ⟨_, rfl, rfl, fun x => trivial⟩
  obtain ⟨inst, hb, hsrc, hcov⟩ := shape
  obtain ⟨inst', hb', hdest, hres⟩ := C52_immediate_partial e rs1 rd imm h
  rw [hb, Except.ok.injEq] at hb'
  subst hb'
  refine ⟨inst, hb, ?_⟩
  intro rf a pc h1
  obtain ⟨rf', r1, r2⟩ := C44_step_partial (rf := rf) (x := fun _ => a) (inst := inst) pc (by
    intro i hi
    rw [hsrc] at hi
    rw [List.mem_singleton.mp hi, h1]) (hcov _)
  obtain ⟨q1, q2⟩ := hres (fun _ => a) pc
  refine ⟨rf', by rw [r1, q2], ?_, ?_⟩
  · intro hz
    rw [r2, if_pos ⟨hdest, hz⟩, q1]
  · intro i hi
    rw [r2 i, if_neg]
    rintro ⟨h, hz⟩
    rw [hdest] at h
    rcases hi with hi | hi
    · exact hi (Option.some.inj h).symm
    · exact hz hi

/-- C80, the builders of the base instruction set, as `riscv_ext.asm` exports them: `asm_X(rs1, rd, rs2=...)` executed by the simulator of
the extension writes X of the two registers to `rd`, leaves every other register and goes on at `pc + 4` (shifts by less than 32). -/
theorem C80_base_builders (e : AluInst) (rs1 rd rs2 : Int) : ∃ inst, build e rs1 rd (some rs2) none = .ok inst ∧
    ∀ (rf : PyRF) (a b pc : Word), pyLoad rf (BitVec.ofInt 5 rs1) = .ok a → pyLoad rf (BitVec.ofInt 5 rs2) = .ok b →
      (∀ t, e = .shift t → b.toNat < 32) →
      ∃ rf', extCall pyFile true rf (.base inst) pc = .ok (rf', BitVec.ofNat 32 (pc.toNat + 4)) ∧
        (BitVec.ofInt 5 rd ≠ 0 → pyLoad rf' (BitVec.ofInt 5 rd) = .ok (isaAlu e a b)) ∧
        ∀ i, i ≠ BitVec.ofInt 5 rd ∨ i = 0 → pyLoad rf' i = pyLoad rf i := built_runs e rs1 rd rs2

/-- C80, the same builders with an immediate: `asm_X(rs1, rd, imm=...)` executed by the simulator of the extension writes X of the register
and the immediate to `rd`, leaves every other register and goes on at `pc + 4`. -/
theorem C80_base_immediate_partial (e : AluInst) (rs1 rd imm : Int) (h : ImmOk e imm) : ∃ inst, build e rs1 rd none (some imm) = .ok inst ∧
    ∀ (rf : PyRF) (a pc : Word), pyLoad rf (BitVec.ofInt 5 rs1) = .ok a →
      ∃ rf', extCall pyFile true rf (.base inst) pc = .ok (rf', BitVec.ofNat 32 (pc.toNat + 4)) ∧
        (BitVec.ofInt 5 rd ≠ 0 → pyLoad rf' (BitVec.ofInt 5 rd) = .ok (isaAlu e a (BitVec.ofInt 32 imm))) ∧
        ∀ i, i ≠ BitVec.ofInt 5 rd ∨ i = 0 → pyLoad rf' i = pyLoad rf i := built_imm_runs e rs1 rd imm h

/-- C80, violated: `get_fields` and `set_fields`, which `riscv_ext.asm` exports, raise on every instruction of the extension, also when
`set_fields` is given no value at all: `get_fields` an AssertionError, `set_fields` a KeyError, or a ValueError or TypeError if the
extension was loaded before `riscv.asm`. -/
theorem C80_violated_fields (rd rs : Idx) (t : BitInst) (vals : FieldVals Int) :
    getFieldsX (.Ext rd rs t) = .error .assertionError ∧ setFieldsX false (.Ext rd rs t) vals = .error .keyError ∧
    (setFieldsX true (.Ext rd rs t) vals = .error .valueError ∨ setFieldsX true (.Ext rd rs t) vals = .error .typeError) ∧
    setFieldsX true (.Ext rd rs t) {} = .error .typeError := by
  refine ⟨rfl, rfl, ?_, rfl⟩
  obtain ⟨a, b, c, d⟩ := vals
  cases a with
  | some a => exact .inl rfl
  | none =>
    cases b with
    | some b => exact .inl rfl
    | none =>
      cases c with
      | none =>
        cases d with
        | some d => exact .inl rfl
        | none => exact .inr rfl
      | some c =>
        by_cases h1 : c < 0
        · refine .inl ?_
          simp [setFieldsX, setFieldE, h1, bind, Except.bind]
        · by_cases h2 : c % (2 ^ 5 : Int) = c
          · cases d with
            | some d =>
              refine .inl ?_
              have h2' : c % 32 = c := h2
              simp [setFieldsX, setFieldE, h1, h2', bind, Except.bind]
            | none =>
              refine .inr ?_
              have h2' : c % 32 = c := h2
              simp [setFieldsX, setFieldE, h1, h2', bind, Except.bind]
          · refine .inl ?_
            have h2' : ¬ c % 32 = c := h2
            simp [setFieldsX, setFieldE, h1, h2', bind, Except.bind]

/-- C80, for the instructions of the base set: what C45 says of `set_fields` and `get_fields` holds on the extension's instructions too. -/
theorem C80_fields_partial (ctor : Bool) (i : Inst) (vals : FieldVals Int) :
    (Fits i vals → ∃ j g g', setFieldsX ctor (.base i) vals = .ok (.base j) ∧ j.erase = i.erase ∧ getFieldsX (.base i) = .ok g ∧
      getFieldsX (.base j) = .ok g' ∧ ∀ f, g'.get f = match vals.get f with
        | some v => some v.toNat
        | none => g.get f) ∧
    (¬ Fits i vals → setFieldsX ctor (.base i) vals = .error .valueError) := by
  constructor
  · intro h
    obtain ⟨j, g, g', h1, h2, h3, h4, h5⟩ := C45_set_get h
    exact ⟨j, g, g', by simp [setFieldsX, h1], h2, h3, h4, h5⟩
  · intro h
    simp [setFieldsX, C45_set_rejects h]

/-- Cases of C80. -/
example : asmBit .CNTLZ (some 3) (some 4) none = .ok (.Ext 4 3 .CNTLZ) ∧ asmBit .CNTLZ none (some 4) (some 3) = .ok (.Ext 4 3 .CNTLZ) ∧
    asmBit .CNTLZ (some 3) none none = .error .valueError ∧ asmBit .CNTLZ (some 3) (some 4) (some 3) = .error .valueError ∧
    build (.arith .ADD) 1 2 (some 3) none = .ok (.OP ⟨2, 1, 3⟩ (.arith .ADD)) :=
  ⟨rfl, rfl, rfl, rfl, rfl⟩

/-! ## C81: `riscv_m/asm.py` -/

theorem setFieldsM_base (i : Inst) (vals : FieldVals Int) : setFieldsM (.base i) vals = (setFields i vals).map .base := by
  unfold setFieldsM setFields
  simp only [dataM]
  cases setField (unpack i).1 .rs1 vals.rs1 <;> [rfl; skip]
  cases setField (unpack i).1 .rs2 vals.rs2 <;> [rfl; skip]
  cases setField (unpack i).1 .rd vals.rd <;> [rfl; skip]
  cases setField (unpack i).1 .imm vals.imm <;> [rfl; skip]
  rename_i a b c d
  show (mkData _ (fun f => FieldVals.get ⟨a, b, c, d⟩ f) >>= _) = Except.map _ (mkData _ (fun f => FieldVals.get ⟨a, b, c, d⟩ f) >>= _)
  cases mkData (unpack i).1.layout (fun f => FieldVals.get ⟨a, b, c, d⟩ f) <;> rfl

/-- `set_fields` on a multiplication or division goes through the same steps as on an addition up to its constructor. -/
theorem setFieldsM_muldiv (d : R) (t : MulDivInst) (vals : FieldVals Int) :
    setFieldsM (.muldiv d t) vals = setFields (.OP d (.arith .ADD)) vals >>= fun _ => .error .keyError := by
  unfold setFieldsM setFields
  simp only [dataM, unpack]
  cases setField (.R d) .rs1 vals.rs1 <;> [rfl; skip]
  cases setField (.R d) .rs2 vals.rs2 <;> [rfl; skip]
  cases setField (.R d) .rd vals.rd <;> [rfl; skip]
  cases setField (.R d) .imm vals.imm <;> [rfl; skip]
  rename_i a b c e
  show (mkData .R (fun f => FieldVals.get ⟨a, b, c, e⟩ f) >>= _) = (mkData .R (fun f => FieldVals.get ⟨a, b, c, e⟩ f) >>= _) >>= _
  cases a <;> cases b <;> cases c <;> cases e <;> rfl

theorem getFieldsM_eq (i : InstM) : getFieldsM i = match i with
    | .base i => getFields i
    | .muldiv d _ => getFields (.OP d (.arith .ADD)) := by
  cases i <;> rfl

theorem range_muldiv (d : R) (t : MulDivInst) (f : Fld) : (InstM.muldiv d t).range f = (Inst.OP d (.arith .ADD)).range f := by cases f <;> rfl

theorem fits_muldiv {d : R} {t : MulDivInst} {vals : FieldVals Int} : FitsM (.muldiv d t) vals ↔ Fits (.OP d (.arith .ADD)) vals := by
  unfold FitsM Fits
  simp only [range_muldiv]

/-- C81: `get_fields` succeeds on every instruction of `riscv_m`; the fields it returns are those the instruction has, each within its
range. -/
theorem C81_get_fields (inst : InstM) : ∃ g, getFieldsM inst = .ok g ∧ ∀ f, match inst.range f with
    | none => g.get f = none
    | some (lo, n) => ∃ v, g.get f = some v ∧ Storable lo n v := by
  cases inst with
  | base i =>
    obtain ⟨g, hg, _⟩ := getFields_eq i
    exact ⟨g, hg, fun f => C45_get_range hg f⟩
  | muldiv d t =>
    obtain ⟨g, hg, _⟩ := getFields_eq (.OP d (.arith .ADD))
    refine ⟨g, hg, fun f => ?_⟩
    rw [range_muldiv]
    exact C45_get_range hg f

/-- C81: the fields of a multiplication or division are its three registers. -/
theorem C81_get_registers (d : R) (t : MulDivInst) :
    getFieldsM (.muldiv d t) = .ok ⟨some d.rs1.toNat, some d.rs2.toNat, some d.rd.toNat, none⟩ := rfl

/-- C81: when some requested value does not fit, `set_fields` raises ValueError. -/
theorem C81_set_rejects {inst : InstM} {vals : FieldVals Int} (h : ¬ FitsM inst vals) : setFieldsM inst vals = .error .valueError := by
  cases inst with
  | base i =>
    rw [setFieldsM_base, C45_set_rejects h]
    rfl
  | muldiv d t =>
    rw [setFieldsM_muldiv, C45_set_rejects (fun h' => h (fits_muldiv.mpr h'))]
    rfl

/-- C81, for the instructions of the base set: when all requested values fit, `set_fields` succeeds; reading the fields of the new
instruction gives the requested values, and the old ones where none was requested; nothing else of the instruction changes. -/
theorem C81_set_get_partial {i : Inst} {vals : FieldVals Int} (h : FitsM (.base i) vals) :
    ∃ inst' g g', setFieldsM (.base i) vals = .ok inst' ∧ inst'.erase = (InstM.base i).erase ∧ getFieldsM (.base i) = .ok g ∧
      getFieldsM inst' = .ok g' ∧ ∀ f, g'.get f = match vals.get f with
        | some v => some v.toNat
        | none => g.get f := by
  obtain ⟨j, g, g', h1, h2, h3, h4, h5⟩ := C45_set_get (inst := i) h
  exact ⟨.base j, g, g', by rw [setFieldsM_base, h1]; rfl, by simp only [InstM.erase, h2], h3, h4, h5⟩

/-- C81, violated: on a multiplication or division `set_fields` raises KeyError whenever the requested values fit. -/
theorem C81_violated_set {d : R} {t : MulDivInst} {vals : FieldVals Int} (h : FitsM (.muldiv d t) vals) :
    setFieldsM (.muldiv d t) vals = .error .keyError := by
  obtain ⟨j, g, g', h1, _⟩ := C45_set_get (fits_muldiv.mp h)
  rw [setFieldsM_muldiv, h1]
  rfl

/-- C81: the builders of `riscv_m/asm.py`: `asm_X(rs1, rd, rs2=...)` executed by the simulator of `riscv_m` writes X of the two registers
to `rd`, leaves every other register and goes on at `pc + 4` (shifts by less than 32). -/
theorem C81_builders (ops : DivOps) (e : AluInst) (rs1 rd rs2 : Int) : ∃ inst, build e rs1 rd (some rs2) none = .ok inst ∧
    ∀ (rf : PyRF) (a b pc : Word), pyLoad rf (BitVec.ofInt 5 rs1) = .ok a → pyLoad rf (BitVec.ofInt 5 rs2) = .ok b →
      (∀ t, e = .shift t → b.toNat < 32) →
      ∃ rf', pyCallM ops rf (.base inst) pc = .ok (rf', BitVec.ofNat 32 (pc.toNat + 4)) ∧
        (BitVec.ofInt 5 rd ≠ 0 → pyLoad rf' (BitVec.ofInt 5 rd) = .ok (isaAlu e a b)) ∧
        ∀ i, i ≠ BitVec.ofInt 5 rd ∨ i = 0 → pyLoad rf' i = pyLoad rf i := built_runs e rs1 rd rs2

/-- C81: the builders of `riscv_m/asm.py` with an immediate. -/
theorem C81_immediate_partial (ops : DivOps) (e : AluInst) (rs1 rd imm : Int) (h : ImmOk e imm) : ∃ inst, build e rs1 rd none (some imm) = .ok inst ∧
    ∀ (rf : PyRF) (a pc : Word), pyLoad rf (BitVec.ofInt 5 rs1) = .ok a →
      ∃ rf', pyCallM ops rf (.base inst) pc = .ok (rf', BitVec.ofNat 32 (pc.toNat + 4)) ∧
        (BitVec.ofInt 5 rd ≠ 0 → pyLoad rf' (BitVec.ofInt 5 rd) = .ok (isaAlu e a (BitVec.ofInt 32 imm))) ∧
        ∀ i, i ≠ BitVec.ofInt 5 rd ∨ i = 0 → pyLoad rf' i = pyLoad rf i := built_imm_runs e rs1 rd imm h

/-- An immediate in range: the largest one `asm_SUB` takes. -/
example : ImmOk (.arith .SUB) 2048 ∧ ImmOk (.arith .ADD) (-2048) ∧ ImmOk (.shift .SLL) 31 ∧ ¬ ImmOk (.arith .SUB) (-2048) := by
  simp [ImmOk]

/-- Cases of C81: the registers of a division, and the failing `set_fields`. -/
example : getFieldsM (.muldiv ⟨3, 1, 2⟩ .DIV) = .ok ⟨some 1, some 2, some 3, none⟩ ∧
    setFieldsM (.muldiv ⟨3, 1, 2⟩ .DIV) { rd := some 4 } = .error .keyError ∧
    setFieldsM (.muldiv ⟨3, 1, 2⟩ .DIV) { rd := some 32 } = .error .valueError ∧
    setFieldsM (.base (.OP ⟨3, 1, 2⟩ (.arith .SUB))) { rd := some 4 } = .ok (.base (.OP ⟨4, 1, 2⟩ (.arith .SUB))) :=
  ⟨rfl, rfl, rfl, rfl⟩

example : FitsM (.muldiv ⟨3, 1, 2⟩ .DIV) { rd := some 4 } := by
  intro f v h
  cases f <;> cases h
  exact ⟨0, 5, rfl, by unfold Storable; decide⟩

end Peak.RV
