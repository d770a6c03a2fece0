import Verif.Lemmas.RiscV
/-!
# C43, C44: the RISC-V example
-/

namespace Peak.RV

/-- The register files that calls of the simulator lead to from a new simulator object; a call that raises leaves the file as it
was, so it adds no state. -/
inductive Reach : PyRF → Prop
  | init : Reach pyInit
  | call (rf rf' inst pc pc') : Reach rf → pyCall rf inst pc = .ok (rf', pc') → Reach rf'

theorem bind_ok {ε α β : Type} {x : Except ε α} {f : α → Except ε β} {r : β} (h : x >>= f = .ok r) : ∃ a, x = .ok a ∧ f a = .ok r := by
  cases x with
  | error e => cases h
  | ok a => exact ⟨a, rfl, h⟩

theorem dec_rd {as : Bool} {l1 l2 : Idx → Except Err Word} {pc : Word} {inst : Inst} {d : Dec}
    (h : decode l1 l2 as pc inst = .ok d) : d.rd = inst.dest.getD 0 := by
  cases inst with
  | OP data tag =>
    obtain ⟨a, _, h⟩ := bind_ok h
    obtain ⟨b, _, h⟩ := bind_ok h
    cases h; rfl
  | OP_IMM i =>
    cases i with
    | arith data tag =>
      simp only [decode] at h
      split at h
      · cases h
      · obtain ⟨a, _, h⟩ := bind_ok h
        cases h; rfl
    | shift data tag =>
      obtain ⟨a, _, h⟩ := bind_ok h
      cases h; rfl
  | JALR data =>
    obtain ⟨a, _, h⟩ := bind_ok h
    cases h; rfl
  | Branch data tag =>
    obtain ⟨a, _, h⟩ := bind_ok h
    obtain ⟨b, _, h⟩ := bind_ok h
    simp only at h
    split at h <;> (cases h; rfl)
  | LUI _ => cases h; rfl
  | AUIPC _ => cases h; rfl
  | JAL _ => cases h; rfl
  | Load _ _ => cases h; rfl
  | Store _ _ => cases h; rfl

theorem call_inv {σ : Type} {F : RegFile σ} {as : Bool} {s s' : σ} {inst : Inst} {pc pc' : Word} (h : call F as s inst pc = .ok (s', pc')) :
    ∃ v, s' = F.store s (inst.dest.getD 0) v := by
  obtain ⟨d, hd, h⟩ := bind_ok h
  simp only at h
  split at h
  · cases h
  · cases h
    exact ⟨_, by rw [dec_rd hd]⟩

theorem store_apply (rf : PyRF) (j : Idx) (v : Word) (i : Idx) : pyStore rf j v i = if i = j ∧ i ≠ 0 then some v else rf i := by
  unfold pyStore
  by_cases hj : j = 0
  · subst hj
    rw [if_neg (by simp), if_neg (fun h => h.2 h.1)]
  · rw [if_pos hj]
    by_cases hi : i = j
    · rw [if_pos hi, if_pos ⟨hi, fun h => hj (hi.symm.trans h)⟩]
    · rw [if_neg hi, if_neg (fun h => hi h.1)]

/-- C43: whatever sequence of instructions has been executed, register 0 reads as zero. -/
theorem C43_x0_reads_zero {rf : PyRF} (h : Reach rf) : pyLoad rf 0 = .ok 0 := by
  have : rf 0 = some 0 := by
    induction h with
    | init => rfl
    | call rf rf' inst pc pc' _ hc ih =>
      obtain ⟨v, rfl⟩ := call_inv hc
      rw [show pyFile.store = pyStore from rfl, store_apply, if_neg (fun h => h.2 rfl)]
      exact ih
  unfold pyLoad
  rw [this]

/-- C43: an instruction changes no register but its destination register; branches, loads and stores, which have no destination,
change none.  Register 0 is never changed. -/
theorem C43_frame {rf rf' : PyRF} {inst : Inst} {pc pc' : Word} (h : pyCall rf inst pc = .ok (rf', pc')) (i : Idx)
    (hi : inst.dest ≠ some i ∨ i = 0) : pyLoad rf' i = pyLoad rf i := by
  obtain ⟨v, rfl⟩ := call_inv h
  have : pyFile.store rf (inst.dest.getD 0) v i = rf i := by
    rw [show pyFile.store = pyStore from rfl, store_apply, if_neg]
    rintro ⟨h1, h2⟩
    rcases hi with hi | hi
    · cases hd : inst.dest with
      | none => rw [hd] at h1; exact h2 h1
      | some j => rw [hd] at h1 hi; exact hi (congrArg some h1.symm)
    · exact h2 hi
  unfold pyLoad
  rw [this]

/-- C43, the SMT register file: register 0 reads as zero at both ports and a store to it leaves `rd` unchanged. -/
theorem C43_smt_x0 (s : SmtRF) (v : Word) :
    smtFile.load1 s 0 = .ok 0 ∧ smtFile.load2 s 0 = .ok 0 ∧ smtFile.store s 0 v = s := by
  simp [smtFile]

/-- A run of three instructions; the last branch is taken. -/
def demoProg : Word → Inst := fun pc =>
  if pc = 0 then .OP_IMM (.arith ⟨1, 0, 5⟩ .ADD)
  else if pc = 4 then .OP_IMM (.arith ⟨0, 1, 7⟩ .ADD)
  else .Branch ⟨0, 1, -4⟩ .BLT

example : ∃ rf, pyRun demoProg 3 pyInit 0 = .ok (rf, 0) ∧ pyLoad rf 0 = .ok 0 ∧ pyLoad rf 1 = .ok 5 ∧ pyLoad rf 2 = .error .keyError :=
  ⟨_, rfl, rfl, rfl, rfl⟩

/-! ## C44 -/

/-- The ALU computes the manual's results, register shifts only for amounts below 32. -/
theorem alu_spec (e : AluInst) (a b : Word) (h : ∀ t, e = .shift t → b.toNat < 32) : alu e a b = isaAlu e a b := by
  cases e with
  | arith t =>
    cases t with
    | ADD => exact (add_nat a b).symm
    | SUB => exact (sub_nat a b).symm
    | SLT => exact slt_spec a b
    | SLTU => exact ult_spec a b
    | AND => rfl
    | OR => rfl
    | XOR => rfl
  | shift t =>
    have hb := h t rfl
    cases t with
    | SLL => exact sll_spec a b hb
    | SRL => exact srl_spec a b hb
    | SRA => exact sra_spec a b hb

theorem xor_beq (a b : Word) : ((a ^^^ b) == 0) = decide (a.toNat = b.toNat) := by
  rw [Bool.eq_iff_iff]
  simp [BitVec.toNat_inj]

theorem bit0_slt (a b : Word) : (bitWord (a.slt b)).getLsbD 0 = decide (a.toInt < b.toInt) := by
  rw [BitVec.slt]
  cases h : decide (a.toInt < b.toInt) <;> rfl

theorem bit0_ult (a b : Word) : (bitWord (a.ult b)).getLsbD 0 = decide (a.toNat < b.toNat) := by
  rw [BitVec.ult]
  cases h : decide (a.toNat < b.toNat) <;> rfl

theorem load_store (rf : PyRF) (inst : Inst) (v : Word) (i : Idx) :
    pyLoad (pyStore rf (inst.dest.getD 0) v) i = if inst.dest = some i ∧ i ≠ 0 then .ok v else pyLoad rf i := by
  have hc : (i = inst.dest.getD 0 ∧ i ≠ 0) ↔ (inst.dest = some i ∧ i ≠ 0) := by
    cases inst.dest with
    | none => exact ⟨fun h => absurd h.1 h.2, fun h => by cases h.1⟩
    | some j => exact ⟨fun h => ⟨congrArg some h.1.symm, h.2⟩, fun h => ⟨(Option.some.inj h.1).symm, h.2⟩⟩
  unfold pyLoad
  rw [store_apply]
  by_cases h : inst.dest = some i ∧ i ≠ 0
  · rw [if_pos h, if_pos (hc.mpr h)]
  · rw [if_neg h, if_neg (fun h' => h (hc.mp h'))]

/-- What a call does when its operand registers have been written: the new file, the result and the next address. -/
theorem call_ok {rf : PyRF} {inst : Inst} {pc : Word} {d : Dec} (hd : decode (pyLoad rf) (pyLoad rf) true pc inst = .ok d)
    (hjb : (d.isJump && d.isBranch) = false) :
    pyCall rf inst pc = .ok (pyStore rf (inst.dest.getD 0) (commit d pc (alu d.exec d.a d.b)).1, (commit d pc (alu d.exec d.a d.b)).2) := by
  unfold pyCall call
  rw [show pyFile.load1 = pyLoad from rfl, show pyFile.load2 = pyLoad from rfl, hd, ← dec_rd hd]
  show (if (true && (d.isJump && d.isBranch)) = true then _ else _) = _
  rw [hjb]
  rfl

/-- C44, one instruction, for the instructions the example implements (`Covered`: no loads and stores, and register shifts by less
than 32): when its operand registers have been written, the simulator writes the manual's result to the destination register, leaves
the others alone and returns the manual's next address. -/
theorem C44_step_partial {rf : PyRF} {x : Idx → Word} {inst : Inst} (pc : Word) (hs : ∀ i ∈ inst.sources, pyLoad rf i = .ok (x i))
    (hc : Covered x inst) :
    ∃ rf', pyCall rf inst pc = .ok (rf', isaNext x pc inst) ∧
      ∀ i, pyLoad rf' i = if inst.dest = some i ∧ i ≠ 0 then .ok (isaResult x pc inst) else pyLoad rf i := by
  have key : ∀ d, decode (pyLoad rf) (pyLoad rf) true pc inst = .ok d → (d.isJump && d.isBranch) = false →
      (commit d pc (alu d.exec d.a d.b)).2 = isaNext x pc inst →
      (inst.dest ≠ none → (commit d pc (alu d.exec d.a d.b)).1 = isaResult x pc inst) →
      ∃ rf', pyCall rf inst pc = .ok (rf', isaNext x pc inst) ∧
        ∀ i, pyLoad rf' i = if inst.dest = some i ∧ i ≠ 0 then .ok (isaResult x pc inst) else pyLoad rf i := by
    intro d hd hjb h2 h1
    refine ⟨_, (call_ok hd hjb).trans (by rw [h2]), fun i => ?_⟩
    rw [load_store]
    by_cases hi : inst.dest = some i ∧ i ≠ 0
    · rw [if_pos hi, if_pos hi, h1 (by rw [hi.1]; simp)]
    · rw [if_neg hi, if_neg hi]
  cases inst with
  | OP data tag =>
    refine key { a := x data.rs1, b := x data.rs2, exec := tag, rd := data.rd } ?_ rfl (add4 pc).symm ?_
    · simp only [decode, hs data.rs1 (by simp [Inst.sources]), hs data.rs2 (by simp [Inst.sources])]
      rfl
    · intro _
      show alu tag _ _ &&& _ = _
      rw [full_mask, alu_spec]
      · rfl
      · rintro t rfl
        exact hc
  | OP_IMM i =>
    cases i with
    | arith data tag =>
      refine key { a := x data.rs1, b := sext data.imm 20, exec := .arith tag, rd := data.rd } ?_ rfl (add4 pc).symm ?_
      · have : (tag == ArithInst.SUB) = false := beq_eq_false_iff_ne.mpr hc
        simp only [decode, hs data.rs1 (by simp [Inst.sources]), this]
        rfl
      · intro _
        show alu _ _ _ &&& _ = _
        rw [full_mask, alu_spec _ _ _ (by rintro t ⟨⟩)]
        rfl
    | shift data tag =>
      refine key { a := x data.rs1, b := zext data.imm 27, exec := .shift tag, rd := data.rd } ?_ rfl (add4 pc).symm ?_
      · simp only [decode, hs data.rs1 (by simp [Inst.sources])]
        rfl
      · intro _
        have he : (zext data.imm 27 : Word) = BitVec.ofNat 32 data.imm.toNat := by
          apply BitVec.eq_of_toNat_eq; simp [zext]
        have hl : (zext data.imm 27 : Word).toNat < 32 := by
          have := data.imm.isLt
          rw [he]
          simp
          omega
        show alu _ _ _ &&& _ = _
        rw [full_mask, alu_spec _ _ _ (fun _ _ => hl), he]
        rfl
  | LUI data =>
    refine key { a := 0, b := bvshl (sext data.imm 12) 12, exec := .arith .ADD, rd := data.rd } rfl rfl (add4 pc).symm ?_
    intro _
    show ((0 : Word) + bvshl (sext data.imm 12) 12) &&& _ = _
    rw [full_mask, upper]
    exact BitVec.zero_add _
  | AUIPC data =>
    refine key { a := pc, b := bvshl (sext data.imm 12) 12, exec := .arith .ADD, rd := data.rd } rfl rfl (add4 pc).symm ?_
    intro _
    show (pc + bvshl (sext data.imm 12) 12) &&& _ = BitVec.ofNat 32 _
    rw [full_mask, upper]
    apply BitVec.eq_of_toNat_eq
    simp
  | JAL data =>
    refine key { a := pc, b := bvshl (sext data.imm 12) 1, exec := .arith .ADD, rd := data.rd, isJump := true } rfl rfl ?_ ?_
    · show (pc + bvshl (sext data.imm 12) 1) &&& _ = BitVec.ofInt 32 _
      rw [full_mask, twice data.imm 12 rfl, add_imm]
    · intro _
      exact (add4 pc).symm
  | JALR data =>
    refine key { a := x data.rs1, b := sext data.imm 20, exec := .arith .ADD, rd := data.rd, isJump := true, lsbMask := ~~~1 } ?_ rfl ?_ ?_
    · simp only [decode, hs data.rs1 (by simp [Inst.sources])]
      rfl
    · show (x data.rs1 + sext data.imm 20) &&& _ = BitVec.ofInt 32 _
      rw [even_mask, add_imm]
      rfl
    · intro _
      exact (add4 pc).symm
  | Branch data tag =>
    have h1 := hs data.rs1 (by simp [Inst.sources])
    have h2 := hs data.rs2 (by simp [Inst.sources])
    have ht : bvshl (sext data.imm 20) 1 = BitVec.ofInt 32 (2 * data.imm.toInt) := twice data.imm 20 rfl
    have hb : ∀ c t : Bool, c = t → (if c = true then pc + bvshl (sext data.imm 20) 1 else pc + 4) =
        if t = true then BitVec.ofInt 32 ((pc.toNat : Int) + 2 * data.imm.toInt) else BitVec.ofNat 32 (pc.toNat + 4) := by
      rintro c _ rfl
      rw [ht, add_imm, add4]
    cases tag with
    | BEQ =>
      refine key { a := x data.rs1, b := x data.rs2, exec := .arith .XOR, isBranch := true, branchOffset := bvshl (sext data.imm 20) 1,
                    cmpZero := true, invert := false } ?_ rfl ?_ (fun h => absurd rfl h)
      · simp only [decode, h1, h2]
        rfl
      · refine hb _ _ ?_
        show ((((x data.rs1 ^^^ x data.rs2) &&& _) == 0) ^^ _) = _
        rw [full_mask, xor_beq]
        simp [isaTaken]
    | BNE =>
      refine key { a := x data.rs1, b := x data.rs2, exec := .arith .XOR, isBranch := true, branchOffset := bvshl (sext data.imm 20) 1,
                    cmpZero := true, invert := true } ?_ rfl ?_ (fun h => absurd rfl h)
      · simp only [decode, h1, h2]
        rfl
      · refine hb _ _ ?_
        show ((((x data.rs1 ^^^ x data.rs2) &&& _) == 0) ^^ _) = _
        rw [full_mask, xor_beq]
        simp [isaTaken]
    | BLT =>
      refine key { a := x data.rs1, b := x data.rs2, exec := .arith .SLT, isBranch := true, branchOffset := bvshl (sext data.imm 20) 1,
                    cmpZero := false, invert := false } ?_ rfl ?_ (fun h => absurd rfl h)
      · simp only [decode, h1, h2]
        rfl
      · refine hb _ _ ?_
        show ((bitWord (BitVec.slt (x data.rs1) (x data.rs2)) &&& _).getLsbD 0 ^^ _) = _
        rw [full_mask, bit0_slt]
        simp [isaTaken]
    | BLTU =>
      refine key { a := x data.rs1, b := x data.rs2, exec := .arith .SLTU, isBranch := true, branchOffset := bvshl (sext data.imm 20) 1,
                    cmpZero := false, invert := false } ?_ rfl ?_ (fun h => absurd rfl h)
      · simp only [decode, h1, h2]
        rfl
      · refine hb _ _ ?_
        show ((bitWord (BitVec.ult (x data.rs1) (x data.rs2)) &&& _).getLsbD 0 ^^ _) = _
        rw [full_mask, bit0_ult]
        simp [isaTaken]
    | BGE =>
      refine key { a := x data.rs1, b := x data.rs2, exec := .arith .SLT, isBranch := true, branchOffset := bvshl (sext data.imm 20) 1,
                    cmpZero := false, invert := true } ?_ rfl ?_ (fun h => absurd rfl h)
      · simp only [decode, h1, h2]
        rfl
      · refine hb _ _ ?_
        show ((bitWord (BitVec.slt (x data.rs1) (x data.rs2)) &&& _).getLsbD 0 ^^ _) = _
        rw [full_mask, bit0_slt]
        rw [Bool.eq_iff_iff]
        simp [isaTaken]
    | BGEU =>
      refine key { a := x data.rs1, b := x data.rs2, exec := .arith .SLTU, isBranch := true, branchOffset := bvshl (sext data.imm 20) 1,
                    cmpZero := false, invert := true } ?_ rfl ?_ (fun h => absurd rfl h)
      · simp only [decode, h1, h2]
        rfl
      · refine hb _ _ ?_
        show ((bitWord (BitVec.ult (x data.rs1) (x data.rs2)) &&& _).getLsbD 0 ^^ _) = _
        rw [full_mask, bit0_ult]
        rw [Bool.eq_iff_iff]
        simp [isaTaken]
  | Load _ _ => exact hc.elim
  | Store _ _ => exact hc.elim

/-- C44, programs, for the same instructions: started with every register written, the simulator follows the manual's machine for any
number of steps. -/
theorem C44_run_partial (prog : Word → Inst) (n : Nat) : ∀ (rf : PyRF) (m : Mach), (∀ i, pyLoad rf i = .ok (m.x i)) →
    (∀ k, k < n → Covered (isaRun prog k m).x (prog (isaRun prog k m).pc)) →
    ∃ rf', pyRun prog n rf m.pc = .ok (rf', (isaRun prog n m).pc) ∧ ∀ i, pyLoad rf' i = .ok ((isaRun prog n m).x i) := by
  induction n with
  | zero => exact fun rf m h _ => ⟨rf, rfl, h⟩
  | succ n ih =>
    intro rf m h hc
    obtain ⟨rf1, h1, h2⟩ := C44_step_partial (inst := prog m.pc) m.pc (fun i _ => h i) (hc 0 (Nat.succ_pos n))
    obtain ⟨rf2, h3, h4⟩ := ih rf1 (isaStep m (prog m.pc)) (fun i => by
        rw [h2 i, h i]
        simp only [isaStep]
        split <;> rfl)
      (fun k hk => hc (k + 1) (Nat.succ_lt_succ hk))
    refine ⟨rf2, ?_, h4⟩
    simp only [pyRun, h1]
    exact h3

/-- Register contents for the examples. -/
def demoX : Idx → Word := fun i => if i = 0 then 0 else if i = 1 then 33 else 3

/-- A case of C44: a register shift by three. -/
example : ∃ rf', pyCall (fun i => some (demoX i)) (.OP ⟨3, 1, 2⟩ (.shift .SLL)) 100 = .ok (rf', 104) ∧ pyLoad rf' 3 = .ok 264 := by
  obtain ⟨rf', h1, h2⟩ := C44_step_partial (rf := fun i => some (demoX i)) (x := demoX)
    (inst := .OP ⟨3, 1, 2⟩ (.shift .SLL)) 100 (fun i _ => rfl) (by show _ < 32; decide)
  exact ⟨rf', h1, (h2 3).trans (by rfl)⟩

/-- A program that satisfies the hypotheses of `C44_run_partial` for any number of steps: an endless loop with a counter. -/
example (n : Nat) : ∃ rf', pyRun (fun pc => if pc = 0 then .OP_IMM (.arith ⟨2, 2, 1⟩ .ADD) else .JAL ⟨0, -2⟩) n (fun i => some (demoX i)) 0 =
    .ok (rf', (isaRun (fun pc => if pc = 0 then .OP_IMM (.arith ⟨2, 2, 1⟩ .ADD) else .JAL ⟨0, -2⟩) n ⟨demoX, 0⟩).pc) := by
  obtain ⟨rf', h, _⟩ := C44_run_partial (fun pc => if pc = 0 then .OP_IMM (.arith ⟨2, 2, 1⟩ .ADD) else .JAL ⟨0, -2⟩) n
    (fun i => some (demoX i)) ⟨demoX, 0⟩ (fun i => rfl) (fun k _ => by
      show Covered _ (if _ then _ else _)
      split
      · exact (by decide : ArithInst.ADD ≠ .SUB)
      · exact trivial)
  exact ⟨rf', h⟩

/-- C44 is false of register shifts: a shift left by 33 gives 0, the manual shifts by the low five bits of the operand. -/
theorem C44_violated_shift : ∃ (rf : PyRF) (x : Idx → Word) (inst : Inst) (pc : Word) (rf' : PyRF) (pc' : Word), (∀ i, pyLoad rf i = .ok (x i)) ∧
    pyCall rf inst pc = .ok (rf', pc') ∧ inst.dest = some 2 ∧ pyLoad rf' 2 = .ok 0 ∧ isaResult x pc inst = 6 :=
  ⟨fun i => some (demoX i), demoX, .OP ⟨2, 3, 1⟩ (.shift .SLL), 0, _, _, fun _ => rfl, rfl, rfl, rfl, by decide⟩

/-- C44 is false of programs that read a register before any instruction wrote it: the simulator raises KeyError. -/
theorem C44_violated_unwritten : ∃ inst : Inst, (∀ x, Covered x inst) ∧ pyCall pyInit inst 0 = .error .keyError :=
  ⟨.OP ⟨1, 2, 0⟩ (.arith .ADD), fun _ => trivial, rfl⟩

/-- C44 is false of loads: whatever the memory, the manual's load of address 0 ends with the loaded value in the destination register, the
simulator leaves that register as it was. -/
theorem C44_violated_load (rf : PyRF) (data : I) (tag : LoadInst) (pc : Word) :
    ∃ rf', pyCall rf (.Load data tag) pc = .ok (rf', pc + 4) ∧ ∀ i, pyLoad rf' i = pyLoad rf i :=
  ⟨rf, rfl, fun _ => rfl⟩

/-! ## C51: the mappable wrapper -/

/-- The register read at the first port. -/
def Inst.port1 : Inst → Option Idx
  | .OP d _ => some d.rs1
  | .OP_IMM (.arith d _) => some d.rs1
  | .OP_IMM (.shift d _) => some d.rs1
  | .JALR d => some d.rs1
  | .Branch d _ => some d.rs1
  | _ => none

/-- The register read at the second port. -/
def Inst.port2 : Inst → Option Idx
  | .OP d _ => some d.rs2
  | .Branch d _ => some d.rs2
  | _ => none

theorem dec_smt {rf : PyRF} {inst : Inst} {pc rs1 rs2 rd : Word} (h0 : pyLoad rf 0 = .ok 0)
    (h1 : ∀ i, inst.port1 = some i → i ≠ 0 → pyLoad rf i = .ok rs1) (h2 : ∀ i, inst.port2 = some i → i ≠ 0 → pyLoad rf i = .ok rs2) {d : Dec}
    (h : decode (pyLoad rf) (pyLoad rf) true pc inst = .ok d) :
    decode (smtFile.load1 ⟨rs1, rs2, rd⟩) (smtFile.load2 ⟨rs1, rs2, rd⟩) false pc inst = .ok d := by
  have k1 : ∀ i, inst.port1 = some i → smtFile.load1 ⟨rs1, rs2, rd⟩ i = pyLoad rf i := by
    intro i hi
    show Except.ok (if i ≠ 0 then rs1 else 0) = _
    by_cases hz : i = 0
    · rw [if_neg (fun h => h hz), hz, h0]
    · rw [if_pos hz, h1 i hi hz]
  have k2 : ∀ i, inst.port2 = some i → smtFile.load2 ⟨rs1, rs2, rd⟩ i = pyLoad rf i := by
    intro i hi
    show Except.ok (if i ≠ 0 then rs2 else 0) = _
    by_cases hz : i = 0
    · rw [if_neg (fun h => h hz), hz, h0]
    · rw [if_pos hz, h2 i hi hz]
  cases inst with
  | OP data tag => simp only [decode, k1 data.rs1 rfl, k2 data.rs2 rfl]; exact h
  | OP_IMM i =>
    cases i with
    | arith data tag =>
      simp only [decode] at h
      split at h
      · cases h
      · simp only [decode, k1 data.rs1 rfl]; exact h
    | shift data tag => simp only [decode, k1 data.rs1 rfl]; exact h
  | JALR data => simp only [decode, k1 data.rs1 rfl]; exact h
  | Branch data tag => simp only [decode, k1 data.rs1 rfl, k2 data.rs2 rfl]; exact h
  | LUI _ => exact h
  | AUIPC _ => exact h
  | JAL _ => exact h
  | Load _ _ => exact h
  | Store _ _ => exact h

/-- C51: whenever the simulator executes an instruction, the mappable wrapper, given the contents of the registers the instruction reads,
returns the same next address and, as `rd`, the new content of the destination register, or its input `rd` when nothing is written. -/
theorem C51_mappable {rf rf' : PyRF} {inst : Inst} {pc pc' rs1 rs2 rd : Word} (h0 : pyLoad rf 0 = .ok 0)
    (h1 : ∀ i, inst.port1 = some i → i ≠ 0 → pyLoad rf i = .ok rs1) (h2 : ∀ i, inst.port2 = some i → i ≠ 0 → pyLoad rf i = .ok rs2)
    (h : pyCall rf inst pc = .ok (rf', pc')) :
    ∃ out, mappable inst pc rs1 rs2 rd = .ok (pc', out) ∧ (∀ i, inst.dest = some i → i ≠ 0 → pyLoad rf' i = .ok out) ∧
      (inst.dest = none ∨ inst.dest = some 0 → out = rd) := by
  obtain ⟨d, hd, h⟩ := bind_ok h
  have hs := dec_smt (rd := rd) h0 h1 h2 hd
  simp only at h
  split at h
  · cases h
  · cases h
    refine ⟨(smtFile.store ⟨rs1, rs2, rd⟩ (inst.dest.getD 0) (commit d pc (alu d.exec d.a d.b)).1).rd, ?_, ?_, ?_⟩
    · unfold mappable call
      rw [hs, ← dec_rd hd]
      rfl
    · intro i hi hz
      show pyLoad (pyStore rf d.rd _) i = _
      rw [dec_rd hd, load_store, if_pos ⟨hi, hz⟩, hi]
      exact congrArg Except.ok (if_pos hz).symm
    · intro hi
      have hz : inst.dest.getD 0 = 0 := by rcases hi with hi | hi <;> rw [hi] <;> rfl
      rw [hz, (C43_smt_x0 _ _).2.2]

/-- A case of C51. -/
example : mappable (.OP ⟨3, 1, 2⟩ (.arith .SUB)) 8 33 3 7 = .ok (12, 30) ∧
    ∃ rf', pyCall (fun i => some (demoX i)) (.OP ⟨3, 1, 2⟩ (.arith .SUB)) 8 = .ok (rf', 12) ∧ pyLoad rf' 3 = .ok 30 :=
  ⟨rfl, _, rfl, rfl⟩

end Peak.RV
