import Verif.Spec.Pico
/-!
# C56: the Pico simulator
-/

namespace Peak.Pico

/-! ### Memory and registers -/

theorem memInit_get {α : Type} (n : Nat) (l : List α) (d : α) (i : Nat) :
    (memInit n l d)[i]? = if i < n then some (l[i]?.getD d) else none := by
  unfold memInit
  split
  · rename_i h; simp [h]
  · rename_i h; simp; omega

theorem memInit_length {α : Type} (n : Nat) (l : List α) (d : α) : (memInit n l d).length = n := by simp [memInit]

theorem rom_at {α : Type} (z : α) (m : List α) (i : Nat) :
    (romCall z m i).1 = match m[i]? with
      | none => .error .indexError
      | some v => .ok v := by
  unfold romCall pyIndex
  by_cases h : i < m.length
  · simp [h, regCall]
  · simp [h]

theorem read_ok {s : St} (h : s.regs.length = 16) (r : Reg) : s.read r = .ok (s.arch.reg r) := by
  have hr : r.toNat < s.regs.length := by have := r.isLt; omega
  simp [St.read, St.readCall, St.arch, ramCall, pyIndex, hr, regCall]

theorem write_ok {s : St} (h : s.regs.length = 16) (r : Reg) (w : Word) :
    s.write r w = .ok { s with regs := s.regs.set r.toNat w } := by
  have hr : r.toNat < s.regs.length := by have := r.isLt; omega
  simp [St.write, ramCall, pyIndex, hr, regCall]

theorem reg_set {s : St} (h : s.regs.length = 16) (r : Reg) (w : Word) :
    (fun r' : Reg => (s.regs.set r.toNat w)[r'.toNat]?.getD 0) = (s.arch.set r w).reg := by
  funext r'
  have hr : r.toNat < s.regs.length := by have := r.isLt; omega
  simp only [Arch.set, St.arch, List.getElem?_set]
  by_cases e : r' = r
  · subst e; simp [hr]
  · rw [if_neg e, if_neg]
    intro e'; exact e (BitVec.eq_of_toNat_eq e'.symm)

/-! ### Arithmetic -/

theorem neg_iff (r : Word) : r.getLsbD 15 = decide (r.toInt < 0) := by
  have h1 := r.isLt
  have : r.getLsbD 15 = decide (2 ^ 15 ≤ r.toNat) := by
    have := BitVec.msb_eq_decide r
    simpa [BitVec.msb_eq_getLsbD_last] using this
  rw [this, BitVec.toInt_eq_toNat_cond]
  by_cases h : 2 ^ 15 ≤ r.toNat
  · rw [if_neg (by omega)]; simp only [h, decide_true]; symm; simp only [decide_eq_true_eq]; omega
  · rw [if_pos (by omega)]; simp only [h, decide_false]; symm; simp only [decide_eq_false_iff_not]; omega

theorem adc_toNat (a b : Word) (c : Bool) :
    (adc a b c).1.toNat = (a.toNat + b.toNat + c.toNat) % 2 ^ 16 ∧ ((adc a b c).2 = decide (2 ^ 16 ≤ a.toNat + b.toNat + c.toNat)) := by
  have ha := a.isLt
  have hb := b.isLt
  have hc : c.toNat ≤ 1 := by cases c <;> simp
  have e : (a.setWidth 17 + b.setWidth 17 + (BitVec.ofBool c).setWidth 17 : BitVec 17).toNat = a.toNat + b.toNat + c.toNat := by
    simp only [BitVec.toNat_add, BitVec.toNat_setWidth, BitVec.toNat_ofBool]
    omega
  constructor
  · simp only [adc, BitVec.extractLsb'_toNat, e, Nat.shiftRight_zero]
  · simp only [adc]
    have := BitVec.msb_eq_decide (a.setWidth 17 + b.setWidth 17 + (BitVec.ofBool c).setWidth 17 : BitVec 17)
    rw [e] at this
    simpa [BitVec.msb_eq_getLsbD_last] using this

theorem not_toNat (b : Word) : (~~~b).toNat = 2 ^ 16 - 1 - b.toNat := by simp [BitVec.toNat_not]

/-- The result and the carry are right for all operands. -/
theorem arith_spec (op : ArithOp) (a b : Word) (c : Bool) :
    (arith op a b c).1 = BitVec.ofInt 16 (exact op a.toNat b.toNat c) ∧ (arith op a b c).2 = carrySpec op a b c := by
  have ha := a.isLt
  have hb := b.isLt
  constructor
  · apply BitVec.eq_of_toNat_eq
    rw [BitVec.toNat_ofInt]
    cases op <;> cases c <;> simp only [arith, exact, adc_toNat, not_toNat, Bool.toNat_true, Bool.toNat_false, Bool.not_true, Bool.not_false, if_true] <;>
      simp <;> omega
  · rw [Bool.eq_iff_iff]
    cases op <;> cases c <;> simp only [arith, carrySpec, adc_toNat, not_toNat, decide_eq_true_eq] <;> simp only [exact, Bool.toNat_true, Bool.toNat_false, Bool.not_true, Bool.not_false, if_true,
      Bool.false_eq_true, if_false] <;> omega

theorem add_overflow (a b : Word) (c : Bool) : overflow a b (adc a b c).1 = decide (¬ (-2 ^ 15 ≤ a.toInt + b.toInt + c.toNat ∧ a.toInt + b.toInt + c.toNat < 2 ^ 15)) := by
  have ha := a.isLt
  have hb := b.isLt
  have hc : c.toNat ≤ 1 := by cases c <;> simp
  have e := (adc_toNat a b c).1
  simp only [overflow, BitVec.msb_eq_decide, BitVec.toInt_eq_toNat_cond, e]
  rw [Bool.eq_iff_iff]
  simp only [Bool.or_eq_true, Bool.and_eq_true, Bool.not_eq_true', decide_eq_true_eq, decide_eq_false_iff_not]
  split <;> split <;> omega

theorem arith_overflow {op : ArithOp} (h : op = .Add ∨ op = .Adc) (a b : Word) (c : Bool) :
    overflow a b (arith op a b c).1 = overflowSpec op a b c := by
  rcases h with rfl | rfl
  · simp [arith, add_overflow, overflowSpec, exact]
  · simp only [arith, add_overflow, overflowSpec, exact]
    cases c <;> simp

/-! ### Steps -/

theorem fetch {prog : List Inst} {s : St} (h : Holds prog s) :
    (romCall (.word 0) s.mem s.pc.toNat).1 =
      if s.pc.toNat < 256 then .ok ((prog[s.pc.toNat]?.map Cell.inst).getD (.word 0)) else .error .indexError := by
  rw [rom_at, h.1, memInit_get]
  by_cases hp : s.pc.toNat < 256 <;> simp [hp]

/-- The step, given the instruction. -/
def execSt (s : St) (i : Inst) : Except Err St :=
  match i with
  | .logic op ra rb => s.aluLogic op ra rb
  | .arith op ra rb => s.aluArith op ra rb
  | .memory op ra imm => s.memory op ra imm
  | .control op imm c => s.control op imm c
  | .word _ => .error .typeError

theorem step_eq {prog : List Inst} {s : St} (h : Holds prog s) :
    s.step = if s.pc.toNat < 256 then
      (match prog[s.pc.toNat]? with
        | none => .error .attributeError
        | some i => execSt s i)
      else .error .indexError := by
  unfold St.step
  rw [fetch h]
  by_cases hp : s.pc.toNat < 256
  · simp only [hp, if_true]
    cases prog[s.pc.toNat]? with
    | none => rfl
    | some i => cases i <;> rfl
  · simp [hp]

theorem cond_holds (s : St) (c : Cond) : cond c s.Z s.N s.C s.V = decide (holds s.arch c) := by
  obtain ⟨mem, regs, pc, Z, N, C, V, out⟩ := s
  rw [Bool.eq_iff_iff, decide_eq_true_iff]
  cases c <;> cases Z <;> cases N <;> cases C <;> cases V <;> simp [cond, holds, St.arch]

theorem arch_ext {a b : Arch} (h0 : a.reg = b.reg) (h1 : a.pc = b.pc) (h2 : a.Z = b.Z) (h3 : a.N = b.N) (h4 : a.C = b.C) (h5 : a.V = b.V)
    (h6 : a.out = b.out) : a = b := by
  cases a; cases b; simp_all

theorem setWidth_eq (i : Imm) : i.setWidth 16 = BitVec.ofNat 16 i.toNat := by
  apply BitVec.eq_of_toNat_eq; simp

/-- An instruction on 16 registers: what it does except for the overflow flag of subtractions, and when it raises. -/
theorem execSt_spec {s : St} (hl : s.regs.length = 16) (i : Inst) :
    match exec i s.arch with
    | none => execSt s i = .error .typeError
    | some a => ∃ s', execSt s i = .ok s' ∧ s'.regs.length = 16 ∧ s'.mem = s.mem ∧ { s'.arch with V := a.V } = a ∧ (FlagsOk i → s'.V = a.V) := by
  cases i with
  | logic op ra rb =>
    have hb : (BEq.beq (α := Word)) = fun x y => decide (x = y) := by funext x y; rw [Bool.eq_iff_iff]; simp
    cases op <;>
    · simp only [exec, execSt, St.aluLogic, read_ok hl, write_ok hl, logic, Bind.bind, Except.bind]
      refine ⟨_, rfl, by simpa using hl, rfl, ?_, fun _ => rfl⟩
      apply arch_ext <;> simp only [St.arch, Arch.next, Arch.set, neg_iff, hb] <;> first | rfl | exact reg_set hl _ _
  | arith op ra rb =>
    have hb : (BEq.beq (α := Word)) = fun x y => decide (x = y) := by funext x y; rw [Bool.eq_iff_iff]; simp
    simp only [exec, execSt, St.aluArith, read_ok hl, write_ok hl, Bind.bind, Except.bind]
    have e : arith op (s.arch.reg ra) (s.arch.reg rb) s.C =
        (BitVec.ofInt 16 (exact op (s.arch.reg ra).toNat (s.arch.reg rb).toNat s.C), carrySpec op (s.arch.reg ra) (s.arch.reg rb) s.C) :=
      Prod.ext (arith_spec op _ _ _).1 (arith_spec op _ _ _).2
    have eo := fun h => arith_overflow (op := op) h (s.arch.reg ra) (s.arch.reg rb) s.C
    rw [e] at eo ⊢
    refine ⟨_, rfl, by simpa using hl, rfl, ?_, ?_⟩
    · apply arch_ext <;> simp only [St.arch, Arch.next, Arch.set, neg_iff, hb] <;> first | rfl | exact reg_set hl _ _
    · intro hf
      apply eo
      cases op <;> simp_all [FlagsOk]
  | memory op ra imm =>
    cases op with
    | LD => rfl
    | LDLO =>
      simp only [exec, execSt, St.memory, write_ok hl, Bind.bind, Except.bind]
      refine ⟨_, rfl, by simpa using hl, rfl, ?_, fun _ => rfl⟩
      rw [setWidth_eq]
      apply arch_ext <;> simp only [St.arch, Arch.next, Arch.set] <;> first | rfl | exact reg_set hl _ _
    | LDHI =>
      simp only [exec, execSt, St.memory, write_ok hl, Bind.bind, Except.bind]
      refine ⟨_, rfl, by simpa using hl, rfl, ?_, fun _ => rfl⟩
      apply arch_ext <;> simp only [St.arch, Arch.next, Arch.set] <;> try rfl
      have : imm.toNat <<< 8 = 256 * imm.toNat := by rw [Nat.shiftLeft_eq]; omega
      rw [this]; exact reg_set hl _ _
    | ST =>
      simp only [exec, execSt, St.memory, read_ok hl, Bind.bind, Except.bind]
      by_cases hi : imm = 0
      · rw [if_pos hi, if_pos hi]
        exact ⟨_, rfl, hl, rfl, rfl, fun _ => rfl⟩
      · rw [if_neg hi, if_neg hi]
        exact ⟨_, rfl, hl, rfl, rfl, fun _ => rfl⟩
  | control op imm c =>
    simp only [exec, execSt, St.control, cond_holds]
    by_cases hc : holds s.arch c
    · simp only [hc, decide_true, if_true]
      cases op with
      | Jump => exact ⟨_, rfl, hl, rfl, by rw [setWidth_eq]; rfl, fun _ => rfl⟩
      | Call =>
        simp only [write_ok hl, Bind.bind, Except.bind, setWidth_eq]
        refine ⟨_, rfl, by simpa using hl, rfl, ?_, fun _ => rfl⟩
        apply arch_ext <;> simp only [St.arch, Arch.set] <;> try rfl
        exact reg_set hl 15 _
      | Return =>
        simp only [read_ok hl, Bind.bind, Except.bind]
        exact ⟨_, rfl, hl, rfl, rfl, fun _ => rfl⟩
    · simp only [hc, decide_false, if_false]
      exact ⟨_, rfl, hl, rfl, rfl, fun _ => rfl⟩
  | word w => rfl

/-! ### The theorems -/

/-- A simulator made for a program holds it, and its program sees zeros. -/
theorem C56_init (prog : List Inst) : Holds prog (init prog) ∧ (init prog).arch = ⟨fun _ => 0, 0, false, false, false, false, []⟩ := by
  refine ⟨⟨rfl, memInit_length _ _ _⟩, arch_ext ?_ rfl rfl rfl rfl rfl rfl⟩
  funext r
  have hr : r.toNat < 16 := r.isLt
  simp [St.arch, init, memInit_get, hr]

/-- A call executes the instruction at the PC as specified; it raises exactly outside the program and for instructions without meaning.
Missing: the overflow flag of `sub` and `sbc`, see `C56_violated_signed`. -/
theorem C56_step_partial {prog : List Inst} (hlen : prog.length ≤ 256) {s : St} (h : Holds prog s) :
    match (prog[s.pc.toNat]?).bind (exec · s.arch) with
    | none => ∃ e, s.step = .error e
    | some a => ∃ s', s.step = .ok s' ∧ Holds prog s' ∧ { s'.arch with V := a.V } = a ∧
        (∀ i, prog[s.pc.toNat]? = some i → FlagsOk i → s'.arch = a) := by
  rw [step_eq h]
  cases hi : prog[s.pc.toNat]? with
  | none =>
    simp only [Option.bind_none]
    split <;> exact ⟨_, rfl⟩
  | some i =>
    have hp : s.pc.toNat < 256 := by
      have := (List.getElem?_eq_some_iff.mp hi).1
      omega
    have e := execSt_spec h.2 i
    simp only [Option.bind_some, hp, if_true]
    cases ha : exec i s.arch with
    | none => rw [ha] at e; exact ⟨_, e⟩
    | some a =>
      rw [ha] at e
      obtain ⟨s', h1, h2, h3, h4, h5⟩ := e
      refine ⟨s', h1, ⟨h3.trans h.1, h2⟩, h4, ?_⟩
      rintro _ ⟨⟩ hf
      have := h5 hf
      rw [← h4, ← this]
      rfl

/-- Programs without `sub` and `sbc` run as specified for any number of instructions, and raise exactly when the specification has no result. -/
theorem C56_run_partial {prog : List Inst} (hlen : prog.length ≤ 256) (hf : ∀ i ∈ prog, FlagsOk i) (n : Nat) {s : St} (h : Holds prog s) :
    match execN prog n s.arch with
    | none => ∃ e, s.steps n = .error e
    | some a => ∃ s', s.steps n = .ok s' ∧ Holds prog s' ∧ s'.arch = a := by
  induction n generalizing s with
  | zero => exact ⟨s, rfl, h, rfl⟩
  | succ n ih =>
    have e := C56_step_partial hlen h
    have hpc : s.arch.pc = s.pc := rfl
    simp only [execN, hpc]
    cases hi : prog[s.pc.toNat]? with
    | none =>
      rw [hi] at e
      obtain ⟨err, e⟩ := e
      exact ⟨err, by simp [St.steps, e, Bind.bind, Except.bind]⟩
    | some i =>
      rw [hi] at e
      simp only [Option.bind_some] at e
      cases ha : exec i s.arch with
      | none =>
        rw [ha] at e
        obtain ⟨err, e⟩ := e
        simp only [ha]
        exact ⟨err, by simp [St.steps, e, Bind.bind, Except.bind]⟩
      | some a =>
        rw [ha] at e
        obtain ⟨s', h1, h2, _, h4⟩ := e
        simp only [ha]
        have h4 := h4 i rfl (hf i (List.mem_of_getElem? hi))
        have := ih h2
        rw [h4] at this
        simpa [St.steps, h1, Bind.bind, Except.bind] using this

/-- The part of a state that does not depend on the overflow flag. -/
def Arch.noV (a : Arch) : Arch := { a with V := false }

theorem exec_noV {i : Inst} (hi : ∀ op imm c, i = .control op imm c → ¬ ReadsV c) {a b : Arch} (h : a.noV = b.noV) :
    (exec i a).map Arch.noV = (exec i b).map Arch.noV := by
  obtain ⟨reg, pc, Z, N, C, V, out⟩ := a
  obtain ⟨reg', pc', Z', N', C', V', out'⟩ := b
  simp only [Arch.noV, Arch.mk.injEq, true_and] at h
  obtain ⟨rfl, rfl, rfl, rfl, rfl, rfl⟩ := h
  cases i with
  | logic op ra rb => rfl
  | arith op ra rb => rfl
  | memory op ra imm =>
    cases op <;> try rfl
    simp only [exec]
    split <;> rfl
  | word w => rfl
  | control op imm c =>
    have hc := hi op imm c rfl
    simp only [exec]
    have e : holds ⟨reg, pc, Z, N, C, V, out⟩ c ↔ holds ⟨reg, pc, Z, N, C, V', out⟩ c := by
      cases c <;> first | exact absurd trivial hc | exact Iff.rfl
    by_cases hh : holds ⟨reg, pc, Z, N, C, V, out⟩ c
    · rw [if_pos hh, if_pos (e.mp hh)]
      cases op <;> rfl
    · rw [if_neg hh, if_neg (fun x => hh (e.mpr x))]
      rfl

/-- Programs with any instructions whose conditions do not read the overflow flag run as specified, except for that flag. -/
theorem C56_run_unsigned_partial {prog : List Inst} (hlen : prog.length ≤ 256) (hv : ∀ op imm c, Inst.control op imm c ∈ prog → ¬ ReadsV c) (n : Nat)
    {s : St} (h : Holds prog s) {a0 : Arch} (h0 : s.arch.noV = a0.noV) :
    match execN prog n a0 with
    | none => ∃ e, s.steps n = .error e
    | some a => ∃ s', s.steps n = .ok s' ∧ Holds prog s' ∧ s'.arch.noV = a.noV := by
  induction n generalizing s a0 with
  | zero => exact ⟨s, rfl, h, h0⟩
  | succ n ih =>
    have e := C56_step_partial hlen h
    have hpc : a0.pc = s.pc := (congrArg Arch.pc h0).symm
    simp only [execN, hpc]
    cases hi : prog[s.pc.toNat]? with
    | none =>
      rw [hi] at e
      obtain ⟨err, e⟩ := e
      exact ⟨err, by simp [St.steps, e, Bind.bind, Except.bind]⟩
    | some i =>
      rw [hi] at e
      simp only [Option.bind_some] at e
      have hx := exec_noV (i := i) (fun op imm c hc => hv op imm c (hc ▸ List.mem_of_getElem? hi)) h0
      cases ha : exec i s.arch with
      | none =>
        rw [ha] at e hx
        obtain ⟨err, e⟩ := e
        have : exec i a0 = none := by simpa using hx.symm
        simp only [this]
        exact ⟨err, by simp [St.steps, e, Bind.bind, Except.bind]⟩
      | some a =>
        rw [ha] at e hx
        obtain ⟨s', h1, h2, h3, _⟩ := e
        cases ha' : exec i a0 with
        | none => rw [ha'] at hx; simp at hx
        | some a' =>
          rw [ha'] at hx
          simp only [Option.map_some, Option.some.injEq] at hx
          simp only [ha']
          have h3' : s'.arch.noV = a'.noV := by rw [← hx, ← h3]; rfl
          simpa [St.steps, h1, Bind.bind, Except.bind] using ih h2 h3'

/-- Two instructions in sequence, the first of them not a jump. -/
theorem two_steps {prog : List Inst} (hlen : prog.length ≤ 256) {s : St} (h : Holds prog s) {i j : Inst} (hi : prog[s.pc.toNat]? = some i)
    (hj : prog[(s.pc + 1).toNat]? = some j) {a b : Arch} (ha : exec i s.arch = some a) (hpc : a.pc = s.pc + 1) (hb : exec j a = some b)
    (hjv : ∀ op imm c, j = .control op imm c → ¬ ReadsV c) :
    ∃ s', s.steps 2 = .ok s' ∧ Holds prog s' ∧ s'.arch.noV = b.noV := by
  have e := C56_step_partial hlen h
  rw [hi] at e
  simp only [Option.bind_some, ha] at e
  obtain ⟨s1, h1, h2, h3, _⟩ := e
  have hp1 : s1.pc = s.pc + 1 := by rw [← hpc, ← h3]; rfl
  have e := C56_step_partial hlen h2
  rw [hp1, hj] at e
  have hn : s1.arch.noV = a.noV := by rw [← h3]; rfl
  have hx := exec_noV hjv hn
  rw [hb] at hx
  cases hb' : exec j s1.arch with
  | none => rw [hb'] at hx; simp at hx
  | some b' =>
    rw [hb'] at hx
    simp only [Option.map_some, Option.some.injEq] at hx
    simp only [Option.bind_some, hb'] at e
    obtain ⟨s2, g1, g2, g3, _⟩ := e
    refine ⟨s2, by simp [St.steps, h1, g1, Bind.bind, Except.bind], g2, ?_⟩
    rw [← hx, ← g3]; rfl

/-- The state after an arithmetic instruction. -/
def arithRes (op : ArithOp) (ra rb : Reg) (a : Arch) : Arch :=
  let r := BitVec.ofInt 16 (exact op (a.reg ra).toNat (a.reg rb).toNat a.C)
  { (a.set ra r).next with
    Z := decide (r = 0), N := decide (r.toInt < 0), C := carrySpec op (a.reg ra) (a.reg rb) a.C, V := overflowSpec op (a.reg ra) (a.reg rb) a.C }

theorem arithRes_reg (op : ArithOp) (ra rb : Reg) (a : Arch) (r : Reg) :
    (arithRes op ra rb a).reg r = if r = ra then BitVec.ofInt 16 (exact op (a.reg ra).toNat (a.reg rb).toNat a.C) else a.reg r := rfl

theorem arithRes_C (op : ArithOp) (ra rb : Reg) (a : Arch) : (arithRes op ra rb a).C = carrySpec op (a.reg ra) (a.reg rb) a.C := rfl

theorem ofInt_toNat (x : Int) : ((BitVec.ofInt 16 x).toNat : Int) = x % 2 ^ 16 := by
  rw [BitVec.toNat_ofInt]; omega

/-- `add` then `adc` add 32-bit numbers, for all numbers and registers. -/
theorem C56_add32 {prog : List Inst} (hlen : prog.length ≤ 256) {s : St} (h : Holds prog s) {al ah bl bh : Reg} (h1 : al ≠ ah) (h2 : al ≠ bh)
    (hi : prog[s.pc.toNat]? = some (.arith .Add al bl)) (hj : prog[(s.pc + 1).toNat]? = some (.arith .Adc ah bh)) :
    ∃ s', s.steps 2 = .ok s' ∧ Holds prog s' ∧
      pair (s'.arch.reg ah) (s'.arch.reg al) =
        (pair (s.arch.reg ah) (s.arch.reg al) + pair (s.arch.reg bh) (s.arch.reg bl)) % 2 ^ 32 ∧
      (s'.C ↔ 2 ^ 32 ≤ pair (s.arch.reg ah) (s.arch.reg al) + pair (s.arch.reg bh) (s.arch.reg bl)) := by
  obtain ⟨s', e, g, hn⟩ := two_steps hlen h hi hj (a := arithRes .Add al bl s.arch) (b := arithRes .Adc ah bh (arithRes .Add al bl s.arch)) rfl rfl rfl (by rintro _ _ _ ⟨⟩)
  refine ⟨s', e, g, ?_⟩
  have hr : s'.arch.reg = (arithRes .Adc ah bh (arithRes .Add al bl s.arch)).reg := by have e := congrArg Arch.reg hn; exact e
  have hc : s'.C = (arithRes .Adc ah bh (arithRes .Add al bl s.arch)).C := congrArg Arch.C hn
  rw [hc, hr]
  simp only [arithRes_reg, arithRes_C, if_true, h1, h1.symm, h2.symm, if_false, pair, carrySpec]
  generalize s.arch.reg al = xl
  generalize s.arch.reg ah = xh
  generalize s.arch.reg bl = yl
  generalize s.arch.reg bh = yh
  have l1 := xl.isLt
  have l2 := xh.isLt
  have l3 := yl.isLt
  have l4 := yh.isLt
  simp only [decide_eq_true_eq]
  have e1 := ofInt_toNat (exact .Add xl.toNat yl.toNat s.arch.C)
  by_cases c : 2 ^ 16 ≤ exact .Add xl.toNat yl.toNat s.arch.C
  · simp only [c, decide_true]
    have e2 := ofInt_toNat (exact .Adc xh.toNat yh.toNat true)
    simp only [exact, if_true] at e1 e2 c ⊢
    omega
  · simp only [c, decide_false]
    have e2 := ofInt_toNat (exact .Adc xh.toNat yh.toNat false)
    simp only [exact, Bool.false_eq_true, if_false] at e1 e2 c ⊢
    omega

/-- `sub` then `sbc` never subtract 32-bit numbers: `sub` clears the carry for a borrow and `sbc` takes the borrow when the carry is set, so that
the high word is wrong for all numbers. -/
theorem C56_violated_sub32 {prog : List Inst} (hlen : prog.length ≤ 256) {s : St} (h : Holds prog s) {al ah bl bh : Reg} (h1 : al ≠ ah) (h2 : al ≠ bh)
    (hi : prog[s.pc.toNat]? = some (.arith .Sub al bl)) (hj : prog[(s.pc + 1).toNat]? = some (.arith .Sbc ah bh)) :
    ∃ s', s.steps 2 = .ok s' ∧ Holds prog s' ∧
      (pair (s'.arch.reg ah) (s'.arch.reg al) : Int) ≠
        ((pair (s.arch.reg ah) (s.arch.reg al) : Int) - pair (s.arch.reg bh) (s.arch.reg bl)) % 2 ^ 32 := by
  obtain ⟨s', e, g, hn⟩ := two_steps hlen h hi hj (a := arithRes .Sub al bl s.arch) (b := arithRes .Sbc ah bh (arithRes .Sub al bl s.arch)) rfl rfl rfl (by rintro _ _ _ ⟨⟩)
  refine ⟨s', e, g, ?_⟩
  have hr : s'.arch.reg = (arithRes .Sbc ah bh (arithRes .Sub al bl s.arch)).reg := by have e := congrArg Arch.reg hn; exact e
  rw [hr]
  simp only [arithRes_reg, arithRes_C, if_true, h1, h1.symm, h2.symm, if_false, pair, carrySpec]
  generalize s.arch.reg al = xl
  generalize s.arch.reg ah = xh
  generalize s.arch.reg bl = yl
  generalize s.arch.reg bh = yh
  have l1 := xl.isLt
  have l2 := xh.isLt
  have l3 := yl.isLt
  have l4 := yh.isLt
  have e1 := ofInt_toNat (exact .Sub xl.toNat yl.toNat s.arch.C)
  by_cases c : 0 ≤ exact .Sub xl.toNat yl.toNat s.arch.C
  · simp only [c, decide_true]
    have e2 := ofInt_toNat (exact .Sbc xh.toNat yh.toNat true)
    simp only [exact, if_true] at e1 e2 c ⊢
    omega
  · simp only [c, decide_false]
    have e2 := ofInt_toNat (exact .Sbc xh.toNat yh.toNat false)
    simp only [exact, Bool.false_eq_true, if_false] at e1 e2 c ⊢
    omega

/-- `sub` then a jump with an unsigned condition jumps exactly when the comparison holds, for all operands.  Missing: the signed conditions, see
`C56_violated_signed`. -/
theorem C56_compare_partial {prog : List Inst} (hlen : prog.length ≤ 256) {s : St} (h : Holds prog s) {ra rb : Reg} {imm : Imm} {c : Cond}
    (hc : Unsigned c) (hi : prog[s.pc.toNat]? = some (.arith .Sub ra rb)) (hj : prog[(s.pc + 1).toNat]? = some (.control .Jump imm c)) :
    ∃ s', s.steps 2 = .ok s' ∧ Holds prog s' ∧
      (compares c (s.arch.reg ra) (s.arch.reg rb) → s'.pc.toNat = imm.toNat) ∧
      (¬ compares c (s.arch.reg ra) (s.arch.reg rb) → s'.pc = s.pc + 1 + 1) := by
  have hv : ¬ ReadsV c := by
    simp only [Unsigned, List.mem_cons, List.not_mem_nil, or_false] at hc
    rcases hc with rfl | rfl | rfl | rfl | rfl | rfl <;> exact id
  have key : holds (arithRes .Sub ra rb s.arch) c ↔ compares c (s.arch.reg ra) (s.arch.reg rb) := by
    have hC : (arithRes .Sub ra rb s.arch).C = true ↔ (s.arch.reg rb).toNat ≤ (s.arch.reg ra).toNat := by
      simp only [arithRes_C, carrySpec, decide_eq_true_eq]; simp only [exact]; omega
    have hZ : (arithRes .Sub ra rb s.arch).Z = true ↔ (s.arch.reg ra).toNat = (s.arch.reg rb).toNat := by
      simp only [arithRes, decide_eq_true_eq]
      have l1 := (s.arch.reg ra).isLt
      have l2 := (s.arch.reg rb).isLt
      have e := ofInt_toNat (exact .Sub (s.arch.reg ra).toNat (s.arch.reg rb).toNat s.arch.C)
      rw [← BitVec.toNat_inj]
      simp only [exact] at e ⊢
      simp only [BitVec.ofNat_eq_ofNat, BitVec.toNat_ofNat, Nat.zero_mod]
      omega
    simp only [Unsigned, List.mem_cons, List.not_mem_nil, or_false] at hc
    rcases hc with rfl | rfl | rfl | rfl | rfl | rfl <;> simp only [Cond.UGE, Cond.ULT, holds, compares, hC, hZ, ← BitVec.toNat_inj, ne_eq] <;> omega
  by_cases hh : compares c (s.arch.reg ra) (s.arch.reg rb)
  · obtain ⟨s', e, g, hn⟩ := two_steps hlen h hi hj (a := arithRes .Sub ra rb s.arch)
      (b := { arithRes .Sub ra rb s.arch with pc := BitVec.ofNat 16 imm.toNat }) rfl rfl (by simp only [exec]; rw [if_pos (key.mpr hh)])
      (by rintro _ _ _ ⟨⟩; exact hv)
    refine ⟨s', e, g, fun _ => ?_, fun n => absurd hh n⟩
    have hp : s'.pc = BitVec.ofNat 16 imm.toNat := congrArg Arch.pc hn
    rw [hp, BitVec.toNat_ofNat]
    have := imm.isLt
    omega
  · obtain ⟨s', e, g, hn⟩ := two_steps hlen h hi hj (a := arithRes .Sub ra rb s.arch)
      (b := (arithRes .Sub ra rb s.arch).next) rfl rfl (by simp only [exec]; rw [if_neg (fun x => hh (key.mp x))])
      (by rintro _ _ _ ⟨⟩; exact hv)
    exact ⟨s', e, g, fun y => absurd y hh, fun _ => congrArg Arch.pc hn⟩

/-- The conditions named `UGE` and `ULT`: `sub` then a jump is taken exactly when the first operand is, as an unsigned number, at least the second, or below it. -/
theorem C56_unsigned_names {prog : List Inst} (hlen : prog.length ≤ 256) {s : St} (h : Holds prog s) {ra rb : Reg} {imm : Imm}
    (hi : prog[s.pc.toNat]? = some (.arith .Sub ra rb)) :
    (prog[(s.pc + 1).toNat]? = some (.control .Jump imm Cond.UGE) →
      ∃ s', s.steps 2 = .ok s' ∧ ((s.arch.reg rb).toNat ≤ (s.arch.reg ra).toNat → s'.pc.toNat = imm.toNat) ∧ ((s.arch.reg ra).toNat < (s.arch.reg rb).toNat → s'.pc = s.pc + 1 + 1)) ∧
    (prog[(s.pc + 1).toNat]? = some (.control .Jump imm Cond.ULT) →
      ∃ s', s.steps 2 = .ok s' ∧ ((s.arch.reg ra).toNat < (s.arch.reg rb).toNat → s'.pc.toNat = imm.toNat) ∧ ((s.arch.reg rb).toNat ≤ (s.arch.reg ra).toNat → s'.pc = s.pc + 1 + 1)) := by
  constructor
  · intro hj
    obtain ⟨s', e, _, h1, h2⟩ := C56_compare_partial hlen h (c := Cond.UGE) (by simp [Unsigned]) hi hj
    exact ⟨s', e, h1, fun hl => h2 (Nat.not_le.mpr hl)⟩
  · intro hj
    obtain ⟨s', e, _, h1, h2⟩ := C56_compare_partial hlen h (c := Cond.ULT) (by simp [Unsigned]) hi hj
    exact ⟨s', e, h1, fun hl => h2 (Nat.not_lt.mpr hl)⟩

/-- `sub` then a jump with the condition "signed greater or equal" is taken for all non-negative operands of which the first is smaller: the
overflow flag is computed with the subtrahend not complemented. -/
theorem C56_violated_signed {prog : List Inst} {s : St} (h : Holds prog s) {ra rb : Reg} {imm : Imm} (hlen : prog.length ≤ 256)
    (hi : prog[s.pc.toNat]? = some (.arith .Sub ra rb)) (hj : prog[(s.pc + 1).toNat]? = some (.control .Jump imm .SGE))
    (h0 : 0 ≤ (s.arch.reg ra).toInt) (hlt : (s.arch.reg ra).toInt < (s.arch.reg rb).toInt) :
    ¬ compares .SGE (s.arch.reg ra) (s.arch.reg rb) ∧ ∃ s', s.steps 2 = .ok s' ∧ s'.pc.toNat = imm.toNat := by
  refine ⟨by simp only [compares]; omega, ?_⟩
  have hp : s.pc.toNat < 256 := by have := (List.getElem?_eq_some_iff.mp hi).1; omega
  have hp' : (s.pc + 1).toNat < 256 := by have := (List.getElem?_eq_some_iff.mp hj).1; omega
  have hl := h.2
  have e1 := step_eq h
  rw [if_pos hp, hi] at e1
  simp only [execSt, St.aluArith, read_ok hl, write_ok hl, Bind.bind, Except.bind] at e1
  generalize s.arch.reg ra = a at *
  generalize s.arch.reg rb = b at *
  have eN : (arith .Sub a b s.C).1.getLsbD 15 = true ∧ overflow a b (arith .Sub a b s.C).1 = true := by
    have ha := a.isLt
    have hb := b.isLt
    have e := ofInt_toNat (exact .Sub a.toNat b.toNat s.C)
    rw [← (arith_spec .Sub a b s.C).1] at e
    have lr := (arith .Sub a b s.C).1.isLt
    rw [neg_iff]
    generalize (arith .Sub a b s.C).1 = r at *
    simp only [overflow, BitVec.msb_eq_decide, BitVec.toInt_eq_toNat_cond] at *
    simp only [Bool.or_eq_true, Bool.and_eq_true, Bool.not_eq_true', decide_eq_true_eq, decide_eq_false_iff_not]
    simp only [exact] at e
    split at h0 <;> split at hlt <;> split <;> omega
  obtain ⟨s1, e1, g1, g2, g3, g4⟩ : ∃ s1, s.step = .ok s1 ∧ Holds prog s1 ∧ s1.pc = s.pc + 1 ∧ s1.N = true ∧ s1.V = true :=
    ⟨_, e1, ⟨h.1, by simpa using hl⟩, rfl, eN.1, eN.2⟩
  have e2 := step_eq g1
  rw [g2, if_pos hp', hj] at e2
  simp only [execSt, St.control, cond, g3, g4, BEq.rfl, if_true] at e2
  refine ⟨_, by simp only [St.steps, e1, e2, Bind.bind, Except.bind]; rfl, ?_⟩
  have := imm.isLt
  simp only [BitVec.toNat_setWidth]
  omega

/-- A call that is taken goes to its address and leaves the address of the next instruction in register 15; a return that is taken, in any state with
that register unchanged, goes to the instruction after the call and changes nothing else. -/
theorem C56_call_return {prog : List Inst} (hlen : prog.length ≤ 256) {s : St} (h : Holds prog s) {imm : Imm} {c : Cond}
    (hi : prog[s.pc.toNat]? = some (.control .Call imm c)) (hc : holds s.arch c) :
    ∃ s1, s.step = .ok s1 ∧ s1.pc.toNat = imm.toNat ∧ (∀ r, r ≠ 15 → s1.arch.reg r = s.arch.reg r) ∧
      ∀ s2, Holds prog s2 → s2.arch.reg 15 = s1.arch.reg 15 → ∀ imm' c', prog[s2.pc.toNat]? = some (.control .Return imm' c') → holds s2.arch c' →
        ∃ s3, s2.step = .ok s3 ∧ s3.arch = { s2.arch with pc := s.pc + 1 } := by
  have e := C56_step_partial hlen h
  rw [hi] at e
  simp only [Option.bind_some, exec] at e
  rw [if_pos hc] at e
  obtain ⟨s1, h1, _, _, h4⟩ := e
  have h4 := h4 _ rfl trivial
  refine ⟨s1, h1, ?_, ?_, ?_⟩
  · have hp : s1.pc = BitVec.ofNat 16 imm.toNat := congrArg Arch.pc h4
    rw [hp, BitVec.toNat_ofNat]
    have := imm.isLt
    omega
  · intro r hr
    rw [h4]
    exact if_neg hr
  · intro s2 g g15 imm' c' hj hc'
    have e := C56_step_partial hlen g
    rw [hj] at e
    simp only [Option.bind_some, exec] at e
    rw [if_pos hc'] at e
    obtain ⟨s3, g1, _, _, g4⟩ := e
    refine ⟨s3, g1, ?_⟩
    rw [g4 _ rfl trivial, g15, h4]
    rfl

/-- Reading a register returns its word and changes nothing. -/
theorem C56_read {prog : List Inst} {s : St} (h : Holds prog s) (r : Reg) : s.readCall r = (.ok (s.arch.reg r), s) := by
  have h1 : (s.readCall r).1 = .ok (s.arch.reg r) := read_ok h.2 r
  have h2 : (s.readCall r).2 = s := by
    have hr : r.toNat < s.regs.length := by rw [h.2]; exact r.isLt
    have hi : pyIndex s.regs.length (r.toNat : Int) = some r.toNat := by
      simp [pyIndex]
      omega
    simp [St.readCall, ramCall, hi, List.getElem?_eq_getElem hr, regCall]
  exact Prod.ext h1 h2

/-- Poking a register sets it and nothing else, and it reads back. -/
theorem C56_poke_reg {prog : List Inst} {s : St} (h : Holds prog s) (r : Reg) (w : Word) :
    ∃ s', s.pokeReg r w = .ok s' ∧ Holds prog s' ∧ s'.arch = s.arch.set r w ∧ s'.peakReg r = .ok w.toNat := by
  refine ⟨_, write_ok h.2 r w, ⟨h.1, by simpa using h.2⟩, arch_ext (reg_set h.2 r w) rfl rfl rfl rfl rfl rfl, ?_⟩
  have e := read_ok (s := { s with regs := s.regs.set r.toNat w }) (by simpa using h.2) r
  have e' := congrFun (reg_set h.2 r w) r
  simp only [St.peakReg, e]
  simp only [St.arch] at e' ⊢
  rw [e']
  simp [Arch.set, Except.map]

/-- `peak_flag` of Z, N and C gives the flag named (V: `C56_violated_peak_flag`). -/
theorem C56_peak_flag_partial (s : St) : s.peakFlag .Z = s.arch.Z ∧ s.peakFlag .N = s.arch.N ∧ s.peakFlag .C = s.arch.C := ⟨rfl, rfl, rfl⟩

/-- The builders: for register numbers below 16 and immediates below 256 the instruction has the operation, the registers, the immediate and the condition they are given, in this order. -/
theorem C56_builders (ra rb imm : Nat) (ha : ra < 16) (hb : rb < 16) (hi : imm < 256) :
    (∀ op, ∃ x y : Reg, asmLogic op ra rb = .logic op x y ∧ x.toNat = ra ∧ y.toNat = rb) ∧
    (∀ op, ∃ x y : Reg, asmArith op ra rb = .arith op x y ∧ x.toNat = ra ∧ y.toNat = rb) ∧
    (∀ op, ∃ (x : Reg) (y : Imm), asmMemory op ra imm = .memory op x y ∧ x.toNat = ra ∧ y.toNat = imm) ∧
    (∀ op c, ∃ y : Imm, asmControl op imm c = .control op y c ∧ y.toNat = imm) ∧
    ∀ c, ∃ y : Imm, asmRet c = .control .Return y c ∧ y.toNat = 0 := by
  have h4 : ∀ n, n < 16 → (BitVec.ofNat 4 n).toNat = n := fun n h => by simp; omega
  have h8 : ∀ n, n < 256 → (BitVec.ofNat 8 n).toNat = n := fun n h => by simp; omega
  exact ⟨fun _ => ⟨_, _, rfl, h4 _ ha, h4 _ hb⟩, fun _ => ⟨_, _, rfl, h4 _ ha, h4 _ hb⟩, fun _ => ⟨_, _, rfl, h4 _ ha, h8 _ hi⟩,
    fun _ _ => ⟨_, rfl, h8 _ hi⟩, fun _ => ⟨_, rfl, rfl⟩⟩

example : (15 : Nat) < 16 ∧ (3 : Nat) < 16 ∧ (200 : Nat) < 256 := by decide

/-- A program that leaves the overflow flag set: `peak_flag('V')` gives the carry. -/
theorem C56_violated_peak_flag :
    ∃ s, (init [asmMemory .LDHI 0 0x40, asmArith .Add 0 0]).steps 2 = .ok s ∧ s.V = true ∧ s.peakFlag .V = false := by
  have h : ((init [asmMemory .LDHI 0 0x40, asmArith .Add 0 0]).steps 2).toOption.map (fun s => (s.V, s.peakFlag .V)) = some (true, false) := by
    decide +kernel
  cases e : (init [asmMemory .LDHI 0 0x40, asmArith .Add 0 0]).steps 2 with
  | error _ => rw [e] at h; simp [Except.toOption] at h
  | ok s => rw [e] at h; simp [Except.toOption] at h; exact ⟨s, rfl, h⟩

/-- `poke_flag`, `poke_pc` and `poke_mem` raise in every state; `peak_mem` raises at every instruction and outside of the memory, and gives 0
behind the program. -/
theorem C56_violated_peek_poke {prog : List Inst} {s : St} (h : Holds prog s) :
    (∀ f b, s.pokeFlag f b = .error .typeError) ∧ (∀ w, s.pokePc w = .error .typeError) ∧ (∀ a w, s.pokeMem a w = .error .typeError) ∧
    (∀ a : Word, a.toNat < prog.length → ∃ e, s.peakMem a = .error e) ∧
    (∀ a : Word, prog.length ≤ a.toNat → a.toNat < 256 → s.peakMem a = .ok 0) ∧
    ∀ a : Word, 256 ≤ a.toNat → ∃ e, s.peakMem a = .error e := by
  have key : ∀ a : Word, (romCall (.word 0) s.mem a.toNat).1 =
      if a.toNat < 256 then .ok ((prog[a.toNat]?.map Cell.inst).getD (.word 0)) else .error .indexError :=
    fun a => fetch (s := { s with pc := a }) ⟨h.1, h.2⟩
  refine ⟨fun _ _ => rfl, fun _ => rfl, fun _ _ => rfl, fun a ha => ?_, fun a h1 h2 => ?_, fun a h1 => ?_⟩
  · unfold St.peakMem
    rw [key, List.getElem?_eq_getElem ha]
    split
    · exact ⟨_, rfl⟩
    · next e => split at e <;> cases e
    · exact ⟨_, rfl⟩
  · unfold St.peakMem
    rw [key, List.getElem?_eq_none h1, if_pos h2]
    rfl
  · unfold St.peakMem
    rw [key, if_neg (by omega)]
    exact ⟨_, rfl⟩

/-- Any 16-bit constant in three instructions: its low byte, its high byte in a second register, and their `or`. -/
theorem C56_constant {prog : List Inst} (hlen : prog.length ≤ 256) {s : St} (h : Holds prog s) {ra rb : Nat} (ha : ra < 16) (hb : rb < 16) (hab : ra ≠ rb)
    {lo hi : Nat} (hlo : lo < 256) (hhi : hi < 256) (h1 : prog[s.pc.toNat]? = some (asmMemory .LDLO ra lo))
    (h2 : prog[(s.pc + 1).toNat]? = some (asmMemory .LDHI rb hi)) (h3 : prog[(s.pc + 2).toNat]? = some (asmLogic .Or ra rb)) :
    ∃ s', s.steps 3 = .ok s' ∧ Holds prog s' ∧ (s'.arch.reg (BitVec.ofNat 4 ra)).toNat = 256 * hi + lo ∧ s'.pc = s.pc + 3 ∧
      ∀ r, r ≠ BitVec.ofNat 4 ra → r ≠ BitVec.ofNat 4 rb → s'.arch.reg r = s.arch.reg r := by
  have hne : BitVec.ofNat 4 ra ≠ BitVec.ofNat 4 rb := by
    intro e
    have := congrArg BitVec.toNat e
    rw [BitVec.toNat_ofNat, BitVec.toNat_ofNat] at this
    omega
  have e1 := C56_step_partial hlen h
  rw [h1] at e1
  obtain ⟨s1, g1, i1, -, k1⟩ := e1
  have k1 := k1 _ rfl trivial
  have p1 : s1.pc = s.pc + 1 := congrArg Arch.pc k1
  have e2 := C56_step_partial hlen i1
  rw [p1, h2] at e2
  obtain ⟨s2, g2, i2, -, k2⟩ := e2
  have k2 := k2 _ rfl trivial
  have p2 : s2.pc = s.pc + 2 := (congrArg Arch.pc k2).trans (by show s1.pc + 1 = _; rw [p1, BitVec.add_assoc]; rfl)
  have e3 := C56_step_partial hlen i2
  rw [p2, h3] at e3
  obtain ⟨s3, g3, i3, -, k3⟩ := e3
  have k3 := k3 _ rfl trivial
  refine ⟨s3, ?_, i3, ?_, (congrArg Arch.pc k3).trans (by show s2.pc + 1 = _; rw [p2, BitVec.add_assoc]; rfl), ?_⟩
  · simp only [St.steps, bind, Except.bind, g1, g2, g3]
  · have e : s3.arch.reg (BitVec.ofNat 4 ra) = BitVec.ofNat 16 (BitVec.ofNat 8 lo).toNat ||| BitVec.ofNat 16 (256 * (BitVec.ofNat 8 hi).toNat) := by
      rw [k3]
      simp only [Arch.set, Arch.next, k2, k1, if_true, hne, if_false]
    rw [e, BitVec.toNat_or, BitVec.toNat_ofNat, BitVec.toNat_ofNat, BitVec.toNat_ofNat, BitVec.toNat_ofNat, Nat.mod_eq_of_lt (show lo < 2 ^ 8 from hlo),
      Nat.mod_eq_of_lt (show hi < 2 ^ 8 from hhi), Nat.mod_eq_of_lt (show lo < 2 ^ 16 by omega), Nat.mod_eq_of_lt (show 256 * hi < 2 ^ 16 by omega),
      Nat.or_comm, show 256 * hi = 2 ^ 8 * hi from rfl, ← Nat.two_pow_add_eq_or_of_lt hlo hi]
  · intro r n1 n2
    rw [k3]
    simp only [Arch.set, Arch.next, k2, k1, n1, n2, if_false]

/-! ### The hypotheses are met -/

/-- 0x1234 in register 2. -/
example : ((init [asmMemory .LDLO 2 0x34, asmMemory .LDHI 3 0x12, asmLogic .Or 2 3]).steps 3).toOption.map (fun s => s.arch.reg 2) = some 0x1234 := by
  decide +kernel

/-- A program that multiplies: r0 = r0 * r1 by repeated addition, in a subroutine at 4 (test_pico.py has no loop). -/
def exProg : List Inst :=
  [asmMemory .LDLO 0 7, asmMemory .LDLO 1 5, asmControl .Call 4 .Always, asmMemory .ST 2 0, asmMemory .LDLO 3 1, asmArith .Add 2 0, asmArith .Sub 1 3,
    asmControl .Jump 5 .Z_n, asmRet .Always]

example : Holds exProg (init exProg) := (C56_init _).1
example : ∀ op imm c, Inst.control op imm c ∈ exProg → ¬ ReadsV c := by
  simp only [exProg, asmMemory, asmArith, asmControl, asmRet, List.mem_cons, reduceCtorEq, false_or, or_false, List.not_mem_nil, Inst.control.injEq]
  rintro op imm c (⟨rfl, rfl, rfl⟩ | ⟨rfl, rfl, rfl⟩ | ⟨rfl, rfl, rfl⟩) <;> exact id
-- 5 times 7, by the specification and by the simulator
example : (execN exProg 21 (init exProg).arch).map (fun a => (a.pc, a.out)) = some (4, [35]) := by decide +kernel
example : ((init exProg).steps 21).toOption.map (fun a => (a.pc, a.out)) = some (4, [35]) := by decide +kernel

/-- Registers r0, r1 and r2, r3 hold 32-bit numbers. -/
def exAdd : List Inst := [asmArith .Add 0 2, asmArith .Adc 1 3]
def exSub : List Inst := [asmArith .Sub 0 2, asmArith .Sbc 1 3, asmControl .Jump 7 .SGE]
def exSt (p : List Inst) : St := { init p with regs := [0xffff, 1, 1, 2, 0, 0, 0, 0, 0, 0, 0, 0, 0, 0, 0, 0] }
example : Holds exAdd (exSt exAdd) ∧ exAdd[(exSt exAdd).pc.toNat]? = some (.arith .Add 0 2) ∧ exAdd[((exSt exAdd).pc + 1).toNat]? = some (.arith .Adc 1 3) :=
  ⟨⟨rfl, rfl⟩, by decide, by decide⟩
example : ((exSt exAdd).steps 2).toOption.map (fun s => (s.arch.reg 1, s.arch.reg 0)) = some (4, 0) := by decide +kernel
example : ((exSt exSub).steps 2).toOption.map (fun s => (s.arch.reg 1, s.arch.reg 0)) = some (0xfffe, 0xfffe) := by decide +kernel

/-- `sub r1, r2` of 1 and 2 then `jmp SGE`. -/
def exCmp : List Inst := [asmArith .Sub 2 3, asmControl .Jump 7 .SGE]
example : ∃ s', (exSt exCmp).steps 2 = .ok s' ∧ s'.pc.toNat = 7 :=
  (C56_violated_signed (prog := exCmp) (s := exSt exCmp) (ra := 2) (rb := 3) (imm := 7) ⟨rfl, rfl⟩ (by decide) (by decide) (by decide) (by decide) (by decide)).2

end Peak.Pico
