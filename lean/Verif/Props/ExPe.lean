import Verif.Model.ExPe
import Verif.Props.PE1
/-!
# C70: the PE of examples/pe
-/

namespace Peak.XPe
open Peak.PE1 (Data Cond Mode PV ModeArgs modeCall stored returned compares mode_step)

/-- Specification: the operation, on numbers modulo `2^16` or bit by bit. -/
def opSpec (op : Op) (a b : Data) : Data :=
  match op with
  | .Add => BitVec.ofNat 16 (a.toNat + b.toNat)
  | .Sub => BitVec.ofInt 16 (a.toInt - b.toInt)
  | .And => a &&& b
  | .Or => a ||| b
  | .XOr => a ^^^ b

/-- The calls of the five mode registers that a call of the PE with two data makes. -/
def calls0 (c : Inst × In) : ModeArgs Data := ⟨c.1.mode0, c.1.const0, c.2.data.getD 0 0, c.2.clkEn⟩
def calls1 (c : Inst × In) : ModeArgs Data := ⟨c.1.mode1, c.1.const1, c.2.data.getD 1 0, c.2.clkEn⟩
def callsB0 (c : Inst × In) : ModeArgs Bool := ⟨c.1.lut.bit0Mode, c.1.lut.bit0Const, c.2.bit0, c.2.clkEn⟩
def callsB1 (c : Inst × In) : ModeArgs Bool := ⟨c.1.lut.bit1Mode, c.1.lut.bit1Const, c.2.bit1, c.2.clkEn⟩
def callsB2 (c : Inst × In) : ModeArgs Bool := ⟨c.1.lut.bit2Mode, c.1.lut.bit2Const, c.2.bit2, c.2.clkEn⟩

/-- Specification of the 1-bit result: codes about zero and sign, and the table; the others are left open here. -/
def flagSpec (code : Cond) (res : Data) (table : BitVec 8) (b0 b1 b2 : Bool) : Option Bool :=
  match code with
  | .Z => some (decide (res = 0))
  | .Z_n => some (decide (res ≠ 0))
  | .N => some (decide (res.toInt < 0))
  | .N_n => some (decide (0 ≤ res.toInt))
  | .LUT => some (table.getLsbD (b0.toNat + 2 * b1.toNat + 4 * b2.toNat))
  | _ => none

theorem eval_spec (op : Op) (a b : Data) (d : Bool) : op.eval a b d = (opSpec op a b, false, false, false) := by
  cases op <;> simp only [Op.eval, opSpec, Prod.mk.injEq, and_true]
  · apply BitVec.eq_of_toNat_eq
    rw [BitVec.toNat_add, BitVec.toNat_ofNat]
  · apply BitVec.eq_of_toInt_eq
    rw [BitVec.toInt_sub, BitVec.toInt_ofInt]

/-- The registers after the calls, the latest first. -/
def after (cs : List (Inst × In)) : St :=
  ⟨[stored 0 (cs.map calls0), stored 0 (cs.map calls1)], stored false (cs.map callsB0), stored false (cs.map callsB1), stored false (cs.map callsB2)⟩

/-- The result of a call after the earlier ones, the latest first. -/
def result (c : Inst × In) (earlier : List (Inst × In)) : Data × PV × Bool :=
  let res := opSpec c.1.op (returned 0 (calls0 c) (earlier.map calls0)) (returned 0 (calls1 c) (earlier.map calls1))
  let b0 := returned false (callsB0 c) (earlier.map callsB0)
  let b1 := returned false (callsB1 c) (earlier.map callsB1)
  let b2 := returned false (callsB2 c) (earlier.map callsB2)
  (res, PE1.cond c.1.cond (.data res) (.bit (PE1.lut c.1.lut.table b0 b1 b2)) (res == 0) (res.getLsbD 15) false false, false)

theorem call_step (c : Inst × In) (earlier : List (Inst × In)) (h : 2 ≤ c.2.data.length) :
    call (after earlier) c.1 c.2 = (.ok (result c earlier), after (c :: earlier)) := by
  obtain ⟨inst, i⟩ := c
  obtain ⟨ds, i0, i1, i2, en⟩ := i
  match ds, h with
  | d0 :: d1 :: ds, _ =>
    have e0 := mode_step 0 (calls0 (inst, ⟨d0 :: d1 :: ds, i0, i1, i2, en⟩)) (earlier.map calls0)
    have e1 := mode_step 0 (calls1 (inst, ⟨d0 :: d1 :: ds, i0, i1, i2, en⟩)) (earlier.map calls1)
    have f0 := mode_step false (callsB0 (inst, ⟨d0 :: d1 :: ds, i0, i1, i2, en⟩)) (earlier.map callsB0)
    have f1 := mode_step false (callsB1 (inst, ⟨d0 :: d1 :: ds, i0, i1, i2, en⟩)) (earlier.map callsB1)
    have f2 := mode_step false (callsB2 (inst, ⟨d0 :: d1 :: ds, i0, i1, i2, en⟩)) (earlier.map callsB2)
    simp only [calls0, calls1, callsB0, callsB1, callsB2, List.getD_cons_zero, List.getD_cons_succ] at e0 e1 f0 f1 f2
    simp only [call, after, dataRun, calls0, calls1, callsB0, callsB1, callsB2, List.map_cons, List.getD_cons_zero, List.getD_cons_succ, e0, e1, f0, f1, f2, result]
    simp only [bind, Except.bind, pure, Except.pure, eval_spec]

theorem run_gen : ∀ (cs earlier : List (Inst × In)), (∀ c ∈ cs, 2 ≤ c.2.data.length) →
    (run cs (after earlier)).2 = after (cs.reverse ++ earlier) ∧
    ∀ (i : Nat) (c : Inst × In), cs[i]? = some c → (run cs (after earlier)).1[i]? = some (.ok (result c ((cs.take i).reverse ++ earlier)))
  | [], _, _ => ⟨rfl, fun i c h => by simp at h⟩
  | c :: cs, earlier, h => by
    obtain ⟨h1, h2⟩ := run_gen cs (c :: earlier) (fun c' hc => h c' (List.mem_cons_of_mem _ hc))
    have hr : run (c :: cs) (after earlier) = (.ok (result c earlier) :: (run cs (after (c :: earlier))).1, (run cs (after (c :: earlier))).2) := by
      show ((call _ _ _).1 :: (run cs (call _ _ _).2).1, (run cs (call _ _ _).2).2) = _
      rw [call_step c earlier (h c (by simp))]
    rw [hr]
    refine ⟨by rw [h1]; simp, ?_⟩
    intro i c' hi
    cases i with
    | zero => cases hi; rfl
    | succ i =>
      have := h2 i c' hi
      simpa using this

/-- C70: in any sequence of calls of the PE with two inputs, each call returns the operation on the operands its modes choose (constant, input, or what earlier calls stored), no interrupt,
and, for the codes about zero and sign and for the table, the bit they name. -/
theorem C70_pe_partial (cs : List (Inst × In)) (h : ∀ c ∈ cs, 2 ≤ c.2.data.length) (i : Nat) (c : Inst × In) (hc : cs[i]? = some c) :
    let earlier := (cs.take i).reverse
    let res := opSpec c.1.op (returned 0 (calls0 c) (earlier.map calls0)) (returned 0 (calls1 c) (earlier.map calls1))
    ∃ p, (run cs (St.init 2)).1[i]? = some (.ok (res, p, false)) ∧
      ∀ v, flagSpec c.1.cond res c.1.lut.table (returned false (callsB0 c) (earlier.map callsB0)) (returned false (callsB1 c) (earlier.map callsB1))
        (returned false (callsB2 c) (earlier.map callsB2)) = some v → p = .bit v := by
  intro earlier res
  have hr := (run_gen cs [] h).2 i c hc
  rw [List.append_nil] at hr
  refine ⟨_, hr, fun v hv => ?_⟩
  have hN : res.getLsbD 15 = decide (res.toInt < 0) := by
    rw [show res.getLsbD 15 = res.msb from rfl, BitVec.msb_eq_toInt]
  show PE1.cond c.1.cond _ (.bit (PE1.lut _ _ _ _)) (res == 0) (res.getLsbD 15) false false = _
  cases hcode : c.1.cond <;> simp only [hcode, flagSpec, Option.some.injEq, reduceCtorEq] at hv <;> subst hv <;> simp only [PE1.cond, PE1.C48_lut, hN] <;> congr 1
  · rw [Bool.eq_iff_iff]; simp
  · by_cases e : res.toInt < 0
    · rw [decide_eq_true e, decide_eq_false (by omega)]; rfl
    · rw [decide_eq_false e, decide_eq_true (by omega)]; rfl

/-- The named builders on one fresh PE. -/
theorem C70_builders (op : Op) (a b : Data) : (call (St.init 2) (asm op) { data := [a, b] }).1 = .ok (opSpec op a b, .bit (decide (opSpec op a b = 0)), false) := by
  have := C70_pe_partial [(asm op, { data := [a, b] })] (by simp) 0 _ rfl
  obtain ⟨p, h1, h2⟩ := this
  have h3 := h2 (decide (opSpec op a b = 0)) rfl
  subst h3
  simp only [List.take_zero, List.reverse_nil, List.map_nil, run, List.getElem?_cons_zero, Option.some.injEq] at h1
  exact h1

/-- C70 is violated: after a subtraction the codes for unsigned and signed comparison do not compare, because the carry and the overflow are always 0:
`UGE` is always false and `SLT` is the sign of the difference. -/
theorem C70_violated_compare (a b : Data) (code : Cond) :
    ((call (St.init 2) { asm .Sub with cond := code } { data := [a, b] }).1 =
      .ok (a - b, PE1.cond code (.data (a - b)) (.bit false) (decide (a = b)) ((a - b).getLsbD 15) false false, false)) ∧
    (code = .UGE → PE1.cond code (.data (a - b)) (.bit false) (decide (a = b)) ((a - b).getLsbD 15) false false = .bit false) ∧
    (code = .SLT → PE1.cond code (.data (a - b)) (.bit false) (decide (a = b)) ((a - b).getLsbD 15) false false = .bit ((a - b).getLsbD 15)) := by
  refine ⟨?_, fun h => by subst h; rfl, fun h => by subst h; simp [PE1.cond]⟩
  have hz : (a - b == 0) = decide (a = b) := by
    rw [Bool.eq_iff_iff, beq_iff_eq, decide_eq_true_iff]
    constructor
    · intro h
      have h' := congrArg (· + b) h
      simp only [BitVec.sub_add_cancel, show (0 : Data) + b = b from BitVec.zero_add b] at h'
      exact h'
    · rintro rfl
      simp
  rw [← hz]
  have hl : PE1.lut 0 false false false = false := by decide
  rw [← hl]
  rfl

/-- Two instances: 5 ≥ 3 and -32768 < 1. -/
example : compares .UGE = some (fun a b => decide (b.toNat ≤ a.toNat)) ∧
    (call (St.init 2) { asm .Sub with cond := .UGE } { data := [5, 3] }).1 = .ok (2, .bit false, false) ∧
    (call (St.init 2) { asm .Sub with cond := .SLT } { data := [0x8000, 1] }).1 = .ok (0x7fff, .bit false, false) := ⟨rfl, rfl, rfl⟩

/-- C70 is violated: with `Cond.ALU` the 1-bit output has 16 bits. -/
theorem C70_violated_cond_alu (op : Op) (a b : Data) : (call (St.init 2) { asm op with cond := .ALU } { data := [a, b] }).1 = .ok (opSpec op a b, .data (opSpec op a b), false) := by
  have h : (call (St.init 2) { asm op with cond := .ALU } { data := [a, b] }).1 = .ok ((op.eval a b false).1, .data (op.eval a b false).1, false) := by
    cases op <;> rfl
  rw [h, eval_spec]

theorem dataRun_length : ∀ (ss : List Data) (ms : List Mode) (cs ds : List Data) (en : Bool) (xs : List Data), (dataRun ss ms cs ds en).1 = .ok xs → xs.length = ss.length ∧ ss.length ≤ ms.length
  | [], ms, cs, ds, en, xs, h => by
    simp only [dataRun, Except.ok.injEq] at h
    subst h
    simp
  | s :: ss, m :: ms, c :: cs, d :: ds, en, xs, h => by
    unfold dataRun at h
    split at h
    · simp at h
    · split at h
      · simp at h
      next x s' _ ys ss' e =>
        simp only [Except.ok.injEq] at h
        subst h
        have := dataRun_length ss ms cs ds en ys (by rw [e])
        simp only [List.length_cons]
        omega
  | s :: ss, [], cs, ds, en, xs, h => by simp [dataRun] at h
  | s :: ss, m :: ms, [], ds, en, xs, h => by simp [dataRun] at h
  | s :: ss, m :: ms, c :: cs, [], en, xs, h => by simp [dataRun] at h

/-- The number of inputs is a parameter of `gen_pe`, but no PE with another number than two can execute any instruction. -/
theorem C70_violated_inputs (n : Nat) (hn : n ≠ 2) (s : St) (hs : s.data.length = n) (inst : Inst) (i : In) : ∃ e, (call s inst i).1 = .error e := by
  have ok : ∀ {α : Type} (st : α) (m : Mode) (k v : α) (e : Bool), ∃ r s', modeCall st m k v e = (.ok r, s') := by
    intro α st m k v e
    exact ⟨_, _, mode_step st ⟨m, k, v, e⟩ []⟩
  obtain ⟨r0, s0, h0⟩ := ok s.bit0 inst.lut.bit0Mode inst.lut.bit0Const i.bit0 i.clkEn
  obtain ⟨r1, s1, h1⟩ := ok s.bit1 inst.lut.bit1Mode inst.lut.bit1Const i.bit1 i.clkEn
  obtain ⟨r2, s2, h2⟩ := ok s.bit2 inst.lut.bit2Mode inst.lut.bit2Const i.bit2 i.clkEn
  simp only [call, h0, h1, h2]
  cases hd : (dataRun s.data [inst.mode0, inst.mode1] [inst.const0, inst.const1] i.data i.clkEn).1 with
  | error e => exact ⟨e, rfl⟩
  | ok xs =>
    have hl := dataRun_length _ _ _ _ _ _ hd
    match xs, hl with
    | [], _ => exact ⟨_, rfl⟩
    | [_], _ => exact ⟨_, rfl⟩
    | [_, _], hl => exact absurd (hs ▸ hl.1.symm) (by simpa using hn)
    | _ :: _ :: _ :: _, _ => exact ⟨_, rfl⟩

example : (St.init 3).data.length = 3 := rfl

/-- A delayed operand: the second call adds the first operand of the first call. -/
example : (run [({ asm .Add with mode0 := .DELAY }, { data := [7, 1] }), ({ asm .Add with mode0 := .DELAY }, { data := [9, 2] })] (St.init 2)).1 =
    [.ok (1, .bit false, false), .ok (9, .bit false, false)] := rfl

end Peak.XPe
