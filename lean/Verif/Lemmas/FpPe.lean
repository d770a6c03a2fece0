import Verif.Spec.FpPe
import Verif.Lemmas.SumPe
import Verif.Lemmas.WordIr
import Verif.Lemmas.LutPe
import Verif.Lemmas.AcceptsRaw
/-!
# The PE of `examples/fp_pe` as a function
-/

namespace Peak.FPe
open Peak Peak.Spec
open Peak.RPe (isMem)

theorem alu_wf : WF aluT := by simp [aluT, WF, autos]
theorem fpu_wf : WF fpuT := by simp [fpuT, WF, autos]
theorem op_wf : WF opT := ⟨by simp [Fields.toList], by simp [Fields.toList], alu_wf, fpu_wf, trivial⟩
theorem inst_wf : WF instT := ⟨by simp [Fields.toList], op_wf, trivial, trivial, trivial⟩

theorem alu_width : width aluT = 3 := by decide +kernel
theorem fpu_width : width fpuT = 2 := by decide +kernel
theorem op_width : width opT = 4 := by decide +kernel
theorem inst_width : width instT = 21 := by decide +kernel

theorem op_opt (P : Process) {n : Nat} (hn : n < 16) :
    (mkAV opT n).getOption P.asm 0 = .ok (decide (n % 2 = 0), mkAV aluT (n / 2 % 8)) ∧
    (mkAV opT n).getOption P.asm 1 = .ok (decide (n % 2 = 1), mkAV fpuT (n / 2 % 4)) := by
  have ht : tagBits 2 = 1 := by decide
  have hn' : n < 2 ^ width opT := by rw [op_width]; exact hn
  constructor
  · have := SPe.option_match P (n := n) op_wf hn' (k := 0) (t := aluT) (by simp [Fields.toList])
    rw [alu_width] at this
    simpa [Fields.toList, ht, optionIndex, opT] using this
  · have := SPe.option_match P (n := n) op_wf hn' (k := 1) (t := fpuT) (by simp [Fields.toList])
    rw [fpu_width] at this
    simpa [Fields.toList, ht, optionIndex, opT] using this

theorem inst_get (P : Process) {n : Nat} (hn : n < 2 ^ 21) :
    (mkAV instT n).get P.asm 0 = .ok (mkAV opT (n % 16)) ∧ (mkAV instT n).get P.asm 1 = .ok (mkAV (.bv 0 16) (n / 16 % 65536)) ∧
    (mkAV instT n).get P.asm 2 = .ok (mkAV (.bit 0) (n / 1048576 % 2)) := by
  have hn' : n < 2 ^ width instT := by rw [inst_width]; exact hn
  obtain ⟨m1, _, h1, e1⟩ := ValF.get_num P inst_wf hn' (k := 1) (t := .bv 0 16) (by simp [Fields.toList])
  obtain ⟨m2, _, h2, e2⟩ := ValF.get_num P inst_wf hn' (k := 2) (t := .bit 0) (by simp [Fields.toList])
  obtain ⟨m0, _, h0, e0⟩ := ValF.get_num P inst_wf hn' (k := 0) (t := opT) (by simp [Fields.toList])
  have f0 := (e0 []).1
  have f1 := (e1 []).1
  have f2 := (e2 []).1
  have hb : ∀ m, bitsAt opT m [] = m := fun _ => rfl
  simp [bitsAt, bitsAtF, op_width, hb, width] at f0 f1 f2
  subst f0 f1 f2
  have d2 : n / 1048576 % 2 = n / 16 / 65536 % 2 := by omega
  rw [d2]
  exact ⟨h0, h1, h2⟩

theorem isMem_alu (P : Process) (m : Int) (hm : m ∈ [(1 : Int), 2, 3, 4, 5]) (n : Nat) (hn : n < 8) : isMem P.asm (.lit m) (mkAV aluT n) = .ok (n == m.toNat) := by
  obtain ⟨o, ho, hg⟩ := P.good alu_wf
  have hh : aluT.Has (.enum (.lit m)) := by
    simp only [aluT, Ty.Has, List.mem_cons, EVal.lit.injEq, List.not_mem_nil, or_false] at hm ⊢
    exact hm
  have hi : aluT.isinst (.enum (.lit m)) = true := (isinst_iff _ _).2 hh
  have he : encode aluT (.enum (.lit m)) = m.toNat := by
    simp only [List.mem_cons, List.not_mem_nil, or_false] at hm
    rcases hm with rfl | rfl | rfl | rfl | rfl <;> decide +kernel
  have hlt : m.toNat < 8 := by
    simp only [List.mem_cons, List.not_mem_nil, or_false] at hm
    rcases hm with rfl | rfl | rfl | rfl | rfl <;> decide
  simp only [mkAV, aluT, isMem]
  rw [← aluT]
  simp only [AV.eq, ho, hi, if_true, hg.assemble alu_wf hh, he]
  rw [BV.ofNat_val, BV.ofNat_val, alu_width, Nat.mod_eq_of_lt (by omega : n < 2 ^ 3), Nat.mod_eq_of_lt (by omega : _ < 2 ^ 3)]

theorem isMem_fpu (P : Process) (m : Int) (hm : m ∈ [(0 : Int), 2, 3]) (n : Nat) (hn : n < 4) : isMem P.asm (.lit m) (mkAV fpuT n) = .ok (n == m.toNat) := by
  obtain ⟨o, ho, hg⟩ := P.good fpu_wf
  have hh : fpuT.Has (.enum (.lit m)) := by
    simp only [fpuT, Ty.Has, List.mem_cons, EVal.lit.injEq, List.not_mem_nil, or_false] at hm ⊢
    exact hm
  have hi : fpuT.isinst (.enum (.lit m)) = true := (isinst_iff _ _).2 hh
  have he : encode fpuT (.enum (.lit m)) = m.toNat := by
    simp only [List.mem_cons, List.not_mem_nil, or_false] at hm
    rcases hm with rfl | rfl | rfl <;> decide +kernel
  have hlt : m.toNat < 4 := by
    simp only [List.mem_cons, List.not_mem_nil, or_false] at hm
    rcases hm with rfl | rfl | rfl <;> decide
  simp only [mkAV, fpuT, isMem]
  rw [← fpuT]
  simp only [AV.eq, ho, hi, if_true, hg.assemble fpu_wf hh, he]
  rw [BV.ofNat_val, BV.ofNat_val, fpu_width, Nat.mod_eq_of_lt (by omega : n < 2 ^ 2), Nat.mod_eq_of_lt (by omega : _ < 2 ^ 2)]

/-- The ALU and the FPU, from the operation code. -/
def aluNum (op : Nat) (a b : Word) : Word :=
  if op == 1 then a + b else if op == 2 then a - b else if op == 4 then a &&& b else if op == 3 then a ||| b else a ^^^ b
def fpuNum (op : Nat) (add mul sqrt : Word) : Word := if op == 0 then add else if op == 2 then mul else sqrt

/-- The PE, from the fields of the instruction. -/
def val (isAlu : Bool) (op imm : Nat) (useImm : Bool) (a b add mul sqrt : Word) : Word :=
  if isAlu then aluNum op a (if useImm then .ofNat 16 imm else b) else fpuNum op add mul sqrt

theorem word_num {n : Nat} : wordVal (mkAV (.bv 0 16) n) = .ok (.ofNat 16 n) := by
  simp only [mkAV, wordVal, BV.ofNat_val, Except.ok.injEq]
  apply BitVec.eq_of_toNat_eq
  simp

theorem bit_num {n : Nat} (hn : n < 2) : bitVal (mkAV (.bit 0) n) = .ok (n == 1) := by
  have : n = 0 ∨ n = 1 := by omega
  rcases this with rfl | rfl <;> rfl

theorem call_num (P : Process) {n : Nat} (hn : n < 2 ^ 21) (a b o1 o2 o3 : Word) : smtCall P.asm (mkAV instT n) a b o1 o2 o3 =
    .ok (val (decide (n % 2 = 0)) (if n % 2 = 0 then n / 2 % 8 else n / 2 % 4) (n / 16 % 65536) (n / 1048576 % 2 == 1) a b o1 o2 o3, if n / 1048576 % 2 == 1 then .ofNat 16 (n / 16 % 65536) else b) := by
  obtain ⟨g0, g1, g2⟩ := inst_get P hn
  obtain ⟨o0, o1'⟩ := op_opt P (n := n % 16) (Nat.mod_lt _ (by decide))
  have e1 : n % 16 % 2 = n % 2 := by omega
  have e2 : n % 16 / 2 % 8 = n / 2 % 8 := by omega
  have e3 : n % 16 / 2 % 4 = n / 2 % 4 := by omega
  rw [e1, e2] at o0
  rw [e1, e3] at o1'
  have l8 : n / 2 % 8 < 8 := Nat.mod_lt _ (by decide)
  have l4 : n / 2 % 4 < 4 := Nat.mod_lt _ (by decide)
  have l2 : n / 1048576 % 2 < 2 := Nat.mod_lt _ (by decide)
  simp only [smtCall, bind, Except.bind, g0, g1, g2, o0, o1', bit_num l2, word_num, alu, fpu, isMem_alu P 1 (by simp) _ l8, isMem_alu P 2 (by simp) _ l8, isMem_alu P 4 (by simp) _ l8, isMem_alu P 3 (by simp) _ l8,
    isMem_fpu P 0 (by simp) _ l4, isMem_fpu P 2 (by simp) _ l4, Except.ok.injEq, Prod.mk.injEq, and_true]
  by_cases h : n % 2 = 0
  · simp only [h, decide_true, if_true, val, aluNum]
    rfl
  · simp only [h, decide_false, if_false, val, fpuNum]
    rfl

/-! ## inputs -/

/-- What the boxes are given. -/
def boxIns (a b : Word) : List (Nat × List BV) := [(1, [toBV a, toBV b]), (2, [toBV a, toBV b]), (3, [toBV a])]

/-- The PE on raw inputs. -/
def peFn : Fn Nat := fun r bb => match r with
  | .prod [.prod [.sum k (.leaf op), .leaf imm, .leaf u], .leaf a, .leaf b] =>
    let a := BitVec.ofNat 16 a
    let b := BitVec.ofNat 16 b
    (.prod [.leaf (val (decide (k = (0 : Nat))) op imm (u == 1) a b (boxOut bb 1) (boxOut bb 2) (boxOut bb 3)).toNat], boxIns a (if u == 1 then .ofNat 16 imm else b))
  | r => (r, [])

theorem inst_shape {r : RVal} (h : RHas instT r) :
    ∃ k op imm u, r = .prod [.sum k (.leaf op), .leaf imm, .leaf u] ∧ (k = (0 : Nat) ∧ op < 8 ∨ k = (1 : Nat) ∧ op < 4) ∧ imm < 65536 ∧ u < 2 := by
  have hwa := alu_width
  have hwf := fpu_width
  cases r with
  | leaf _ => simp [instT, RHas] at h
  | sum _ _ => simp [instT, RHas] at h
  | prod vs =>
    match vs, h with
    | [v0, v1, v2], ⟨h0, h1, h2, _⟩ =>
      obtain ⟨imm, rfl, hi⟩ := SPe.leaf_shape (.inl ⟨_, _, rfl⟩) h1
      obtain ⟨u, rfl, hu⟩ := SPe.leaf_shape (.inr (.inl ⟨_, rfl⟩)) h2
      cases v0 with
      | leaf _ => simp [opT, RHas] at h0
      | prod _ => simp [opT, RHas] at h0
      | sum k v =>
        simp only [opT, RHas, RHasAt] at h0
        split at h0
        · next hk =>
          obtain ⟨op, rfl, ho⟩ := SPe.leaf_shape (.inr (.inr ⟨_, _, rfl⟩)) h0
          rw [← aluT, hwa] at ho
          exact ⟨k, op, imm, u, rfl, .inl ⟨hk, ho⟩, hi, hu⟩
        · split at h0
          · next hk =>
            obtain ⟨op, rfl, ho⟩ := SPe.leaf_shape (.inr (.inr ⟨_, _, rfl⟩)) h0
            rw [← fpuT, hwf] at ho
            exact ⟨k, op, imm, u, rfl, .inr ⟨hk, ho⟩, hi, hu⟩
          · cases h0

theorem code_inst (k op imm u : Nat) (hk : k = 0 ∨ k = 1) : rawCode instT (.prod [.sum k (.leaf op), .leaf imm, .leaf u]) = k + 2 * op + 16 * (imm + 65536 * u) := by
  have ht : tagBits 2 = 1 := by decide
  have h1 : ∀ n, rawCode aluT (.leaf n) = n := fun n => rfl
  have h2 : ∀ n, rawCode fpuT (.leaf n) = n := fun n => rfl
  have ho : rawCode opT (.sum k (.leaf op)) = k + 2 * op := by
    rcases hk with rfl | rfl <;> simp [opT, rawCode, rawCodeAt, optionIndex, Fields.toList, ht, h1, h2]
  simp only [instT, rawCode, rawCodeAll, ho, op_width, width]
  omega

/-- The fields from the code. -/
theorem code_fields {k op imm u : Nat} (hk : k = 0 ∧ op < 8 ∨ k = 1 ∧ op < 4) (hi : imm < 65536) (hu : u < 2) (n : Nat) (hn : n = k + 2 * op + 16 * (imm + 65536 * u)) :
    n < 2 ^ 21 ∧ n / 16 % 65536 = imm ∧ n / 1048576 % 2 = u ∧ decide (n % 2 = 0) = decide (k = 0) ∧ (if n % 2 = 0 then n / 2 % 8 else n / 2 % 4) = op := by
  subst hn
  rcases hk with ⟨rfl, ho⟩ | ⟨rfl, ho⟩
  · have e : (0 + 2 * op + 16 * (imm + 65536 * u)) % 2 = 0 := by omega
    rw [if_pos e]
    refine ⟨by omega, by omega, by omega, decide_eq_decide.mpr (by omega), by omega⟩
  · have e : ¬ (1 + 2 * op + 16 * (imm + 65536 * u)) % 2 = 0 := by omega
    rw [if_neg e]
    refine ⟨by omega, by omega, by omega, decide_eq_decide.mpr (by omega), by omega⟩

/-- The call on a raw instruction. -/
theorem call_raw (P : Process) {r : RVal} (h : RHas instT r) (a b : Nat) (bb : List (Nat × List BV)) :
    ∃ w b' : Word, smtCall P.asm (mkAV instT (rawCode instT r)) (.ofNat 16 a) (.ofNat 16 b) (boxOut bb 1) (boxOut bb 2) (boxOut bb 3) = .ok (w, b') ∧
      peFn (.prod [r, .leaf a, .leaf b]) bb = (.prod [.leaf w.toNat], boxIns (.ofNat 16 a) b') := by
  obtain ⟨k, op, imm, u, rfl, hk, hi, hu⟩ := inst_shape h
  obtain ⟨e1, e2, e3, e4, e5⟩ := code_fields hk hi hu _ (code_inst k op imm u (hk.imp (·.1) (·.1)))
  rw [call_num P e1, e2, e3, e4, e5]
  exact ⟨_, _, rfl, rfl⟩

theorem pe_computes (P : Process) : Computes P (pe P.asm) peFn := by
  refine ⟨44, .cons 0 instT dIn, 45, dOut, rfl, rfl, ?_⟩
  intro vs bb h
  match vs, h with
  | [v0, v1, v2], ⟨h0, h1, h2, _⟩ =>
    obtain ⟨a, rfl, ha⟩ := SPe.leaf_shape (.inl ⟨_, _, rfl⟩) h1
    obtain ⟨b, rfl, hb⟩ := SPe.leaf_shape (.inl ⟨_, _, rfl⟩) h2
    obtain ⟨w, b', hw1, hw2⟩ := call_raw P h0 a b bb
    rw [hw2]
    refine ⟨_, rfl, ⟨w.isLt, trivial⟩, ?_⟩
    simp only [pe, dIn, inputDict, LPe.wordOf_mk, rawCode, hw1]
    exact ⟨⟨WIr.new_word P 16 _, trivial⟩, rfl⟩

theorem pe_total (P : Process) : Total P (pe P.asm) := by
  refine ⟨44, .cons 0 instT dIn, 45, dOut, rfl, rfl, ?_⟩
  intro d bb h
  match d, h with
  | [(_, x0), (_, x1), (_, x2)], ⟨_, ⟨n0, h0, e0⟩, _⟩ =>
    subst e0
    rw [inst_width] at h0
    simp only [pe, call_num P h0]
    exact ⟨[.leaf _], ⟨BitVec.isLt _, trivial⟩, WIr.new_word P 16 _, trivial⟩

/-- The widths of the inputs of a box. -/
def inW (k : Cls) : List Nat := List.replicate k.arity 16

theorem ins_ok (a b : Word) {B : Nat} {k : Cls} (h : (B, k) ∈ (pe A).bbs) : ∃ i, (boxIns a b).lookup B = some i ∧ i.map BV.size = inW k := by
  simp only [pe, List.mem_cons, Prod.mk.injEq, List.not_mem_nil, or_false] at h
  rcases h with ⟨rfl, rfl⟩ | ⟨rfl, rfl⟩ | ⟨rfl, rfl⟩ <;> exact ⟨_, rfl, rfl⟩

theorem pe_boxes (P : Process) : TotalBoxes (pe P.asm) inW := by
  intro ci fi hc d bb hd
  cases hc
  match d, hd with
  | [(k0, x0), (k1, x1), (k2, x2)], ⟨_, ⟨n0, h0, e0⟩, _⟩ =>
    subst e0
    rw [inst_width] at h0
    have e : ((pe P.asm).run [(k0, mkAV instT n0), (k1, x1), (k2, x2)] bb).2 = boxIns (wordOf 16 x1) (if n0 / 1048576 % 2 == 1 then .ofNat 16 (n0 / 16 % 65536) else wordOf 16 x2) := by
      simp only [pe, call_num P h0]
      rfl
    rw [e]
    exact ⟨rfl, fun b k h => ins_ok _ _ h⟩

theorem inst_buildable : Buildable instT := by
  have h1 := alu_width
  have h2 := fpu_width
  have h3 := op_width
  refine ⟨by simp [Fields.toList], .inl ?_, ⟨by simp [Fields.toList], ?_, ?_⟩, trivial, trivial, trivial⟩
  · simp [Fields.toList, h3, width]
  · simp [Fields.toList, h1, h2]
  · simp [Buildables, aluT, fpuT, Buildable]

/-- The instruction on raw inputs. -/
def boxFn (box : Option (Cls × (List Word → List Word))) (g : List Word → Word → Word) : Fn Nat := fun r bb => match r with
  | .prod vs => match box with
    | none => (.prod [.leaf (g (vs.map (WIr.leafWord 16)) 0).toNat], [])
    | some (_, h) => (.prod [.leaf (g (vs.map (WIr.leafWord 16)) (boxOut bb 0)).toNat], [(0, (h (vs.map (WIr.leafWord 16))).map toBV)])
  | r => (r, [])

theorem ir_computes (P : Process) (n : Nat) (box : Option (Cls × (List Word → List Word))) (g : List Word → Word → Word) : Computes P (boxIr n box g) (boxFn box g) := by
  refine ⟨8, wordFields 16 1 n, 9, dOut, rfl, rfl, ?_⟩
  intro vs bb h
  cases box with
  | none =>
    refine ⟨_, rfl, ⟨BitVec.isLt _, trivial⟩, ?_, rfl⟩
    simp only [boxIr]
    rw [WIr.words_dict 16 1 n vs h]
    exact ⟨WIr.new_word P 16 _, trivial⟩
  | some kh =>
    refine ⟨_, rfl, ⟨BitVec.isLt _, trivial⟩, ?_, ?_⟩
    · simp only [boxIr]
      rw [WIr.words_dict 16 1 n vs h]
      exact ⟨WIr.new_word P 16 _, trivial⟩
    · simp only [boxIr, boxFn]
      rw [WIr.words_dict 16 1 n vs h]

theorem row_length : ∀ {i n : Nat} {vs : List RVal}, RHasAll (wordFields 16 i n) vs → vs.length = n
  | _, 0, [], _ => rfl
  | _, 0, _ :: _, h => by simp [wordFields, RHasAll] at h
  | _, _ + 1, [], h => by simp [wordFields, RHasAll] at h
  | _, _ + 1, _ :: _, h => congrArg (· + 1) (row_length h.2)

/-- The box of the instruction gets as many inputs as its class has. -/
def BoxOk (n : Nat) (box : Option (Cls × (List Word → List Word))) : Prop := ∀ k h, box = some (k, h) → ∀ xs, xs.length = n → (h xs).length = k.arity

theorem setup (P : Process) (enc : IEnc) {n : Nat} (hn : 0 < n) (box : Option (Cls × (List Word → List Word))) (hb : BoxOk n box) (g : List Word → Word → Word) :
    Setup P (problem P.asm enc n box g).ir (problem P.asm enc n box g).arch (boxFn box g) peFn inW := by
  have hin : ∀ k, inW k ≠ [] := by
    intro k
    cases k <;> simp [inW, Cls.arity]
  refine ⟨ir_computes P n box g, pe_computes P, ⟨⟨WIr.fields_nodup 16 1 n, WIr.fields_wf 16 1 n⟩, ?_⟩, ?_, ⟨⟨by simp [dOut, Fields.toList], trivial, trivial⟩, ⟨by simp [dOut, Fields.toList], .inr rfl, trivial, trivial⟩, trivial, trivial⟩,
    ⟨⟨by simp [dOut, Fields.toList], trivial, trivial⟩, ⟨by simp [dOut, Fields.toList], .inr rfl, trivial, trivial⟩, trivial, trivial⟩, ?_, ?_, rfl⟩
  · refine ⟨?_, .inl ?_, WIr.fields_build 16 1 n⟩
    · intro h
      have : (1, Ty.bv 0 16) ∈ (wordFields 16 1 n).toList := WIr.fields_mem.mpr ⟨Nat.le_refl _, by omega, rfl⟩
      rw [h] at this
      cases this
    · rintro ⟨k, t⟩ hk
      obtain ⟨_, _, rfl⟩ := WIr.fields_mem.mp hk
      simp [width]
  · have h1 := inst_wf
    have h2 := inst_buildable
    have h3 := inst_width
    simp [pe, problem, dIn, WF, WFs, Buildable, Buildables, Fields.toList, width, h1, h2, h3]
  · refine ⟨?_, hin, by simp [problem, boxIr], fun r bb h => ?_⟩
    · cases box <;> simp [problem, boxIr]
    · cases r with
      | leaf _ => simp [problem, boxIr, RHas] at h
      | sum _ _ => simp [problem, boxIr, RHas] at h
      | prod vs =>
        have hl := row_length h
        cases box with
        | none => exact ⟨rfl, by simp [problem, boxIr]⟩
        | some kh =>
          obtain ⟨k, hh⟩ := kh
          refine ⟨rfl, ?_⟩
          intro b k' hm
          simp only [problem, boxIr, List.mem_singleton, Prod.mk.injEq] at hm
          obtain ⟨rfl, rfl⟩ := hm
          refine ⟨_, rfl, ?_⟩
          have := hb k' hh rfl (vs.map (WIr.leafWord 16)) (by simp [hl])
          rw [inW, ← this, List.map_map]
          apply List.ext_getElem <;> simp [toBV]
  · refine ⟨by simp [problem, pe], hin, by simp [problem, pe], fun r bb h => ?_⟩
    cases r with
    | leaf _ => simp [problem, pe, RHas] at h
    | sum _ _ => simp [problem, pe, RHas] at h
    | prod vs =>
      match vs, h with
      | [v0, v1, v2], ⟨h0, h1, h2, _⟩ =>
        obtain ⟨a, rfl, ha⟩ := SPe.leaf_shape (.inl ⟨_, _, rfl⟩) h1
        obtain ⟨b, rfl, hb⟩ := SPe.leaf_shape (.inl ⟨_, _, rfl⟩) h2
        obtain ⟨w, b', hw1, hw2⟩ := call_raw P h0 a b bb
        rw [hw2]
        exact ⟨rfl, fun b k h => ins_ok _ _ h⟩

theorem shape (A : Ty → Except Err AsmObj) (enc : IEnc) (n : Nat) (box : Option (Cls × (List Word → List Word))) (g : List Word → Word → Word) :
    BoxProblem (problem A enc n box g) 0 instT (wordFields 16 1 n) dOut dIn dOut := by
  refine ⟨⟨8, rfl⟩, ⟨9, rfl⟩, ⟨44, rfl⟩, ⟨45, rfl⟩, WIr.fields_flat 16 1 n, ?_, ?_, ?_, rfl, rfl, rfl⟩
  · intro k t h
    simp only [dOut, Fields.toList, List.mem_singleton, Prod.mk.injEq] at h
    rw [h.2]
    trivial
  · intro k t h
    simp only [dIn, Fields.toList, List.mem_cons, Prod.mk.injEq, List.not_mem_nil, or_false] at h
    rcases h with ⟨_, rfl⟩ | ⟨_, rfl⟩ <;> trivial
  · intro k t h
    simp only [dOut, Fields.toList, List.mem_singleton, Prod.mk.injEq] at h
    rw [h.2]
    trivial

/-! ## what an instruction computes, whatever the boxes compute -/

/-- The words in the inputs. -/
def wordsOf (n : Nat) (x : Key → Nat) : List Word := (List.range n).map (fun j => .ofNat 16 (x (j + 1)))

theorem ofNat_mod16 (n : Nat) : BitVec.ofNat 16 (n % 2 ^ 16) = .ofNat 16 n := by
  apply BitVec.eq_of_toNat_eq
  simp

theorem row_from (x : Key → Nat) : ∀ i n : Nat, (rowOf (wordFields 16 i n) x).map (WIr.leafWord 16) = (List.range n).map (fun j => BitVec.ofNat 16 (x (j + i)))
  | _, 0 => rfl
  | i, n + 1 => by
    have h := ofNat_mod16
    rw [List.range_succ_eq_map]
    simp only [rowOf, wordFields, WIr.leafWord, width, List.map_cons, List.map_map, h, row_from x (i + 1) n, Nat.zero_add, List.cons.injEq, true_and]
    apply List.map_congr_left
    intro j _
    simp only [Function.comp]
    congr 2
    exact (Nat.succ_add_eq_add_succ j i).symm

theorem row_words (x : Key → Nat) (n : Nat) : (rowOf (wordFields 16 1 n) x).map (WIr.leafWord 16) = wordsOf n x := row_from x 1 n

theorem words_len (n : Nat) (x : Key → Nat) : (wordsOf n x).length = n := by simp [wordsOf]

/-- What is at a port. -/
def port (src : Key → Option Key) (x z : Key → Nat) (k : Key) : Word := .ofNat 16 (wired src x z k)

/-- The output of the instruction's box. -/
def boxVal (G : Cls → List Word → Word) (box : Option (Cls × (List Word → List Word))) (xs : List Word) : Word :=
  match box with
  | none => 0
  | some (k, h) => G k (h xs)

/-- The second operand. -/
def snd (imm u : Nat) (b : Word) : Word := if u == 1 then .ofNat 16 imm else b

/-- The PE when the boxes compute `G`. -/
def valG (k op imm u : Nat) (a b : Word) (G : Cls → List Word → Word) : Word :=
  val (decide (k = 0)) op imm (u == 1) a b (G .add [a, snd imm u b]) (G .mul [a, snd imm u b]) (G .sqrt [a])

def toWord (b : BV) : Word := .ofNat 16 b.val

theorem toWord_toBV (w : Word) : toWord (toBV w) = w := by
  apply BitVec.eq_of_toNat_eq
  have := w.isLt
  simp only [toWord, toBV, BV.ofNat_val, BitVec.toNat_ofNat]
  omega

theorem toWords_toBVs (l : List Word) : (l.map toBV).map toWord = l := by
  rw [List.map_map]
  have : toWord ∘ toBV = id := funext toWord_toBV
  rw [this, List.map_id]

theorem pe_outs (A : Ty → Except Err AsmObj) (ρ : Nat → Nat → Nat) : (pe A).bbOuts ρ = [(1, [BV.ofNat 16 (ρ 1 0)]), (2, [BV.ofNat 16 (ρ 2 0)]), (3, [BV.ofNat 16 (ρ 3 0)])] := by
  simp [PeakObj.bbOuts, pe]

theorem ir_outs (n : Nat) (k : Cls) (h : List Word → List Word) (g : List Word → Word → Word) (ρ : Nat → Nat → Nat) : (boxIr n (some (k, h)) g).bbOuts ρ = [(0, [BV.ofNat 16 (ρ 0 0)])] := by
  simp [PeakObj.bbOuts, boxIr]

theorem word_of_bv (n : Nat) : BitVec.ofNat 16 (BV.ofNat 16 n).val = .ofNat 16 n := by
  rw [BV.ofNat_val, ofNat_mod16]

theorem pe_out (A : Ty → Except Err AsmObj) (ρ : Nat → Nat → Nat) :
    boxOut ((pe A).bbOuts ρ) 1 = .ofNat 16 (ρ 1 0) ∧ boxOut ((pe A).bbOuts ρ) 2 = .ofNat 16 (ρ 2 0) ∧ boxOut ((pe A).bbOuts ρ) 3 = .ofNat 16 (ρ 3 0) := by
  rw [pe_outs]
  exact ⟨word_of_bv _, word_of_bv _, word_of_bv _⟩

theorem ir_out (n : Nat) (k : Cls) (h : List Word → List Word) (g : List Word → Word → Word) (ρ : Nat → Nat → Nat) : boxOut ((boxIr n (some (k, h)) g).bbOuts ρ) 0 = .ofNat 16 (ρ 0 0) := by
  rw [ir_outs]
  exact word_of_bv _

theorem pe_bc {A : Ty → Except Err AsmObj} {F : Cls → List BV → List BV} {a b : Word} {ρ : Nat → Nat → Nat} : BoxesCompute F (pe A).bbs (boxIns a b) ((pe A).bbOuts ρ) ↔
    F .add ([a, b].map toBV) = [BV.ofNat 16 (ρ 1 0)] ∧ F .mul ([a, b].map toBV) = [BV.ofNat 16 (ρ 2 0)] ∧ F .sqrt ([a].map toBV) = [BV.ofNat 16 (ρ 3 0)] := by
  rw [pe_outs]
  constructor
  · intro h
    exact ⟨h 1 .add _ _ (by simp [pe]) rfl rfl, h 2 .mul _ _ (by simp [pe]) rfl rfl, h 3 .sqrt _ _ (by simp [pe]) rfl rfl⟩
  · rintro ⟨h1, h2, h3⟩ B k i o hm hi ho
    simp only [pe, List.mem_cons, Prod.mk.injEq, List.not_mem_nil, or_false] at hm
    rcases hm with ⟨rfl, rfl⟩ | ⟨rfl, rfl⟩ | ⟨rfl, rfl⟩
    · cases hi; cases ho; exact h1
    · cases hi; cases ho; exact h2
    · cases hi; cases ho; exact h3

theorem ir_bc {n : Nat} {k : Cls} {h : List Word → List Word} {g : List Word → Word → Word} {F : Cls → List BV → List BV} {l : List BV} {ρ : Nat → Nat → Nat} :
    BoxesCompute F (boxIr n (some (k, h)) g).bbs [(0, l)] ((boxIr n (some (k, h)) g).bbOuts ρ) ↔ F k l = [BV.ofNat 16 (ρ 0 0)] := by
  rw [ir_outs]
  constructor
  · intro hh
    exact hh 0 k _ _ (by simp [boxIr]) rfl rfl
  · intro hh B k' i o hm hi ho
    simp only [boxIr, List.mem_singleton, Prod.mk.injEq] at hm
    obtain ⟨rfl, rfl⟩ := hm
    cases hi; cases ho; exact hh

/-- The word a list of vectors stands for. -/
def headWord : List BV → Word
  | [b] => toWord b
  | _ => 0

theorem ofNat_toNat16 (w : Word) : BitVec.ofNat 16 w.toNat = w := by simp

theorem core {A : Ty → Except Err AsmObj} {n k op imm u : Nat} {box : Option (Cls × (List Word → List Word))} {g : List Word → Word → Word} {src out : Key → Option Key} (hO : out 0 = some 0) :
    (∀ (x z : Key → Nat) (F : Cls → List BV → List BV) (ρi ρa : Nat → Nat → Nat),
      BoxesCompute F (boxIr n box g).bbs (boxFn box g (.prod (rowOf (wordFields 16 1 n) x)) ((boxIr n box g).bbOuts ρi)).2 ((boxIr n box g).bbOuts ρi) →
      BoxesCompute F (pe A).bbs (peFn (.prod (.prod [.sum k (.leaf op), .leaf imm, .leaf u] :: rowOf dIn (wired src x z))) ((pe A).bbOuts ρa)).2 ((pe A).bbOuts ρa) →
      ∀ d ∈ dOut.toList.map (·.1), ∀ q, out d = some q →
        prodBits dOut (peFn (.prod (.prod [.sum k (.leaf op), .leaf imm, .leaf u] :: rowOf dIn (wired src x z))) ((pe A).bbOuts ρa)).1 d =
          prodBits dOut (boxFn box g (.prod (rowOf (wordFields 16 1 n) x)) ((boxIr n box g).bbOuts ρi)).1 q) ↔
    ∀ (x z : Key → Nat) (G : Cls → List Word → Word), g (wordsOf n x) (boxVal G box (wordsOf n x)) = valG k op imm u (port src x z 1) (port src x z 2) G := by
  have hpe : ∀ (x z : Key → Nat) (bb : List (Nat × List BV)), peFn (.prod (.prod [.sum k (.leaf op), .leaf imm, .leaf u] :: rowOf dIn (wired src x z))) bb =
      (.prod [.leaf (val (decide (k = 0)) op imm (u == 1) (port src x z 1) (port src x z 2) (boxOut bb 1) (boxOut bb 2) (boxOut bb 3)).toNat], boxIns (port src x z 1) (snd imm u (port src x z 2))) := by
    intro x z bb
    simp only [dIn, rowOf, peFn, width, ofNat_mod16]
    rfl
  have hir : ∀ (x : Key → Nat) (ρi : Nat → Nat → Nat), ((boxFn box g (.prod (rowOf (wordFields 16 1 n) x)) ((boxIr n box g).bbOuts ρi)).1 =
      .prod [.leaf (g (wordsOf n x) (match box with | none => 0 | some _ => .ofNat 16 (ρi 0 0))).toNat]) ∧
      ∀ F : Cls → List BV → List BV, (BoxesCompute F (boxIr n box g).bbs (boxFn box g (.prod (rowOf (wordFields 16 1 n) x)) ((boxIr n box g).bbOuts ρi)).2 ((boxIr n box g).bbOuts ρi) ↔
        (match box with | none => True | some (k, h) => F k ((h (wordsOf n x)).map toBV) = [BV.ofNat 16 (ρi 0 0)])) := by
    intro x ρi
    cases box with
    | none =>
      refine ⟨by simp only [boxFn, row_words], fun F => ⟨fun _ => trivial, fun _ B k i o hm => ?_⟩⟩
      simp [boxIr] at hm
    | some kh =>
      obtain ⟨k', h'⟩ := kh
      refine ⟨by simp only [boxFn, row_words, ir_out], fun F => ?_⟩
      simp only [boxFn, row_words]
      exact ir_bc
  constructor
  · intro h x z G
    let a := port src x z 1
    let b := snd imm u (port src x z 2)
    let F : Cls → List BV → List BV := fun k l => [toBV (G k (l.map toWord))]
    have hF : ∀ k l, F k (l.map toBV) = [toBV (G k l)] := by
      intro k l
      simp only [F, toWords_toBVs]
    let ρa : Nat → Nat → Nat := fun p _ => if p = 1 then (G .add [a, b]).toNat else if p = 2 then (G .mul [a, b]).toNat else (G .sqrt [a]).toNat
    let ρi : Nat → Nat → Nat := fun _ _ => (boxVal G box (wordsOf n x)).toNat
    have := h x z F ρi ρa ?_ ?_ 0 (by simp [dOut, Fields.toList]) 0 hO
    · obtain ⟨q1, q2, q3⟩ := pe_out A ρa
      rw [hpe, q1, q2, q3, (hir x ρi).1] at this
      simp only [prodBits, dOut, fieldBits, if_true, ρa, ρi] at this
      have this := BitVec.eq_of_toNat_eq this
      simp only [show (2 : Nat) ≠ 1 by decide, show (3 : Nat) ≠ 1 by decide, show (3 : Nat) ≠ 2 by decide, if_false, ofNat_toNat16, a, b] at this
      rw [valG, this]
      congr 1
      cases box <;> simp [boxVal]
    · rw [(hir x ρi).2]
      cases box with
      | none => trivial
      | some kh => exact hF _ _
    · rw [hpe, pe_bc]
      exact ⟨hF _ _, hF _ _, hF _ _⟩
  · intro h x z F ρi ρa hi ha d hd q hq
    simp only [dOut, Fields.toList, List.map_cons, List.map_nil, List.mem_singleton] at hd
    subst hd
    rw [hO] at hq
    cases hq
    obtain ⟨q1, q2, q3⟩ := pe_out A ρa
    rw [hpe, pe_bc] at ha
    rw [hpe, q1, q2, q3, (hir x ρi).1]
    rw [(hir x ρi).2] at hi
    have := h x z (fun k l => headWord (F k (l.map toBV)))
    simp only [valG] at this
    rw [ha.1, ha.2.1, ha.2.2] at this
    simp only [headWord, toWord, word_of_bv] at this
    simp only [prodBits, dOut, fieldBits, if_true]
    rw [← this]
    congr 2
    cases box with
    | none => rfl
    | some kh =>
      simp only [boxVal]
      rw [hi]
      exact word_of_bv _

end Peak.FPe
