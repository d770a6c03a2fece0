import Verif.Spec.RuleRight
import Verif.Lemmas.RegPe
import Verif.Props.InstMap
import Verif.Props.AssembledADT
import Verif.Props.RiscV
/-!
# C62: the PE of `examples/reg_file`
-/

namespace Peak.RPe
open Peak Peak.Spec
open Peak.RV (Word Idx RegFile PyRF SmtRF pyFile smtFile)

/-! ## in Python -/

theorem store_load (rf : PyRF) (d : Idx) (c : Word) (k : Idx) : pyFile.store rf d c k = if k = d ∧ k ≠ 0 then some c else rf k :=
  RV.store_apply rf d c k

theorem not_nat (a : Word) : (~~~a).toNat = 2 ^ 32 - 1 - a.toNat := by simp

theorem call_holds {rf : PyRF} {x : Idx → Nat} (h : Holds rf x) (i : Inst) : ∃ rf', call pyFile rf i = .ok rf' ∧ Holds rf' (goldStep x i) := by
  have ld : ∀ k, ∃ w : Word, RV.pyLoad rf k = .ok w ∧ w.toNat = x k := by
    intro k
    obtain ⟨w, h1, h2, _⟩ := h k
    exact ⟨w, by simp [RV.pyLoad, h1], h2⟩
  have st : ∀ (d : Idx) (c : Word), c.toNat = gold i x → i.dst = d → Holds (pyFile.store rf d c) (goldStep x i) := by
    intro d c hc hd k
    rw [store_load]
    simp only [goldStep, hd]
    split
    · next hk => exact ⟨c, rfl, hc, fun h => absurd h hk.2⟩
    · exact h k
  cases i with
  | b op r1 r2 d =>
    obtain ⟨a, ha, hax⟩ := ld r1
    obtain ⟨b, hb, hbx⟩ := ld r2
    simp only [call, pyFile, bind, Except.bind, ha, hb, pure, Except.pure]
    refine ⟨_, rfl, st d _ ?_ rfl⟩
    cases op
    · simp [gold, ← hax, ← hbx, BitVec.toNat_add]
    · simp only [gold, ← hax, ← hbx, not_nat, BitVec.toNat_or]
  | u op r1 d =>
    obtain ⟨a, ha, hax⟩ := ld r1
    simp only [call, pyFile, bind, Except.bind, ha, pure, Except.pure]
    refine ⟨_, rfl, st d _ ?_ rfl⟩
    cases op
    · simp only [gold, ← hax, not_nat]
    · simp [gold, ← hax]

/-- C62: a call writes the result of the instruction to its destination register and nothing else, if its source registers have been written; otherwise it raises `KeyError`. -/
theorem C62_step (rf : PyRF) (i : Inst) :
    (∀ x : Idx → Nat, (∀ k ∈ i.srcs, ∃ w : Word, rf k = some w ∧ w.toNat = x k) →
      ∃ rf', call pyFile rf i = .ok rf' ∧ ∀ k, if k = i.dst ∧ k ≠ 0 then ∃ w : Word, rf' k = some w ∧ w.toNat = gold i x else rf' k = rf k) ∧
    ((∃ k ∈ i.srcs, rf k = none) → call pyFile rf i = .error .keyError) := by
  constructor
  · intro x h
    have ld : ∀ k ∈ i.srcs, ∃ w : Word, RV.pyLoad rf k = .ok w ∧ w.toNat = x k := by
      intro k hk
      obtain ⟨w, h1, h2⟩ := h k hk
      exact ⟨w, by simp [RV.pyLoad, h1], h2⟩
    have st : ∀ (d : Idx) (c : Word), c.toNat = gold i x → i.dst = d →
        ∀ k, if k = i.dst ∧ k ≠ 0 then ∃ w : Word, pyFile.store rf d c k = some w ∧ w.toNat = gold i x else pyFile.store rf d c k = rf k := by
      intro d c hc hd k
      rw [hd]
      split
      · next hk => exact ⟨c, by rw [store_load, if_pos hk], hc⟩
      · next hk => rw [store_load, if_neg hk]
    cases i with
    | b op r1 r2 d =>
      obtain ⟨a, ha, hax⟩ := ld r1 (by simp [Inst.srcs])
      obtain ⟨b, hb, hbx⟩ := ld r2 (by simp [Inst.srcs])
      simp only [call, pyFile, bind, Except.bind, ha, hb, pure, Except.pure]
      refine ⟨_, rfl, st d _ ?_ rfl⟩
      cases op
      · simp [gold, ← hax, ← hbx, BitVec.toNat_add]
      · simp only [gold, ← hax, ← hbx, not_nat, BitVec.toNat_or]
    | u op r1 d =>
      obtain ⟨a, ha, hax⟩ := ld r1 (by simp [Inst.srcs])
      simp only [call, pyFile, bind, Except.bind, ha, pure, Except.pure]
      refine ⟨_, rfl, st d _ ?_ rfl⟩
      cases op
      · simp only [gold, ← hax, not_nat]
      · simp [gold, ← hax]
  · rintro ⟨k, hk, hn⟩
    cases i with
    | b op r1 r2 d =>
      simp only [Inst.srcs, List.mem_cons, List.not_mem_nil, or_false] at hk
      rcases hk with rfl | rfl
      · simp [call, pyFile, bind, Except.bind, RV.pyLoad, hn]
      · cases h1 : rf r1 <;> simp [call, pyFile, bind, Except.bind, RV.pyLoad, hn, h1]
    | u op r1 d =>
      simp only [Inst.srcs, List.mem_singleton] at hk
      subst hk
      simp [call, pyFile, bind, Except.bind, RV.pyLoad, hn]

/-- C62: a program of any length on a filled register file leaves what the instructions compute one after the other. -/
theorem C62_run (is : List Inst) : ∀ (rf : PyRF) (x : Idx → Nat), Holds rf x → ∃ rf', pyRun rf is = .ok rf' ∧ Holds rf' (is.foldl goldStep x) := by
  induction is with
  | nil => intro rf x h; exact ⟨rf, rfl, h⟩
  | cons i is ih =>
    intro rf x h
    obtain ⟨rf1, h1, h2⟩ := call_holds h i
    obtain ⟨rf2, h3, h4⟩ := ih rf1 _ h2
    exact ⟨rf2, by simp [pyRun, bind, Except.bind, h1, h3], h4⟩

theorem fill_spec (v : Idx → Word) (l : List Idx) (k : Idx) : fill v l k = if k = 0 then some 0 else if k ∈ l then some (v k) else none := by
  induction l with
  | nil => simp [fill, RV.pyInit]
  | cons i l ih =>
    simp only [fill, store_load, ih]
    by_cases h0 : k = 0
    · simp [h0]
    · rw [if_neg h0, if_neg h0]
      by_cases hi : k = i
      · rw [if_pos ⟨hi, h0⟩, if_pos (by simp [hi]), hi]
      · rw [if_neg (fun h => hi h.1)]
        simp [hi]

/-- C62: the register file test_py starts from: once every register has been stored to, `Holds`. -/
theorem C62_filled (v : Idx → Word) (l : List Idx) (h : ∀ k, k ≠ 0 → k ∈ l) : Holds (fill v l) (fun k => if k = 0 then 0 else (v k).toNat) := by
  intro k
  by_cases h0 : k = 0
  · exact ⟨0, by simp [fill_spec, h0], by simp [h0], fun _ => rfl⟩
  · exact ⟨v k, by rw [fill_spec, if_neg h0, if_pos (h k h0)], by simp only [if_neg h0], fun h => absurd h h0⟩

/-- With every register holding its index, `r3 = r1 + r2; r0 = ~r3; r4 = ~(r3 | r0)` leaves 3 in `r3` and `2 ^ 32 - 4` in `r4`. -/
example : ∃ rf', pyRun (fill (fun k => k.setWidth 32) ((List.range 32).map (BitVec.ofNat 5))) [.b .add 1 2 3, .u .inv 3 0, .b .nor 3 0 4] = .ok rf' ∧
    rf' 3 = some 3 ∧ rf' 0 = some 0 ∧ rf' 4 = some (~~~3) := by
  obtain ⟨rf', h1, h2⟩ := C62_run [.b .add 1 2 3, .u .inv 3 0, .b .nor 3 0 4] _ _ (C62_filled (fun k => k.setWidth 32) ((List.range 32).map (BitVec.ofNat 5))
    (by intro k _; exact List.mem_map.mpr ⟨k.toNat, List.mem_range.mpr k.isLt, by simp⟩))
  refine ⟨rf', h1, ?_, ?_, ?_⟩
  · obtain ⟨w, a, b, _⟩ := h2 3
    rw [a, Option.some.injEq]
    apply BitVec.eq_of_toNat_eq
    rw [b]; decide
  · obtain ⟨w, a, b, _⟩ := h2 0
    rw [a, Option.some.injEq]
    apply BitVec.eq_of_toNat_eq
    rw [b]; decide
  · obtain ⟨w, a, b, _⟩ := h2 4
    rw [a, Option.some.injEq]
    apply BitVec.eq_of_toNat_eq
    rw [b]; decide

/-- An unwritten source. -/
example : call pyFile RV.pyInit (.b .add 0 7 3) = .error .keyError :=
  (C62_step _ _).2 ⟨7, by simp [Inst.srcs], by simp [RV.pyInit]⟩

/-! ## mappable -/

theorem val_has (i : Inst) : instT.Has i.val := by
  cases i with
  | b op _ _ _ => cases op <;> simp [instT, bT, bopT, Inst.val, BOp.mem, idxVal, Ty.Has, Fields.HasAt, Fields.HasAll, BV.ofNat_size]
  | u op _ _ => cases op <;> simp [instT, uT, uopT, Inst.val, UOp.mem, idxVal, Ty.Has, Fields.HasAt, Fields.HasAll, BV.ofNat_size]

/-- The code of an operation. -/
def BOp.code : BOp → Nat
  | .add => 0
  | .nor => 1
def UOp.code : UOp → Nat
  | .inv => 0
  | .mov => 1

theorem raw_val (i : Inst) : rawOf instT i.val = match i with
    | .b op r1 r2 d => .sum 0 (.prod [.leaf op.code, .leaf r1.toNat, .leaf r2.toNat, .leaf d.toNat])
    | .u op r1 d => .sum 1 (.prod [.leaf op.code, .leaf r1.toNat, .leaf d.toNat]) := by
  have hb : ∀ op : BOp, rawOf bopT (.enum op.mem) = .leaf op.code := by
    intro op
    cases op <;> exact congrArg RVal.leaf (by decide +kernel)
  have hu : ∀ op : UOp, rawOf uopT (.enum op.mem) = .leaf op.code := by
    intro op
    cases op <;> exact congrArg RVal.leaf (by decide +kernel)
  have hi : ∀ k : Idx, k.toNat % 32 = k.toNat := fun k => Nat.mod_eq_of_lt k.isLt
  cases i with
  | b op r1 r2 d => simp [instT, bT, Inst.val, rawOf, rawOfAt, rawOfAll, idxVal, encode, BV.ofNat_val, hb, hi]
  | u op r1 d => simp [instT, uT, Inst.val, rawOf, rawOfAt, rawOfAll, idxVal, encode, BV.ofNat_val, hu, hi]

theorem idx_eq_zero (k : Idx) : k.toNat = 0 ↔ k = 0 := by
  constructor
  · intro h; exact BitVec.eq_of_toNat_eq h
  · rintro rfl; rfl

/-- C62: the mappable PE on an assembled instruction returns the result of the instruction, register 0 holding 0; with destination 0 it returns the initial value of `rd`. -/
theorem C62_mappable (P : Process) (i : Inst) (rs1 rs2 rd : Word) : ∃ x w, AV.new P.asm instT (.raw i.val) = .ok x ∧ smtCall P.asm x rs1 rs2 rd = .ok w ∧
    (i.dst = 0 → w = rd) ∧ (i.dst ≠ 0 → ∀ v : Idx → Nat, v 0 = 0 → (∀ k, i.srcs[0]? = some k → k ≠ 0 → v k = rs1.toNat) →
      (∀ k, i.srcs[1]? = some k → k ≠ 0 → v k = rs2.toNat) → w.toNat = gold i v) := by
  have hh := val_has i
  obtain ⟨h1, h2⟩ := C38_rawOf instT i.val inst_wf hh
  obtain ⟨w, hw1, hw2⟩ := call_raw P h1 rs1.toNat rs2.toNat rd.toNat []
  rw [h2] at hw1
  simp only [BitVec.ofNat_toNat, BitVec.setWidth_eq] at hw1
  refine ⟨_, w, new_raw P inst_wf hh, hw1, ?_⟩
  rw [raw_val] at hw2
  cases i with
  | b op r1 r2 d =>
    simp only [peFn, BitVec.ofNat_toNat, BitVec.setWidth_eq, Prod.mk.injEq, RVal.prod.injEq, List.cons.injEq, RVal.leaf.injEq, and_true] at hw2
    have e := BitVec.eq_of_toNat_eq hw2
    subst e
    simp only [val, idx_eq_zero, if_true, Inst.dst]
    refine ⟨fun h => by rw [if_pos h], ?_⟩
    intro hd v h0 v1 v2
    replace v1 := v1 r1 rfl
    replace v2 := v2 r2 rfl
    rw [if_neg hd]
    have e1 : (if r1 = 0 then (0 : Word) else rs1).toNat = v r1 := by
      split
      · next h => rw [h, h0]; rfl
      · next h => rw [v1 h]
    have e2 : (if r2 = 0 then (0 : Word) else rs2).toNat = v r2 := by
      split
      · next h => rw [h, h0]; rfl
      · next h => rw [v2 h]
    cases op
    · simp only [BOp.code, beq_self_eq_true, if_true, gold, BitVec.toNat_add, e1, e2]
    · simp only [BOp.code, Nat.reduceBEq, Bool.false_eq_true, if_false, gold, not_nat, BitVec.toNat_or, e1, e2]
  | u op r1 d =>
    simp only [peFn, BitVec.ofNat_toNat, BitVec.setWidth_eq, Prod.mk.injEq, RVal.prod.injEq, List.cons.injEq, RVal.leaf.injEq, and_true] at hw2
    have e := BitVec.eq_of_toNat_eq hw2
    subst e
    simp only [val, idx_eq_zero, Bool.false_eq_true, if_false, Inst.dst]
    refine ⟨fun h => by rw [if_pos h], ?_⟩
    intro hd v h0 v1 _
    replace v1 := v1 r1 rfl
    rw [if_neg hd]
    have e1 : (if r1 = 0 then (0 : Word) else rs1).toNat = v r1 := by
      split
      · next h => rw [h, h0]; rfl
      · next h => rw [v1 h]
    cases op
    · simp only [UOp.code, beq_self_eq_true, if_true, gold, not_nat, e1]
    · simp only [UOp.code, Nat.reduceBEq, Bool.false_eq_true, if_false, gold, e1]

/-- C62: the mappable PE and the Python PE agree: where the inputs `rs1` and `rs2` are the contents of the source registers, the output is what the call leaves in the destination register. -/
theorem C62_agree (P : Process) (i : Inst) (rf : PyRF) (rs1 rs2 rd : Word) (h0 : rf 0 = some 0) (h1 : ∀ k, i.srcs[0]? = some k → k ≠ 0 → rf k = some rs1)
    (h2 : ∀ k, i.srcs[1]? = some k → k ≠ 0 → rf k = some rs2) (hd : i.dst ≠ 0) :
    ∃ x w rf', AV.new P.asm instT (.raw i.val) = .ok x ∧ smtCall P.asm x rs1 rs2 rd = .ok w ∧ call pyFile rf i = .ok rf' ∧ rf' i.dst = some w := by
  obtain ⟨x, w, a1, a2, _, a3⟩ := C62_mappable P i rs1 rs2 rd
  have hs : ∀ k ∈ i.srcs, ∃ w : Word, rf k = some w ∧ w.toNat = ((rf k).getD 0).toNat := by
    intro k hk
    obtain ⟨n, hn⟩ := List.getElem?_of_mem hk
    have : ∃ w, rf k = some w := by
      by_cases hk0 : k = 0
      · exact ⟨0, by rw [hk0, h0]⟩
      · match n, hn with
        | 0, hn => exact ⟨_, h1 k hn hk0⟩
        | 1, hn => exact ⟨_, h2 k hn hk0⟩
        | n + 2, hn => cases i <;> simp [Inst.srcs] at hn
    obtain ⟨w, hw⟩ := this
    exact ⟨w, hw, by rw [hw]; rfl⟩
  obtain ⟨rf', b1, b2⟩ := (C62_step rf i).1 _ hs
  refine ⟨x, w, rf', a1, a2, b1, ?_⟩
  have := b2 i.dst
  rw [if_pos ⟨rfl, hd⟩] at this
  obtain ⟨w', c1, c2⟩ := this
  rw [c1, Option.some.injEq]
  apply BitVec.eq_of_toNat_eq
  rw [c2, a3 hd (fun k => ((rf k).getD 0).toNat) (by simp only [h0]; rfl) (fun k hk hk0 => by simp [h1 k hk hk0]) (fun k hk hk0 => by simp [h2 k hk hk0])]

/-- test_smt: `Nor` of registers 4 and 9. -/
example (P : Process) (rs1 rs2 rd : Word) : ∃ x, AV.new P.asm instT (.raw (Inst.b .nor 4 9 17).val) = .ok x ∧ smtCall P.asm x rs1 rs2 rd = .ok (~~~(rs1 ||| rs2)) := by
  obtain ⟨x, w, h1, h2, _, h⟩ := C62_mappable P (.b .nor 4 9 17) rs1 rs2 rd
  refine ⟨x, h1, ?_⟩
  have := h (by decide) (fun k => if k = 4 then rs1.toNat else if k = 9 then rs2.toNat else 0) rfl
    (by intro k hk _; cases hk; rfl) (by intro k hk _; cases hk; rfl)
  rw [h2, Except.ok.injEq]
  apply BitVec.eq_of_toNat_eq
  rw [this, not_nat]
  simp [gold]

/-! ## mapping -/

/-- Every instruction computes one of the words. -/
theorem inst_word {v : Val} (h : instT.Has v) : ∃ isB opz i j d, ∀ a b z bb,
    (peFn (.prod [rawOf instT v, .leaf a, .leaf b, .leaf z]) bb).1 = .prod [.leaf (val isB opz i j d (.ofNat 32 a) (.ofNat 32 b) (.ofNat 32 z)).toNat] := by
  rcases inst_shape (C38_rawOf _ v inst_wf h).1 with ⟨op, i, j, d, e, _⟩ | ⟨op, i, d, e, _⟩
  · rw [e]
    exact ⟨true, op == 0, i, j, d, fun _ _ _ _ => rfl⟩
  · rw [e]
    exact ⟨false, op == 0, i, 0, d, fun _ _ _ _ => rfl⟩

theorem ofNat_mod32 (n : Nat) : BitVec.ofNat 32 (n % 2 ^ 32) = .ofNat 32 n := by
  apply BitVec.eq_of_toNat_eq
  simp

theorem row_two (x : Key → Nat) : (rowOf (wordFields 32 1 2) x).map (WIr.leafWord 32) = [.ofNat 32 (x 1), .ofNat 32 (x 2)] := by
  have h := ofNat_mod32
  simp only [rowOf, wordFields, WIr.leafWord, width, List.map_cons, List.map_nil, h]

theorem row_one (x : Key → Nat) : (rowOf (wordFields 32 1 1) x).map (WIr.leafWord 32) = [.ofNat 32 (x 1)] := by
  have h := ofNat_mod32
  simp only [rowOf, wordFields, WIr.leafWord, width, List.map_cons, List.map_nil, h]

/-- What an instruction makes the PE compute. -/
def iword : Inst → Word → Word → Word → Word
  | .b op r1 r2 d, a, b, z => val true (op.code == 0) r1.toNat r2.toNat d.toNat a b z
  | .u op r1 d, a, b, z => val false (op.code == 0) r1.toNat 0 d.toNat a b z

theorem inst_fn (i : Inst) (a b z : Nat) (bb : List (Nat × List BV)) :
    (peFn (.prod [rawOf instT i.val, .leaf a, .leaf b, .leaf z]) bb).1 = .prod [.leaf (iword i (.ofNat 32 a) (.ofNat 32 b) (.ofNat 32 z)).toNat] := by
  rw [raw_val]
  cases i <;> rfl

/-- The wiring of an instruction that computes `f`. -/
theorem wiring {n : Nat} {f : List Word → Word} (hc : CanCompute (WIr.wordFn 32 f) peFn instT (wordFields 32 1 n) dOut dIn dOut) :
    ∃ (isB opz : Bool) (i j d : Nat) (s1 s2 : Option Nat), (∀ k, 1 ≤ k → k ≤ n → s1 = some k ∨ s2 = some k) ∧ (∀ k, s1 = some k → 1 ≤ k ∧ k ≤ n ∧ s2 ≠ some k) ∧ (∀ k, s2 = some k → 1 ≤ k ∧ k ≤ n) ∧
      ∀ (x : Key → Nat) (z1 z2 z3 : Word), f ((rowOf (wordFields 32 1 n) x).map (WIr.leafWord 32)) =
        val isB opz i j d (match s1 with | some q => .ofNat 32 (x q) | none => z1) (match s2 with | some q => .ofNat 32 (x q) | none => z2) z3 := by
  obtain ⟨v, src, out, hv, hS, hO, h⟩ := hc
  obtain ⟨isB, opz, i, j, d, hw⟩ := inst_word hv
  obtain ⟨o, ho, hout, _⟩ := hO.once 0 (.bv 0 32) (by simp [dOut, Fields.toList])
  simp only [dOut, Fields.toList, List.map_cons, List.map_nil, List.mem_singleton] at ho
  subst ho
  have h3 : src 3 = none := by
    cases e : src 3 with
    | none => rfl
    | some q =>
      have := WIr.fields_mem.mp (hS.typed 3 (.bv 1 32) q (by simp [dIn, Fields.toList]) e)
      simp at this
  refine ⟨isB, opz, i, j, d, src 1, src 2, ?_, ?_, ?_, ?_⟩
  · intro k h1 h2
    obtain ⟨a, ha, hs, _⟩ := hS.once k (.bv 0 32) (WIr.fields_mem.mpr ⟨h1, by omega, rfl⟩)
    simp only [dIn, Fields.toList, List.map_cons, List.map_nil, List.mem_cons, List.not_mem_nil, or_false] at ha
    rcases ha with rfl | rfl | rfl
    · exact .inl hs
    · exact .inr hs
    · rw [h3] at hs; cases hs
  · intro k hk
    have t := hS.typed 1 (.bv 0 32) k (by simp [dIn, Fields.toList]) hk
    have := WIr.fields_mem.mp t
    refine ⟨this.1, by omega, ?_⟩
    intro hk2
    obtain ⟨a, _, _, hu⟩ := hS.once k _ t
    have e1 := hu 1 (by simp [dIn, Fields.toList]) hk
    have e2 := hu 2 (by simp [dIn, Fields.toList]) hk2
    exact absurd (e1.trans e2.symm) (by decide)
  · intro k hk
    have := WIr.fields_mem.mp (hS.typed 2 (.bv 0 32) k (by simp [dIn, Fields.toList]) hk)
    exact ⟨this.1, by omega⟩
  · intro x z1 z2 z3
    have := h x (fun k => if k = 1 then z1.toNat else if k = 2 then z2.toNat else z3.toNat) 0 (by simp [dOut, Fields.toList]) 0 hout
    simp only [dIn, rowOf, hw, WIr.wordFn, prodBits, dOut, fieldBits, if_true, width, ofNat_mod32] at this
    rw [← BitVec.eq_of_toNat_eq this]
    simp only [wired, h3]
    cases src 1 <;> cases src 2 <;> simp

/-- An instruction whose result does not depend on the initial value of `rd` has another destination than register 0. -/
theorem dst_ne {isB opz : Bool} {i j d : Nat} {w a b : Word} (h : ∀ z, w = val isB opz i j d a b z) : d ≠ 0 := by
  intro hd
  have h0 := h 0
  have h1 := h 1
  simp only [val, hd, if_true] at h0 h1
  rw [h0] at h1
  exact absurd h1 (by decide)

theorem two_words (f : List Word → Word) : CanCompute (WIr.wordFn 32 f) peFn instT (wordFields 32 1 2) dOut dIn dOut → Binary (fun x y => f [x, y]) := by
  intro hc
  obtain ⟨isB, opz, i, j, d, s1, s2, c1, c2, c3, h⟩ := wiring hc
  have hs : (s1 = some 1 ∧ s2 = some 2) ∨ (s1 = some 2 ∧ s2 = some 1) := by
    rcases c1 1 (by decide) (by decide) with h1 | h1 <;> rcases c1 2 (by decide) (by decide) with h2 | h2
    · rw [h1] at h2; simp at h2
    · exact .inl ⟨h1, h2⟩
    · exact .inr ⟨h2, h1⟩
    · rw [h1] at h2; simp at h2
  have hrow : ∀ x y : Word, (rowOf (wordFields 32 1 2) (fun k => if k = 1 then x.toNat else y.toNat)).map (WIr.leafWord 32) = [x, y] := by
    intro x y
    rw [row_two]
    simp
  have key : ∃ sw : Bool, ∀ x y z : Word, f [x, y] = val isB opz i j d (if sw then y else x) (if sw then x else y) z := by
    rcases hs with ⟨rfl, rfl⟩ | ⟨rfl, rfl⟩
    · refine ⟨false, fun x y z => ?_⟩
      have := h (fun k => if k = 1 then x.toNat else y.toNat) 0 0 z
      rw [hrow] at this
      simpa using this
    · refine ⟨true, fun x y z => ?_⟩
      have := h (fun k => if k = 1 then x.toNat else y.toNat) 0 0 z
      rw [hrow] at this
      simpa using this
  obtain ⟨sw, key⟩ := key
  have hd := dst_ne (key 0 0)
  have key' : ∀ x y, f [x, y] = val isB opz i j d (if sw then y else x) (if sw then x else y) 0 := fun x y => key x y 0
  simp only [val, if_neg hd] at key'
  unfold Binary
  cases isB <;> cases opz <;> by_cases hi : i = 0 <;> by_cases hj : j = 0 <;> cases sw <;> simp [hi, hj, key', BitVec.add_comm, BitVec.or_comm]

theorem one_word (f : List Word → Word) : CanCompute (WIr.wordFn 32 f) peFn instT (wordFields 32 1 1) dOut dIn dOut → Unary (fun x => f [x]) := by
  intro hc
  obtain ⟨isB, opz, i, j, d, s1, s2, c1, c2, c3, h⟩ := wiring hc
  have hrow : ∀ x : Word, (rowOf (wordFields 32 1 1) (fun _ => x.toNat)).map (WIr.leafWord 32) = [x] := by
    intro x
    rw [row_one]
    simp
  have hs : (s1 = some 1 ∧ s2 = none) ∨ (s1 = none ∧ s2 = some 1) := by
    rcases c1 1 (by decide) (by decide) with h1 | h1
    · left
      refine ⟨h1, Option.eq_none_iff_forall_ne_some.mpr (fun q hq => ?_)⟩
      have := c3 q hq
      have hq1 : q = 1 := by omega
      exact (c2 1 h1).2.2 (by rw [hq, hq1])
    · right
      refine ⟨Option.eq_none_iff_forall_ne_some.mpr (fun q hq => ?_), h1⟩
      have := c2 q hq
      have hq1 : q = 1 := by omega
      exact this.2.2 (by rw [h1, hq1])
  have key : ∃ sw : Bool, ∀ x y z : Word, f [x] = val isB opz i j d (if sw then y else x) (if sw then x else y) z := by
    rcases hs with ⟨rfl, rfl⟩ | ⟨rfl, rfl⟩
    · refine ⟨false, fun x y z => ?_⟩
      have := h (fun _ => x.toNat) 0 y z
      rw [hrow] at this
      simpa using this
    · refine ⟨true, fun x y z => ?_⟩
      have := h (fun _ => x.toNat) y 0 z
      rw [hrow] at this
      simpa using this
  obtain ⟨sw, key⟩ := key
  have hd := dst_ne (key 0 0)
  have key' : ∀ x y, f [x] = val isB opz i j d (if sw then y else x) (if sw then x else y) 0 := fun x y => key x y 0
  simp only [val, if_neg hd] at key'
  unfold Unary
  have k0 := fun x => key' x 0
  cases isB <;> cases opz <;> by_cases hi : i = 0 <;> by_cases hj : j = 0 <;> cases sw <;> simp only [hi, hj, if_true, if_false, Bool.false_eq_true] at k0 <;> simp [k0]

theorem more_words {n : Nat} (hn : 3 ≤ n) (f : List Word → Word) : ¬ CanCompute (WIr.wordFn 32 f) peFn instT (wordFields 32 1 n) dOut dIn dOut := by
  intro hc
  obtain ⟨_, _, _, _, _, s1, s2, c1, _⟩ := wiring hc
  have h1 := c1 1 (by omega) (by omega)
  have h2 := c1 2 (by omega) (by omega)
  have h3 := c1 3 (by omega) (by omega)
  rcases h1 with h1 | h1 <;> rcases h2 with h2 | h2 <;> rcases h3 with h3 | h3 <;> simp_all

/-- The wiring that gives the inputs in order, or swapped, or the only input to `rs1`. -/
theorem can_of (n : Nat) (hn : n = 1 ∨ n = 2) (f : List Word → Word) (sw : Bool) (hsw : sw = true → n = 2) (i : Inst)
    (h : ∀ (x : Key → Nat) (b z : Word), f ((rowOf (wordFields 32 1 n) x).map (WIr.leafWord 32)) =
      iword i (.ofNat 32 (x (if sw then 2 else 1))) (if n = 2 then .ofNat 32 (x (if sw then 1 else 2)) else b) z) :
    CanCompute (WIr.wordFn 32 f) peFn instT (wordFields 32 1 n) dOut dIn dOut := by
  refine ⟨i.val, fun k => if k = 1 then some (if sw then 2 else 1) else if k = 2 ∧ n = 2 then some (if sw then 1 else 2) else none, fun _ => some 0, val_has i, ⟨?_, ?_⟩, ⟨?_, ?_⟩, ?_⟩
  · intro a t q ha hq
    simp only [dIn, Fields.toList, List.mem_cons, Prod.mk.injEq, List.not_mem_nil, or_false] at ha
    rcases ha with ⟨rfl, rfl⟩ | ⟨rfl, rfl⟩ | ⟨rfl, rfl⟩
    · simp at hq
      subst hq
      rw [WIr.fields_mem]
      cases sw
      · simp; omega
      · have := hsw rfl; simp; omega
    · simp at hq
      obtain ⟨h2, hq⟩ := hq
      subst hq
      rw [WIr.fields_mem]
      cases sw <;> simp <;> omega
    · simp at hq
  · intro q t hq
    have hq' := WIr.fields_mem.mp hq
    have hq1 : 1 ≤ (show Nat from q) := hq'.1
    have hq2 : (show Nat from q) < 1 + n := hq'.2.1
    rcases hn with rfl | rfl
    · have hs : sw = false := by cases sw; rfl; exact absurd (hsw rfl) (by decide)
      have : q = (1 : Nat) := Nat.le_antisymm (Nat.le_of_lt_succ hq2) hq1
      subst this hs
      exact ⟨1, by simp [dIn, Fields.toList]⟩
    · have : q = (1 : Nat) ∨ q = (2 : Nat) := by
        rcases Nat.lt_or_ge (show Nat from q) 2 with h | h
        · exact .inl (Nat.le_antisymm (Nat.le_of_lt_succ h) hq1)
        · exact .inr (Nat.le_antisymm (Nat.le_of_lt_succ hq2) h)
      rcases this with rfl | rfl <;> cases sw <;> simp [dIn, Fields.toList]
  · intro a t q ha hq
    simp only [dOut, Fields.toList, List.mem_singleton, Prod.mk.injEq] at ha
    obtain ⟨rfl, rfl⟩ := ha
    cases hq
    simp [dOut, Fields.toList]
  · intro q t hq
    simp only [dOut, Fields.toList, List.mem_singleton, Prod.mk.injEq] at hq
    obtain ⟨rfl, rfl⟩ := hq
    simp [dOut, Fields.toList]
  · intro x z k hk q hq
    simp only [dOut, Fields.toList, List.map_cons, List.map_nil, List.mem_singleton] at hk
    cases hq
    subst hk
    have := h x (.ofNat 32 (z 2)) (.ofNat 32 (z 3))
    simp only [dIn, rowOf, inst_fn, WIr.wordFn, prodBits, dOut, fieldBits, if_true, width, ofNat_mod32, this]
    rcases hn with rfl | rfl <;> simp [wired]

theorem binary_can (f : List Word → Word) (h : Binary (fun x y => f [x, y])) : CanCompute (WIr.wordFn 32 f) peFn instT (wordFields 32 1 2) dOut dIn dOut := by
  have go : ∀ (sw : Bool) (i : Inst), (∀ x y z : Word, f [x, y] = iword i (if sw then y else x) (if sw then x else y) z) →
      CanCompute (WIr.wordFn 32 f) peFn instT (wordFields 32 1 2) dOut dIn dOut := by
    intro sw i hi
    refine can_of 2 (.inr rfl) f sw (fun _ => rfl) i ?_
    intro x b z
    rw [row_two, hi _ _ z]
    cases sw <;> rfl
  rcases h with h | h | h | h | h | h | h | h
  · exact go false (.b .add 1 1 1) (fun x y z => (h x y).trans rfl)
  · exact go false (.b .nor 1 1 1) (fun x y z => (h x y).trans rfl)
  · exact go false (.u .mov 1 1) (fun x y z => (h x y).trans rfl)
  · exact go true (.u .mov 1 1) (fun x y z => (h x y).trans rfl)
  · exact go false (.u .inv 1 1) (fun x y z => (h x y).trans rfl)
  · exact go true (.u .inv 1 1) (fun x y z => (h x y).trans rfl)
  · exact go false (.u .mov 0 1) (fun x y z => (h x y).trans rfl)
  · exact go false (.u .inv 0 1) (fun x y z => (h x y).trans rfl)

theorem unary_can (f : List Word → Word) (h : Unary (fun x => f [x])) : CanCompute (WIr.wordFn 32 f) peFn instT (wordFields 32 1 1) dOut dIn dOut := by
  have go : ∀ (i : Inst), (∀ x b z : Word, f [x] = iword i x b z) → CanCompute (WIr.wordFn 32 f) peFn instT (wordFields 32 1 1) dOut dIn dOut := by
    intro i hi
    refine can_of 1 (.inl rfl) f false (fun h => by cases h) i ?_
    intro x b z
    rw [row_one, hi _ b z]
    rfl
  rcases h with h | h | h | h
  · exact go (.u .mov 1 1) (fun x b z => (h x).trans rfl)
  · exact go (.u .inv 1 1) (fun x b z => (h x).trans rfl)
  · exact go (.u .mov 0 1) (fun x b z => (h x).trans rfl)
  · exact go (.u .inv 0 1) (fun x b z => (h x).trans rfl)

theorem inst_trusted (P : Process) (enc : IEnc) (n : Nat) (f : List Word → Word) (hB : Trusted P bopT) (hU : Trusted P uopT) :
    ∀ p c ms, (p, Ty.enum c ms) ∈ leafTypes (problem P.asm enc n f).arch.inT [] → Trusted P (.enum c ms) := by
  intro p c ms h
  simp [problem, pe, dIn, instT, bT, uT, bopT, uopT, leafTypes, leafTypesF] at h
  rcases h with ⟨_, rfl, rfl⟩ | ⟨_, rfl, rfl⟩
  · exact hB
  · exact hU

/-- Mapped to the PE, as the mapping finds it: the instruction has one or two words, and is one of the functions the PE can compute. -/
def Mapped (n : Nat) (f : List Word → Word) : Prop := n = 2 ∧ Binary (fun x y => f [x, y]) ∨ n = 1 ∧ Unary (fun x => f [x])

theorem can_compute {n : Nat} (hn : 0 < n) (f : List Word → Word) :
    CanCompute (WIr.wordFn 32 f) peFn instT (wordFields 32 1 n) dOut dIn dOut ↔ Mapped n f := by
  constructor
  · intro h
    have : n = 1 ∨ n = 2 ∨ 3 ≤ n := by omega
    rcases this with rfl | rfl | h3
    · exact .inr ⟨rfl, one_word f h⟩
    · exact .inl ⟨rfl, two_words f h⟩
    · exact absurd h (more_words h3 f)
  · rintro (⟨rfl, h⟩ | ⟨rfl, h⟩)
    · exact binary_can f h
    · exact unary_can f h

/-- C62: with a sound and complete solver, either encoding of the index variables, the mapper maps an instruction on words to the PE if and only if it is one of the functions of one or two words
the PE computes (`Mapped`); the rule is a correct mapping.  Otherwise it returns `None`. -/
theorem C62_mapping (P : Process) (enc : IEnc) (hI : Trusted P instT) (hB : Trusted P bopT) (hU : Trusted P uopT)
    (solve : (MAsg Nat → Prop) → Option (MAsg Nat)) (hsat : ∀ φ a, solve φ = some a → φ a) (hcomp : ∀ φ a, φ a → ∃ a', solve φ = some a') (a0 : MAsg Nat)
    {n : Nat} (hn : 0 < n) (f : List Word → Word) :
    (Mapped n f → ∃ r, mapSolve P.asm (problem P.asm enc n f) solve a0 = .ok (some r) ∧
      IsMapping P.asm (problem P.asm enc n f) r ∧ RuleRight P (wordIr 32 n f) (pe P.asm) r) ∧
    (¬ Mapped n f → mapSolve P.asm (problem P.asm enc n f) solve a0 = .ok none) := by
  rw [← can_compute hn f]
  exact right_of (setup P enc hn f) (C33_instruction P (problem P.asm enc n f) (WIr.wordFn 32 f) peFn (fun _ => [1]) 0 instT _ _ _ _ (shape P.asm enc n f)
    (setup P enc hn f) (pe_total P) hI (inst_trusted P enc n f hB hU) solve hsat hcomp a0)

/-- C62: the same with `simple_formula=True`. -/
theorem C62_mapping_simple (P : Process) (enc : IEnc) (hI : Trusted P instT) (hB : Trusted P bopT) (hU : Trusted P uopT)
    (solve : (SAsg Nat → Prop) → Option (SAsg Nat)) (hsat : ∀ φ a, solve φ = some a → φ a) (hcomp : ∀ φ a, φ a → ∃ a', solve φ = some a') (a0 : SAsg Nat)
    {n : Nat} (hn : 0 < n) (f : List Word → Word) :
    (Mapped n f → ∃ r, simpleSolve P.asm (problem P.asm enc n f) solve a0 = .ok (some r) ∧
      IsMapping P.asm (problem P.asm enc n f) r ∧ RuleRight P (wordIr 32 n f) (pe P.asm) r) ∧
    (¬ Mapped n f → simpleSolve P.asm (problem P.asm enc n f) solve a0 = .ok none) := by
  rw [← can_compute hn f]
  exact right_of (setup P enc hn f) (C55_instruction P (problem P.asm enc n f) (WIr.wordFn 32 f) peFn (fun _ => [1]) 0 instT _ _ _ _ (shape P.asm enc n f)
    (setup P enc hn f) (pe_total P) (pe_boxes P.asm) hI (inst_trusted P enc n f hB hU) solve hsat hcomp a0)

theorem trusted_fresh : Trusted ⟨fun _ => []⟩ instT ∧ Trusted ⟨fun _ => []⟩ bopT ∧ Trusted ⟨fun _ => []⟩ uopT := by
  have hb : Checkable bopT := ⟨⟨1, by decide, by decide⟩, fun h => absurd h.1 (by decide)⟩
  have hu : Checkable uopT := ⟨⟨1, by decide, by decide⟩, fun h => absurd h.1 (by decide)⟩
  refine ⟨?_, ?_, ?_⟩
  · intro t ht
    simp only [List.mem_singleton] at ht
    subst ht
    refine ⟨inst_wf, ?_⟩
    simp [instT, Checkable, Checkables, bT, uT, hb, hu, Fields.toList]
  · intro t ht
    simp only [List.mem_singleton] at ht
    subst ht
    exact ⟨bop_wf, hb⟩
  · intro t ht
    simp only [List.mem_singleton] at ht
    subst ht
    exact ⟨uop_wf, hu⟩

/-- In a process that has built no assembler before: `x + y` is mapped, `x - y` is not. -/
example (enc : IEnc) (solve : (MAsg Nat → Prop) → Option (MAsg Nat)) (hsat : ∀ φ a, solve φ = some a → φ a)
    (hcomp : ∀ φ a, φ a → ∃ a', solve φ = some a') (a0 : MAsg Nat) :
    (∃ r, mapSolve (Process.asm ⟨fun _ => []⟩) (problem (Process.asm ⟨fun _ => []⟩) enc 2 (fun l => l[0]! + l[1]!)) solve a0 = .ok (some r)) ∧
    mapSolve (Process.asm ⟨fun _ => []⟩) (problem (Process.asm ⟨fun _ => []⟩) enc 2 (fun l => l[0]! - l[1]!)) solve a0 = .ok none := by
  obtain ⟨h1, h2, h3⟩ := trusted_fresh
  constructor
  · obtain ⟨r, hr, _⟩ := (C62_mapping _ enc h1 h2 h3 solve hsat hcomp a0 (n := 2) (by decide) (fun l => l[0]! + l[1]!)).1 (.inl ⟨rfl, .inl (fun _ _ => rfl)⟩)
    exact ⟨r, hr⟩
  · refine (C62_mapping _ enc h1 h2 h3 solve hsat hcomp a0 (n := 2) (by decide) (fun l => l[0]! - l[1]!)).2 ?_
    rintro (⟨_, h | h | h | h | h | h | h | h⟩ | ⟨h, _⟩)
    · have := h 0 1; simp at this
    · have := h 0 0; simp at this
    · have := h 0 1; simp at this
    · have := h 0 1; simp at this
    · have := h 0 0; simp at this
    · have := h 0 0; simp at this
    · have := h 0 1; simp at this
    · have := h 0 0; simp at this
    · cases h

end Peak.RPe
