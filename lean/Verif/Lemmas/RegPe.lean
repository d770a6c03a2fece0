import Verif.Spec.RegPe
import Verif.Lemmas.SumPe
import Verif.Lemmas.WordIr
/-!
# The mappable PE of `examples/reg_file` as a function
-/

namespace Peak.RPe
open Peak Peak.Spec
open Peak.RV (Word Idx RegFile PyRF SmtRF pyFile smtFile)

theorem bop_wf : WF bopT := by simp [bopT, WF, autos]
theorem uop_wf : WF uopT := by simp [uopT, WF, autos]
theorem b_wf : WF bT := ⟨by simp [Fields.toList], bop_wf, by simp [WF], by simp [WF], by simp [WF], trivial⟩
theorem u_wf : WF uT := ⟨by simp [Fields.toList], uop_wf, by simp [WF], by simp [WF], trivial⟩
theorem inst_wf : WF instT := ⟨by simp [Fields.toList], by simp [Fields.toList], b_wf, u_wf, trivial⟩

theorem bop_width : width bopT = 1 := by decide +kernel
theorem uop_width : width uopT = 1 := by decide +kernel
theorem b_width : width bT = 16 := by decide +kernel
theorem u_width : width uT = 11 := by decide +kernel
theorem inst_width : width instT = 17 := by decide +kernel

theorem inst_opt (P : Process) {n : Nat} (hn : n < 2 ^ 17) :
    (mkAV instT n).getOption P.asm 0 = .ok (decide (n % 2 = 0), mkAV bT (n / 2 % 2 ^ 16)) ∧
    (mkAV instT n).getOption P.asm 1 = .ok (decide (n % 2 = 1), mkAV uT (n / 2 % 2 ^ 11)) := by
  have ht : tagBits 2 = 1 := by decide
  have hn' : n < 2 ^ width instT := by rw [inst_width]; exact hn
  constructor
  · have := SPe.option_match P (n := n) inst_wf hn' (k := 0) (t := bT) (by simp [Fields.toList])
    rw [b_width] at this
    simpa [Fields.toList, ht, optionIndex, instT] using this
  · have := SPe.option_match P (n := n) inst_wf hn' (k := 1) (t := uT) (by simp [Fields.toList])
    rw [u_width] at this
    simpa [Fields.toList, ht, optionIndex, instT] using this

theorem b_get (P : Process) {n : Nat} (hn : n < 2 ^ 16) :
    (mkAV bT n).get P.asm 0 = .ok (mkAV bopT (n % 2)) ∧ (mkAV bT n).get P.asm 1 = .ok (mkAV (.bv 0 5) (n / 2 % 32)) ∧
    (mkAV bT n).get P.asm 2 = .ok (mkAV (.bv 0 5) (n / 64 % 32)) ∧ (mkAV bT n).get P.asm 3 = .ok (mkAV (.bv 0 5) (n / 2048 % 32)) := by
  have hn' : n < 2 ^ width bT := by rw [b_width]; exact hn
  obtain ⟨m0, _, h0, e0⟩ := ValF.get_num P b_wf hn' (k := 0) (t := bopT) (by simp [Fields.toList])
  obtain ⟨m1, _, h1, e1⟩ := ValF.get_num P b_wf hn' (k := 1) (t := .bv 0 5) (by simp [Fields.toList])
  obtain ⟨m2, _, h2, e2⟩ := ValF.get_num P b_wf hn' (k := 2) (t := .bv 0 5) (by simp [Fields.toList])
  obtain ⟨m3, _, h3, e3⟩ := ValF.get_num P b_wf hn' (k := 3) (t := .bv 0 5) (by simp [Fields.toList])
  have f0 := (e0 []).1
  have f1 := (e1 []).1
  have f2 := (e2 []).1
  have f3 := (e3 []).1
  have hb : ∀ m, bitsAt bopT m [] = m := fun _ => rfl
  simp [bitsAt, bitsAtF, bop_width, hb, width] at f0 f1 f2 f3
  subst f0 f1 f2 f3
  have d2 : n / 64 % 32 = n / 2 / 32 % 32 := by omega
  have d3 : n / 2048 % 32 = n / 2 / 32 / 32 % 32 := by omega
  rw [d2, d3]
  exact ⟨h0, h1, h2, h3⟩

theorem u_get (P : Process) {n : Nat} (hn : n < 2 ^ 11) :
    (mkAV uT n).get P.asm 0 = .ok (mkAV uopT (n % 2)) ∧ (mkAV uT n).get P.asm 1 = .ok (mkAV (.bv 0 5) (n / 2 % 32)) ∧
    (mkAV uT n).get P.asm 3 = .ok (mkAV (.bv 0 5) (n / 64 % 32)) := by
  have hn' : n < 2 ^ width uT := by rw [u_width]; exact hn
  obtain ⟨m0, _, h0, e0⟩ := ValF.get_num P u_wf hn' (k := 0) (t := uopT) (by simp [Fields.toList])
  obtain ⟨m1, _, h1, e1⟩ := ValF.get_num P u_wf hn' (k := 1) (t := .bv 0 5) (by simp [Fields.toList])
  obtain ⟨m3, _, h3, e3⟩ := ValF.get_num P u_wf hn' (k := 3) (t := .bv 0 5) (by simp [Fields.toList])
  have f0 := (e0 []).1
  have f1 := (e1 []).1
  have f3 := (e3 []).1
  have hb : ∀ m, bitsAt uopT m [] = m := fun _ => rfl
  simp [bitsAt, bitsAtF, uop_width, hb, width] at f0 f1 f3
  subst f0 f1 f3
  have d2 : n / 64 % 32 = n / 2 / 32 % 32 := by omega
  rw [d2]
  exact ⟨h0, h1, h3⟩

theorem isAdd_num (P : Process) (n : Nat) (hn : n < 2) : isMem P.asm BOp.add.mem (mkAV bopT n) = .ok (n == 0) := by
  obtain ⟨o, ho, hg⟩ := P.good bop_wf
  have hh : bopT.Has (.enum (.auto 0)) := by simp [bopT, Ty.Has]
  have hi : bopT.isinst (.enum (.auto 0)) = true := (isinst_iff _ _).2 hh
  have he : encode bopT (.enum (.auto 0)) = 0 := by decide +kernel
  simp only [mkAV, bopT, isMem, BOp.mem]
  rw [← bopT]
  simp only [AV.eq, ho, hi, if_true, hg.assemble bop_wf hh, he]
  rw [BV.ofNat_val, BV.ofNat_val, bop_width, Nat.mod_eq_of_lt (by omega : n < 2 ^ 1)]

theorem isInv_num (P : Process) (n : Nat) (hn : n < 2) : isMem P.asm UOp.inv.mem (mkAV uopT n) = .ok (n == 0) := by
  obtain ⟨o, ho, hg⟩ := P.good uop_wf
  have hh : uopT.Has (.enum (.auto 2)) := by simp [uopT, Ty.Has]
  have hi : uopT.isinst (.enum (.auto 2)) = true := (isinst_iff _ _).2 hh
  have he : encode uopT (.enum (.auto 2)) = 0 := by decide +kernel
  simp only [mkAV, uopT, isMem, UOp.mem]
  rw [← uopT]
  simp only [AV.eq, ho, hi, if_true, hg.assemble uop_wf hh, he]
  rw [BV.ofNat_val, BV.ofNat_val, uop_width, Nat.mod_eq_of_lt (by omega : n < 2 ^ 1)]

/-- What the PE returns, from the fields of the instruction. -/
def val (isB opz : Bool) (i j d : Nat) (a b z : Word) : Word :=
  if d = 0 then z
  else if isB then
    if opz then (if i = 0 then 0 else a) + (if j = 0 then 0 else b) else ~~~((if i = 0 then 0 else a) ||| (if j = 0 then 0 else b))
  else if opz then ~~~(if i = 0 then 0 else a) else (if i = 0 then 0 else a)

theorem idx_num {n : Nat} : idxOf (mkAV (.bv 0 5) n) = .ok (.ofNat 5 n) := by
  simp only [mkAV, idxOf, BV.ofNat_val, Except.ok.injEq]
  apply BitVec.eq_of_toNat_eq
  simp

theorem idx_zero {n : Nat} (hn : n < 32) : (BitVec.ofNat 5 n ≠ 0) ↔ ¬ n = 0 := by
  rw [not_iff_not]
  constructor
  · intro h
    have := congrArg BitVec.toNat h
    simp at this
    omega
  · rintro rfl; rfl

theorem call_num (P : Process) {n : Nat} (hn : n < 2 ^ 17) (a b z : Word) : smtCall P.asm (mkAV instT n) a b z =
    .ok (if n % 2 = 0 then val true (n / 2 % 2 == 0) (n / 4 % 32) (n / 128 % 32) (n / 4096 % 32) a b z
      else val false (n / 2 % 2 == 0) (n / 4 % 32) 0 (n / 128 % 32) a b z) := by
  obtain ⟨o1, o2⟩ := inst_opt P hn
  obtain ⟨b0, b1, b2, b3⟩ := b_get P (n := n / 2 % 2 ^ 16) (Nat.mod_lt _ (by decide))
  obtain ⟨u0, u1, u3⟩ := u_get P (n := n / 2 % 2 ^ 11) (Nat.mod_lt _ (by decide))
  have e1 : n / 2 % 2 ^ 16 % 2 = n / 2 % 2 := by omega
  have e2 : n / 2 % 2 ^ 16 / 2 % 32 = n / 4 % 32 := by omega
  have e3 : n / 2 % 2 ^ 16 / 64 % 32 = n / 128 % 32 := by omega
  have e4 : n / 2 % 2 ^ 16 / 2048 % 32 = n / 4096 % 32 := by omega
  have e5 : n / 2 % 2 ^ 11 % 2 = n / 2 % 2 := by omega
  have e6 : n / 2 % 2 ^ 11 / 2 % 32 = n / 4 % 32 := by omega
  have e7 : n / 2 % 2 ^ 11 / 64 % 32 = n / 128 % 32 := by omega
  rw [e1] at b0
  rw [e2] at b1
  rw [e3] at b2
  rw [e4] at b3
  rw [e5] at u0
  rw [e6] at u1
  rw [e7] at u3
  have l : ∀ m, m % 32 < 32 := fun m => Nat.mod_lt _ (by decide)
  simp only [smtCall, bind, Except.bind, o1, o2, b0, b1, b2, b3, u0, u1, u3, idx_num, smtFile, isAdd_num P _ (Nat.mod_lt _ (by decide : 0 < 2)), isInv_num P _ (Nat.mod_lt _ (by decide : 0 < 2)),
    idx_zero (l _), decide_eq_true_eq, Except.ok.injEq]
  split
  · next h => simp only [idx_zero (l _), val, ite_not, if_true]
  · next h => simp only [idx_zero (l _), val, ite_not, Bool.false_eq_true, if_false]

/-! ## inputs -/

/-- The PE on raw inputs. -/
def peFn : Fn Nat := fun r _ => match r with
  | .prod [.sum 0 (.prod [.leaf op, .leaf i, .leaf j, .leaf d]), .leaf a, .leaf b, .leaf z] =>
    (.prod [.leaf (val true (op == 0) i j d (.ofNat 32 a) (.ofNat 32 b) (.ofNat 32 z)).toNat], [])
  | .prod [.sum 1 (.prod [.leaf op, .leaf i, .leaf d]), .leaf a, .leaf b, .leaf z] =>
    (.prod [.leaf (val false (op == 0) i 0 d (.ofNat 32 a) (.ofNat 32 b) (.ofNat 32 z)).toNat], [])
  | r => (r, [])

theorem inst_shape {r : RVal} (h : RHas instT r) :
    (∃ op i j d, r = .sum 0 (.prod [.leaf op, .leaf i, .leaf j, .leaf d]) ∧ op < 2 ∧ i < 32 ∧ j < 32 ∧ d < 32) ∨
    (∃ op i d, r = .sum 1 (.prod [.leaf op, .leaf i, .leaf d]) ∧ op < 2 ∧ i < 32 ∧ d < 32) := by
  have hwb := bop_width
  have hwu := uop_width
  cases r with
  | leaf _ => simp [instT, RHas] at h
  | prod _ => simp [instT, RHas] at h
  | sum k v =>
    simp only [instT, RHas, RHasAt] at h
    split at h
    · next hk =>
      subst hk
      left
      cases v with
      | leaf _ => simp [bT, RHas] at h
      | sum _ _ => simp [bT, RHas] at h
      | prod vs =>
        match vs, h with
        | [v0, v1, v2, v3], ⟨h0, h1, h2, h3, _⟩ =>
          obtain ⟨op, rfl, ho⟩ := SPe.leaf_shape (.inr (.inr ⟨_, _, rfl⟩)) h0
          obtain ⟨i, rfl, hi⟩ := SPe.leaf_shape (.inl ⟨_, _, rfl⟩) h1
          obtain ⟨j, rfl, hj⟩ := SPe.leaf_shape (.inl ⟨_, _, rfl⟩) h2
          obtain ⟨d, rfl, hd⟩ := SPe.leaf_shape (.inl ⟨_, _, rfl⟩) h3
          rw [← bopT, hwb] at ho
          exact ⟨op, i, j, d, rfl, ho, hi, hj, hd⟩
    · split at h
      · next hk =>
        subst hk
        right
        cases v with
        | leaf _ => simp [uT, RHas] at h
        | sum _ _ => simp [uT, RHas] at h
        | prod vs =>
          match vs, h with
          | [v0, v1, v2], ⟨h0, h1, h2, _⟩ =>
            obtain ⟨op, rfl, ho⟩ := SPe.leaf_shape (.inr (.inr ⟨_, _, rfl⟩)) h0
            obtain ⟨i, rfl, hi⟩ := SPe.leaf_shape (.inl ⟨_, _, rfl⟩) h1
            obtain ⟨d, rfl, hd⟩ := SPe.leaf_shape (.inl ⟨_, _, rfl⟩) h2
            rw [← uopT, hwu] at ho
            exact ⟨op, i, d, rfl, ho, hi, hd⟩
      · cases h

theorem code_b (op i j d : Nat) : rawCode instT (.sum 0 (.prod [.leaf op, .leaf i, .leaf j, .leaf d])) = 2 * (op + 2 * (i + 32 * (j + 32 * d))) := by
  have ht : tagBits 2 = 1 := by decide
  have ho : ∀ n, rawCode bopT (.leaf n) = n := fun n => rfl
  simp [instT, rawCode, rawCodeAt, optionIndex, Fields.toList, ht, bT]
  simp only [rawCodeAll, bop_width, ho, rawCode, width]
  omega

theorem code_u (op i d : Nat) : rawCode instT (.sum 1 (.prod [.leaf op, .leaf i, .leaf d])) = 1 + 2 * (op + 2 * (i + 32 * d)) := by
  have ht : tagBits 2 = 1 := by decide
  have ho : ∀ n, rawCode uopT (.leaf n) = n := fun n => rfl
  simp [instT, rawCode, rawCodeAt, optionIndex, Fields.toList, ht, uT]
  simp only [rawCodeAll, uop_width, ho, rawCode, width]
  omega

/-- The call on a raw instruction. -/
theorem call_raw (P : Process) {r : RVal} (h : RHas instT r) (a b z : Nat) (bb : List (Nat × List BV)) :
    ∃ w : Word, smtCall P.asm (mkAV instT (rawCode instT r)) (.ofNat 32 a) (.ofNat 32 b) (.ofNat 32 z) = .ok w ∧
      peFn (.prod [r, .leaf a, .leaf b, .leaf z]) bb = (.prod [.leaf w.toNat], []) := by
  rcases inst_shape h with ⟨op, i, j, d, rfl, ho, hi, hj, hd⟩ | ⟨op, i, d, rfl, ho, hi, hd⟩
  · rw [code_b, call_num P (by omega)]
    refine ⟨_, rfl, ?_⟩
    have e1 : 2 * (op + 2 * (i + 32 * (j + 32 * d))) % 2 = 0 := by omega
    have e2 : 2 * (op + 2 * (i + 32 * (j + 32 * d))) / 2 % 2 = op := by omega
    have e3 : 2 * (op + 2 * (i + 32 * (j + 32 * d))) / 4 % 32 = i := by omega
    have e4 : 2 * (op + 2 * (i + 32 * (j + 32 * d))) / 128 % 32 = j := by omega
    have e5 : 2 * (op + 2 * (i + 32 * (j + 32 * d))) / 4096 % 32 = d := by omega
    rw [if_pos e1, e2, e3, e4, e5]
    rfl
  · rw [code_u, call_num P (by omega)]
    refine ⟨_, rfl, ?_⟩
    have e1 : ¬ (1 + 2 * (op + 2 * (i + 32 * d))) % 2 = 0 := by omega
    have e2 : (1 + 2 * (op + 2 * (i + 32 * d))) / 2 % 2 = op := by omega
    have e3 : (1 + 2 * (op + 2 * (i + 32 * d))) / 4 % 32 = i := by omega
    have e4 : (1 + 2 * (op + 2 * (i + 32 * d))) / 128 % 32 = d := by omega
    rw [if_neg e1, e2, e3, e4]
    rfl

theorem wordOf_mk (c n : Nat) : wordOf 32 (mkAV (.bv c 32) n) = .ofNat 32 n := by
  simp only [mkAV, wordOf, BV.ofNat_val]
  apply BitVec.eq_of_toNat_eq
  simp

theorem pe_computes (P : Process) : Computes P (pe P.asm) peFn := by
  refine ⟨25, .cons 0 instT dIn, 26, dOut, rfl, rfl, ?_⟩
  intro vs bb h
  match vs, h with
  | [v0, v1, v2, v3], ⟨h0, h1, h2, h3, _⟩ =>
    obtain ⟨a, rfl, ha⟩ := SPe.leaf_shape (.inl ⟨_, _, rfl⟩) h1
    obtain ⟨b, rfl, hb⟩ := SPe.leaf_shape (.inl ⟨_, _, rfl⟩) h2
    obtain ⟨z, rfl, hz⟩ := SPe.leaf_shape (.inl ⟨_, _, rfl⟩) h3
    obtain ⟨w, hw1, hw2⟩ := call_raw P h0 a b z bb
    rw [hw2]
    refine ⟨_, rfl, ⟨w.isLt, trivial⟩, ?_⟩
    simp only [pe, dIn, inputDict, wordOf_mk, rawCode, hw1]
    exact ⟨⟨WIr.new_word P 32 _, trivial⟩, trivial⟩

theorem pe_total (P : Process) : Total P (pe P.asm) := by
  refine ⟨25, .cons 0 instT dIn, 26, dOut, rfl, rfl, ?_⟩
  intro d bb h
  match d, h with
  | [(_, x0), (_, x1), (_, x2), (_, x3)], ⟨_, ⟨n0, h0, e0⟩, _⟩ =>
    subst e0
    rw [inst_width] at h0
    simp only [pe, call_num P h0]
    exact ⟨[.leaf _], ⟨BitVec.isLt _, trivial⟩, WIr.new_word P 32 _, trivial⟩

theorem pe_boxes (A : Ty → Except Err AsmObj) : TotalBoxes (pe A) (fun _ => [1]) := by
  intro ci fi _ d bb _
  refine ⟨?_, by simp [pe]⟩
  simp only [pe]
  split
  · split <;> rfl
  · rfl

theorem inst_buildable : Buildable instT := by
  have h1 := bop_width
  have h2 := uop_width
  have h3 := b_width
  have h4 := u_width
  refine ⟨by simp [Fields.toList], ?_, ⟨by simp [Fields.toList], .inl ?_, by simp [Buildables, bopT, Buildable]⟩, ⟨by simp [Fields.toList], .inl ?_, by simp [Buildables, uopT, Buildable]⟩, trivial⟩
  · simp [Fields.toList, h3, h4]
  · simp [Fields.toList, h1, width]
  · simp [Fields.toList, h2, width]

theorem setup (P : Process) (enc : IEnc) {n : Nat} (hn : 0 < n) (f : List Word → Word) :
    Setup P (problem P.asm enc n f).ir (problem P.asm enc n f).arch (WIr.wordFn 32 f) peFn (fun _ => [1]) := by
  refine WIr.setup 32 n f (by decide) hn (pe_computes P) ?_ ?_ rfl ?_ rfl
  · have h1 := inst_wf
    have h2 := inst_buildable
    have h3 := inst_width
    simp [pe, problem, dIn, WF, WFs, Buildable, Buildables, Fields.toList, width, h1, h2, h3]
  · simp [pe, problem, dOut, WF, WFs, Buildable, Buildables, Fields.toList, UnionFree, UnionFrees]
  · intro r bb h
    simp only [peFn]
    split <;> rfl

theorem shape (A : Ty → Except Err AsmObj) (enc : IEnc) (n : Nat) (f : List Word → Word) :
    InstProblem (problem A enc n f) 0 instT (wordFields 32 1 n) dOut dIn dOut := by
  refine ⟨⟨8, rfl⟩, ⟨9, rfl⟩, ⟨25, rfl⟩, ⟨26, rfl⟩, WIr.fields_flat 32 1 n, ?_, ?_, ?_, rfl, rfl, rfl, rfl, rfl⟩
  · intro k t h
    simp only [dOut, Fields.toList, List.mem_singleton, Prod.mk.injEq] at h
    rw [h.2]
    trivial
  · intro k t h
    simp only [dIn, Fields.toList, List.mem_cons, Prod.mk.injEq, List.not_mem_nil, or_false] at h
    rcases h with ⟨_, rfl⟩ | ⟨_, rfl⟩ | ⟨_, rfl⟩ <;> trivial
  · intro k t h
    simp only [dOut, Fields.toList, List.mem_singleton, Prod.mk.injEq] at h
    rw [h.2]
    trivial

end Peak.RPe
