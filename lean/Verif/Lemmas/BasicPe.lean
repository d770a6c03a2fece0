import Verif.Spec.BasicPe
import Verif.Props.ConstPe
import Verif.Lemmas.RawGet
/-!
# The architecture of `tests/test_basic_rr.py`
-/

namespace Peak.BPe
open Peak Peak.Spec
open Peak.RPe (isMem)

theorem rrOp_width : width rrOpT = 2 := by decide +kernel
theorem riOp_width : width riOpT = 3 := by decide +kernel
theorem rrOp_wf : WF rrOpT := by simp [rrOpT, WF, autos]
theorem riOp_wf : WF riOpT := by simp [riOpT, WF, autos]
theorem rr_wf : WF rrT := ⟨by simp [Fields.toList], rrOp_wf, trivial, trivial, trivial, trivial⟩
theorem ri_wf : WF riT := ⟨by simp [Fields.toList], riOp_wf, trivial, trivial, trivial, trivial, trivial⟩
theorem inst_wf : WF instT := ⟨by simp [opts, Fields.toList], by simp [opts, Fields.toList], ri_wf, rr_wf, trivial⟩
theorem opts_mem : (0, riT) ∈ opts.toList ∧ (1, rrT) ∈ opts.toList := by simp [opts, Fields.toList]

theorem mul_code (P : Process) {n : Nat} (hn : n < 4) : isMem P.asm (.lit 2) (mkAV rrOpT n) = .ok (n == 2) := by
  have h := RG.isMem_code P (m := .lit 2) rrOp_wf (by simp) (n := n) (by show n < 2 ^ width rrOpT; rw [rrOp_width]; exact hn)
  rw [← rrOpT] at h
  rw [h]
  rfl

theorem ld_code (P : Process) {n : Nat} (hn : n < 8) : isMem P.asm (.lit 3) (mkAV riOpT n) = .ok (n == 3) := by
  have h := RG.isMem_code P (m := .lit 3) riOp_wf (by simp) (n := n) (by show n < 2 ^ width riOpT; rw [riOp_width]; exact hn)
  rw [← riOpT] at h
  rw [h]
  rfl

/-- A register-register instruction. -/
def rr (op a b c : Nat) : RVal := .sum 1 (.prod [.leaf op, .leaf a, .leaf b, .leaf c])
/-- A register-immediate instruction. -/
def ri (op a b i j : Nat) : RVal := .sum 0 (.prod [.leaf op, .leaf a, .leaf b, .leaf i, .leaf j])

theorem rrOp_has {v : RVal} (h : RHas rrOpT v) : ∃ n, v = .leaf n ∧ n < 4 := by
  obtain ⟨n, e, hn⟩ := SPe.leaf_shape (.inr (.inr ⟨_, _, rfl⟩)) h
  rw [← rrOpT, rrOp_width] at hn
  exact ⟨n, e, hn⟩

theorem riOp_has {v : RVal} (h : RHas riOpT v) : ∃ n, v = .leaf n ∧ n < 8 := by
  obtain ⟨n, e, hn⟩ := SPe.leaf_shape (.inr (.inr ⟨_, _, rfl⟩)) h
  rw [← riOpT, riOp_width] at hn
  exact ⟨n, e, hn⟩

theorem rr_shape {v : RVal} (h : RHas rrT v) : ∃ op a b c, v = .prod [.leaf op, .leaf a, .leaf b, .leaf c] ∧ op < 4 ∧ a < 4 ∧ b < 4 ∧ c < 4 := by
  match v, h with
  | .prod [v0, v1, v2, v3], ⟨h0, h1, h2, h3, _⟩ =>
    obtain ⟨op, rfl, ho⟩ := rrOp_has h0
    obtain ⟨a, rfl, ha⟩ := SPe.leaf_shape (.inl ⟨_, _, rfl⟩) h1
    obtain ⟨b, rfl, hb⟩ := SPe.leaf_shape (.inl ⟨_, _, rfl⟩) h2
    obtain ⟨c, rfl, hc⟩ := SPe.leaf_shape (.inl ⟨_, _, rfl⟩) h3
    exact ⟨op, a, b, c, rfl, ho, ha, hb, hc⟩

theorem ri_shape {v : RVal} (h : RHas riT v) :
    ∃ op a b i j, v = .prod [.leaf op, .leaf a, .leaf b, .leaf i, .leaf j] ∧ op < 8 ∧ a < 4 ∧ b < 4 ∧ i < 256 ∧ j < 256 := by
  match v, h with
  | .prod [v0, v1, v2, v3, v4], ⟨h0, h1, h2, h3, h4, _⟩ =>
    obtain ⟨op, rfl, ho⟩ := riOp_has h0
    obtain ⟨a, rfl, ha⟩ := SPe.leaf_shape (.inl ⟨_, _, rfl⟩) h1
    obtain ⟨b, rfl, hb⟩ := SPe.leaf_shape (.inl ⟨_, _, rfl⟩) h2
    obtain ⟨c, rfl, hc⟩ := SPe.leaf_shape (.inl ⟨_, _, rfl⟩) h3
    obtain ⟨d, rfl, hd⟩ := SPe.leaf_shape (.inl ⟨_, _, rfl⟩) h4
    exact ⟨op, a, b, c, d, rfl, ho, ha, hb, hc, hd⟩

theorem inst_shape {v : RVal} (h : RHas instT v) :
    (∃ op a b c, v = rr op a b c ∧ op < 4 ∧ a < 4 ∧ b < 4 ∧ c < 4) ∨ ∃ op a b i j, v = ri op a b i j ∧ op < 8 ∧ a < 4 ∧ b < 4 ∧ i < 256 ∧ j < 256 := by
  match v, h with
  | .sum k v, h =>
    obtain ⟨t, ht, hv⟩ := RG.has_at h
    simp only [opts, Fields.toList, List.mem_cons, Prod.mk.injEq, List.not_mem_nil, or_false] at ht
    rcases ht with ⟨rfl, rfl⟩ | ⟨rfl, rfl⟩
    · obtain ⟨op, a, b, i, j, rfl, h'⟩ := ri_shape hv
      exact .inr ⟨op, a, b, i, j, rfl, h'⟩
    · obtain ⟨op, a, b, c, rfl, h'⟩ := rr_shape hv
      exact .inl ⟨op, a, b, c, rfl, h'⟩

theorem rrv_has {op a b c : Nat} (ho : op < 4) (ha : a < 4) (hb : b < 4) (hc : c < 4) : RHas rrT (.prod [.leaf op, .leaf a, .leaf b, .leaf c]) := by
  refine ⟨?_, ha, hb, hc, trivial⟩
  have := rrOp_width
  unfold rrOpT at this ⊢
  simp only [RHas, this]
  exact ho

theorem riv_has {op a b i j : Nat} (ho : op < 8) (ha : a < 4) (hb : b < 4) (hi : i < 256) (hj : j < 256) : RHas riT (.prod [.leaf op, .leaf a, .leaf b, .leaf i, .leaf j]) := by
  refine ⟨?_, ha, hb, hi, hj, trivial⟩
  have := riOp_width
  unfold riOpT at this ⊢
  simp only [RHas, this]
  exact ho

theorem rr_has {op a b c : Nat} (ho : op < 4) (ha : a < 4) (hb : b < 4) (hc : c < 4) : RHas instT (rr op a b c) :=
  RG.at_has inst_wf.2.1 opts_mem.2 (rrv_has ho ha hb hc)

theorem ri_has {op a b i j : Nat} (ho : op < 8) (ha : a < 4) (hb : b < 4) (hi : i < 256) (hj : j < 256) : RHas instT (ri op a b i j) :=
  RG.at_has inst_wf.2.1 opts_mem.1 (riv_has ho ha hb hi hj)

/-- The fields of an option that is not held, whatever they are. -/
theorem rr_any (P : Process) {m : Nat} (hm : m < 2 ^ width rrT) : ∃ n < 4, (mkAV rrT m).get P.asm 0 = .ok (mkAV rrOpT n) := by
  obtain ⟨n, hn, h⟩ := RG.get_any P (k := 0) (t := rrOpT) rr_wf hm (by simp [Fields.toList])
  rw [rrOp_width] at hn
  exact ⟨n, hn, h⟩

theorem ri_any (P : Process) {m : Nat} (hm : m < 2 ^ width riT) :
    ∃ n < 8, ∃ i < 256, (mkAV riT m).get P.asm 0 = .ok (mkAV riOpT n) ∧ (mkAV riT m).get P.asm 4 = .ok (mkAV wordT i) := by
  obtain ⟨n, hn, h⟩ := RG.get_any P (k := 0) (t := riOpT) ri_wf hm (by simp [Fields.toList])
  obtain ⟨i, hi, h'⟩ := RG.get_any P (k := 4) (t := wordT) ri_wf hm (by simp [Fields.toList])
  rw [riOp_width] at hn
  exact ⟨n, hn, i, hi, h, h'⟩

/-- Any bits give two words. -/
theorem call_any (P : Process) {n : Nat} (hn : n < 2 ^ width instT) (a b : Nat) (k k1 k2 : Key) :
    ∃ o : Word, peCall P.asm [(k, mkAV instT n), (k1, mkAV wordT a), (k2, mkAV wordT b)] = .ok [.bits (BV.ofNat 8 o.toNat), .bits (BV.ofNat 8 (BitVec.ofNat 8 a).toNat)] := by
  obtain ⟨m1, v1, hv1, e1⟩ := RG.option_any P inst_wf hn opts_mem.2
  obtain ⟨m0, v0, hv0, e0⟩ := RG.option_any P inst_wf hn opts_mem.1
  obtain ⟨o1, ho1, g1⟩ := rr_any P hv1
  obtain ⟨o0, ho0, i, _, g0, gi⟩ := ri_any P hv0
  rw [← instT] at e1 e0
  refine ⟨if m1 then (if o1 == 2 then .ofNat 8 a * .ofNat 8 b else .ofNat 8 a + .ofNat 8 b) else (if o0 == 3 then .ofNat 8 i else .ofNat 8 a + .ofNat 8 i), ?_⟩
  simp only [peCall, bind, Except.bind, e1, e0, g1, g0, gi, mul_code P ho1, ld_code P ho0]
  simp only [mkAV, wordT, CPe.wordOf_bits]

/-- An instruction gives its result. -/
theorem call_raw (P : Process) {v : RVal} (hv : RHas instT v) (a b : Nat) (k k1 k2 : Key) :
    peCall P.asm [(k, mkAV instT (rawCode instT v)), (k1, mkAV wordT a), (k2, mkAV wordT b)] =
      .ok [.bits (BV.ofNat 8 (res v (.ofNat 8 a) (.ofNat 8 b)).toNat), .bits (BV.ofNat 8 (BitVec.ofNat 8 a).toNat)] := by
  rcases inst_shape hv with ⟨op, x, y, z, rfl, ho, hx, hy, hz⟩ | ⟨op, x, y, i, j, rfl, ho, hx, hy, hi, hj⟩
  · have hp := rrv_has ho hx hy hz
    obtain ⟨e1, e0⟩ := RG.option_raw P inst_wf opts_mem.2 hp
    obtain ⟨v0, hv0, e0⟩ := e0 0 riT opts_mem.1 (by decide)
    obtain ⟨o0, ho0, i, _, g0, gi⟩ := ri_any P hv0
    have g1 : (mkAV rrT (rawCode rrT (.prod [.leaf op, .leaf x, .leaf y, .leaf z]))).get P.asm 0 = .ok (mkAV rrOpT op) :=
      RG.get_raw P (k := 0) (t := rrOpT) (v := .leaf op) rr_wf hp (by simp [Fields.toList])
    rw [← instT] at e1 e0
    simp only [peCall, bind, Except.bind, rr, e1, e0, g1, g0, gi, mul_code P ho, ld_code P ho0]
    simp only [mkAV, wordT, CPe.wordOf_bits, res, if_true]
  · have hp := riv_has ho hx hy hi hj
    obtain ⟨e0, e1⟩ := RG.option_raw P inst_wf opts_mem.1 hp
    obtain ⟨v1, hv1, e1⟩ := e1 1 rrT opts_mem.2 (by decide)
    obtain ⟨o1, ho1, g1⟩ := rr_any P hv1
    have g0 : (mkAV riT (rawCode riT (.prod [.leaf op, .leaf x, .leaf y, .leaf i, .leaf j]))).get P.asm 0 = .ok (mkAV riOpT op) :=
      RG.get_raw P (k := 0) (t := riOpT) (v := .leaf op) ri_wf hp (by simp [Fields.toList])
    have gi : (mkAV riT (rawCode riT (.prod [.leaf op, .leaf x, .leaf y, .leaf i, .leaf j]))).get P.asm 4 = .ok (mkAV wordT j) :=
      RG.get_raw P (k := 4) (t := wordT) (v := .leaf j) ri_wf hp (by simp [Fields.toList])
    rw [← instT] at e1 e0
    simp only [peCall, bind, Except.bind, ri, e1, e0, g1, g0, gi, mul_code P ho1, ld_code P ho]
    simp only [mkAV, wordT, CPe.wordOf_bits, res, Bool.false_eq_true, if_false]

theorem pe_computes (P : Process) : Computes P (pe P.asm) peFn := by
  refine ⟨86, peIn, 87, peOut, rfl, rfl, ?_⟩
  intro vs bb h
  match vs, h with
  | [v0, v1, v2], ⟨h0, h1, h2, _⟩ =>
  obtain ⟨a, rfl, ha⟩ := SPe.leaf_shape (.inl ⟨_, _, rfl⟩) h1
  obtain ⟨b, rfl, hb⟩ := SPe.leaf_shape (.inl ⟨_, _, rfl⟩) h2
  refine ⟨_, rfl, ⟨BitVec.isLt _, BitVec.isLt _, trivial⟩, ?_⟩
  have hrun : (pe P.asm).run (inputDict peIn [v0, .leaf a, .leaf b]) bb =
      ([.bits (BV.ofNat 8 (res v0 (.ofNat 8 a) (.ofNat 8 b)).toNat), .bits (BV.ofNat 8 (BitVec.ofNat 8 a).toNat)], []) := by
    have : peCall P.asm [(0, mkAV instT (rawCode instT v0)), (1, mkAV wordT (rawCode wordT (.leaf a))), (2, mkAV wordT (rawCode wordT (.leaf b)))] = _ := call_raw P h0 a b 0 1 2
    simp only [pe, peIn, inputDict, this]
  rw [hrun]
  exact ⟨⟨WIr.new_word P 8 _, WIr.new_word P 8 _, trivial⟩, rfl⟩

theorem pe_total (P : Process) : Spec.Total P (pe P.asm) := by
  refine ⟨86, peIn, 87, peOut, rfl, rfl, ?_⟩
  intro d bb h
  match d, h with
  | [(k0, x0), (k1, x1), (k2, x2)], ⟨_, ⟨n0, h0, e0⟩, _, ⟨n1, h1, e1⟩, _, ⟨n2, h2, e2⟩, _⟩ =>
    subst e0 e1 e2
    obtain ⟨o, ho⟩ := call_any P h0 n1 n2 k0 k1 k2
    refine ⟨[.leaf o.toNat, .leaf (BitVec.ofNat 8 n1).toNat], ⟨BitVec.isLt _, BitVec.isLt _, trivial⟩, ?_⟩
    simp only [pe, ho]
    exact ⟨WIr.new_word P 8 _, WIr.new_word P 8 _, trivial⟩

theorem rr_width : width rrT = 8 := by decide +kernel
theorem ri_width : width riT = 23 := by decide +kernel
theorem inst_width : width instT = 24 := by decide +kernel

theorem rr_buildable : Buildable rrT := by
  refine ⟨by simp [Fields.toList], .inl ?_, by simp [Buildables, rrOpT, idxT, Buildable]⟩
  intro kt hkt
  simp only [Fields.toList, List.mem_cons, List.not_mem_nil, or_false] at hkt
  rcases hkt with rfl | rfl | rfl | rfl
  · simp only [rrOp_width]; decide
  all_goals decide

theorem ri_buildable : Buildable riT := by
  refine ⟨by simp [Fields.toList], .inl ?_, by simp [Buildables, riOpT, idxT, wordT, Buildable]⟩
  intro kt hkt
  simp only [Fields.toList, List.mem_cons, List.not_mem_nil, or_false] at hkt
  rcases hkt with rfl | rfl | rfl | rfl | rfl
  · simp only [riOp_width]; decide
  all_goals decide

theorem inst_buildable : Buildable instT := by
  refine ⟨by simp [opts, Fields.toList], ?_, ri_buildable, rr_buildable, trivial⟩
  intro kt hkt
  simp only [opts, Fields.toList, List.mem_cons, List.not_mem_nil, or_false] at hkt
  rcases hkt with rfl | rfl
  · simp only [ri_width]; decide
  · simp only [rr_width]; decide

theorem setup (P : Process) {n : Nat} (hn : 0 < n) (f : List Word → Word) :
    Setup P (wordIr 8 n f) (pe P.asm) (WIr.wordFn 8 f) peFn (fun _ => [1]) := by
  refine WIr.setup 8 n f (by decide) hn (pe_computes P) ?_ ?_ rfl ?_ rfl
  · refine ⟨⟨by simp [peIn, Fields.toList], inst_wf, trivial, trivial, trivial⟩, by simp [peIn, Fields.toList], .inl ?_, inst_buildable, trivial, trivial, trivial⟩
    intro kt hkt
    simp only [peIn, Fields.toList, List.mem_cons, List.not_mem_nil, or_false] at hkt
    rcases hkt with rfl | rfl | rfl
    · simp only [inst_width]; decide
    all_goals decide
  · refine ⟨⟨by simp [peOut, Fields.toList], trivial, trivial, trivial⟩, ⟨by simp [peOut, Fields.toList], .inl ?_, trivial, trivial, trivial⟩, trivial, trivial, trivial⟩
    intro kt hkt
    simp only [peOut, Fields.toList, List.mem_cons, List.not_mem_nil, or_false] at hkt
    rcases hkt with rfl | rfl <;> decide
  · intro r bb h
    simp only [peFn]
    split <;> rfl

theorem const_problem (P : Process) (enc : IEnc) (const : Bool) (n : Nat) (f : List Word → Word) :
    ConstProblem (problem P.asm enc const n f) 0 instT (wordFields 8 1 n) (.cons 0 wordT .nil) dIn peOut := by
  refine ⟨⟨8, rfl⟩, ⟨9, rfl⟩, ⟨86, rfl⟩, ⟨87, rfl⟩, WIr.fields_flat 8 1 n, ?_, ?_, ?_, ?_, rfl, ?_, by simp [problem]⟩
  · intro k t h
    simp only [Fields.toList, List.mem_singleton, Prod.mk.injEq] at h
    rw [h.2]
    trivial
  · intro k t h
    simp only [dIn, Fields.toList, List.mem_cons, Prod.mk.injEq, List.not_mem_nil, or_false] at h
    rcases h with ⟨_, rfl⟩ | ⟨_, rfl⟩ <;> trivial
  · intro k t h
    simp only [peOut, Fields.toList, List.mem_cons, Prod.mk.injEq, List.not_mem_nil, or_false] at h
    rcases h with ⟨_, rfl⟩ | ⟨_, rfl⟩ <;> trivial
  · intro c h
    cases const
    · simp [problem] at h
    · exact ⟨1, by simpa [problem] using h⟩
  · intro p cs h
    simp [problem] at h

theorem rrOp_mild : Mild rrOpT := ⟨1, by decide +kernel, by decide⟩
theorem riOp_mild : Mild riOpT := ⟨3, by decide +kernel, by decide⟩

theorem inst_mild : Mild instT :=
  ⟨by simp [opts, Fields.toList], by simp [opts, Fields.toList, riT, rrT], ⟨riOp_mild, trivial, trivial, trivial, trivial, trivial⟩, ⟨rrOp_mild, trivial, trivial, trivial, trivial⟩, trivial⟩

theorem known {P : Process} (hP : MildProcess P) : Known P instT := by
  intro t' ht
  rcases List.mem_cons.mp ht with rfl | ht
  · exact ⟨inst_wf, inst_mild⟩
  · exact hP _ _ ht

theorem known_leaves {P : Process} (hP : MildProcess P) : ∀ p c ms, (p, Ty.enum c ms) ∈ leafTypes instT [] → Known P (.enum c ms) := by
  intro p c ms h t' ht
  rcases List.mem_cons.mp ht with rfl | ht
  · have hm : Ty.enum c ms = riOpT ∨ Ty.enum c ms = rrOpT := by
      simp [instT, opts, riT, rrT, leafTypes, leafTypesF, riOpT, rrOpT, idxT, wordT] at h ⊢
      rcases h with h | h
      · exact .inl h.2
      · exact .inr h.2
    rcases hm with hm | hm <;> rw [hm]
    · exact ⟨riOp_wf, riOp_mild⟩
    · exact ⟨rrOp_wf, rrOp_mild⟩
  · exact hP _ _ ht

theorem accepts_rrOp (n : Nat) (hn : n < 4) : Accepts rrOpT n ↔ n = 1 ∨ n = 2 := by
  have hw := rrOp_width
  have e : (enumCodes [.lit 1, .lit 2]) = [1, 2] := by decide +kernel
  have hns : ¬ SeveralRanges (enumCodes [.lit 1, .lit 2]).dedup := by
    intro h
    rw [e] at h
    exact h.2.1 (by decide +kernel)
  simp only [rrOpT, Accepts]
  rw [← rrOpT, hw, e, Nat.mod_eq_of_lt hn, e.symm]
  simp only [hns, false_or]
  rw [e]
  simp

theorem accepts_riOp (n : Nat) (hn : n < 8) : Accepts riOpT n ↔ n = 3 ∨ n = 4 := by
  have hw := riOp_width
  have e : (enumCodes [.lit 3, .lit 4]) = [3, 4] := by decide +kernel
  have hns : ¬ SeveralRanges (enumCodes [.lit 3, .lit 4]).dedup := by
    intro h
    rw [e] at h
    exact h.2.1 (by decide +kernel)
  simp only [riOpT, Accepts]
  rw [← riOpT, hw, e, Nat.mod_eq_of_lt hn, e.symm]
  simp only [hns, false_or]
  rw [e]
  simp

theorem rr_leaves (op a b c : Nat) : rawLeaves instT (rr op a b c) = [([1, 0], rrOpT, op), ([1, 1], idxT, a), ([1, 2], idxT, b), ([1, 3], idxT, c)] := by
  simp [instT, opts, rr, rrT, rawLeaves, rawLeavesAll, rawLeavesAt, rrOpT, idxT]

theorem ri_leaves (op a b i j : Nat) :
    rawLeaves instT (ri op a b i j) = [([0, 0], riOpT, op), ([0, 1], idxT, a), ([0, 2], idxT, b), ([0, 3], wordT, i), ([0, 4], wordT, j)] := by
  simp [instT, opts, ri, riT, rawLeaves, rawLeavesAll, rawLeavesAt, riOpT, idxT, wordT]

theorem rr_valid {P : Process} (hP : MildProcess P) {op a b c : Nat} (ho : op < 4) (ha : a < 4) (hb : b < 4) (hc : c < 4) :
    isValidAV P.asm (mkAV instT (rawCode instT (rr op a b c))) = .ok true ↔ op = 1 ∨ op = 2 := by
  have hi := rr_has ho ha hb hc
  rw [(known hP).valid_iff _ (SB.code_lt _ _ inst_wf hi), Acc.accepts_leaves _ _ inst_wf hi, rr_leaves]
  have : ∀ n, Accepts idxT n := fun _ => trivial
  simp [this, accepts_rrOp op ho]

theorem ri_valid {P : Process} (hP : MildProcess P) {op a b i j : Nat} (ho : op < 8) (ha : a < 4) (hb : b < 4) (hi : i < 256) (hj : j < 256) :
    isValidAV P.asm (mkAV instT (rawCode instT (ri op a b i j))) = .ok true ↔ op = 3 ∨ op = 4 := by
  have h := ri_has ho ha hb hi hj
  rw [(known hP).valid_iff _ (SB.code_lt _ _ inst_wf h), Acc.accepts_leaves _ _ inst_wf h, ri_leaves]
  have h1 : ∀ n, Accepts idxT n := fun _ => trivial
  have h2 : ∀ n, Accepts wordT n := fun _ => trivial
  simp [h1, h2, accepts_riOp op ho]

/-! ## where the words go -/

/-- The words numbered `lo` to `n` are given to two registers. -/
def Wires (lo n : Nat) (s0 s1 : Option Nat) : Prop :=
  (∀ q, s0 = some q ∨ s1 = some q → lo ≤ q ∧ q ≤ n) ∧ (∀ q, lo ≤ q → q ≤ n → s0 = some q ∨ s1 = some q) ∧ ∀ q, s0 = some q → s1 ≠ some q

theorem wires_bound {lo n : Nat} {s0 s1 : Option Nat} (h : Wires lo n s0 s1) : n ≤ lo + 1 := by
  by_contra hgt
  have h0 := h.2.1 lo (by omega) (by omega)
  have h1 := h.2.1 (lo + 1) (by omega) (by omega)
  have h2 := h.2.1 (lo + 2) (by omega) (by omega)
  rcases h0 with h0 | h0 <;> rcases h1 with h1 | h1 <;> rcases h2 with h2 | h2 <;> simp_all

theorem wires_with {lo n q : Nat} (hn : n ≤ lo + 1) (h1 : lo ≤ q) (h2 : q ≤ n) : ∃ s1, Wires lo n (some q) s1 := by
  refine ⟨if n = lo + 1 then some (2 * lo + 1 - q) else none, ?_, ?_, ?_⟩
  · intro r hr
    split at hr
    · simp at hr; omega
    · simp at hr; omega
  · intro r a b
    split
    · simp; omega
    · simp; omega
  · intro r hr
    simp at hr
    split
    · simp; omega
    · simp

theorem wires_exist {lo n : Nat} (hn : n ≤ lo + 1) : ∃ s0 s1, Wires lo n s0 s1 := by
  by_cases h : lo ≤ n
  · obtain ⟨s1, h⟩ := wires_with hn (Nat.le_refl _) h
    exact ⟨_, _, h⟩
  · refine ⟨none, none, ?_, ?_, ?_⟩
    · simp
    · intro q a b; omega
    · simp

/-- The first word that is not `Const`. -/
def lo (const : Bool) : Nat := if const then 2 else 1

theorem rr_paths (op a b c : Nat) : inputPaths 0 instT dIn (rr op a b c) = [[0, 1, 0], [0, 1, 1], [0, 1, 2], [0, 1, 3], [1], [2]] := by
  simp [inputPaths, rr_leaves, dIn, Fields.toList]

theorem ri_paths (op a b i j : Nat) : inputPaths 0 instT dIn (ri op a b i j) = [[0, 0, 0], [0, 0, 1], [0, 0, 2], [0, 0, 3], [0, 0, 4], [1], [2]] := by
  simp [inputPaths, ri_leaves, dIn, Fields.toList]

theorem const_mem {A : Ty → Except Err AsmObj} {enc : IEnc} {const : Bool} {n : Nat} {f : List Word → Word} {q : Nat} : [q] ∈ (problem A enc const n f).irConst ↔ const = true ∧ q = 1 := by
  cases const <;> simp [problem]

/-- The words that are not `Const` go to the registers. -/
theorem feeds_wires {A : Ty → Except Err AsmObj} {enc : IEnc} {const : Bool} {n : Nat} {f : List Word → Word} {inst : RVal} {src : RPath → Option Key}
    (h : Feeds (problem A enc const n f) 0 instT (wordFields 8 1 n) dIn inst src) : Wires (lo const) n (src [1]) (src [2]) := by
  have hd : ∀ k q : Nat, k = 1 ∨ k = 2 → src [k] = some q → lo const ≤ q ∧ q ≤ n := by
    intro k q hk hq
    have := h.data k wordT q (by rcases hk with rfl | rfl <;> simp [dIn, Fields.toList]) hq
    obtain ⟨h1, h2, _⟩ := WIr.fields_mem.mp this.1
    have h3 := this.2
    rw [const_mem] at h3
    have h1' : 1 ≤ q := h1
    have h2' : q < 1 + n := h2
    cases const
    · simp only [lo, Bool.false_eq_true, if_false]; omega
    · simp only [lo, if_true, true_and] at h3 ⊢; omega
  have hin : ∀ q : Nat, lo const ≤ q → q ≤ n → (q, Ty.bv 0 8) ∈ (wordFields 8 1 n).toList ∧ ¬ (const = true ∧ q = 1) := by
    intro q h1 h2
    cases const
    · simp only [lo, Bool.false_eq_true, if_false] at h1
      exact ⟨WIr.fields_mem.mpr ⟨h1, by omega, rfl⟩, by simp⟩
    · simp only [lo, if_true] at h1
      exact ⟨WIr.fields_mem.mpr ⟨by omega, by omega, rfl⟩, by simp; omega⟩
  refine ⟨?_, ?_, ?_⟩
  · rintro q (h1 | h1)
    · exact hd 1 q (.inl rfl) h1
    · exact hd 2 q (.inr rfl) h1
  · intro q h1 h2
    obtain ⟨h3, h4⟩ := hin q h1 h2
    obtain ⟨p, hp1, hp2, _⟩ := h.once q _ h3
    simp only [inputPaths, List.mem_append, List.mem_map, dIn, Fields.toList, List.map_cons, List.map_nil, List.mem_cons, List.not_mem_nil, or_false] at hp1
    rcases hp1 with ⟨⟨l, t, m⟩, hl, rfl⟩ | rfl | rfl
    · exact absurd (const_mem.mp (h.inst_leaf l t m q hl hp2).2.1) h4
    · exact .inl hp2
    · exact .inr hp2
  · intro q h1 h2
    obtain ⟨a, b⟩ := hd 1 q (.inl rfl) h1
    obtain ⟨_, _, _, hu⟩ := h.once q _ (hin q a b).1
    have hm : ∀ k, k = 1 ∨ k = 2 → [k] ∈ inputPaths 0 instT dIn inst := by
      intro k hk
      simp only [inputPaths, List.mem_append, dIn, Fields.toList]
      right
      rcases hk with rfl | rfl <;> simp
    exact absurd ((hu [1] (hm 1 (.inl rfl)) h1).trans (hu [2] (hm 2 (.inr rfl)) h2).symm) (by decide)

/-- Only words of the instruction are given the constant. -/
theorem feeds_leaf {A : Ty → Except Err AsmObj} {enc : IEnc} {const : Bool} {n : Nat} {f : List Word → Word} {inst : RVal} {src : RPath → Option Key}
    (h : Feeds (problem A enc const n f) 0 instT (wordFields 8 1 n) dIn inst src) {p : RPath} {t : Ty} {m : Nat} (hp : (p, t, m) ∈ rawLeaves instT inst) :
    src (0 :: p) = none ∨ src (0 :: p) = some 1 ∧ const = true ∧ t = wordT := by
  cases hs : src (0 :: p) with
  | none => exact .inl rfl
  | some q =>
    obtain ⟨h1, h2, _⟩ := h.inst_leaf p t m q hp hs
    obtain ⟨h3, rfl⟩ := const_mem.mp h2
    exact .inr ⟨rfl, h3, (WIr.fields_mem.mp h1).2.2⟩

end Peak.BPe
