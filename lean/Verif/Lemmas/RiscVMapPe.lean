import Verif.Lemmas.RiscVMap
import Verif.Lemmas.RegPe
import Verif.Spec.RiscVMap
import Verif.Props.InstMapKnown
import Verif.Props.RiscV
/-!
# The mappable RISC-V simulator as a function
-/

namespace Peak.RMap
open Peak Peak.Spec
open Peak.RV (Word Idx SmtRF smtFile sext zext bvshl bvlshr bvashr bitWord Inst ArithInst ShiftInst BranchInst LoadInst AluInst)

theorem mappable_ok (i : Inst) (pc a b z : Word) : ∃ p r, RV.mappable i pc a b z = .ok (p, r) := by
  cases i with
  | OP_IMM o => cases o <;> exact ⟨_, _, rfl⟩
  | Branch d t => cases t <;> exact ⟨_, _, rfl⟩
  | _ => exact ⟨_, _, rfl⟩

/-- The results. -/
def outs (i : Inst) (pc a b z : Word) : Word × Word :=
  match RV.mappable i pc a b z with
  | .ok pr => pr
  | .error _ => (0, 0)

theorem mappable_outs (i : Inst) (pc a b z : Word) : RV.mappable i pc a b z = .ok (outs i pc a b z) := by
  obtain ⟨p, r, h⟩ := mappable_ok i pc a b z
  simp only [outs, h]

/-- The PE on raw inputs. -/
def peFn : Fn Nat := fun r _ => match r with
  | .prod [i, .leaf pc, .leaf a, .leaf b, .leaf z] =>
    (.prod [.leaf (outs (ofRaw i) (.ofNat 32 pc) (.ofNat 32 a) (.ofNat 32 b) (.ofNat 32 z)).1.toNat,
      .leaf (outs (ofRaw i) (.ofNat 32 pc) (.ofNat 32 a) (.ofNat 32 b) (.ofNat 32 z)).2.toNat], [])
  | r => (r, [])

theorem new_word (P : Process) (c w : Nat) (n : Nat) : AV.new P.asm (.bv c w) (.asm (.bits (BV.ofNat w n))) = .ok (mkAV (.bv c w) n) := by
  simp only [AV.new, AV.plain, mkAV, BV.ofNat_val]
  rw [VF.ofNat_mod]

theorem pe_computes (P : Process) {opts : Fields} (ho : opts.toList.Perm options) : Computes P (pe P.asm opts) peFn := by
  refine ⟨74, .cons 0 (instT opts) dIn, 75, dOut, rfl, rfl, ?_⟩
  intro vs bb h
  match vs, h with
  | [v0, v1, v2, v3, v4], ⟨h0, h1, h2, h3, h4, _⟩ =>
    obtain ⟨p, rfl, hp⟩ := SPe.leaf_shape (.inl ⟨_, _, rfl⟩) h1
    obtain ⟨a, rfl, ha⟩ := SPe.leaf_shape (.inl ⟨_, _, rfl⟩) h2
    obtain ⟨b, rfl, hb⟩ := SPe.leaf_shape (.inl ⟨_, _, rfl⟩) h3
    obtain ⟨z, rfl, hz⟩ := SPe.leaf_shape (.inl ⟨_, _, rfl⟩) h4
    have hc := call_of P ho h0 (.ofNat 32 p) (.ofNat 32 a) (.ofNat 32 b) (.ofNat 32 z)
    rw [mappable_outs] at hc
    refine ⟨_, rfl, ⟨BitVec.isLt _, BitVec.isLt _, trivial⟩, ?_⟩
    simp only [pe, dIn, inputDict, RPe.wordOf_mk, rawCode, hc]
    exact ⟨⟨new_word P 2 32 _, new_word P 0 32 _, trivial⟩, rfl⟩

theorem pe_total (P : Process) {opts : Fields} (ho : opts.toList.Perm options) : Total P (pe P.asm opts) := by
  refine ⟨74, .cons 0 (instT opts) dIn, 75, dOut, rfl, rfl, ?_⟩
  intro d bb h
  match d, h with
  | [(_, x0), (_, x1), (_, x2), (_, x3), (_, x4)], ⟨_, ⟨n0, h0, e0⟩, _⟩ =>
    subst e0
    obtain ⟨p, r, hc⟩ := call_any P ho h0 (wordOf 32 x1) (wordOf 32 x2) (wordOf 32 x3) (wordOf 32 x4)
    simp only [pe, hc]
    exact ⟨[.leaf _, .leaf _], ⟨BitVec.isLt _, BitVec.isLt _, trivial⟩, new_word P 2 32 _, new_word P 0 32 _, trivial⟩

theorem pe_boxes (A : Ty → Except Err AsmObj) (opts : Fields) : TotalBoxes (pe A opts) (fun _ => [1]) := by
  intro ci fi _ d bb _
  refine ⟨?_, by simp [pe]⟩
  simp only [pe]
  split
  · split <;> rfl
  · rfl

/-! ## the type of instructions -/

theorem alu_width : width aluT = 4 := by decide +kernel

theorem alu_build : Buildable aluT := by
  have h1 := arith_width
  have h2 := shift_width
  exact ⟨by simp [Fields.toList], by simp [Fields.toList, h1, h2], by simp [Buildables, arithT, shiftT, Buildable]⟩

theorem layout_build : Buildable rT ∧ Buildable iT ∧ Buildable isT ∧ Buildable sT ∧ Buildable uT ∧ Buildable bT ∧ Buildable jT := by
  refine ⟨?_, ?_, ?_, ?_, ?_, ?_, ?_⟩ <;> exact ⟨by simp [Fields.toList], .inl (by simp [Fields.toList, width]), by simp [Buildables, Buildable]⟩

theorem option_build {k : Key} {t : Ty} (h : (k, t) ∈ options) : Buildable t ∧ 0 < width t := by
  have ha := arith_width
  have hs := shift_width
  have hl := load_width
  have hb := branch_width
  have hal := alu_width
  obtain ⟨b1, b2, b3, b4, b5, b6, b7⟩ := layout_build
  have w1 : width rT = 15 := by decide +kernel
  have w2 : width iT = 22 := by decide +kernel
  have w3 : width isT = 15 := by decide +kernel
  have w4 : width sT = 22 := by decide +kernel
  have w5 : width uT = 25 := by decide +kernel
  have w6 : width bT = 22 := by decide +kernel
  have w7 : width jT = 25 := by decide +kernel
  have e1 : Buildable arithT := trivial
  have e2 : Buildable shiftT := trivial
  have e3 : Buildable branchT := trivial
  have e4 : Buildable loadT := trivial
  have m1 : Buildable immAT := ⟨by simp [Fields.toList], .inl (by simp [Fields.toList, w2, ha]), b2, e1, trivial⟩
  have m2 : Buildable immST := ⟨by simp [Fields.toList], .inl (by simp [Fields.toList, w3, hs]), b3, e2, trivial⟩
  simp only [options, List.mem_cons, Prod.mk.injEq, List.not_mem_nil, or_false] at h
  rcases h with ⟨_, rfl⟩ | ⟨_, rfl⟩ | ⟨_, rfl⟩ | ⟨_, rfl⟩ | ⟨_, rfl⟩ | ⟨_, rfl⟩ | ⟨_, rfl⟩ | ⟨_, rfl⟩ | ⟨_, rfl⟩
  · exact ⟨⟨by simp [Fields.toList], .inl (by simp [Fields.toList, w1, hal]), b1, alu_build, trivial⟩, by decide +kernel⟩
  · exact ⟨⟨by simp [Fields.toList], by simp [Fields.toList, immAT, immST, width, sumWidths, iT, isT]; omega, m1, m2, trivial⟩, by decide +kernel⟩
  · exact ⟨⟨by simp [Fields.toList], .inl (by simp [Fields.toList, w5]), b5, trivial⟩, by decide +kernel⟩
  · exact ⟨⟨by simp [Fields.toList], .inl (by simp [Fields.toList, w5]), b5, trivial⟩, by decide +kernel⟩
  · exact ⟨⟨by simp [Fields.toList], .inl (by simp [Fields.toList, w7]), b7, trivial⟩, by decide +kernel⟩
  · exact ⟨⟨by simp [Fields.toList], .inl (by simp [Fields.toList, w2]), b2, trivial⟩, by decide +kernel⟩
  · exact ⟨⟨by simp [Fields.toList], .inl (by simp [Fields.toList, w6, hb]), b6, e3, trivial⟩, by decide +kernel⟩
  · exact ⟨⟨by simp [Fields.toList], .inl (by simp [Fields.toList, w2, hl]), b2, e4, trivial⟩, by decide +kernel⟩
  · exact ⟨⟨by simp [Fields.toList], .inl (by simp [Fields.toList, w4, hl]), b4, e4, trivial⟩, by decide +kernel⟩

theorem builds_of_list : ∀ {fs : Fields}, (∀ k t, (k, t) ∈ fs.toList → Buildable t) → Buildables fs
  | .nil, _ => trivial
  | .cons k t fs, h => ⟨h k t (by simp [Fields.toList]), builds_of_list (fun k' t' h' => h k' t' (by simp [Fields.toList, h']))⟩

theorem inst_build {opts : Fields} (h : opts.toList.Perm options) : Buildable (instT opts) :=
  ⟨by rw [h.length_eq]; decide, fun kt hkt => (option_build (h.mem_iff.1 hkt)).2, builds_of_list (fun _ _ hk => (option_build (h.mem_iff.1 hk)).1)⟩

theorem inst_pos {opts : Fields} (h : opts.toList.Perm options) : 0 < width (instT opts) := by
  have : 0 < tagBits opts.toList.length := by rw [h.length_eq]; decide +kernel
  simp only [instT, width]
  omega

theorem arith_mild : Mild arithT := ⟨1, by decide +kernel, by decide⟩
theorem shift_mild : Mild shiftT := ⟨1, by decide +kernel, by decide⟩
theorem load_mild : Mild loadT := ⟨1, by decide +kernel, by decide⟩
theorem branch_mild : Mild branchT := ⟨1, by decide +kernel, by decide⟩
theorem alu_mild : Mild aluT := ⟨by decide, by decide, arith_mild, shift_mild, trivial⟩

theorem layout_mild : Mild rT ∧ Mild iT ∧ Mild isT ∧ Mild sT ∧ Mild uT ∧ Mild bT ∧ Mild jT := by
  simp [rT, iT, isT, sT, uT, bT, jT, Mild, Milds]

theorem option_mild {k : Key} {t : Ty} (h : (k, t) ∈ options) : Mild t := by
  obtain ⟨b1, b2, b3, b4, b5, b6, b7⟩ := layout_mild
  have m1 : Mild immAT := ⟨b2, arith_mild, trivial⟩
  have m2 : Mild immST := ⟨b3, shift_mild, trivial⟩
  simp only [options, List.mem_cons, Prod.mk.injEq, List.not_mem_nil, or_false] at h
  rcases h with ⟨_, rfl⟩ | ⟨_, rfl⟩ | ⟨_, rfl⟩ | ⟨_, rfl⟩ | ⟨_, rfl⟩ | ⟨_, rfl⟩ | ⟨_, rfl⟩ | ⟨_, rfl⟩ | ⟨_, rfl⟩
  · exact ⟨b1, alu_mild, trivial⟩
  · exact ⟨by decide, by decide, m1, m2, trivial⟩
  · exact ⟨b5, trivial⟩
  · exact ⟨b5, trivial⟩
  · exact ⟨b7, trivial⟩
  · exact ⟨b2, trivial⟩
  · exact ⟨b6, branch_mild, trivial⟩
  · exact ⟨b2, load_mild, trivial⟩
  · exact ⟨b4, load_mild, trivial⟩

theorem milds_of_list : ∀ {fs : Fields}, (∀ k t, (k, t) ∈ fs.toList → Mild t) → Milds fs
  | .nil, _ => trivial
  | .cons k t fs, h => ⟨h k t (by simp [Fields.toList]), milds_of_list (fun k' t' h' => h k' t' (by simp [Fields.toList, h']))⟩

theorem inst_mild {opts : Fields} (h : opts.toList.Perm options) : Mild (instT opts) :=
  ⟨by rw [h.length_eq]; decide, (h.map (·.2)).nodup_iff.mpr (by decide), milds_of_list (fun _ _ hk => option_mild (h.mem_iff.1 hk))⟩

theorem known {P : Process} (hP : MildProcess P) {opts : Fields} (h : opts.toList.Perm options) : Known P (instT opts) := by
  intro t' ht
  rcases List.mem_cons.mp ht with rfl | ht
  · exact ⟨inst_wf h, inst_mild h⟩
  · exact hP _ _ ht

/-! ## the mapping problem -/

theorem setup (P : Process) {opts : Fields} (ho : opts.toList.Perm options) (enc : IEnc) {n : Nat} (hn : 0 < n) (f : List Word → Word) :
    Setup P (problem P.asm opts enc n f).ir (problem P.asm opts enc n f).arch (WIr.wordFn 32 f) peFn (fun _ => [1]) := by
  refine WIr.setup 32 n f (by decide) hn (pe_computes P ho) ?_ ?_ rfl ?_ rfl
  · have h1 := inst_wf ho
    have h2 := inst_build ho
    have h3 := inst_pos ho
    simp [pe, problem, dIn, WF, WFs, Buildable, Buildables, Fields.toList, width, h1, h2, h3]
  · simp [pe, problem, dOut, WF, WFs, Buildable, Buildables, Fields.toList, UnionFree, UnionFrees, width]
  · intro r bb h
    simp only [peFn]
    split <;> rfl

theorem shape (A : Ty → Except Err AsmObj) (opts : Fields) (enc : IEnc) (n : Nat) (f : List Word → Word) :
    InstProblem (problem A opts enc n f) 0 (instT opts) (wordFields 32 1 n) (.cons 0 (.bv 0 32) .nil) dIn dOut := by
  refine ⟨⟨8, rfl⟩, ⟨9, rfl⟩, ⟨74, rfl⟩, ⟨75, rfl⟩, WIr.fields_flat 32 1 n, ?_, ?_, ?_, rfl, rfl, rfl, rfl, rfl⟩
  · intro k t h
    simp only [Fields.toList, List.mem_singleton, Prod.mk.injEq] at h
    rw [h.2]
    trivial
  · intro k t h
    simp only [dIn, Fields.toList, List.mem_cons, Prod.mk.injEq, List.not_mem_nil, or_false] at h
    rcases h with ⟨_, rfl⟩ | ⟨_, rfl⟩ | ⟨_, rfl⟩ | ⟨_, rfl⟩ <;> trivial
  · intro k t h
    simp only [dOut, Fields.toList, List.mem_cons, Prod.mk.injEq, List.not_mem_nil, or_false] at h
    rcases h with ⟨_, rfl⟩ | ⟨_, rfl⟩ <;> trivial

end Peak.RMap
