import Verif.Lemmas.RiscVXMap
import Verif.Lemmas.RiscVMapPe
/-!
# The mappable simulator of examples/riscv_ext as a function
-/

namespace Peak.RXM
open Peak Peak.Spec
open Peak.RV (Word Idx SmtRF smtFile BitInst ExtInst)
open Peak.RMap (kRd kData kTag oOP oIMM oLUI oAUIPC oJAL oJALR oBranch oLoad oStore new_word builds_of_list milds_of_list)

theorem counter_ok (t : BitInst) (w : Word) : ∃ r, RV.bitCounter t w = .ok r := by
  cases t
  · exact ⟨_, rfl⟩
  · obtain ⟨r, h, _⟩ := RV.C46_cntlz w
    exact ⟨r, h⟩
  · obtain ⟨r, h, _⟩ := RV.C46_cnttz w
    exact ⟨r, h⟩

theorem mappable_ext (d s : Idx) {t : BitInst} {pc a b z r : Word} (h : RV.bitCounter t (if s ≠ 0 then a else 0) = .ok r) :
    mappableX (.Ext d s t) pc a b z = .ok (pc + 4, if d ≠ 0 then r else z) := by
  have e : ∀ r : Word, RV.alu (.arith .ADD) r 0 &&& BitVec.ofInt 32 (-1) = r := fun r => by
    rw [RV.full_mask]
    exact BitVec.add_zero r
  simp only [mappableX, RV.extCall, RV.extDecode, smtFile, bind, Except.bind, pure, Except.pure, h, Bool.false_and, Bool.false_eq_true, if_false, RV.commit, e]

theorem mappable_ok (i : ExtInst) (pc a b z : Word) : ∃ p r, mappableX i pc a b z = .ok (p, r) := by
  cases i with
  | base i => exact RMap.mappable_ok i pc a b z
  | Ext d s t =>
    obtain ⟨r, h⟩ := counter_ok t (if s ≠ 0 then a else 0)
    exact ⟨_, _, mappable_ext d s h⟩

/-- The results. -/
def outs (i : ExtInst) (pc a b z : Word) : Word × Word :=
  match mappableX i pc a b z with
  | .ok pr => pr
  | .error _ => (0, 0)

theorem mappable_outs (i : ExtInst) (pc a b z : Word) : mappableX i pc a b z = .ok (outs i pc a b z) := by
  obtain ⟨p, r, h⟩ := mappable_ok i pc a b z
  simp only [outs, h]

/-- The PE on raw inputs. -/
def peFn : Fn Nat := fun r _ => match r with
  | .prod [i, .leaf pc, .leaf a, .leaf b, .leaf z] =>
    (.prod [.leaf (outs (ofRaw i) (.ofNat 32 pc) (.ofNat 32 a) (.ofNat 32 b) (.ofNat 32 z)).1.toNat,
      .leaf (outs (ofRaw i) (.ofNat 32 pc) (.ofNat 32 a) (.ofNat 32 b) (.ofNat 32 z)).2.toNat], [])
  | r => (r, [])

theorem pe_computes (P : Process) {opts : Fields} (ho : opts.toList.Perm options) : Computes P (pe P.asm opts) peFn := by
  refine ⟨74, .cons 0 (instT opts) dIn, 75, dOut, rfl, rfl, ?_⟩
  intro vs bb h
  match vs, h with
  | [v0, v1, v2, v3, v4], ⟨h0, h1, h2, h3, h4, _⟩ =>
    obtain ⟨p, rfl, hp⟩ := SPe.leaf_shape (.inl ⟨_, _, rfl⟩) h1
    obtain ⟨a, rfl, ha⟩ := SPe.leaf_shape (.inl ⟨_, _, rfl⟩) h2
    obtain ⟨b, rfl, hb⟩ := SPe.leaf_shape (.inl ⟨_, _, rfl⟩) h3
    obtain ⟨z, rfl, hz⟩ := SPe.leaf_shape (.inl ⟨_, _, rfl⟩) h4
    have hc := call_of P ho h0 (.ofNat 32 p) (.ofNat 32 a) (.ofNat 32 b) (.ofNat 32 z)
    rw [mappable_outs] at hc
    refine ⟨_, rfl, ⟨BitVec.isLt _, BitVec.isLt _, trivial⟩, ?_⟩
    simp only [pe, dIn, inputDict, RPe.wordOf_mk, rawCode, hc]
    exact ⟨⟨new_word P 0 32 _, new_word P 0 32 _, trivial⟩, rfl⟩

theorem pe_total (P : Process) {opts : Fields} (ho : opts.toList.Perm options) : Total P (pe P.asm opts) := by
  refine ⟨74, .cons 0 (instT opts) dIn, 75, dOut, rfl, rfl, ?_⟩
  intro d bb h
  match d, h with
  | [(_, x0), (_, x1), (_, x2), (_, x3), (_, x4)], ⟨_, ⟨n0, h0, e0⟩, _⟩ =>
    subst e0
    obtain ⟨p, r, hc⟩ := call_any P ho h0 (wordOf 32 x1) (wordOf 32 x2) (wordOf 32 x3) (wordOf 32 x4)
    simp only [pe, hc]
    exact ⟨[.leaf _, .leaf _], ⟨BitVec.isLt _, BitVec.isLt _, trivial⟩, new_word P 0 32 _, new_word P 0 32 _, trivial⟩

theorem pe_boxes (A : Ty → Except Err AsmObj) (opts : Fields) : TotalBoxes (pe A opts) (fun _ => [1]) := by
  intro ci fi _ d bb _
  refine ⟨?_, by simp [pe]⟩
  simp only [pe]
  split
  · split <;> rfl
  · rfl

/-! ## the type of instructions -/

theorem option_build {k : Key} {t : Ty} (h : (k, t) ∈ options) : Buildable t ∧ 0 < width t := by
  rcases List.mem_append.mp h with h | h
  · exact RMap.option_build h
  · simp only [List.mem_singleton, Prod.mk.injEq] at h
    rw [h.2]
    have w1 : width eT = 10 := by decide +kernel
    have w2 := bit_width
    exact ⟨⟨by simp [Fields.toList], .inl (by simp [Fields.toList, w1, w2]), ⟨by simp [Fields.toList], .inl (by simp [Fields.toList, width]), trivial, trivial, trivial⟩, trivial, trivial⟩, by decide +kernel⟩

theorem inst_build {opts : Fields} (h : opts.toList.Perm options) : Buildable (instT opts) :=
  ⟨by rw [h.length_eq]; decide, fun kt hkt => (option_build (h.mem_iff.1 hkt)).2, builds_of_list (fun _ _ hk => (option_build (h.mem_iff.1 hk)).1)⟩

theorem inst_pos {opts : Fields} (h : opts.toList.Perm options) : 0 < width (instT opts) := by
  have : 0 < tagBits opts.toList.length := by rw [h.length_eq]; decide +kernel
  simp only [instT, width]
  omega

theorem option_mild {k : Key} {t : Ty} (h : (k, t) ∈ options) : Mild t := by
  rcases List.mem_append.mp h with h | h
  · exact RMap.option_mild h
  · simp only [List.mem_singleton, Prod.mk.injEq] at h
    rw [h.2]
    exact ⟨⟨trivial, trivial, trivial⟩, ⟨1, by decide +kernel, by decide⟩, trivial⟩

theorem inst_mild {opts : Fields} (h : opts.toList.Perm options) : Mild (instT opts) :=
  ⟨by rw [h.length_eq]; decide, (h.map (·.2)).nodup_iff.mpr (by decide), milds_of_list (fun _ _ hk => option_mild (h.mem_iff.1 hk))⟩

theorem known {P : Process} (hP : MildProcess P) {opts : Fields} (h : opts.toList.Perm options) : Known P (instT opts) := by
  intro t' ht
  rcases List.mem_cons.mp ht with rfl | ht
  · exact ⟨inst_wf h, inst_mild h⟩
  · exact hP _ _ ht

/-! ## the mapping problem -/

theorem setup (P : Process) {opts : Fields} (ho : opts.toList.Perm options) (enc : IEnc) {n : Nat} (hn : 0 < n) (f : List Word → Word) :
    Setup P (problem P.asm opts enc n f).ir (problem P.asm opts enc n f).arch (WIr.wordFn 32 f) peFn (fun _ => [1]) := by
  refine WIr.setup 32 n f (by decide) hn (pe_computes P ho) ?_ ?_ rfl ?_ rfl
  · have h1 := inst_wf ho
    have h2 := inst_build ho
    have h3 := inst_pos ho
    simp [pe, problem, dIn, WF, WFs, Buildable, Buildables, Fields.toList, width, h1, h2, h3]
  · simp [pe, problem, dOut, WF, WFs, Buildable, Buildables, Fields.toList, UnionFree, UnionFrees, width]
  · intro r bb h
    simp only [peFn]
    split <;> rfl

theorem shape (A : Ty → Except Err AsmObj) (opts : Fields) (enc : IEnc) (n : Nat) (f : List Word → Word) :
    InstProblem (problem A opts enc n f) 0 (instT opts) (wordFields 32 1 n) (.cons 0 (.bv 0 32) .nil) dIn dOut := by
  refine ⟨⟨8, rfl⟩, ⟨9, rfl⟩, ⟨74, rfl⟩, ⟨75, rfl⟩, WIr.fields_flat 32 1 n, ?_, ?_, ?_, rfl, rfl, rfl, rfl, rfl⟩
  · intro k t h
    simp only [Fields.toList, List.mem_singleton, Prod.mk.injEq] at h
    rw [h.2]
    trivial
  · intro k t h
    simp only [dIn, Fields.toList, List.mem_cons, Prod.mk.injEq, List.not_mem_nil, or_false] at h
    rcases h with ⟨_, rfl⟩ | ⟨_, rfl⟩ | ⟨_, rfl⟩ | ⟨_, rfl⟩ <;> trivial
  · intro k t h
    simp only [dOut, Fields.toList, List.mem_cons, Prod.mk.injEq, List.not_mem_nil, or_false] at h
    rcases h with ⟨_, rfl⟩ | ⟨_, rfl⟩ <;> trivial

end Peak.RXM
