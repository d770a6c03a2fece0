import Verif.Lemmas.InstMap
import Verif.Lemmas.WordIr
/-!
# C33, C55: the mapper finds a rule exactly if some instruction makes the architecture compute the IR instruction
-/

namespace Peak
open Peak.Spec

namespace InM
variable {B K : Type} [DecidableEq B] {P : Process} {pb : MapPb B K} {fi fa : Fn B} {inW : K → List Nat} {k0 : Key} {instT : Ty} {iin iout din dout : Fields}

theorem free_flat : ∀ {fs : Fields}, FlatFields fs → UnionFrees fs
  | .nil, _ => trivial
  | .cons k t fs, h => by
    obtain ⟨h1, h2⟩ := flat_cons h
    refine ⟨?_, free_flat h2⟩
    rcases h1 with ⟨_, _, rfl⟩ | ⟨_, rfl⟩ | ⟨_, _, rfl⟩ <;> trivial

theorem flat_prod {c : Nat} {fs : Fields} (h : FlatFields fs) : Flat (.prod c fs) := by
  intro p u hp
  simp only [leafTypes, flat_types h, List.mem_map, Prod.mk.injEq] at hp
  obtain ⟨kt, _, rfl, _⟩ := hp
  exact ⟨_, rfl⟩

theorem trusted_const (hs : InstProblem pb k0 instT iin iout din dout) (hw : WF pb.arch.inT) (h : Trusted P instT) :
    ∀ k t, (k, t) ∈ pb.arch.inT.fieldDict → [k] ∈ pb.archConst → Trusted P t := by
  intro k t hk hc
  obtain ⟨c, e⟩ := hs.arch_in
  rw [hs.arch_const] at hc
  simp only [List.mem_singleton, List.cons.injEq, and_true] at hc
  subst hc
  rw [e] at hk hw
  have hn := hw.1
  simp only [Fields.toList, List.map_cons, List.nodup_cons] at hn
  simp only [Ty.fieldDict, Fields.toList, List.mem_cons, Prod.mk.injEq, true_and] at hk
  rcases hk with rfl | hk
  · exact h
  · exact absurd (List.mem_map_of_mem (f := (·.1)) hk) hn.1

theorem leaves_checked_cons (S : Setup P pb.ir pb.arch fi fa inW) (hs : ConsProblem pb k0 instT iin iout din dout)
    (hl : ∀ r p c ms n, RHas instT r → isValidAV P.asm (mkAV instT (rawCode instT r)) = .ok true → (p, Ty.enum c ms, n) ∈ rawLeaves instT r →
      isValidAV P.asm (mkAV (.enum c ms) n) = .ok true) : LeavesChecked P pb := by
  intro vs p c ms n h1 h2 h3 h4
  obtain ⟨ca, aIn⟩ := hs.arch_in
  rw [hs.arch_const, const_iff] at h4
  obtain ⟨q, rfl⟩ := h4
  have h1' := h1
  rw [aIn] at h1' h3
  match vs, h1', h3, h2 with
  | inst :: ys, h1', h3, h2 =>
  have hv := h2 ca _ aIn k0 (mkAV instT (rawCode instT inst)) (by simp [inputDict]) (by simp [hs.arch_const])
  refine hl inst q c ms n h1'.1 hv ?_
  simp only [rawLeaves, rawLeavesAll, List.mem_append, List.mem_map] at h3
  rcases h3 with ⟨l, hl1, hl2⟩ | h3
  · obtain ⟨l1, l2, l3⟩ := l
    simp only [Prod.mk.injEq, List.cons.injEq, true_and] at hl2
    obtain ⟨rfl, rfl, rfl⟩ := hl2
    exact hl1
  · exfalso
    have hn := S.arch_in.1
    rw [aIn] at hn
    have hn' := hn.1
    simp only [Fields.toList, List.map_cons, List.nodup_cons] at hn'
    have hr := row_of_has hs.din_flat hn'.2 h1'.2
    rw [hr, row_leaves hs.din_flat] at h3
    obtain ⟨kt, g1, g2⟩ := List.mem_map.mp h3
    simp only [Prod.mk.injEq, List.cons.injEq] at g2
    exact hn'.1 (List.mem_map.mpr ⟨kt, g1, g2.1.1⟩)

theorem leaves_checked (S : Setup P pb.ir pb.arch fi fa inW) (hs : BoxProblem pb k0 instT iin iout din dout)
    (hl : ∀ r p c ms n, RHas instT r → isValidAV P.asm (mkAV instT (rawCode instT r)) = .ok true → (p, Ty.enum c ms, n) ∈ rawLeaves instT r →
      isValidAV P.asm (mkAV (.enum c ms) n) = .ok true) : LeavesChecked P pb :=
  leaves_checked_cons S (to_cons hs) hl

/-- Constraints on leaves of the instruction are constraints the mapper accepts. -/
theorem cons_leaves (hs : ConsProblem pb k0 instT iin iout din dout) :
    ∀ p cs, (p, cs) ∈ pb.cons → IsConst pb.archConst p ∧ cs ≠ [] ∧ ∃ t, (p, t) ∈ leafTypes pb.arch.inT [] := by
  intro p cs h
  obtain ⟨ca, aIn⟩ := hs.arch_in
  obtain ⟨h1, q, t, rfl, ht⟩ := hs.cons p cs h
  refine ⟨by rw [hs.arch_const, const_iff]; exact ⟨q, rfl⟩, h1, t, ?_⟩
  rw [aIn]
  simp only [leafTypes]
  rw [VF.typesF_cons]
  exact List.mem_append.mpr (.inl (List.mem_map.mpr ⟨_, ht, rfl⟩))

end InM

open Classical in
/-- C33 with constraints on leaves of the instruction: with a sound and complete solver the mapper returns a rule, which is a correct mapping and so meets the constraints, if some bits for the
instruction that the validator accepts and that hold allowed values in the constrained leaves make the architecture compute the IR instruction, and `None` if there are none. It does not
raise. A constraint on a leaf of another option of a union than the one chosen does not matter. -/
theorem C33_instruction_constraints {B K : Type} [DecidableEq B] (P : Process) (pb : MapPb B K) (fi fa : Fn B) (inW : K → List Nat) (k0 : Key) (instT : Ty) (iin iout din dout : Fields)
    (hs : ConsProblem pb k0 instT iin iout din dout) (hbi : pb.ir.bbs = []) (hba : pb.arch.bbs = []) (S : Setup P pb.ir pb.arch fi fa inW) (hT : Total P pb.arch)
    (hl : ∀ r p c ms n, RHas instT r → isValidAV P.asm (mkAV instT (rawCode instT r)) = .ok true → (p, Ty.enum c ms, n) ∈ rawLeaves instT r →
      isValidAV P.asm (mkAV (.enum c ms) n) = .ok true)
    (solve : (MAsg B → Prop) → Option (MAsg B)) (hsat : ∀ φ a, solve φ = some a → φ a) (hcomp : ∀ φ a, φ a → ∃ a', solve φ = some a') (a0 : MAsg B) :
    (CanComputeCons P.asm pb fi fa k0 instT iin iout din dout → ∃ r, mapSolve P.asm pb solve a0 = .ok (some r) ∧ IsMapping P.asm pb r ∧ RuleCorrect pb.ir pb.arch fi fa r) ∧
    (¬ CanComputeCons P.asm pb fi fa k0 instT iin iout din dout → mapSolve P.asm pb solve a0 = .ok none) := by
  obtain ⟨ci, eIn⟩ := hs.ir_in
  obtain ⟨ca, aIn⟩ := hs.arch_in
  have key := C33_decides_checked_partial P pb fi fa inW S hT (by rw [eIn]; exact InM.free_flat hs.iin_flat) hbi hba (InM.cons_leaves hs) hs.cons_once
    ⟨k0, instT, by simp [aIn, Ty.fieldDict, Fields.toList], by simp [hs.arch_const]⟩ (InM.leaves_checked_cons S hs hl) solve hsat hcomp a0
  rw [InM.mapping_iff_cons S hs] at key
  constructor
  · intro hc
    rcases key with h | ⟨_, h⟩
    · exact h
    · exact absurd hc h
  · intro hc
    rcases key with ⟨r, _, hM, hC⟩ | ⟨h, _⟩
    · exact absurd ((InM.mapping_iff_cons S hs).mp ⟨r, hM, hC⟩) hc
    · exact h

open Classical in
/-- C55: the same with `simple_formula=True`, for IR instructions with outputs, and with black boxes on both sides. -/
theorem C55_instruction_constraints {B K : Type} [DecidableEq B] [DecidableEq K] (P : Process) (pb : MapPb B K) (fi fa : Fn B) (inW : K → List Nat) (k0 : Key) (instT : Ty)
    (iin iout din dout : Fields) (hs : ConsProblem pb k0 instT iin iout din dout) (S : Setup P pb.ir pb.arch fi fa inW) (hT : Total P pb.arch) (hTb : TotalBoxes pb.arch inW)
    (hl : ∀ r p c ms n, RHas instT r → isValidAV P.asm (mkAV instT (rawCode instT r)) = .ok true → (p, Ty.enum c ms, n) ∈ rawLeaves instT r →
      isValidAV P.asm (mkAV (.enum c ms) n) = .ok true)
    (solve : (SAsg B → Prop) → Option (SAsg B)) (hsat : ∀ φ a, solve φ = some a → φ a) (hcomp : ∀ φ a, φ a → ∃ a', solve φ = some a') (a0 : SAsg B) :
    (CanComputeCons P.asm pb fi fa k0 instT iin iout din dout → ∃ r, simpleSolve P.asm pb solve a0 = .ok (some r) ∧ IsMapping P.asm pb r ∧ RuleCorrect pb.ir pb.arch fi fa r) ∧
    (¬ CanComputeCons P.asm pb fi fa k0 instT iin iout din dout → simpleSolve P.asm pb solve a0 = .ok none) := by
  obtain ⟨ci, eIn⟩ := hs.ir_in
  obtain ⟨co, eOut⟩ := hs.ir_out
  obtain ⟨ca, aIn⟩ := hs.arch_in
  obtain ⟨cb, aOut⟩ := hs.arch_out
  have hso : leafTypes pb.ir.outT [] ≠ [] := by
    have := S.ir_out.2.1
    rw [eOut] at this ⊢
    simp only [leafTypes, InM.flat_types hs.iout_flat]
    intro h
    exact this.1 (List.map_eq_nil_iff.mp h)
  have key := C55_decides_checked_partial P pb fi fa inW S hT hTb (by rw [eIn]; exact InM.free_flat hs.iin_flat) (by rw [eOut]; exact InM.flat_prod hs.iout_flat)
    (by rw [aOut]; exact InM.flat_prod hs.dout_flat) hso (InM.cons_leaves hs) hs.cons_once
    ⟨k0, instT, by simp [aIn, Ty.fieldDict, Fields.toList], by simp [hs.arch_const]⟩ (by simp [hs.ir_const, IsConst])
    (InM.leaves_checked_cons S hs hl) solve hsat hcomp a0
  rw [InM.mapping_iff_cons S hs] at key
  constructor
  · intro hc
    rcases key with h | ⟨_, h⟩
    · exact h
    · exact absurd hc h
  · intro hc
    rcases key with ⟨r, _, hM, hC⟩ | ⟨h, _⟩
    · exact absurd ((InM.mapping_iff_cons S hs).mp ⟨r, hM, hC⟩) hc
    · exact h

open Classical in
/-- C55: the same for a search with `simple_formula=True`, with black boxes on both sides. -/
theorem C55_any_instruction {B K : Type} [DecidableEq B] [DecidableEq K] (P : Process) (pb : MapPb B K) (fi fa : Fn B) (inW : K → List Nat) (k0 : Key) (instT : Ty) (iin iout din dout : Fields)
    (hs : BoxProblem pb k0 instT iin iout din dout) (S : Setup P pb.ir pb.arch fi fa inW) (hT : Total P pb.arch) (hTb : TotalBoxes pb.arch inW)
    (hl : ∀ r p c ms n, RHas instT r → isValidAV P.asm (mkAV instT (rawCode instT r)) = .ok true → (p, Ty.enum c ms, n) ∈ rawLeaves instT r →
      isValidAV P.asm (mkAV (.enum c ms) n) = .ok true)
    (inst : RVal) (src out : Key → Option Key) (hi : RHas instT inst) (hv : isValidAV P.asm (mkAV instT (rawCode instT inst)) = .ok true)
    (hc : ComputesWithBoxes pb.ir pb.arch fi fa iin iout din dout inst src out) :
    ∃ solve : (SAsg B → Prop) → Option (SAsg B), (∀ φ a, solve φ = some a → φ a) ∧ (∀ φ a, φ a → ∃ a', solve φ = some a') ∧
      ∀ a0, ∃ r, simpleSolve P.asm pb solve a0 = .ok (some r) ∧ ∀ p t n, (p, t, n) ∈ rawLeaves instT inst → ∃ c, (RSrc.const c, k0 :: p) ∈ r.ib ∧ ConstIs c t n := by
  obtain ⟨ci, eIn⟩ := hs.ir_in
  obtain ⟨co, eOut⟩ := hs.ir_out
  obtain ⟨ca, aIn⟩ := hs.arch_in
  obtain ⟨cb, aOut⟩ := hs.arch_out
  have hso : leafTypes pb.ir.outT [] ≠ [] := by
    have := S.ir_out.2.1
    rw [eOut] at this ⊢
    simp only [leafTypes, InM.flat_types hs.iout_flat]
    intro h
    exact this.1 (List.map_eq_nil_iff.mp h)
  have hwt : WF instT := by have := S.arch_in.1; rw [aIn] at this; exact this.2.1
  obtain ⟨hM, hC⟩ := InM.rule_of_choice_boxes S hs hi hv hc
  obtain ⟨solve, h1, h2, h3⟩ := C55_any_mapping_partial P pb fi fa inW S hT hTb (by rw [eIn]; exact InM.free_flat hs.iin_flat) (by rw [eOut]; exact InM.flat_prod hs.iout_flat)
    (by rw [aOut]; exact InM.flat_prod hs.dout_flat) hso (by simp [hs.cons]) (by simp [hs.cons])
    ⟨k0, instT, by simp [aIn, Ty.fieldDict, Fields.toList], by simp [hs.arch_const]⟩ (by simp [hs.ir_const, IsConst]) (InM.leaves_checked S hs hl) _ hM hC
  refine ⟨solve, h1, h2, fun a0 => ?_⟩
  obtain ⟨r, hr, hp, _⟩ := h3 a0
  refine ⟨r, hr, fun p t n h => ⟨InM.cst t n, hp.symm.subset ?_, InM.cst_ok (InM.leaves_lt hwt hi h)⟩⟩
  exact List.mem_append.mpr (.inl (List.mem_map.mpr ⟨_, h, rfl⟩))

open Classical in
/-- C33 for an architecture whose only `Const` input is its instruction, of any type, and whose other inputs and outputs are flat, as are those of the IR instruction; there are no
constraints and no black boxes. The validator of the instruction may accept bits that spell no instruction, but it rejects whatever those of its enum leaves reject. With a
sound and complete solver, the mapper returns a rule, which is a correct mapping, if some bits that the validator accepts and some wiring of the data make the architecture compute the
IR instruction, and `None` if there are none. It does not raise. -/
theorem C33_instruction_bits {B K : Type} [DecidableEq B] (P : Process) (pb : MapPb B K) (fi fa : Fn B) (inW : K → List Nat) (k0 : Key) (instT : Ty) (iin iout din dout : Fields)
    (hs : InstProblem pb k0 instT iin iout din dout) (S : Setup P pb.ir pb.arch fi fa inW) (hT : Total P pb.arch)
    (hl : ∀ r p c ms n, RHas instT r → isValidAV P.asm (mkAV instT (rawCode instT r)) = .ok true → (p, Ty.enum c ms, n) ∈ rawLeaves instT r →
      isValidAV P.asm (mkAV (.enum c ms) n) = .ok true)
    (solve : (MAsg B → Prop) → Option (MAsg B)) (hsat : ∀ φ a, solve φ = some a → φ a) (hcomp : ∀ φ a, φ a → ∃ a', solve φ = some a') (a0 : MAsg B) :
    (CanComputeRaw P.asm fi fa instT iin iout din dout → ∃ r, mapSolve P.asm pb solve a0 = .ok (some r) ∧ IsMapping P.asm pb r ∧ RuleCorrect pb.ir pb.arch fi fa r) ∧
    (¬ CanComputeRaw P.asm fi fa instT iin iout din dout → mapSolve P.asm pb solve a0 = .ok none) := by
  obtain ⟨ci, eIn⟩ := hs.ir_in
  obtain ⟨ca, aIn⟩ := hs.arch_in
  have key := C33_decides_checked_partial P pb fi fa inW S hT (by rw [eIn]; exact InM.free_flat hs.iin_flat) hs.ir_bbs hs.arch_bbs (by simp [hs.cons]) (by simp [hs.cons])
    ⟨k0, instT, by simp [aIn, Ty.fieldDict, Fields.toList], by simp [hs.arch_const]⟩ (InM.leaves_checked S (InM.to_boxes hs) hl) solve hsat hcomp a0
  rw [InM.mapping_iff S hs] at key
  constructor
  · intro hc
    rcases key with h | ⟨_, h⟩
    · exact h
    · exact absurd hc h
  · intro hc
    rcases key with ⟨r, _, hM, hC⟩ | ⟨h, _⟩
    · exact absurd ((InM.mapping_iff S hs).mp ⟨r, hM, hC⟩) hc
    · exact h

open Classical in
/-- C55 for an architecture whose only `Const` input is its instruction, as in C33_instruction_bits, and with black boxes in the architecture and in the IR instruction. With a sound and
complete solver, the mapper returns a rule, which is a correct mapping, if some bits that the validator accepts and some wiring of the data make the architecture compute the IR
instruction whatever the black boxes compute, and `None` if there are none. It does not raise. -/
theorem C55_instruction_boxes {B K : Type} [DecidableEq B] [DecidableEq K] (P : Process) (pb : MapPb B K) (fi fa : Fn B) (inW : K → List Nat) (k0 : Key) (instT : Ty) (iin iout din dout : Fields)
    (hs : BoxProblem pb k0 instT iin iout din dout) (S : Setup P pb.ir pb.arch fi fa inW) (hT : Total P pb.arch) (hTb : TotalBoxes pb.arch inW)
    (hl : ∀ r p c ms n, RHas instT r → isValidAV P.asm (mkAV instT (rawCode instT r)) = .ok true → (p, Ty.enum c ms, n) ∈ rawLeaves instT r →
      isValidAV P.asm (mkAV (.enum c ms) n) = .ok true)
    (solve : (SAsg B → Prop) → Option (SAsg B)) (hsat : ∀ φ a, solve φ = some a → φ a) (hcomp : ∀ φ a, φ a → ∃ a', solve φ = some a') (a0 : SAsg B) :
    (CanComputeBoxes P.asm pb.ir pb.arch fi fa instT iin iout din dout → ∃ r, simpleSolve P.asm pb solve a0 = .ok (some r) ∧ IsMapping P.asm pb r ∧ RuleCorrect pb.ir pb.arch fi fa r) ∧
    (¬ CanComputeBoxes P.asm pb.ir pb.arch fi fa instT iin iout din dout → simpleSolve P.asm pb solve a0 = .ok none) := by
  obtain ⟨ci, eIn⟩ := hs.ir_in
  obtain ⟨co, eOut⟩ := hs.ir_out
  obtain ⟨ca, aIn⟩ := hs.arch_in
  obtain ⟨cb, aOut⟩ := hs.arch_out
  have hso : leafTypes pb.ir.outT [] ≠ [] := by
    have := S.ir_out.2.1
    rw [eOut] at this ⊢
    simp only [leafTypes, InM.flat_types hs.iout_flat]
    intro h
    exact this.1 (List.map_eq_nil_iff.mp h)
  have key := C55_decides_checked_partial P pb fi fa inW S hT hTb (by rw [eIn]; exact InM.free_flat hs.iin_flat) (by rw [eOut]; exact InM.flat_prod hs.iout_flat)
    (by rw [aOut]; exact InM.flat_prod hs.dout_flat) hso (by simp [hs.cons]) (by simp [hs.cons])
    ⟨k0, instT, by simp [aIn, Ty.fieldDict, Fields.toList], by simp [hs.arch_const]⟩ (by simp [hs.ir_const, IsConst])
    (InM.leaves_checked S hs hl) solve hsat hcomp a0
  rw [InM.mapping_iff_boxes S hs] at key
  constructor
  · intro hc
    rcases key with h | ⟨_, h⟩
    · exact h
    · exact absurd hc h
  · intro hc
    rcases key with ⟨r, _, hM, hC⟩ | ⟨h, _⟩
    · exact absurd ((InM.mapping_iff_boxes S hs).mp ⟨r, hM, hC⟩) hc
    · exact h

open Classical in
/-- C55: the same with `simple_formula=True`, for IR instructions with outputs. -/
theorem C55_instruction_bits {B K : Type} [DecidableEq B] [DecidableEq K] (P : Process) (pb : MapPb B K) (fi fa : Fn B) (inW : K → List Nat) (k0 : Key) (instT : Ty) (iin iout din dout : Fields)
    (hs : InstProblem pb k0 instT iin iout din dout) (S : Setup P pb.ir pb.arch fi fa inW) (hT : Total P pb.arch) (hTb : TotalBoxes pb.arch inW)
    (hl : ∀ r p c ms n, RHas instT r → isValidAV P.asm (mkAV instT (rawCode instT r)) = .ok true → (p, Ty.enum c ms, n) ∈ rawLeaves instT r →
      isValidAV P.asm (mkAV (.enum c ms) n) = .ok true)
    (solve : (SAsg B → Prop) → Option (SAsg B)) (hsat : ∀ φ a, solve φ = some a → φ a) (hcomp : ∀ φ a, φ a → ∃ a', solve φ = some a') (a0 : SAsg B) :
    (CanComputeRaw P.asm fi fa instT iin iout din dout → ∃ r, simpleSolve P.asm pb solve a0 = .ok (some r) ∧ IsMapping P.asm pb r ∧ RuleCorrect pb.ir pb.arch fi fa r) ∧
    (¬ CanComputeRaw P.asm fi fa instT iin iout din dout → simpleSolve P.asm pb solve a0 = .ok none) := by
  have key := C55_instruction_boxes P pb fi fa inW k0 instT iin iout din dout (InM.to_boxes hs) S hT hTb hl solve hsat hcomp a0
  have e : CanComputeBoxes P.asm pb.ir pb.arch fi fa instT iin iout din dout ↔ CanComputeRaw P.asm fi fa instT iin iout din dout := by
    simp only [CanComputeBoxes, CanComputeRaw, InM.boxes_nil hs]
  rw [e] at key
  exact key

open Classical in
/-- C33: whatever bits make the architecture compute the IR instruction, if the validator accepts them some sound and complete solver makes the mapper return a rule that sets the instruction to
just these bits. -/
theorem C33_any_instruction {B K : Type} [DecidableEq B] (P : Process) (pb : MapPb B K) (fi fa : Fn B) (inW : K → List Nat) (k0 : Key) (instT : Ty) (iin iout din dout : Fields)
    (hs : InstProblem pb k0 instT iin iout din dout) (S : Setup P pb.ir pb.arch fi fa inW) (hT : Total P pb.arch)
    (hl : ∀ r p c ms n, RHas instT r → isValidAV P.asm (mkAV instT (rawCode instT r)) = .ok true → (p, Ty.enum c ms, n) ∈ rawLeaves instT r →
      isValidAV P.asm (mkAV (.enum c ms) n) = .ok true)
    (inst : RVal) (src out : Key → Option Key) (hi : RHas instT inst) (hv : isValidAV P.asm (mkAV instT (rawCode instT inst)) = .ok true)
    (hc : ComputesWith fi fa iin iout din dout inst src out) :
    ∃ solve : (MAsg B → Prop) → Option (MAsg B), (∀ φ a, solve φ = some a → φ a) ∧ (∀ φ a, φ a → ∃ a', solve φ = some a') ∧
      ∀ a0, ∃ r, mapSolve P.asm pb solve a0 = .ok (some r) ∧ ∀ p t n, (p, t, n) ∈ rawLeaves instT inst → ∃ c, (RSrc.const c, k0 :: p) ∈ r.ib ∧ ConstIs c t n := by
  obtain ⟨ci, eIn⟩ := hs.ir_in
  obtain ⟨ca, aIn⟩ := hs.arch_in
  have hwt : WF instT := by have := S.arch_in.1; rw [aIn] at this; exact this.2.1
  obtain ⟨hM, hC⟩ := InM.rule_of_choice S hs hi hv hc
  obtain ⟨solve, h1, h2, h3⟩ := C33_any_mapping_partial P pb fi fa inW S hT (by rw [eIn]; exact InM.free_flat hs.iin_flat) hs.ir_bbs hs.arch_bbs (by simp [hs.cons]) (by simp [hs.cons])
    ⟨k0, instT, by simp [aIn, Ty.fieldDict, Fields.toList], by simp [hs.arch_const]⟩ (InM.leaves_checked S (InM.to_boxes hs) hl) _ hM hC
  refine ⟨solve, h1, h2, fun a0 => ?_⟩
  obtain ⟨r, hr, hp, _⟩ := h3 a0
  refine ⟨r, hr, fun p t n h => ⟨InM.cst t n, hp.symm.subset ?_, InM.cst_ok (InM.leaves_lt hwt hi h)⟩⟩
  exact List.mem_append.mpr (.inl (List.mem_map.mpr ⟨_, h, rfl⟩))

open Classical in
/-- C33 for an architecture whose only `Const` input is its instruction, of any type, and whose other inputs and outputs are flat, as are those of the IR instruction; there are no
constraints and no black boxes.  With a sound and complete solver, the mapper returns a rule, which is a correct mapping, if some instruction and some wiring of the data make
the architecture compute the IR instruction, and `None` if there are none.  It does not raise. -/
theorem C33_instruction {B K : Type} [DecidableEq B] (P : Process) (pb : MapPb B K) (fi fa : Fn B) (inW : K → List Nat) (k0 : Key) (instT : Ty) (iin iout din dout : Fields)
    (hs : InstProblem pb k0 instT iin iout din dout) (S : Setup P pb.ir pb.arch fi fa inW) (hT : Total P pb.arch) (ht : Trusted P instT)
    (htl : ∀ p c ms, (p, Ty.enum c ms) ∈ leafTypes pb.arch.inT [] → Trusted P (.enum c ms))
    (solve : (MAsg B → Prop) → Option (MAsg B)) (hsat : ∀ φ a, solve φ = some a → φ a) (hcomp : ∀ φ a, φ a → ∃ a', solve φ = some a') (a0 : MAsg B) :
    (CanCompute fi fa instT iin iout din dout → ∃ r, mapSolve P.asm pb solve a0 = .ok (some r) ∧ IsMapping P.asm pb r ∧ RuleCorrect pb.ir pb.arch fi fa r) ∧
    (¬ CanCompute fi fa instT iin iout din dout → mapSolve P.asm pb solve a0 = .ok none) := by
  obtain ⟨ci, eIn⟩ := hs.ir_in
  obtain ⟨ca, aIn⟩ := hs.arch_in
  have key := C33_decides_partial P pb fi fa inW S hT (by rw [eIn]; exact InM.free_flat hs.iin_flat) hs.ir_bbs hs.arch_bbs (by simp [hs.cons]) (by simp [hs.cons])
    ⟨k0, instT, by simp [aIn, Ty.fieldDict, Fields.toList], by simp [hs.arch_const]⟩ (by simp [hs.arch_const]) (InM.trusted_const hs S.arch_in.1 ht) htl solve hsat hcomp a0
  rw [InM.mapping_iff S hs, InM.can_iff ht] at key
  constructor
  · intro hc
    rcases key with h | ⟨_, h⟩
    · exact h
    · exact absurd hc h
  · intro hc
    rcases key with ⟨r, _, hM, hC⟩ | ⟨h, _⟩
    · exact absurd ((InM.can_iff ht).mp ((InM.mapping_iff S hs).mp ⟨r, hM, hC⟩)) hc
    · exact h

open Classical in
/-- C55: the same with `simple_formula=True`, for IR instructions with outputs. -/
theorem C55_instruction {B K : Type} [DecidableEq B] [DecidableEq K] (P : Process) (pb : MapPb B K) (fi fa : Fn B) (inW : K → List Nat) (k0 : Key) (instT : Ty) (iin iout din dout : Fields)
    (hs : InstProblem pb k0 instT iin iout din dout) (S : Setup P pb.ir pb.arch fi fa inW) (hT : Total P pb.arch) (hTb : TotalBoxes pb.arch inW) (ht : Trusted P instT)
    (htl : ∀ p c ms, (p, Ty.enum c ms) ∈ leafTypes pb.arch.inT [] → Trusted P (.enum c ms))
    (solve : (SAsg B → Prop) → Option (SAsg B)) (hsat : ∀ φ a, solve φ = some a → φ a) (hcomp : ∀ φ a, φ a → ∃ a', solve φ = some a') (a0 : SAsg B) :
    (CanCompute fi fa instT iin iout din dout → ∃ r, simpleSolve P.asm pb solve a0 = .ok (some r) ∧ IsMapping P.asm pb r ∧ RuleCorrect pb.ir pb.arch fi fa r) ∧
    (¬ CanCompute fi fa instT iin iout din dout → simpleSolve P.asm pb solve a0 = .ok none) := by
  obtain ⟨ci, eIn⟩ := hs.ir_in
  obtain ⟨co, eOut⟩ := hs.ir_out
  obtain ⟨ca, aIn⟩ := hs.arch_in
  obtain ⟨cb, aOut⟩ := hs.arch_out
  have hso : leafTypes pb.ir.outT [] ≠ [] := by
    have := S.ir_out.2.1
    rw [eOut] at this ⊢
    simp only [leafTypes, InM.flat_types hs.iout_flat]
    intro h
    exact this.1 (List.map_eq_nil_iff.mp h)
  have key := C55_decides_partial P pb fi fa inW S hT hTb (by rw [eIn]; exact InM.free_flat hs.iin_flat) (by rw [eOut]; exact InM.flat_prod hs.iout_flat)
    (by rw [aOut]; exact InM.flat_prod hs.dout_flat) hso (by simp [hs.cons]) (by simp [hs.cons])
    ⟨k0, instT, by simp [aIn, Ty.fieldDict, Fields.toList], by simp [hs.arch_const]⟩ (by simp [hs.ir_const, IsConst]) (by simp [hs.arch_const])
    (InM.trusted_const hs S.arch_in.1 ht) htl solve hsat hcomp a0
  rw [InM.mapping_iff S hs, InM.can_iff ht] at key
  constructor
  · intro hc
    rcases key with h | ⟨_, h⟩
    · exact h
    · exact absurd hc h
  · intro hc
    rcases key with ⟨r, _, hM, hC⟩ | ⟨h, _⟩
    · exact absurd ((InM.can_iff ht).mp ((InM.mapping_iff S hs).mp ⟨r, hM, hC⟩)) hc
    · exact h

/-! ## an adder with a constant operand -/

namespace InM

/-- An architecture with a `Const` operand and a data operand, that adds them. -/
def addArch : PeakObj Nat Nat where
  inT := .prod 2 (.cons 6 (.bv 0 8) (.cons 5 (.bv 0 8) .nil))
  outT := .prod 1 (.cons 1 (.bv 0 8) .nil)
  bbs := []
  bbOutW := fun _ => [1]
  run := fun d _ => match d with
    | [(_, c), (_, x)] => ([.bits (BV.ofNat 8 (wordOf 8 c + wordOf 8 x).toNat)], [])
    | _ => ([], [])

def addFn : Fn Nat := fun r _ => match r with
  | .prod [c, x] => (.prod [.leaf (WIr.leafWord 8 c + WIr.leafWord 8 x).toNat], [])
  | r => (r, [])

def addPb (f : List (BitVec 8) → BitVec 8) : MapPb Nat Nat := ⟨wordIr 8 1 f, addArch, [], [[6]], [], .binary⟩

theorem addShape (f : List (BitVec 8) → BitVec 8) : InstProblem (addPb f) 6 (.bv 0 8) (.cons 1 (.bv 0 8) .nil) (.cons 0 (.bv 0 8) .nil) (.cons 5 (.bv 0 8) .nil) (.cons 1 (.bv 0 8) .nil) := by
  refine ⟨⟨8, rfl⟩, ⟨9, rfl⟩, ⟨2, rfl⟩, ⟨1, rfl⟩, ?_, ?_, ?_, ?_, rfl, rfl, rfl, rfl, rfl⟩ <;>
    · intro k t h
      simp only [Fields.toList, List.mem_singleton, Prod.mk.injEq] at h
      rw [h.2]
      trivial

theorem wordOf_ofNat (w n : Nat) : wordOf w (.bits (BV.ofNat w n)) = .ofNat w n := by
  simp only [wordOf, BV.ofNat_val]
  apply BitVec.eq_of_toNat_eq
  simp

theorem addTotal (P : Process) : Total P addArch := by
  refine ⟨2, _, 1, _, rfl, rfl, ?_⟩
  intro d bb h
  match d, h with
  | [(_, c), (_, x)], _ =>
    refine ⟨[.leaf (wordOf 8 c + wordOf 8 x).toNat], ⟨BitVec.isLt _, trivial⟩, WIr.new_word P 8 _, trivial⟩

theorem addSetup (P : Process) (f : List (BitVec 8) → BitVec 8) : Setup P (addPb f).ir (addPb f).arch (WIr.wordFn 8 f) addFn (fun _ => [1]) := by
  refine WIr.setup 8 1 f (by decide) (by decide) ?_ ?_ ?_ rfl ?_ rfl
  · refine ⟨2, _, 1, _, rfl, rfl, ?_⟩
    intro vs bb h
    match vs, h with
    | [c, x], ⟨hc, hx, _⟩ =>
      obtain ⟨n, rfl, hn⟩ := (leaf_has (.inl ⟨0, 8, rfl⟩)).mp hc
      obtain ⟨m, rfl, hm⟩ := (leaf_has (.inl ⟨0, 8, rfl⟩)).mp hx
      refine ⟨_, rfl, ⟨BitVec.isLt _, trivial⟩, ?_, rfl⟩
      simp only [addPb, addArch, inputDict, mkAV, rawCode, wordOf_ofNat, WIr.leafWord]
      exact ⟨WIr.new_word P 8 _, trivial⟩
  · simp [addPb, addArch, WF, WFs, Buildable, Buildables, Fields.toList, width]
  · simp [addPb, addArch, WF, WFs, Buildable, Buildables, Fields.toList, UnionFree, UnionFrees]
  · intro r bb h
    simp only [addFn]
    split <;> rfl

/-- The adder computes `f` if and only if `f` adds a constant. -/
theorem add_can (f : List (BitVec 8) → BitVec 8) :
    CanCompute (WIr.wordFn 8 f) addFn (.bv 0 8) (.cons 1 (.bv 0 8) .nil) (.cons 0 (.bv 0 8) .nil) (.cons 5 (.bv 0 8) .nil) (.cons 1 (.bv 0 8) .nil) ↔ ∃ c, ∀ x, f [x] = c + x := by
  constructor
  · rintro ⟨v, src, out, hi, hS, hO, h⟩
    obtain ⟨n, e, hn⟩ := (leaf_has (.inl ⟨0, 8, rfl⟩)).mp (C38_rawOf (.bv 0 8) v trivial hi).1
    rw [e] at h
    obtain ⟨k, hk, hsrc, _⟩ := hS.once 1 (.bv 0 8) (by simp [Fields.toList])
    obtain ⟨o, ho, hout, _⟩ := hO.once 0 (.bv 0 8) (by simp [Fields.toList])
    simp only [Fields.toList, List.map_cons, List.map_nil, List.mem_singleton] at hk ho
    subst hk ho
    refine ⟨.ofNat 8 n, fun x => ?_⟩
    have := h (fun _ => x.toNat) (fun _ => 0) 1 (by simp [Fields.toList]) 0 hout
    have hx : x.toNat % 256 = x.toNat := Nat.mod_eq_of_lt x.isLt
    simp [addFn, WIr.wordFn, rowOf, wired, hsrc, prodBits, fieldBits, WIr.leafWord, width, hx] at this
    apply BitVec.eq_of_toNat_eq
    rw [← this]
    simp
  · rintro ⟨c, h⟩
    refine ⟨.bits ⟨8, c.toNat, c.isLt⟩, fun _ => some 1, fun _ => some 0, rfl, ⟨by simp [Fields.toList], by simp [Fields.toList]⟩, ⟨by simp [Fields.toList], by simp [Fields.toList]⟩, ?_⟩
    intro x z k hk q hq
    simp only [Fields.toList, List.map_cons, List.map_nil, List.mem_singleton] at hk
    cases hq
    subst hk
    simp [addFn, WIr.wordFn, rowOf, wired, prodBits, fieldBits, WIr.leafWord, width, h, rawOf, encode]

end InM

open Classical in
/-- The hypotheses hold for an adder with a `Const` operand and every function of a word: a rule is returned exactly if the function adds a constant. -/
example (f : List (BitVec 8) → BitVec 8) (solve : (MAsg Nat → Prop) → Option (MAsg Nat)) (hsat : ∀ φ a, solve φ = some a → φ a) (hcomp : ∀ φ a, φ a → ∃ a', solve φ = some a')
    (a0 : MAsg Nat) : (∃ r, mapSolve (Process.asm ⟨fun _ => []⟩) (InM.addPb f) solve a0 = .ok (some r)) ↔ ∃ c, ∀ x, f [x] = c + x := by
  have key := C33_instruction ⟨fun _ => []⟩ (InM.addPb f) (WIr.wordFn 8 f) InM.addFn (fun _ => [1]) 6 (.bv 0 8) _ _ _ _ (InM.addShape f) (InM.addSetup _ f) (InM.addTotal _)
    (by intro t' ht'; simp only [List.mem_singleton] at ht'; subst ht'; exact ⟨trivial, trivial⟩)
    (by intro p c ms h; simp [InM.addPb, InM.addArch, leafTypes, leafTypesF] at h) solve hsat hcomp a0
  rw [← InM.add_can f]
  constructor
  · rintro ⟨r, h⟩
    by_contra hc
    rw [key.2 hc] at h
    cases h
  · intro hc
    obtain ⟨r, h, _⟩ := key.1 hc
    exact ⟨r, h⟩

end Peak
