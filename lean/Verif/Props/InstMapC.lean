import Verif.Lemmas.InstMapC
import Verif.Props.InstMap
/-!
# C33, C55: constraints on data inputs: exactly which functions are mapped
-/

namespace Peak
open Peak.Spec

namespace InM
variable {B K : Type} [DecidableEq B] {P : Process} {pb : MapPb B K} {fi fa : Fn B} {inW : K → List Nat} {k0 : Key} {instT : Ty} {iin iout din dout : Fields}

theorem leaves_checked_data (S : Setup P pb.ir pb.arch fi fa inW) (hs : DataConsProblem pb k0 instT iin iout din dout)
    (hl : ∀ r p c ms n, RHas instT r → isValidAV P.asm (mkAV instT (rawCode instT r)) = .ok true → (p, Ty.enum c ms, n) ∈ rawLeaves instT r →
      isValidAV P.asm (mkAV (.enum c ms) n) = .ok true) : LeavesChecked P pb :=
  leaves_checked_cons (pb := { pb with cons := [] }) S
    ⟨hs.ir_in, hs.ir_out, hs.arch_in, hs.arch_out, hs.iin_flat, hs.iout_flat, hs.din_flat, hs.dout_flat, hs.ir_const, hs.arch_const, (fun p cs h => by simp at h), List.nodup_nil⟩ hl

theorem data_nodup (S : Setup P pb.ir pb.arch fi fa inW) (hs : DataConsProblem pb k0 instT iin iout din dout) : k0 ∉ din.toList.map (·.1) ∧ (din.toList.map (·.1)).Nodup := by
  obtain ⟨ca, aIn⟩ := hs.arch_in
  have hn := S.arch_in.1
  rw [aIn] at hn
  have hn' := hn.1
  simp only [Fields.toList, List.map_cons, List.nodup_cons] at hn'
  exact hn'

omit [DecidableEq B] in
theorem data_cons_leaves (hs : DataConsProblem pb k0 instT iin iout din dout) : ∀ p cs, (p, cs) ∈ pb.cons → cs ≠ [] ∧ ∃ t, (p, t) ∈ leafTypes pb.arch.inT [] := by
  intro p cs h
  obtain ⟨h1, ⟨q, t, rfl, ht⟩ | ⟨k, t, rfl, ht, _⟩⟩ := hs.cons p cs h
  · obtain ⟨ca, aIn⟩ := hs.arch_in
    refine ⟨h1, t, ?_⟩
    rw [aIn]
    simp only [leafTypes]
    rw [VF.typesF_cons]
    exact List.mem_append.mpr (.inl (List.mem_map.mpr ⟨_, ht, rfl⟩))
  · exact ⟨h1, t, data_leaf hs ht⟩

theorem data_no_enum (S : Setup P pb.ir pb.arch fi fa inW) (hs : DataConsProblem pb k0 instT iin iout din dout) :
    ∀ p c ms, IsFree pb p → (p, Ty.enum c ms) ∉ leafTypes pb.arch.inT [] := by
  intro p c ms ⟨h1, cs, h2⟩ hp
  rcases (hs.cons p cs h2).2 with ⟨q, t, rfl, _⟩ | ⟨k, t, rfl, h, hne⟩
  · exact h1 (by rw [hs.arch_const, const_iff]; exact ⟨q, rfl⟩)
  · exact hne c ms (VF.eq_of_fst (VF.types_nodup _ S.arch_in.1) (data_leaf hs h) hp)

theorem data_in_forms (S : Setup P pb.ir pb.arch fi fa inW) (hs : DataConsProblem pb k0 instT iin iout din dout) :
    ∀ r p, RHas pb.arch.inT r → IsFree pb p → p ∈ (rawLeaves pb.arch.inT r).map (·.1) := by
  intro r p hr hf
  have hn := data_nodup S hs
  obtain ⟨k, t, rfl, hk, _⟩ := (free_data hs hn.1).mp hf
  obtain ⟨ca, aIn⟩ := hs.arch_in
  rw [aIn] at hr ⊢
  match r, hr with
  | .prod (inst :: ys), hr =>
  have hr' := row_of_has hs.din_flat hn.2 hr.2
  simp only [rawLeaves, rawLeavesAll, List.map_append, List.mem_append]
  refine .inr ?_
  rw [hr', row_leaves hs.din_flat]
  exact List.mem_map.mpr ⟨_, List.mem_map.mpr ⟨_, hk, rfl⟩, rfl⟩

end InM

open Classical in
/-- C33 with constraints on data inputs and on leaves of the instruction: with a sound and complete solver the mapper returns a rule if there is one instruction, whose constrained leaves hold
allowed values, and one wiring of the other data inputs with which the architecture computes the IR instruction for every combination of allowed values of the constrained data inputs, and
`None` if there is none. The rule gives each constrained data input one allowed value; with every other one in its place it still is a correct mapping. -/
theorem C33_instruction_values {B K : Type} [DecidableEq B] (P : Process) (pb : MapPb B K) (fi fa : Fn B) (inW : K → List Nat) (k0 : Key) (instT : Ty) (iin iout din dout : Fields)
    (hs : DataConsProblem pb k0 instT iin iout din dout) (hbi : pb.ir.bbs = []) (hba : pb.arch.bbs = []) (S : Setup P pb.ir pb.arch fi fa inW) (hT : Total P pb.arch)
    (hl : ∀ r p c ms n, RHas instT r → isValidAV P.asm (mkAV instT (rawCode instT r)) = .ok true → (p, Ty.enum c ms, n) ∈ rawLeaves instT r →
      isValidAV P.asm (mkAV (.enum c ms) n) = .ok true)
    (solve : (MAsg B → Prop) → Option (MAsg B)) (hsat : ∀ φ a, solve φ = some a → φ a) (hcomp : ∀ φ a, φ a → ∃ a', solve φ = some a') (a0 : MAsg B) :
    (CanComputeValues P.asm pb fi fa k0 instT iin iout din dout → ∃ r, mapSolve P.asm pb solve a0 = .ok (some r) ∧
      (∃ r', WithValues pb r r') ∧ ∀ r', WithValues pb r r' → IsMappingC P.asm pb r' ∧ RuleCorrect pb.ir pb.arch fi fa r') ∧
    (¬ CanComputeValues P.asm pb fi fa k0 instT iin iout din dout → mapSolve P.asm pb solve a0 = .ok none) := by
  obtain ⟨ci, eIn⟩ := hs.ir_in
  obtain ⟨ca, aIn⟩ := hs.arch_in
  have key := C33_decides_values_partial P pb fi fa inW S hT (by rw [eIn]; exact InM.free_flat hs.iin_flat) hbi hba (InM.data_cons_leaves hs) hs.cons_once
    ⟨k0, instT, by simp [aIn, Ty.fieldDict, Fields.toList], by simp [hs.arch_const]⟩ (InM.leaves_checked_data S hs hl) (InM.data_no_enum S hs) solve hsat hcomp a0
  constructor
  · rintro ⟨inst, src, out, h1, h2, h3, h4⟩
    rcases key with h | ⟨_, h⟩
    · exact h
    · exact absurd (InM.rule_of_choice_values S hs h1 h2 h3 h4) h
  · intro hc
    rcases key with ⟨r, _, ⟨r', hr'⟩, h⟩ | ⟨h, _⟩
    · exact absurd (InM.choice_of_rule_values S hs hr' h) hc
    · exact h

open Classical in
/-- C55: the same with `simple_formula=True`, for IR instructions with outputs, and with black boxes on both sides. -/
theorem C55_instruction_values {B K : Type} [DecidableEq B] [DecidableEq K] (P : Process) (pb : MapPb B K) (fi fa : Fn B) (inW : K → List Nat) (k0 : Key) (instT : Ty)
    (iin iout din dout : Fields) (hs : DataConsProblem pb k0 instT iin iout din dout) (S : Setup P pb.ir pb.arch fi fa inW) (hT : Total P pb.arch) (hTb : TotalBoxes pb.arch inW)
    (hl : ∀ r p c ms n, RHas instT r → isValidAV P.asm (mkAV instT (rawCode instT r)) = .ok true → (p, Ty.enum c ms, n) ∈ rawLeaves instT r →
      isValidAV P.asm (mkAV (.enum c ms) n) = .ok true)
    (solve : (SAsg B → Prop) → Option (SAsg B)) (hsat : ∀ φ a, solve φ = some a → φ a) (hcomp : ∀ φ a, φ a → ∃ a', solve φ = some a') (a0 : SAsg B) :
    (CanComputeValues P.asm pb fi fa k0 instT iin iout din dout → ∃ r, simpleSolve P.asm pb solve a0 = .ok (some r) ∧
      (∃ r', WithValues pb r r') ∧ ∀ r', WithValues pb r r' → IsMappingC P.asm pb r' ∧ RuleCorrect pb.ir pb.arch fi fa r') ∧
    (¬ CanComputeValues P.asm pb fi fa k0 instT iin iout din dout → simpleSolve P.asm pb solve a0 = .ok none) := by
  obtain ⟨ci, eIn⟩ := hs.ir_in
  obtain ⟨co, eOut⟩ := hs.ir_out
  obtain ⟨ca, aIn⟩ := hs.arch_in
  obtain ⟨cb, aOut⟩ := hs.arch_out
  have hso : leafTypes pb.ir.outT [] ≠ [] := by
    have := S.ir_out.2.1
    rw [eOut] at this ⊢
    simp only [leafTypes, InM.flat_types hs.iout_flat]
    intro h
    exact this.1 (List.map_eq_nil_iff.mp h)
  have key := C55_decides_values_partial P pb fi fa inW S hT hTb (by rw [eIn]; exact InM.free_flat hs.iin_flat) (by rw [eOut]; exact InM.flat_prod hs.iout_flat)
    (by rw [aOut]; exact InM.flat_prod hs.dout_flat) hso (InM.data_cons_leaves hs) hs.cons_once
    ⟨k0, instT, by simp [aIn, Ty.fieldDict, Fields.toList], by simp [hs.arch_const]⟩ (by simp [hs.ir_const, IsConst])
    (InM.leaves_checked_data S hs hl) (InM.data_no_enum S hs) (InM.data_in_forms S hs) solve hsat hcomp a0
  constructor
  · rintro ⟨inst, src, out, h1, h2, h3, h4⟩
    rcases key with h | ⟨_, h⟩
    · exact h
    · exact absurd (InM.rule_of_choice_values S hs h1 h2 h3 h4) h
  · intro hc
    rcases key with ⟨r, _, ⟨r', hr'⟩, h⟩ | ⟨h, _⟩
    · exact absurd (InM.choice_of_rule_values S hs hr' h) hc
    · exact h

end Peak
