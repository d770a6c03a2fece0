import Verif.Lemmas.InstMapK
import Verif.Props.InstMap
/-!
# C33, C55: IR instructions with `Const` inputs: exactly which functions are mapped
-/

namespace Peak
open Peak.Spec

namespace InM
variable {B K : Type} [DecidableEq B] {P : Process} {pb : MapPb B K} {fi fa : Fn B} {inW : K → List Nat} {k0 : Key} {instT : Ty} {iin iout din dout : Fields}

omit [DecidableEq B] in
theorem no_ir_const (hs : ConstProblem pb k0 instT iin iout din dout) : ConsProblem { pb with irConst := [] } k0 instT iin iout din dout :=
  ⟨hs.ir_in, hs.ir_out, hs.arch_in, hs.arch_out, hs.iin_flat, hs.iout_flat, hs.din_flat, hs.dout_flat, rfl, hs.arch_const, hs.cons, hs.cons_once⟩

theorem leaves_checked_consts (S : Setup P pb.ir pb.arch fi fa inW) (hs : ConstProblem pb k0 instT iin iout din dout)
    (hl : ∀ r p c ms n, RHas instT r → isValidAV P.asm (mkAV instT (rawCode instT r)) = .ok true → (p, Ty.enum c ms, n) ∈ rawLeaves instT r →
      isValidAV P.asm (mkAV (.enum c ms) n) = .ok true) : LeavesChecked P pb :=
  leaves_checked_cons (pb := { pb with irConst := [] }) S (no_ir_const hs) hl

theorem const_cons_leaves (hs : ConstProblem pb k0 instT iin iout din dout) :
    ∀ p cs, (p, cs) ∈ pb.cons → IsConst pb.archConst p ∧ cs ≠ [] ∧ ∃ t, (p, t) ∈ leafTypes pb.arch.inT [] :=
  cons_leaves (pb := { pb with irConst := [] }) (no_ir_const hs)

/-- If no instruction has two leaves of the type of a `Const` IR input, a leaf that one candidate binds is bound by all candidates. -/
theorem no_overlap (S : Setup P pb.ir pb.arch fi fa inW) (hs : ConstProblem pb k0 instT iin iout din dout)
    (honly : ∀ q t, (q, t) ∈ iin.toList → [q] ∈ pb.irConst → ∀ r p p' n n', RHas instT r → (p, t, n) ∈ rawLeaves instT r → (p', t, n') ∈ rawLeaves instT r → p = p') :
    ∀ bs, mapBindings P.asm pb true = .ok (some bs) → ∀ l ∈ bs.ins, ∀ b ∈ l, ∀ l' ∈ bs.ins, ∀ b' ∈ l', ∀ q p, IsConst pb.archConst p → (some q, p) ∈ b → (none, p) ∉ b' := by
  intro bs hbs l hl b hb l' hl' b' hb' q p hp hm hm'
  obtain ⟨ci, eIn⟩ := hs.ir_in
  obtain ⟨ca, aIn⟩ := hs.arch_in
  have hB := (IM.bindings_inv' S.ir_in S.arch_in hbs).1
  rw [hB.ins] at hl hl'
  obtain ⟨s, hs1, rfl⟩ := List.mem_map.mp hl
  obtain ⟨s', hs2, rfl⟩ := List.mem_map.mp hl'
  have h1 := IM.formB_ok S.ir_in.1 S.arch_in.1 (IM.skels_mem_has (P := P) S.arch_in.1 S.arch_in.2 hs1) hb
  have hr' := IM.skels_mem_has (P := P) S.arch_in.1 S.arch_in.2 hs2
  have h2 := IM.formB_ok S.ir_in.1 S.arch_in.1 hr' hb'
  obtain ⟨_, c1, t, ht1, ht2⟩ := h1.typed q p hm
  rw [IM.constAt_iff.mpr hp] at c1
  -- the other candidate binds `q` too
  have hq : q ∈ b'.filterMap (·.1) := h2.once.symm.subset (List.mem_map.mpr ⟨_, ht1, rfl⟩)
  obtain ⟨⟨x, p'⟩, hm2, hx⟩ := List.mem_filterMap.mp hq
  simp only at hx
  subst hx
  obtain ⟨_, c2, t', ht3, ht4⟩ := h2.typed q p' hm2
  rw [c1] at c2
  have hp' : IsConst pb.archConst p' := IM.constAt_iff.mp c2.symm
  have : t' = t := VF.eq_of_fst (VF.types_nodup _ S.ir_in.1) ht3 ht1
  subst this
  rw [eIn] at ht1
  simp only [leafTypes, flat_types hs.iin_flat, List.mem_map, Prod.mk.injEq] at ht1
  obtain ⟨⟨k, t⟩, hk, rfl, rfl⟩ := ht1
  have hic := (ir_const_iff hs).mp (IM.constAt_iff.mp c1)
  -- both are leaves of the instruction
  have hleaf : ∀ x ∈ b', IsConst pb.archConst x.2 → (x.2, t) ∈ leafTypes pb.arch.inT [] → ∃ ins y n, RHas instT ins ∧ s' = .prod (ins :: y) ∧ ∃ p0, x.2 = k0 :: p0 ∧ (p0, t, n) ∈ rawLeaves instT ins := by
    intro x hx hxc hxt
    obtain ⟨⟨p1, t1, n1⟩, hl, e⟩ := List.mem_map.mp (h2.paths.subset (List.mem_map_of_mem (f := (·.2)) hx))
    simp only at e
    rw [← e] at hxc hxt ⊢
    have : t1 = t := VF.eq_of_fst (VF.types_nodup _ S.arch_in.1) (VF.mem_types hr' hl) hxt
    subst this
    rw [hs.arch_const, const_iff] at hxc
    obtain ⟨p0, rfl⟩ := hxc
    have har := hr'
    rw [aIn] at har hl
    match s', har, hl with
    | .prod (ins :: ys), har, hl =>
    simp only [rawLeaves, rawLeavesAll, List.mem_append, List.mem_map] at hl
    rcases hl with ⟨⟨l1, l2, l3⟩, hl1, hl2⟩ | hl
    · simp only [Prod.mk.injEq, List.cons.injEq, true_and] at hl2
      obtain ⟨rfl, rfl, rfl⟩ := hl2
      exact ⟨ins, ys, l3, har.1, rfl, l1, rfl, hl1⟩
    · exfalso
      have hn := S.arch_in.1
      rw [aIn] at hn
      have hn' := hn.1
      simp only [Fields.toList, List.map_cons, List.nodup_cons] at hn'
      have hr := row_of_has hs.din_flat hn'.2 har.2
      rw [hr, row_leaves hs.din_flat] at hl
      obtain ⟨kt, g1, g2⟩ := List.mem_map.mp hl
      simp only [Prod.mk.injEq, List.cons.injEq] at g2
      exact hn'.1 (List.mem_map.mpr ⟨kt, g1, g2.1.1⟩)
  obtain ⟨i1, y1, n1, g1, e1, p1, e2, g2⟩ := hleaf _ hm2 hp' ht4
  obtain ⟨i2, y2, n2, g3, e3, p2, e4, g4⟩ := hleaf _ hm' hp ht2
  rw [e1] at e3
  cases e3
  have := honly k t hk hic _ _ _ _ _ g1 g2 g4
  subst this
  simp only at e2 e4
  have hnd := h2.paths.nodup_iff.mpr (VF.leaves_nodup S.arch_in.1 hr')
  have := List.inj_on_of_nodup_map hnd hm2 hm' (by simp only [e2, e4])
  cases this

end InM

open Classical in
/-- C33 for IR instructions with `Const` inputs: with a sound and complete solver the mapper returns a rule, which is a correct mapping, if there are an instruction, a place in it for each
`Const` IR input and a data input for each other IR input, all of the same type and without a constraint, such that for all inputs the architecture computes the IR instruction; the other
leaves of the instruction are fixed and hold allowed values, and with some constants in their places the instruction passes the validator. It returns `None` if there are none, and does not
raise. -/
theorem C33_instruction_consts {B K : Type} [DecidableEq B] (P : Process) (pb : MapPb B K) (fi fa : Fn B) (inW : K → List Nat) (k0 : Key) (instT : Ty) (iin iout din dout : Fields)
    (hs : ConstProblem pb k0 instT iin iout din dout) (hbi : pb.ir.bbs = []) (hba : pb.arch.bbs = []) (S : Setup P pb.ir pb.arch fi fa inW) (hT : Total P pb.arch)
    (hl : ∀ r p c ms n, RHas instT r → isValidAV P.asm (mkAV instT (rawCode instT r)) = .ok true → (p, Ty.enum c ms, n) ∈ rawLeaves instT r →
      isValidAV P.asm (mkAV (.enum c ms) n) = .ok true)
    (solve : (MAsg B → Prop) → Option (MAsg B)) (hsat : ∀ φ a, solve φ = some a → φ a) (hcomp : ∀ φ a, φ a → ∃ a', solve φ = some a') (a0 : MAsg B) :
    (CanComputeConsts P.asm pb fi fa k0 instT iin iout din dout → ∃ r, mapSolve P.asm pb solve a0 = .ok (some r) ∧ IsMapping P.asm pb r ∧ RuleCorrect pb.ir pb.arch fi fa r) ∧
    (¬ CanComputeConsts P.asm pb fi fa k0 instT iin iout din dout → mapSolve P.asm pb solve a0 = .ok none) := by
  obtain ⟨ci, eIn⟩ := hs.ir_in
  obtain ⟨ca, aIn⟩ := hs.arch_in
  have key := C33_decides_checked_partial P pb fi fa inW S hT (by rw [eIn]; exact InM.free_flat hs.iin_flat) hbi hba (InM.const_cons_leaves hs) hs.cons_once
    ⟨k0, instT, by simp [aIn, Ty.fieldDict, Fields.toList], by simp [hs.arch_const]⟩ (InM.leaves_checked_consts S hs hl) solve hsat hcomp a0
  rw [InM.mapping_iff_consts S hs] at key
  constructor
  · intro hc
    rcases key with h | ⟨_, h⟩
    · exact h
    · exact absurd hc h
  · intro hc
    rcases key with ⟨r, _, hM, hC⟩ | ⟨h, _⟩
    · exact absurd ((InM.mapping_iff_consts S hs).mp ⟨r, hM, hC⟩) hc
    · exact h

open Classical in
/-- C55: the same with `simple_formula=True`, with black boxes on both sides, if the `Const` IR inputs are not enums, no instruction has two leaves of the type of one of them, and the
validator of the instruction does not look at the constants. -/
theorem C55_instruction_consts {B K : Type} [DecidableEq B] [DecidableEq K] (P : Process) (pb : MapPb B K) (fi fa : Fn B) (inW : K → List Nat) (k0 : Key) (instT : Ty)
    (iin iout din dout : Fields) (hs : ConstProblem pb k0 instT iin iout din dout) (S : Setup P pb.ir pb.arch fi fa inW) (hT : Total P pb.arch) (hTb : TotalBoxes pb.arch inW)
    (hl : ∀ r p c ms n, RHas instT r → isValidAV P.asm (mkAV instT (rawCode instT r)) = .ok true → (p, Ty.enum c ms, n) ∈ rawLeaves instT r →
      isValidAV P.asm (mkAV (.enum c ms) n) = .ok true)
    (hne : ∀ q c ms, [q] ∈ pb.irConst → (q, Ty.enum c ms) ∉ iin.toList)
    (honly : ∀ q t, (q, t) ∈ iin.toList → [q] ∈ pb.irConst → ∀ r p p' n n', RHas instT r → (p, t, n) ∈ rawLeaves instT r → (p', t, n') ∈ rawLeaves instT r → p = p')
    (hv : ∀ inst inst' src x, RHas instT inst → isValidAV P.asm (mkAV instT (rawCode instT inst)) = .ok true → Feeds pb k0 instT iin din inst src → Holds k0 instT src x inst inst' →
      isValidAV P.asm (mkAV instT (rawCode instT inst')) = .ok true)
    (solve : (SAsg B → Prop) → Option (SAsg B)) (hsat : ∀ φ a, solve φ = some a → φ a) (hcomp : ∀ φ a, φ a → ∃ a', solve φ = some a') (a0 : SAsg B) :
    (CanComputeConsts P.asm pb fi fa k0 instT iin iout din dout → ∃ r, simpleSolve P.asm pb solve a0 = .ok (some r) ∧ IsMapping P.asm pb r ∧ RuleCorrect pb.ir pb.arch fi fa r) ∧
    (¬ CanComputeConsts P.asm pb fi fa k0 instT iin iout din dout → simpleSolve P.asm pb solve a0 = .ok none) := by
  obtain ⟨ci, eIn⟩ := hs.ir_in
  obtain ⟨co, eOut⟩ := hs.ir_out
  obtain ⟨ca, aIn⟩ := hs.arch_in
  obtain ⟨cb, aOut⟩ := hs.arch_out
  have hso : leafTypes pb.ir.outT [] ≠ [] := by
    have := S.ir_out.2.1
    rw [eOut] at this ⊢
    simp only [leafTypes, InM.flat_types hs.iout_flat]
    intro h
    exact this.1 (List.map_eq_nil_iff.mp h)
  have hcl := InM.const_cons_leaves hs
  have hu : UnionFree pb.ir.inT := by rw [eIn]; exact InM.free_flat hs.iin_flat
  have fli : Flat pb.ir.outT := by rw [eOut]; exact InM.flat_prod hs.iout_flat
  have fla : Flat pb.arch.outT := by rw [aOut]; exact InM.flat_prod hs.dout_flat
  have hk : ∃ k t, (k, t) ∈ pb.arch.inT.fieldDict ∧ [k] ∈ pb.archConst := ⟨k0, instT, by simp [aIn, Ty.fieldDict, Fields.toList], by simp [hs.arch_const]⟩
  have hsound := fun r h => C55_sound_no_overlap_partial P pb fi fa inW (VF.setup0 S) (fun p cs h => (hcl p cs h).1) (InM.no_overlap S hs honly) solve hsat a0 r h
  have key := SFm.solve_any P pb fi fa inW S hT hTb hu fli fla hso hcl hk solve hsat a0
  have hno : ¬ ∃ p c ms, (p, Ty.enum c ms) ∈ leafTypes pb.arch.inT [] ∧ IsConst pb.archConst p ∧
      ((∃ q, IsConst pb.irConst q ∧ (q, Ty.enum c ms) ∈ leafTypes pb.ir.inT []) ∨
        ∃ vs n, RHas pb.arch.inT (.prod vs) ∧ ConstsValid P.asm pb.arch.inT pb.archConst vs ∧ (p, Ty.enum c ms, n) ∈ rawLeaves pb.arch.inT (.prod vs) ∧
          isValidAV P.asm (mkAV (.enum c ms) n) = .ok false) := by
    rintro ⟨p, c, ms, _, h2, ⟨q, h3, h4⟩ | ⟨vs, n, h3, h4, h5, h6⟩⟩
    · rw [eIn] at h4
      simp only [leafTypes, InM.flat_types hs.iin_flat, List.mem_map, Prod.mk.injEq] at h4
      obtain ⟨⟨k, t⟩, hk, rfl, rfl⟩ := h4
      exact hne k c ms ((InM.ir_const_iff hs).mp h3) hk
    · rw [InM.leaves_checked_consts S hs hl vs p c ms n h3 h4 h5 h2] at h6
      cases h6
  constructor
  · rintro ⟨inst, src, out, h1, h2, h3, h4⟩
    obtain ⟨hM, hC, hV⟩ := InM.rule_of_choice_consts S hs h1 h2 h3 h4
    rcases C55_complete_partial P pb fi fa inW S hT hTb hu fli fla hso hcl hs.cons_once hk solve hsat hcomp a0 _ hM hC
      (fun ri vs hR => hV ri vs hR (fun x inst' hh => hv inst inst' src x h1 h2 h4.1 hh)) with ⟨r, h⟩ | ⟨h, _⟩
    · exact ⟨r, h, hsound r h⟩
    · rcases key with ⟨r, h'⟩ | ⟨h', _⟩ | ⟨_, h'⟩
      · exact ⟨r, h', hsound r h'⟩
      · rw [h] at h'; cases h'
      · exact absurd h' hno
  · intro hc
    rcases key with ⟨r, h⟩ | ⟨h, _⟩ | ⟨_, h⟩
    · exact absurd ((InM.mapping_iff_consts S hs).mp ⟨r, hsound r h⟩) hc
    · exact h
    · exact absurd h hno

end Peak
