import Verif.Props.InstMap
import Verif.Props.Accepts
import Verif.Lemmas.AcceptsRaw
/-!
# C33, C55: which functions are found, where validators are known
-/

namespace Peak
open Peak.Spec

/-- The validator of `t` is known: it, and every assembler built before it in the process, is for a type of the kind of C05_accepts_partial. -/
def Known (P : Process) (t : Ty) : Prop := ∀ t' ∈ t :: P.hist t, WF t' ∧ Mild t'

/-- Every assembler the process built is for a type of the kind of C05_accepts_partial. -/
def MildProcess (P : Process) : Prop := ∀ t, ∀ t' ∈ P.hist t, WF t' ∧ Mild t'

theorem Trusted.known {P : Process} {t : Ty} (h : Trusted P t) : Known P t := fun t' ht => ⟨(h t' ht).1, mild_of_checkable t' (h t' ht).2⟩

theorem Known.valid_iff {P : Process} {t : Ty} (h : Known P t) (n : Nat) (hn : n < 2 ^ width t) :
    isValidAV P.asm (mkAV t n) = .ok true ↔ Accepts t n := by
  obtain ⟨o, ho, hv⟩ := C05_accepts_partial (P.hist t) t (fun t' ht => (h t' ht).1) (fun t' ht => (h t' ht).2)
  have hg := build_any (P.hist t) t (h t (by simp)).1 (build_of_after ho)
  have key : isValidAV P.asm (.adt t (BV.ofNat (width t) n)) = .ok true ↔ Accepts t n := by
    have := hv (BV.ofNat (width t) n) (by rw [BV.ofNat_size, hg.width])
    rw [BV.ofNat_val, Nat.mod_eq_of_lt hn] at this
    simp only [isValidAV, Process.asm, ho, Except.ok.injEq]
    exact this
  cases t with
  | bv c w => exact ⟨fun _ => trivial, fun _ => rfl⟩
  | bit c => exact ⟨fun _ => trivial, fun _ => rfl⟩
  | enum c ms => exact key
  | prod c fs => exact key
  | sum c fs => exact key

/-- What the instruction's validator accepts, those of its leaves accept. -/
theorem Known.leaves {P : Process} {instT : Ty} (h : Known P instT) (hl : ∀ p c ms, (p, Ty.enum c ms) ∈ leafTypes instT [] → Known P (.enum c ms)) :
    ∀ r p c ms n, RHas instT r → isValidAV P.asm (mkAV instT (rawCode instT r)) = .ok true → (p, Ty.enum c ms, n) ∈ rawLeaves instT r →
      isValidAV P.asm (mkAV (.enum c ms) n) = .ok true := by
  intro r p c ms n hr hv hm
  have hw := (h instT (by simp)).1
  rw [h.valid_iff _ (SB.code_lt _ _ hw hr), Acc.accepts_leaves _ _ hw hr] at hv
  rw [(hl p c ms (VF.mem_types hr hm)).valid_iff _ (VF.leaf_bound _ _ hr _ hm)]
  exact hv _ hm

open Classical in
/-- C33 for an architecture whose only `Const` input is its instruction, as in C33_instruction, but where its enums may have any codes, at least one not 0. With a sound and complete
solver the mapper returns a rule, which is a correct mapping, if some bits for the instruction make the architecture compute the IR instruction, where an enum whose codes form several
ranges may hold anything and others the code of a member; and `None` if there are none. It does not raise. -/
theorem C33_instruction_known {B K : Type} [DecidableEq B] (P : Process) (pb : MapPb B K) (fi fa : Fn B) (inW : K → List Nat) (k0 : Key) (instT : Ty) (iin iout din dout : Fields)
    (hs : InstProblem pb k0 instT iin iout din dout) (S : Setup P pb.ir pb.arch fi fa inW) (hT : Total P pb.arch)
    (hk : Known P instT) (hl : ∀ p c ms, (p, Ty.enum c ms) ∈ leafTypes instT [] → Known P (.enum c ms))
    (solve : (MAsg B → Prop) → Option (MAsg B)) (hsat : ∀ φ a, solve φ = some a → φ a) (hcomp : ∀ φ a, φ a → ∃ a', solve φ = some a') (a0 : MAsg B) :
    (CanComputeAccepted fi fa instT iin iout din dout → ∃ r, mapSolve P.asm pb solve a0 = .ok (some r) ∧ IsMapping P.asm pb r ∧ RuleCorrect pb.ir pb.arch fi fa r) ∧
    (¬ CanComputeAccepted fi fa instT iin iout din dout → mapSolve P.asm pb solve a0 = .ok none) := by
  have key := C33_instruction_bits P pb fi fa inW k0 instT iin iout din dout hs S hT (hk.leaves hl) solve hsat hcomp a0
  have hw := (hk instT (by simp)).1
  have e : CanComputeRaw P.asm fi fa instT iin iout din dout ↔ CanComputeAccepted fi fa instT iin iout din dout := by
    constructor
    · rintro ⟨r, s, o, hr, hv, hc⟩
      exact ⟨r, s, o, hr, (hk.valid_iff _ (SB.code_lt _ _ hw hr)).mp hv, hc⟩
    · rintro ⟨r, s, o, hr, hv, hc⟩
      exact ⟨r, s, o, hr, (hk.valid_iff _ (SB.code_lt _ _ hw hr)).mpr hv, hc⟩
  rw [e] at key
  exact key

open Classical in
/-- C55: the same with `simple_formula=True`, and with black boxes in the architecture and in the IR instruction, which may compute anything. -/
theorem C55_instruction_known {B K : Type} [DecidableEq B] [DecidableEq K] (P : Process) (pb : MapPb B K) (fi fa : Fn B) (inW : K → List Nat) (k0 : Key) (instT : Ty) (iin iout din dout : Fields)
    (hs : BoxProblem pb k0 instT iin iout din dout) (S : Setup P pb.ir pb.arch fi fa inW) (hT : Total P pb.arch) (hTb : TotalBoxes pb.arch inW)
    (hk : Known P instT) (hl : ∀ p c ms, (p, Ty.enum c ms) ∈ leafTypes instT [] → Known P (.enum c ms))
    (solve : (SAsg B → Prop) → Option (SAsg B)) (hsat : ∀ φ a, solve φ = some a → φ a) (hcomp : ∀ φ a, φ a → ∃ a', solve φ = some a') (a0 : SAsg B) :
    (CanComputeAcceptedBoxes pb.ir pb.arch fi fa instT iin iout din dout → ∃ r, simpleSolve P.asm pb solve a0 = .ok (some r) ∧ IsMapping P.asm pb r ∧ RuleCorrect pb.ir pb.arch fi fa r) ∧
    (¬ CanComputeAcceptedBoxes pb.ir pb.arch fi fa instT iin iout din dout → simpleSolve P.asm pb solve a0 = .ok none) := by
  have key := C55_instruction_boxes P pb fi fa inW k0 instT iin iout din dout hs S hT hTb (hk.leaves hl) solve hsat hcomp a0
  have hw := (hk instT (by simp)).1
  have e : CanComputeBoxes P.asm pb.ir pb.arch fi fa instT iin iout din dout ↔ CanComputeAcceptedBoxes pb.ir pb.arch fi fa instT iin iout din dout := by
    constructor
    · rintro ⟨r, s, o, hr, hv, hc⟩
      exact ⟨r, s, o, hr, (hk.valid_iff _ (SB.code_lt _ _ hw hr)).mp hv, hc⟩
    · rintro ⟨r, s, o, hr, hv, hc⟩
      exact ⟨r, s, o, hr, (hk.valid_iff _ (SB.code_lt _ _ hw hr)).mpr hv, hc⟩
  rw [e] at key
  exact key

/-- Without black boxes nothing is asked of them. -/
theorem computes_plain {B K : Type} [DecidableEq B] {ir arch : PeakObj B K} (hi : ir.bbs = []) (ha : arch.bbs = []) {fi fa : Fn B} {iin iout din dout : Fields} {inst : RVal} {src out : Key → Option Key} :
    ComputesWithBoxes ir arch fi fa iin iout din dout inst src out ↔ ComputesWith fi fa iin iout din dout inst src out := by
  have e1 : ∀ ρ, ir.bbOuts ρ = [] := by intro ρ; simp [PeakObj.bbOuts, hi]
  have e2 : ∀ ρ, arch.bbOuts ρ = [] := by intro ρ; simp [PeakObj.bbOuts, ha]
  simp only [ComputesWithBoxes, ComputesWith, e1, e2, hi, ha]
  constructor
  · rintro ⟨a, b, h⟩
    exact ⟨a, b, fun x z => h x z (fun _ _ => []) (fun _ _ => 0) (fun _ _ => 0) (by simp [BoxesCompute]) (by simp [BoxesCompute])⟩
  · rintro ⟨a, b, h⟩
    exact ⟨a, b, fun x z _ _ _ _ _ => h x z⟩

open Classical in
/-- C55: the same without black boxes. -/
theorem C55_instruction_known_plain {B K : Type} [DecidableEq B] [DecidableEq K] (P : Process) (pb : MapPb B K) (fi fa : Fn B) (inW : K → List Nat) (k0 : Key) (instT : Ty) (iin iout din dout : Fields)
    (hs : InstProblem pb k0 instT iin iout din dout) (S : Setup P pb.ir pb.arch fi fa inW) (hT : Total P pb.arch) (hTb : TotalBoxes pb.arch inW)
    (hk : Known P instT) (hl : ∀ p c ms, (p, Ty.enum c ms) ∈ leafTypes instT [] → Known P (.enum c ms))
    (solve : (SAsg B → Prop) → Option (SAsg B)) (hsat : ∀ φ a, solve φ = some a → φ a) (hcomp : ∀ φ a, φ a → ∃ a', solve φ = some a') (a0 : SAsg B) :
    (CanComputeAccepted fi fa instT iin iout din dout → ∃ r, simpleSolve P.asm pb solve a0 = .ok (some r) ∧ IsMapping P.asm pb r ∧ RuleCorrect pb.ir pb.arch fi fa r) ∧
    (¬ CanComputeAccepted fi fa instT iin iout din dout → simpleSolve P.asm pb solve a0 = .ok none) := by
  have key := C55_instruction_known P pb fi fa inW k0 instT iin iout din dout
    ⟨hs.ir_in, hs.ir_out, hs.arch_in, hs.arch_out, hs.iin_flat, hs.iout_flat, hs.din_flat, hs.dout_flat, hs.ir_const, hs.arch_const, hs.cons⟩ S hT hTb hk hl solve hsat hcomp a0
  simp only [CanComputeAcceptedBoxes, computes_plain hs.ir_bbs hs.arch_bbs] at key
  exact key

end Peak
