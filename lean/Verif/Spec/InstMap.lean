import Verif.Spec.IRMapper
/-!
# What an architecture with a constant instruction can compute

The usual mapping problem: the architecture has one `Const` input, its instruction, of any type, and data inputs and outputs that are bits, vectors or enums; so are the
inputs and outputs of the IR instruction.
-/

namespace Peak.Spec
open Peak

/-- Every field is a bit, a vector or an enum. -/
def FlatFields (fs : Fields) : Prop :=
  ∀ k t, (k, t) ∈ fs.toList → match t with
    | .prod _ _ => False
    | .sum _ _ => False
    | _ => True

/-- The values of flat fields, the field `k` holding the low bits of `x k`. -/
def rowOf : Fields → (Key → Nat) → List RVal
  | .nil, _ => []
  | .cons k t fs, x => .leaf (x k % 2 ^ width t) :: rowOf fs x

/-- The bits of the field `k` of a product of flat fields. -/
def fieldBits : Fields → List RVal → Key → Nat
  | .cons k' _ fs, .leaf n :: vs, k => if k = k' then n else fieldBits fs vs k
  | _, _, _ => 0

/-- The same of a product value. -/
def prodBits (fs : Fields) : RVal → Key → Nat
  | .prod vs, k => fieldBits fs vs k
  | _, _ => 0

/-- What the data inputs are given: the IR input `src k`, and where there is none anything. -/
def wired (src : Key → Option Key) (x z : Key → Nat) (k : Key) : Nat :=
  match src k with
  | some q => x q
  | none => z k

/-- With the instruction `inst` the architecture `fa` computes the IR function `fi`: the data inputs `din` are given IR inputs `iin` as `src` says, and the IR outputs `iout` are read off
the outputs `dout` as `out` says; the remaining inputs do not matter, the remaining outputs are ignored. -/
def ComputesWith {B : Type} (fi fa : Fn B) (iin iout din dout : Fields) (inst : RVal) (src out : Key → Option Key) : Prop :=
  IsAssignment din.toList iin.toList src ∧ IsAssignment dout.toList iout.toList out ∧
    ∀ x z : Key → Nat, ∀ k ∈ dout.toList.map (·.1), ∀ q, out k = some q →
      prodBits dout (fa (.prod (inst :: rowOf din (wired src x z))) []).1 k = prodBits iout (fi (.prod (rowOf iin x)) []).1 q

/-- Some instruction makes the architecture compute the IR function. -/
def CanCompute {B : Type} (fi fa : Fn B) (instT : Ty) (iin iout din dout : Fields) : Prop :=
  ∃ v src out, instT.Has v ∧ ComputesWith fi fa iin iout din dout (rawOf instT v) src out

/-- Some bits for the instruction that pass `is_valid` make the architecture compute the IR function. -/
def CanComputeRaw {B : Type} (A : Ty → Except Err AsmObj) (fi fa : Fn B) (instT : Ty) (iin iout din dout : Fields) : Prop :=
  ∃ inst src out, RHas instT inst ∧ isValidAV A (mkAV instT (rawCode instT inst)) = .ok true ∧ ComputesWith fi fa iin iout din dout inst src out

/-- The mapping problem has this form: the first input `k0` of the architecture, of type `instT`, is `Const`; the other inputs and outputs are flat; nothing else is `Const`, nothing is
constrained, and there are no black boxes. -/
structure InstProblem {B K : Type} (pb : MapPb B K) (k0 : Key) (instT : Ty) (iin iout din dout : Fields) : Prop where
  ir_in : ∃ c, pb.ir.inT = .prod c iin
  ir_out : ∃ c, pb.ir.outT = .prod c iout
  arch_in : ∃ c, pb.arch.inT = .prod c (.cons k0 instT din)
  arch_out : ∃ c, pb.arch.outT = .prod c dout
  iin_flat : FlatFields iin
  iout_flat : FlatFields iout
  din_flat : FlatFields din
  dout_flat : FlatFields dout
  ir_const : pb.irConst = []
  arch_const : pb.archConst = [[k0]]
  cons : pb.cons = []
  ir_bbs : pb.ir.bbs = []
  arch_bbs : pb.arch.bbs = []

/-- The same with black boxes. -/
structure BoxProblem {B K : Type} (pb : MapPb B K) (k0 : Key) (instT : Ty) (iin iout din dout : Fields) : Prop where
  ir_in : ∃ c, pb.ir.inT = .prod c iin
  ir_out : ∃ c, pb.ir.outT = .prod c iout
  arch_in : ∃ c, pb.arch.inT = .prod c (.cons k0 instT din)
  arch_out : ∃ c, pb.arch.outT = .prod c dout
  iin_flat : FlatFields iin
  iout_flat : FlatFields iout
  din_flat : FlatFields din
  dout_flat : FlatFields dout
  ir_const : pb.irConst = []
  arch_const : pb.archConst = [[k0]]
  cons : pb.cons = []

/-- `ComputesWith` for objects with black boxes, whatever these compute: in all runs in which every box, in the IR instruction and in the architecture, returned what `F` says for its class. -/
def ComputesWithBoxes {B K : Type} [DecidableEq B] (ir arch : PeakObj B K) (fi fa : Fn B) (iin iout din dout : Fields) (inst : RVal) (src out : Key → Option Key) : Prop :=
  IsAssignment din.toList iin.toList src ∧ IsAssignment dout.toList iout.toList out ∧
    ∀ (x z : Key → Nat) (F : K → List BV → List BV) (ρi ρa : B → Nat → Nat),
      BoxesCompute F ir.bbs (fi (.prod (rowOf iin x)) (ir.bbOuts ρi)).2 (ir.bbOuts ρi) →
      BoxesCompute F arch.bbs (fa (.prod (inst :: rowOf din (wired src x z))) (arch.bbOuts ρa)).2 (arch.bbOuts ρa) →
      ∀ k ∈ dout.toList.map (·.1), ∀ q, out k = some q →
        prodBits dout (fa (.prod (inst :: rowOf din (wired src x z))) (arch.bbOuts ρa)).1 k = prodBits iout (fi (.prod (rowOf iin x)) (ir.bbOuts ρi)).1 q

/-- Some bits for the instruction that pass `is_valid` make the architecture compute the IR function, whatever the black boxes compute. -/
def CanComputeBoxes {B K : Type} [DecidableEq B] (A : Ty → Except Err AsmObj) (ir arch : PeakObj B K) (fi fa : Fn B) (instT : Ty) (iin iout din dout : Fields) : Prop :=
  ∃ inst src out, RHas instT inst ∧ isValidAV A (mkAV instT (rawCode instT inst)) = .ok true ∧ ComputesWithBoxes ir arch fi fa iin iout din dout inst src out

/-- Some bits for the instruction, in which the enums hold codes of members (or anything, if the codes form several ranges), make the architecture compute the IR function. -/
def CanComputeAccepted {B : Type} (fi fa : Fn B) (instT : Ty) (iin iout din dout : Fields) : Prop :=
  ∃ inst src out, RHas instT inst ∧ Accepts instT (rawCode instT inst) ∧ ComputesWith fi fa iin iout din dout inst src out

/-- The same with black boxes. -/
def CanComputeAcceptedBoxes {B K : Type} [DecidableEq B] (ir arch : PeakObj B K) (fi fa : Fn B) (instT : Ty) (iin iout din dout : Fields) : Prop :=
  ∃ inst src out, RHas instT inst ∧ Accepts instT (rawCode instT inst) ∧ ComputesWithBoxes ir arch fi fa iin iout din dout inst src out

/-- The same with black boxes and with constraints on leaves of the instruction: each has some allowed value, and `path_constraints`, a dict, has one entry for a path. -/
structure ConsProblem {B K : Type} (pb : MapPb B K) (k0 : Key) (instT : Ty) (iin iout din dout : Fields) : Prop where
  ir_in : ∃ c, pb.ir.inT = .prod c iin
  ir_out : ∃ c, pb.ir.outT = .prod c iout
  arch_in : ∃ c, pb.arch.inT = .prod c (.cons k0 instT din)
  arch_out : ∃ c, pb.arch.outT = .prod c dout
  iin_flat : FlatFields iin
  iout_flat : FlatFields iout
  din_flat : FlatFields din
  dout_flat : FlatFields dout
  ir_const : pb.irConst = []
  arch_const : pb.archConst = [[k0]]
  cons : ∀ p cs, (p, cs) ∈ pb.cons → cs ≠ [] ∧ ∃ q t, p = k0 :: q ∧ (q, t) ∈ leafTypes instT []
  cons_once : (pb.cons.map (·.1)).Nodup

/-- The constrained leaves of the instruction, as far as it has them, hold allowed values. -/
def Obeys (cons : List (RPath × List Nat)) (k0 : Key) (instT : Ty) (inst : RVal) : Prop :=
  ∀ p t n, (p, t, n) ∈ rawLeaves instT inst → ∀ cs, (k0 :: p, cs) ∈ cons → ∃ c ∈ cs, n = c % 2 ^ width t

/-- Some bits for the instruction that pass `is_valid` and meet the constraints make the architecture compute the IR function, whatever the black boxes compute. -/
def CanComputeCons {B K : Type} [DecidableEq B] (A : Ty → Except Err AsmObj) (pb : MapPb B K) (fi fa : Fn B) (k0 : Key) (instT : Ty) (iin iout din dout : Fields) : Prop :=
  ∃ inst src out, RHas instT inst ∧ isValidAV A (mkAV instT (rawCode instT inst)) = .ok true ∧ Obeys pb.cons k0 instT inst ∧
    ComputesWithBoxes pb.ir pb.arch fi fa iin iout din dout inst src out

/-- The same with constraints on leaves of the instruction and on data inputs, those that are no enums. -/
structure DataConsProblem {B K : Type} (pb : MapPb B K) (k0 : Key) (instT : Ty) (iin iout din dout : Fields) : Prop where
  ir_in : ∃ c, pb.ir.inT = .prod c iin
  ir_out : ∃ c, pb.ir.outT = .prod c iout
  arch_in : ∃ c, pb.arch.inT = .prod c (.cons k0 instT din)
  arch_out : ∃ c, pb.arch.outT = .prod c dout
  iin_flat : FlatFields iin
  iout_flat : FlatFields iout
  din_flat : FlatFields din
  dout_flat : FlatFields dout
  ir_const : pb.irConst = []
  arch_const : pb.archConst = [[k0]]
  cons : ∀ p cs, (p, cs) ∈ pb.cons → cs ≠ [] ∧ ((∃ q t, p = k0 :: q ∧ (q, t) ∈ leafTypes instT []) ∨
    ∃ k t, p = [k] ∧ (k, t) ∈ din.toList ∧ ∀ c ms, t ≠ .enum c ms)
  cons_once : (pb.cons.map (·.1)).Nodup

/-- The constrained data inputs hold allowed values. -/
def AllowedData (cons : List (RPath × List Nat)) (din : Fields) (z : Key → Nat) : Prop :=
  ∀ k t, (k, t) ∈ din.toList → ∀ cs, ([k], cs) ∈ cons → ∃ c ∈ cs, z k % 2 ^ width t = c % 2 ^ width t

/-- With the instruction `inst` the architecture computes the IR function as soon as the constrained data inputs hold allowed values, whatever else is in the data inputs that are given no IR
input; constrained data inputs are not given any. -/
def ComputesForValues {B K : Type} [DecidableEq B] (cons : List (RPath × List Nat)) (ir arch : PeakObj B K) (fi fa : Fn B) (iin iout din dout : Fields) (inst : RVal)
    (src out : Key → Option Key) : Prop :=
  IsAssignment din.toList iin.toList src ∧ (∀ k ∈ din.toList.map (·.1), ∀ cs, ([k], cs) ∈ cons → src k = none) ∧ IsAssignment dout.toList iout.toList out ∧
    ∀ (x z : Key → Nat) (F : K → List BV → List BV) (ρi ρa : B → Nat → Nat), AllowedData cons din z →
      BoxesCompute F ir.bbs (fi (.prod (rowOf iin x)) (ir.bbOuts ρi)).2 (ir.bbOuts ρi) →
      BoxesCompute F arch.bbs (fa (.prod (inst :: rowOf din (wired src x z))) (arch.bbOuts ρa)).2 (arch.bbOuts ρa) →
      ∀ k ∈ dout.toList.map (·.1), ∀ q, out k = some q →
        prodBits dout (fa (.prod (inst :: rowOf din (wired src x z))) (arch.bbOuts ρa)).1 k = prodBits iout (fi (.prod (rowOf iin x)) (ir.bbOuts ρi)).1 q

/-- Some bits for the instruction that pass `is_valid` and meet the constraints make the architecture compute the IR function for all allowed values of the constrained data inputs. -/
def CanComputeValues {B K : Type} [DecidableEq B] (A : Ty → Except Err AsmObj) (pb : MapPb B K) (fi fa : Fn B) (k0 : Key) (instT : Ty) (iin iout din dout : Fields) : Prop :=
  ∃ inst src out, RHas instT inst ∧ isValidAV A (mkAV instT (rawCode instT inst)) = .ok true ∧ Obeys pb.cons k0 instT inst ∧
    ComputesForValues pb.cons pb.ir pb.arch fi fa iin iout din dout inst src out

/-- The usual problem where the IR instruction may have `Const` inputs. -/
structure ConstProblem {B K : Type} (pb : MapPb B K) (k0 : Key) (instT : Ty) (iin iout din dout : Fields) : Prop where
  ir_in : ∃ c, pb.ir.inT = .prod c iin
  ir_out : ∃ c, pb.ir.outT = .prod c iout
  arch_in : ∃ c, pb.arch.inT = .prod c (.cons k0 instT din)
  arch_out : ∃ c, pb.arch.outT = .prod c dout
  iin_flat : FlatFields iin
  iout_flat : FlatFields iout
  din_flat : FlatFields din
  dout_flat : FlatFields dout
  ir_const : ∀ c ∈ pb.irConst, ∃ q, c = [q]
  arch_const : pb.archConst = [[k0]]
  cons : ∀ p cs, (p, cs) ∈ pb.cons → cs ≠ [] ∧ ∃ q t, p = k0 :: q ∧ (q, t) ∈ leafTypes instT []
  cons_once : (pb.cons.map (·.1)).Nodup

/-- The paths of the leaves of the architecture's inputs, if the instruction is `inst`. -/
def inputPaths (k0 : Key) (instT : Ty) (din : Fields) (inst : RVal) : List RPath :=
  (rawLeaves instT inst).map (fun l => k0 :: l.1) ++ din.toList.map (fun kt => [kt.1])

/-- Each IR input is given to one leaf of the same type: those that are `Const` to a leaf of the instruction without a constraint, the others to a data input. -/
structure Feeds {B K : Type} (pb : MapPb B K) (k0 : Key) (instT : Ty) (iin din : Fields) (inst : RVal) (src : RPath → Option Key) : Prop where
  inst_leaf : ∀ p t n q, (p, t, n) ∈ rawLeaves instT inst → src (k0 :: p) = some q → (q, t) ∈ iin.toList ∧ [q] ∈ pb.irConst ∧ ∀ cs, (k0 :: p, cs) ∉ pb.cons
  data : ∀ k t q, (k, t) ∈ din.toList → src [k] = some q → (q, t) ∈ iin.toList ∧ [q] ∉ pb.irConst
  once : ∀ q t, (q, t) ∈ iin.toList → ∃ p ∈ inputPaths k0 instT din inst, src p = some q ∧ ∀ p' ∈ inputPaths k0 instT din inst, src p' = some q → p' = p

/-- `inst'` is `inst` with the IR inputs `x` in the leaves that are given one. -/
def Holds (k0 : Key) (instT : Ty) (src : RPath → Option Key) (x : Key → Nat) (inst inst' : RVal) : Prop :=
  RHas instT inst' ∧ rawLeaves instT inst' = (rawLeaves instT inst).map (fun l => (l.1, l.2.1, match src (k0 :: l.1) with
    | some q => x q % 2 ^ width l.2.1
    | none => l.2.2))

/-- With the instruction `inst`, whose leaves and the data inputs are given IR inputs as `src` says, the architecture computes the IR function. -/
def ComputesConsts {B K : Type} [DecidableEq B] (pb : MapPb B K) (fi fa : Fn B) (k0 : Key) (instT : Ty) (iin iout din dout : Fields) (inst : RVal)
    (src : RPath → Option Key) (out : Key → Option Key) : Prop :=
  Feeds pb k0 instT iin din inst src ∧ IsAssignment dout.toList iout.toList out ∧
    ∀ (x z : Key → Nat) (inst' : RVal) (F : K → List BV → List BV) (ρi ρa : B → Nat → Nat), Holds k0 instT src x inst inst' →
      BoxesCompute F pb.ir.bbs (fi (.prod (rowOf iin x)) (pb.ir.bbOuts ρi)).2 (pb.ir.bbOuts ρi) →
      BoxesCompute F pb.arch.bbs (fa (.prod (inst' :: rowOf din (wired (fun k => src [k]) x z))) (pb.arch.bbOuts ρa)).2 (pb.arch.bbOuts ρa) →
      ∀ k ∈ dout.toList.map (·.1), ∀ q, out k = some q →
        prodBits dout (fa (.prod (inst' :: rowOf din (wired (fun k => src [k]) x z))) (pb.arch.bbOuts ρa)).1 k = prodBits iout (fi (.prod (rowOf iin x)) (pb.ir.bbOuts ρi)).1 q

/-- Some instruction with places for the constants of the IR instruction makes the architecture compute it; with some constants in those places it passes `is_valid`, and its other leaves
hold allowed values. -/
def CanComputeConsts {B K : Type} [DecidableEq B] (A : Ty → Except Err AsmObj) (pb : MapPb B K) (fi fa : Fn B) (k0 : Key) (instT : Ty) (iin iout din dout : Fields) : Prop :=
  ∃ inst src out, RHas instT inst ∧ isValidAV A (mkAV instT (rawCode instT inst)) = .ok true ∧ Obeys pb.cons k0 instT inst ∧
    ComputesConsts pb fi fa k0 instT iin iout din dout inst src out

end Peak.Spec
