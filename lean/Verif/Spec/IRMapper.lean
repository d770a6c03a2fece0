import Verif.Model.IRMapper
import Verif.Spec.Verify
import Verif.Props.Bindings
/-!
# What the IR mapper looks for

A mapping of an IR instruction to an architecture: a rewrite rule of the kind the mapper may return.
-/

namespace Peak.Spec
open Peak

/-- The path is at or below a path wrapped in `Const`. -/
def IsConst (cs : List RPath) (p : RPath) : Prop := ∃ c ∈ cs, c <+: p

/-- The fields of the input `vs` that are wrapped in `Const` hold valid values of their types. -/
def ConstsValid (A : Ty → Except Err AsmObj) (t : Ty) (cs : List RPath) (vs : List RVal) : Prop :=
  ∀ c fs, t = .prod c fs → ∀ k x, (k, x) ∈ inputDict fs vs → [k] ∈ cs → isValidAV A x = .ok true

/-- The rule is one the mapper may return for the problem: it fits some input whose `Const` fields are valid; every IR output is taken
from one architecture output of the same type; a leaf bound to an IR leaf has the same type, is `Const` if and only if the IR leaf is, and
is not constrained; constants are given to `Const` leaves only, and are among the values allowed there; other leaves are unbound. -/
structure IsMapping {B K : Type} (A : Ty → Except Err AsmObj) (pb : MapPb B K) (rule : RRule) : Prop where
  input : ∃ ri vs, Related pb.ir.inT pb.arch.inT rule.ib ri (.prod vs) ∧ ConstsValid A pb.arch.inT pb.archConst vs
  outs : ∃ f, Represents (leafTypes pb.arch.outT []) rule.ob f ∧ IsAssignment (leafTypes pb.arch.outT []) (leafTypes pb.ir.outT []) f
  bound : ∀ q p, (.path q, p) ∈ rule.ib → (∀ cs, (p, cs) ∉ pb.cons) ∧ (IsConst pb.irConst q ↔ IsConst pb.archConst p) ∧
    ∃ t, (q, t) ∈ leafTypes pb.ir.inT [] ∧ (p, t) ∈ leafTypes pb.arch.inT []
  const : ∀ c p, (.const c, p) ∈ rule.ib → IsConst pb.archConst p ∧
    ∀ cs, (p, cs) ∈ pb.cons → ∃ n ∈ cs, ∃ t, (p, t) ∈ leafTypes pb.arch.inT [] ∧ ConstIs c t (n % 2 ^ width t)
  unbound : ∀ p, (.unbound, p) ∈ rule.ib → ¬ IsConst pb.archConst p ∧ ∀ cs, (p, cs) ∉ pb.cons

/-- The leaf is constrained, but is not `Const`. -/
def IsFree {B K : Type} (pb : MapPb B K) (p : RPath) : Prop := ¬ IsConst pb.archConst p ∧ ∃ cs, (p, cs) ∈ pb.cons

/-- The constant is one of the values that the constraints allow for the leaf `p`. -/
def Allowed {B K : Type} (pb : MapPb B K) (p : RPath) (c : RConst) : Prop :=
  ∀ cs, (p, cs) ∈ pb.cons → ∃ n ∈ cs, ∃ t, (p, t) ∈ leafTypes pb.arch.inT [] ∧ ConstIs c t (n % 2 ^ width t)

/-- The entry `e`, with an allowed value if its leaf is constrained and not `Const`. -/
def WithValue {B K : Type} (pb : MapPb B K) (e e' : RSrc × RPath) : Prop :=
  e'.2 = e.2 ∧ (IsFree pb e.2 → ∃ c, e'.1 = .const c ∧ Allowed pb e.2 c) ∧ (¬ IsFree pb e.2 → e'.1 = e.1)

/-- `rule'` is the rule, with an allowed value for each constrained leaf that is not `Const`. -/
def WithValues {B K : Type} (pb : MapPb B K) (rule rule' : RRule) : Prop :=
  rule'.ob = rule.ob ∧ List.Forall₂ (WithValue pb) rule.ib rule'.ib

/-- As `IsMapping`, but constrained leaves that are not `Const` hold allowed values as well. -/
structure IsMappingC {B K : Type} (A : Ty → Except Err AsmObj) (pb : MapPb B K) (rule : RRule) : Prop where
  input : ∃ ri vs, Related pb.ir.inT pb.arch.inT rule.ib ri (.prod vs) ∧ ConstsValid A pb.arch.inT pb.archConst vs
  outs : ∃ f, Represents (leafTypes pb.arch.outT []) rule.ob f ∧ IsAssignment (leafTypes pb.arch.outT []) (leafTypes pb.ir.outT []) f
  bound : ∀ q p, (.path q, p) ∈ rule.ib → (∀ cs, (p, cs) ∉ pb.cons) ∧ (IsConst pb.irConst q ↔ IsConst pb.archConst p) ∧
    ∃ t, (q, t) ∈ leafTypes pb.ir.inT [] ∧ (p, t) ∈ leafTypes pb.arch.inT []
  const : ∀ c p, (.const c, p) ∈ rule.ib → (IsConst pb.archConst p ∨ ∃ cs, (p, cs) ∈ pb.cons) ∧ Allowed pb p c
  unbound : ∀ p, (.unbound, p) ∈ rule.ib → ¬ IsConst pb.archConst p ∧ ∀ cs, (p, cs) ∉ pb.cons

/-- Keyword arguments of the types of the fields, holding any bits (also bits that are no value, such as an unused tag of a union). -/
def IsArgs : Fields → List (Key × AV) → Prop
  | .nil, [] => True
  | .cons k t fs, (k', x) :: d => k' = k ∧ (∃ n, n < 2 ^ width t ∧ x = mkAV t n) ∧ IsArgs fs d
  | _, _ => False

/-- The object returns outputs of its output type on arguments holding any bits. -/
def Total {B K : Type} (P : Process) (obj : PeakObj B K) : Prop :=
  ∃ ci fi co fo, obj.inT = .prod ci fi ∧ obj.outT = .prod co fo ∧
    ∀ d bb, IsArgs fi d → ∃ ws, RHas obj.outT (.prod ws) ∧ AreFields P fo ws (obj.run d bb).1

end Peak.Spec
