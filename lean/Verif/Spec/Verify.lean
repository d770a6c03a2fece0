import Verif.Model.Verify
import Verif.Spec.Raw
import Verif.Spec.Forms
import Verif.Spec.ValueForms
import Verif.Props.AssembledADT
/-!
# What a rewrite rule means

Inputs and outputs are raw values (Spec/Raw): enum leaves may hold any bits, as the solver's variables do.
-/

namespace Peak.Spec
open Peak

/-- Two leaf types whose values can be compared: two bits, or two vectors (or enums) of one width. -/
def SameKind : Ty → Ty → Prop
  | .bit _, .bit _ => True
  | .bit _, _ => False
  | _, .bit _ => False
  | t, u => width t = width u

/-- The constant `c` is the number `n` in a leaf of type `t`. -/
def ConstIs (c : RConst) (t : Ty) (n : Nat) : Prop :=
  match c with
  | .bits b => (∀ x, t ≠ .bit x) ∧ b.size = width t ∧ b.val = n
  | .bit b => (∃ x, t = .bit x) ∧ b.toNat = n

/-- The IR paths a rule reads. -/
def irSources (ib : List (RSrc × RPath)) : List RPath :=
  ib.filterMap (fun e => match e.1 with | .path q => some q | _ => none)

/-- What an entry of the input binding says about the IR input `ri` and the architecture input `ra`. -/
def EntryHolds (irT archT : Ty) (ri ra : RVal) (e : RSrc × RPath) : Prop :=
  ∃ t n, (e.2, t, n) ∈ rawLeaves archT ra ∧
    match e.1 with
    | .path q => ∃ u, (q, u, n) ∈ rawLeaves irT ri ∧ SameKind t u
    | .const c => ConstIs c t n
    | .unbound => True

/-- `ri` is an IR input and `ra` an architecture input that the input binding `ib` allows for it: the binding has one entry for every leaf of
`ra` and reads every leaf of `ri` once, bound leaves have the bits of the IR leaf, constant leaves the constant, `Unbound` leaves any bits. -/
structure Related (irT archT : Ty) (ib : List (RSrc × RPath)) (ri ra : RVal) : Prop where
  ir : RHas irT ri
  arch : RHas archT ra
  arch_paths : (ib.map (·.2)).Perm ((rawLeaves archT ra).map (·.1))
  ir_paths : (irSources ib).Perm ((rawLeaves irT ri).map (·.1))
  entries : ∀ e ∈ ib, EntryHolds irT archT ri ra e

/-- The `Bit` or `BitVector` that holds `n` in a leaf of type `t` (of the width of the type, for enums). -/
def plainAV : Ty → Nat → AV
  | .bit _, n => .bit (n.testBit 0)
  | t, n => .bits (BV.ofNat (width t) n)

/-- The bound outputs of `oi` and `oa` have the same bits. -/
def OutputsAgree (irO archO : Ty) (ob : List (Option RPath × RPath)) (oi oa : RVal) : Prop :=
  ∀ q p, (some q, p) ∈ ob → ∃ t u n, (q, t, n) ∈ rawLeaves irO oi ∧ (p, u, n) ∈ rawLeaves archO oa

/-- The keyword arguments that pass the product `r`. -/
def inputDict : Fields → List RVal → List (Key × AV)
  | .cons k t fs, v :: vs => (k, mkAV t (rawCode t v)) :: inputDict fs vs
  | _, _ => []

/-- What a peak class computes: from an input and the outputs of the black boxes inside, the output and the inputs of the black boxes. -/
abbrev Fn (B : Type) := RVal → List (B × List BV) → RVal × List (B × List BV)

/-- The values `xs` are the fields of the raw product `vs`. -/
def AreFields (P : Process) : Fields → List RVal → List AV → Prop
  | .nil, [], [] => True
  | .cons _ t fs, v :: vs, x :: xs => AV.new P.asm t (.asm x) = .ok (mkAV t (rawCode t v)) ∧ AreFields P fs vs xs
  | _, _, _ => False

/-- The object `obj` computes `f`, on product inputs and to product outputs. -/
def Computes {B K : Type} (P : Process) (obj : PeakObj B K) (f : Fn B) : Prop :=
  ∃ ci fi co fo, obj.inT = .prod ci fi ∧ obj.outT = .prod co fo ∧
    ∀ vs bb, RHas obj.inT (.prod vs) →
      ∃ ws, (f (.prod vs) bb).1 = .prod ws ∧ RHas obj.outT (.prod ws) ∧
        AreFields P fo ws (obj.run (inputDict fi vs) bb).1 ∧ (obj.run (inputDict fi vs) bb).2 = (f (.prod vs) bb).2

/-- The black boxes of `obj` behave: their paths are distinct, each gets inputs of its class's widths, and classes have inputs and outputs. -/
def BoxesOk {B K : Type} [DecidableEq B] (obj : PeakObj B K) (f : Fn B) (inW : K → List Nat) : Prop :=
  (obj.bbs.map (·.1)).Nodup ∧ (∀ k, inW k ≠ []) ∧ (∀ k, obj.bbOutW k ≠ []) ∧
    ∀ r bb, RHas obj.inT r → (f r bb).2.map (·.1) = obj.bbs.map (·.1) ∧
      ∀ b k, (b, k) ∈ obj.bbs → ∃ i, (f r bb).2.lookup b = some i ∧ i.map BV.size = inW k

/-- In a run with box inputs `ins` and box outputs `outs`, every box returned what `F` says for its class. -/
def BoxesCompute {B K : Type} [DecidableEq B] (F : K → List BV → List BV) (bbs : List (B × K)) (ins outs : List (B × List BV)) : Prop :=
  ∀ b k i o, (b, k) ∈ bbs → ins.lookup b = some i → outs.lookup b = some o → F k i = o

/-- The rule maps every input correctly, whatever the black boxes compute. -/
def RuleCorrect {B K : Type} [DecidableEq B] (ir arch : PeakObj B K) (fi fa : Fn B) (rule : RRule) : Prop :=
  ∀ ri ra, Related ir.inT arch.inT rule.ib ri ra →
    ∀ (F : K → List BV → List BV) (ρi ρa : B → Nat → Nat),
      BoxesCompute F ir.bbs (fi ri (ir.bbOuts ρi)).2 (ir.bbOuts ρi) →
      BoxesCompute F arch.bbs (fa ra (arch.bbOuts ρa)).2 (arch.bbOuts ρa) →
      OutputsAgree ir.outT arch.outT rule.ob (fi ri (ir.bbOuts ρi)).1 (fa ra (arch.bbOuts ρa)).1

/-- `a` shows that the rule is wrong: inputs that have the values `a` gives, and black boxes, for which some bound output differs. -/
def IsCounterexample {B K : Type} [DecidableEq B] (ir arch : PeakObj B K) (fi fa : Fn B) (rule : RRule) (a : VAsg B) : Prop :=
  ∃ ri ra, Related ir.inT arch.inT rule.ib ri ra ∧
    (∀ q t n, (q, t, n) ∈ rawLeaves ir.inT ri → n = a.ir q % 2 ^ width t) ∧
    (∀ p t n, (.unbound, p) ∈ rule.ib → (p, t, n) ∈ rawLeaves arch.inT ra → n = a.arch p % 2 ^ width t) ∧
    ∃ (F : K → List BV → List BV),
      BoxesCompute F ir.bbs (fi ri (ir.bbOuts a.irBB)).2 (ir.bbOuts a.irBB) ∧
      BoxesCompute F arch.bbs (fa ra (arch.bbOuts a.archBB)).2 (arch.bbOuts a.archBB) ∧
      ¬ OutputsAgree ir.outT arch.outT rule.ob (fi ri (ir.bbOuts a.irBB)).1 (fa ra (arch.bbOuts a.archBB)).1

/-- The rule is one the constructor and `build_inputs` accept: it fits some input, has bound outputs, and these are leaves of one kind. -/
structure RuleFits (irI archI irO archO : Ty) (rule : RRule) : Prop where
  input : ∃ ri ra, Related irI archI rule.ib ri ra
  some_output : ∃ q p, (some q, p) ∈ rule.ob
  outputs : ∀ q p, (some q, p) ∈ rule.ob → ∃ t u, (q, t) ∈ leafTypes irO [] ∧ (p, u) ∈ leafTypes archO [] ∧ SameKind t u

/-- The bound outputs of `oi` and `oa` have the same bits in the places of the two leaves (Spec/ValueForms), also when the leaf is in an option of a union
that the output does not hold. -/
def PlacesAgree (irO archO : Ty) (ob : List (Option RPath × RPath)) (oi oa : RVal) : Prop :=
  ∀ q p, (some q, p) ∈ ob → bitsAt irO (rawCode irO oi) q = bitsAt archO (rawCode archO oa) p

/-- The rule maps every input to an output with the same bits in the places of the bound leaves. -/
def RulePlacesCorrect {B K : Type} [DecidableEq B] (ir arch : PeakObj B K) (fi fa : Fn B) (rule : RRule) : Prop :=
  ∀ ri ra, Related ir.inT arch.inT rule.ib ri ra →
    ∀ (F : K → List BV → List BV) (ρi ρa : B → Nat → Nat),
      BoxesCompute F ir.bbs (fi ri (ir.bbOuts ρi)).2 (ir.bbOuts ρi) →
      BoxesCompute F arch.bbs (fa ra (arch.bbOuts ρa)).2 (arch.bbOuts ρa) →
      PlacesAgree ir.outT arch.outT rule.ob (fi ri (ir.bbOuts ρi)).1 (fa ra (arch.bbOuts ρa)).1

/-- `a` shows that the bits in the places of some bound output differ. -/
def IsPlacesCounterexample {B K : Type} [DecidableEq B] (ir arch : PeakObj B K) (fi fa : Fn B) (rule : RRule) (a : VAsg B) : Prop :=
  ∃ ri ra, Related ir.inT arch.inT rule.ib ri ra ∧
    (∀ q t n, (q, t, n) ∈ rawLeaves ir.inT ri → n = a.ir q % 2 ^ width t) ∧
    (∀ p t n, (.unbound, p) ∈ rule.ib → (p, t, n) ∈ rawLeaves arch.inT ra → n = a.arch p % 2 ^ width t) ∧
    ∃ (F : K → List BV → List BV),
      BoxesCompute F ir.bbs (fi ri (ir.bbOuts a.irBB)).2 (ir.bbOuts a.irBB) ∧
      BoxesCompute F arch.bbs (fa ra (arch.bbOuts a.archBB)).2 (arch.bbOuts a.archBB) ∧
      ¬ PlacesAgree ir.outT arch.outT rule.ob (fi ri (ir.bbOuts a.irBB)).1 (fa ra (arch.bbOuts a.archBB)).1

/-- What is assumed of the two functions: their inputs are products that can be put together from fields, and so are their outputs; the
black-box classes of the two are the same. -/
structure Setup0 {B K : Type} [DecidableEq B] (P : Process) (ir arch : PeakObj B K) (fi fa : Fn B) (inW : K → List Nat) : Prop where
  ir_fn : Computes P ir fi
  arch_fn : Computes P arch fa
  ir_in : WF ir.inT ∧ Buildable ir.inT
  arch_in : WF arch.inT ∧ Buildable arch.inT
  ir_out : WF ir.outT ∧ Buildable ir.outT
  arch_out : WF arch.outT ∧ Buildable arch.outT
  ir_boxes : BoxesOk ir fi inW
  arch_boxes : BoxesOk arch fa inW
  same_classes : ir.bbOutW = arch.bbOutW

/-- The same with outputs that have no unions: their inputs are products that can be put together from fields, and so are their outputs, which
have no unions; the black-box classes of the two are the same. -/
structure Setup {B K : Type} [DecidableEq B] (P : Process) (ir arch : PeakObj B K) (fi fa : Fn B) (inW : K → List Nat) : Prop where
  ir_fn : Computes P ir fi
  arch_fn : Computes P arch fa
  ir_in : WF ir.inT ∧ Buildable ir.inT
  arch_in : WF arch.inT ∧ Buildable arch.inT
  ir_out : WF ir.outT ∧ Buildable ir.outT ∧ UnionFree ir.outT
  arch_out : WF arch.outT ∧ Buildable arch.outT ∧ UnionFree arch.outT
  ir_boxes : BoxesOk ir fi inW
  arch_boxes : BoxesOk arch fa inW
  same_classes : ir.bbOutW = arch.bbOutW

end Peak.Spec
