import Verif.Model.Verify
import Verif.Model.IndexVar
/-!
# `peak/mapper/mapper.py:112-212, 464-552, 727-856`: `SMTMapper`, `ArchMapper`, `IRMapper` (default formula) and `solve`

Terms are modelled by their values under an assignment of all the variables, as in `Model/SmtForms`; substituting a variable in a
term is evaluating the term under a changed assignment.  Building the terms raises or not independently of the assignment.
-/

namespace Peak

/-- An assignment of the variables of a mapping problem: the three index variables (`fi`, `bi`, `bo`), the leaf and tag variables of the IR
and of the architecture input, and the black-box outputs (mapper.py:112-178, 542-546). -/
structure MAsg (B : Type) where
  fi : Nat
  ib : Nat
  ob : Nat
  ir : RPath → Nat
  irTag : RPath → Nat
  arch : RPath → Nat
  archTag : RPath → Nat
  irBB : B → Nat → Nat
  archBB : B → Nat → Nat

/-- The arguments of `ArchMapper(arch_fc, path_constraints, IVar).process_ir_instruction(ir_fc)`.  `irConst`, `archConst` are the paths of the input types that
are wrapped in `Const`; output types have no modifiers.  `cons` is `path_constraints`, with the bits of each allowed value (mapper.py:180-206). -/
structure MapPb (B K : Type) where
  ir : PeakObj B K
  arch : PeakObj B K
  irConst : List RPath
  archConst : List RPath
  cons : List (RPath × List Nat)
  enc : IEnc

/-- A leaf is `Const` when it is below (or at) a path wrapped in `Const`: `_create_path_to_adt` hands the modifiers down (mapper.py:75-86). -/
def constAt (cs : List RPath) (p : RPath) : Bool := cs.any (fun c => c.isPrefixOf p)

/-- `path_to_adt(input=True)` (mapper.py:173-179): the leaves with their types, modifiers included. -/
def typedLeaves (cs : List RPath) (t : Ty) : List (RPath × (Bool × Ty)) := (leafTypes t []).map (fun l => (l.1, (constAt cs l.1, l.2)))

/-- `is_valid` (mapper.py:208-212). -/
def isValidAV (A : Ty → Except Err AsmObj) : AV → Except Err Bool
  | .adt t b =>
    match A t with
    | .error e => .error e
    | .ok o => .ok (o.isValid b)
  | _ => .ok true

/-- `is_valid(inputs[field])` (mapper.py:147, 208-212). -/
def validField (A : Ty → Except Err AsmObj) (d : List (Key × AV)) (k : Key) : Except Err Bool :=
  match d.lookup k with
  | none => .error .keyError
  | some x => isValidAV A x

/-- What the loop of `SMTMapper.__init__` computes for one input form: `const_valid_conditions`, the leaves of the first output form, and the number of
output forms (mapper.py:145-155). -/
structure MRow where
  valid : List Bool
  outs : List (RPath × AV)
  nOut : Nat

/-- One iteration (mapper.py:145-157).  `const_fields` are the fields wrapped in `Const` (143). -/
def mapRow {B K : Type} (A : Ty → Except Err AsmObj) (obj : PeakObj B K) (cs : List RPath) (bb : List (B × List BV)) (f : SForm) :
    Except Err MRow :=
  match productToDict A obj.inT f.value with
  | .error e => .error e
  | .ok d =>
    match exMap (validField A d) ((obj.inT.fieldDict.map (·.1)).filter (fun k => cs.contains [k])) with
    | .error e => .error e
    | .ok valid =>
      match parseForms A obj.tagged obj.outT (obj.run d bb).1 with
      | .error e => .error e
      | .ok r => .ok ⟨valid, leafValues obj.outT ((r.forms.head?.map (·.leaves)).getD []), r.forms.length⟩

/-- What `SMTMapper.__init__` computes: the input forms, the rows and the number of output forms (mapper.py:112-178). -/
structure SMap where
  res : FormsRes
  rows : List MRow
  nOut : Nat

/-- `SMTMapper.__init__` (mapper.py:113-171), under an assignment.  `nOut` is `num_output_forms`. -/
def smtMapper {B K : Type} (A : Ty → Except Err AsmObj) (obj : PeakObj B K) (cs : List RPath) (ρ τ : RPath → Nat) (β : B → Nat → Nat) :
    Except Err SMap :=
  match smtForms A ρ τ obj.inT [] with
  | .error e => .error e
  | .ok res =>
    match exMap (mapRow A obj cs (obj.bbOuts β)) res.forms with
    | .error e => .error e
    | .ok rows =>
      match rows with
      | [] => .error .indexError                                                             -- 159
      | row :: _ => if rows.all (fun r => r.nOut == row.nOut) then .ok ⟨res, rows, row.nOut⟩ else .error .assertionError   -- 162

/-- A binding: pairs of an IR path (`none`: Unbound) and an architecture path (utils.py:384-422). -/
abbrev Bdg := List (Option RPath × RPath)

/-- `input_bindings` (per form) and `output_bindings` (mapper.py:480-522). -/
structure Bdgs where
  ins : List (List Bdg)
  outs : List Bdg

/-- `constraint_filter` (mapper.py:486-490). -/
def constraintFilter (cons : List (RPath × List Nat)) (b : Bdg) : Bool :=
  b.all (fun e => !((cons.map (·.1)).contains e.2 && e.1.isSome))

/-- The bindings of one form (mapper.py:495-500). -/
def formBindings {B K : Type} (pb : MapPb B K) (f : SForm) : Except Err (List Bdg) :=
  let archLeaves := typedLeaves pb.archConst pb.arch.inT
  let form := f.leaves.map (·.1)
  if form.all (fun p => (archLeaves.map (·.1)).contains p) then
    .ok ((createBindings (archLeaves.filter (fun l => form.contains l.1)) (typedLeaves pb.irConst pb.ir.inT)).filter (constraintFilter pb.cons))
  else .error .assertionError

/-- The checks of `ArchMapper.__init__` (187-200) and `IRMapper.__init__` before the formula (mapper.py:464-528), and the bindings; `none` is an
early out.  The shapes of the forms are those under any assignment.  `simple` is `simple_formula`, without which black boxes are refused. -/
def mapBindings {B K : Type} (A : Ty → Except Err AsmObj) (pb : MapPb B K) (simple : Bool := false) : Except Err (Option Bdgs) :=
  match smtMapper A pb.arch pb.archConst (fun _ => 0) (fun _ => 0) (fun _ _ => 0) with
  | .error e => .error e
  | .ok am =>
    if am.nOut > 1 then .error .notImplementedError                                          -- 185-186
    else if pb.cons.all (fun c => ((leafTypes pb.arch.inT []).map (·.1)).contains c.1) then
      match smtMapper A pb.ir pb.irConst (fun _ => 0) (fun _ => 0) (fun _ _ => 0) with
      | .error e => .error e
      | .ok im =>
        if im.res.forms.length > 1 then .error .notImplementedError
        else if im.nOut > 1 then .error .notImplementedError
        else if simple = false ∧ (pb.ir.bbs ≠ [] ∨ pb.arch.bbs ≠ []) then .error .valueError
        else if samePaths ((leafTypes pb.ir.inT []).map (·.1)) (im.res.varmap.leaves.map (·.1)) then
          match exMap (formBindings pb) am.res.forms with
          | .error e => .error e
          | .ok ins =>
            if ins.all (fun bs => bs.isEmpty) then .ok none
            else
              let outs := createBindings (leafTypes pb.arch.outT []) (leafTypes pb.ir.outT [])
              if outs.isEmpty then .ok none
              else if am.rows.all (fun r => !r.valid.isEmpty) then .ok (some ⟨ins, outs⟩)
              else .error .assertionError
        else .error .assertionError
    else .error .valueError

/-- `max(len(bindings) for bindings in input_bindings)` (mapper.py:542). -/
def Bdgs.maxIns (bs : Bdgs) : Nat := bs.ins.foldr (fun l m => max l.length m) 0

/-- An index variable of `n` entries under an assignment (mapper.py:162-163, 542-546). -/
def ivar (e : IEnc) (n v : Nat) : BV := BV.ofNat (e.varLen n) v

/-- The assignment that `submap` makes of `a` (mapper.py:735-754): each bound architecture variable has the value of its IR variable. -/
def substArch {B : Type} (b : Bdg) (a : MAsg B) : MAsg B :=
  { a with arch := fun p =>
      match b.find? (fun e => e.2 == p) with
      | some (some q, _) => a.ir q
      | _ => a.arch p }

/-- One of the conjunctions of the formula (mapper.py:755-765, with the form conditions of 529-539). -/
def mapConj {B K : Type} (A : Ty → Except Err AsmObj) (pb : MapPb B K) (bs : Bdgs) (a : MAsg B) (t : Nat × Nat × Nat × Bdg × Bdg) :
    Except Err Bool :=
  match t with
  | (fi, bi, bo, ib, ob) =>
    match smtMapper A pb.arch pb.archConst a.arch a.archTag a.archBB,
      smtMapper A pb.arch pb.archConst (substArch ib a).arch (substArch ib a).archTag (substArch ib a).archBB,
      smtMapper A pb.ir pb.irConst a.ir a.irTag a.irBB with
    | .ok am, .ok am', .ok im =>
      match am.res.forms[fi]?, am.rows[fi]?, am'.rows[fi]?, im.rows[0]? with
      | some f, some row, some row', some irow =>
        match pb.enc.matchIndex am.res.forms.length (ivar pb.enc am.res.forms.length a.fi) fi,
          pb.enc.matchIndex bs.maxIns (ivar pb.enc bs.maxIns a.ib) bi,
          pb.enc.matchIndex bs.outs.length (ivar pb.enc bs.outs.length a.ob) bo,
          outputEqs irow.outs row'.outs ob with
        | .ok m1, .ok m2, .ok m3, .ok eqs => .ok (m1 && row.valid.all id && formMatches am.res.varmap f && m2 && m3 && eqs.all id)
        | .error e, _, _, _ => .error e
        | _, .error e, _, _ => .error e
        | _, _, .error e, _ => .error e
        | _, _, _, .error e => .error e
      | _, _, _, _ => .error .indexError
    | .error e, _, _ => .error e
    | _, .error e, _ => .error e
    | _, _, .error e => .error e

/-- The nested loops of mapper.py:731-765. -/
def mapTriples (bs : Bdgs) : List (Nat × Nat × Nat × Bdg × Bdg) :=
  bs.ins.zipIdx.flatMap (fun l => l.1.zipIdx.flatMap (fun b => bs.outs.zipIdx.map (fun o => (l.2, b.2, o.2, b.1, o.1))))

/-- `or_reduce`, `and_reduce` of values: a `reduce` of nothing is a TypeError (formula_constructor.py:4-5, mapper.py:773). -/
def orReduce (l : List Bool) : Except Err Bool := if l = [] then .error .typeError else .ok (l.any id)
/-- `and_reduce` of values (formula_constructor.py:5, mapper.py:773). -/
def andReduce (l : List Bool) : Except Err Bool := if l = [] then .error .typeError else .ok (l.all id)

/-- The formula before the constraints (mapper.py:773). -/
def mapFormula0 {B K : Type} (A : Ty → Except Err AsmObj) (pb : MapPb B K) (bs : Bdgs) (a : MAsg B) : Except Err Bool :=
  match exMap (mapConj A pb bs a) (mapTriples bs) with
  | .error e => .error e
  | .ok l => orReduce l

/-- Substituting one architecture variable (mapper.py:786). -/
def setArch {B : Type} (a : MAsg B) (p : RPath) (n : Nat) : MAsg B := { a with arch := fun q => if q = p then n else a.arch q }

/-- The loop over the constraints of paths that are not `Const` (mapper.py:781-786). -/
def forallCons {B : Type} (isConst : RPath → Bool) : List (RPath × List Nat) → (MAsg B → Except Err Bool) → MAsg B → Except Err Bool
  | [], F => F
  | (p, cs) :: rest, F =>
    if isConst p then forallCons isConst rest F
    else forallCons isConst rest (fun a =>
      match exMap (fun c => F (setArch a p c)) cs with
      | .error e => .error e
      | .ok l => andReduce l)

/-- `arch_var == c` (mapper.py:796). -/
def consEq (A : Ty → Except Err AsmObj) (types : List (RPath × Ty)) (p : RPath) (v c : Nat) : Except Err Bool :=
  match types.lookup p with
  | none => .error .keyError
  | some t =>
    match freeVar A t v, freeVar A t c with
    | .ok x, .ok y => leafEq x y
    | .error e, _ => .error e
    | _, .error e => .error e

/-- The loop over the constraints of `Const` paths (mapper.py:791-797). -/
def existsCons (A : Ty → Except Err AsmObj) (types : List (RPath × Ty)) (isConst : RPath → Bool) (v : RPath → Nat) :
    List (RPath × List Nat) → Bool → Except Err Bool
  | [], f => .ok f
  | (p, cs) :: rest, f =>
    if isConst p then
      match exMap (consEq A types p (v p)) cs with
      | .error e => .error e
      | .ok l =>
        match orReduce l with
        | .error e => .error e
        | .ok b => existsCons A types isConst v rest (f && b)
    else existsCons A types isConst v rest f

/-- `formula_wo_forall` (mapper.py:727-801). -/
def mapFormula {B K : Type} (A : Ty → Except Err AsmObj) (pb : MapPb B K) (bs : Bdgs) (a : MAsg B) : Except Err Bool :=
  match forallCons (constAt pb.archConst) pb.cons (mapFormula0 A pb bs) a with
  | .error e => .error e
  | .ok f => existsCons A (leafTypes pb.arch.inT []) (constAt pb.archConst) a.arch pb.cons f

/-- The IR variables in `forall_vars`: those bound in some binding (mapper.py:749-753). -/
def Bdgs.irUniv (bs : Bdgs) (q : RPath) : Prop := ∃ l ∈ bs.ins, ∃ b ∈ l, ∃ p, (some q, p) ∈ b

/-- The architecture variables in `forall_vars`: not `Const`, not constrained, and `Unbound` in some binding (mapper.py:746-748). -/
def Bdgs.archUniv {B K : Type} (pb : MapPb B K) (bs : Bdgs) (p : RPath) : Prop :=
  constAt pb.archConst p = false ∧ p ∉ pb.cons.map (·.1) ∧ ∃ l ∈ bs.ins, ∃ b ∈ l, (none, p) ∈ b

/-- `a'` differs from `a` only in the variables that are quantified universally (mapper.py:799). -/
structure SameExists {B K : Type} (pb : MapPb B K) (bs : Bdgs) (a a' : MAsg B) : Prop where
  fi : a'.fi = a.fi
  ib : a'.ib = a.ib
  ob : a'.ob = a.ob
  ir : ∀ q, ¬ bs.irUniv q → a'.ir q = a.ir q
  irTag : a'.irTag = a.irTag
  arch : ∀ p, ¬ bs.archUniv pb p → a'.arch p = a.arch p
  archTag : a'.archTag = a.archTag
  irBB : a'.irBB = a.irBB
  archBB : a'.archBB = a.archBB

/-- `formula` (mapper.py:799), the universally quantified formula, holds under `a`. -/
def mapSat {B K : Type} (A : Ty → Except Err AsmObj) (pb : MapPb B K) (bs : Bdgs) (a : MAsg B) : Prop :=
  ∀ a', SameExists pb bs a a' → mapFormula A pb bs a' = .ok true

/-- `solved_to_bv(var)` of the variable of the leaf `p` (utils.py:331-338). -/
def solvedLeaf (types : List (RPath × Ty)) (f : SForm) (p : RPath) : Except Err RArg :=
  match f.leaves.lookup p with
  | none => .error .keyError
  | some b =>
    match types.lookup p with
    | some (.bit _) => .ok (.bit (b.val == 1))
    | _ => .ok (.bits b)

/-- The loop of mapper.py:844-850. -/
def solvedEntry {B K : Type} (pb : MapPb B K) (f : SForm) (e : Option RPath × RPath) : Except Err (RArg × RPath) :=
  match e.1 with
  | some q => .ok (.path q, e.2)
  | none =>
    if constAt pb.archConst e.2 || (pb.cons.map (·.1)).contains e.2 then
      match solvedLeaf (leafTypes pb.arch.inT []) f e.2 with
      | .error e => .error e
      | .ok x => .ok (x, e.2)
    else .ok (.unbound, e.2)

/-- `rr_from_solver` (mapper.py:834-856), given the solver's assignment. -/
def rrFromSolver {B K : Type} (A : Ty → Except Err AsmObj) (pb : MapPb B K) (bs : Bdgs) (a : MAsg B) : Except Err RRule :=
  match smtForms A a.arch a.archTag pb.arch.inT [] with
  | .error e => .error e
  | .ok res =>
    match pb.enc.decode res.forms.length (ivar pb.enc res.forms.length a.fi).val,
      pb.enc.decode bs.maxIns (ivar pb.enc bs.maxIns a.ib).val,
      pb.enc.decode bs.outs.length (ivar pb.enc bs.outs.length a.ob).val with
    | .ok fi, .ok bi, .ok bo =>
      match res.forms[fi]?, (bs.ins[fi]?).bind (·[bi]?), bs.outs[bo]? with
      | some f, some ib, some ob =>
        match exMap (solvedEntry pb f) ib with
        | .error e => .error e
        | .ok args => mkRule A (fun p => (leafTypes pb.arch.inT []).lookup p) args ob
      | _, _, _ => .error .indexError
    | .error e, _, _ => .error e
    | _, .error e, _ => .error e
    | _, _, .error e => .error e

/-- `ArchMapper(...).process_ir_instruction(ir_fc).solve()` (mapper.py:205-206, 464-826) with the solver given: `solve φ` is an assignment that satisfies
`φ`, or `none`. -/
def mapSolve {B K : Type} (A : Ty → Except Err AsmObj) (pb : MapPb B K) (solve : (MAsg B → Prop) → Option (MAsg B)) (a0 : MAsg B) :
    Except Err (Option RRule) :=
  match mapBindings A pb with
  | .error e => .error e
  | .ok none => .ok none
  | .ok (some bs) =>
    match mapFormula A pb bs a0 with
    | .error e => .error e
    | .ok _ =>
      match solve (mapSat A pb bs) with
      | none => .ok none
      | some a =>
        match rrFromSolver A pb bs a with
        | .error e => .error e
        | .ok r => .ok (some r)

end Peak
