import Verif.Model.SimplifyBinding
import Verif.Model.BBFormula
import Verif.Model.ValueForms
import Mathlib.Data.List.Dedup
/-!
# `peak/mapper/mapper.py:61-86, 240-360, 413-421`: `RewriteRule.build_inputs` and `RewriteRule.verify`

Symbolic values are modelled by their values under one assignment of the free variables, as in `Model/SmtForms`.
-/

namespace Peak

mutual
/-- `_create_path_to_adt` of a type without modifiers (mapper.py:75-86): the types of the leaves, by path. -/
def leafTypes : Ty → RPath → List (RPath × Ty)
  | .prod _ fs, p => leafTypesF fs p
  | .sum _ fs, p => leafTypesF fs p
  | t, p => [(p, t)]
/-- The leaves of the fields (mapper.py:240-250). -/
def leafTypesF : Fields → RPath → List (RPath × Ty)
  | .nil, _ => []
  | .cons k t fs, p => leafTypes t (p ++ [k]) ++ leafTypesF fs p
end

/-- `get_input_paths` (mapper.py:240-250): IR paths, and architecture paths that are `Unbound`.  The test on line 248 is
`isinstance(<type>, Const)`, which is never true, so no path is left out. -/
def RRule.inputPaths (types : List (RPath × Ty)) : List (RSrc × RPath) → Except Err (List RPath × List RPath)
  | [] => .ok ([], [])
  | (s, p) :: ib =>
    match s with
    | .path q =>
      match RRule.inputPaths types ib with
      | .error e => .error e
      | .ok (i, a) => .ok (q :: i, a)
    | .unbound =>
      if (types.lookup p).isSome then
        match RRule.inputPaths types ib with
        | .error e => .error e
        | .ok (i, a) => .ok (i, p :: a)
      else .error .keyError
    | .const _ => RRule.inputPaths types ib

/-- `set(a) == set(b)` (Python's sets; mapper.py:252-289). -/
def samePaths (a b : List RPath) : Bool := a.all (fun p => b.contains p) && b.all (fun p => a.contains p)

/-- A constant as an input (mapper.py:252-289). -/
def RConst.toAV : RConst → AV
  | .bits b => .bits b
  | .bit b => .bit b

/-- The loop of `build_inputs` (mapper.py:259-272): the IR binding and the architecture binding.  `rebind_binding` (utils.py:357-364)
takes the last element of each path. -/
def buildBindings (irIn archIn : List (RPath × AV)) : List (RSrc × RPath) → Except Err (List BEntry × List BEntry)
  | [] => .ok ([], [])
  | (s, p) :: ib =>
    if p = [] then .error .indexError
    else
      match s with
      | .path q =>
        match irIn.lookup q with
        | none => .error .assertionError
        | some x =>
          match buildBindings irIn archIn ib with
          | .error e => .error e
          | .ok (i, a) => .ok ((.val x, q) :: i, (.val x, p) :: a)
      | .unbound =>
        match archIn.lookup p with
        | none => .error .assertionError
        | some x =>
          match buildBindings irIn archIn ib with
          | .error e => .error e
          | .ok (i, a) => .ok (i, (.val x, p) :: a)
      | .const c =>
        match buildBindings irIn archIn ib with
        | .error e => .error e
        | .ok (i, a) => .ok (i, (.val c.toAV, p) :: a)

/-- mapper.py:275-279 and 281-286: the one value the binding is simplified to. -/
def wholeValue (A : Ty → Except Err AsmObj) (t : Ty) (b : List BEntry) : Except Err AV :=
  match simplifyBinding A t b with
  | .error e => .error e
  | .ok [(.val x, [])] => .ok x
  | .ok _ => .error .assertionError

/-- `aadt_product_to_dict` (utils.py:366-372). -/
def productToDict (A : Ty → Except Err AsmObj) (t : Ty) (x : AV) : Except Err (List (Key × AV)) :=
  exMap (fun k =>
    match x.get A k with
    | .error e => .error e
    | .ok y => .ok (k, y)) (t.fieldDict.map (·.1))

/-- `build_inputs` (mapper.py:252-289). -/
def buildInputs (A : Ty → Except Err AsmObj) (irT archT : Ty) (ib : List (RSrc × RPath)) (irIn archIn : List (RPath × AV)) :
    Except Err (List (Key × AV) × List (Key × AV)) :=
  match RRule.inputPaths (leafTypes archT []) ib with
  | .error e => .error e
  | .ok (irPaths, archPaths) =>
    if !samePaths (irIn.map (·.1)) irPaths then .error .valueError
    else if !samePaths (archIn.map (·.1)) archPaths then .error .valueError
    else
      match buildBindings irIn archIn ib with
      | .error e => .error e
      | .ok (irB, archB) =>
        match wholeValue A archT archB with
        | .error e => .error e
        | .ok xa =>
          match wholeValue A irT irB with
          | .error e => .error e
          | .ok xi =>
            match productToDict A irT xi with
            | .error e => .error e
            | .ok di =>
              match productToDict A archT xa with
              | .error e => .error e
              | .ok da => .ok (di, da)

/-- A variable of the leaf type, with the given value (`_free_var_from_t`, mapper.py:414-421). -/
def freeVar (A : Ty → Except Err AsmObj) : Ty → Nat → Except Err AV
  | .bit _, n => .ok (.bit (n.testBit 0))
  | .bv _ w, n => .ok (.bits (BV.ofNat w n))
  | t, n =>
    match A t with
    | .error e => .error e
    | .ok o => .ok (.bits (BV.ofNat o.width n))

/-- `{path: _free_var_from_t(types[path]) for path in paths}` (mapper.py:314-315).  The paths form a set. -/
def freeVars (A : Ty → Except Err AsmObj) (types : List (RPath × Ty)) (ρ : RPath → Nat) (paths : List RPath) :
    Except Err (List (RPath × AV)) :=
  exMap (fun p =>
    match types.lookup p with
    | none => .error .keyError
    | some t =>
      match freeVar A t (ρ p) with
      | .error e => .error e
      | .ok x => .ok (p, x)) paths

/-- `SMTForms()` of the wrapped outputs (mapper.py:61-72, 154-157, 291-303). -/
def parseForms (A : Ty → Except Err AsmObj) (tu : Nat → Bool) (t : Ty) (outs : List AV) : Except Err FormsRes :=
  match AV.fromFields A t (outs.map .asm) 0 with
  | .error e => .error e
  | .ok x => valForms A tu t [] x

/-- The entries of a varmap for the leaves, as values: a `Bit` where the leaf type is `Bit` (`Model/ValueForms` keeps the bits only) (mapper.py:306-360). -/
def leafValues (t : Ty) (l : List (RPath × BV)) : List (RPath × AV) :=
  l.map (fun e => (e.1, match (leafTypes t []).lookup e.1 with
    | some (.bit _) => .bit (e.2.val.testBit 0)
    | _ => .bits e.2))

/-- `parse_ir_output`, `parse_arch_output` with `wrap_outputs` (mapper.py:61-72, 291-303), restricted to the leaves: the entries of the varmap at `_TAG` and
`Match` paths are left out. -/
def parseOutput (A : Ty → Except Err AsmObj) (tu : Nat → Bool) (t : Ty) (outs : List AV) : Except Err (List (RPath × AV)) :=
  match parseForms A tu t outs with
  | .error e => .error e
  | .ok r => .ok (leafValues t r.varmap.leaves)

/-- `a == b` of two leaf values.  Vectors of different widths are a TypeError (hwtypes); so is, in the model, a bit and a vector (mapper.py:306-360). -/
def leafEq : AV → AV → Except Err Bool
  | .bit a, .bit b => .ok (a == b)
  | .bits a, .bits b => if a.size = b.size then .ok (a.val == b.val) else .error .typeError
  | _, _ => .error .typeError

/-- The loop of mapper.py:329-339. -/
def outputEqs (irOut archOut : List (RPath × AV)) : List (Option RPath × RPath) → Except Err (List Bool)
  | [] => .ok []
  | (none, _) :: ob => outputEqs irOut archOut ob
  | (some q, p) :: ob =>
    match irOut.lookup q with
    | none => .error .valueError
    | some x =>
      match archOut.lookup p with
      | none => .error .valueError
      | some y =>
        match leafEq x y with
        | .error e => .error e
        | .ok b =>
          match outputEqs irOut archOut ob with
          | .error e => .error e
          | .ok bs => .ok (b :: bs)

/-- A peak object under the SMT family: given the inputs and the values of its black boxes' outputs, its outputs and the inputs its black
boxes received.  `bbs` are the black boxes inside with their classes (`get_black_boxes`), `bbOutW` the widths of the outputs of each
class; `tagged` are the union classes that are `TaggedUnion`s (mapper.py:89-108, 306-360; black_box.py:4-18). -/
structure PeakObj (B K : Type) where
  inT : Ty
  outT : Ty
  bbs : List (B × K)
  bbOutW : K → List Nat
  run : List (Key × AV) → List (B × List BV) → List AV × List (B × List BV)
  tagged : Nat → Bool := fun _ => false

/-- `create_and_set_bb_outputs` (mapper.py:89-102): a variable for every output of every black box; `ρ b i` is the value of the one for output `i`
of `b`. -/
def PeakObj.bbOuts {B K : Type} (o : PeakObj B K) (ρ : B → Nat → Nat) : List (B × List BV) :=
  o.bbs.map (fun b => (b.1, (o.bbOutW b.2).mapIdx (fun i w => BV.ofNat w (ρ b.1 i))))

/-- An assignment of the variables of `verify` (mapper.py:306-360, 414-421). -/
structure VAsg (B : Type) where
  ir : RPath → Nat
  arch : RPath → Nat
  irBB : B → Nat → Nat
  archBB : B → Nat → Nat

/-- The formula of `verify` before it is negated (mapper.py:306-351), under an assignment. -/
def verifyFormula {B K : Type} [DecidableEq B] [DecidableEq K] (A : Ty → Except Err AsmObj) (ir arch : PeakObj B K) (rule : RRule)
    (a : VAsg B) : Except Err Bool :=
  match RRule.inputPaths (leafTypes arch.inT []) rule.ib with
  | .error e => .error e
  | .ok (irPaths, archPaths) =>
    match freeVars A (leafTypes ir.inT []) a.ir irPaths.dedup with
    | .error e => .error e
    | .ok irVals =>
      match freeVars A (leafTypes arch.inT []) a.arch archPaths.dedup with
      | .error e => .error e
      | .ok archVals =>
        match buildInputs A ir.inT arch.inT rule.ib irVals archVals with
        | .error e => .error e
        | .ok (irIn, archIn) =>
          let ri := ir.run irIn (ir.bbOuts a.irBB)
          let ra := arch.run archIn (arch.bbOuts a.archBB)
          match parseOutput A ir.tagged ir.outT ri.1 with
          | .error e => .error e
          | .ok irOut =>
            match parseOutput A arch.tagged arch.outT ra.1 with
            | .error e => .error e
            | .ok archOut =>
              match outputEqs irOut archOut rule.ob with
              | .error e => .error e
              | .ok eqs =>
                if eqs = [] then .error .assertionError                                          -- And of nothing
                else
                  match updateWithBB (eqs.all id) arch.bbs ra.2 (arch.bbOuts a.archBB) ir.bbs ri.2 (ir.bbOuts a.irBB) with
                  | .error e => .error e
                  | .ok (f, _) => .ok f

/-- The value of the negated formula (mapper.py:351). -/
def negated : Except Err Bool → Bool
  | .ok f => !f
  | .error _ => false

/-- `verify` (mapper.py:306-360) with the solver given: `solve φ` is an assignment satisfying `φ`, or `none`.  Building the formula raises or
not independently of the assignment; `a0` is any assignment.  The result is `None` or the counterexample: the values of the IR and
architecture variables. -/
def verify {B K : Type} [DecidableEq B] [DecidableEq K] (A : Ty → Except Err AsmObj) (solve : (VAsg B → Bool) → Option (VAsg B))
    (ir arch : PeakObj B K) (rule : RRule) (a0 : VAsg B) : Except Err (Option (VAsg B)) :=
  match verifyFormula A ir arch rule a0 with
  | .error e => .error e
  | .ok _ =>
    .ok (solve (fun a => negated (verifyFormula A ir arch rule a)))

end Peak
