import Verif.Model.IRMapper
/-!
# `peak/mapper/mapper.py:557-726`: `IRMapper` with `simple_formula=True`

As in `Model/IRMapper`, terms are modelled by their values under an assignment of all the variables.  The two substitutions at the end
(`input_subs`, `overlap_subs`) are evaluations under a changed assignment.  Names of variables (`".".join(...)`) are modelled by the paths.
-/

namespace Peak

/-- An assignment of the variables of the simple formula: `archE p`, `archA p` are the values of the variables `…_EXISTS` and `…_FORALL` that
are made for an architecture leaf `p` that is quantified both ways (mapper.py:640-641). -/
structure SAsg (B : Type) where
  m : MAsg B
  archE : RPath → Nat
  archA : RPath → Nat

/-- `And(values)`, `Or(values)` under an assignment (formula_constructor.py:29-53). -/
def fcAnd (l : List Bool) : Except Err Bool := if l = [] then .error .assertionError else .ok (l.all id)
/-- `Or(l)` under an assignment (formula_constructor.py:44-53; the assertion of 30). -/
def fcOr (l : List Bool) : Except Err Bool := if l = [] then .error .assertionError else .ok (l.any id)

/-- The keys of `fb_conditions`, in order, with their bindings (mapper.py:598-603, 626). -/
def Bdgs.fbs (bs : Bdgs) : List (Nat × Nat × Bdg) :=
  bs.ins.zipIdx.flatMap (fun l => l.1.zipIdx.map (fun b => (l.2, b.2, b.1)))

/-- `forall_to_fbs[A.p]` (mapper.py:614-615, 623): the leaf is bound, or unbound and not `Const`. -/
def Bdgs.forallFbs {B K : Type} (pb : MapPb B K) (bs : Bdgs) (p : RPath) : List (Nat × Nat) :=
  bs.fbs.flatMap (fun x => (x.2.2.filter (fun e => e.2 == p && (e.1.isSome || !constAt pb.archConst e.2))).map (fun _ => (x.1, x.2.1)))

/-- `exists_to_fbs[A.p]` (mapper.py:616-617): the leaf is unbound and `Const`. -/
def Bdgs.existsFbs {B K : Type} (pb : MapPb B K) (bs : Bdgs) (p : RPath) : List (Nat × Nat) :=
  bs.fbs.flatMap (fun x => (x.2.2.filter (fun e => e.2 == p && (e.1.isNone && constAt pb.archConst e.2))).map (fun _ => (x.1, x.2.1)))

/-- `name in overlap` (mapper.py:632).  Names of IR leaves are only in `forall_to_fbs`. -/
def Bdgs.overlap {B K : Type} (pb : MapPb B K) (bs : Bdgs) (p : RPath) : Bool :=
  !(bs.forallFbs pb p).isEmpty && !(bs.existsFbs pb p).isEmpty

/-- `form_var.match_index(fi) & ib_var.match_index(bi)`; `nf` is the number of forms (mapper.py:642, 682). -/
def matchFB {B K : Type} (pb : MapPb B K) (bs : Bdgs) (nf : Nat) (a : MAsg B) (fi bi : Nat) : Except Err Bool := do
  let x ← pb.enc.matchIndex nf (ivar pb.enc nf a.fi) fi
  let y ← pb.enc.matchIndex bs.maxIns (ivar pb.enc bs.maxIns a.ib) bi
  .ok (x && y)

/-- `e_conds` (mapper.py:642). -/
def eCond {B K : Type} (pb : MapPb B K) (bs : Bdgs) (nf : Nat) (a : MAsg B) (p : RPath) : Except Err Bool := do
  let l ← exMap (fun fb => matchFB pb bs nf a fb.1 fb.2) (bs.existsFbs pb p)
  fcOr l

/-- The values of the architecture's leaf variables after `overlap_subs` (mapper.py:633-644, 720-721).  `eCond` does not raise when `simpleFormula` does
not, for it reads the same index variables. -/
def subArch {B K : Type} (pb : MapPb B K) (bs : Bdgs) (nf : Nat) (a : SAsg B) (p : RPath) : Nat :=
  if bs.overlap pb p then
    match eCond pb bs nf a.m p with
    | .ok true => a.archE p
    | _ => a.archA p
  else a.m.arch p

/-- One of `form_conditions` (mapper.py:581-586). -/
def formCond {B K : Type} (pb : MapPb B K) (nf : Nat) (a : MAsg B) (vm : Varmap) (f : SForm × Nat) : Except Err Bool := do
  let x ← pb.enc.matchIndex nf (ivar pb.enc nf a.fi) f.2
  .ok (x && formMatches vm f.1)

/-- The conditions `arch_var==ir_var` of a binding (mapper.py:604-625); `al`, `il` are the leaf variables. -/
def sBindEqs (cons : List RPath) (al il : List (RPath × BV)) : Bdg → Except Err (List Bool)
  | [] => .ok []
  | (x, p) :: b => do
    match al.lookup p with
    | none => .error .keyError
    | some v =>
      match x with
      | none => sBindEqs cons al il b
      | some q =>
        if cons.contains p then .error .notImplementedError
        else
          match il.lookup q with
          | none => .error .keyError
          | some w => do
            let c ← leafEq (.bits v) (.bits w)
            let cs ← sBindEqs cons al il b
            .ok (c :: cs)

/-- For a form and binding, the entries of `fb_conds` and of `impl_conds` (mapper.py:599-626, 681-684). -/
def fbCond {B K : Type} (pb : MapPb B K) (bs : Bdgs) (nf : Nat) (a : MAsg B) (al il : List (RPath × BV)) (x : Nat × Nat × Bdg) :
    Except Err (Bool × Bool) := do
  let m ← matchFB pb bs nf a x.1 x.2.1
  let eqs ← sBindEqs (pb.cons.map (·.1)) al il x.2.2
  .ok (m, m && eqs.all id)

/-- `run_peak` without the black boxes (mapper.py:651-658): the fields of the output by path. -/
def simpleRun {B K : Type} (A : Ty → Except Err AsmObj) (obj : PeakObj B K) (d : List (Key × AV)) (bb : List (B × List BV)) :
    Except Err (List (RPath × AV)) := do
  let x ← AV.fromFields A obj.outT ((obj.run d bb).1.map .asm) 0
  let l ← productToDict A obj.outT x
  .ok (l.map (fun e => ([e.1], e.2)))

/-- `ir_out == arch_out` of two output fields.  Two fields that are bound have the same type; for other operands the error is a simplification (mapper.py:673). -/
def fieldEq (A : Ty → Except Err AsmObj) : AV → AV → Except Err Bool
  | .adt t b, y =>
    match AV.eq A t b (.asm y) with
    | .error e => .error e
    | .ok none => .error .assertionError
    | .ok (some r) => .ok r
  | x, y => leafEq x y

/-- `o_conds` (mapper.py:666-673). -/
def fieldEqs (A : Ty → Except Err AsmObj) (irOut archOut : List (RPath × AV)) : Bdg → Except Err (List Bool)
  | [] => .ok []
  | (none, _) :: ob => fieldEqs A irOut archOut ob
  | (some q, p) :: ob =>
    match irOut.lookup q with
    | none => .error .keyError
    | some x =>
      match archOut.lookup p with
      | none => .error .keyError
      | some y => do
        let b ← fieldEq A x y
        let bs ← fieldEqs A irOut archOut ob
        .ok (b :: bs)

/-- For an output binding, the entries of `o_preconditions` and `F_conds` (mapper.py:664-674). -/
def obCond {B K : Type} (A : Ty → Except Err AsmObj) (pb : MapPb B K) (bs : Bdgs) (a : MAsg B) (irOut archOut : List (RPath × AV)) (o : Bdg × Nat) :
    Except Err (Bool × Bool) := do
  let m ← pb.enc.matchIndex bs.outs.length (ivar pb.enc bs.outs.length a.ob) o.2
  let eqs ← fieldEqs A irOut archOut o.1
  let c ← fcAnd eqs
  .ok (m, !m || c)

/-- `exist_constraints` (`const = true`) and `forall_constraints` (mapper.py:686-694). -/
def consConds (A : Ty → Except Err AsmObj) (types : List (RPath × Ty)) (isConst : RPath → Bool) (v : RPath → Nat) (const : Bool) :
    List (RPath × List Nat) → Except Err (List Bool)
  | [] => .ok []
  | (p, cs) :: rest =>
    if isConst p = const then do
      let l ← exMap (consEq A types p (v p)) cs
      let b ← fcOr l
      let bs ← consConds A types isConst v const rest
      .ok (b :: bs)
    else consConds A types isConst v const rest

/-- `formula_wo_forall` (mapper.py:557-726). -/
def simpleFormula {B K : Type} [DecidableEq B] [DecidableEq K] (A : Ty → Except Err AsmObj) (pb : MapPb B K) (bs : Bdgs) (a : SAsg B) : Except Err Bool := do
  let res ← smtForms A a.m.arch a.m.archTag pb.arch.inT []
  let v := subArch pb bs res.forms.length a
  let ares ← smtForms A v a.m.archTag pb.arch.inT []
  let ires ← smtForms A a.m.ir a.m.irTag pb.ir.inT []
  let da ← productToDict A pb.arch.inT ares.value
  let di ← productToDict A pb.ir.inT ires.value
  let valid ← exMap (validField A da) ((pb.arch.inT.fieldDict.map (·.1)).filter (fun k => pb.archConst.contains [k]))   -- 571-575
  let validC ← fcAnd valid
  let forms ← exMap (formCond pb res.forms.length a.m ares.varmap) ares.forms.zipIdx
  let formsC ← fcOr forms                                                                                              -- 591
  let fbs ← exMap (fbCond pb bs res.forms.length a.m ares.varmap.leaves ires.varmap.leaves) bs.fbs
  let archOut ← simpleRun A pb.arch da (pb.arch.bbOuts a.m.archBB)                                                     -- 658
  let irOut ← simpleRun A pb.ir di (pb.ir.bbOuts a.m.irBB)
  let obs ← exMap (obCond A pb bs a.m irOut archOut) bs.outs.zipIdx
  let obsC ← fcOr (obs.map (·.1))                                                                                      -- 674
  let F ← fcAnd (obs.map (·.2))
  let exC ← consConds A (leafTypes pb.arch.inT []) (constAt pb.archConst) v true pb.cons
  let faC ← consConds A (leafTypes pb.arch.inT []) (constAt pb.archConst) v false pb.cons
  let fbsC ← fcOr (fbs.map (·.1))                                                                                      -- 695
  let impl ← fcOr (fbs.map (·.2))
  let fCond ← fcAnd (faC ++ [impl])                                                                                    -- 696
  let pre ← fcAnd ([validC, formsC, obsC] ++ exC ++ [fbsC])                                                            -- 697
  let g ← updateWithBB (pre && (!fCond || F)) pb.arch.bbs (pb.arch.run da (pb.arch.bbOuts a.m.archBB)).2 (pb.arch.bbOuts a.m.archBB)
    pb.ir.bbs (pb.ir.run di (pb.ir.bbOuts a.m.irBB)).2 (pb.ir.bbOuts a.m.irBB)                                         -- 698-708
  .ok g.1

/-- `a'` differs from `a` only in the variables that are quantified universally (`pysmt_forall_vars`, mapper.py:629, 645-646, 723): the architecture leaves in
`forall_to_fbs`, the `…_FORALL` variables, the bound IR leaves and the outputs of the black boxes. -/
structure SameExistsS {B K : Type} (pb : MapPb B K) (bs : Bdgs) (a a' : SAsg B) : Prop where
  fi : a'.m.fi = a.m.fi
  ib : a'.m.ib = a.m.ib
  ob : a'.m.ob = a.m.ob
  ir : ∀ q, ¬ bs.irUniv q → a'.m.ir q = a.m.ir q
  irTag : a'.m.irTag = a.m.irTag
  arch : ∀ p, ¬ (bs.forallFbs pb p ≠ [] ∧ bs.overlap pb p = false) → a'.m.arch p = a.m.arch p
  archTag : a'.m.archTag = a.m.archTag
  archE : a'.archE = a.archE
  archA : ∀ p, bs.overlap pb p = false → a'.archA p = a.archA p

/-- `formula` (mapper.py:724) holds under `a`. -/
def simpleSat {B K : Type} [DecidableEq B] [DecidableEq K] (A : Ty → Except Err AsmObj) (pb : MapPb B K) (bs : Bdgs) (a : SAsg B) : Prop :=
  ∀ a', SameExistsS pb bs a a' → simpleFormula A pb bs a' = .ok true

/-- `ArchMapper(...).process_ir_instruction(ir_fc, simple_formula=True).solve()` (mapper.py:205-206, 464-726, 808-856) with the solver given.
`rr_from_solver` reads the original leaf variables. -/
def simpleSolve {B K : Type} [DecidableEq B] [DecidableEq K] (A : Ty → Except Err AsmObj) (pb : MapPb B K)
    (solve : (SAsg B → Prop) → Option (SAsg B)) (a0 : SAsg B) : Except Err (Option RRule) :=
  match mapBindings A pb true with
  | .error e => .error e
  | .ok none => .ok none
  | .ok (some bs) =>
    match simpleFormula A pb bs a0 with
    | .error e => .error e
    | .ok _ =>
      match solve (simpleSat A pb bs) with
      | none => .ok none
      | some a =>
        match rrFromSolver A pb bs a.m with
        | .error e => .error e
        | .ok r => .ok (some r)

end Peak
