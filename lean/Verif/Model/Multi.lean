import Verif.Model.Bindings
import Verif.Model.IndexVar
/-!
# `peak/mapper/multi.py:39-295`: the mapper for several instructions

Terms are modelled by their values under an assignment of all the variables.  `F` are the field names, `T` the field types (classes, modifiers
included), `V` the values; `==` of two terms of one type is equality of their values.  The classes given are arbitrary functions from a dict of inputs to a dict of
outputs; they do not raise.  The non-constant inputs are bit vectors (on an assembled product or union `v.value`, multi.py:89 and 143, is something else).
-/

namespace Peak

/-- A binding: pairs of a source (`none`: Unbound) and a target (multi.py:34). -/
abbrev MBdg (F : Type) := List (Option (MPath F) × MPath F)

/-- The arguments of `Multi` with what `parse_peak_fc` reads off them (multi.py:40-71).  `ir β x` are the outputs for the inputs `x` when the black boxes
inside the IR class return `β`; `archBB` says whether the architecture class contains black boxes. -/
structure MultiPb (F T V : Type) where
  irIn : List (F × T)
  irOut : List (F × T)
  archIn : List (F × T)
  archOut : List (F × T)
  isConst : T → Bool
  ir : (Nat → V) → (F → V) → F → V
  arch : (F → V) → F → V
  isValid : V → Bool
  archBB : Bool := false
  enc : IEnc := .binary
  useReal : Bool := true

variable {F T V : Type} [DecidableEq F] [DecidableEq T] [DecidableEq V]

/-- `const_dict` and `non_const_dict` of the architecture (multi.py:53-54). -/
def MultiPb.constDict (pb : MultiPb F T V) : List (F × T) := pb.archIn.filter (fun e => pb.isConst e.2)
/-- `non_const_dict` of the architecture (multi.py:54). -/
def MultiPb.nonConst (pb : MultiPb F T V) : List (F × T) := pb.archIn.filter (fun e => !pb.isConst e.2)

/-- An assignment: the two index variables, `II_f`, `ArchIn_Ii_f`, `ArchOut_Ii_f` and the outputs of the IR's black boxes (multi.py:83, 118, 139-140, 187). -/
structure MuAsg (F V : Type) where
  bindIn : Nat
  bindOut : Nat
  ir : F → V
  archIn : Nat → F → V
  archOut : Nat → F → V
  irBB : Nat → V

/-- `translate` (multi.py:93-113). -/
def MultiPb.translate (pb : MultiPb F T V) (a : MuAsg F V) (useReal : Bool) : MPath F → V
  | .irIn f => a.ir f
  | .irOut f => pb.ir a.irBB a.ir f
  | .archIn i f => a.archIn i f
  | .archOut j f => if useReal then pb.arch (a.archIn j) f else a.archOut j f

/-- `And`, `Or`, `Implies` of formula_constructor.py: of nothing, `And` and `Or` are an AssertionError (29-32). -/
def fAnd (l : List Bool) : Except Err Bool := if l = [] then .error .assertionError else .ok (l.all id)
/-- `Or(l)` under an assignment (formula_constructor.py:44-53; the assertion of 30). -/
def fOr (l : List Bool) : Except Err Bool := if l = [] then .error .assertionError else .ok (l.any id)

/-- The equations of a binding (multi.py:127-130, 198-205): an unbound input is compared with itself. -/
def bindEqs (pb : MultiPb F T V) (a : MuAsg F V) (useReal : Bool) (b : MBdg F) : List Bool :=
  b.map (fun e => pb.translate a useReal (e.1.getD e.2) == pb.translate a useReal e.2)

/-- `[f(x) for x in l]` where `f` may raise (Python; used for the loops of multi.py:122-131, 192-206). -/
def muMap {α β : Type} (f : α → Except Err β) : List α → Except Err (List β)
  | [] => .ok []
  | x :: xs =>
    match f x with
    | .error e => .error e
    | .ok y =>
      match muMap f xs with
      | .error e => .error e
      | .ok ys => .ok (y :: ys)

/-- `And([b_match] + equations)` of alternative `e.2` (multi.py:123-131, 194-206). -/
def bindCond (enc : IEnc) (n var : Nat) (e : List Bool × Nat) : Except Err Bool :=
  match enc.matchIndex n (BV.ofNat (enc.varLen n) var) e.2 with
  | .error err => .error err
  | .ok m => fAnd (m :: e.1)

/-- The disjunction over the bindings of an index variable (multi.py:117-132 and 190-206): `sel` are the equations of the alternatives. -/
def bindOr (enc : IEnc) (n var : Nat) (sel : List (List Bool)) : Except Err Bool :=
  match muMap (bindCond enc n var) sel.zipIdx with
  | .error e => .error e
  | .ok l => fOr l

/-- What is computed before the formula: the bindings of the blocks, the kept index tuples and the output bindings (multi.py:135-188, 227-237). -/
structure MuBdgs (F : Type) where
  blocks : List (List (MBdg F))
  valid : List (List Nat)
  outs : List (MBdg F)

/-- Everything that can raise before the formula (multi.py:70-74, 136-188, 227-231).  The list `pysmt_forall_vars` gets `v.value` for tuples `v` when the
architecture contains black boxes (144): AttributeError. -/
def multiBuild (pb : MultiPb F T V) (n : Nat) : Except Err (MuBdgs F) :=
  if (pb.irIn.filter (fun e => pb.isConst e.2)).length ≠ 0 then .error .notImplementedError
  else if pb.constDict.length ≠ 1 then .error .notImplementedError
  else if pb.archBB && n ≠ 0 then .error .attributeError
  else
    match multiValid pb.irIn pb.archOut pb.nonConst n with
    | .error e => .error e
    | .ok (blocks, valid) =>
      if !pb.useReal && n ≠ 1 && pb.archOut.isEmpty then .error .assertionError          -- And([]), 219
      else
        match createBindings2 (pb.archOut.map (fun e => (MPath.archOut (n - 1) e.1, e.2))) (pb.irOut.map (fun e => (MPath.irOut e.1, e.2))) false with
        | .error e => .error e
        | .ok outs => .ok ⟨blocks, valid, outs⟩

/-- `free_repl` (multi.py:208-220): the outputs of all blocks but the last. -/
def freeRepl (pb : MultiPb F T V) (n : Nat) (a : MuAsg F V) : Except Err Bool :=
  if n = 1 then .ok true
  else fAnd ((List.range (n - 1)).flatMap (fun i => pb.archOut.map (fun e => a.archOut i e.1 == pb.arch (a.archIn i) e.1)))

/-- The conditions of `valid_cond` (multi.py:119, 188, 243-250). -/
def multiValidConds (pb : MultiPb F T V) (n : Nat) (bs : MuBdgs F) (a : MuAsg F V) : List Bool :=
  [pb.enc.isValid bs.valid.length (BV.ofNat (pb.enc.varLen bs.valid.length) a.bindIn),
   pb.enc.isValid bs.outs.length (BV.ofNat (pb.enc.varLen bs.outs.length) a.bindOut)] ++
  (List.range n).flatMap (fun i => pb.constDict.map (fun e => pb.isValid (a.archIn i e.1)))

/-- `formula_wo_forall` (multi.py:189-260). -/
def multiFormula (pb : MultiPb F T V) (n : Nat) (bs : MuBdgs F) (a : MuAsg F V) : Except Err Bool :=
  match bindOr pb.enc bs.valid.length a.bindIn (bs.valid.map (fun x => (pick bs.blocks x).flatMap (bindEqs pb a pb.useReal))),
    bindOr pb.enc bs.outs.length a.bindOut (bs.outs.map (bindEqs pb a true)),
    fAnd (multiValidConds pb n bs a) with
  | .ok impl, .ok out, .ok valid =>
    if pb.useReal then .ok (valid && (!impl || out))
    else
      match freeRepl pb n a with
      | .error e => .error e
      | .ok r => .ok (valid && (!(r && impl) || out))
  | .error e, _, _ => .error e
  | _, .error e, _ => .error e
  | _, _, .error e => .error e

/-- `a'` differs from `a` only in `pysmt_forall_vars` (multi.py:89, 143, 218): the IR inputs, the non-constant inputs of the blocks and, without `use_real`,
the free outputs.  The black-box outputs of the IR are not among them. -/
structure MuSame (pb : MultiPb F T V) (a a' : MuAsg F V) : Prop where
  bindIn : a'.bindIn = a.bindIn
  bindOut : a'.bindOut = a.bindOut
  const : ∀ i, ∀ e ∈ pb.constDict, a'.archIn i e.1 = a.archIn i e.1
  irBB : a'.irBB = a.irBB

/-- Every variable has a value of its type; `dom t` are the values of type `t` (the variables of multi.py:83, 139-140, 187). -/
structure MuSorted (pb : MultiPb F T V) (dom : T → V → Prop) (a : MuAsg F V) : Prop where
  ir : ∀ e ∈ pb.irIn, dom e.2 (a.ir e.1)
  archIn : ∀ i, ∀ e ∈ pb.archIn, dom e.2 (a.archIn i e.1)
  archOut : ∀ i, ∀ e ∈ pb.archOut, dom e.2 (a.archOut i e.1)

/-- `formula` (multi.py:260). -/
def multiSat (pb : MultiPb F T V) (dom : T → V → Prop) (n : Nat) (bs : MuBdgs F) (a : MuAsg F V) : Prop :=
  ∀ a', MuSorted pb dom a' → MuSame pb a a' → multiFormula pb n bs a' = .ok true

/-- What `RR` reads from the solver and prints for each instruction (multi.py:278-294): the binding, and the value of its constant field. -/
def multiRR (pb : MultiPb F T V) (n : Nat) (bs : MuBdgs F) (a : MuAsg F V) : Except Err (List (MBdg F × List V)) :=
  match pb.enc.decode bs.valid.length (BV.ofNat (pb.enc.varLen bs.valid.length) a.bindIn).val with
  | .error e => .error e
  | .ok v =>
    match bs.valid[v]? with
    | none => .error .indexError
    | some x => .ok ((pick bs.blocks x).zip ((List.range n).map (fun i => pb.constDict.map (fun e => a.archIn i e.1))))

/-- `Multi(arch_fc, ir_fc, N, ...)()` (multi.py:39-295); `external_loop_solve` (C34) is given by `solve`: `solve φ` is an assignment for which `φ` holds or
`none`. -/
def multiSolve (pb : MultiPb F T V) (dom : T → V → Prop) (n : Nat) (solve : (MuAsg F V → Prop) → Option (MuAsg F V)) (a0 : MuAsg F V) :
    Except Err (Option (List (MBdg F × List V))) :=
  match multiBuild pb n with
  | .error e => .error e
  | .ok bs =>
    match multiFormula pb n bs a0 with
    | .error e => .error e
    | .ok _ =>
      match solve (multiSat pb dom n bs) with
      | none => .ok none
      | some a =>
        match multiRR pb n bs a with
        | .error e => .error e
        | .ok r => .ok (some r)

end Peak
