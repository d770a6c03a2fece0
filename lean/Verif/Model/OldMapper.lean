import Verif.Model.Bindings
/-!
# The enumerating mapper: `gen_mapping` of `peak/mapper/oldmapper.py`

The PE, the CoreIR module and the two instruction lists are parameters.  The attributes `_peak_inputs_` and `_peak_outputs_` of the
PE's `__call__` are given (no decorator of the repository sets them; see DESIGN.md).  Symbolic values are functions of the values of the
CoreIR module's inputs; the solver is a parameter that answers a query, a set of such values.
-/

namespace Peak

/-- The types of ports that are not algebraic data types: `SMTBit` and `SMTBitVector[w]` (oldmapper.py:26-33, 58-60). -/
inductive OTy
  | bit
  | bv (w : Nat)
  deriving DecidableEq

/-- `d[k] = v` (Python; oldmapper.py:19-24). -/
def dictSet {α β : Type} [DecidableEq α] (k : α) (v : β) : List (α × β) → List (α × β)
  | [] => [(k, v)]
  | (k', v') :: d => if k = k' then (k', v) :: d else (k', v') :: dictSet k v d

/-- The arguments of `gen_mapping` (oldmapper.py:35-46). -/
structure OldPb (St BI SI : Type) where
  /-- `peak_class.__call__._peak_inputs_` (oldmapper.py:55); `none` is an ADT. -/
  peakInputs : List (String × Option OTy)
  /-- The names of `peak_class.__call__._peak_outputs_` (oldmapper.py:56, 118). -/
  peakOutputs : List String
  /-- The state of `peak_class()` (oldmapper.py:53). -/
  init : St
  /-- `peak_inst(inst, **binding_dict)` (oldmapper.py:109): the next state and the values of the returned tuple.  Simplified: a call never raises. -/
  call : St → SI → (String → Nat) → St × List Nat
  /-- The SMT sorts of the returned tuple, `none` for a value that is neither an `SMTBit` nor an `SMTBitVector` (oldmapper.py:113-114). -/
  outSorts : SI → List (Option OTy)
  /-- The inputs of `coreir_module` with their sizes (oldmapper.py:58). -/
  coreIn : List (String × Nat)
  /-- The sort of the value of `coreir_model` (oldmapper.py:114). -/
  coreSort : OTy
  /-- `coreir_model(**core_smt_vars)` (oldmapper.py:61). -/
  coreFn : (String → Nat) → Nat
  /-- `bv_isa.enumerate()` (oldmapper.py:93). -/
  bvIsa : List BI
  /-- `smt_isa.enumerate()` (oldmapper.py:96). -/
  smtIsa : List SI
  /-- `f_fun` (oldmapper.py:89-90) on either kind of instruction. -/
  okBv : BI → Bool
  okSmt : SI → Bool

/-- What `gen_mapping` yields (oldmapper.py:127-131); the output map has the single key `"out"`. -/
structure OldMap (BI : Type) where
  instruction : BI
  output : String
  inputMap : List (String × String)
  deriving DecidableEq

/-- `_filter_io_types` (oldmapper.py:26-32). -/
def filterIO (io : List (String × Option OTy)) : List (String × OTy) :=
  io.filterMap (fun e => e.2.map (fun t => (e.1, t)))

/-- `k if k != 'in' else 'in_'` (oldmapper.py:58). -/
def inName (k : String) : String := if k ≠ "in" then k else "in_"

/-- `core_inputs` (oldmapper.py:58). -/
def coreInputs (core : List (String × Nat)) : List (String × OTy) :=
  core.foldl (fun d e => dictSet (inName e.1) (OTy.bv e.2) d) []

/-- Every element of the list with the rest of the list (Python's `itertools`; oldmapper.py:77). -/
def picks {α : Type} : List α → List (α × List α)
  | [] => []
  | a :: l => (a, l) :: (picks l).map (fun e => (e.1, a :: e.2))

/-- The permutations of a list of `n` elements, in the order of `itertools.permutations` (Python; oldmapper.py:77). -/
def permsN {α : Type} : Nat → List α → List (List α)
  | 0, _ => [[]]
  | n + 1, l => (picks l).flatMap (fun e => (permsN n e.2).map (fun r => e.1 :: r))

/-- `itertools.permutations(l)` (Python; oldmapper.py:77). -/
def pyPerms {α : Type} (l : List α) : List (List α) := permsN l.length l

/-- The body of the loop over types (oldmapper.py:74-78). -/
def oldTypeBindings {P : Type} (ci pi : List P) : List (List (Option P × P)) :=
  (pyPerms pi).map (fun perm => (ci.map some ++ List.replicate (pi.length - ci.length) none).zip perm)

/-- The bindings (oldmapper.py:65-85), or the AssertionError of lines 68-70.  The assertion of line 76 holds because of line 70. -/
def oldBindings {P T : Type} [DecidableEq T] (peak core : List (P × T)) : Except Err (List (List (Option P × P))) :=
  let coreByT := sortByT core
  let peakByT := sortByT peak
  if !(coreByT.all (fun e => (peakByT.lookup e.1).isSome)) then .error .assertionError                      -- 68
  else if !(coreByT.all (fun e => e.2.length ≤ ((peakByT.lookup e.1).getD []).length)) then
    .error .assertionError                                                                                 -- 69-70
  else .ok ((pyProduct (peakByT.map (fun e => oldTypeBindings ((coreByT.lookup e.1).getD []) e.2))).map List.flatten)

/-- `binding_dict` (oldmapper.py:106): the values given to the PE's inputs, as a function of the values of the CoreIR inputs.  The keys of
a binding are distinct, so the order in which the dict is filled does not matter. -/
def bindingEnv (b : List (Option String × String)) (ρ : String → Nat) (k : String) : Nat :=
  match b.find? (fun e => e.2 == k) with
  | some (some v, _) => ρ v
  | _ => 0

/-- `name_binding` and `input_map` (oldmapper.py:107, 119-125). -/
def oldInputMap (b : List (Option String × String)) : List (String × String) :=
  b.foldl (fun d e =>
    dictSet (match e.1 with | none => "0" | some v => if v = "in_" then "in" else v) e.2 d) []

section
variable {St BI SI : Type}

/-- How a loop ends: it goes on with a number of mappings still to be found, or the generator returns or raises (the loops of oldmapper.py:101-134). -/
abbrev OldEnd := Nat ⊕ Option Err

/-- The loop over the returned values (oldmapper.py:113-135).  `st` is the state of `peak_inst` before the call, `n` the number of mappings
still wanted, at least 1. -/
def oldOuts (pb : OldPb St BI SI) (unsat : ((String → Nat) → Prop) → Bool) (bvL : List BI) (ii : Nat) (inst : SI)
    (b : List (Option String × String)) (st : (String → Nat) → St) :
    List (Nat × Option OTy) → Nat → List (OldMap BI) × OldEnd
  | [], n => ([], .inl n)
  | (idx, s) :: rest, n =>
    if s = some pb.coreSort ∧                                                                          -- 114
        unsat (fun ρ => (pb.call (st ρ) inst (bindingEnv b ρ)).2[idx]? ≠ some (pb.coreFn ρ)) = true then       -- 116, 139-142
      match pb.peakOutputs[idx]? with                                                                  -- 118
      | none => ([], .inr (some .indexError))
      | some o =>
        match bvL[ii]? with                                                                            -- 128
        | none => ([], .inr (some .indexError))
        | some i =>
          if n ≤ 1 then ([⟨i, o, oldInputMap b⟩], .inr none)                                           -- 132-135
          else
            let r := oldOuts pb unsat bvL ii inst b st rest (n - 1)
            (⟨i, o, oldInputMap b⟩ :: r.1, r.2)
    else oldOuts pb unsat bvL ii inst b st rest n

/-- The loops over instructions and bindings (oldmapper.py:101-111): every call is made on the same `peak_inst`. -/
def oldCalls (pb : OldPb St BI SI) (unsat : ((String → Nat) → Prop) → Bool) (bvL : List BI) :
    List (Nat × SI × List (Option String × String)) → ((String → Nat) → St) → Nat → List (OldMap BI) × OldEnd
  | [], _, n => ([], .inl n)
  | (ii, inst, b) :: rest, st, n =>
    let r := oldOuts pb unsat bvL ii inst b st ((pb.outSorts inst).zipIdx.map (fun e => (e.2, e.1))) n
    match r.2 with
    | .inr x => (r.1, .inr x)
    | .inl n' =>
      let r' := oldCalls pb unsat bvL rest (fun ρ => (pb.call (st ρ) inst (bindingEnv b ρ)).1) n'
      (r.1 ++ r'.1, r'.2)

/-- `gen_mapping` (oldmapper.py:35-135): the mappings yielded when the generator is run to its end, and the exception it ends with.
Logging (48-51) is not modelled. -/
def genMapping (pb : OldPb St BI SI) (unsat : ((String → Nat) → Prop) → Bool) (maxMappings : Int) :
    List (OldMap BI) × Option Err :=
  match oldBindings (filterIO pb.peakInputs) (coreInputs pb.coreIn) with
  | .error e => ([], some e)
  | .ok bindings =>
    if 0 ≥ maxMappings then ([], none)                                                                 -- 86-88
    else
      let bvL := pb.bvIsa.filter pb.okBv
      let smtL := pb.smtIsa.filter pb.okSmt
      let r := oldCalls pb unsat bvL
        (smtL.zipIdx.flatMap (fun e => bindings.map (fun b => (e.2, e.1, b)))) (fun _ => pb.init) maxMappings.toNat
      (r.1, match r.2 with | .inl _ => none | .inr x => x)

end
end Peak
