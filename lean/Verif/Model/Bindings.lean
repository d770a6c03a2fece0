import Verif.Model.Basic
/-!
# Binding enumeration: `peak/mapper/utils.py:374-422` and `peak/mapper/multi.py:14-36, 135-188`

Paths are an arbitrary type `P` with decidable equality, types (hwtypes classes, used as dict keys) an arbitrary type `T`.
A `dict` is an association list in insertion order; `Unbound` is `none`.
-/

namespace Peak

/-- `t2path.setdefault(t, []).append(tup)` (utils.py:378). -/
def addByT {P T : Type} [DecidableEq T] (t : T) (p : P) : List (T × List P) → List (T × List P)
  | [] => [(t, [p])]
  | (t', ps) :: rest => if t = t' then (t', ps ++ [p]) :: rest else (t', ps) :: addByT t p rest

/-- `_sort_by_t` (utils.py:374-380). -/
def sortByT {P T : Type} [DecidableEq T] (path2t : List (P × T)) : List (T × List P) :=
  path2t.foldl (fun t2path e => addByT e.2 e.1 t2path) []

/-- `itertools.product(*ls)`: the last position varies fastest (Python; used at utils.py:414, 420 and multi.py:33, 184). -/
def pyProduct {α : Type} : List (List α) → List (List α)
  | [] => [[]]
  | l :: ls => l.flatMap (fun x => (pyProduct ls).map (fun xs => x :: xs))

/-- `filt` (utils.py:403-411). -/
def bindFilt {P : Type} [DecidableEq P] (irPaths : List P) (poss : List (Option P)) : Bool :=
  irPaths.all (fun p => poss.count (some p) == 1)

/-- The body of the loop over architecture types (utils.py:392-417). -/
def typeBindings {P : Type} [DecidableEq P] (irPaths archPaths : List P) : List (List (Option P × P)) :=
  ((pyProduct (List.replicate archPaths.length (irPaths.map some ++ [none]))).filter (bindFilt irPaths)).map
    (fun irMatch => irMatch.zip archPaths)

/-- `create_bindings` (utils.py:384-422). -/
def createBindings {P T : Type} [DecidableEq P] [DecidableEq T] (archFlat irFlat : List (P × T)) :
    List (List (Option P × P)) :=
  let archByT := sortByT archFlat
  let irByT := sortByT irFlat
  if irByT.all (fun e => (archByT.lookup e.1).isSome) then                       -- 388-389
    (pyProduct (archByT.map (fun e => typeBindings ((irByT.lookup e.1).getD []) e.2))).map List.flatten
  else []

/-- `create_bindings` of multi.py (14-36). -/
def createBindings2 {P T : Type} [DecidableEq P] [DecidableEq T] (inputs outputs : List (P × T)) (useUnbound : Bool) :
    Except Err (List (List (Option P × P))) :=
  let inputsByT := sortByT inputs
  let outputsByT := sortByT outputs
  if !useUnbound && !(outputsByT.all (fun e => (inputsByT.lookup e.1).isSome)) then .error .valueError   -- 18-19
  else
    let possible := outputs.map (fun o =>                                                               -- 23-30
      (if useUnbound then [none] else []) ++
        (match inputsByT.lookup o.2 with | some ps => ps.map some | none => []))
    if possible.all (fun p => p.length > 0) then                                                        -- 31
      .ok ((pyProduct possible).map (fun l => l.zip (outputs.map (·.1))))                               -- 32-36
    else .error .assertionError

/-- The paths of multi.py: `("IR_in", f)`, `("Arch_out", j, f)`, `("Arch_in", i, f)` and `("IR_out", f)` (multi.py:93-113, 149-158, 171, 227-230). -/
inductive MPath (F : Type)
  | irIn (f : F)
  | archOut (j : Nat) (f : F)
  | archIn (i : Nat) (f : F)
  | irOut (f : F)
  deriving DecidableEq

/-- The sources available to block `i` (multi.py:149-157).  The keys of the merged dicts are distinct. -/
def multiInputs {F T : Type} (irIn archOut : List (F × T)) (i : Nat) : List (MPath F × T) :=
  irIn.map (fun e => (.irIn e.1, e.2)) ++
    (List.range i).flatMap (fun j => archOut.map (fun e => (.archOut j e.1, e.2)))

/-- The inputs of block `i` to be bound (multi.py:158): the non-constant ones. -/
def multiOutputs {F T : Type} (archIn : List (F × T)) (i : Nat) : List (MPath F × T) :=
  archIn.map (fun e => (.archIn i e.1, e.2))

/-- The bindings of every block (multi.py:135-168, 172). -/
def multiBlocks {F T : Type} [DecidableEq F] [DecidableEq T] (irIn archOut archIn : List (F × T)) :
    List Nat → Except Err (List (List (List (Option (MPath F) × MPath F))))
  | [] => .ok []
  | i :: is =>
    match createBindings2 (multiInputs irIn archOut i) (multiOutputs archIn i) true with
    | .error e => .error e
    | .ok bs =>
      match multiBlocks irIn archOut archIn is with
      | .error e => .error e
      | .ok rest => .ok (bs :: rest)

/-- `[b[x[j]] for j, b in enumerate(all_bindings)]` (multi.py:176); the indices come from the ranges of line 184, so no lookup
fails. -/
def pick {α : Type} : List (List α) → List Nat → List α
  | b :: bs, x :: xs => (b[x]?).toList ++ pick bs xs
  | _, _ => []

/-- `filt` of multi.py (175-183). -/
def multiFilt {F : Type} [DecidableEq F] (irPaths : List (MPath F)) (bind : List (List (Option (MPath F) × MPath F))) : Bool :=
  irPaths.all (fun p => (bind.map (fun b => b.countP (fun e => e.1 == some p))).sum == 1)

/-- `valid_bindings` (multi.py:170-186): the index tuples that pass the filter; ValueError when there is none.  With no block, the
`reduce` of line 174 is a TypeError. -/
def multiValid {F T : Type} [DecidableEq F] [DecidableEq T] (irIn archOut archIn : List (F × T)) (n : Nat) :
    Except Err (List (List (List (Option (MPath F) × MPath F))) × List (List Nat)) :=
  match multiBlocks irIn archOut archIn (List.range n) with
  | .error e => .error e
  | .ok blocks =>
    if n = 0 then .error .typeError
    else
      let valid := (pyProduct (blocks.map (fun b => List.range b.length))).filter
        (fun x => multiFilt (irIn.map (fun e => .irIn e.1)) (pick blocks x))
      if valid.length = 0 then .error .valueError else .ok (blocks, valid)

end Peak
