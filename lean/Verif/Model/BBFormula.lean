import Verif.Model.Basic
/-!
# `peak/mapper/mapper.py:424-462` `update_with_bb`

Evaluated under one assignment: symbolic bit vectors are their values, symbolic bits Booleans.  `P` is the type of paths, `K` of
black-box classes.
-/

namespace Peak

/-- `set(a.keys()) == set(b.keys())` (mapper.py:435-436). -/
def bbSameKeys {P A B : Type} [DecidableEq P] (a : List (P × A)) (b : List (P × B)) : Bool :=
  a.all (fun x => (b.lookup x.1).isSome) && b.all (fun x => (a.lookup x.1).isSome)

/-- The inner loop of mapper.py:444-450 for one of the two sides: the recorded (type, inputs, outputs). -/
def bbCollect {P K : Type} [DecidableEq P] (inputs outputs : List (P × List BV)) :
    List (P × K) → Except Err (List (K × List BV × List BV))
  | [] => .ok []
  | (path, ty) :: rest =>
    match inputs.lookup path with
    | none => .error .keyError
    | some i =>
      match outputs.lookup path with
      | none => .error .keyError
      | some o =>
        match bbCollect inputs outputs rest with
        | .error e => .error e
        | .ok r => .ok ((ty, i, o) :: r)

/-- `bb_io.setdefault(type(bb), []).append((i, o))` (mapper.py:450). -/
def bbAdd {K : Type} [DecidableEq K] (k : K) (io : List BV × List BV) :
    List (K × List (List BV × List BV)) → List (K × List (List BV × List BV))
  | [] => [(k, [io])]
  | (k', ios) :: rest => if k = k' then (k', ios ++ [io]) :: rest else (k', ios) :: bbAdd k io rest

/-- `itertools.combinations(v, 2)` (mapper.py:453). -/
def combinations2 {α : Type} : List α → List (α × α)
  | [] => []
  | x :: xs => xs.map (fun y => (x, y)) ++ combinations2 xs

/-- `And((a == b) for a, b in zip(x, y))` (mapper.py:456-457): comparing vectors of different widths is a TypeError (hwtypes), and the
empty conjunction is rejected (formula_constructor.py:30). -/
def eqAll (x y : List BV) : Except Err Bool :=
  if (x.zip y).any (fun p => p.1.size != p.2.size) then .error .typeError
  else if (x.zip y).length = 0 then .error .assertionError else .ok ((x.zip y).all (fun p => p.1.val == p.2.val))

/-- One pair of calls (mapper.py:454-458): `Implies(i_cond, o_cond)`. -/
def bbPair (c d : List BV × List BV) : Except Err Bool :=
  if c.1.length ≠ d.1.length then .error .assertionError
  else if c.2.length ≠ d.2.length then .error .assertionError
  else
    match eqAll c.1 d.1 with
    | .error e => .error e
    | .ok i =>
      match eqAll c.2 d.2 with
      | .error e => .error e
      | .ok o => .ok (!i || o)

/-- The conditions of all pairs (mapper.py:451-458). -/
def bbPairs : List ((List BV × List BV) × (List BV × List BV)) → Except Err (List Bool)
  | [] => .ok []
  | (c, d) :: rest =>
    match bbPair c d with
    | .error e => .error e
    | .ok b =>
      match bbPairs rest with
      | .error e => .error e
      | .ok bs => .ok (b :: bs)

/-- `update_with_bb` (mapper.py:425-462): the formula's value and the universally quantified outputs. -/
def updateWithBB {P K : Type} [DecidableEq P] [DecidableEq K] (f : Bool)
    (archBBs : List (P × K)) (archIn archOut : List (P × List BV))
    (irBBs : List (P × K)) (irIn irOut : List (P × List BV)) : Except Err (Bool × List BV) :=
  if !bbSameKeys archOut archIn then .error .assertionError
  else if !bbSameKeys irIn irOut then .error .assertionError
  else
    match bbCollect archIn archOut archBBs with
    | .error e => .error e
    | .ok ca =>
      match bbCollect irIn irOut irBBs with
      | .error e => .error e
      | .ok ci =>
        let bbForall := (ca ++ ci).flatMap (fun c => c.2.2)                                      -- 449
        let bbIo := (ca ++ ci).foldl (fun m c => bbAdd c.1 c.2 m) []                             -- 450
        match bbPairs (bbIo.flatMap (fun e => combinations2 e.2)) with
        | .error e => .error e
        | .ok conds => .ok (if conds.length > 0 then !(conds.all id) || f else f, bbForall)      -- 459-462

end Peak
