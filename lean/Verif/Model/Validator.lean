import Verif.Model.Basic
/-!
# `_gen_is_valid` (peak/assembler/assembler_util.py; identical copy in peak/assembler2/assembler_util.py)
-/

namespace Peak

/-- A generated `is_valid` closure (assembler_util.py:16-18). -/
abbrev Validator := BV → Bool

/-- assembler_util.py:15 `_validator_cache`: a process-global dict keyed by the sorted opcode tuple only. -/
abbrev VCache := List (List Nat × Validator)

/-- `_validator_cache.setdefault(opcodes, f)` (assembler_util.py:39, 49, 123). -/
def VCache.setdefault (c : VCache) (ops : List Nat) (f : Validator) : Validator × VCache :=
  match c.lookup ops with
  | some g => (g, c)
  | none => (f, c ++ [(ops, f)])

/-- One step of `sorted(opcodes)` (assembler_util.py:22). -/
def insertNat (x : Nat) : List Nat → List Nat
  | [] => [x]
  | y :: l => if x ≤ y then x :: y :: l else y :: insertNat x l

/-- `sorted(opcodes)` (assembler_util.py:22). -/
def sortNat : List Nat → List Nat
  | [] => []
  | x :: l => insertNat x (sortNat l)

/-- `range(a, b)` (Python; used at assembler_util.py:31, 102-112). -/
def pyRange (a b : Nat) : List Nat := List.range' a (b - a)

/-- assembler_util.py:37-38: every code is valid. -/
def vAlways : Validator := fun _ => true

/-- assembler_util.py:42-45: the naive disjunction of equalities. -/
def vNaive (ops : List Nat) : Validator := fun b => ops.foldl (fun acc c => acc || b.eqInt c) false

/-- assembler_util.py:55-56 -/
def vUpper (maxOp : Nat) : Validator := fun b => b.leInt maxOp

/-- assembler_util.py:58-59 -/
def vLower (minOp : Nat) : Validator := fun b => b.geInt minOp

/-- assembler_util.py:61-62 -/
def vBetween (minOp maxOp : Nat) : Validator := fun b => b.geInt minOp && b.leInt maxOp

/-- assembler_util.py:83-92 -/
def vOneHot (invalid : List Nat) : Validator := fun b =>
  (b.and b.pred).eqInt 0 && invalid.foldl (fun acc c => acc && !b.eqInt c) true

/-- assembler_util.py:117-121.  Note the initial value `Bit(1)` of the `or_` reduction. -/
def vRanges (vs : List Validator) : Validator := fun b => vs.foldl (fun acc f => acc || f b) true

/-- assembler_util.py:68-77: `0` and the powers of two below `2^width` that are not opcodes. -/
def invalidOneHot (ops : List Nat) (width : Nat) : List Nat :=
  (if 0 ∈ ops then [] else [0]) ++ ((List.range width).map (2 ^ ·)).filter (fun x => x ∉ ops)

/-- assembler_util.py:96-113: the maximal contiguous ranges.  `lb` is the current lower bound, `i` the
previous opcode.  After the loop `j = max_op`, and both reachable branches of 107-110 append
`range(lb, max_op+1)` (the branch 111-113 is unreachable, since a gap at the end sets `lb = j`). -/
def splitRanges (lb i : Nat) : List Nat → List (List Nat)
  | [] => [pyRange lb (i + 1)]
  | j :: rest =>
    if j = i + 1 then splitRanges lb j rest else pyRange lb (i + 1) :: splitRanges j j rest

/-- One recursive generation per range, threading the cache (assembler_util.py:102-113). -/
def genRanges (rec : List Nat → VCache → Except Err Validator × VCache) :
    List (List Nat) → VCache → Except Err (List Validator) × VCache
  | [], c => (.ok [], c)
  | r :: rs, c =>
    match rec r c with
    | (.error e, c) => (.error e, c)
    | (.ok v, c) =>
      match genRanges rec rs c with
      | (.error e, c) => (.error e, c)
      | (.ok vs, c) => (.ok (v :: vs), c)

/-- The body of `_gen_is_valid` (assembler_util.py:16-123); `rec` stands for the recursive calls. -/
def genBody (rec : List Nat → VCache → Except Err Validator × VCache)
    (opcodes : List Nat) (width : Nat) (c : VCache) : Except Err Validator × VCache :=
  let ops := sortNat opcodes                                           -- 22
  match c.lookup ops with                                              -- 23-26
  | some v => (.ok v, c)
  | none =>
    match ops with
    | [] => (.error .indexError, c)                                    -- 28 opcodes[0]
    | minOp :: rest =>
      let maxOp := (minOp :: rest).getLast (by simp)                   -- 29
      let isRange := (minOp :: rest) == pyRange minOp (maxOp + 1)      -- 31
      let implicitLb := minOp == 0                                     -- 32
      let implicitUb := maxOp == 2 ^ width - 1                         -- 33
      let ret (v : Validator) (c : VCache) : Except Err Validator × VCache :=
        let (v, c) := c.setdefault ops v; (.ok v, c)
      if isRange && implicitLb && implicitUb then ret vAlways c        -- 36-39
      else if ops.length < 3 then ret (vNaive ops) c                   -- 47-49
      else if isRange then                                             -- 52-62
        if implicitLb then ret (vUpper maxOp) c
        else if implicitUb then ret (vLower minOp) c
        else ret (vBetween minOp maxOp) c
      else if ops.all (fun x => x &&& (x - 1) == 0) then               -- 65
        let invalid := invalidOneHot ops width
        if invalid.length < ops.length then ret (vOneHot invalid) c    -- 82-92
        else ret (vNaive ops) c
      else                                                             -- 95
        match genRanges rec (splitRanges minOp minOp rest) c with
        | (.error e, c) => (.error e, c)
        | (.ok vs, c) =>
          -- 116: `1.1 * len(vs) < len(ops)`; the float comparison agrees with the exact rational one
          if 11 * vs.length < 10 * ops.length then ret (vRanges vs) c
          else ret (vNaive ops) c

/-- `_gen_is_valid` with bounded recursion depth (assembler_util.py:16-123). -/
def genRec : Nat → List Nat → Nat → VCache → Except Err Validator × VCache
  | 0, _, _, c => (.error .assertionError, c)
  | n + 1, ops, w, c => genBody (fun r c => genRec n r w c) ops w c

/-- `_gen_is_valid(opcodes, width)` (assembler_util.py:16-123).  Recursive calls are made only on
contiguous ranges, which never recurse again, so depth 2 is exact (`genRec_depth` in Lemmas). -/
def genIsValid (opcodes : List Nat) (width : Nat) (c : VCache) : Except Err Validator × VCache :=
  genRec 2 opcodes width c

end Peak
