import Verif.Model.Types
/-!
# `peak/bitfield.py`

`Ty.prod` stands for `Product` and `Ty.sum` for `Sum`; a union's options are stored in the iteration order of `type.fields`.
Enum members with a negative value are not modelled (`notImplementedError`): Python would produce a negative word.
-/

namespace Peak

/-- `magma.bitutils.clog2(n)` (magma, not in /repo; used at peak/bitfield.py:28, 38, 40): the least `k` with `n ≤ 2^k`. -/
def clog2 (n : Nat) : Nat := bitLength (n - 1)

/-- The attributes the decorators put on classes: `bitfield(i)` (bitfield.py:52-56), 0 when absent (60), and `tag({...})`
(8-19); the decorator has checked that every option has a tag. -/
structure BfEnv where
  off : Nat → Nat
  tags : Nat → Option (List (Key × Nat))

/-- A value of the dict given to `tag`: an `int`, or anything else (bitfield.py:13-14). -/
inductive TagArg where
  | int (n : Int)
  | other

/-- `isinstance(t, int)` (bitfield.py:13) -/
def TagArg.isInt : TagArg → Bool
  | .int _ => true
  | .other => false

/-- Is it a negative number (bitfield.py:13)? -/
def TagArg.isNeg : TagArg → Bool
  | .int n => n < 0
  | .other => false

/-- The number (bitfield.py:16). -/
def TagArg.toNat : TagArg → Nat
  | .int n => n.toNat
  | .other => 0

/-- `tag(tags)(cls)` (bitfield.py:8-19): the attributes of the classes afterwards.  Options of a `Sum` stand for their types.  A negative tag is
accepted by the code; the model stops there (`notImplementedError`), as words are natural numbers. -/
def bfTag (env : BfEnv) (tags : List (Key × TagArg)) : Ty → Except Err BfEnv
  | .sum c fs =>
    if ¬ ((tags.map (·.1)).all (fun k => (fs.toList.map (·.1)).contains k) && (fs.toList.map (·.1)).all (fun k => (tags.map (·.1)).contains k)) then
      .error .valueError                                                       -- 11-12
    else if ¬ tags.all (fun p => p.2.isInt) then .error .typeError              -- 13-14
    else if tags.any (fun p => p.2.isNeg) then .error .notImplementedError
    else .ok { env with tags := fun c' => if c' = c then some (tags.map (fun p => (p.1, p.2.toNat))) else env.tags c' }   -- 16-17
  | _ => .error .typeError                                                     -- 10

/-- `sumsize` (peak/bitfield.py:35-41) -/
def bfSumsize (env : BfEnv) (cls : Nat) (fs : Fields) : Nat :=
  match env.tags cls with
  | some tags => clog2 ((tags.map (·.2)).foldl max 0 + 1)
  | none => clog2 fs.toList.length

mutual
/-- `size` (peak/bitfield.py:21-33) -/
def bfSize (env : BfEnv) : Ty → Nat
  | .bit _ => 1
  | .bv _ w => w
  | .enum _ ms => clog2 ms.length
  | .prod _ fs => bfSizes env fs
  | .sum c fs => bfMaxSize env fs + bfSumsize env c fs
/-- `sum([size(...) ...])` (peak/bitfield.py:30) -/
def bfSizes (env : BfEnv) : Fields → Nat
  | .nil => 0
  | .cons _ t fs => bfSize env t + bfSizes env fs
/-- `max([size(f) ...])` (peak/bitfield.py:32) -/
def bfMaxSize (env : BfEnv) : Fields → Nat
  | .nil => 0
  | .cons _ t fs => max (bfSize env t) (bfMaxSize env fs)
end

/-- `instkey` (peak/bitfield.py:43-50) -/
def bfInstkey (env : BfEnv) (cls : Nat) (fs : Fields) (k : Key) : Except Err Nat :=
  match env.tags cls with
  | some tags => match tags.lookup k with
    | some i => .ok i
    | none => .error .keyError
  | none => match fs.toList.findIdx? (fun p => p.1 == k) with
    | some i => .ok i
    | none => .error .valueError

mutual
/-- `encode` (peak/bitfield.py:59-93) -/
def bfEncode (env : BfEnv) (reverse : Bool) : Ty → Val → Except Err Nat
  | .bit c, .bit b => .ok (b.toNat <<< env.off c)
  | .bv c _, .bits b => .ok (b.val <<< env.off c)
  | .enum c _, .enum e => match e with
    | .lit v => if v < 0 then .error .notImplementedError else .ok (v.toNat <<< env.off c)
    | .auto _ => .error .typeError
  | .prod c fs, .prod vs =>
    match (if reverse then bfRight env reverse fs vs (bfSizes env fs) 0 else bfLeft env reverse fs vs 0 0) with
    | .error e => .error e
    | .ok word => .ok (word <<< env.off c)
  | .sum c fs, .sum k v =>
    match bfInstkey env c fs k with
    | .error e => .error e
    | .ok tag =>
      match bfOption env reverse fs k v with
      | .error e => .error e
      | .ok p =>
        let word :=
          if reverse then                                                       -- 84-87
            (tag <<< (bfMaxSize env fs + bfSumsize env c fs - bfSumsize env c fs)) ||| p
          else (p <<< bfSumsize env c fs) ||| tag                               -- 88-90
        .ok (word <<< env.off c)
  | _, _ => .error .valueError
/-- The loop in `encode` (peak/bitfield.py:75-81). -/
def bfLeft (env : BfEnv) (reverse : Bool) : Fields → List Val → Nat → Nat → Except Err Nat
  | .nil, [], _, word => .ok word
  | .cons _ t fs, v :: vs, pos, word =>
    match bfEncode env reverse t v with
    | .error e => .error e
    | .ok x => bfLeft env reverse fs vs (pos + bfSize env t) (word ||| (x <<< pos))
  | _, _, _, _ => .error .attributeError
/-- The loop in `encode` (peak/bitfield.py:68-74). -/
def bfRight (env : BfEnv) (reverse : Bool) : Fields → List Val → Nat → Nat → Except Err Nat
  | .nil, [], _, word => .ok word
  | .cons _ t fs, v :: vs, pos, word =>
    match bfEncode env reverse t v with
    | .error e => .error e
    | .ok x => bfRight env reverse fs vs (pos - bfSize env t) (word ||| (x <<< (pos - bfSize env t)))
  | _, _, _, _ => .error .attributeError
/-- `encode(inst._value_, reverse)` (peak/bitfield.py:87, 90; in line 90 `reverse` is False). -/
def bfOption (env : BfEnv) (reverse : Bool) : Fields → Key → Val → Except Err Nat
  | .nil, _, _ => .error .keyError
  | .cons k' t fs, k, v => if k = k' then bfEncode env reverse t v else bfOption env reverse fs k v
end

end Peak
