import Verif.Model.AutoAssembler
/-!
# The layout returned by `generate_assembler` (auto_assembler.py:70, 94, 128, 154)
-/

namespace Peak.Auto

mutual
/-- The fourth result: None for bit vectors and bits, a dict otherwise (auto_assembler.py:45-184). -/
inductive Lay
  | none
  | members (ms : List EVal) (width : Nat)
  | dict (l : Lays)
/-- The items of the dict: key, begin, end, layout of the part (auto_assembler.py:94, 128). -/
inductive Lays
  | nil
  | cons (k : Key) (lo hi : Nat) (sub : Lay) (rest : Lays)
end

mutual
/-- The layout of `generate_assembler` (peak/auto_assembler.py:168-184). -/
def layout : Ty → Except Err Lay
  | .bv _ _ => .ok .none                                                      -- 154
  | .bit _ => .ok .none
  | .enum _ ms => match autoEnum ms with                                      -- 70
    | .error e => .error e
    | .ok o => .ok (.members ms o.width)
  | .prod _ fs => (fieldsFrom 0 fs).map .dict                                 -- 89-95
  | .sum _ fs => (optionsAt (bitLength fs.toList.length) fs).map .dict        -- 120-128
/-- auto_assembler.py:89-95 -/
def fieldsFrom (base : Nat) : Fields → Except Err Lays
  | .nil => .ok .nil
  | .cons k t fs =>
    match generateAssembler t, layout t with
    | .ok o, .ok l =>
      match fieldsFrom (base + o.width) fs with
      | .ok r => .ok (.cons k base (base + o.width) l r)
      | .error e => .error e
    | .error e, _ => .error e
    | _, .error e => .error e
/-- auto_assembler.py:122-128 -/
def optionsAt (tagWidth : Nat) : Fields → Except Err Lays
  | .nil => .ok .nil
  | .cons k t fs =>
    match generateAssembler t, layout t with
    | .ok o, .ok l =>
      match optionsAt tagWidth fs with
      | .ok r => .ok (.cons k tagWidth (tagWidth + o.width) l r)
      | .error e => .error e
    | .error e, _ => .error e
    | _, .error e => .error e
end

/-- `layout[key]` (Python; the dict of auto_assembler.py:94, 128) -/
def Lays.get : Lays → Key → Option (Nat × Nat × Lay)
  | .nil, _ => .none
  | .cons k lo hi sub rest, k' => if k' = k then some (lo, hi, sub) else rest.get k'

/-- Following the third components along a path, as rtl_utils.py:15-21 does: the range of bits of the part at the path. -/
def Lay.range (lo hi : Nat) : Lay → List Key → Option (Nat × Nat)
  | _, [] => some (lo, hi)
  | .dict l, k :: ks => match l.get k with
    | some (a, b, sub) => sub.range (lo + a) (lo + b) ks
    | .none => .none
  | _, _ :: _ => .none

end Peak.Auto
