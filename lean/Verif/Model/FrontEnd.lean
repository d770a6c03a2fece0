import Verif.Model.IRMapper
import Verif.Model.OldMapper
/-!
# `peak/mapper/mapper.py:50-59, 75-86, 112-133, 143, 170-178` and `peak/mapper/multi.py:40-72`: what the mapper takes, and which inputs are `Const`
-/

namespace Peak.FE
open Peak

/-- A modifier (hwtypes; mapper.py:75-86), coded by a number. -/
abbrev Mod := Nat

/-- `Const` (peak/peak.py:75; used at mapper.py:143, 170). -/
def const : Mod := 0

mutual
/-- An input type with its modifiers (mapper.py:119): as `Ty`, where any type may be wrapped in modifiers (hwtypes). -/
inductive MTy
  | mod (m : Mod) (t : MTy)
  | bv (cls w : Nat)
  | bit (cls : Nat)
  | enum (cls : Nat) (members : List EVal)
  | prod (cls : Nat) (fs : MFields)
  | sum (cls : Nat) (fs : MFields)
/-- The items of `field_dict` (mapper.py:81). -/
inductive MFields
  | nil
  | cons (k : Key) (t : MTy) (rest : MFields)
end

/-- `list(field_dict.items())` (mapper.py:81, 143). -/
def MFields.toList : MFields → List (Key × MTy)
  | .nil => []
  | .cons k t fs => (k, t) :: fs.toList

mutual
/-- `strip_modifiers` (hwtypes, not in /repo; called at mapper.py:123, 177): removes the modifiers at every level. -/
def MTy.strip : MTy → Ty
  | .mod _ t => t.strip
  | .bv c w => .bv c w
  | .bit c => .bit c
  | .enum c ms => .enum c ms
  | .prod c fs => .prod c fs.strip
  | .sum c fs => .sum c fs.strip
/-- `strip_modifiers` of the fields (mapper.py:123, 177). -/
def MFields.strip : MFields → Fields
  | .nil => .nil
  | .cons k t fs => .cons k t.strip fs.strip
end

/-- `flatmap.update(sub_flatmap)` (Python's dictionaries; mapper.py:83). -/
def update {β : Type} (d sub : List (RPath × β)) : List (RPath × β) := sub.foldl (fun d e => dictSet e.1 e.2 d) d

mutual
/-- `_create_path_to_adt` (mapper.py:75-86) of a type from which the modifiers `new` were unwrapped; the order in which hwtypes lists
several modifiers is not modelled.  A leaf is given with its modifiers. -/
def pathTypes : MTy → RPath → (new mods : List Mod) → List (RPath × (List Mod × Ty))
  | .mod m t, p, new, mods => pathTypes t p (new ++ [m]) mods             -- 77
  | .prod _ fs, p, new, mods => pathTypesF fs p (new ++ mods) []          -- 78-83
  | .sum _ fs, p, new, mods => pathTypesF fs p (new ++ mods) []
  | .bv c w, p, new, mods => [(p, (new ++ mods, .bv c w))]                -- 85
  | .bit c, p, new, mods => [(p, (new ++ mods, .bit c))]
  | .enum c ms, p, new, mods => [(p, (new ++ mods, .enum c ms))]          -- `EnumMeta`: 80
/-- The loop over the fields (mapper.py:81-83), from the given `flatmap`. -/
def pathTypesF : MFields → RPath → List Mod → List (RPath × (List Mod × Ty)) → List (RPath × (List Mod × Ty))
  | .nil, _, _, d => d
  | .cons k t fs, p, mods, d => pathTypesF fs p mods (update d (pathTypes t (p ++ [k]) [] mods))
end

/-- `const_paths` (mapper.py:170). -/
def constPaths (t : MTy) : List RPath := ((pathTypes t [] [] []).filter (fun e => e.2.1.contains const)).map (·.1)

/-- `issubclass(T, Const)`: `T` is wrapped in `Const`, whatever the other modifiers around it (hwtypes; mapper.py:143). -/
def MTy.isConst : MTy → Bool
  | .mod m t => m == const || t.isConst
  | _ => false

/-- `const_fields` (mapper.py:143); the keys of `const_dict` (multi.py:53). -/
def constFields (fs : MFields) : List Key := (fs.toList.filter (fun e => e.2.isConst)).map (·.1)

mutual
/-- The paths of the types that are wrapped in `Const`: what `MapPb` is given as `irConst`, `archConst` (mapper.py:75-86). -/
def constRoots : MTy → RPath → List RPath
  | .mod m t, p => if m = const then [p] else constRoots t p
  | .prod _ fs, p => constRootsF fs p
  | .sum _ fs, p => constRootsF fs p
  | _, _ => []
/-- As `constRoots`, for the fields (mapper.py:81-83). -/
def constRootsF : MFields → RPath → List RPath
  | .nil, _ => []
  | .cons k t fs, p => constRoots t (p ++ [k]) ++ constRootsF fs p
end

/-! ## what a closure returns -/

/-- An object returned by a closure (mapper.py:50-59): a Peak class, with or without the attributes `input_t` and `output_t`, or anything else. -/
inductive Obj
  | peak (id : Nat) (types : Bool)
  | other (id : Nat)
  deriving DecidableEq

/-- What a closure returns: one object or a tuple (mapper.py:52). -/
inductive FcOut
  | one (o : Obj)
  | tuple (l : List Obj)

/-- The Peak classes of the loop (mapper.py:54-56). -/
def peakClasses : List Obj → List (Nat × Bool)
  | [] => []
  | .peak i b :: l => (i, b) :: peakClasses l
  | .other _ :: l => peakClasses l

/-- `_get_peak_cls` (mapper.py:50-59). -/
def getPeakCls (out : FcOut) : Except Err (Nat × Bool) :=
  let l := match out with | .one o => [o] | .tuple l => l                 -- 52-53
  match peakClasses l with
  | [c] => .ok c                                                          -- 57-58
  | _ => .error .valueError                                               -- 59

/-- `parse_peak_fc` of `Multi` (multi.py:41-48): the class.  `out` is what the closure returned for the SMT family, `none` if `peak_fc` is not a family closure. -/
def multiFront (out : Option FcOut) : Except Err Nat :=
  match out with
  | none => .error .valueError                                            -- 41-42
  | some out =>
    match getPeakCls out with
    | .error e => .error e
    | .ok (c, types) => if types then .ok c else .error .valueError       -- 44-48

/-- `cls.input_t` for `cls = self.peak_fc.Py` (mapper.py:174-175): a tuple has no such attribute, nor, it is assumed, has an object that is not a Peak class. -/
def pyTypes : FcOut → Except Err Unit
  | .one (.peak _ true) => .ok ()
  | _ => .error .attributeError

/-- `SMTMapper.__init__` up to what it does with the class (mapper.py:112-122, 170-178): `out` and `py` are what the closure returned for the SMT and the
Python family. -/
def mapperFront (out py : Option FcOut) : Except Err Nat :=
  match multiFront out with                                               -- 115-122
  | .error e => .error e
  | .ok c =>
    match py with
    | none => .error .valueError
    | some py =>
      match pyTypes py with                                               -- 170
      | .error e => .error e
      | .ok () => .ok c

end Peak.FE
