import Verif.Model.Basic
/-!
# Registers and memories (peak/family.py:168-217, peak/register.py, peak/memory.py)

One register object of the Python families.  `α` is the type of the values; an argument `none` is Python's `None`.  Conversions of the
initial value (`T(init)`, family.py:185) are not modelled: `init` is the converted value.
-/

namespace Peak

variable {α : Type}

/-- `Register.__call__(value, en)` of `gen_register(T, init)` (family.py:187-192) and of the old `gen_register2`
(register.py:28-35): the result and the new `self.value`. -/
def regCall (stored : α) (value : Option α) (en : Bool) : Except Err α × α :=
  match value with
  | none => (.error .assertionError, stored)      -- assert value is not None
  | some v => (.ok stored, if en then v else stored)

/-- `Register.__call__(value)` of `gen_register(T, init, has_enable=False)` (family.py:205-208). -/
def regCallNoEn (stored : α) (value : α) : α × α := (stored, value)

/-- `prev()` (family.py:194-198, 210-214). -/
def regPrev (stored : α) : α := stored

/-- A sequence of calls: the results and the final content (calls of family.py:187-192). -/
def regRun : List (Option α × Bool) → α → List (Except Err α) × α
  | [], s => ([], s)
  | (v, en) :: cs, s =>
    let (r, s') := regCall s v en
    let (rs, s'') := regRun cs s'
    (r :: rs, s'')

/-- A sequence of calls of family.py:205-208. -/
def regRunNoEn : List α → α → List α × α
  | [], s => ([], s)
  | v :: cs, s =>
    let (r, s') := regCallNoEn s v
    let (rs, s'') := regRunNoEn cs s'
    (r :: rs, s'')

/-- `ROM.__init__` (memory.py:6-10): `n` registers, the first ones initialised from `mem`. -/
def memInit (n : Nat) (mem : List α) (init : α) : List α :=
  (List.range n).map (fun i => mem[i]?.getD init)

/-- The index `l[i]` denotes in a list of the given length for a Python int `i` (negative indices count from the end) (Python; used at memory.py:13, 17). -/
def pyIndex (len : Nat) (i : Int) : Option Nat :=
  if 0 ≤ i then (if i.toNat < len then some i.toNat else none)
  else if -i ≤ len then some (len - (-i).toNat) else none

/-- `ROM.__call__(addr)` (memory.py:12-13): calls the register with value 0 and enable 0. -/
def romCall (zero : α) (mem : List α) (addr : Int) : Except Err α × List α :=
  match pyIndex mem.length addr with
  | none => (.error .indexError, mem)
  | some i =>
    match mem[i]? with
    | none => (.error .indexError, mem)
    | some s =>
      let (r, s') := regCall s (some zero) false
      (r, mem.set i s')

/-- `RAM.__call__(addr, data, wen)` (memory.py:15-17). -/
def ramCall (mem : List α) (addr : Int) (data : Option α) (wen : Bool) : Except Err α × List α :=
  match pyIndex mem.length addr with
  | none => (.error .indexError, mem)
  | some i =>
    match mem[i]? with
    | none => (.error .indexError, mem)
    | some s =>
      let (r, s') := regCall s data wen
      (r, mem.set i s')

/-- A sequence of RAM accesses (memory.py:16-17). -/
def ramRun : List (Int × Option α × Bool) → List α → List (Except Err α) × List α
  | [], m => ([], m)
  | (a, d, w) :: cs, m =>
    let (r, m') := ramCall m a d w
    let (rs, m'') := ramRun cs m'
    (r :: rs, m'')

/-- A sequence of ROM accesses (memory.py:12-13). -/
def romRun (zero : α) : List Int → List α → List (Except Err α) × List α
  | [], m => ([], m)
  | a :: cs, m =>
    let (r, m') := romCall zero m a
    let (rs, m'') := romRun zero cs m'
    (r :: rs, m'')

end Peak
