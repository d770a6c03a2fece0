import Verif.Model.Layout
/-!
# `peak/auto_assembler.py` (deprecated, still importable)

`Ty.prod` stands for `Product` and `Ty.sum` for `Sum` here: `Tuple` and `TaggedUnion` are rejected by `generate_assembler`
(line 184).  Constants in place of types (`isinstance(isa, AbstractBitVector)`, 156-166, 177-178, 181-182) are in Model/Conv.lean: a field
of a `Product` or an option of a `Sum` is always a class.
The options of a `Sum` are stored in the order of line 122 (`sorted(isa.fields, key=(name, module))`).
-/

namespace Peak

/-- `BitVector[w](i)` for an int of any sign (hwtypes, not in /repo; used in auto_assembler.py:45-166). -/
def BV.ofInt (w : Nat) (i : Int) : BV := BV.ofNat w (i % (2 ^ w : Nat)).toNat

/-- What a generated `assembler` returns: a bit vector or (`_bv_field` on a bit type, peak/auto_assembler.py:150-151) a bit. -/
inductive Enc
  | bv (b : BV)
  | bit (b : Bool)

/-- The integer `BitVector[width](e)` is built from (peak/auto_assembler.py:102). -/
def Enc.toNat : Enc → Nat
  | .bv b => b.val
  | .bit b => b.toNat

/-- The result of `generate_assembler` without the layout, which is modelled in Model/AutoLayout.lean and of which the two
functions only use the offsets modelled in `AutoRow` (auto_assembler.py:168-184). -/
structure AutoObj where
  asm : Val → Except Err Enc
  dsm : Enc → Except Err Val
  width : Nat

/-- Accumulators of `_enum` (peak/auto_assembler.py:50-52). -/
structure AutoEnumAcc where
  imap : List (EVal × Int) := []
  used : List Int := []
  free : List EVal := []

/-- auto_assembler.py:53-59.  `free` is kept reversed: `free.pop()` (62) takes the last one appended. -/
def autoScan : List EVal → AutoEnumAcc → AutoEnumAcc
  | [], a => a
  | .lit v :: es, a => autoScan es { a with imap := (.lit v, v) :: a.imap, used := v :: a.used }
  | .auto i :: es, a => autoScan es { a with free := .auto i :: a.free }

/-- auto_assembler.py:63-64 `while c in used: c += 1`; at most `len(used)` iterations. -/
def autoNext (used : List Int) : Nat → Nat → Nat
  | 0, c => c
  | n + 1, c => if (c : Int) ∈ used then autoNext used n (c + 1) else c

/-- auto_assembler.py:60-66 -/
def autoAssign : List EVal → Nat → List (EVal × Int) → List Int → List (EVal × Int) × List Int
  | [], _, imap, used => (imap, used)
  | e :: es, c, imap, used =>
    let c := autoNext used used.length c
    autoAssign es c ((e, (c : Int)) :: imap) ((c : Int) :: used)

/-- The final `i_map` and `used` (peak/auto_assembler.py:50-66). -/
def autoEnumMap (ms : List EVal) : List (EVal × Int) × List Int :=
  let a := autoScan ms {}
  autoAssign a.free 0 a.imap a.used

/-- `max(used)` (peak/auto_assembler.py:68); ValueError when empty. -/
def intMax : List Int → Option Int
  | [] => none
  | x :: l => some (l.foldl max x)

/-- auto_assembler.py:69-73: the dict `decoding`; a later member overwrites an earlier one with the same opcode. -/
def autoDecoding (imap : List (EVal × Int)) (width : Nat) : List EVal → List (BV × EVal) → Except Err (List (BV × EVal))
  | [], d => .ok d
  | e :: es, d =>
    match imap.lookup e with
    | none => .error .keyError
    | some i => autoDecoding imap width es ((BV.ofInt width i, e) :: d)

/-- `_enum` (peak/auto_assembler.py:45-80).  Looking a member up in `encoding` finds the opcode of its `i_map` entry (71-72). -/
def autoEnum (ms : List EVal) : Except Err AutoObj :=
  match autoEnumMap ms with
  | (imap, used) =>
    match intMax used with
    | none => .error .valueError
    | some mx =>
      let width := bitLength mx.natAbs
      match autoDecoding imap width ms [] with
      | .error e => .error e
      | .ok decoding =>
        .ok {
          asm := fun v => match v with
            | .enum e =>
              if e ∈ ms then
                match imap.lookup e with
                | none => .error .keyError
                | some i => .ok (.bv (BV.ofInt width i))
              else .error .keyError
            | _ => .error .keyError
          dsm := fun x => match x with
            | .bv b => match decoding.lookup b with
              | some e => .ok (.enum e)
              | none => .error .keyError
            | .bit _ => .error .keyError
          width := width }

mutual
/-- `get_width` (peak/auto_assembler.py:27-43). -/
def autoWidth : Ty → Except Err Nat
  | .bv _ w => .ok w
  | .bit _ => .ok 1
  | .enum _ ms => match autoEnum ms with
    | .error e => .error e
    | .ok o => .ok o.width
  | .prod _ fs => match autoWidths fs with
    | .error e => .error e
    | .ok ws => .ok ws.sum
  | .sum _ fs => match autoWidths fs with
    | .error e => .error e
    | .ok [] => .error .valueError
    | .ok (w :: ws) => .ok ((w :: ws).foldl max 0 + bitLength fs.toList.length)
/-- `map(get_width, isa.fields)` (auto_assembler.py:31, 33) -/
def autoWidths : Fields → Except Err (List Nat)
  | .nil => .ok []
  | .cons _ t fs => match autoWidth t with
    | .error e => .error e
    | .ok w => match autoWidths fs with
      | .error e => .error e
      | .ok ws => .ok (w :: ws)
end

/-- A field of a product with its functions and its range (peak/auto_assembler.py:90-95). -/
structure AutoRow where
  obj : AutoObj
  lo : Nat
  hi : Nat

/-- auto_assembler.py:89-95 -/
def autoRows : List AutoObj → Nat → List AutoRow
  | [], _ => []
  | o :: l, base => ⟨o, base, base + o.width⟩ :: autoRows l (base + o.width)

/-- auto_assembler.py:99-104; values are matched to fields by position instead of by name. -/
def autoAsmRows (width : Nat) : List AutoRow → List Val → BV → Except Err BV
  | [], [], opcode => .ok opcode
  | r :: rs, v :: vs, opcode =>
    match r.obj.asm v with
    | .error e => .error e
    | .ok x => autoAsmRows width rs vs (opcode.or ((BV.ofNat width x.toNat).shlInt r.lo))
  | _, _, _ => .error .keyError

/-- auto_assembler.py:106-111 -/
def autoDsmRows : List AutoRow → BV → Except Err (List Val)
  | [], _ => .ok []
  | r :: rs, b =>
    match r.obj.dsm (.bv (b.slice r.lo r.hi)) with
    | .error e => .error e
    | .ok v =>
      match autoDsmRows rs b with
      | .error e => .error e
      | .ok vs => .ok (v :: vs)

/-- `_product` (peak/auto_assembler.py:82-113), the field functions being passed in. -/
def autoProduct (width : Nat) (l : List AutoObj) : Except Err AutoObj :=
  let rows := autoRows l 0
  if (l.map (·.width)).sum = width then                                     -- 97
    .ok {
      asm := fun v => match v with
        | .prod vs => match autoAsmRows width rows vs (BV.ofNat width 0) with
          | .error e => .error e
          | .ok b => .ok (.bv b)
        | _ => .error .attributeError
      dsm := fun x => match x with
        | .bv b => match autoDsmRows rows b with
          | .error e => .error e
          | .ok vs => .ok (.prod vs)
        | .bit _ => .error .typeError
      width := width }
  else .error .assertionError

/-- An option of a `Sum`: the entries of `encoding` and `decoding` (peak/auto_assembler.py:122-128). -/
structure AutoOpt where
  key : Key
  tag : BV
  obj : AutoObj

/-- auto_assembler.py:122-128 -/
def autoOpts (tagWidth width : Nat) : List (Key × AutoObj) → Nat → Except Err (List AutoOpt)
  | [], _ => .ok []
  | (k, o) :: l, tag =>
    if tagWidth + o.width ≤ width then                                      -- 125
      match autoOpts tagWidth width l (tag + 1) with
      | .error e => .error e
      | .ok r => .ok (⟨k, BV.ofNat tagWidth tag, o⟩ :: r)
    else .error .assertionError

/-- `_sum` (peak/auto_assembler.py:115-147), the option functions being passed in. -/
def autoSum (width : Nat) (l : List (Key × AutoObj)) : Except Err AutoObj :=
  let tagWidth := bitLength l.length                                         -- 120
  match autoOpts tagWidth width l 0 with
  | .error e => .error e
  | .ok opts =>
    .ok {
      asm := fun v => match v with
        | .sum k v =>
          match opts.find? (fun r => r.key == k) with                        -- 132-133
          | none => .error .keyError
          | some r =>
            match r.obj.asm v with
            | .error e => .error e
            | .ok (.bit _) => .error .attributeError                          -- 137: a Bit has no zext
            | .ok (.bv payload) =>
              .ok (.bv (((BV.ofNat width 0).or (r.tag.zext (width - tagWidth))).or
                ((payload.zext (width - payload.size)).shlInt tagWidth)))      -- 131-139
        | _ => .error .attributeError
      dsm := fun x => match x with
        | .bv b =>
          match opts.find? (fun r => r.tag == b.slice 0 tagWidth) with        -- 143-144
          | none => .error .keyError
          | some r =>
            match r.obj.dsm (.bv (b.slice tagWidth (tagWidth + r.obj.width))) with
            | .error e => .error e
            | .ok v => .ok (.sum r.key v)
        | .bit _ => .error .typeError
      width := width }

mutual
/-- `generate_assembler` (peak/auto_assembler.py:168-184). -/
def generateAssembler : Ty → Except Err AutoObj
  | .bv _ w => .ok {                                                          -- 149-154
      asm := fun v => match v with
        | .bits b => .ok (.bv b)
        | _ => .error .typeError
      dsm := fun x => .ok (.bits (BV.ofNat w x.toNat))
      width := w }
  | .bit _ => .ok {
      asm := fun v => match v with
        | .bit b => .ok (.bit b)
        | _ => .error .typeError
      dsm := fun x => .ok (.bit (x.toNat != 0))
      width := 1 }
  | .enum _ ms => autoEnum ms
  | .prod c fs => match autoWidth (.prod c fs) with
    | .error e => .error e
    | .ok w => match generateAll fs with
      | .error e => .error e
      | .ok l => autoProduct w (l.map (·.2))
  | .sum c fs => match autoWidth (.sum c fs) with
    | .error e => .error e
    | .ok w => match generateAll fs with
      | .error e => .error e
      | .ok l => autoSum w l
/-- The functions of the fields (peak/auto_assembler.py:90-95, 122-124). -/
def generateAll : Fields → Except Err (List (Key × AutoObj))
  | .nil => .ok []
  | .cons k t fs => match generateAssembler t with
    | .error e => .error e
    | .ok o => match generateAll fs with
      | .error e => .error e
      | .ok l => .ok ((k, o) :: l)
end

end Peak
