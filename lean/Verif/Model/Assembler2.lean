import Verif.Model.Layout
/-!
# `peak/assembler2/assembler.py`

The instance cache (assembler2/assembler_abc.py:13-40) only memoises: construction is a function of the type here.
`is_valid` (153, 228-233, 278-280, 350-358) is line by line the code of `peak/assembler/assembler.py` with an identical
`assembler_util.py`, is not used by the other operations, and is not modelled a second time.
-/

namespace Peak

/-- The `field` argument of `extract` and `match`: a field name (or tuple position), the integer position of a product
field, a type, or an enum member (assembler2/assembler.py:54-58). -/
inductive Sel
  | name (k : Key)
  | pos (i : Nat)
  | type (t : Ty)
  | member (e : EVal)

/-- An `assembler2.Assembler` instance (assembler2/assembler.py:33-39).  `fromFields` takes the field values in
declaration order (`sig.bind` of 189-192 is not modelled), `fromOption` is `from_fields` of a union. -/
structure Asm2 where
  asm : Val → Except Err BV
  dsm : BV → Except Err Val
  extract : BV → Sel → Except Err BV
  mtch : BV → Sel → Except Err Bool
  fromFields : List BV → Except Err BV
  fromOption : Key → BV → Except Err BV
  width : Nat

/-- `_enum` (assembler2/assembler.py:100-155). The tables are computed as in `assembler.py` (`enumTables`). -/
def enum2 (members : List EVal) : Except Err Asm2 :=
  match enumTables members with
  | .error e => .error e
  | .ok a =>
    if a.asm = [] then .error .typeError                                  -- 127-128
    else
      let width := bitLength (listMax (dictValues a.asm []))                -- 130-132
      .ok {
        asm := fun v => match v with                                       -- 134-135
          | .enum e => match a.asm.lookup e with
            | some n => .ok (BV.ofNat width n)
            | none => .error .keyError
          | _ => .error .keyError
        dsm := fun b => match a.dsm.lookup b.val with                      -- 143-144
          | some e => .ok (.enum e)
          | none => .error .keyError
        extract := fun _ _ => .error .typeError                            -- 146-147
        mtch := fun b s => match s with                                    -- 149-150
          | .member e => match a.asm.lookup e with
            | some n => .ok (b.eqInt n)
            | none => .error .keyError
          | _ => .error .keyError
        fromFields := fun bs => match bs with                              -- 137-141
          | [b] => .ok b
          | _ => .error .typeError
        fromOption := fun _ _ => .error .typeError
        width := width }

/-- A product field with its assembler and its range (assembler2/assembler.py:21-39). -/
structure Row2 where
  key : Key
  obj : Asm2
  lo : Nat
  hi : Nat

/-- The layout loop (assembler2/assembler.py:165-173). -/
def rows2 : List (Key × Asm2) → Nat → List Row2
  | [], _ => []
  | (k, o) :: l, base => ⟨k, o, base, base + o.width⟩ :: rows2 l (base + o.width)

/-- `_extend_to_width` (assembler2/assembler.py:237-241) -/
def extendToWidth (b : BV) (w : Nat) : Except Err BV :=
  if w < b.size then .error .typeError else .ok (b.zext (w - b.size))

/-- assembler2/assembler.py:180-185 -/
def asmRows2 (width : Nat) : List Row2 → List Val → BV → Except Err BV
  | [], [], opcode => .ok opcode
  | r :: rs, v :: vs, opcode =>
    match r.obj.asm v with
    | .error e => .error e
    | .ok b =>
      match extendToWidth b width with
      | .error e => .error e
      | .ok b => asmRows2 width rs vs (opcode.or (b.shlInt r.lo))
  | _, _, _ => .error .keyError

/-- assembler2/assembler.py:213-216 -/
def dsmRows2 : List Row2 → BV → Except Err (List Val)
  | [], _ => .ok []
  | r :: rs, b =>
    match r.obj.dsm (b.slice r.lo r.hi) with
    | .error e => .error e
    | .ok v =>
      match dsmRows2 rs b with
      | .error e => .error e
      | .ok vs => .ok (v :: vs)

/-- `_tuple` (assembler2/assembler.py:158-235). -/
def tuple2 (fields : List (Key × Asm2)) : Asm2 :=
  let rows := rows2 fields 0
  let width := (fields.map (fun p => p.2.width)).foldl (· + ·) 0               -- 176
  { asm := fun v => match v with
      | .prod vs => asmRows2 width rows vs (BV.ofNat width 0)
      | _ => .error .attributeError
    dsm := fun b => match dsmRows2 rows b with
      | .error e => .error e
      | .ok vs => .ok (.prod vs)
    extract := fun b s => match s with                                        -- 218-222
      | .name k => match rows.find? (fun r => r.key == k) with
        | some r => .ok (b.slice r.lo r.hi)
        | none => .error .keyError
      | .pos i => match rows[i]? with
        | some r => .ok (b.slice r.lo r.hi)
        | none => .error .keyError
      | _ => .error .typeError
    mtch := fun _ _ => .error .typeError                                       -- 225-226
    fromFields := fun bs =>                                                    -- 187-209
      if bs.length = fields.length then
        createFromLayout width ((rows.map (fun r => (r.lo, r.hi))).zip bs) 0 .assertionError
      else .error .typeError
    fromOption := fun _ _ => .error .typeError
    width := width }

/-- One option: the dicts `name_to_field`, `name_to_tag`, `tag_to_name`, `layout[name]` and, for the first option of
each type, `layout[field]` (assembler2/assembler.py:244-250). -/
structure Opt2 where
  key : Key
  ty : Ty
  obj : Asm2
  tag : Nat
  lo : Nat
  hi : Nat

/-- assembler2/assembler.py:260-273 -/
def scan2 (tagWidth : Nat) : List (Key × Ty × Asm2) → Nat → List Opt2 → Nat → Except Err (List Opt2 × Nat)
  | [], _, acc, pw => .ok (acc, pw)
  | (k, ty, o) :: l, tag, acc, pw =>
    if acc.any (fun r => r.key == k) then .error .assertionError                 -- 261
    else
      match acc.find? (fun r => r.ty == ty) with
      | none => scan2 tagWidth l (tag + 1) (acc ++ [⟨k, ty, o, tag, tagWidth, tagWidth + o.width⟩]) (max pw o.width)
      | some r => scan2 tagWidth l (tag + 1) (acc ++ [⟨k, ty, r.obj, tag, r.lo, r.hi⟩]) pw

/-- `_sum` (assembler2/assembler.py:243-360). -/
def sum2 (fields : List (Key × Ty × Asm2)) : Except Err Asm2 :=
  let tagWidth := bitLength (fields.length - 1)                                   -- 251
  match scan2 tagWidth fields 0 [] 0 with
  | .error e => .error e
  | .ok (opts, payloadWidth) =>
    if opts = [] then .error .nameError                                            -- 275
    else
      let width := tagWidth + payloadWidth                                          -- 276
      .ok {
        asm := fun v => match v with                                               -- 283-297
          | .sum k v =>
            match opts.find? (fun r => r.key == k) with
            | none => .error .keyError
            | some r =>
              match r.obj.asm v with
              | .error e => .error e
              | .ok payload =>
                match extendToWidth payload payloadWidth with
                | .error e => .error e
                | .ok payload =>
                  let opcode := (BV.ofNat tagWidth r.tag).concat payload
                  if opcode.size = width then .ok opcode else .error .assertionError
          | _ => .error .attributeError
        dsm := fun b =>                                                             -- 330-337
          match opts.find? (fun r => r.tag == (b.slice 0 tagWidth).val) with
          | none => .error .keyError
          | some r =>
            match r.obj.dsm (b.slice r.lo r.hi) with
            | .error e => .error e
            | .ok v => .ok (.sum r.key v)
        extract := fun b s => match s with                                          -- 339-340
          | .name k => match opts.find? (fun r => r.key == k) with
            | some r => .ok (b.slice r.lo r.hi)
            | none => .error .keyError
          | .type t => match opts.find? (fun r => r.ty == t) with
            | some r => .ok (b.slice r.lo r.hi)
            | none => .error .keyError
          | _ => .error .keyError
        mtch := fun b s => match s with                                             -- 342-348
          | .name k => match opts.find? (fun r => r.key == k) with
            | some r => .ok ((b.slice 0 tagWidth).eqInt r.tag)
            | none => .error .keyError
          | .type t => .ok ((opts.filter (fun r => r.ty == t)).foldl
              (fun acc r => acc || (b.slice 0 tagWidth).eqInt r.tag) false)
          | _ => .ok false
        fromFields := fun _ => .error .typeError                                     -- 302-308
        fromOption := fun k value =>                                                 -- 300-327
          match opts.find? (fun r => r.key == k) with
          | none => .error .keyError
          | some r => createFromLayout width [((r.lo, r.hi), value), ((0, tagWidth), BV.ofNat tagWidth r.tag)] 0
              .assertionError
        width := width }

/-- `_field` (assembler2/assembler.py:363-392). -/
def field2 (asm : Val → Except Err BV) (dsm : BV → Except Err Val) (w : Nat) : Asm2 where
  asm := asm
  dsm := dsm
  extract := fun _ _ => .error .typeError
  mtch := fun _ _ => .error .typeError
  fromFields := fun bs => match bs with
    | [b] => .ok b
    | _ => .error .typeError
  fromOption := fun _ _ => .error .typeError
  width := w

mutual
/-- `assembler2.Assembler(T)` (assembler2/assembler.py:21-39). -/
def Ty.build2 : Ty → Except Err Asm2
  | .bv _ w => .ok (field2 (fun v => match v with
      | .bits b => .ok (BV.ofNat w b.val)
      | _ => .error .typeError) (fun b => .ok (.bits (BV.ofNat w b.val))) w)
  | .bit _ => .ok (field2 (fun v => match v with
      | .bit b => .ok (BV.ofNat 1 b.toNat)
      | _ => .error .typeError) (fun b => .ok (.bit (b.val != 0))) 1)
  | .enum _ ms => enum2 ms
  | .prod _ fs => match fs.build2 with
    | .error e => .error e
    | .ok l => .ok (tuple2 (l.map (fun x => (x.1, x.2.2))))
  | .sum _ fs => match fs.build2 with
    | .error e => .error e
    | .ok l => sum2 l
/-- The assemblers of the fields (assembler2/assembler.py:21-39, for each field). -/
def Fields.build2 : Fields → Except Err (List (Key × Ty × Asm2))
  | .nil => .ok []
  | .cons k t fs => match t.build2 with
    | .error e => .error e
    | .ok o => match fs.build2 with
      | .error e => .error e
      | .ok l => .ok ((k, t, o) :: l)
end

end Peak
