import Verif.Model.Types
import Verif.Model.Validator
/-!
# `peak/assembler/assembler.py`
-/

namespace Peak

/-- The attributes a union assembler has in addition (assembler.py:29-34). -/
structure TagObj where
  asm : Key → Except Err Nat
  dsm : BV → Except Err Key
  isv : Validator
  width : Nat

/-- An `Assembler` instance: the closures and tables stored by `__init__` (assembler.py:39-43).
`layout` is keyed by field name. -/
structure AsmObj where
  asm : Val → Except Err Nat
  dsm : BV → Except Err Val
  isv : Validator
  width : Nat
  layout : List (Key × (Nat × Nat))
  tag : Option TagObj

/-- `Assembler.assemble` (assembler.py:53-58). -/
def AsmObj.assemble (o : AsmObj) (v : Val) : Except Err BV :=
  match o.asm v with
  | .error e => .error e
  | .ok opcode =>
    if bitLength opcode ≤ o.width then .ok (BV.ofNat o.width opcode) else .error .assertionError

/-- `Assembler.is_valid` (assembler.py:65-66). -/
def AsmObj.isValid (o : AsmObj) (opcode : BV) : Bool := o.isv opcode

/-- `Assembler.disassemble` (assembler.py:60-63). -/
def AsmObj.disassemble (o : AsmObj) (opcode : BV) : Except Err Val :=
  if o.isValid opcode then o.dsm opcode else .error .valueError

/-- `Assembler.assemble_tag` (assembler.py:68-71). -/
def AsmObj.assembleTag (o : AsmObj) (k : Key) : Except Err BV :=
  match o.tag with
  | none => .error .typeError
  | some t =>
    match t.asm k with
    | .error e => .error e
    | .ok n => .ok (BV.ofNat t.width n)

/-- `Assembler.is_valid_tag` (assembler.py:80-83). -/
def AsmObj.isValidTag (o : AsmObj) (b : BV) : Except Err Bool :=
  match o.tag with
  | none => .error .typeError
  | some t => .ok (t.isv b)

/-- `Assembler.disassemble_tag` (assembler.py:73-78).  On an invalid tag the error message refers to
the undefined name `opcode` (line 77), so a NameError escapes instead of the intended ValueError.
`tag_to_name` is indexed with the bit vector itself; hwtypes bit vectors hash and compare like their
value for this lookup (trusted base). -/
def AsmObj.disassembleTag (o : AsmObj) (b : BV) : Except Err Key :=
  match o.tag with
  | none => .error .typeError
  | some t => if t.isv b then t.dsm b else .error .nameError

/-! ## `_enum` -/

/-- Accumulators of the first loop of `_enum` (assembler.py:102-107).  Dict insertion prepends, so the
newest binding of a key is found first. -/
structure EnumAcc where
  asm : List (EVal × Nat) := []
  dsm : List (Nat × EVal) := []
  free : List EVal := []
  used : List Nat := []

/-- assembler.py:109-119 -/
def enumScan : List EVal → EnumAcc → Except Err EnumAcc
  | [], a => .ok a
  | .lit v :: es, a =>
    if v < 0 then .error .valueError
    else enumScan es { a with
      asm := (.lit v, v.toNat) :: a.asm
      dsm := (v.toNat, .lit v) :: a.dsm
      used := v.toNat :: a.used }
  | .auto i :: es, a => enumScan es { a with free := a.free ++ [.auto i] }

/-- assembler.py:123-124 `while c in used: c += 1`.  The loop runs at most `len(used)` times; the first
argument counts down from there. -/
def nextFree (used : List Nat) : Nat → Nat → Nat
  | 0, c => c
  | n + 1, c => if c ∈ used then nextFree used n (c + 1) else c

/-- assembler.py:121-127 -/
def enumAuto : List EVal → Nat → EnumAcc → EnumAcc
  | [], _, a => a
  | i :: is, c, a =>
    let c := nextFree a.used a.used.length c
    enumAuto is c { a with
      asm := (i, c) :: a.asm
      dsm := (c, i) :: a.dsm
      used := c :: a.used }

/-- The dict `asm`/`dsm` of `_enum` (assembler.py:102-127). -/
def enumTables (members : List EVal) : Except Err EnumAcc :=
  match enumScan members {} with
  | .error e => .error e
  | .ok a => .ok (enumAuto a.free 0 a)

/-- `asm.values()` (assembler.py:132): one value per distinct key, the newest one. -/
def dictValues : List (EVal × Nat) → List EVal → List Nat
  | [], _ => []
  | (k, v) :: l, seen => if k ∈ seen then dictValues l seen else v :: dictValues l (k :: seen)

/-- Python's `max` of non-negative numbers (assembler.py:134, 208). -/
def listMax : List Nat → Nat := fun l => l.foldl max 0

/-- `_enum` (assembler.py:101-143). -/
def enumObj (members : List EVal) (c : VCache) : Except Err AsmObj × VCache :=
  match enumTables members with
  | .error e => (.error e, c)
  | .ok a =>
    if a.asm = [] then (.error .typeError, c)                        -- 129-130
    else
      let opcodes := dictValues a.asm []                              -- 132
      let width := bitLength (listMax opcodes)                        -- 134
      match genIsValid opcodes width c with                           -- 142
      | (.error e, c) => (.error e, c)
      | (.ok isv, c) =>
        (.ok {
          asm := fun v => match v with
            | .enum e => match a.asm.lookup e with
              | some n => .ok n
              | none => .error .keyError
            | _ => .error .keyError
          dsm := fun b => match a.dsm.lookup b.val with
            | some e => .ok (.enum e)
            | none => .error .keyError
          isv := isv
          width := width
          layout := []   -- 136-137: keyed by the members (all `(0, width)`), not by field names
          tag := none }, c)

/-! ## `_tuple` -/

/-- One field of a product with its assembler and its layout entry (assembler.py:22-43 for the assembler, its layout at 49-51). -/
structure Row where
  key : Key
  obj : AsmObj
  lo : Nat
  hi : Nat

/-- assembler.py:147-153: the layout loop, `base` being the running offset. -/
def tupleRows : List (Key × AsmObj) → Nat → List Row
  | [], _ => []
  | (k, o) :: l, base => ⟨k, o, base, base + o.width⟩ :: tupleRows l (base + o.width)

/-- assembler.py:155-161.  Values are matched to fields by position instead of by name. -/
def asmRows : List Row → List Val → Nat → Except Err Nat
  | [], [], opcode => .ok opcode
  | r :: rs, v :: vs, opcode =>
    match r.obj.asm v with
    | .error e => .error e
    | .ok x => asmRows rs vs (opcode ||| (x <<< r.lo))
  | _, _, _ => .error .keyError

/-- assembler.py:163-168 -/
def dsmRows : List Row → BV → Except Err (List Val)
  | [], _ => .ok []
  | r :: rs, b =>
    match r.obj.disassemble (b.slice r.lo r.hi) with
    | .error e => .error e
    | .ok v =>
      match dsmRows rs b with
      | .error e => .error e
      | .ok vs => .ok (v :: vs)

/-- `_tuple` (assembler.py:146-177); the assemblers of the fields are passed in. -/
def tupleObj (fields : List (Key × AsmObj)) : AsmObj :=
  let rows := tupleRows fields 0
  { asm := fun v => match v with
      | .prod vs => asmRows rows vs 0
      | _ => .error .attributeError
    dsm := fun b => match dsmRows rows b with
      | .error e => .error e
      | .ok vs => .ok (.prod vs)
    isv := fun b => rows.foldl (fun acc r => acc && r.obj.isValid (b.slice r.lo r.hi)) true   -- 170-175
    width := (fields.map (fun p => p.2.width)).foldl (· + ·) 0                               -- 153
    layout := rows.map (fun r => (r.key, (r.lo, r.hi)))
    tag := none }

/-! ## `_sum` -/

/-- One entry per distinct option type: the dicts `field_to_tags` and `layout[field]`, which have the same
keys in the same order (assembler.py:186, 202-208). -/
structure FRow where
  ty : Ty
  obj : AsmObj
  tags : List Nat
  lo : Nat
  hi : Nat

/-- One entry per option: the dicts `name_to_field`, `name_to_tag`, `tag_to_name` (assembler.py:181-183)
and `layout[name]`. -/
structure NRow where
  key : Key
  ty : Ty
  tag : Nat
  lo : Nat
  hi : Nat

/-- Accumulators of the main loop of `_sum` (assembler.py:181-196). -/
structure SumAcc where
  names : List NRow := []
  rows : List FRow := []
  payloadWidth : Nat := 0

/-- assembler.py:197-210, one iteration per option in sorted order. -/
def sumScan (tagWidth : Nat) : List (Key × Ty × AsmObj) → Nat → SumAcc → Except Err SumAcc
  | [], _, a => .ok a
  | (k, ty, o) :: l, tag, a =>
    if a.names.any (fun n => n.key == k) then .error .assertionError          -- 198
    else
      match a.rows.find? (fun r => r.ty == ty) with
      | none =>                                                                -- 203-208
        sumScan tagWidth l (tag + 1) {
          names := a.names ++ [⟨k, ty, tag, tagWidth, tagWidth + o.width⟩]
          rows := a.rows ++ [⟨ty, o, [tag], tagWidth, tagWidth + o.width⟩]
          payloadWidth := max a.payloadWidth o.width }
      | some r =>                                                              -- 202, 209-210
        sumScan tagWidth l (tag + 1) {
          names := a.names ++ [⟨k, ty, tag, r.lo, r.hi⟩]
          rows := a.rows.map (fun r => if r.ty == ty then { r with tags := r.tags ++ [tag] } else r)
          payloadWidth := a.payloadWidth }

/-- assembler.py:215-217: one validator per option type. -/
def sumValidators (tagWidth : Nat) :
    List FRow → VCache → Except Err (List (FRow × Validator)) × VCache
  | [], c => (.ok [], c)
  | r :: rs, c =>
    match genIsValid r.tags tagWidth c with
    | (.error e, c) => (.error e, c)
    | (.ok v, c) =>
      match sumValidators tagWidth rs c with
      | (.error e, c) => (.error e, c)
      | (.ok l, c) => (.ok ((r, v) :: l), c)

/-- assembler.py:219-231.  The assertion at 226 (the value's class is the option's class) is the typing of
the value, see `Ty.Has`. -/
def sumAsm (a : SumAcc) (tagWidth : Nat) (v : Val) : Except Err Nat :=
  match v with
  | .sum k v =>
    match a.names.find? (fun n => n.key == k) with
    | none => .error .keyError
    | some n =>
      match a.rows.find? (fun r => r.ty == n.ty) with
      | none => .error .keyError
      | some r =>
        match r.obj.asm v with
        | .error e => .error e
        | .ok payload => .ok ((payload <<< tagWidth) ||| n.tag)
  | _ => .error .attributeError

/-- assembler.py:233-240 -/
def sumDsm (a : SumAcc) (tagWidth : Nat) (b : BV) : Except Err Val :=
  match a.names.find? (fun n => n.tag == (b.slice 0 tagWidth).val) with
  | none => .error .keyError
  | some n =>
    match a.rows.find? (fun r => r.ty == n.ty) with
    | none => .error .keyError
    | some r =>
      match r.obj.disassemble (b.slice r.lo r.hi) with
      | .error e => .error e
      | .ok v => .ok (.sum n.key v)

/-- assembler.py:243-251 -/
def sumIsv (validators : List (FRow × Validator)) (tagWidth : Nat) (b : BV) : Bool :=
  validators.foldl (fun valid rv =>
    valid || (rv.2 (b.slice 0 tagWidth) && rv.1.obj.isValid (b.slice rv.1.lo rv.1.hi))) false

/-- `_sum` (assembler.py:180-258); the assemblers of the options, in sorted order, are passed in.
`max_tag = tag` (line 212) raises NameError (UnboundLocalError) when there is no option. -/
def sumObj (fields : List (Key × Ty × AsmObj)) (c : VCache) : Except Err AsmObj × VCache :=
  let tagWidth := bitLength (fields.length - 1)                       -- 188
  match sumScan tagWidth fields 0 {} with
  | .error e => (.error e, c)
  | .ok a =>
    if a.names = [] then (.error .nameError, c)                        -- 212
    else
      match sumValidators tagWidth a.rows c with                       -- 215-217
      | (.error e, c) => (.error e, c)
      | (.ok vs, c) =>
        match genIsValid (a.names.map (·.tag)) tagWidth c with         -- 256
        | (.error e, c) => (.error e, c)
        | (.ok tagIsv, c) =>
          (.ok {
            asm := sumAsm a tagWidth
            dsm := sumDsm a tagWidth
            isv := sumIsv vs tagWidth
            width := tagWidth + a.payloadWidth                          -- 213
            layout := a.names.map (fun n => (n.key, (n.lo, n.hi)))
            tag := some {
              asm := fun k => match a.names.find? (fun n => n.key == k) with
                | some n => .ok n.tag
                | none => .error .keyError
              dsm := fun b => match a.names.find? (fun n => n.tag == b.val) with
                | some n => .ok n.key
                | none => .error .keyError
              isv := tagIsv
              width := tagWidth } }, c)

/-! ## `_field` -/

/-- `_field` (assembler.py:261-280) for a bit vector type. -/
def bvObj (w : Nat) : AsmObj where
  asm := fun v => match v with
    | .bits b => .ok b.val
    | _ => .error .typeError
  dsm := fun b => .ok (.bits (BV.ofNat w b.val))
  isv := fun _ => true
  width := w
  layout := []
  tag := none

/-- `_field` (assembler.py:261-280) for a bit type.  `Bit(opcode)` is the truth value of the vector. -/
def bitObj : AsmObj where
  asm := fun v => match v with
    | .bit b => .ok b.toNat
    | _ => .error .typeError
  dsm := fun b => .ok (.bit (b.val != 0))
  isv := fun _ => true
  width := 1
  layout := []
  tag := none

/-! ## `Assembler(T)` -/

/-- The process state: `_validator_cache` (assembler_util.py:15) and the instance cache
`AssemblerMeta._cache[Assembler]` (assembler_abc.py:13-40). -/
structure St where
  vcache : VCache := []
  icache : List (Ty × AsmObj) := []

/-- `AssemblerMeta.__call__` (assembler_abc.py:27-40): look the instance up, else build and store it. -/
def cached (t : Ty) (make : St → Except Err AsmObj × St) (st : St) : Except Err AsmObj × St :=
  match st.icache.lookup t with
  | some o => (.ok o, st)
  | none =>
    match make st with
    | (.error e, st) => (.error e, st)
    | (.ok o, st) => (.ok o, { st with icache := (t, o) :: st.icache })

mutual
/-- `Assembler(T)` (assembler.py:22-43 under assembler_abc.py:27-40).  The closures refer to the field
assemblers captured here; the code looks them up again by `Assembler(field)`, which returns the same
objects from the instance cache. -/
def Ty.build : Ty → St → Except Err AsmObj × St
  | .bv c w, st => cached (.bv c w) (fun st => (.ok (bvObj w), st)) st
  | .bit c, st => cached (.bit c) (fun st => (.ok bitObj, st)) st
  | .enum c ms, st => cached (.enum c ms) (fun st =>
      match enumObj ms st.vcache with
      | (r, vc) => (r, { st with vcache := vc })) st
  | .prod c fs, st => cached (.prod c fs) (fun st =>
      match fs.build st with
      | (.error e, st) => (.error e, st)
      | (.ok l, st) => (.ok (tupleObj (l.map (fun x => (x.1, x.2.2)))), st)) st
  | .sum c fs, st => cached (.sum c fs) (fun st =>
      match fs.build st with
      | (.error e, st) => (.error e, st)
      | (.ok l, st) =>
        match sumObj l st.vcache with
        | (r, vc) => (r, { st with vcache := vc })) st
/-- The field assemblers, built in order (assembler.py:149-150, 197-205; building an option type a second
time is a cache hit). -/
def Fields.build : Fields → St → Except Err (List (Key × Ty × AsmObj)) × St
  | .nil, st => (.ok [], st)
  | .cons k t fs, st =>
    match t.build st with
    | (.error e, st) => (.error e, st)
    | (.ok o, st) =>
      match fs.build st with
      | (.error e, st) => (.error e, st)
      | (.ok l, st) => (.ok ((k, t, o) :: l), st)
end

/-- The process state after constructing `Assembler(T)` for each type of the history in turn; a
construction that raises leaves the caches as they are at that point (assembler_abc.py:13-40). -/
def runHistory (hist : List Ty) : St := hist.foldl (fun st t => (t.build st).2) {}

end Peak
