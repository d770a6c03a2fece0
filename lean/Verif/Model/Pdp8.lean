import Verif.Model.Register
/-!
# The PDP-8 example (examples/pdp8/isa.py, sim.py)

A step that raises changes nothing before it does, so that a step is a function to `Except Err St`.  `Word(addr).concat(page)` (sim.py:131)
puts the page above bit 12 (hwtypes: the argument of `concat` is the more significant part), so that the widths of addresses and of the
program counter grow; they are kept with the values.
-/

namespace Peak.Pdp8

/-- isa.py:6-7. -/
abbrev Word := BitVec 12

/-- The fields of `MRI` and `IOT` (isa.py:21-36): `i = IA.INDIRECT`, `p = MP.CURRENT_PAGE`, `addr`. -/
structure MRI where
  indirect : Bool
  currentPage : Bool
  addr : BitVec 7
  deriving DecidableEq

/-- `OPR1` (isa.py:38-46) -/
structure OPR1 where
  cla : Bool := false
  cll : Bool := false
  cma : Bool := false
  cml : Bool := false
  rar : Bool := false
  ral : Bool := false
  twice : Bool := false
  iac : Bool := false
  deriving DecidableEq

/-- `OPR2` (isa.py:48-56) -/
structure OPR2 where
  cla : Bool := false
  sma : Bool := false
  sza : Bool := false
  snl : Bool := false
  skip : Bool := false
  osr : Bool := false
  hlt : Bool := false
  nop : Bool := false
  deriving DecidableEq

/-- `Inst` (isa.py:64-72) -/
inductive Inst
  | and_ (m : MRI)
  | tad (m : MRI)
  | isz (m : MRI)
  | dca (m : MRI)
  | jms (m : MRI)
  | jmp (m : MRI)
  | iot (m : MRI)
  | opr1 (o : OPR1)
  | opr2 (o : OPR2)
  deriving DecidableEq

/-- A value in the memory or in the program counter: a Python int (the initial 0 of memory.py:6, never negative), a `BitVector[w]`, or an
instruction. -/
inductive PVal
  | int (n : Nat)
  | bv (w v : Nat)
  | inst (i : Inst)
  deriving DecidableEq

/-- The attributes of a `PDP8` (sim.py:12-19). -/
structure St where
  mem : List PVal
  pc : PVal
  acc : Word
  lnk : Bool
  running : Bool
  deriving DecidableEq

/-- `PDP8.__init__` (sim.py:12-19) -/
def init (prog : List Inst) : St :=
  { mem := memInit 4096 (prog.map .inst) (.int 0), pc := .bv 12 0, acc := 0, lnk := false, running := true }

/-- `int(addr)` (peak/memory.py:13, 17) -/
def toInt : PVal → Except Err Nat
  | .int n => .ok n
  | .bv _ v => .ok v
  | .inst _ => .error .typeError

/-- `x + 1` (examples/pdp8/sim.py:27, 45, 48, 62, 115) -/
def plus1 : PVal → Except Err PVal
  | .int n => .ok (.int (n + 1))
  | .bv w v => .ok (.bv w ((v + 1) % 2 ^ w))
  | .inst _ => .error .typeError

/-- `load` (sim.py:146-147; memory.py:15-17) -/
def St.load (s : St) (addr : PVal) : Except Err PVal := do
  let a ← toInt addr
  match s.mem[a]? with
  | some v => .ok v
  | none => .error .indexError

/-- `store` (sim.py:149-150) -/
def St.store (s : St) (addr : PVal) (data : PVal) : Except Err St := do
  let a ← toInt addr
  if a < s.mem.length then .ok { s with mem := s.mem.set a data } else .error .indexError

/-- The page (sim.py:126-129).  `inst.p == ZERO` compares a member of an Enum with a Bit; `pz` is its value for `MP.PAGE_ZERO`, which
depends on hwtypes; it is false for `MP.CURRENT_PAGE`. -/
def page (pz : Bool) (m : MRI) (pc : PVal) : Except Err (Nat × Nat) :=
  if !m.currentPage && pz then .ok (5, 0)
  else
    match pc with
    | .bv w v => .ok (w - 7, (v + (2 ^ w - 1)) % 2 ^ w / 2 ^ 7)      -- (pc-1)[7:]
    | _ => .error .typeError                                          -- an int has no slices

/-- `addr` (sim.py:123-137); `pc` is the program counter after the increment. -/
def St.addr (s : St) (pz : Bool) (m : MRI) (pc : PVal) : Except Err PVal := do
  let p ← page pz m pc
  let addr := PVal.bv (12 + p.1) (m.addr.toNat + p.2 * 2 ^ 12)
  if m.indirect then s.load addr else .ok addr

/-- `self.acc(0,0) & data` (examples/pdp8/sim.py:33): an int is converted to a `Word`, another width is an error (InconsistentSizeError, a TypeError). -/
def andData (acc : Word) : PVal → Except Err Word
  | .int n => .ok (acc &&& BitVec.ofNat 12 n)
  | .bv w v => if w = 12 then .ok (acc &&& BitVec.ofNat 12 v) else .error .typeError
  | .inst _ => .error .typeError

/-- `data.concat(BitVector[1](0))` (examples/pdp8/sim.py:37): neither an int nor an instruction has this method. -/
def concat0 : PVal → Except Err (Nat × Nat)
  | .bv w v => .ok (w + 1, v)
  | _ => .error .attributeError

/-- `self.acc(0,0).concat(BitVector[1](self.lnk(0,0)))` (examples/pdp8/sim.py:38, 79, 84) -/
def accLnk (acc : Word) (lnk : Bool) : BitVec 13 := BitVec.ofBool lnk ++ acc

/-- `self.acc(res[0:WIDTH], 1); self.lnk(res[WIDTH], 1)` (examples/pdp8/sim.py:40-41, 81-82, 86-87): the new accumulator and link. -/
def split13 (res : BitVec 13) : Word × Bool := (res.extractLsb' 0 12, res.getLsbD 12)

/-- Group 1 (sim.py:65-87): the new accumulator and link. -/
def group1 (o : OPR1) (acc : Word) (lnk : Bool) : Word × Bool :=
  let acc := if o.cla then 0 else acc
  let acc := if o.cma then ~~~acc else acc
  let lnk := if o.cll then false else lnk
  let lnk := if o.cml then !lnk else lnk
  let acc := if o.iac then acc + 1 else acc
  let r := if o.ral then split13 ((accLnk acc lnk).rotateLeft (if o.twice then 2 else 1)) else (acc, lnk)
  if o.rar then split13 ((accLnk r.1 r.2).rotateRight (if o.twice then 2 else 1)) else r

/-- The skip condition of group 2 (sim.py:91-113). -/
def St.skips (s : St) (o : OPR2) : Bool :=
  if o.sma || o.sza || o.snl || o.skip then
    if !o.skip then
      let skip := false
      let skip := if o.sma then skip || s.acc.msb else skip
      let skip := if o.sza then skip || (s.acc == 0) else skip
      if o.snl then skip || (s.lnk == false) else skip
    else
      let skip := true
      if o.sma || o.sza || o.snl then
        let skip := if o.sma then skip && (s.acc.msb == false) else skip
        let skip := if o.sza then skip && (s.acc != 0) else skip
        if o.snl then skip && (s.lnk == true) else skip
      else skip
  else false

/-- The rest of group 2 (sim.py:116-119). -/
def St.group2 (s : St) (o : OPR2) : St :=
  let s := if o.cla then { s with acc := 0 } else s
  if o.hlt then { s with running := false } else s

/-- The body of `__call__` for an instruction (sim.py:29-119): the new state and the new program counter; `pc` is already incremented.
There is no branch for `iot`. -/
def St.exec (s : St) (pz : Bool) (i : Inst) (pc : PVal) : Except Err (St × PVal) :=
  match i with
  | .and_ m => do
    let a ← s.addr pz m pc
    let d ← s.load a
    let r ← andData s.acc d
    .ok ({ s with acc := r }, pc)
  | .tad m => do
    let a ← s.addr pz m pc
    let d ← s.load a
    let x ← concat0 d
    if x.1 = 13 then
      let r := split13 (accLnk s.acc s.lnk + BitVec.ofNat 13 x.2)
      .ok ({ s with acc := r.1, lnk := r.2 }, pc)
    else .error .typeError
  | .isz m => do
    let a ← s.addr pz m pc
    let d ← s.load a
    let d ← plus1 d
    let s ← s.store a d
    let n ← toInt d
    if n = 0 then do
      let pc ← plus1 pc
      .ok (s, pc)
    else .ok (s, pc)
  | .dca m => do
    let a ← s.addr pz m pc
    let s ← s.store a (.bv 12 s.acc.toNat)
    .ok ({ s with acc := 0 }, pc)
  | .jmp m => do
    let a ← s.addr pz m pc
    .ok (s, a)
  | .jms m => do
    let a ← s.addr pz m pc
    let s ← s.store a pc
    let a' ← plus1 a
    .ok (s, a')
  | .opr1 o => .ok ({ s with acc := (group1 o s.acc s.lnk).1, lnk := (group1 o s.acc s.lnk).2 }, pc)
  | .opr2 o => do
    let pc ← if s.skips o then plus1 pc else .ok pc
    .ok (s.group2 o, pc)
  | .iot _ => .ok (s, pc)

/-- `PDP8.__call__` (sim.py:21-121) -/
def St.step (pz : Bool) (s : St) : Except Err St :=
  if !s.running then .ok s
  else do
    let c ← s.load s.pc
    let pc ← plus1 s.pc
    match c with
    | .inst i => do
      let r ← s.exec pz i pc
      .ok { r.1 with pc := r.2 }
    | _ => .error .attributeError                       -- neither an int nor a BitVector has `and_`

/-- `n` calls (examples/pdp8/sim.py:21). -/
def St.steps (pz : Bool) : Nat → St → Except Err St
  | 0, s => .ok s
  | n + 1, s => do
    let s ← s.step pz
    St.steps pz n s

/-- `run()` (sim.py:139-144): calls as long as `is_running()`.  The loop need not end, so its rounds are bounded by the first argument;
`none` when that many rounds were not enough. -/
def St.run (pz : Bool) : Nat → St → Option (Except Err St)
  | 0, s => if s.running then none else some (.ok s)
  | n + 1, s =>
    if s.running then
      match s.step pz with
      | .error e => some (.error e)
      | .ok s' => St.run pz n s'
    else some (.ok s)

/-- `poke_mem(addr, value)` (sim.py:176-177), for an address in range: the store happens, although `int` raises a TypeError when the cell held
an instruction. -/
def St.pokeMem (s : St) (addr : Nat) (value : Nat) : St := { s with mem := s.mem.set addr (.bv 12 (value % 4096)) }

/-- `poke_acc(value)` (sim.py:164-165) -/
def St.pokeAcc (s : St) (value : Nat) : St := { s with acc := BitVec.ofNat 12 value }

end Peak.Pdp8
