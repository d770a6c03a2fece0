import Verif.Model.Pdp8
/-!
# The PDP-8, in integers

Words are numbers below 4096.  A cell holds data or an instruction; `none` stands for what this description leaves open: executing data,
computing with an instruction, input/output, the switch register, and rotating both ways.
-/

namespace Peak.Pdp8.Spec

open Pdp8 (Inst MRI OPR1 OPR2)

inductive Cell
  | data (n : Nat)
  | code (i : Inst)
  deriving DecidableEq

structure SSt where
  mem : Nat → Cell
  pc : Nat
  acc : Nat
  lnk : Nat
  running : Bool

def Cell.data? : Cell → Option Nat
  | .data n => some n
  | .code _ => none

def upd (mem : Nat → Cell) (a : Nat) (c : Cell) : Nat → Cell := fun b => if b = a then c else mem b

/-- The address in the instruction: on page zero, or on the page of the instruction (at `pc`). -/
def direct (m : MRI) (pc : Nat) : Nat := if m.currentPage then pc / 128 * 128 + m.addr.toNat else m.addr.toNat

/-- The effective address, and the memory after it is found: an indirect reference through the locations 8 to 15 increments them first. -/
def effective (t : SSt) (m : MRI) : Option (Nat × SSt) :=
  let d := direct m t.pc
  if m.indirect then
    match (t.mem d).data? with
    | none => none
    | some n => if 8 ≤ d ∧ d ≤ 15 then some ((n + 1) % 4096, { t with mem := upd t.mem d (.data ((n + 1) % 4096)) }) else some (n, t)
  else some (d, t)

/-- Link and accumulator as one 13-bit number, and back. -/
def both (acc lnk : Nat) : Nat := lnk * 4096 + acc
def split (x : Nat) : Nat × Nat := (x % 4096, x / 4096 % 2)

def rotl (x : Nat) : Nat := 2 * x % 8192 + x / 4096
def rotr (x : Nat) : Nat := x / 2 + x % 2 * 4096

/-- The six-bit halves of the accumulator exchanged. -/
def swap (a : Nat) : Nat := a % 64 * 64 + a / 64

/-- Group 1: clear, complement, increment (link and accumulator), rotate, in this order: the new accumulator and link. -/
def group1 (o : OPR1) (acc lnk : Nat) : Option (Nat × Nat) :=
  let acc := if o.cla then 0 else acc
  let lnk := if o.cll then 0 else lnk
  let acc := if o.cma then 4095 - acc else acc
  let lnk := if o.cml then 1 - lnk else lnk
  let x := if o.iac then (both acc lnk + 1) % 8192 else both acc lnk
  match o.ral, o.rar, o.twice with
  | false, false, false => some (split x)
  | false, false, true => some (swap (split x).1, (split x).2)
  | true, false, false => some (split (rotl x))
  | true, false, true => some (split (rotl (rotl x)))
  | false, true, false => some (split (rotr x))
  | false, true, true => some (split (rotr (rotr x)))
  | true, true, _ => none

/-- Group 2: skip if some condition holds (`sma`, `sza`, `snl`), or, with the skip bit, if none of them does. -/
def skips (t : SSt) (o : OPR2) : Bool :=
  let any := (o.sma && decide (2048 ≤ t.acc)) || (o.sza && decide (t.acc = 0)) || (o.snl && decide (t.lnk = 1))
  if o.skip then !any else any

def next (t : SSt) (pc : Nat) : SSt := { t with pc := pc % 4096 }

/-- One instruction. -/
def exec (t : SSt) : Inst → Option SSt
  | .and_ m => do
    let (a, t) ← effective t m
    let d ← (t.mem a).data?
    some (next { t with acc := t.acc &&& d } (t.pc + 1))
  | .tad m => do
    let (a, t) ← effective t m
    let d ← (t.mem a).data?
    let r := split ((both t.acc t.lnk + d) % 8192)
    some (next { t with acc := r.1, lnk := r.2 } (t.pc + 1))
  | .isz m => do
    let (a, t) ← effective t m
    let d ← (t.mem a).data?
    let d' := (d + 1) % 4096
    some (next { t with mem := upd t.mem a (.data d') } (if d' = 0 then t.pc + 2 else t.pc + 1))
  | .dca m => do
    let (a, t) ← effective t m
    some (next { t with mem := upd t.mem a (.data t.acc), acc := 0 } (t.pc + 1))
  | .jmp m => do
    let (a, t) ← effective t m
    some (next t a)
  | .jms m => do
    let (a, t) ← effective t m
    some (next { t with mem := upd t.mem a (.data ((t.pc + 1) % 4096)) } (a + 1))
  | .opr1 o => do
    let r ← group1 o t.acc t.lnk
    some (next { t with acc := r.1, lnk := r.2 } (t.pc + 1))
  | .opr2 o =>
    if o.osr then none
    else
      let pc := if skips t o then t.pc + 2 else t.pc + 1
      let t := if o.cla then { t with acc := 0 } else t
      let t := if o.hlt then { t with running := false } else t
      some (next t pc)
  | .iot _ => none

def step (t : SSt) : Option SSt :=
  if t.running then
    match t.mem t.pc with
    | .code i => exec t i
    | .data _ => none
  else some t

def steps : Nat → SSt → Option SSt
  | 0, t => some t
  | n + 1, t => do
    let t ← step t
    steps n t

/-- A value of the simulator stands for a cell. -/
def CellRel : PVal → Cell → Prop
  | .int n, .data k => n = k ∧ k < 4096
  | .bv w v, .data k => v = k ∧ k < 4096 ∧ 12 ≤ w
  | .inst i, .code j => i = j
  | _, _ => False

/-- The simulator's state stands for a state of the machine. -/
structure Rel (s : St) (t : SSt) : Prop where
  len : s.mem.length = 4096
  mem : ∀ a (h : a < s.mem.length), CellRel s.mem[a] (t.mem a)
  pc : CellRel s.pc (.data t.pc)
  acc : s.acc.toNat = t.acc
  lnk : (if s.lnk then 1 else 0) = t.lnk
  running : s.running = t.running

end Peak.Pdp8.Spec
