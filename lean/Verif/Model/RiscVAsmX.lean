import Verif.Model.RiscVAsm
import Verif.Model.RiscVExt
import Verif.Model.RiscVM
import Verif.Model.RiscVMap
/-!
# The assembler helpers of the other two RISC-V examples (examples/riscv_ext/asm.py, examples/riscv_m/asm.py)

`riscv_ext/asm.py` re-exports everything of `riscv/asm.py` and adds one builder per `BitInst`; `riscv_m/asm.py` is a copy of
`riscv/asm.py` on the instruction set of `riscv_m/isa.py`.
-/

namespace Peak.RV
open Peak.RMap (options kData kTag kRd)

/-! ## the builders of the extension -/

/-- `asm_X` for `X` in `BitInst` (riscv_ext/asm.py:7-25). -/
def asmBit (t : BitInst) (rs rd rs1 : Option Int) : Except Err ExtInst :=
  match rd with
  | none => .error .valueError                                            -- 9-10
  | some rd =>
    if rs.isNone = rs1.isNone then .error .valueError                     -- 12-13
    else
      match (if rs1.isNone then rs else rs1) with                         -- 15
      | none => .error .typeError                                         -- `isa.Idx(None)`: cannot happen here
      | some src => .ok (.Ext (ofPy 5 rd) (ofPy 5 src) t)                  -- 16-21

/-! ## the fields of an extension instruction

`riscv/asm.py` reads `isa.Inst.field_dict` when it is called, so `_unpack` finds the option `Ext` once the extension has replaced `Inst`;
the table `CONSTRUCTORS` was filled when the module was imported. -/

/-- `get_fields` (riscv/asm.py:236-247): `E` has a field `rs`, which is not a key of `kwargs`, so the assertion at 245 fails. -/
def getFieldsX : ExtInst → Except Err (FieldVals Nat)
  | .base i => getFields i
  | .Ext _ _ _ => .error .assertionError

/-- The loop of `set_fields` (riscv/asm.py:201-226) for a field of `E`; `rd` is the only one of the four names `E` has. -/
def setFieldE (rd : Idx) (f : Fld) (value : Option Int) : Except Err (Option Nat) :=
  match value with
  | some v =>
    if f = .rd then
      if v < 0 then .error .valueError
      else if v % (2 ^ 5 : Int) ≠ v then .error .valueError
      else .ok (some v.toNat)
    else .error .valueError
  | none => if f = .rd then .ok (some rd.toNat) else .ok none

/-- `set_fields` (riscv/asm.py:183-233).  `ctor` says whether `CONSTRUCTORS` has an entry for `Ext`; `E(rd=...)` without `rs` raises
TypeError. -/
def setFieldsX (ctor : Bool) (inst : ExtInst) (vals : FieldVals Int) : Except Err ExtInst :=
  match inst with
  | .base i =>
    match setFields i vals with
    | .ok j => .ok (.base j)
    | .error e => .error e
  | .Ext rd _ _ =>
    if ctor then do
      let _ ← setFieldE rd .rs1 vals.rs1
      let _ ← setFieldE rd .rs2 vals.rs2
      let _ ← setFieldE rd .rd vals.rd
      let _ ← setFieldE rd .imm vals.imm
      .error .typeError                                                   -- 229
    else .error .keyError                                                 -- 195

/-! ## the two namespaces

Both `ISA_fc` are family closures, cached per family; the families of the two examples are the same class (riscv_ext/family.py:5), so
there is one entry per closure.  `riscv_ext.isa.ISA_fc` takes the object `riscv.isa.ISA_fc` returned and assigns to its attributes. -/

/-- The option `Ext` (riscv_ext/isa.py:36). -/
def oExt : Key := 9
/-- `rs`: examples/riscv_ext/isa.py:18. -/
def kRs : Key := 6
/-- `E` (riscv_ext/isa.py:16-18). -/
def eT : Ty := .prod 80 (.cons kRd (.bv 0 5) (.cons kRs (.bv 0 5) .nil))
/-- `BitInst` (riscv_ext/isa.py:20-23). -/
def bitT : Ty := .enum 81 [.auto 50, .auto 51, .auto 52]
/-- `Ext` (riscv_ext/isa.py:26-28). -/
def extT : Ty := .prod 82 (.cons kData eT (.cons kTag bitT .nil))

/-- A `SimpleNamespace`: the options of its attribute `Inst` (riscv/isa.py:157-159). -/
structure NsObj where
  inst : List (Key × Ty)

/-- The objects created, the caches of the two closures (features.py:111), and the keys of `CONSTRUCTORS` once `riscv.asm` was imported
(riscv/asm.py:123-125). -/
structure Mods where
  heap : List NsObj := []
  base : Option Nat := none
  ext : Option Nat := none
  ctors : Option (List Key) := none

/-- `riscv.isa.ISA_fc.Py` (features.py:137-143 on riscv/isa.py:11-159). -/
def Mods.callBase (s : Mods) : Nat × Mods :=
  match s.base with
  | some p => (p, s)
  | none => (s.heap.length, { s with heap := s.heap ++ [⟨options⟩], base := some s.heap.length })

/-- `riscv_ext.isa.ISA_fc.Py` (riscv_ext/isa.py:12-38): the object of the base closure, with `Inst` replaced (36). -/
def Mods.callExt (s : Mods) : Nat × Mods :=
  match s.ext with
  | some p => (p, s)
  | none =>
    let (p, s) := s.callBase                                              -- 14
    (p, { s with heap := s.heap.set p ⟨options ++ [(oExt, extT)]⟩, ext := some p })

/-- `import riscv.asm` (riscv/asm.py:8, 123-125); a second import does nothing. -/
def Mods.importAsm (s : Mods) : Mods :=
  match s.ctors with
  | some _ => s
  | none =>
    let (p, s) := s.callBase
    { s with ctors := some (((s.heap[p]?).map (fun o => o.inst.map (·.1))).getD []) }

/-- What a process does with the two examples (riscv/sim.py:13-20, riscv_ext/sim.py:22, riscv_ext/asm.py:1-4). -/
inductive Act
  | base       -- uses `riscv.isa.ISA_fc.Py`, as the closures of riscv/sim.py:13-20 do
  | ext        -- uses `riscv_ext.isa.ISA_fc.Py` (riscv_ext/sim.py:22)
  | asm        -- imports `riscv.asm`
  | extAsm     -- imports `riscv_ext.asm` (riscv_ext/asm.py:1-4)
  deriving DecidableEq

/-- One action (riscv_ext/asm.py:1-4 for the last one). -/
def Mods.step (s : Mods) : Act → Mods
  | .base => s.callBase.2
  | .ext => s.callExt.2
  | .asm => s.importAsm
  | .extAsm => s.importAsm.callExt.2

/-- A history of a process (uses of riscv/isa.py and riscv_ext/isa.py). -/
def Mods.run (s : Mods) (acts : List Act) : Mods := acts.foldl Mods.step s

/-- `riscv.isa.ISA_fc.Py.Inst`, as a program that uses the base example reads it (riscv/sim.py:29, riscv/asm.py:29). -/
def Mods.baseInst (s : Mods) : List (Key × Ty) :=
  let (p, s) := s.callBase
  ((s.heap[p]?).map (·.inst)).getD []

/-- The class `Sum[...]` of a list of options under an order of their printed forms (assembler.py:191-194; riscv/isa.py:157). -/
def sumOf (rank : Key → Nat) (opts : List (Key × Ty)) : Ty := .mkSum 73 (opts.map (fun p => (rank p.1, p.1, p.2)))

/-! ## `riscv_m/asm.py` -/

/-- The data of an instruction (riscv_m/asm.py:138-180): `OP` with a `muldiv` tag has layout `R`. -/
def dataM : InstM → Data
  | .base i => (unpack i).1
  | .muldiv d _ => .R d

/-- `get_fields` (riscv_m/asm.py:236-247) -/
def getFieldsM (inst : InstM) : Except Err (FieldVals Nat) := do
  let data := dataM inst
  let rs1 ← getField data .rs1
  let rs2 ← getField data .rs2
  let rd ← getField data .rd
  let imm ← getField data .imm
  pure ⟨rs1, rs2, rd, imm⟩

/-- `set_fields` (riscv_m/asm.py:183-233).  The constructor of `OP` looks the class of the tag up in `attrs`, which has no entry for
`MulDivInst` (88-91, 108-110): KeyError. -/
def setFieldsM (inst : InstM) (vals : FieldVals Int) : Except Err InstM := do
  let data := dataM inst
  let rs1 ← setField data .rs1 vals.rs1
  let rs2 ← setField data .rs2 vals.rs2
  let rd ← setField data .rd vals.rd
  let imm ← setField data .imm vals.imm
  let data' ← mkData data.layout (fun f => FieldVals.get ⟨rs1, rs2, rd, imm⟩ f)
  match inst with
  | .base i => (construct (unpack i).2.2 data' (unpack i).2.1).map .base
  | .muldiv _ _ => .error .keyError

end Peak.RV
