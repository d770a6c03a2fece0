import Verif.Model.RiscV
/-!
# The RISC-V extension example: bit counting (examples/riscv_ext/isa.py, sim.py)
-/

namespace Peak.RV

/-- `BitInst` (riscv_ext/isa.py:20-23) -/
inductive BitInst | POPCNT | CNTLZ | CNTTZ
  deriving DecidableEq

/-- The branch `POPCNT` (riscv_ext/sim.py:239-242); the loop is unrolled over `range(Word.size)`. -/
def popcnt (val : Word) : Word :=
  (List.range 32).foldl (fun cnt i => cnt + bvlshr (val &&& BitVec.ofNat 32 (1 <<< i)) (BitVec.ofNat 32 i)) 0

/-- The local variables of the two counting loops (examples/riscv_ext/sim.py:247-256, 265-272). -/
structure CntSt where
  mask : Word
  shft : Word
  cnt : Word
  val : Word

/-- One iteration of the loop of `CNTLZ` (sim.py:251-256) -/
def lzStep (s : CntSt) : CntSt :=
  let mask := bvshl s.mask s.shft
  if s.val &&& mask == 0 then ⟨mask, bvlshr s.shft 1, s.cnt + s.shft, bvshl s.val s.shft⟩
  else ⟨mask, bvlshr s.shft 1, s.cnt, s.val⟩

/-- One iteration of the loop of `CNTTZ` (sim.py:269-274) -/
def tzStep (s : CntSt) : CntSt :=
  let mask := bvlshr s.mask s.shft
  if s.val &&& mask == 0 then ⟨mask, bvlshr s.shft 1, s.cnt + s.shft, bvlshr s.val s.shft⟩
  else ⟨mask, bvlshr s.shft 1, s.cnt, s.val⟩

/-- Both branches but `POPCNT` (sim.py:243-259, 261-277): the loop runs `Word.size.bit_length() - 1` times. -/
def countLoop (step : CntSt → CntSt) (val : Word) : Except Err Word :=
  if val == 0 then .ok 32
  else
    let s := (List.range (bitLength 32 - 1)).foldl (fun s _ => step s) ⟨BitVec.ofInt 32 (-1), 16, 0, val⟩
    if s.shft == 0 then .ok s.cnt else .error .assertionError

/-- `BitCounter.__call__` (sim.py:237-277) -/
def bitCounter (inst : BitInst) (val : Word) : Except Err Word :=
  match inst with
  | .POPCNT => .ok (popcnt val)
  | .CNTLZ => countLoop lzStep val
  | .CNTTZ => countLoop tzStep val

/-- `Inst` of the extension (isa.py:16-36): the base instructions and `Ext` with its layout `E`. -/
inductive ExtInst
  | base (i : Inst)
  | Ext (rd rs : Idx) (tag : BitInst)
  deriving DecidableEq

/-- Decode (sim.py:45-161).  The branches of the base instructions (55-153) are the text of riscv/sim.py:51-150. -/
def extDecode (load1 load2 : Idx → Except Err Word) (asserts : Bool) (pc : Word) : ExtInst → Except Err Dec
  | .base i => decode load1 load2 asserts pc i
  | .Ext rd rs tag => do                                                  -- 154-161
    let val ← load1 rs
    let a ← bitCounter tag val
    pure { a := a, b := 0, exec := .arith .ADD, rd := rd }

/-- `R32I.__call__` of the extension (sim.py:35-226); execute and commit (163-225) are the text of riscv/sim.py:152-214. -/
def extCall {σ : Type} (F : RegFile σ) (asserts : Bool) (s : σ) (inst : ExtInst) (pc : Word) : Except Err (σ × Word) := do
  let d ← extDecode (F.load1 s) (F.load2 s) asserts pc inst
  let c := alu d.exec d.a d.b
  if asserts && (d.isJump && d.isBranch) then .error .assertionError
  else
    let (out, pcNext) := commit d pc c
    pure (F.store s d.rd out, pcNext)

end Peak.RV
