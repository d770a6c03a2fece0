import Verif.Model.Pdp8
/-!
# The builders of the PDP-8 example (examples/pdp8/asm.py)

Keyword arguments are a list of names and values; a flag is 0 or 1. The messages the builders print are not modelled.
-/

namespace Peak.Pdp8.Asm

open Pdp8

/-- `and_`, `tad`, `dca`, `isz`, `jmp`, `jms` (asm.py:4-25): `Addr(addr)` keeps the lowest 7 bits. -/
def mri (addr : Int) (indirect currentPage : Bool) : MRI := ⟨indirect, currentPage, BitVec.ofInt 7 addr⟩
/-- examples/pdp8/asm.py:4-5. -/
def and_ (addr : Int) (i p : Bool) : Inst := .and_ (mri addr i p)
/-- examples/pdp8/asm.py:8-9. -/
def tad (addr : Int) (i p : Bool) : Inst := .tad (mri addr i p)
/-- examples/pdp8/asm.py:12-13. -/
def dca (addr : Int) (i p : Bool) : Inst := .dca (mri addr i p)
/-- examples/pdp8/asm.py:16-17. -/
def isz (addr : Int) (i p : Bool) : Inst := .isz (mri addr i p)
/-- examples/pdp8/asm.py:20-21. -/
def jmp (addr : Int) (i p : Bool) : Inst := .jmp (mri addr i p)
/-- examples/pdp8/asm.py:24-25. -/
def jms (addr : Int) (i p : Bool) : Inst := .jms (mri addr i p)

/-- Keyword arguments (Python; asm.py:31, 37). -/
abbrev Kw := List (String × Bool)

/-- Python's check of a call with keywords only: every name is a parameter, and none is given twice (the signatures at asm.py:31, 116). -/
def accepts (params : List String) (kw : Kw) : Bool := kw.all (fun p => params.contains p.1) && decide ((kw.map (·.1)).Nodup)

/-- The value of a parameter whose default is 0 (examples/pdp8/asm.py:31, 116). -/
def flag (kw : Kw) (p : String) : Bool := (kw.lookup p).getD false

/-- `opr1` (asm.py:31-34) -/
def opr1 (kw : Kw) : Except Err Inst :=
  if accepts ["cla", "cll", "cma", "cml", "rar", "ral", "twice", "iac"] kw then
    .ok (.opr1 { cla := flag kw "cla", cll := flag kw "cll", cma := flag kw "cma", cml := flag kw "cml",
                 rar := flag kw "rar", ral := flag kw "ral", twice := flag kw "twice", iac := flag kw "iac" })
  else .error .typeError

/-- asm.py:37-104, in the order of the file -/
def cla (kw : Kw) := opr1 (("cla", true) :: kw)
/-- examples/pdp8/asm.py:41-42. -/
def cma (kw : Kw) := opr1 (("cma", true) :: kw)
/-- examples/pdp8/asm.py:45-46. -/
def sta := opr1 [("cla", true), ("cma", true)]
/-- examples/pdp8/asm.py:53-54. -/
def cll (kw : Kw) := opr1 (("cll", true) :: kw)
/-- examples/pdp8/asm.py:57-58. -/
def cml (kw : Kw) := opr1 (("cml", true) :: kw)
/-- examples/pdp8/asm.py:61-62. -/
def stl := opr1 [("cll", true), ("cml", true)]
/-- examples/pdp8/asm.py:65-66. -/
def glk := opr1 [("cla", true), ("rol", true)]
/-- examples/pdp8/asm.py:71-72. -/
def iac (kw : Kw) := opr1 (("iac", true) :: kw)
/-- examples/pdp8/asm.py:75-76. -/
def rar (kw : Kw) := opr1 (("rar", true) :: kw)
/-- examples/pdp8/asm.py:79-80. -/
def rtr (kw : Kw) := opr1 (("rar", true) :: ("twice", true) :: kw)
/-- examples/pdp8/asm.py:83-84. -/
def lsr := opr1 [("cll", true), ("rar", true)]
/-- examples/pdp8/asm.py:87-88. -/
def ral (kw : Kw) := opr1 (("ral", true) :: kw)
/-- examples/pdp8/asm.py:91-92. -/
def rtl (kw : Kw) := opr1 (("ral", true) :: ("twice", true) :: kw)
/-- examples/pdp8/asm.py:95-96. -/
def lsl := opr1 [("cll", true), ("ral", true)]
/-- examples/pdp8/asm.py:99-100. -/
def nop := opr1 []
/-- examples/pdp8/asm.py:103-104. -/
def cia (kw : Kw) := opr1 (("cma", true) :: ("iac", true) :: kw)

/-- `opr2` (asm.py:116-123) -/
def opr2 (kw : Kw) : Except Err Inst :=
  if accepts ["cla", "sma", "sza", "snl", "spa", "sna", "szl", "skip", "osr", "hlt"] kw then
    let flags2 := flag kw "spa" || flag kw "sna" || flag kw "szl"
    let skip := if flags2 then true else flag kw "skip"
    .ok (.opr2 { cla := flag kw "cla", sma := flag kw "sma" || flag kw "spa", sza := flag kw "sza" || flag kw "sna",
                 snl := flag kw "snl" || flag kw "szl", skip := skip, osr := flag kw "osr", hlt := flag kw "hlt", nop := false })
  else .error .typeError

/-- asm.py:125-156 -/
def sza (kw : Kw) := opr2 (("sza", true) :: kw)
/-- examples/pdp8/asm.py:130-131. -/
def sna (kw : Kw) := opr2 (("sna", true) :: kw)
/-- examples/pdp8/asm.py:134-135. -/
def sma (kw : Kw) := opr2 (("sma", true) :: kw)
/-- examples/pdp8/asm.py:138-139. -/
def spa (kw : Kw) := opr2 (("spa", true) :: kw)
/-- examples/pdp8/asm.py:142-143. -/
def szl (kw : Kw) := opr2 (("szl", true) :: kw)
/-- examples/pdp8/asm.py:146-147. -/
def snl (kw : Kw) := opr2 (("snl", true) :: kw)
/-- examples/pdp8/asm.py:150-151. -/
def skp := opr2 [("skip", true)]
/-- examples/pdp8/asm.py:154-155. -/
def hlt := opr2 [("hlt", true)]

end Peak.Pdp8.Asm
