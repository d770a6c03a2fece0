import Verif.Model.BasicPe
import Verif.Model.Multi
/-!
# `Multi` for the architecture of `tests/test_basic_rr.py`
-/

namespace Peak

deriving instance DecidableEq for AV

namespace BPe

/-- `Multi(arch_fc, ir_fc, n, IVar=...)` (tests/test_basic_rr.py:98-100), where the IR class returns a function of `m` words (90-95).  The architecture is that of 29-47; an error is modelled by
a bit, which is no word.  The type `Const(Inst)` (33) is written `Inst`: no other input has that type. -/
def multiProblem (A : Ty → Except Err AsmObj) (enc : IEnc) (useReal : Bool) (m : Nat) (f : List Word → Word) : MultiPb Nat Ty AV where
  irIn := (List.range m).map (fun i => (i, wordT))
  irOut := [(0, wordT)]
  archIn := [(0, instT), (1, wordT), (2, wordT)]
  archOut := [(0, wordT), (1, wordT)]
  isConst := fun t => t == instT
  ir := fun _ x _ => .bits (BV.ofNat 8 (f ((List.range m).map (fun i => wordOf 8 (x i)))).toNat)
  arch := fun x g => match peCall A [(0, x 0), (1, x 1), (2, x 2)] with
    | .ok l => l[g]?.getD (.bit false)
    | .error _ => .bit false
  isValid := fun v => isValidAV A v == .ok true
  enc := enc
  useReal := useReal

end BPe
end Peak
