import Verif.Spec.BasicPe
/-!
# Programs on words for the architecture of `tests/test_basic_rr.py`
-/

namespace Peak.BPe

/-- What an instruction does: the sum or product of the two registers, a fixed word, or the first register plus a fixed word. -/
inductive WOp
  | add
  | mul
  | ld (k : Word)
  | addi (k : Word)

def WOp.run : WOp → Word → Word → Word
  | .add, a, b => a + b
  | .mul, a, b => a * b
  | .ld k, _, _ => k
  | .addi k, a, _ => a + k

/-- Where a register gets its word: an argument of the function, one of the two outputs of instruction `j`, or anywhere. -/
inductive Src
  | arg (i : Nat)
  | out (j : Nat) (second : Bool)
  | free
  deriving DecidableEq

structure Ins where
  op : WOp
  r0 : Src
  r1 : Src

def port (second : Bool) (o : Word × Word) : Word := if second then o.2 else o.1

/-- The word of a register, when the arguments are `xs`, the instructions so far have given `outs`, and a free register holds `w`. -/
def Src.word (xs : Nat → Word) (outs : List (Word × Word)) (w : Word) : Src → Word
  | .arg i => xs i
  | .out j s => match outs[j]? with | some o => port s o | none => w
  | .free => w

/-- The outputs of the instructions, in order, after those in `outs`: the result and the first register. -/
def runProg (xs : Nat → Word) (u : Nat → Word × Word) : List Ins → List (Word × Word) → List (Word × Word)
  | [], outs => outs
  | p :: ps, outs =>
    let a := p.r0.word xs outs (u outs.length).1
    let b := p.r1.word xs outs (u outs.length).2
    runProg xs u ps (outs ++ [(p.op.run a b, a)])

/-- The program has `n` instructions, takes only outputs of earlier instructions, and each of the `m` arguments exactly once. -/
structure IsProgram (m n : Nat) (prog : List Ins) : Prop where
  len : prog.length = n
  args : ∀ p ∈ prog, ∀ k, p.r0 = .arg k ∨ p.r1 = .arg k → k < m
  earlier : ∀ (i : Nat) p, prog[i]? = some p → ∀ j s, p.r0 = .out j s ∨ p.r1 = .out j s → j < i
  once : ∀ k, k < m → (prog.flatMap (fun p => [p.r0, p.r1])).count (.arg k) = 1

/-- One of the outputs of the last instruction is the value of the function, for all arguments and whatever the free registers hold. -/
def ProgComputes (m : Nat) (f : List Word → Word) (prog : List Ins) : Prop :=
  ∃ second, ∀ (xs : Nat → Word) (u : Nat → Word × Word), (runProg xs u prog []).getLast?.map (port second) = some (f ((List.range m).map xs))

end Peak.BPe
