import Verif.Model.Multi
import Verif.Props.Multi
/-!
# What a sequence of instructions computes

A program is a list of instructions: how the inputs of the instruction are wired, and its constant field.
-/

namespace Peak

variable {F T V : Type} [DecidableEq F]

/-- The inputs of instruction `i`: the constant field, the values of the wires (IR inputs or outputs of earlier instructions), and arbitrary values `u` for the
fields left unbound. -/
def blockIn (c : F) (x u : F → V) (outs : List (F → V)) (i : Nat) (b : MBdg F) (instr : V) : F → V := fun f =>
  if f = c then instr
  else
    match b.find? (fun e => e.2 == .archIn i f) with
    | some (some (.irIn g), _) => x g
    | some (some (.archOut j g), _) => match outs[j]? with | some o => o g | none => u f
    | _ => u f

/-- Running a program: the outputs of the instructions, in order, after those in `outs`. -/
def execMulti (arch : (F → V) → F → V) (c : F) (x : F → V) (u : Nat → F → V) : List (MBdg F × V) → List (F → V) → List (F → V)
  | [], outs => outs
  | (b, v) :: rest, outs => execMulti arch c x u rest (outs ++ [arch (blockIn c x (u outs.length) outs outs.length b v)])

/-- The program computes the IR function: for all IR inputs, all values of the unbound fields and whatever the black boxes of the IR return, the last instruction
has the outputs of the IR function on the fields they are bound to. -/
def MultiComputes (pb : MultiPb F T V) (dom : T → V → Prop) (c : F) (prog : List (MBdg F × V)) (ob : MBdg F) : Prop :=
  ∀ (β : Nat → V) (x : F → V) (u : Nat → F → V), (∀ e ∈ pb.irIn, dom e.2 (x e.1)) → (∀ i, ∀ e ∈ pb.nonConst, dom e.2 (u i e.1)) →
    ∃ o, (execMulti pb.arch c x u prog []).getLast? = some o ∧
      ∀ h g, (some (.archOut (prog.length - 1) h), .irOut g) ∈ ob → o h = pb.ir β x g

/-- A correct program of `n` instructions, with constant field `c` of type `t`: legal wiring, valid constants, outputs bound to outputs of the last instruction
of the same type, and the function is computed. -/
structure MultiCorrect [DecidableEq T] (pb : MultiPb F T V) (dom : T → V → Prop) (n : Nat) (c : F) (t : T) (prog : List (MBdg F × V)) : Prop where
  wiring : IsMulti pb.irIn pb.archOut pb.nonConst n (prog.map (·.1))
  valid : ∀ p ∈ prog, pb.isValid p.2 = true ∧ dom t p.2
  computes : ∃ ob, IsBlockBinding (pb.archOut.map (fun e => (MPath.archOut (n - 1) e.1, e.2))) (pb.irOut.map (fun e => (MPath.irOut e.1, e.2))) false ob ∧
    MultiComputes pb dom c prog ob

end Peak
