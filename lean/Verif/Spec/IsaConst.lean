import Verif.Model.IsaConst
/-!
# What a function means when ISA constants stand for their codes
-/

namespace Peak.Ic

mutual
/-- Evaluation in which `X.m` is the code of `m` for every assembled type `X`. -/
def meaning {O : Type} [DecidableEq O] (W : World O) (asm : List (O × Entry)) (ρ : Env O) : Expr → Except PErr O
  | .name x => lookupName ρ x
  | .attr e a => (meaning W asm ρ e).bind fun o =>
    match asm.lookup o with
    | some ent => (other (ent a)).map W.ofInt
    | none => other (W.getattr o a)
  | .store e a => (meaning W asm ρ e).bind fun o => other (W.slot o a)
  | .num i => .ok (W.ofInt i)
  | .node op es => (meaningAll W asm ρ es).bind (W.apply op)
def meaningAll {O : Type} [DecidableEq O] (W : World O) (asm : List (O × Entry)) (ρ : Env O) : List Expr → Except PErr (List O)
  | [] => .ok []
  | e :: es => (meaning W asm ρ e).bind fun o => (meaningAll W asm ρ es).map (o :: ·)
end

/-- `x.a.b…`, with the name it starts with. -/
inductive Dotted : Expr → Nat → Prop
  | name (x : Nat) : Dotted (.name x) x
  | attr {e : Expr} {x : Nat} (h : Dotted e x) (a : Nat) : Dotted (.attr e a) x

/-- Some proper prefix of the dotted name is an assembled type: a constant inside. -/
inductive Inner {O : Type} [DecidableEq O] (W : World O) (asm : List (O × Entry)) (ρ : Env O) : Expr → Prop
  | here {e : Expr} {a : Nat} {o : O} {ent : Entry} (h : eval W ρ e = .ok o) (hl : asm.lookup o = some ent) : Inner W asm ρ (.attr e a)
  | there {e : Expr} {a : Nat} (h : Inner W asm ρ e) : Inner W asm ρ (.attr e a)

/-- `e` is an assembled type. -/
def IsType {O : Type} [DecidableEq O] (W : World O) (asm : List (O × Entry)) (ρ : Env O) (e : Expr) : Prop :=
  ∃ o ent, eval W ρ e = .ok o ∧ asm.lookup o = some ent

mutual
/-- The expressions the pass is right for. `pass`, `orig`, `new` say what names mean to the pass, in the given function and in the new one: attributes
are taken of dotted names without a constant inside; what the pass takes such a name for is what it is, and the pass knows the names of assembled types;
names that stay in the function mean in the new function what they mean in the given one. -/
def Plain {O : Type} [DecidableEq O] (W : World O) (asm : List (O × Entry)) (pass orig new : Env O) : Expr → Prop
  | .name x => new x = orig x
  | .num _ => True
  | .attr e _ => ∃ x, Dotted e x ∧ ¬ Inner W asm orig e ∧ (pass x = orig x ∨ (pass x = none ∧ ¬ IsType W asm orig e)) ∧
      (new x = orig x ∨ IsType W asm orig e)
  | .store e _ => ∃ x, Dotted e x ∧ ¬ Inner W asm orig e ∧ new x = orig x
  | .node _ es => Plains W asm pass orig new es
def Plains {O : Type} [DecidableEq O] (W : World O) (asm : List (O × Entry)) (pass orig new : Env O) : List Expr → Prop
  | [] => True
  | e :: es => Plain W asm pass orig new e ∧ Plains W asm pass orig new es
end

end Peak.Ic
