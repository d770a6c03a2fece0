import Verif.Model.Rewriter
/-!
# The meaning of a call body in Python

Specification for C60: the class as the user wrote it, run by Python (`PyFamily`).
-/

namespace Peak.Rw

/-- `bool(v)` -/
def truthy : V → Bool
  | .bit b => b
  | .bv _ x => decide (x.toNat ≠ 0)
  | .pair _ _ => true

/-- Python's evaluation: `and`, `or` and conditional expressions evaluate only what they need. -/
def pyEval (C : Comps) : Ex → Frame → List V → Except Err (V × List V)
  | .var x, fr, ss => do let v ← fr.getVar x; .ok (v, ss)
  | .attr a, fr, ss => do let v ← fr.getAttr a; .ok (v, ss)
  | .lit v, _, ss => .ok (v, ss)
  | .op1 f e, fr, ss => do
    let (a, ss) ← pyEval C e fr ss
    let v ← f a
    .ok (v, ss)
  | .op2 f e1 e2, fr, ss => do
    let (a, ss) ← pyEval C e1 fr ss
    let (b, ss) ← pyEval C e2 fr ss
    let v ← f a b
    .ok (v, ss)
  | .sub i e, fr, ss => do
    let (a, ss) ← pyEval C e fr ss
    callComp C i a ss
  | .and e1 e2, fr, ss => do
    let (a, ss) ← pyEval C e1 fr ss
    if truthy a then pyEval C e2 fr ss else .ok (a, ss)
  | .or e1 e2, fr, ss => do
    let (a, ss) ← pyEval C e1 fr ss
    if truthy a then .ok (a, ss) else pyEval C e2 fr ss
  | .not e, fr, ss => do
    let (a, ss) ← pyEval C e fr ss
    .ok (.bit (!truthy a), ss)
  | .cond c t f, fr, ss => do
    let (a, ss) ← pyEval C c fr ss
    if truthy a then pyEval C t fr ss else pyEval C f fr ss

/-- Python's execution: the state, the components and the returned value, if a `return` was reached. -/
def pyExec (C : Comps) : St → Frame → List V → Except Err (Frame × List V × Option V)
  | .skip, fr, ss => .ok (fr, ss, none)
  | .assign x e, fr, ss => do
    let (v, ss) ← pyEval C e fr ss
    .ok (fr.setVar x v, ss, none)
  | .setAttr a e, fr, ss => do
    let (v, ss) ← pyEval C e fr ss
    .ok (fr.setAttr a v, ss, none)
  | .eval e, fr, ss => do
    let (_, ss) ← pyEval C e fr ss
    .ok (fr, ss, none)
  | .assert e, fr, ss => do
    let (v, ss) ← pyEval C e fr ss
    if truthy v then .ok (fr, ss, none) else .error .assertionError
  | .ret e, fr, ss => do
    let (v, ss) ← pyEval C e fr ss
    .ok (fr, ss, some v)
  | .seq s1 s2, fr, ss => do
    let (fr, ss, r) ← pyExec C s1 fr ss
    match r with
    | some v => .ok (fr, ss, some v)
    | none => pyExec C s2 fr ss
  | .ifte c t f, fr, ss => do
    let (a, ss) ← pyEval C c fr ss
    if truthy a then pyExec C t fr ss else pyExec C f fr ss

/-- A call: the value (`none`: no `return` was reached, Python's `None`), the attributes and the components afterwards. -/
def pyCallBody (C : Comps) (body : St) (vars : List (Option V)) (attrs ss : List V) : Except Err (Option V × List V × List V) := do
  let (fr, ss, r) ← pyExec C body ⟨vars, attrs⟩ ss
  .ok (r, fr.attrs, ss)

/-- A sequence of calls of one object. -/
def pyRunBody (C : Comps) (body : St) : List (List (Option V)) → List V → List V → Except Err (List (Option V) × List V × List V)
  | [], attrs, ss => .ok ([], attrs, ss)
  | args :: cs, attrs, ss => do
    let (v, attrs, ss) ← pyCallBody C body args attrs ss
    let (vs, attrs, ss) ← pyRunBody C body cs attrs ss
    .ok (v :: vs, attrs, ss)

/-! ## The code the claim is about -/

/-- Components in `P` have no state that a call changes (combinational classes). -/
def Comps.Stateless (P : Nat → Bool) (C : Comps) : Prop := ∀ i, P i = true → ∀ v st v' st', C i v st = .ok (v', st') → st' = st

/-- No component is called, except those in `P`. -/
def Ex.pure (P : Nat → Bool) : Ex → Bool
  | .var _ | .attr _ | .lit _ => true
  | .op1 _ e | .not e => e.pure P
  | .op2 _ e1 e2 | .and e1 e2 | .or e1 e2 => e1.pure P && e2.pure P
  | .sub i e => P i && e.pure P
  | .cond c t f => c.pure P && t.pure P && f.pure P

/-- No component, except those in `P`, is called in a part that Python may skip. -/
def Ex.uncond (P : Nat → Bool) : Ex → Bool
  | .var _ | .attr _ | .lit _ => true
  | .op1 _ e | .not e | .sub _ e => e.uncond P
  | .op2 _ e1 e2 => e1.uncond P && e2.uncond P
  | .and e1 e2 | .or e1 e2 => e1.uncond P && e2.pure P
  | .cond c t f => c.uncond P && t.pure P && f.pure P

def St.pure (P : Nat → Bool) : St → Bool
  | .skip => true
  | .assign _ e | .setAttr _ e | .eval e | .assert e | .ret e => e.pure P
  | .seq s1 s2 => s1.pure P && s2.pure P
  | .ifte c t f => c.pure P && t.pure P && f.pure P

/-- The statement contains a `return`. -/
def St.mayReturn : St → Bool
  | .ret _ => true
  | .seq s1 s2 | .ifte _ s1 s2 => s1.mayReturn || s2.mayReturn
  | _ => false

/-- No component, except those in `P`, is called under a condition, or after a statement that may have returned. -/
def St.uncond (P : Nat → Bool) : St → Bool
  | .skip => true
  | .assign _ e | .setAttr _ e | .eval e | .assert e | .ret e => e.uncond P
  | .seq s1 s2 => s1.uncond P && s2.uncond P && (!s1.mayReturn || s2.pure P)
  | .ifte c t f => c.uncond P && t.pure P && f.pure P

/-- The annotations of a class: the types of the variables, of the attributes, and of the components (argument, state, result). -/
structure Sig where
  vars : List Ty
  attrs : List Ty
  comps : List (Ty × Ty × Ty)

/-- Every variable that has a value has one of its type; the attributes have values of their types. -/
def Frame.Typed (Γ : Sig) (fr : Frame) : Prop :=
  fr.vars.length = Γ.vars.length ∧ (∀ (x : Nat) (v : V), fr.vars[x]? = some (some v) → Γ.vars[x]? = some (tyOf v)) ∧ fr.attrs.map tyOf = Γ.attrs

/-- The components have states of their types. -/
def StatesTyped (Γ : Sig) (ss : List V) : Prop := ss.map tyOf = Γ.comps.map (·.2.1)

/-- The components keep to their types. -/
def Comps.Typed (Γ : Sig) (C : Comps) : Prop :=
  ∀ (i : Nat) (a s r : Ty), Γ.comps[i]? = some (a, s, r) → ∀ v st v' st', tyOf v = a → tyOf st = s → C i v st = .ok (v', st') → tyOf v' = r ∧ tyOf st' = s

/-- The expression has the type; operators return values of the type they are used at. -/
def Ex.HasTy (Γ : Sig) : Ex → Ty → Prop
  | .var x, τ => Γ.vars[x]? = some τ
  | .attr a, τ => Γ.attrs[a]? = some τ
  | .lit v, τ => tyOf v = τ
  | .op1 f e, τ => ∃ σ, e.HasTy Γ σ ∧ ∀ v r, tyOf v = σ → f v = .ok r → tyOf r = τ
  | .op2 f e1 e2, τ => ∃ σ1 σ2, e1.HasTy Γ σ1 ∧ e2.HasTy Γ σ2 ∧ ∀ v w r, tyOf v = σ1 → tyOf w = σ2 → f v w = .ok r → tyOf r = τ
  | .sub i e, τ => ∃ σ s, e.HasTy Γ σ ∧ Γ.comps[i]? = some (σ, s, τ)
  | .and e1 e2, τ | .or e1 e2, τ => τ = .bit ∧ e1.HasTy Γ .bit ∧ e2.HasTy Γ .bit
  | .not e, τ => τ = .bit ∧ e.HasTy Γ .bit
  | .cond c t f, τ => c.HasTy Γ .bit ∧ t.HasTy Γ τ ∧ f.HasTy Γ τ

/-- The body respects the annotations and returns values of type `ρ`; conditions are bits. -/
def St.Typed (Γ : Sig) (ρ : Ty) : St → Prop
  | .skip => True
  | .assign x e => ∃ τ, Γ.vars[x]? = some τ ∧ e.HasTy Γ τ
  | .setAttr a e => ∃ τ, Γ.attrs[a]? = some τ ∧ e.HasTy Γ τ
  | .eval e => ∃ τ, e.HasTy Γ τ
  | .assert e => e.HasTy Γ .bit
  | .ret e => e.HasTy Γ ρ
  | .seq s1 s2 => s1.Typed Γ ρ ∧ s2.Typed Γ ρ
  | .ifte c t f => c.HasTy Γ .bit ∧ t.Typed Γ ρ ∧ f.Typed Γ ρ

/-! ## Bodies that raise nothing -/

/-- Components that raise nothing. -/
def Comps.Total (Γ : Sig) (C : Comps) : Prop :=
  ∀ (i : Nat) (a s r : Ty), Γ.comps[i]? = some (a, s, r) → ∀ v st, tyOf v = a → tyOf st = s → ∃ q, C i v st = .ok q

/-- Operators that raise nothing on arguments of the types they are used at, and variables that have been assigned (`D`). -/
def Ex.Total (Γ : Sig) (D : Nat → Bool) : Ex → Prop
  | .var x => D x = true
  | .attr _ | .lit _ => True
  | .op1 f e => e.Total Γ D ∧ ∀ σ, e.HasTy Γ σ → ∀ v, tyOf v = σ → ∃ r, f v = .ok r
  | .op2 f e1 e2 => e1.Total Γ D ∧ e2.Total Γ D ∧
      ∀ σ1 σ2, e1.HasTy Γ σ1 → e2.HasTy Γ σ2 → ∀ v w, tyOf v = σ1 → tyOf w = σ2 → ∃ r, f v w = .ok r
  | .sub _ e | .not e => e.Total Γ D
  | .and e1 e2 | .or e1 e2 => e1.Total Γ D ∧ e2.Total Γ D
  | .cond c t f => c.Total Γ D ∧ t.Total Γ D ∧ f.Total Γ D

/-- The variables assigned on every path that does not return (`none`: every path returns). -/
def St.assigned : St → (Nat → Bool) → Option (Nat → Bool)
  | .assign x _, D => some (fun y => D y || y == x)
  | .ret _, _ => none
  | .seq s1 s2, D => match s1.assigned D with
    | none => none
    | some D => s2.assigned D
  | .ifte _ t f, D => match t.assigned D, f.assigned D with
    | none, d => d
    | d, none => d
    | some a, some b => some (fun y => a y && b y)
  | _, D => some D

/-- No `assert`, total operators, and variables are assigned before they are used. -/
def St.Total (Γ : Sig) : St → (Nat → Bool) → Prop
  | .skip, _ => True
  | .assert _, _ => False
  | .assign _ e, D | .setAttr _ e, D | .eval e, D | .ret e, D => e.Total Γ D
  | .seq s1 s2, D => s1.Total Γ D ∧ match s1.assigned D with
    | none => True
    | some D => s2.Total Γ D
  | .ifte c t f, D => c.Total Γ D ∧ t.Total Γ D ∧ f.Total Γ D

end Peak.Rw
