import Verif.Spec.IsaConst
/-!
# C73: ISA constants in a function replaced by their codes
-/

namespace Peak.Ic

variable {O : Type} [DecidableEq O] {W : World O} {asm : List (O × Entry)}

theorem dotted_eval {ρ ρ' : Env O} {e : Expr} {x : Nat} (h : Dotted e x) (hx : ρ x = ρ' x) : eval W ρ e = eval W ρ' e := by
  induction h with
  | name x => simp only [eval, lookupName, hx]
  | attr _ a ih => simp only [eval, ih hx]

theorem dotted_unknown {ρ : Env O} {e : Expr} {x : Nat} (h : Dotted e x) (hx : ρ x = none) : eval W ρ e = .error .name := by
  induction h with
  | name x => simp only [eval, lookupName, hx]
  | attr _ a ih => simp only [eval, ih hx, Except.bind]

theorem keep_meaning {ρ : Env O} {e : Expr} {a : Nat} (hm : meaning W asm ρ e = eval W ρ e) (ht : ¬ IsType W asm ρ e) :
    meaning W asm ρ (.attr e a) = eval W ρ (.attr e a) := by
  simp only [meaning, eval, hm]
  cases he : eval W ρ e with
  | error _ => rfl
  | ok o =>
    cases hl : asm.lookup o with
    | none => simp only [Except.bind, hl]
    | some ent => exact absurd ⟨o, ent, he, hl⟩ ht

theorem dotted_meaning {ρ : Env O} {e : Expr} {x : Nat} (h : Dotted e x) (hi : ¬ Inner W asm ρ e) : meaning W asm ρ e = eval W ρ e := by
  induction h with
  | name x => rfl
  | @attr e x h a ih =>
    exact keep_meaning (ih (fun h => hi (.there h))) (fun ⟨o, ent, he, hl⟩ => hi (.here he hl))

theorem other_ne {α : Type} (r : Except Nat α) : other r ≠ .error .name := by cases r <;> simp [other, Except.mapError]

theorem visit_type {ρ : Env O} {e e' : Expr} {a : Nat} {o : O} {ent : Entry} (he : eval W ρ e = .ok o) (hl : asm.lookup o = some ent)
    (h : visit W asm ρ (.attr e a) = .ok e') : ∃ i, ent a = .ok i ∧ e' = .num i := by
  simp only [visit, tryAttr, eval, he, Except.bind, hl] at h
  cases hh : W.hashable o with
  | false => rw [hh] at h; cases h
  | true =>
    rw [hh, if_pos rfl] at h
    cases hg : W.getattr o a with
    | error n => rw [hg] at h; cases h
    | ok m =>
      rw [hg] at h
      cases hi : ent a with
      | error n => rw [hi] at h; cases h
      | ok i => rw [hi] at h; cases h; exact ⟨i, rfl, rfl⟩

theorem visit_keep {ρ : Env O} {e e' : Expr} {a : Nat} (ht : ¬ IsType W asm ρ e) (h : visit W asm ρ (.attr e a) = .ok e') : e' = .attr e a := by
  simp only [visit, tryAttr] at h
  cases he : eval W ρ e with
  | error x =>
    rw [he] at h
    cases x with
    | name => cases h; rfl
    | other n => cases h
  | ok o =>
    rw [he] at h
    simp only [Except.bind] at h
    cases hl : asm.lookup o with
    | some ent => exact absurd ⟨o, ent, he, hl⟩ ht
    | none =>
      rw [hl] at h
      cases hh : W.hashable o with
      | false => rw [hh] at h; cases h
      | true => rw [hh] at h; cases h; rfl

mutual
theorem visit_meaning {pass orig new : Env O} : ∀ (e e' : Expr), Plain W asm pass orig new e → visit W asm pass e = .ok e' →
    eval W new e' = meaning W asm orig e
  | .name x, e', hp, h => by
    cases h
    simp only [Plain] at hp
    simp only [eval, meaning, lookupName, hp]
  | .num i, e', _, h => by cases h; rfl
  | .store e a, e', hp, h => by
    cases h
    obtain ⟨x, hd, hi, hn⟩ := hp
    simp only [eval, meaning, dotted_meaning hd hi, dotted_eval hd hn]
  | .attr e a, e', hp, h => by
    obtain ⟨x, hd, hi, hk, hn⟩ := hp
    have hm := dotted_meaning hd hi
    by_cases ht : IsType W asm orig e
    · have hk : pass x = orig x := hk.resolve_right (fun h => h.2 ht)
      obtain ⟨o, ent, he, hl⟩ := ht
      obtain ⟨i, h1, rfl⟩ := visit_type ((dotted_eval hd hk).trans he) hl h
      simp only [eval, meaning, hm, he, Except.bind, hl, h1]
      rfl
    · have hn : new x = orig x := hn.resolve_right ht
      have ht' : ¬ IsType W asm pass e := by
        rintro ⟨o, ent, he, hl⟩
        rcases hk with hk | ⟨hk, _⟩
        · exact ht ⟨o, ent, (dotted_eval hd hk).symm.trans he, hl⟩
        · rw [dotted_unknown hd hk] at he; cases he
      rw [visit_keep ht' h, keep_meaning hm ht, eval, eval, dotted_eval hd hn]
  | .node op es, e', hp, h => by
    simp only [visit] at h
    cases hv : visitAll W asm pass es with
    | error _ => rw [hv] at h; cases h
    | ok es' =>
      rw [hv] at h
      cases h
      simp only [eval, meaning, visitAll_meaning es es' hp hv]
theorem visitAll_meaning {pass orig new : Env O} : ∀ (es es' : List Expr), Plains W asm pass orig new es → visitAll W asm pass es = .ok es' →
    evalAll W new es' = meaningAll W asm orig es
  | [], es', _, h => by cases h; rfl
  | e :: es, es', hp, h => by
    simp only [visitAll] at h
    cases hv : visit W asm pass e with
    | error _ => rw [hv] at h; cases h
    | ok e' =>
      rw [hv] at h
      simp only [Except.bind] at h
      cases hw : visitAll W asm pass es with
      | error _ => rw [hw] at h; cases h
      | ok es'' =>
        rw [hw] at h
        cases h
        simp only [evalAll, meaningAll, visit_meaning e e' hp.1 hv, visitAll_meaning es es'' hp.2 hw]
end

/-- What the names of the given function mean when it is called: parameters, names of enclosing functions, globals. -/
def givenEnv {O : Type} (globals enclosing params : Env O) : Env O := callEnv params (callEnv enclosing globals)

/-- C73 for the bodies in `Plain`: if the pass returns, a call of the new function is a call of the given one with constants standing for their codes,
exceptions included. -/
theorem C73_codes_partial (globals locals enclosing params : Env O) (e e' : Expr)
    (hp : Plain W asm (passEnv globals locals) (givenEnv globals enclosing params) (callEnv params globals) e)
    (h : visit W asm (passEnv globals locals) e = .ok e') :
    assembled W asm globals locals params e = meaning W asm (givenEnv globals enclosing params) e := by
  simp only [assembled, h, Except.bind]
  exact visit_meaning e e' hp h

mutual
/-- C73: when the pass returns. -/
def Returns {O : Type} [DecidableEq O] (W : World O) (asm : List (O × Entry)) (ρ : Env O) : Expr → Prop
  | .attr e a => eval W ρ e = .error .name ∨ ∃ o, eval W ρ e = .ok o ∧ W.hashable o = true ∧
      ∀ ent, asm.lookup o = some ent → (∃ m, W.getattr o a = .ok m) ∧ ∃ i, ent a = .ok i
  | .node _ es => ReturnsAll W asm ρ es
  | _ => True
def ReturnsAll {O : Type} [DecidableEq O] (W : World O) (asm : List (O × Entry)) (ρ : Env O) : List Expr → Prop
  | [] => True
  | e :: es => Returns W asm ρ e ∧ ReturnsAll W asm ρ es
end

mutual
/-- C73: the pass returns exactly when every receiver of an attribute (outside other receivers) is unknown to it or a hashable object, which for
an assembled type has the attribute, with a code. -/
theorem C73_returns {ρ : Env O} : ∀ e : Expr, (∃ e', visit W asm ρ e = .ok e') ↔ Returns W asm ρ e
  | .name x => ⟨fun _ => trivial, fun _ => ⟨_, rfl⟩⟩
  | .num i => ⟨fun _ => trivial, fun _ => ⟨_, rfl⟩⟩
  | .store e a => ⟨fun _ => trivial, fun _ => ⟨_, rfl⟩⟩
  | .attr e a => by
    simp only [Returns, visit, tryAttr]
    cases he : eval W ρ e with
    | error x =>
      cases x with
      | name => simp [Except.bind, onNameError]
      | other n => simp [Except.bind, onNameError]
    | ok o =>
      simp only [Except.bind, eval, he]
      cases hh : W.hashable o with
      | false => simp [onNameError, hh]
      | true =>
        cases hl : asm.lookup o with
        | none => simp [onNameError, hh, hl]
        | some ent =>
          cases hg : W.getattr o a with
          | error n => simp [onNameError, hh, hl, hg, other, Except.mapError]
          | ok m =>
            cases hi : ent a with
            | error n => simp [onNameError, hh, hl, hg, hi, other, Except.mapError, Except.map]
            | ok i => simp [onNameError, hh, hl, hg, hi, other, Except.mapError, Except.map]
  | .node op es => by
    simp only [Returns, visit, ← C73_returnsAll es]
    cases visitAll W asm ρ es with
    | error _ => simp [Except.map]
    | ok es' => simp [Except.map]
theorem C73_returnsAll {ρ : Env O} : ∀ es : List Expr, (∃ es', visitAll W asm ρ es = .ok es') ↔ ReturnsAll W asm ρ es
  | [] => ⟨fun _ => trivial, fun _ => ⟨_, rfl⟩⟩
  | e :: es => by
    simp only [ReturnsAll, visitAll, ← C73_returns e, ← C73_returnsAll es]
    cases visit W asm ρ e with
    | error _ => simp [Except.bind]
    | ok e' =>
      cases visitAll W asm ρ es with
      | error _ => simp [Except.bind, Except.map]
      | ok es' => simp [Except.bind, Except.map]
end

/-- The code violates C73 for constants inside the receiver of an attribute: they are not replaced, whatever they are. The receiver here is any node
whose value the pass does not know (it has a parameter of the function in it, say). -/
theorem C73_violated_receiver (globals locals params : Env O) (op : Nat) (es : List Expr) (a : Nat)
    (h : evalAll W (passEnv globals locals) es = .error .name) :
    assembled W asm globals locals params (.attr (.node op es) a) = eval W (callEnv params globals) (.attr (.node op es) a) := by
  simp only [assembled, visit, tryAttr]
  rw [show eval W (passEnv globals locals) (.node op es) = .error .name by simp only [eval, h, Except.bind]]
  rfl

/-- The code violates C73 for a parameter with the name of an assembled type: `x.a` is the code of the member of the type, whatever is passed. -/
theorem C73_violated_parameter (globals locals params : Env O) (x a : Nat) (o m : O) (ent : Entry) (i : Int) (hx : globals x = some o)
    (hh : W.hashable o = true) (hl : asm.lookup o = some ent) (hg : W.getattr o a = .ok m) (hi : ent a = .ok i) :
    assembled W asm globals locals params (.attr (.name x) a) = .ok (W.ofInt i) := by
  simp only [assembled, visit, tryAttr, eval, lookupName, passEnv, hx, Option.or, Except.bind, hh, hl, hg, hi, if_true, onNameError, other, Except.mapError,
    Except.map]

/-- The code violates C73 for a name of an enclosing function that is not part of a constant: the new function does not see it. -/
theorem C73_violated_enclosing (globals locals params : Env O) (x : Nat) (hg : globals x = none) (hp : params x = none) :
    assembled W asm globals locals params (.name x) = .error .name := by
  simp only [assembled, visit, eval, lookupName, callEnv, hg, hp, Option.or, Except.bind]

/-- Objects for the examples: two types (0 and 1), members and numbers. -/
def exWorld : World Nat where
  getattr o a := if o < 2 then .ok (100 + 10 * o + a) else if a = 7 then .ok (o + 1) else .error 1
  slot o a := .ok (o + a)
  ofInt i := 1000 + i.toNat
  apply _ os := .ok (os.foldl (· + ·) 2000)
  hashable _ := true

/-- Type 0 has the codes 3 and 4, type 1 the codes 5 and 6. -/
def exAsm : List (Nat × Entry) := [(0, fun a => if a < 2 then .ok (3 + a) else .error 2), (1, fun a => if a < 2 then .ok (5 + a) else .error 2)]

def exGlobals : Env Nat := fun x => if x = 10 then some 0 else none
def exEnclosing : Env Nat := fun x => if x = 10 then some 1 else if x = 11 then some 1 else none
def exParams : Env Nat := fun x => if x = 20 then some 50 else none

/-- `T.a0 + p.f + U.a1` with a global type, a parameter and a type of the enclosing function: all hypotheses hold, and the call gives the sum of codes. -/
example : Plain exWorld exAsm (passEnv (fun x => if x = 12 then some 0 else none) exEnclosing)
      (givenEnv (fun x => if x = 12 then some 0 else none) exEnclosing exParams)
      (callEnv exParams (fun x => if x = 12 then some 0 else none))
      (.node 0 [.attr (.name 12) 0, .attr (.name 20) 7, .attr (.name 11) 1]) ∧
    assembled exWorld exAsm (fun x => if x = 12 then some 0 else none) exEnclosing exParams
      (.node 0 [.attr (.name 12) 0, .attr (.name 20) 7, .attr (.name 11) 1]) = .ok (2000 + 1003 + 51 + 1006) := by
  refine ⟨?_, rfl⟩
  have hin : ∀ (ρ : Env Nat) x, ¬ Inner exWorld exAsm ρ (.name x) := by
    intro ρ x h
    cases h
  refine ⟨⟨12, .name _, hin _ _, .inl rfl, .inl rfl⟩, ⟨20, .name _, hin _ _, .inr ⟨rfl, ?_⟩, .inl rfl⟩, ⟨11, .name _, hin _ _, .inl rfl, .inr ⟨1, _, rfl, rfl⟩⟩, trivial⟩
  rintro ⟨o, ent, h1, h2⟩
  cases h1
  cases h2

/-- The code violates C73 when a type of the enclosing function has the name of a global type: the codes of the global type are used
(`eval` gets its namespaces in the wrong order). -/
theorem C73_violated_shadow : assembled exWorld exAsm exGlobals exEnclosing exParams (.attr (.name 10) 0) = .ok 1003 ∧
    meaning exWorld exAsm (givenEnv exGlobals exEnclosing exParams) (.attr (.name 10) 0) = .ok 1005 := ⟨rfl, rfl⟩

/-- A constant in the receiver `(p + T.a0).f`: the member itself is added, not its code. -/
example : assembled exWorld exAsm exGlobals (fun _ => none) exParams (.attr (.node 0 [.name 20, .attr (.name 10) 0]) 7) = .ok (2000 + 50 + 100 + 1) ∧
    meaning exWorld exAsm (givenEnv exGlobals (fun _ => none) exParams) (.attr (.node 0 [.name 20, .attr (.name 10) 0]) 7) = .ok (2000 + 50 + 1003 + 1) :=
  ⟨rfl, rfl⟩

end Peak.Ic
