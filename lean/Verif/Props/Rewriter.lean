import Verif.Lemmas.Rewriter2
import Verif.Model.Register
/-!
# C60: a class assembled for the SMT family computes what the Python class computes

`pyCallBody` is the call as Python executes it, `rwCall` the call of the rewritten class (`_StdMix`, family.py:276-302).
-/

namespace Peak.Rw

variable {C : Comps} {Γ : Sig} {P : Nat → Bool}

/-- What the variables hold when a call begins: the arguments are typed, and `D` are those that are given. -/
structure Args (Γ : Sig) (D : Nat → Bool) (vars : List (Option V)) : Prop where
  length : vars.length = Γ.vars.length
  typed : ∀ (x : Nat) (v : V), vars[x]? = some (some v) → Γ.vars[x]? = some (tyOf v)
  given : ∀ x, D x = true → ∃ v, vars[x]? = some (some v)

/-- For every body that respects its annotations and calls no component with state under a condition (`P`: the components that have none), all arguments, attributes and states: when both the
Python class and the rewritten class return from a call, they return the same value and leave the same attributes and the same components.
(Missing from the full statement: bodies that call components with state under a condition, for which it is false, and bodies that raise.) -/
theorem C60_call_partial {ρ : Ty} {body : St} (hP : C.Stateless P) (hC : C.Typed Γ) (ht : body.Typed Γ ρ) (hu : body.uncond P = true) {vars : List (Option V)} {attrs ss : List V}
    (hf : Frame.Typed Γ ⟨vars, attrs⟩) (hs : StatesTyped Γ ss) {r : Option V} {as1 s1 : List V} {v : V} {as2 s2 : List V}
    (h1 : pyCallBody C body vars attrs ss = .ok (r, as1, s1)) (h2 : rwCall C body vars attrs ss = .ok (v, as2, s2)) :
    r = some v ∧ as1 = as2 ∧ s1 = s2 := by
  obtain ⟨⟨fr, t1, r1⟩, h1, h3⟩ := bind_ok h1
  cases h3
  obtain ⟨⟨rets, g, t2⟩, h2, h4⟩ := bind_ok h2
  obtain ⟨ha, rfl⟩ := exec_agree hP hC body ht hu hf hs (Rel.refl _) h1 h2
  cases g with
  | some g => cases h4
  | none =>
    obtain ⟨⟨w, bs⟩, h5, h6⟩ := bind_ok h4
    cases h6
    cases r with
    | none => obtain ⟨_, h, hh, _⟩ := ha; cases hh
    | some u =>
      obtain ⟨pre, q, post, rfl, hp, hq, rfl, ha⟩ := ha
      obtain ⟨h7, h8⟩ := select_ok hp hq h5
      exact ⟨by rw [h7], by rw [h8, ha], rfl⟩

/-- What a returning Python call leaves behind is typed. -/
theorem pyCallBody_ty {ρ : Ty} {body : St} (hC : C.Typed Γ) (ht : body.Typed Γ ρ) {vars : List (Option V)} {attrs ss : List V}
    (hf : Frame.Typed Γ ⟨vars, attrs⟩) (hs : StatesTyped Γ ss) {r : Option V} {as1 s1 : List V} (h1 : pyCallBody C body vars attrs ss = .ok (r, as1, s1)) :
    as1.map tyOf = Γ.attrs ∧ StatesTyped Γ s1 := by
  obtain ⟨⟨fr, t1, r1⟩, h1, h3⟩ := bind_ok h1
  cases h3
  obtain ⟨h4, h5⟩ := pyExec_ty hC body ht hf hs h1
  exact ⟨h4.2.2, h5⟩

/-- The same for every sequence of calls of one object. -/
theorem C60_run_partial {ρ : Ty} {body : St} (hP : C.Stateless P) (hC : C.Typed Γ) (ht : body.Typed Γ ρ) (hu : body.uncond P = true) {D : Nat → Bool} :
    ∀ {calls : List (List (Option V))} {attrs ss : List V} {rs : List (Option V)} {as1 s1 : List V} {vs : List V} {as2 s2 : List V},
      (∀ c ∈ calls, Args Γ D c) → attrs.map tyOf = Γ.attrs → StatesTyped Γ ss →
      pyRunBody C body calls attrs ss = .ok (rs, as1, s1) → rwRun C body calls attrs ss = .ok (vs, as2, s2) →
      rs = vs.map some ∧ as1 = as2 ∧ s1 = s2 := by
  intro calls
  induction calls with
  | nil =>
    intro attrs ss rs as1 s1 vs as2 s2 _ _ _ h1 h2
    cases h1; cases h2
    exact ⟨rfl, rfl, rfl⟩
  | cons c cs ih =>
    intro attrs ss rs as1 s1 vs as2 s2 hc ha hs h1 h2
    obtain ⟨⟨r, a1, t1⟩, h1, h3⟩ := bind_ok h1
    obtain ⟨⟨rs', a1', t1'⟩, h5, h6⟩ := bind_ok h3
    obtain ⟨⟨v, a2, t2⟩, h2, h4⟩ := bind_ok h2
    obtain ⟨⟨vs', a2', t2'⟩, h7, h8⟩ := bind_ok h4
    have hac := hc c (by simp)
    have hf : Frame.Typed Γ ⟨c, attrs⟩ := ⟨hac.length, hac.typed, ha⟩
    obtain ⟨hty1, hty2⟩ := pyCallBody_ty hC ht hf hs h1
    obtain ⟨rfl, rfl, rfl⟩ := C60_call_partial hP hC ht hu hf hs h1 h2
    obtain ⟨rfl, rfl, rfl⟩ := ih (fun x hx => hc x (by simp [hx])) hty1 hty2 h5 h7
    cases h6; cases h8
    exact ⟨rfl, rfl, rfl⟩

/-- Bodies in which every path returns, whose operators and components raise nothing and whose variables are assigned before they are used
(conditions on the text of the body, not on its executions): Python's call and the rewritten call both return, with the same value, attributes and
components, and the value has the annotated type. -/
theorem C60_total {ρ : Ty} {body : St} (hP : C.Stateless P) (hC : C.Typed Γ) (hT : C.Total Γ) (ht : body.Typed Γ ρ) (hu : body.uncond P = true) {D : Nat → Bool}
    (hto : body.Total Γ D) (hret : body.assigned D = none) {vars : List (Option V)} {attrs ss : List V}
    (ha : Args Γ D vars) (hta : attrs.map tyOf = Γ.attrs) (hs : StatesTyped Γ ss) :
    ∃ v as ss', pyCallBody C body vars attrs ss = .ok (some v, as, ss') ∧ rwCall C body vars attrs ss = .ok (v, as, ss') ∧
      tyOf v = ρ ∧ as.map tyOf = Γ.attrs ∧ StatesTyped Γ ss' := by
  have hf : Frame.Typed Γ ⟨vars, attrs⟩ := ⟨ha.length, ha.typed, hta⟩
  obtain ⟨fr, s1, r, h1, _, _⟩ := pyExec_total hC hT body ht hto hf ha.given hs
  obtain ⟨rs, g, s2, h2, hr, hg, hs2, hn⟩ := rwExec_total hC hT body ht hto hf ha.given hs
  rw [hret] at hg
  cases g with
  | some g => cases hg
  | none =>
    obtain ⟨v, as, h3, htv, hta'⟩ := select_total hr (hn rfl)
    have h4 : rwCall C body vars attrs ss = .ok (v, as, s2) := (ok_bind h2).trans (ok_bind h3)
    have h5 : pyCallBody C body vars attrs ss = .ok (r, fr.attrs, s1) := ok_bind h1
    obtain ⟨rfl, h6, rfl⟩ := C60_call_partial hP hC ht hu hf hs h5 h4
    rw [h6] at h5
    exact ⟨v, as, s1, h5, h4, htv, hta', hs2⟩

/-- And so does every sequence of calls. -/
theorem C60_total_run {ρ : Ty} {body : St} (hP : C.Stateless P) (hC : C.Typed Γ) (hT : C.Total Γ) (ht : body.Typed Γ ρ) (hu : body.uncond P = true) {D : Nat → Bool}
    (hto : body.Total Γ D) (hret : body.assigned D = none) : ∀ {calls : List (List (Option V))} {attrs ss : List V},
      (∀ c ∈ calls, Args Γ D c) → attrs.map tyOf = Γ.attrs → StatesTyped Γ ss →
      ∃ vs as ss', pyRunBody C body calls attrs ss = .ok (vs.map some, as, ss') ∧ rwRun C body calls attrs ss = .ok (vs, as, ss') ∧
        vs.length = calls.length := by
  intro calls
  induction calls with
  | nil => intro attrs ss _ _ _; exact ⟨[], attrs, ss, rfl, rfl, rfl⟩
  | cons c cs ih =>
    intro attrs ss hc ha hs
    obtain ⟨v, as, t, h1, h2, _, h3, h4⟩ := C60_total hP hC hT ht hu hto hret (hc c (by simp)) ha hs
    obtain ⟨vs, as', t', h5, h6, h7⟩ := ih (fun x hx => hc x (by simp [hx])) h3 h4
    exact ⟨v :: vs, as', t', (ok_bind h1).trans (ok_bind h5), (ok_bind h2).trans (ok_bind h6), by simp [h7]⟩

/-! ## Example: an accumulator with an early return

```
def __call__(self, op : Bit, x : BV[8], y : BV[8]):
    r = self.reg(x)          # unconditional
    if op:
        t = r + y
        self.total = t
        if t == y:
            return x
    else:
        t = y
    return t if op and x == y else r
```
-/

def addE (a b : V) : Except Err V := match a, b with
  | .bv 8 x, .bv 8 y => .ok (.bv 8 (x + y))
  | _, _ => .error .typeError

def eqE (a b : V) : Except Err V := match a, b with
  | .bv 8 x, .bv 8 y => .ok (.bit (x == y))
  | _, _ => .error .typeError

def exSig : Sig := ⟨[.bit, .bv 8, .bv 8, .bv 8, .bv 8], [.bv 8], [(.bv 8, .bv 8, .bv 8)]⟩

/-- One register of eight bits. -/
def exComps : Comps := fun _ v s => .ok (s, v)

def exBody : St :=
  .seq (.assign 3 (.sub 0 (.var 1)))
    (.seq (.ifte (.var 0)
        (.seq (.assign 4 (.op2 addE (.var 3) (.var 2))) (.seq (.setAttr 0 (.var 4)) (.ifte (.op2 eqE (.var 4) (.var 2)) (.ret (.var 1)) .skip)))
        (.assign 4 (.var 2)))
      (.ret (.cond (.and (.var 0) (.op2 eqE (.var 1) (.var 2))) (.var 4) (.var 3))))

theorem bv8 {v : V} (h : tyOf v = .bv 8) : ∃ x, v = .bv 8 x := by
  cases v with
  | bit b => cases h
  | pair a b => cases h
  | bv w x =>
    cases h
    exact ⟨x, rfl⟩

theorem addE_ty {v w r : V} (hv : tyOf v = .bv 8) (hw : tyOf w = .bv 8) (h : addE v w = .ok r) : tyOf r = .bv 8 := by
  obtain ⟨x, rfl⟩ := bv8 hv
  obtain ⟨y, rfl⟩ := bv8 hw
  cases h
  rfl

theorem eqE_ty {v w r : V} (hv : tyOf v = .bv 8) (hw : tyOf w = .bv 8) (h : eqE v w = .ok r) : tyOf r = .bit := by
  obtain ⟨x, rfl⟩ := bv8 hv
  obtain ⟨y, rfl⟩ := bv8 hw
  cases h
  rfl

theorem exComps_typed : Comps.Typed exSig exComps := by
  intro i a s r h v st v' st' hv hs hc
  cases hc
  cases i with
  | zero =>
    cases h
    exact ⟨hs, hv⟩
  | succ i => cases h

theorem exComps_total : Comps.Total exSig exComps := fun _ _ _ _ _ v st _ _ => ⟨(st, v), rfl⟩

theorem exBody_typed : exBody.Typed exSig (.bv 8) :=
  ⟨⟨.bv 8, rfl, .bv 8, .bv 8, rfl, rfl⟩,
    ⟨⟨rfl, ⟨⟨.bv 8, rfl, .bv 8, .bv 8, rfl, rfl, fun _ _ _ => addE_ty⟩, ⟨.bv 8, rfl, rfl⟩, ⟨.bv 8, .bv 8, rfl, rfl, fun _ _ _ => eqE_ty⟩, rfl, trivial⟩,
      ⟨.bv 8, rfl, rfl⟩⟩, ⟨rfl, rfl, .bv 8, .bv 8, rfl, rfl, fun _ _ _ => eqE_ty⟩, rfl, rfl⟩⟩

theorem addE_total {v w : V} (hv : tyOf v = .bv 8) (hw : tyOf w = .bv 8) : ∃ r, addE v w = .ok r := by
  obtain ⟨x, rfl⟩ := bv8 hv
  obtain ⟨y, rfl⟩ := bv8 hw
  exact ⟨_, rfl⟩

theorem eqE_total {v w : V} (hv : tyOf v = .bv 8) (hw : tyOf w = .bv 8) : ∃ r, eqE v w = .ok r := by
  obtain ⟨x, rfl⟩ := bv8 hv
  obtain ⟨y, rfl⟩ := bv8 hw
  exact ⟨_, rfl⟩

theorem var_ty {x : Nat} {σ τ : Ty} (h : (Ex.var x).HasTy Γ σ) (h' : Γ.vars[x]? = some τ) : σ = τ := by
  have h2 : Γ.vars[x]? = some σ := h
  rw [h2] at h'
  exact Option.some.inj h'

/-- The arguments of the example: the first three variables. -/
def exArgs (op : Bool) (x y : BitVec 8) : List (Option V) := [some (.bit op), some (.bv 8 x), some (.bv 8 y), none, none]

theorem exBody_total : exBody.Total exSig (fun x => decide (x < 3)) :=
  ⟨(rfl : decide (1 < 3) = true),
    ⟨⟨rfl, ⟨⟨rfl, rfl, fun _ _ h1 h2 _ _ hv hw => addE_total (hv.trans (var_ty h1 rfl)) (hw.trans (var_ty h2 rfl))⟩, rfl,
        ⟨rfl, rfl, fun _ _ h1 h2 _ _ hv hw => eqE_total (hv.trans (var_ty h1 rfl)) (hw.trans (var_ty h2 rfl))⟩, rfl, trivial⟩, rfl⟩,
      ⟨rfl, rfl, rfl, fun _ _ h1 h2 _ _ hv hw => eqE_total (hv.trans (var_ty h1 rfl)) (hw.trans (var_ty h2 rfl))⟩, rfl, rfl⟩⟩

theorem exArgs_ok (op : Bool) (x y : BitVec 8) : Args exSig (fun x => decide (x < 3)) (exArgs op x y) where
  length := rfl
  typed i v h := by
    rcases i with _ | _ | _ | _ | _ | i <;> cases h <;> rfl
  given i h := by
    rcases i with _ | _ | _ | i
    · exact ⟨_, rfl⟩
    · exact ⟨_, rfl⟩
    · exact ⟨_, rfl⟩
    · exact absurd (of_decide_eq_true h) (by omega)

/-- The example meets all hypotheses, for all arguments, attributes and states. -/
example (op : Bool) (x y t s : BitVec 8) : ∃ v as ss', pyCallBody exComps exBody (exArgs op x y) [.bv 8 t] [.bv 8 s] = .ok (some v, as, ss') ∧
    rwCall exComps exBody (exArgs op x y) [.bv 8 t] [.bv 8 s] = .ok (v, as, ss') := by
  obtain ⟨v, as, ss', h1, h2, _⟩ := C60_total (ρ := .bv 8) (P := fun _ => false) (fun _ h => by cases h) exComps_typed exComps_total exBody_typed rfl exBody_total rfl (exArgs_ok op x y)
    (attrs := [.bv 8 t]) (ss := [.bv 8 s]) rfl rfl
  exact ⟨v, as, ss', h1, h2⟩

/-- A run through the early return, one through the end: value, attribute and register. -/
example : rwRun exComps exBody [exArgs true 7 5, exArgs true 9 9, exArgs false 1 2] [.bv 8 0] [.bv 8 0] =
    .ok ([.bv 8 7, .bv 8 16, .bv 8 9], [.bv 8 16], [.bv 8 1]) := rfl

/-! A component without state may be called under a condition: `if op: return self.sub(x, y)`, `return self.sub(y, x)`. -/

def subComps : Comps := fun _ v s => match v with
  | .pair (.bv 8 x) (.bv 8 y) => .ok (.bv 8 (x - y), s)
  | _ => .error .typeError

def subBody : St :=
  .seq (.ifte (.var 0) (.ret (.sub 0 (.op2 (fun a b => .ok (.pair a b)) (.var 1) (.var 2)))) .skip)
    (.ret (.sub 0 (.op2 (fun a b => .ok (.pair a b)) (.var 2) (.var 1))))

def subSig : Sig := ⟨[.bit, .bv 8, .bv 8], [], [(.pair (.bv 8) (.bv 8), .bit, .bv 8)]⟩

theorem subComps_stateless : Comps.Stateless (fun _ => true) subComps := by
  intro i _ v st v' st' h
  unfold subComps at h
  split at h
  · cases h; rfl
  · cases h

theorem pair8 {v : V} (h : tyOf v = .pair (.bv 8) (.bv 8)) : ∃ x y, v = .pair (.bv 8 x) (.bv 8 y) := by
  cases v with
  | bit b => cases h
  | bv w x => cases h
  | pair a b =>
    simp only [tyOf, Ty.pair.injEq] at h
    obtain ⟨x, rfl⟩ := bv8 h.1
    obtain ⟨y, rfl⟩ := bv8 h.2
    exact ⟨x, y, rfl⟩

theorem subComps_typed : Comps.Typed subSig subComps := by
  intro i a s r h v st v' st' hv hs hc
  cases i with
  | zero =>
    cases h
    obtain ⟨x, y, rfl⟩ := pair8 hv
    cases hc
    exact ⟨rfl, hs⟩
  | succ i => cases h

theorem subComps_total : Comps.Total subSig subComps := by
  intro i a s r h v st hv hs
  cases i with
  | zero =>
    cases h
    obtain ⟨x, y, rfl⟩ := pair8 hv
    exact ⟨_, rfl⟩
  | succ i => cases h

theorem pairE_ty {v w r : V} {σ τ : Ty} (hv : tyOf v = σ) (hw : tyOf w = τ) (h : (Except.ok (.pair v w) : Except Err V) = .ok r) : tyOf r = .pair σ τ := by
  cases h
  rw [← hv, ← hw]
  rfl

example (op : Bool) (x y : BitVec 8) (s : Bool) :
    ∃ v as ss', pyCallBody subComps subBody [some (.bit op), some (.bv 8 x), some (.bv 8 y)] [] [.bit s] = .ok (some v, as, ss') ∧
      rwCall subComps subBody [some (.bit op), some (.bv 8 x), some (.bv 8 y)] [] [.bit s] = .ok (v, as, ss') := by
  obtain ⟨v, as, ss', h1, h2, _⟩ := C60_total (Γ := subSig) (ρ := .bv 8) (body := subBody) (D := fun x => decide (x < 3)) subComps_stateless subComps_typed
    subComps_total
    ⟨⟨rfl, ⟨_, .bit, ⟨.bv 8, .bv 8, rfl, rfl, fun _ _ _ => pairE_ty⟩, rfl⟩, trivial⟩, ⟨_, .bit, ⟨.bv 8, .bv 8, rfl, rfl, fun _ _ _ => pairE_ty⟩, rfl⟩⟩ rfl
    ⟨⟨rfl, ⟨rfl, rfl, fun _ _ _ _ _ _ _ _ => ⟨_, rfl⟩⟩, trivial⟩, ⟨rfl, rfl, fun _ _ _ _ _ _ _ _ => ⟨_, rfl⟩⟩⟩ rfl
    (vars := [some (.bit op), some (.bv 8 x), some (.bv 8 y)]) (attrs := []) (ss := [.bit s])
    ⟨rfl, fun i v h => (by rcases i with _ | _ | _ | i <;> cases h <;> rfl), fun i h => (by
      rcases i with _ | _ | _ | i
      · exact ⟨_, rfl⟩
      · exact ⟨_, rfl⟩
      · exact ⟨_, rfl⟩
      · exact absurd (of_decide_eq_true h) (by omega))⟩ rfl rfl
  exact ⟨v, as, ss', h1, h2⟩

/-! ## The registers of the families (family.py:187-192, 205-208)

Variables: 0 `value`, 1 `en`, 2 `retvalue`; attribute 0: `self.value`. -/

/-- `gen_register(T, init)`: `value is not None` is true of every value. -/
def regBody : St :=
  .seq (.assert (.op1 (fun _ => .ok (.bit true)) (.var 0)))
    (.seq (.assign 2 (.attr 0)) (.seq (.ifte (.var 1) (.setAttr 0 (.var 0)) .skip) (.ret (.var 2))))

/-- `gen_register(T, init, has_enable=False)`. -/
def regBodyNoEn : St := .seq (.assign 2 (.attr 0)) (.seq (.setAttr 0 (.var 0)) (.ret (.var 2)))

/-- The register of the SMT family is the register of the Python family (the register of C22), for every type, value and enable. -/
theorem C60_register {stored value : V} (ht : tyOf value = tyOf stored) (en : Bool) :
    rwCall C regBody [some value, some (.bit en), none] [stored] [] =
      .ok (stored, [if en then value else stored], []) ∧
    pyCallBody C regBody [some value, some (.bit en), none] [stored] [] =
      .ok (some stored, [if en then value else stored], []) ∧
    regCall stored (some value) en = (.ok stored, if en then value else stored) := by
  refine ⟨?_, ?_, rfl⟩
  · have hm : zipE (phi (.bit en)) [value] [stored] = .ok [if en then value else stored] := by
      obtain ⟨v, hv, _⟩ := phi_total (c := .bit en) rfl ht rfl
      have := phi_bit hv
      subst this
      exact (ok_bind hv).trans rfl
    have hv : zipE (phiVar (.bit en)) [some value, some (.bit en), some stored] [some value, some (.bit en), some stored] =
        .ok [some value, some (.bit en), some stored] := by
      simp [zipE, phiVar, phi, bind, Except.bind]
    have hmm : merge (.bit en) (some ⟨[some value, some (.bit en), some stored], [value]⟩) (some ⟨[some value, some (.bit en), some stored], [stored]⟩) =
        .ok (some ⟨[some value, some (.bit en), some stored], [if en then value else stored]⟩) := (ok_bind hv).trans (ok_bind hm)
    have hi : rwExec C (.ifte (.var 1) (.setAttr 0 (.var 0)) .skip) ⟨[some value, some (.bit en), some stored], [stored]⟩ [] =
        .ok ([], some ⟨[some value, some (.bit en), some stored], [if en then value else stored]⟩, []) := ok_bind hmm
    have he : rwExec C regBody ⟨[some value, some (.bit en), none], [stored]⟩ [] = .ok ([⟨[], stored, [if en then value else stored]⟩], none, []) :=
      by
      have h3 : rwExec C (.seq (.ifte (.var 1) (.setAttr 0 (.var 0)) .skip) (.ret (.var 2))) ⟨[some value, some (.bit en), some stored], [stored]⟩ [] =
          .ok ([⟨[], stored, [if en then value else stored]⟩], none, []) := ok_bind hi
      have h4 : rwExec C (.seq (.assign 2 (.attr 0)) (.seq (.ifte (.var 1) (.setAttr 0 (.var 0)) .skip) (.ret (.var 2))))
          ⟨[some value, some (.bit en), none], [stored]⟩ [] = .ok ([⟨[], stored, [if en then value else stored]⟩], none, []) := ok_bind h3
      exact ok_bind h4
    exact ok_bind he
  · cases en <;> rfl

theorem C60_register_no_enable (stored value : V) :
    rwCall C regBodyNoEn [some value, none, none] [stored] [] = .ok (stored, [value], []) ∧
    pyCallBody C regBodyNoEn [some value, none, none] [stored] [] = .ok (some stored, [value], []) ∧
    regCallNoEn stored value = (stored, value) := ⟨rfl, rfl, rfl⟩

/-! ## Where they differ -/

/-- `if c: return self.reg(x)`, `return x` -/
def condBody : St := .seq (.ifte (.var 0) (.ret (.sub 0 (.var 1))) .skip) (.ret (.var 1))

/-- A component called under a condition is called by the rewritten class whether the condition holds or not: with `c` false the Python class leaves the
register alone, and the rewritten class stores `x` in it.  Both return. -/
theorem C60_violated_component_under_condition (x s : BitVec 8) :
    pyCallBody exComps condBody [some (.bit false), some (.bv 8 x)] [] [.bv 8 s] = .ok (some (.bv 8 x), [], [.bv 8 s]) ∧
    rwCall exComps condBody [some (.bit false), some (.bv 8 x)] [] [.bv 8 s] = .ok (.bv 8 x, [], [.bv 8 x]) := ⟨rfl, rfl⟩

/-- Hence the next call returns another value. -/
theorem C60_violated_next_call (x s : BitVec 8) (h : x ≠ s) :
    ∃ r1 r2, pyRunBody exComps condBody [[some (.bit false), some (.bv 8 x)], [some (.bit true), some (.bv 8 x)]] [] [.bv 8 s] = .ok ([some (.bv 8 x), some r1], [], [.bv 8 x]) ∧
      rwRun exComps condBody [[some (.bit false), some (.bv 8 x)], [some (.bit true), some (.bv 8 x)]] [] [.bv 8 s] = .ok ([.bv 8 x, r2], [], [.bv 8 x]) ∧ r1 ≠ r2 := by
  refine ⟨.bv 8 s, .bv 8 x, rfl, rfl, fun he => h ?_⟩
  cases he
  rfl

example : (1 : BitVec 8) ≠ 0 := by decide

/-- `and` and `or` of bit vectors: Python returns one of them, the rewritten class their bitwise conjunction and disjunction. -/
theorem C60_violated_and (w : Nat) (x y : BitVec w) (hx : x ≠ 0) :
    (pyCallBody exComps (.ret (.and (.var 0) (.var 1))) [some (.bv w x), some (.bv w y)] [] [] = .ok (some (.bv w y), [], []) ∧
    rwCall exComps (.ret (.and (.var 0) (.var 1))) [some (.bv w x), some (.bv w y)] [] [] = .ok (.bv w (x &&& y), [], [])) ∧
    pyCallBody exComps (.ret (.or (.var 0) (.var 1))) [some (.bv w x), some (.bv w y)] [] [] = .ok (some (.bv w x), [], []) ∧
    rwCall exComps (.ret (.or (.var 0) (.var 1))) [some (.bv w x), some (.bv w y)] [] [] = .ok (.bv w (x ||| y), [], []) := by
  have hx' : ¬ x.toNat = 0 := fun h => hx (BitVec.eq_of_toNat_eq (by simpa using h))
  refine ⟨⟨?_, ?_⟩, ?_, ?_⟩
  · simp [pyCallBody, pyExec, pyEval, Frame.getVar, bind, Except.bind, truthy, hx']
  · simp [rwCall, rwExec, rwEval, Frame.getVar, bind, Except.bind, andV, select]
  · simp [pyCallBody, pyExec, pyEval, Frame.getVar, bind, Except.bind, truthy, hx']
  · simp [rwCall, rwExec, rwEval, Frame.getVar, bind, Except.bind, orV, select]

example : (1 : BitVec 8) ≠ 0 ∧ (1 &&& 2 : BitVec 8) ≠ 2 ∧ (1 ||| 2 : BitVec 8) ≠ 1 := by decide

/-- A body whose branches return values of two types runs in Python; the rewritten class raises, whatever the condition. -/
theorem C60_violated_types (c : Bool) (x : BitVec 8) :
    (∃ v, pyCallBody exComps (.ifte (.var 0) (.ret (.var 1)) (.ret (.var 0))) [some (.bit c), some (.bv 8 x)] [] [] = .ok (some v, [], [])) ∧
    rwCall exComps (.ifte (.var 0) (.ret (.var 1)) (.ret (.var 0))) [some (.bit c), some (.bv 8 x)] [] [] = .error .typeError := by
  constructor
  · cases c
    · exact ⟨_, rfl⟩
    · exact ⟨_, rfl⟩
  · rfl

/-- An operator that raises in a branch that is not taken raises all the same. -/
theorem C60_violated_untaken_raise (f : V → Except Err V) (x : V) (er : Err) (h : f x = .error er) :
    pyCallBody exComps (.ifte (.var 0) (.ret (.op1 f (.var 1))) (.ret (.var 1))) [some (.bit false), some x] [] [] = .ok (some x, [], []) ∧
    rwCall exComps (.ifte (.var 0) (.ret (.op1 f (.var 1))) (.ret (.var 1))) [some (.bit false), some x] [] [] = .error er := by
  constructor
  · rfl
  · simp [rwCall, rwExec, rwEval, Frame.getVar, h, bind, Except.bind]

example : ∃ x er, notV x = .error er := ⟨.pair (.bit true) (.bit true), .typeError, rfl⟩

end Peak.Rw
