import Verif.Spec.Assemble
/-!
# C78: assembling a class keeps its interface
-/

namespace Peak.Fam

variable {τ : Type}

theorem callRef_lt {s : St τ} {c f : Nat} (hf : ∀ k ∈ s.clss, ∀ f, k.call = some f → f < s.funs.length) (h : callRef s c = some f) : f < s.funs.length := by
  unfold callRef at h
  split at h
  · cases h
  · obtain ⟨d, -, hd⟩ := List.exists_of_findSome?_eq_some h
    cases e : s.clss[d]? with
    | none => simp [e] at hd
    | some k =>
      simp only [e, Option.bind_some] at hd
      exact hf k (List.mem_of_getElem? e) f hd

theorem setCall_ne {s : St τ} {c d : Nat} (f : Fun τ) (h : d ≠ c) : (setCall s c f).clss[d]? = s.clss[d]? := by
  simp [setCall, Ne.symm h]

theorem setCall_eq {s : St τ} {c : Nat} {k : Cls} (f : Fun τ) (h : s.clss[c]? = some k) : (setCall s c f).clss[c]? = some { k with call := some s.funs.length } := by
  simp [setCall, h]

/-- Setting the call of the class declared last. -/
theorem setCall_declared {s : St τ} {c : Nat} (h : Declared s c) (f : Fun τ) : Declared (setCall s c f) c := by
  obtain ⟨k, hk, hm⟩ := h.self
  refine ⟨?_, ⟨_, setCall_eq f hk, hm⟩, ?_⟩
  · intro k' hk' f' hf'
    have hl : (setCall s c f).funs.length = s.funs.length + 1 := by simp [setCall]
    obtain ⟨i, hi⟩ := List.getElem?_of_mem hk'
    by_cases hc : i = c
    · subst hc
      rw [setCall_eq f hk] at hi
      cases hi
      simp only [Option.some.injEq] at hf'
      omega
    · rw [setCall_ne f hc] at hi
      have := h.funs k' (List.mem_of_getElem? hi) f' hf'
      omega
  · intro d k' hd hne
    rw [setCall_ne f hne] at hd
    exact h.last d k' hd hne

theorem setCall_own {s : St τ} {c : Nat} (h : Declared s c) (f : Fun τ) :
    callRef (setCall s c f) c = some s.funs.length ∧ callOf (setCall s c f) c = some f := by
  obtain ⟨k, hk, hm⟩ := h.self
  have h1 : callRef (setCall s c f) c = some s.funs.length := by
    cases hk' : k.mro with
    | nil => simp [hk'] at hm
    | cons d l =>
      simp only [hk', List.head?_cons, Option.some.injEq] at hm
      subst hm
      simp [callRef, setCall_eq f hk, hk']
  refine ⟨h1, ?_⟩
  rw [callOf, h1]
  simp [setCall]

theorem setCall_other {s : St τ} {c d : Nat} (h : Declared s c) (f : Fun τ) (hd : d ≠ c) : callRef (setCall s c f) d = callRef s d := by
  simp only [callRef, setCall_ne f hd]
  cases e : s.clss[d]? with
  | none => rfl
  | some k =>
    have hc := h.last d k e hd
    clear e
    obtain ⟨cl, l, bx⟩ := k
    simp only at hc ⊢
    induction l with
    | nil => rfl
    | cons x l ih =>
      have hx : x ≠ c := fun e => hc (by simp [e])
      simp only [List.findSome?_cons, setCall_ne f hx]
      rw [ih (fun hm => hc (by simp [hm]))]

/-- The change of a state by assembling: a new call for `c`, with types `i` and `o`; other classes call the functions they called before. -/
structure Changed (s s' : St τ) (c : Nat) (code : Code) (i o : Option τ) : Prop where
  declared : Declared s' c
  own : callOf s' c = some ⟨code, false, i, o⟩
  fresh : ∃ f, callRef s' c = some f ∧ s.funs.length ≤ f
  other : ∀ d, d ≠ c → callRef s' d = callRef s d
  keep : ∀ f, f < s.funs.length → s'.funs[f]? = s.funs[f]?
  grows : s.funs.length ≤ s'.funs.length
  box : s'.clss[c]?.map (·.isBox) = s.clss[c]?.map (·.isBox)

theorem setCall_changed {s : St τ} {c : Nat} (h : Declared s c) (code : Code) (i o : Option τ) :
    Changed s (setCall s c ⟨code, false, i, o⟩) c code i o := by
  refine ⟨setCall_declared h _, (setCall_own h _).2, ⟨_, (setCall_own h _).1, Nat.le_refl _⟩, fun d hd => setCall_other h _ hd, ?_, ?_, ?_⟩
  · intro f hf
    simp only [setCall, List.getElem?_append_left hf]
  · simp [setCall]
  · obtain ⟨k, hk, -⟩ := h.self
    simp [setCall, hk]

theorem Changed.trans {s s' s'' : St τ} {c : Nat} {code code' : Code} {i o i' o' : Option τ} (h : Changed s s' c code i o) (h' : Changed s' s'' c code' i' o') :
    Changed s s'' c code' i' o' := by
  obtain ⟨f, hf, hl⟩ := h'.fresh
  have hg := h.grows
  refine ⟨h'.declared, h'.own, ⟨f, hf, by omega⟩, fun d hd => (h'.other d hd).trans (h.other d hd), fun f hf => ?_, Nat.le_trans hg h'.grows, h'.box.trans h.box⟩
  rw [h'.keep f (by omega), h.keep f hf]

/-- Setting the attributes on the new call. -/
theorem Changed.set {s s' : St τ} {c f : Nat} {code : Code} {i o i' o' : Option τ} (h : Changed s s' c code i o) (hf : callRef s' c = some f) :
    Changed s { s' with funs := s'.funs.modify f (fun x => { x with input := i', output := o' }) } c code i' o' := by
  obtain ⟨f', hf', hl⟩ := h.fresh
  rw [hf] at hf'
  cases hf'
  have hown := h.own
  simp only [callOf, hf, Option.bind_some] at hown
  refine ⟨⟨?_, h.declared.self, h.declared.last⟩, ?_, ⟨f, hf, hl⟩, h.other, fun g hg => ?_, by simpa using h.grows, h.box⟩
  · intro k hk g hg
    simpa using h.declared.funs k hk g hg
  · show (callRef s' c).bind _ = _
    simp [hf, hown]
  · have : f ≠ g := by omega
    simp [this, h.keep g hg]

theorem keepTypes_changed {s s' : St τ} {c : Nat} {deco : St τ → Nat → Except Err (St τ)} {i o : τ} {code : Code} {i' o' : Option τ}
    (ht : types s c = (some i, some o)) (hd : deco s c = .ok s') (h : Changed s s' c code i' o') :
    ∃ s'', keepTypes deco s c = .ok s'' ∧ Changed s s'' c code (some i) (some o) := by
  simp only [types, Prod.mk.injEq] at ht
  obtain ⟨f, hf, -⟩ := h.fresh
  exact ⟨_, by simp only [keepTypes, ht.1, ht.2, hd, hf], h.set hf⟩

theorem rewrite_changed {s : St τ} {c : Nat} {f : Fun τ} (attrs : Fun τ → Option τ × Option τ) (h : Declared s c) (hf : callOf s c = some f) :
    ∃ s' i o, rewrite attrs s c = .ok s' ∧ Changed s s' c (.rewritten f.code) i o :=
  ⟨_, _, _, by simp only [rewrite, hf]; rfl, setCall_changed h _ _ _⟩

theorem std_changed {s : St τ} {c : Nat} {f : Fun τ} {i o : τ} (attrs : Fun τ → Option τ × Option τ) (h : Declared s c) (hf : callOf s c = some f)
    (ht : types s c = (some i, some o)) : ∃ s', keepTypes (rewrite attrs) s c = .ok s' ∧ Changed s s' c (.rewritten f.code) (some i) (some o) := by
  obtain ⟨s', i', o', h1, h2⟩ := rewrite_changed attrs h hf
  exact keepTypes_changed ht h1 h2

theorem assemble_changed {s : St τ} {c : Nat} {f : Fun τ} {k : Cls} {i o : τ} (attrs : Fun τ → Option τ × Option τ) (F : Family) (h : Declared s c)
    (hf : callOf s c = some f) (hk : s.clss[c]? = some k) (ht : types s c = (some i, some o)) (hF : F ≠ .py) :
    ∃ s', assemble attrs s c F = .ok s' ∧ Changed s s' c (runs k.isBox f.code F) (some i) (some o) := by
  obtain ⟨s1, e1, c1⟩ := std_changed attrs h hf ht
  cases F with
  | py => exact absurd rfl hF
  | pyx => exact ⟨s1, e1, c1⟩
  | smt =>
    have hb := c1.box
    rw [hk] at hb
    simp only [Option.map_some] at hb
    cases hbx : k.isBox with
    | false =>
      rw [hbx] at hb
      have e2 : blackBox s1 c = .ok s1 := by simp [blackBox, hb]
      obtain ⟨s', e, ch⟩ := keepTypes_changed (deco := fun s c => match keepTypes (rewrite attrs) s c with
        | .error e => .error e
        | .ok s' => blackBox s' c) ht (by simp only [e1, e2]) c1
      exact ⟨s', e, by simpa [runs] using ch⟩
    | true =>
      rw [hbx] at hb
      have e2 : blackBox s1 c = .ok (setCall s1 c ⟨.box, false, some i, some o⟩) := by
        simp [blackBox, hb, c1.own]
      obtain ⟨s', e, ch⟩ := keepTypes_changed (deco := fun s c => match keepTypes (rewrite attrs) s c with
        | .error e => .error e
        | .ok s' => blackBox s' c) ht (by simp only [e1, e2]) (c1.trans (setCall_changed c1.declared .box (some i) (some o)))
      exact ⟨s', e, by simpa [runs] using ch⟩

/-! ### The property -/

/-- C78: for every family and every class that has types, declared or inherited, assembling succeeds whatever attributes the passes leave on the
function they make; the class has the same input and output types as before and runs what `runs` says; every other class has the types and runs
the function it had, the base classes among them. -/
theorem C78_interface (attrs : Fun τ → Option τ × Option τ) (s : St τ) (c : Nat) (F : Family) (h : Declared s c) (f : Fun τ) (hf : callOf s c = some f)
    (k : Cls) (hk : s.clss[c]? = some k) (i o : τ) (hi : f.input = some i) (ho : f.output = some o) :
    ∃ s', assemble attrs s c F = .ok s' ∧ types s' c = (some i, some o) ∧ (callOf s' c).map (·.code) = some (runs k.isBox f.code F) ∧
      ∀ d, d ≠ c → callOf s' d = callOf s d ∧ types s' d = types s d := by
  have ht : types s c = (some i, some o) := by simp [types, hf, hi, ho]
  by_cases hF : F = .py
  · subst hF
    exact ⟨s, rfl, ht, by simp [hf, runs], fun d _ => ⟨rfl, rfl⟩⟩
  · obtain ⟨s', e, ch⟩ := assemble_changed attrs F h hf hk ht hF
    have hother : ∀ d, d ≠ c → callOf s' d = callOf s d := by
      intro d hd
      simp only [callOf, ch.other d hd]
      cases e : callRef s d with
      | none => rfl
      | some g => exact ch.keep g (callRef_lt h.funs e)
    exact ⟨s', e, by simp [types, ch.own], by simp [ch.own], fun d hd => ⟨hother d hd, by simp only [types, hother d hd]⟩⟩

/-- C78, classes without types (declared with `gen_input_t=False` or `gen_output_t=False`, or without a call): `PyFamily` accepts them, the
other families raise AttributeError. -/
theorem C78_untyped (attrs : Fun τ → Option τ × Option τ) (s : St τ) (c : Nat) (ht : (types s c).1 = none ∨ (types s c).2 = none) :
    assemble attrs s c .py = .ok s ∧ assemble attrs s c .pyx = .error .attributeError ∧ assemble attrs s c .smt = .error .attributeError := by
  have key : ∀ deco : St τ → Nat → Except Err (St τ), keepTypes deco s c = .error .attributeError := by
    intro deco
    unfold keepTypes
    split
    · next h1 h2 =>
      simp only [types] at ht
      rcases ht with e | e
      · rw [h1] at e; cases e
      · rw [h2] at e; cases e
    · rfl
  exact ⟨rfl, key _, by simp only [assemble, key]⟩

/-- C78 fails for checks: a class declared with `typecheck=True` checks its results in the Python family only; after assembling by the
others its calls run without the check. -/
theorem C78_violated_typecheck (attrs : Fun τ → Option τ × Option τ) (s : St τ) (c : Nat) (F : Family) (h : Declared s c) (f : Fun τ) (hf : callOf s c = some f)
    (hc : f.checked = true) (i o : τ) (hi : f.input = some i) (ho : f.output = some o) :
    ∃ s' g, assemble attrs s c F = .ok s' ∧ callOf s' c = some g ∧ (g.checked = true ↔ F = .py) := by
  obtain ⟨k, hk, -⟩ := h.self
  by_cases hF : F = .py
  · subst hF
    exact ⟨s, f, rfl, hf, by simp [hc]⟩
  · obtain ⟨s', e, ch⟩ := assemble_changed (i := i) (o := o) attrs F h hf hk (by simp [types, hf, hi, ho]) hF
    exact ⟨s', _, e, ch.own, by simp [hF]⟩

/-! ### The hypotheses are met -/

/-- A black box (class 1) that inherits its call from class 0; assembled by the SMT family. -/
def demo : St Nat := { funs := [⟨.source 5, true, some 10, some 11⟩], clss := [⟨some 0, [0], false⟩, ⟨none, [1, 0], true⟩] }

theorem demo_declared : Declared demo 1 := by
  refine ⟨?_, ⟨_, rfl, rfl⟩, ?_⟩
  · intro k hk f hf
    simp only [demo, List.mem_cons, List.not_mem_nil, or_false] at hk
    rcases hk with rfl | rfl
    · simp only [Option.some.injEq] at hf
      subst hf
      decide
    · cases hf
  · intro d k hd hne
    match d with
    | 0 =>
      simp only [demo, List.getElem?_cons_zero, Option.some.injEq] at hd
      subst hd
      decide
    | 1 => exact absurd rfl hne
    | d + 2 => simp [demo] at hd

example : ∃ s', assemble (fun _ => (none, none)) demo 1 .smt = .ok s' ∧ types s' 1 = (some 10, some 11) ∧ (callOf s' 1).map (·.code) = some .box ∧
    (callOf s' 0).map (·.code) = some (.source 5) := by
  obtain ⟨s', e, h1, h2, h3⟩ := C78_interface (fun _ => (none, none)) demo 1 .smt demo_declared _ rfl _ rfl 10 11 rfl rfl
  exact ⟨s', e, h1, h2, by rw [(h3 0 (by decide)).1]; rfl⟩

/-- `ROM` and `RAM` (memory.py:5, 15) are declared without types. -/
example : (types ({ funs := [⟨.source 0, false, none, none⟩], clss := [⟨some 0, [0], false⟩] } : St Nat) 0).1 = none := rfl

end Peak.Fam
