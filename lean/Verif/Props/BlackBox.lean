import Verif.Model.BlackBox
import Mathlib.Data.List.Nodup
/-!
# C26, C27: black boxes
-/

namespace Peak
variable {α : Type}

/-! ## C26 -/

/-- Specification: the outputs in force after a history: those of the last `_set_outputs` with the right number of values. -/
def outputsAfter (nOut : Nat) (ops : List (BBOp α)) : Option (List α) :=
  (ops.filterMap (fun op => match op with
    | .setOutputs args => if args.length = nOut then some args else none
    | _ => none)).getLast?

/-- Specification: which calls are accepted once outputs are set: values for all parameters by position, or by name, not both. -/
def CallOk (inputs : List String) (args : List α) (kwargs : List (String × α)) : Prop :=
  (args ≠ [] ∧ kwargs = [] ∧ args.length = inputs.length) ∨
  (args = [] ∧ kwargs ≠ [] ∧ ∀ n, n ∈ kwargs.map (·.1) ↔ n ∈ inputs)

/-- Specification: the argument values of a call by parameter, in declaration order. -/
def paramValues (inputs : List String) (args : List α) (kwargs : List (String × α)) : List (Option α) :=
  if kwargs = [] then args.map some else inputs.map (fun n => kwargs.lookup n)

namespace BB

theorem sameKeys_iff (xs ys : List String) : sameKeys xs ys = true ↔ ∀ n, n ∈ xs ↔ n ∈ ys := by
  simp only [sameKeys, Bool.and_eq_true, List.all_eq_true, List.contains_iff_mem]
  exact ⟨fun h n => ⟨h.1 n, h.2 n⟩, fun h => ⟨fun n => (h n).1, fun n => (h n).2⟩⟩

theorem step_static (b : BBox α) (op : BBOp α) : (b.step op).2.inputs = b.inputs ∧ (b.step op).2.nOut = b.nOut := by
  cases op with
  | setOutputs args =>
    simp only [BBox.step, BBox.setOutputs]
    by_cases h : args.length = b.nOut <;> simp [h]
  | call args kwargs =>
    simp only [BBox.step, BBox.call]
    split
    · exact ⟨rfl, rfl⟩
    · split
      · exact ⟨rfl, rfl⟩
      · split
        · split <;> exact ⟨rfl, rfl⟩
        · split <;> exact ⟨rfl, rfl⟩
  | getInputs => exact ⟨rfl, rfl⟩

theorem exec_static (ops : List (BBOp α)) (b : BBox α) : (b.exec ops).inputs = b.inputs ∧ (b.exec ops).nOut = b.nOut := by
  induction ops generalizing b with
  | nil => exact ⟨rfl, rfl⟩
  | cons op ops ih =>
    have := ih (b.step op).2
    exact ⟨this.1.trans (step_static b op).1, this.2.trans (step_static b op).2⟩

theorem exec_append (xs ys : List (BBOp α)) (b : BBox α) : b.exec (xs ++ ys) = (b.exec xs).exec ys := by
  induction xs generalizing b with
  | nil => rfl
  | cons x xs ih => exact ih _

theorem call_out (b : BBox α) (args : List α) (kwargs : List (String × α)) : (b.call args kwargs).2.outVals = b.outVals := by
  unfold BBox.call
  split
  · rfl
  · split
    · rfl
    · split
      · split <;> rfl
      · split <;> rfl

theorem outVals_exec (ops : List (BBOp α)) (b : BBox α) :
    (b.exec ops).outVals = (outputsAfter b.nOut ops).or b.outVals := by
  induction ops generalizing b with
  | nil => simp [BBox.exec, outputsAfter]
  | cons op ops ih =>
    show ((b.step op).2.exec ops).outVals = _
    rw [ih, (step_static b op).2]
    cases op with
    | getInputs => simp [BBox.step, outputsAfter]
    | call args kwargs =>
      simp only [BBox.step, call_out]
      simp [outputsAfter]
    | setOutputs args =>
      simp only [BBox.step, BBox.setOutputs, outputsAfter]
      by_cases h : args.length = b.nOut
      · simp only [ne_eq, h, not_true_eq_false, if_false, List.filterMap_cons, if_true, List.getLast?_cons]
        cases (List.filterMap _ ops).getLast? <;> simp
      · simp [h]

/-- Exactly the accepted calls return. -/
theorem call_spec (b : BBox α) (args : List α) (kwargs : List (String × α)) :
    (CallOk b.inputs args kwargs → ∀ outs, b.outVals = some outs →
      b.call args kwargs = (.ok outs, { b with inVals := some (if kwargs = [] then args else kwargs.map (·.2)) })) ∧
    (¬ (CallOk b.inputs args kwargs ∧ b.outVals.isSome = true) → b.call args kwargs = (.error .valueError, b)) := by
  constructor
  · rintro (⟨ha, rfl, hl⟩ | ⟨rfl, hk, hn⟩) outs ho
    · have : args.length > 0 := List.length_pos_iff.mpr ha
      have h2 : b.inputs.length > 0 := hl ▸ this
      have h3 : b.inputs ≠ [] := List.length_pos_iff.mp h2
      simp [BBox.call, ho, hl, h2, h3]
    · have hs := (sameKeys_iff (kwargs.map (·.1)) b.inputs).2 hn
      simp [BBox.call, ho, hk, hs]
  · intro h
    unfold BBox.call
    split
    · rfl
    · next outs ho =>
      simp only [ho, Option.isSome_some, and_true] at h
      split
      · rfl
      · next hx =>
        split
        · next hl =>
          split
          · rfl
          · next hl' =>
            exfalso
            apply h
            left
            refine ⟨List.length_pos_iff.mp hl, ?_, by simpa using hl'⟩
            simp only [hl, decide_true, beq_iff_eq] at hx
            cases kwargs with
            | nil => rfl
            | cons => simp at hx
        · next hl =>
          split
          · rfl
          · next hs =>
            exfalso
            apply h
            right
            have ha : args = [] := by
              cases args with
              | nil => rfl
              | cons => simp at hl
            subst ha
            refine ⟨rfl, ?_, ?_⟩
            · rintro rfl
              simp at hx
            · rw [Bool.not_eq_false] at hs
              exact (sameKeys_iff _ _).1 hs

end BB

/-- C26: whatever happened before, a call returns the outputs set last, is accepted exactly when outputs have been set and values for
all parameters are given by position or by name, and a refused call raises ValueError and changes nothing. -/
theorem C26_call (inputs : List String) (nOut : Nat) (ops : List (BBOp α)) (args : List α) (kwargs : List (String × α)) :
    let b := (BBox.new inputs nOut : BBox α).exec ops
    (∀ outs, CallOk inputs args kwargs → outputsAfter nOut ops = some outs → (b.call args kwargs).1 = .ok outs) ∧
    (¬ (CallOk inputs args kwargs ∧ (outputsAfter nOut ops).isSome = true) → b.call args kwargs = (.error .valueError, b)) := by
  intro b
  have hout : b.outVals = outputsAfter nOut ops := by
    simp only [b, BB.outVals_exec, BBox.new, Option.or_none]
  have hin : b.inputs = inputs := (BB.exec_static ops _).1
  refine ⟨fun outs hok ho => ?_, fun h => ?_⟩
  · rw [((BB.call_spec b args kwargs).1 (hin ▸ hok) outs (hout.trans ho))]
  · exact (BB.call_spec b args kwargs).2 (by rw [hin, hout]; exact h)

/-- C26: what the operations report, whatever happened before: setting outputs is accepted exactly with one value for each output, and otherwise raises ValueError and changes nothing; a call reports
the outputs set last or the ValueError; reading the inputs changes nothing and reports what it returns. -/
theorem C26_reports (inputs : List String) (nOut : Nat) (ops : List (BBOp α)) :
    let b := (BBox.new inputs nOut : BBox α).exec ops
    (∀ outs : List α, outs.length = nOut → (b.step (.setOutputs outs)).1 = .done) ∧
    (∀ outs : List α, outs.length ≠ nOut → b.step (.setOutputs outs) = (.raised .valueError, b)) ∧
    (∀ args kwargs, ∀ outs : List α, CallOk inputs args kwargs → outputsAfter nOut ops = some outs → (b.step (.call args kwargs)).1 = .values outs) ∧
    (∀ args kwargs, ¬ (CallOk inputs args kwargs ∧ (outputsAfter nOut ops).isSome = true) → b.step (.call args kwargs) = (.raised .valueError, b)) ∧
    (b.step .getInputs).2 = b ∧ (∀ vs, b.getInputs = .ok vs → (b.step .getInputs).1 = .values vs) ∧ ∀ e, b.getInputs = .error e → (b.step .getInputs).1 = .raised e := by
  intro b
  have hn : b.nOut = nOut := (BB.exec_static ops _).2
  refine ⟨fun outs h => ?_, fun outs h => ?_, fun args kwargs outs hok ho => ?_, fun args kwargs h => ?_, rfl, fun vs h => ?_, fun e h => ?_⟩
  · simp [BBox.step, BBox.setOutputs, hn, h]
  · simp [BBox.step, BBox.setOutputs, hn, h]
  · have := (C26_call inputs nOut ops args kwargs).1 outs hok ho
    show BBObs.of (b.call args kwargs).1 = _
    rw [this]; rfl
  · have := (C26_call inputs nOut ops args kwargs).2 h
    show (BBObs.of (b.call args kwargs).1, (b.call args kwargs).2) = _
    rw [this]; rfl
  · simp only [BBox.step, h]; rfl
  · simp only [BBox.step, h]; rfl

/-- C26: a positional call records its arguments by parameter, and they are what `_get_inputs` returns until the next accepted call.
`mid` is any sequence of operations without an accepted call. -/
theorem C26_positional (inputs : List String) (nOut : Nat) (ops mid : List (BBOp α)) (args : List α) (outs : List α)
    (ho : outputsAfter nOut ops = some outs) (hok : CallOk inputs args [])
    (hmid : ∀ a k, BBOp.call a k ∈ mid → ¬ CallOk inputs a k) :
    ((BBox.new inputs nOut : BBox α).exec (ops ++ .call args [] :: mid)).getInputs = .ok args ∧
    args.map some = paramValues inputs args [] := by
  refine ⟨?_, by simp [paramValues]⟩
  rw [BB.exec_append]
  have hout : ((BBox.new inputs nOut : BBox α).exec ops).outVals = some outs := by
    simp only [BB.outVals_exec, BBox.new, Option.or_none, ho]
  have hin : ((BBox.new inputs nOut : BBox α).exec ops).inputs = inputs := (BB.exec_static ops _).1
  generalize (BBox.new inputs nOut : BBox α).exec ops = b at *
  show ((b.step (.call args [])).2.exec mid).getInputs = _
  simp only [BBox.step, (BB.call_spec b args []).1 (hin ▸ hok) outs hout, if_true]
  have key : ∀ (mid : List (BBOp α)) (b : BBox α), b.inputs = inputs → b.inVals = some args →
      (∀ a k, BBOp.call a k ∈ mid → ¬ CallOk inputs a k) → (b.exec mid).inVals = some args := by
    intro mid
    induction mid with
    | nil => intro b _ h _; exact h
    | cons op mid ih =>
      intro b hb h hm
      refine ih _ ((BB.step_static b op).1.trans hb) ?_ (fun a k hk => hm a k (by simp [hk]))
      cases op with
      | getInputs => exact h
      | setOutputs a =>
        simp only [BBox.step, BBox.setOutputs]
        by_cases hl : a.length = b.nOut <;> simp [hl, h]
      | call a k =>
        have := hm a k (by simp)
        simp only [BBox.step, (BB.call_spec b a k).2 (by rw [hb]; exact fun hc => this hc.1)]
        exact h
  simp [BBox.getInputs, key mid ⟨b.inputs, b.nOut, some args, b.outVals⟩ hin rfl hmid]

/-- C26, the part that holds for keyword calls: given in declaration order they are recorded by parameter. -/
theorem C26_keyword_partial (inputs : List String) (nOut : Nat) (ops : List (BBOp α)) (kwargs : List (String × α)) (outs : List α)
    (ho : outputsAfter nOut ops = some outs) (hne : inputs ≠ []) (hnd : inputs.Nodup) (hk : kwargs.map (·.1) = inputs) :
    ∃ vs, ((BBox.new inputs nOut : BBox α).exec (ops ++ [.call [] kwargs])).getInputs = .ok vs ∧
      vs.map some = paramValues inputs [] kwargs := by
  have hk0 : kwargs ≠ [] := by rintro rfl; exact hne hk.symm
  have hok : CallOk inputs ([] : List α) kwargs := Or.inr ⟨rfl, hk0, fun n => by rw [hk]⟩
  rw [BB.exec_append]
  have hout : ((BBox.new inputs nOut : BBox α).exec ops).outVals = some outs := by
    simp only [BB.outVals_exec, BBox.new, Option.or_none, ho]
  have hin : ((BBox.new inputs nOut : BBox α).exec ops).inputs = inputs := (BB.exec_static ops _).1
  generalize (BBox.new inputs nOut : BBox α).exec ops = b at *
  refine ⟨kwargs.map (·.2), ?_, ?_⟩
  · show ((b.step (.call [] kwargs)).2.exec []).getInputs = _
    simp only [BBox.step, (BB.call_spec b [] kwargs).1 (hin ▸ hok) outs hout, hk0, if_false, BBox.exec, BBox.getInputs]
  · subst hk
    simp only [paramValues, hk0, if_false, List.map_map]
    apply List.map_congr_left
    intro p hp
    clear hok hin hk0 hne
    induction kwargs with
    | nil => simp at hp
    | cons q kwargs ih =>
      simp only [List.map_cons, List.nodup_cons] at hnd
      simp only [List.mem_cons] at hp
      rcases hp with rfl | hp
      · obtain ⟨n, v⟩ := p
        simp
      · have hne : p.1 ≠ q.1 := fun hc => hnd.1 (hc ▸ List.mem_map_of_mem hp)
        have := ih hnd.2 hp
        simp only [Function.comp_apply, List.lookup, beq_eq_false_iff_ne.mpr hne] at this ⊢
        exact this

/-- C26 fails for keyword calls in another order: the inputs are recorded in call order, so they come back swapped. -/
theorem C26_violated :
    ∃ vs, ((BBox.new ["a", "b"] 1 : BBox Nat).exec [.setOutputs [7], .call [] [("b", 2), ("a", 1)]]).getInputs = .ok vs ∧
      CallOk ["a", "b"] ([] : List Nat) [("b", 2), ("a", 1)] ∧
      vs.map some ≠ paramValues ["a", "b"] [] [("b", 2), ("a", 1)] := by
  refine ⟨[2, 1], rfl, Or.inr ⟨rfl, by simp, fun n => ?_⟩, by decide⟩
  simp only [List.map_cons, List.map_nil, List.mem_cons, List.not_mem_nil, or_false]
  exact or_comm

/-- C26: before any accepted call, reading the inputs raises. -/
theorem C26_no_call (inputs : List String) (nOut : Nat) (ops : List (BBOp α))
    (h : ∀ a k, BBOp.call a k ∈ ops → ¬ CallOk inputs a k) :
    ((BBox.new inputs nOut : BBox α).exec ops).getInputs = .error .valueError := by
  have key : ∀ (ops : List (BBOp α)) (b : BBox α), b.inputs = inputs → b.inVals = none →
      (∀ a k, BBOp.call a k ∈ ops → ¬ CallOk inputs a k) → (b.exec ops).inVals = none := by
    intro ops
    induction ops with
    | nil => intro b _ h _; exact h
    | cons op mid ih =>
      intro b hb h hm
      refine ih _ ((BB.step_static b op).1.trans hb) ?_ (fun a k hk => hm a k (by simp [hk]))
      cases op with
      | getInputs => exact h
      | setOutputs a =>
        simp only [BBox.step, BBox.setOutputs]
        by_cases hl : a.length = b.nOut <;> simp [hl, h]
      | call a k =>
        have := hm a k (by simp)
        simp only [BBox.step, (BB.call_spec b a k).2 (by rw [hb]; exact fun hc => this hc.1)]
        exact h
  simp [BBox.getInputs, key ops (BBox.new inputs nOut) rfl rfl h]

/-- C26: a box without inputs can never be called (the code refuses calls without arguments). -/
theorem C26_no_inputs (args : List α) (kwargs : List (String × α)) : ¬ CallOk [] args kwargs := by
  rintro (⟨h, _, hl⟩ | ⟨_, h, hn⟩)
  · simp at hl; exact h hl
  · cases kwargs with
    | nil => exact h rfl
    | cons p ps => simpa using (hn p.1).1 (by simp)

example : ((BBox.new ["a", "b"] 1 : BBox Nat).exec
    [.setOutputs [7], .call [1, 2] [], .getInputs, .setOutputs [8, 9], .call [1] []]).getInputs = .ok [1, 2] := by rfl

/-! ## C27 -/

/-- Specification: `b` is a black box reached from `t` through the attributes `p` of Peak objects, and no object on the way is itself a
black box. -/
inductive ReachBox : Inst → List String → Inst → Prop
  | here (b : Inst) : b.kind = .box → ReachBox b [] b
  | there (t c b : Inst) (n : String) (p : List String) : t.kind ≠ .box → (n, c) ∈ t.fields.toList → c.kind ≠ .other →
      ReachBox c p b → ReachBox t (n :: p) b

mutual
/-- Attribute names of one object differ, and attribute registers hold no Peak objects. -/
def Inst.WF : Inst → Prop
  | .mk _ k fs => (fs.toList.map (·.1)).Nodup ∧ fs.WF ∧ (k = .reg → ∀ p ∈ fs.toList, p.2.kind = .other)
def InstFields.WF : InstFields → Prop
  | .nil => True
  | .cons _ o fs => o.WF ∧ fs.WF
end

mutual
/-- All identities in the tree. -/
def Inst.ids : Inst → List Nat
  | .mk i _ fs => i :: fs.ids
def InstFields.ids : InstFields → List Nat
  | .nil => []
  | .cons _ o fs => o.ids ++ fs.ids
end

namespace BB

theorem reach_box {t : Inst} (ht : t.kind = .box) {p : List String} {b : Inst} : ReachBox t p b ↔ p = [] ∧ b = t := by
  constructor
  · intro h
    cases h with
    | here => exact ⟨rfl, rfl⟩
    | there _ c _ n p hk => exact absurd ht hk
  · rintro ⟨rfl, rfl⟩; exact .here _ ht

theorem reach_other {t : Inst} (ht : t.kind ≠ .box) {p : List String} {b : Inst} :
    ReachBox t p b ↔ ∃ n c q, (n, c) ∈ t.fields.toList ∧ c.kind ≠ .other ∧ p = n :: q ∧ ReachBox c q b := by
  constructor
  · intro h
    cases h with
    | here _ hk => exact absurd hk ht
    | there _ c _ n q _ hm hc hr => exact ⟨n, c, q, hm, hc, rfl, hr⟩
  · rintro ⟨n, c, q, hm, hc, rfl, hr⟩
    exact .there _ _ _ _ _ ht hm hc hr

mutual
theorem walk_mem : ∀ (t : Inst) (path p : List String) (b : Inst),
    (p, b) ∈ bbWalk t path ↔ ∃ q, p = path ++ q ∧ ReachBox t q b
  | .mk i k fs, path, p, b => by
    by_cases hk : k = .box
    · subst hk
      simp only [bbWalk, List.mem_singleton, Prod.mk.injEq]
      constructor
      · rintro ⟨rfl, rfl⟩
        exact ⟨[], by simp, .here _ rfl⟩
      · rintro ⟨q, rfl, hr⟩
        have := (reach_box (t := .mk i .box fs) rfl).1 hr
        simp [this.1, this.2]
    · have : bbWalk (.mk i k fs) path = bbWalkFields fs path := by
        cases k <;> first | exact absurd rfl hk | rfl
      rw [this, walkFields_mem fs path p b]
      constructor
      · rintro ⟨n, c, q, hm, hc, rfl, hr⟩
        exact ⟨n :: q, rfl, .there _ c _ n q hk hm hc hr⟩
      · rintro ⟨q, rfl, hr⟩
        obtain ⟨n, c, q', hm, hc, rfl, hr'⟩ := (reach_other (t := .mk i k fs) hk).1 hr
        exact ⟨n, c, q', hm, hc, rfl, hr'⟩
theorem walkFields_mem : ∀ (fs : InstFields) (path p : List String) (b : Inst),
    (p, b) ∈ bbWalkFields fs path ↔
      ∃ n c q, (n, c) ∈ fs.toList ∧ c.kind ≠ .other ∧ p = path ++ n :: q ∧ ReachBox c q b
  | .nil, path, p, b => by simp [bbWalkFields, InstFields.toList]
  | .cons n (.mk i k gs) rest, path, p, b => by
    have ih1 := walk_mem (.mk i k gs) (path ++ [n]) p b
    have ih2 := walkFields_mem rest path p b
    have hsplit : bbWalkFields (.cons n (.mk i k gs) rest) path =
        (if k = .other then [] else bbWalk (.mk i k gs) (path ++ [n])) ++ bbWalkFields rest path := by
      cases k <;> simp [bbWalkFields]
    rw [hsplit, List.mem_append, ih2]
    constructor
    · rintro (h | ⟨m, c, q, hm, hc, hp, hr⟩)
      · by_cases hk : k = .other
        · simp [hk] at h
        · rw [if_neg hk, ih1] at h
          obtain ⟨q, rfl, hr⟩ := h
          exact ⟨n, .mk i k gs, q, by simp [InstFields.toList], hk, by simp, hr⟩
      · exact ⟨m, c, q, by simp [InstFields.toList, hm], hc, hp, hr⟩
    · rintro ⟨m, c, q, hm, hc, hp, hr⟩
      simp only [InstFields.toList, List.mem_cons, Prod.mk.injEq] at hm
      rcases hm with ⟨rfl, rfl⟩ | hm
      · left
        have hk : k ≠ .other := hc
        rw [if_neg hk, ih1]
        exact ⟨q, by simpa using hp, hr⟩
      · right; exact ⟨m, c, q, hm, hc, hp, hr⟩
end

mutual
theorem walk_nodup : ∀ (t : Inst) (path : List String), t.WF → ((bbWalk t path).map (·.1)).Nodup
  | .mk i k fs, path, h => by
    by_cases hk : k = .box
    · subst hk; simp [bbWalk]
    · have : bbWalk (.mk i k fs) path = bbWalkFields fs path := by
        cases k <;> first | exact absurd rfl hk | rfl
      rw [this]
      exact walkFields_nodup fs path h.1 h.2.1
theorem walkFields_nodup : ∀ (fs : InstFields) (path : List String), (fs.toList.map (·.1)).Nodup → fs.WF →
    ((bbWalkFields fs path).map (·.1)).Nodup
  | .nil, path, _, _ => by simp [bbWalkFields]
  | .cons n (.mk i k gs) rest, path, hn, h => by
    have hsplit : bbWalkFields (.cons n (.mk i k gs) rest) path =
        (if k = .other then [] else bbWalk (.mk i k gs) (path ++ [n])) ++ bbWalkFields rest path := by
      cases k <;> simp [bbWalkFields]
    simp only [InstFields.toList, List.map_cons, List.nodup_cons] at hn
    rw [hsplit, List.map_append, List.nodup_append]
    refine ⟨?_, walkFields_nodup rest path hn.2 h.2, ?_⟩
    · split
      · simp
      · exact walk_nodup (.mk i k gs) _ h.1
    · intro p hp p' hp' heq
      subst heq
      simp only [List.mem_map] at hp hp'
      obtain ⟨⟨p1, b1⟩, h1, rfl⟩ := hp
      obtain ⟨⟨p2, b2⟩, h2, h2e⟩ := hp'
      simp only at h2e
      subst h2e
      rw [walkFields_mem] at h2
      obtain ⟨m, c, q, hm, hc, hpq, hr⟩ := h2
      split at h1
      · simp at h1
      · rw [walk_mem] at h1
        obtain ⟨q', hpq', _⟩ := h1
        rw [hpq'] at hpq
        have : n = m := by
          have := List.append_cancel_left (by simpa using hpq : path ++ (n :: q') = path ++ (m :: q))
          simp at this; exact this.1
        subst this
        exact hn.1 (by simpa using ⟨c, hm⟩)
end

mutual
theorem walk_ids : ∀ (t : Inst) (path : List String), List.Sublist ((bbWalk t path).map (fun x => x.2.id)) t.ids
  | .mk i k fs, path => by
    by_cases hk : k = .box
    · subst hk; simp [bbWalk, Inst.ids, Inst.id]
    · have : bbWalk (.mk i k fs) path = bbWalkFields fs path := by
        cases k <;> first | exact absurd rfl hk | rfl
      rw [this]
      exact (walkFields_ids fs path).cons _
theorem walkFields_ids : ∀ (fs : InstFields) (path : List String),
    List.Sublist ((bbWalkFields fs path).map (fun x => x.2.id)) fs.ids
  | .nil, path => by simp [bbWalkFields]
  | .cons n (.mk i k gs) rest, path => by
    have hsplit : bbWalkFields (.cons n (.mk i k gs) rest) path =
        (if k = .other then [] else bbWalk (.mk i k gs) (path ++ [n])) ++ bbWalkFields rest path := by
      cases k <;> simp [bbWalkFields]
    rw [hsplit, List.map_append]
    refine List.Sublist.append ?_ (walkFields_ids rest path)
    split
    · simp
    · exact walk_ids (.mk i k gs) _
end

theorem lookup_of_nodup {β : Type} (l : List (String × β)) (n : String) (c : β) (hn : (l.map (·.1)).Nodup) (h : (n, c) ∈ l) :
    l.lookup n = some c := by
  induction l with
  | nil => simp at h
  | cons p l ih =>
    simp only [List.map_cons, List.nodup_cons] at hn
    simp only [List.mem_cons] at h
    rcases h with rfl | h
    · simp
    · have hne : n ≠ p.1 := fun hc => hn.1 (by rw [← hc]; exact List.mem_map_of_mem (f := (·.1)) h)
      obtain ⟨a, b⟩ := p
      simp only [List.lookup, beq_eq_false_iff_ne.mpr hne]
      exact ih hn.2 h

theorem wf_child {t c : Inst} {n : String} (h : t.WF) (hm : (n, c) ∈ t.fields.toList) : c.WF := by
  obtain ⟨i, k, fs⟩ := t
  have : ∀ fs : InstFields, fs.WF → (n, c) ∈ fs.toList → c.WF := by
    intro fs
    induction fs using InstFields.rec (motive_1 := fun _ => True) with
    | nil => intro _ h; simp [InstFields.toList] at h
    | cons m o fs _ ih =>
      intro h hm
      simp only [InstFields.toList, List.mem_cons, Prod.mk.injEq] at hm
      rcases hm with ⟨_, rfl⟩ | hm
      · exact h.1
      · exact ih h.2 hm
    | _ => trivial
  exact this fs h.2.1 hm

theorem reach_get {t b : Inst} {p : List String} (hr : ReachBox t p b) : t.WF → getBlackBox t p = .ok b := by
  induction hr with
  | here b _ => intro _; rfl
  | there t c b n p ht hm hc hr ih =>
    intro hwf
    have hl : t.fields.toList.lookup n = some c := by
      obtain ⟨i, k, fs⟩ := t
      exact lookup_of_nodup _ _ _ hwf.1 hm
    have hcw := wf_child hwf hm
    have hreg : c.kind ≠ .reg := by
      intro hk
      obtain ⟨i, k, fs⟩ := c
      cases hr with
      | here _ hb => rw [hk] at hb; cases hb
      | there _ d _ m q _ hm' hd _ => exact hd (hcw.2.2 hk _ hm')
    simp only [getBlackBox, hl]
    cases hk : c.kind with
    | other => exact absurd hk hc
    | reg => exact absurd hk hreg
    | peak => exact ih hcw
    | box => exact ih hcw

end BB

/-- C27: on every tree of objects, `get_black_boxes` of a Peak object returns exactly the paths to the black boxes not below another
black box, each path once; following a path gives that black box; and when every object occurs once in the tree, every black box is
reported once.  A non-Peak object is refused. -/
theorem C27_black_boxes (t : Inst) (hwf : t.WF) :
    (t.kind = .other → getBlackBoxes t = .error .valueError) ∧
    (t.kind ≠ .other → ∃ l, getBlackBoxes t = .ok l ∧
      (∀ p b, (p, b) ∈ l ↔ ReachBox t p b) ∧
      (l.map (·.1)).Nodup ∧
      (∀ p b, (p, b) ∈ l → getBlackBox t p = .ok b) ∧
      (t.ids.Nodup → (l.map (fun x => x.2.id)).Nodup)) := by
  refine ⟨fun h => by simp [getBlackBoxes, h], fun h => ⟨bbWalk t [], ?_, fun p b => ?_, BB.walk_nodup t [] hwf, fun p b hm => ?_,
    fun hid => (BB.walk_ids t []).nodup hid⟩⟩
  · unfold getBlackBoxes
    cases hk : t.kind <;> first | exact absurd hk h | rfl
  · rw [BB.walk_mem]; simp
  · rw [BB.walk_mem] at hm
    obtain ⟨q, rfl, hr⟩ := hm
    exact BB.reach_get hr hwf

/-- A tree with two black boxes, one of them containing a third that is not reported. -/
def c27Example : Inst :=
  .mk 0 .peak (.cons "x" (.mk 1 .box (.cons "inner" (.mk 2 .box .nil) .nil))
    (.cons "y" (.mk 3 .peak (.cons "z" (.mk 4 .box .nil) (.cons "n" (.mk 5 .other .nil) .nil))) .nil))

example : c27Example.WF ∧ c27Example.ids.Nodup ∧
    (match getBlackBoxes c27Example with
      | .ok l => l.map (fun x => (x.1, x.2.id)) = [(["x"], 1), (["y", "z"], 4)]
      | .error _ => False) := by
  refine ⟨?_, by decide, by rfl⟩
  simp [c27Example, Inst.WF, InstFields.WF, InstFields.toList]

/-- C27 fails for objects that change: the result is cached per object, so a black box added after the first call is not reported. -/
theorem C27_violated_stale : ∃ t t' : Inst, t.id = t'.id ∧ t.WF ∧ t'.WF ∧
    ∃ l memo, getBlackBoxesCached none t = (.ok l, memo) ∧
      ∃ l', getBlackBoxesCached memo t' = (.ok l', memo) ∧ ∃ p b, ReachBox t' p b ∧ (p, b) ∉ l' := by
  refine ⟨.mk 0 .peak .nil, .mk 0 .peak (.cons "x" (.mk 1 .box .nil) .nil), rfl, ?_, ?_, [], some [], rfl, [], rfl,
    ["x"], .mk 1 .box .nil, ?_, by simp⟩
  · simp [Inst.WF, InstFields.WF, InstFields.toList]
  · simp [Inst.WF, InstFields.WF, InstFields.toList]
  · exact .there _ (.mk 1 .box .nil) _ _ _ (by simp [Inst.kind]) (by simp [Inst.fields, InstFields.toList]) (by simp [Inst.kind])
      (.here _ rfl)

/-- C27 for an unchanged object: the cache does not change the answers. -/
theorem C27_cached (t : Inst) :
    (getBlackBoxesCached none t).1 = getBlackBoxes t ∧
    (getBlackBoxesCached (getBlackBoxesCached none t).2 t).1 = getBlackBoxes t := by
  unfold getBlackBoxesCached
  cases h : getBlackBoxes t <;> simp

end Peak
