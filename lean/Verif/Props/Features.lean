import Verif.Model.Features
/-!
# C40: input and output types follow the signature
-/

namespace Peak
variable {τ υ : Type}

/-- Specification: the parameters a caller supplies by position: all but `self` for `__call__`. -/
def FnSig.params (f : FnSig τ) : List String := if f.name = "__call__" then f.pos.tail else f.pos

/-- All parameters, keyword-only and starred ones included. -/
def FnSig.allParams (f : FnSig τ) : List String := f.params ++ f.kwonly ++ f.starred

/-- What Python guarantees about a signature: annotations are keyed by name, every annotated name is a parameter, parameter names
differ, and a method has a `self`. -/
structure FnSig.Legal (f : FnSig τ) : Prop where
  annNodup : (f.ann.map (·.1)).Nodup
  annParam : ∀ n ∈ f.ann.map (·.1), n ∈ f.pos ++ f.kwonly ++ f.starred
  nodup : (f.pos ++ f.kwonly ++ f.starred).Nodup

namespace Feat

theorem names_eq (f : FnSig τ) :
    (f.varnames.take f.argcount).drop (if f.name = "__call__" then 1 else 0) = f.params := by
  have : f.varnames.take f.argcount = f.pos := by
    simp [FnSig.varnames, FnSig.argcount, List.append_assoc]
  rw [this, FnSig.params]
  split <;> simp

theorem lookup_isSome {β : Type} (l : List (String × β)) (n : String) : n ∈ l.map (·.1) ↔ ∃ t, l.lookup n = some t := by
  induction l with
  | nil => simp
  | cons p l ih =>
    obtain ⟨m, t⟩ := p
    by_cases h : n = m
    · subst h; simp
    · simp only [List.map_cons, List.mem_cons, h, false_or, ih, List.lookup, beq_eq_false_iff_ne.mpr h]

theorem fields_spec (ann : List (String × τ)) (names : List String) (h : ∀ n ∈ names, n ∈ ann.map (·.1)) :
    (names.filterMap (fun n => (ann.lookup n).map (fun t => (n, t)))).map (·.1) = names := by
  induction names with
  | nil => rfl
  | cons n ns ih =>
    obtain ⟨t, ht⟩ := (lookup_isSome ann n).1 (h n (by simp))
    simp [List.filterMap_cons, ht, ih (fun m hm => h m (by simp [hm]))]

theorem fields_ann (ann : List (String × τ)) (names : List String) (n : String) (t : τ)
    (h : (n, t) ∈ names.filterMap (fun n => (ann.lookup n).map (fun t => (n, t)))) : ann.lookup n = some t := by
  simp only [List.mem_filterMap, Option.map_eq_some_iff, Prod.mk.injEq] at h
  obtain ⟨m, _, t', h1, rfl, rfl⟩ := h
  exact h1

end Feat

/-- C40: the input type exists exactly when the annotated names are exactly the positional parameters; it then lists them in order, each
with its annotation, and is `None` when there are none.  Otherwise class creation raises ValueError. -/
theorem C40_inputs (f : FnSig τ) :
    ((∀ n, n ∈ f.params ↔ n ∈ f.ann.map (·.1)) →
      ∃ fields : List (String × τ), fields.map (·.1) = f.params ∧ (∀ n t, (n, t) ∈ fields → f.ann.lookup n = some t) ∧
        genInputT f = .ok (if fields = [] then none else some fields)) ∧
    (¬ (∀ n, n ∈ f.params ↔ n ∈ f.ann.map (·.1)) → genInputT f = .error .valueError) := by
  have hcond : (f.params.all ((f.ann.map (·.1)).contains ·) && (f.ann.map (·.1)).all (f.params.contains ·)) = true ↔
      ∀ n, n ∈ f.params ↔ n ∈ f.ann.map (·.1) := by
    simp only [Bool.and_eq_true, List.all_eq_true, List.contains_iff_mem]
    exact ⟨fun h n => ⟨h.1 n, h.2 n⟩, fun h => ⟨fun n => (h n).1, fun n => (h n).2⟩⟩
  constructor
  · intro h
    refine ⟨f.params.filterMap (fun n => (f.ann.lookup n).map (fun t => (n, t))),
      Feat.fields_spec f.ann f.params (fun n hn => (h n).1 hn), fun n t => Feat.fields_ann f.ann f.params n t, ?_⟩
    unfold genInputT
    simp only [Feat.names_eq, if_pos (hcond.2 h), List.length_eq_zero_iff]
    split <;> rfl
  · intro h
    unfold genInputT
    simp only [Feat.names_eq]
    rw [if_neg (fun hc => h (hcond.1 hc))]

/-- C40: a positional parameter without annotation is rejected, and so is an annotated `self`, keyword-only or starred parameter. -/
theorem C40_rejects (f : FnSig τ) :
    ((∃ n ∈ f.params, n ∉ f.ann.map (·.1)) → genInputT f = .error .valueError) ∧
    ((∃ n ∈ f.ann.map (·.1), n ∉ f.params) → genInputT f = .error .valueError) := by
  refine ⟨?_, ?_⟩
  · rintro ⟨n, h1, h2⟩
    exact (C40_inputs f).2 (fun h => h2 ((h n).1 h1))
  · rintro ⟨n, h1, h2⟩
    exact (C40_inputs f).2 (fun h => h2 ((h n).2 h1))

/-- C40: for a signature with positional parameters only, "annotated" is all that is needed. -/
theorem C40_inputs_positional_partial (f : FnSig τ) (hl : f.Legal) (hk : f.kwonly = []) (hs : f.starred = [])
    (hself : f.name = "__call__" → ∀ s, f.pos.head? = some s → s ∉ f.ann.map (·.1)) :
    (∃ r, genInputT f = .ok r) ↔ ∀ n ∈ f.allParams, n ∈ f.ann.map (·.1) := by
  have hall : f.allParams = f.params := by simp [FnSig.allParams, hk, hs]
  rw [hall]
  constructor
  · rintro ⟨r, hr⟩
    by_cases h : ∀ n, n ∈ f.params ↔ n ∈ f.ann.map (·.1)
    · exact fun n hn => (h n).1 hn
    · rw [(C40_inputs f).2 h] at hr; cases hr
  · intro h
    have : ∀ n, n ∈ f.params ↔ n ∈ f.ann.map (·.1) := by
      intro n
      refine ⟨h n, fun hn => ?_⟩
      have hp := hl.annParam n hn
      simp only [hk, hs, List.append_nil] at hp
      unfold FnSig.params
      split
      · next hc =>
        cases hpos : f.pos with
        | nil => simp [hpos] at hp
        | cons s ps =>
          simp only [hpos, List.mem_cons, List.tail_cons] at hp ⊢
          rcases hp with rfl | hp
          · exact absurd hn (hself hc n (by simp [hpos]))
          · exact hp
      · exact hp
    obtain ⟨fields, _, _, hg⟩ := (C40_inputs f).1 this
    exact ⟨_, hg⟩

/-- C40 fails for keyword-only parameters: one without annotation is neither rejected nor listed. -/
theorem C40_violated_kwonly : ∃ f : FnSig Nat, f.Legal ∧ (∃ n ∈ f.allParams, n ∉ f.ann.map (·.1)) ∧
    genInputT f = .ok (some [("a", 3)]) := by
  refine ⟨{ name := "__call__", pos := ["self", "a"], kwonly := ["k"], ann := [("a", 3)], ret := none }, ⟨?_, ?_, ?_⟩, ?_, rfl⟩ <;> decide

/-- C40: the output type lists the declared results in order; a missing annotation is rejected; `None` gives no output type; names given
with name_outputs take precedence. -/
theorem C40_outputs (f : FnSig τ) :
    (∀ o, f.fixedOut = some o → genOutputT f = .ok (some o)) ∧
    (f.fixedOut = none → f.ret = none → genOutputT f = .error .valueError) ∧
    (f.fixedOut = none → f.ret = some .none → genOutputT f = .ok none) ∧
    (f.fixedOut = none → ∀ ts, f.ret = some (.tuple ts) → ∃ os, genOutputT f = .ok (some os) ∧ os.length = ts.length ∧
      ∀ (i : Nat) (t : τ), ts[i]? = some t → os[i]? = some (toString i, t)) ∧
    (f.fixedOut = none → ∀ t, f.ret = some (.one t) → genOutputT f = .ok (some [("0", t)])) := by
  refine ⟨fun o h => by simp [genOutputT, h], fun h h' => by simp [genOutputT, h, h'], fun h h' => by simp [genOutputT, h, h'],
    fun h ts h' => ⟨tupleFields ts, by simp [genOutputT, h, h'], by simp [tupleFields], fun i t ht => ?_⟩, fun h t h' => ?_⟩
  · obtain ⟨hlt, rfl⟩ := List.getElem?_eq_some_iff.1 ht
    simp [tupleFields, hlt]
  · simp [genOutputT, h, h', tupleFields, List.range_succ, show Nat.repr 0 = "0" by decide]

/-- Specification: the results have the declared types, one result per declared output. -/
def ResultsOk (isT : τ → υ → Bool) (outs : List (String × τ)) (vs : List υ) : Prop :=
  vs.length = outs.length ∧ ∀ (i : Nat) (o : String × τ) (v : υ), outs[i]? = some o → vs[i]? = some v → isT o.2 v = true

/-- C40: type checking lets a call through unchanged when its results have the declared types, refuses calls with too few results or
with a result of the wrong type, and passes exceptions on. -/
theorem C40_typecheck_partial (isT : τ → υ → Bool) (outs : List (String × τ)) (res : Result υ) :
    (ResultsOk isT outs res.list → typechecked isT (some outs) (.ok res) = .ok res) ∧
    (res.list.length < outs.length → ∃ e, typechecked isT (some outs) (.ok res) = .error e) ∧
    (∀ (i : Nat) (o : String × τ) (v : υ), outs[i]? = some o → res.list[i]? = some v → isT o.2 v = false →
      ∃ e, typechecked isT (some outs) (.ok res) = .error e) ∧
    (∀ e o, typechecked isT o (.error e : Except Err (Result υ)) = .error e) := by
  have ok : ∀ (outs : List (String × τ)) (vs : List υ), ResultsOk isT outs vs → checkLoop isT outs vs = .ok () := by
    intro outs
    induction outs with
    | nil => intros; rfl
    | cons o os ih =>
      rintro vs ⟨hl, ht⟩
      cases vs with
      | nil => simp at hl
      | cons v vs =>
        simp only [checkLoop, ht 0 o v rfl rfl, if_true]
        exact ih vs ⟨by simpa using hl, fun i o' v' ho hv => ht (i + 1) o' v' (by simpa using ho) (by simpa using hv)⟩
  have short : ∀ (outs : List (String × τ)) (vs : List υ), vs.length < outs.length → ∃ e, checkLoop isT outs vs = .error e := by
    intro outs
    induction outs with
    | nil => intro vs h; simp at h
    | cons o os ih =>
      intro vs h
      cases vs with
      | nil => exact ⟨_, rfl⟩
      | cons v vs =>
        simp only [checkLoop]
        split
        · exact ih vs (by simpa using h)
        · exact ⟨_, rfl⟩
  have bad : ∀ (outs : List (String × τ)) (vs : List υ) (i : Nat) (o : String × τ) (v : υ), outs[i]? = some o → vs[i]? = some v →
      isT o.2 v = false → ∃ e, checkLoop isT outs vs = .error e := by
    intro outs
    induction outs with
    | nil => intro vs i o v h; simp at h
    | cons o' os ih =>
      intro vs i o v ho hv hb
      cases vs with
      | nil => exact ⟨_, rfl⟩
      | cons v' vs =>
        simp only [checkLoop]
        split
        · next hc =>
          cases i with
          | zero =>
            simp only [List.getElem?_cons_zero, Option.some.injEq] at ho hv
            subst ho hv
            rw [hb] at hc; cases hc
          | succ i => exact ih vs i o v (by simpa using ho) (by simpa using hv) hb
        · exact ⟨_, rfl⟩
  refine ⟨fun h => ?_, fun h => ?_, fun i o v ho hv hb => ?_, fun _ _ => rfl⟩
  · simp [typechecked, ok outs _ h]
  · obtain ⟨e, he⟩ := short outs _ h
    exact ⟨e, by simp [typechecked, he]⟩
  · obtain ⟨e, he⟩ := bad outs _ i o v ho hv hb
    exact ⟨e, by simp [typechecked, he]⟩

/-- C40 fails: surplus results are not refused. -/
theorem C40_violated_surplus : ∃ (outs : List (String × Nat)) (res : Result Nat),
    ¬ ResultsOk (fun t v => decide (v < t)) outs res.list ∧
    typechecked (fun t v => decide (v < t)) (some outs) (.ok res) = .ok res := by
  refine ⟨[("0", 5)], .tuple [1, 2], ?_, rfl⟩
  rintro ⟨h, _⟩
  simp [Result.list] at h

/-- C40 fails: a class whose `__call__` returns nothing cannot be type checked at all, every call raises. -/
theorem C40_violated_no_output (isT : τ → υ → Bool) (res : Result υ) :
    typechecked isT none (.ok res) = .error .attributeError := rfl

/-- C40: the two types a class gets. -/
theorem C40_meta (f : FnSig τ) :
    (∀ i o, genInputT f = .ok i → genOutputT f = .ok o → peakMeta true true f = .ok (some i, some o)) ∧
    (∀ e, genOutputT f = .error e → ∀ gi, peakMeta gi true f = .error e) ∧
    (∀ e o, genOutputT f = .ok o → genInputT f = .error e → peakMeta true true f = .error e) := by
  refine ⟨fun i o hi ho => ?_, fun e he gi => ?_, fun e o ho he => ?_⟩
  · simp [peakMeta, hi, ho, Except.map, bind, Except.bind]
  · simp [peakMeta, he, Except.map, bind, Except.bind]
  · simp [peakMeta, ho, he, Except.map, bind, Except.bind]

example : genInputT ({ name := "__call__", pos := ["self", "b", "a"], locals := ["tmp"], ann := [("a", 1), ("b", 2)], ret := none } : FnSig Nat) =
    .ok (some [("b", 2), ("a", 1)]) := by rfl

end Peak
