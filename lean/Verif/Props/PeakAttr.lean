import Verif.Model.PeakAttr
/-!
# C24: the register attribute protocol
-/

namespace Peak
namespace Attr
variable {α : Type}

theorem lookup_cons_self (a : List Char) (v : Held α) (l : List (List Char × Held α)) : ((a, v) :: l).lookup a = some v := by
  simp [List.lookup]

theorem raw_rawSet (o : PObj α) (a b : List Char) (v : Held α) :
    (o.rawSet a v).raw b = if b = a then some v else o.raw b := by
  unfold PObj.raw PObj.rawSet
  by_cases h : b = a
  · subst h; simp [List.lookup]
  · simp [List.lookup, h, beq_eq_false_iff_ne.mpr h]

end Attr

variable {α : Type}

/-- Attribute names `__x__` with a non-empty `x` that neither starts nor ends with an underscore. -/
def IsDunderName (name : List Char) : Prop :=
  ∃ x : List Char, x ≠ [] ∧ x.head? ≠ some '_' ∧ x.getLast? ≠ some '_' ∧ name = ['_', '_'] ++ x ++ ['_', '_']

/-- C24: exactly the names `__x__` are exempt from the protocol. -/
theorem C24_dunder (name : List Char) : isDunder name = true ↔ IsDunderName name := by
  constructor
  · intro h
    simp only [isDunder, Bool.and_eq_true, decide_eq_true_eq, beq_iff_eq, bne_iff_ne, ne_eq] at h
    obtain ⟨⟨hl, h1, h2⟩, h3, h4⟩ := h
    refine ⟨(name.drop 2).take (name.length - 4), ?_, ?_, ?_, ?_⟩
    · intro hc
      have := congrArg List.length hc
      simp at this; omega
    · rw [List.head?_eq_getElem?, List.getElem?_take]
      simp [show name.length - 4 ≠ 0 by omega, h3]
    · rw [List.getLast?_eq_getElem?, List.getElem?_take]
      simp only [List.length_take, List.length_drop]
      rw [if_pos (by omega), List.getElem?_drop]
      rw [show 2 + (min (name.length - 4) (name.length - 2) - 1) = name.length - 3 by omega]
      exact h4
    · conv => lhs; rw [← List.take_append_drop 2 name, h1]
      conv => lhs; rw [← List.take_append_drop (name.length - 4) (name.drop 2)]
      rw [List.drop_drop, show 2 + (name.length - 4) = name.length - 2 by omega, h2]
      simp
  · rintro ⟨x, hx, hh, hl, rfl⟩
    cases x with
    | nil => exact absurd rfl hx
    | cons c cs =>
      simp only [isDunder, Bool.and_eq_true, decide_eq_true_eq, beq_iff_eq, bne_iff_ne, ne_eq]
      refine ⟨⟨by simp, by simp, ?_⟩, by simpa using hh, ?_⟩
      · rw [show (['_', '_'] ++ c :: cs ++ ['_', '_']).length - 2 = (['_', '_'] ++ c :: cs).length by simp]
        simp
      · rw [List.getLast?_eq_getElem?] at hl
        rw [show (['_', '_'] ++ c :: cs ++ ['_', '_']).length - 3 = 2 + ((c :: cs).length - 1) by simp; omega]
        rw [List.append_assoc, List.getElem?_append_right (by simp)]
        simp only [List.length_cons, List.length_nil]
        rw [List.getElem?_append_left (by simp)]
        simpa using hl

/-- C24: reading an attribute.  A register peeks as its content, everything else (and every dunder name) is returned as it is; a
missing attribute raises.  Reading has no effect on the state: `get` returns no new state. -/
theorem C24_read (o : PObj α) (a : List Char) :
    (o.raw a = none → o.get a = .error .attributeError) ∧
    (∀ h, IsDunderName a → o.raw a = some h → o.get a = .ok h) ∧
    (∀ v, o.raw a = some (.plain v) → o.get a = .ok (.plain v)) ∧
    (∀ r, ¬ IsDunderName a → o.raw a = some (.reg r) → o.get a = .ok (.plain (o.regs r))) := by
  refine ⟨fun h => by simp [PObj.get, h], fun h hd hr => ?_, fun v hr => ?_, fun r hd hr => ?_⟩
  · have := (C24_dunder a).2 hd
    simp [PObj.get, hr, this]
  · simp [PObj.get, hr]
  · have : isDunder a = false := by
      rw [Bool.eq_false_iff]; exact fun h => hd ((C24_dunder a).1 h)
    simp [PObj.get, hr, this]

/-- C24: assigning to a register attribute stores a value of the register's type in exactly that register: no attribute is
rebound, no other register changes, and every attribute reads as before unless it holds the same register.  A value of another type
raises TypeError and changes nothing. -/
theorem C24_poke (isT : Nat → α → Bool) (o : PObj α) (a : List Char) (r : Nat) (hd : ¬ IsDunderName a)
    (hr : o.raw a = some (.reg r)) (v : α) :
    (isT r v = true →
      (o.set isT a (.plain v)).1 = .ok () ∧
      (∀ b, (o.set isT a (.plain v)).2.raw b = o.raw b) ∧
      (o.set isT a (.plain v)).2.regs r = v ∧
      (∀ r', r' ≠ r → (o.set isT a (.plain v)).2.regs r' = o.regs r') ∧
      (o.set isT a (.plain v)).2.get a = .ok (.plain v) ∧
      (∀ b, o.raw b ≠ some (.reg r) → (o.set isT a (.plain v)).2.get b = o.get b)) ∧
    (isT r v = false → o.set isT a (.plain v) = (.error .typeError, o)) ∧
    (∀ r', o.set isT a (.reg r') = (.error .typeError, o)) := by
  have hd' : isDunder a = false := by
    rw [Bool.eq_false_iff]; exact fun h => hd ((C24_dunder a).1 h)
  refine ⟨fun ht => ?_, fun ht => ?_, fun r' => ?_⟩
  · have hs : o.set isT a (.plain v) = (.ok (), { o with regs := fun r' => if r' = r then v else o.regs r' }) := by
      simp [PObj.set, hd', hr, PObj.poke, ht]
    rw [hs]
    have hraw : ∀ b, ({ o with regs := fun r' => if r' = r then v else o.regs r' } : PObj α).raw b = o.raw b := fun _ => rfl
    refine ⟨rfl, hraw, by simp, fun r' h => by simp [h], ?_, fun b hb => ?_⟩
    · simp [PObj.get, hraw, hr, hd']
    · simp only [PObj.get, hraw]
      cases hb' : o.raw b with
      | none => rfl
      | some h =>
        cases h with
        | plain v => rfl
        | reg r' =>
          have : r' ≠ r := by intro hc; subst hc; exact hb hb'
          simp [this]
  · simp [PObj.set, hd', hr, PObj.poke, ht]
  · simp [PObj.set, hd', hr, PObj.poke]

/-- C24: assigning to any other attribute (or a dunder name) is ordinary attribute assignment: it binds exactly that attribute to
exactly that object and touches no register. -/
theorem C24_assign (isT : Nat → α → Bool) (o : PObj α) (a : List Char) (h : Held α)
    (ha : IsDunderName a ∨ ∀ r, o.raw a ≠ some (.reg r)) :
    (o.set isT a h).1 = .ok () ∧
    (o.set isT a h).2.raw a = some h ∧
    (∀ b, b ≠ a → (o.set isT a h).2.raw b = o.raw b ∧ (o.set isT a h).2.get b = o.get b) ∧
    (o.set isT a h).2.regs = o.regs := by
  have hs : o.set isT a h = (.ok (), o.rawSet a h) := by
    unfold PObj.set
    split
    · rfl
    · next hd =>
      rcases ha with ha | ha
      · exact absurd ((C24_dunder a).2 ha) hd
      · split
        · rfl
        · next r hr => exact absurd hr (ha r)
        · rfl
  rw [hs]
  refine ⟨rfl, by simp [Attr.raw_rawSet], fun b hb => ?_, rfl⟩
  have : (o.rawSet a h).raw b = o.raw b := by simp [Attr.raw_rawSet, hb]
  exact ⟨this, by simp only [PObj.get, this]; rfl⟩

/-- The assignments of a history that count for register `r`: well-typed values assigned to a non-dunder attribute that holds `r` at
that moment. -/
def pokes (isT : Nat → α → Bool) (r : Nat) : PObj α → List (AttrOp α) → List α
  | _, [] => []
  | o, .get _ :: ops => pokes isT r o ops
  | o, .set a h :: ops =>
    (match o.raw a, h with
      | some (.reg r'), .plain v => if r' = r ∧ isDunder a = false ∧ isT r v = true then [v] else []
      | _, _ => []) ++ pokes isT r (o.set isT a h).2 ops

/-- C24 over histories: a register attribute stays bound to its register whatever is assigned to whichever attribute, and reading it
after any sequence of accesses gives the last value poked into that register, the initial one if there is none. -/
theorem C24_history (isT : Nat → α → Bool) (ops : List (AttrOp α)) (o : PObj α) (a : List Char) (r : Nat)
    (hd : ¬ IsDunderName a) (hr : o.raw a = some (.reg r)) :
    (o.exec isT ops).raw a = some (.reg r) ∧
    (o.exec isT ops).get a = .ok (.plain (((pokes isT r o ops).getLast?).getD (o.regs r))) := by
  have hd' : isDunder a = false := by
    rw [Bool.eq_false_iff]; exact fun h => hd ((C24_dunder a).1 h)
  induction ops generalizing o with
  | nil => exact ⟨hr, by simp [PObj.exec, PObj.get, hr, hd', pokes]⟩
  | cons op ops ih =>
    cases op with
    | get b => exact ih o hr
    | set b h =>
      have step : (o.set isT b h).2.raw a = some (.reg r) := by
        by_cases hb : IsDunderName b ∨ ∀ r, o.raw b ≠ some (.reg r)
        · have hba : a ≠ b := by
            rintro rfl
            rcases hb with hb | hb
            · exact hd hb
            · exact hb r hr
          rw [((C24_assign isT o b h hb).2.2.1 a hba).1, hr]
        · rw [not_or, Classical.not_forall] at hb
          obtain ⟨hb1, r', hb2⟩ := hb
          rw [Classical.not_not] at hb2
          cases h with
          | reg r'' => rw [(C24_poke isT o b r' hb1 hb2 (o.regs 0)).2.2 r'']; exact hr
          | plain v =>
            cases ht : isT r' v with
            | true => rw [((C24_poke isT o b r' hb1 hb2 v).1 ht).2.1 a, hr]
            | false => rw [(C24_poke isT o b r' hb1 hb2 v).2.1 ht]; exact hr
      obtain ⟨i1, i2⟩ := ih (o.set isT b h).2 step
      refine ⟨i1, ?_⟩
      show (PObj.exec isT (o.set isT b h).2 ops).get a = _
      rw [i2]
      simp only [pokes]
      congr 2
      have hregs : (o.set isT b h).2.regs r = ((match o.raw b, h with
          | some (.reg r'), .plain v => if r' = r ∧ isDunder b = false ∧ isT r v = true then [v] else []
          | _, _ => []).getLast?).getD (o.regs r) := by
        unfold PObj.set PObj.rawSet PObj.poke
        cases hdb : isDunder b <;> cases hb : o.raw b with
        | none => simp
        | some g =>
          cases g with
          | plain w => simp
          | reg r' =>
            cases h with
            | reg r'' => simp
            | plain v =>
              by_cases hrr : r' = r
              · subst hrr
                cases ht : isT r' v <;> simp [ht]
              · cases ht : isT r' v <;> simp [hrr, ht, Ne.symm hrr]
      rw [hregs]
      cases (pokes isT r (o.set isT b h).2 ops) with
      | nil => simp
      | cons x xs => simp [List.getLast?_append, List.getLast?_cons]

/-- What the class holds under a name is read when the instance has nothing there, and only then: a value as it is, a register by its content. Assigning to a name for which the class holds a register writes to
that register and gives the instance nothing of its own; assigning to one for which it holds a value leaves the class as it is. -/
theorem C24_class (isT : Nat → α → Bool) (o : PObj α) (a : List Char) :
    (o.dict.lookup a = none → o.cls.lookup a = none → o.get a = .error .attributeError) ∧
    (∀ v, o.dict.lookup a = some (.plain v) → o.get a = .ok (.plain v)) ∧
    (∀ v, o.dict.lookup a = none → o.cls.lookup a = some (.plain v) → o.get a = .ok (.plain v) ∧
      ∀ h, (o.set isT a h).1 = .ok () ∧ (o.set isT a h).2.dict.lookup a = some h ∧ (o.set isT a h).2.cls = o.cls) ∧
    (∀ r, ¬ IsDunderName a → o.dict.lookup a = none → o.cls.lookup a = some (.reg r) → o.get a = .ok (.plain (o.regs r)) ∧
      ∀ v, isT r v = true → (o.set isT a (.plain v)).1 = .ok () ∧ (o.set isT a (.plain v)).2.dict = o.dict ∧ (o.set isT a (.plain v)).2.regs r = v) := by
  refine ⟨fun h1 h2 => ?_, fun v h1 => ?_, fun v h1 h2 => ⟨?_, fun h => ?_⟩, fun r hd h1 h2 => ⟨?_, fun v hv => ?_⟩⟩
  · exact (C24_read o a).1 (by simp [PObj.raw, h1, h2])
  · exact (C24_read o a).2.2.1 v (by simp [PObj.raw, h1])
  · exact (C24_read o a).2.2.1 v (by simp [PObj.raw, h1, h2])
  · have hs : o.set isT a h = (.ok (), o.rawSet a h) := by simp [PObj.set, PObj.raw, h1, h2]
    rw [hs]
    exact ⟨rfl, by simp [PObj.rawSet, List.lookup], rfl⟩
  · exact (C24_read o a).2.2.2 r hd (by simp [PObj.raw, h1, h2])
  · have hd' : isDunder a = false := by
      rw [Bool.eq_false_iff]; exact fun h => hd ((C24_dunder a).1 h)
    simp [PObj.set, PObj.raw, h1, h2, hd', PObj.poke, hv]

example : isDunder "__call__".toList = true ∧ isDunder "____".toList = false ∧ isDunder "__a".toList = false ∧
    isDunder "___a__".toList = false := by decide

/-- A class with a register and a value, and an instance with nothing of its own. -/
example : let o : PObj Nat := { dict := [], cls := [("a".toList, .reg 0), ("c".toList, .plain 1)], regs := fun _ => 3 }
    let o' := o.exec (fun _ v => decide (v < 8)) [.set "a".toList (.plain 5), .set "c".toList (.plain 9)]
    (o'.get "a".toList, o'.get "c".toList, o'.dict, o'.cls) = (.ok (.plain 5), .ok (.plain 9), [("c".toList, .plain 9)], o.cls) := by rfl

/-- Two attributes sharing register 0, one ordinary attribute; register 0 holds numbers below 8. -/
example : let o : PObj Nat := { dict := [("a".toList, .reg 0), ("b".toList, .reg 0), ("c".toList, .plain 1)], cls := [],
                                regs := fun _ => 3 }
    let o' := o.exec (fun _ v => decide (v < 8)) [.set "a".toList (.plain 5), .set "c".toList (.plain 9), .set "a".toList (.plain 9),
      .set "b".toList (.plain 6)]
    (o'.get "a".toList, o'.get "b".toList, o'.get "c".toList) = (.ok (.plain 6), .ok (.plain 6), .ok (.plain 9)) := by rfl

end Peak
