import Verif.Model.Register
/-!
# C22, C23: registers and memories
-/

namespace Peak
variable {α : Type}

/-- Specification: the value stored by the last enabled call of a history (a call with `None` stores nothing), or the initial one. -/
def lastEnabled (init : α) (calls : List (Option α × Bool)) : α :=
  ((calls.filterMap (fun c => if c.2 then c.1 else none)).getLast?).getD init

theorem lastEnabled_cons (init : α) (c : Option α × Bool) (cs : List (Option α × Bool)) :
    lastEnabled init (c :: cs) = lastEnabled (if c.2 then c.1.getD init else init) cs := by
  obtain ⟨v, en⟩ := c
  unfold lastEnabled
  cases en <;> cases v <;> simp [List.getLast?_cons]

theorem regCall_snd (s : α) (v : Option α) (en : Bool) :
    (regCall s v en).2 = if en then v.getD s else s := by
  cases v <;> cases en <;> rfl

/-- C22: in every sequence of calls, call `i` returns the value stored by the last enabled call before it, the initial value when there
is none; a call without a value raises AssertionError; the final content is that of the last enabled call. -/
theorem C22_register (calls : List (Option α × Bool)) (init : α) :
    (∀ (i : Nat) (v : Option α) (en : Bool), calls[i]? = some (v, en) →
      (regRun calls init).1[i]? = some (match v with
        | some _ => .ok (lastEnabled init (calls.take i))
        | none => .error .assertionError)) ∧
    (regRun calls init).1.length = calls.length ∧
    (regRun calls init).2 = lastEnabled init calls ∧
    regPrev (regRun calls init).2 = lastEnabled init calls := by
  unfold regPrev
  induction calls generalizing init with
  | nil => simp [regRun, lastEnabled]
  | cons c cs ih =>
    obtain ⟨v, en⟩ := c
    obtain ⟨h1, h2, h3, _⟩ := ih (regCall init v en).2
    rw [regCall_snd] at h1 h2 h3
    refine ⟨?_, by simp [regRun, regCall_snd, h2], ?_, ?_⟩
    · intro i w e hi
      cases i with
      | zero =>
        simp only [List.getElem?_cons_zero, Option.some.injEq, Prod.mk.injEq] at hi
        obtain ⟨rfl, rfl⟩ := hi
        cases v <;> simp [regRun, regCall, lastEnabled]
      | succ i =>
        have := h1 i w e (by simpa using hi)
        simp only [regRun, List.getElem?_cons_succ, List.take_succ_cons, lastEnabled_cons, regCall_snd, this]
    · simp only [regRun, lastEnabled_cons, regCall_snd, h3]
    · simp only [regRun, lastEnabled_cons, regCall_snd, h3]

/-- C22: a register without enable returns the previous argument, the initial value at first. -/
theorem C22_register_no_enable (calls : List α) (init : α) :
    (regRunNoEn calls init).1 = (init :: calls).take calls.length ∧
    (regRunNoEn calls init).2 = (init :: calls).getLast (by simp) := by
  induction calls generalizing init with
  | nil => exact ⟨rfl, rfl⟩
  | cons v cs ih =>
    obtain ⟨h1, h2⟩ := ih v
    refine ⟨?_, ?_⟩
    · simp only [regRunNoEn, regCallNoEn, h1, List.length_cons, List.take_succ_cons]
    · simp only [regRunNoEn, regCallNoEn, h2]
      exact (List.getLast_cons (l := v :: cs) (by simp)).symm

example : (regRun [(some 5, true), (some 7, false), (none, true), (some 8, true), (some 9, false)] 3).1 =
    [.ok 3, .ok 5, .error .assertionError, .ok 5, .ok 8] := by rfl

/-! ## C23 -/

/-- Specification: the data of the last write-enabled access to cell `i` of a memory with `n` cells, or its initial content. -/
def lastWrite (n : Nat) (i : Nat) (init : α) (ops : List (Int × Option α × Bool)) : α :=
  ((ops.filterMap (fun o => if pyIndex n o.1 = some i ∧ o.2.2 = true then o.2.1 else none)).getLast?).getD init

theorem lastWrite_cons (n i : Nat) (init : α) (o : Int × Option α × Bool) (ops : List (Int × Option α × Bool)) :
    lastWrite n i init (o :: ops) =
      lastWrite n i (if pyIndex n o.1 = some i ∧ o.2.2 = true then o.2.1.getD init else init) ops := by
  obtain ⟨a, d, w⟩ := o
  unfold lastWrite
  simp only [List.filterMap_cons]
  split
  · next h =>
    split at h
    · next hc => simp [hc, h]
    · next hc => simp [hc]
  · next x h =>
    split at h
    · next hc => simp [hc, h, List.getLast?_cons]
    · simp at h

theorem pyIndex_lt {n : Nat} {a : Int} {i : Nat} (h : pyIndex n a = some i) : i < n := by
  unfold pyIndex at h
  split at h
  · split at h <;> simp at h; omega
  · split at h <;> simp at h
    omega

theorem ramCall_length (m : List α) (a : Int) (d : Option α) (w : Bool) : (ramCall m a d w).2.length = m.length := by
  unfold ramCall
  split
  · rfl
  · split
    · rfl
    · simp

theorem ramCall_get (m : List α) (a : Int) (d : Option α) (w : Bool) (i : Nat) (x : α) (hx : m[i]? = some x) :
    (ramCall m a d w).2[i]? = some (if pyIndex m.length a = some i ∧ w = true then d.getD x else x) := by
  unfold ramCall
  cases hp : pyIndex m.length a with
  | none => simp [hx]
  | some j =>
    have hj := pyIndex_lt hp
    simp only [List.getElem?_eq_getElem hj, regCall_snd]
    by_cases hij : j = i
    · subst hij
      rw [List.getElem?_eq_getElem hj] at hx
      simp only [Option.some.injEq] at hx
      subst hx
      simp [List.getElem?_set, hj]
    · simp [List.getElem?_set, hij, hx]

/-- C23: in every sequence of accesses to a RAM, access `j` to a valid address returns the data of the last write-enabled access to
that cell, or its initial content; an access out of range raises IndexError, one without data AssertionError, and both change nothing.
The final contents are again those of the last writes. -/
theorem C23_ram (ops : List (Int × Option α × Bool)) (m : List α) :
    (∀ (j : Nat) (a : Int) (d : Option α) (w : Bool), ops[j]? = some (a, d, w) →
      (ramRun ops m).1[j]? = some (match pyIndex m.length a with
        | none => .error .indexError
        | some i => match d with
          | none => .error .assertionError
          | some _ => match m[i]? with
            | some x => .ok (lastWrite m.length i x (ops.take j))
            | none => .error .indexError)) ∧
    (ramRun ops m).2.length = m.length ∧
    (∀ (i : Nat) (x : α), m[i]? = some x → (ramRun ops m).2[i]? = some (lastWrite m.length i x ops)) := by
  induction ops generalizing m with
  | nil => simp [ramRun, lastWrite]
  | cons o ops ih =>
    obtain ⟨a, d, w⟩ := o
    obtain ⟨h1, h2, h3⟩ := ih (ramCall m a d w).2
    rw [ramCall_length] at h1 h2 h3
    refine ⟨?_, by simp [ramRun, h2], ?_⟩
    · intro j a' d' w' hj
      cases j with
      | zero =>
        simp only [List.getElem?_cons_zero, Option.some.injEq, Prod.mk.injEq] at hj
        obtain ⟨rfl, rfl, rfl⟩ := hj
        simp only [ramRun, List.getElem?_cons_zero, List.take_zero, ramCall]
        cases hp : pyIndex m.length a with
        | none => rfl
        | some i =>
          have hi := pyIndex_lt hp
          simp only [List.getElem?_eq_getElem hi]
          cases d <;> simp [regCall, lastWrite]
      | succ j =>
        have := h1 j a' d' w' (by simpa using hj)
        simp only [ramRun, List.getElem?_cons_succ, this, List.take_succ_cons]
        cases hp : pyIndex m.length a' with
        | none => rfl
        | some i =>
          have hi := pyIndex_lt hp
          cases d' with
          | none => rfl
          | some _ =>
            simp only [ramCall_get m a d w i _ (List.getElem?_eq_getElem hi), List.getElem?_eq_getElem hi, lastWrite_cons]
    · intro i x hx
      simp only [ramRun, h3 i _ (ramCall_get m a d w i x hx), lastWrite_cons]

/-- C23: an access that raises leaves the memory as it was. -/
theorem C23_failed_access (m : List α) (a : Int) (d : Option α) (w : Bool) (e : Err) (h : (ramCall m a d w).1 = .error e) :
    (ramCall m a d w).2 = m := by
  unfold ramCall at h ⊢
  split
  · rfl
  · next i hi =>
    have hlt := pyIndex_lt hi
    simp only [hi, List.getElem?_eq_getElem hlt] at h ⊢
    cases d with
    | none => simp [regCall]
    | some v => simp [regCall] at h

/-- C23: a ROM always returns its initial content and never changes. -/
theorem C23_rom (zero : α) (addrs : List Int) (m : List α) :
    romRun zero addrs m = (addrs.map (fun a => match pyIndex m.length a with
      | none => .error .indexError
      | some i => match m[i]? with
        | some x => .ok x
        | none => .error .indexError), m) := by
  induction addrs with
  | nil => rfl
  | cons a as ih =>
    have h : romCall zero m a = ((match pyIndex m.length a with
      | none => .error .indexError
      | some i => match m[i]? with
        | some x => .ok x
        | none => .error .indexError), m) := by
      unfold romCall
      cases hp : pyIndex m.length a with
      | none => rfl
      | some i =>
        have hi := pyIndex_lt hp
        simp [List.getElem?_eq_getElem hi, regCall]
    simp only [romRun, h, ih, List.map_cons]

/-- C23: the initial content of cell `i` is the given data, the default beyond its end; the number of cells is the given depth. -/
theorem C23_initial (n : Nat) (mem : List α) (init : α) :
    (memInit n mem init).length = n ∧
    ∀ i, i < n → (memInit n mem init)[i]? = some (if h : i < mem.length then mem[i] else init) := by
  refine ⟨by simp [memInit], fun i hi => ?_⟩
  simp only [memInit, List.getElem?_map, List.getElem?_range hi, Option.map_some]
  split
  · next h => simp [List.getElem?_eq_getElem h]
  · next h => simp [List.getElem?_eq_none (by omega : mem.length ≤ i)]

/-- C23: the valid addresses are `0 .. n-1`, and, counted from the end, `-1 .. -n`: a negative (signed) address is not rejected. -/
theorem C23_addresses (n : Nat) (a : Int) :
    (∀ i, pyIndex n a = some i ↔ (a = i ∧ i < n) ∨ (a < 0 ∧ a + n = i)) := by
  intro i
  unfold pyIndex
  split
  · split <;> simp <;> omega
  · split <;> simp <;> omega

example : ramRun [(1, some 5, true), (1, some 6, false), (9, some 7, true), (-1, some 8, true), (2, some 0, false)]
    (memInit 3 [10, 11] 0) = ([.ok 11, .ok 5, .error .indexError, .ok 0, .ok 8], [10, 5, 8]) := by rfl

end Peak
