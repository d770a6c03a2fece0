import Verif.Spec.BoxPe
/-!
# C91: the PE with black boxes of `tests/test_black_box.py`
-/

namespace Peak.BxPe
open Peak

/-- A black box of the PE that has these outputs and inputs. -/
def boxOf (o i : Option Word) : BBox Word := ⟨["x"], 1, i.map ([·]), o.map ([·])⟩

theorem callBox_none (i : Option Word) (x : Word) : callBox (boxOf none i) x = (.error .valueError, boxOf none i) := by
  simp [callBox, boxOf, BBox.call]

theorem callBox_some (o : Word) (i : Option Word) (x : Word) : callBox (boxOf (some o) i) x = (.ok o, boxOf (some o) (some x)) := by
  simp [callBox, boxOf, BBox.call]

theorem set_box (o i : Option Word) (v : Word) : ((boxOf o i).setOutputs [v]).2 = boxOf (some v) i := by
  simp [boxOf, BBox.setOutputs]

/-- The black boxes hold what was last set and given. -/
theorem after_eq : ∀ h : List Op, after h = ⟨boxOf (lastOut .one h) (lastIn .one h), boxOf (lastOut .two h) (lastIn .two h), boxOf (lastOut .three h) (lastIn .three h)⟩
  | [] => rfl
  | .set b o :: h => by
    have ih := after_eq h
    cases b <;> simp [after, St.step, ih, set_box, lastOut, lastIn]
  | .inputs b :: h => by
    have ih := after_eq h
    simp [after, St.step, ih, lastOut, lastIn]
  | .call instr x :: h => by
    have ih := after_eq h
    cases h1 : lastOut .one h with
    | none => simp [after, St.step, ih, St.call, h1, callBox_none, lastOut, lastIn, upTo]
    | some o1 =>
      cases h2 : lastOut .two h with
      | none => simp [after, St.step, ih, St.call, h1, h2, callBox_none, callBox_some, lastOut, lastIn, upTo]
      | some o2 =>
        cases h3 : lastOut .three h with
        | none => simp [after, St.step, ih, St.call, h1, h2, h3, callBox_none, callBox_some, lastOut, lastIn, upTo]
        | some o3 => simp [after, St.step, ih, St.call, h1, h2, h3, callBox_some, lastOut, lastIn, upTo]

/-- C91: after any history, a call of the PE in the SMT family returns the value its instruction selects, computed from the outputs last set for the black boxes: the input plus 5, the output of the
first, that of the second, or the complement of that of the third. It raises a `ValueError` if and only if some black box has no outputs. -/
theorem C91_call (h : List Op) (instr : BitVec 2) (x : Word) :
    (∀ o1 o2 o3, lastOut .one h = some o1 → lastOut .two h = some o2 → lastOut .three h = some o3 →
      ((after h).call instr x).1 = .ok (match instr.toNat with | 0 => x + 5 | 1 => o1 | 2 => o2 | _ => ~~~ o3)) ∧
    ((∃ b, lastOut b h = none) → ((after h).call instr x).1 = .error .valueError) := by
  constructor
  · intro o1 o2 o3 h1 h2 h3
    simp only [St.call, after_eq, h1, h2, h3, callBox_some, select]
    have hc : ∀ i : BitVec 2, i = 0 ∨ i = 1 ∨ i = 2 ∨ i = 3 := by decide
    rcases hc instr with rfl | rfl | rfl | rfl <;> rfl
  · rintro ⟨b, hb⟩
    cases h1 : lastOut .one h with
    | none => simp only [St.call, after_eq, h1, callBox_none]
    | some o1 =>
      cases h2 : lastOut .two h with
      | none => simp only [St.call, after_eq, h1, h2, callBox_some, callBox_none]
      | some o2 =>
        cases h3 : lastOut .three h with
        | none => simp only [St.call, after_eq, h1, h2, h3, callBox_some, callBox_none]
        | some o3 => cases b <;> simp_all

/-- C91: after any history, a black box tells what it was last given: the input of the PE, inverted for the second black box, at the last call that reached it with outputs set for it and the ones
before it; before there was such a call it raises a `ValueError`. -/
theorem C91_inputs (h : List Op) (b : Box) :
    (∀ v, lastIn b h = some v → ((after h).box b).getInputs = .ok [v]) ∧ (lastIn b h = none → ((after h).box b).getInputs = .error .valueError) := by
  constructor
  · intro v hv
    cases b <;> simp [after_eq, St.box, BBox.getInputs, boxOf, hv]
  · intro hv
    cases b <;> simp [after_eq, St.box, BBox.getInputs, boxOf, hv]

/-- C91: right after a call that returned, the three black boxes tell the input, its complement and the input. -/
theorem C91_after_call (h : List Op) (instr : BitVec 2) (x r : Word) (hr : ((after h).call instr x).1 = .ok r) :
    ((after (.call instr x :: h)).box .one).getInputs = .ok [x] ∧ ((after (.call instr x :: h)).box .two).getInputs = .ok [~~~ x] ∧
      ((after (.call instr x :: h)).box .three).getInputs = .ok [x] := by
  have hall : ∀ b, lastOut b h ≠ none := by
    intro b hb
    rw [(C91_call h instr x).2 ⟨b, hb⟩] at hr
    cases hr
  refine ⟨(C91_inputs _ _).1 _ ?_, (C91_inputs _ _).1 _ ?_, (C91_inputs _ _).1 _ ?_⟩ <;> simp [lastIn, upTo, hall]

/-- C91: a call that raised changes no black box after the first one without outputs, nor that one; the ones before it keep the new input. -/
theorem C91_raised (h : List Op) (instr : BitVec 2) (x : Word) (b : Box) :
    (lastOut b h = none → (after (.call instr x :: h)).box b = (after h).box b) ∧ ((after (.call instr x :: h)).box b).outVals = ((after h).box b).outVals := by
  constructor
  · intro hb
    cases b <;> simp [after_eq, St.box, lastOut, lastIn, upTo, hb]
  · cases b <;> simp [after_eq, St.box, lastOut, boxOf]

/-- C91: in the Python family the black boxes return 0, so that the PE returns the input plus 5, 0, 0 or all ones. -/
theorem C91_py (instr : BitVec 2) (x : Word) : pyCall instr x = match instr.toNat with | 0 => x + 5 | 1 => 0 | 2 => 0 | _ => -1 := by
  have hc : ∀ i : BitVec 2, i = 0 ∨ i = 1 ∨ i = 2 ∨ i = 3 := by decide
  rcases hc instr with rfl | rfl | rfl | rfl
  · rfl
  · rfl
  · rfl
  · show ~~~ (0 : Word) = -1
    decide

/-- The history of the test, and one where the third black box has no outputs yet: the first two keep the new input. -/
example : let h : List Op := [.set .three 30, .set .two 20, .set .one 10]
    (((after h).call 3 13).1 = .ok (~~~ 30) ∧ ((after (.call 3 13 :: h)).box .two).getInputs = .ok [~~~ 13]) := ⟨rfl, rfl⟩

example : let h : List Op := [.set .two 20, .set .one 10]
    ((after h).call 0 13).1 = .error .valueError ∧ ((after (.call 0 13 :: h)).box .two).getInputs = .ok [~~~ 13] ∧ ((after (.call 0 13 :: h)).box .three).getInputs = .error .valueError := ⟨rfl, rfl, rfl⟩

end Peak.BxPe
