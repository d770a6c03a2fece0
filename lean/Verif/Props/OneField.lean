import Verif.Props.AssembledADT
/-!
# C19: products with one field, called with the value of the field (peak/assembler/assembled_adt.py:152-163)
-/

namespace Peak
open Peak.Spec

/-- No value belongs both to a type and to the product with one field of this type. -/
theorem one_not : ∀ (t : Ty) (c : Nat) (k : Key) (v : Val), t.Has v → ¬ (Ty.prod c (.cons k t .nil)).Has v
  | t, c, k, .prod [w], h, h' => by
    simp only [Ty.Has, Fields.HasAll, and_true] at h'
    cases t with
    | prod c' fs =>
      match fs, h with
      | .nil, h => simp [Ty.Has, Fields.HasAll] at h
      | .cons k' t' .nil, h =>
        simp only [Ty.Has, Fields.HasAll, and_true] at h
        exact one_not t' c' k' w h h'
      | .cons _ _ (.cons _ _ _), h => simp [Ty.Has, Fields.HasAll] at h
    | _ => simp [Ty.Has] at h
  | _, _, _, .prod [], _, h' => by simp [Ty.Has, Fields.HasAll] at h'
  | _, _, _, .prod (_ :: _ :: _), _, h' => by simp [Ty.Has, Fields.HasAll] at h'
  | _, _, _, .bits _, _, h' => by simp [Ty.Has] at h'
  | _, _, _, .bit _, _, h' => by simp [Ty.Has] at h'
  | _, _, _, .enum _, _, h' => by simp [Ty.Has] at h'
  | _, _, _, .sum _ _, _, h' => by simp [Ty.Has] at h'

theorem ne_one (t : Ty) (c : Nat) (k : Key) : t ≠ .prod c (.cons k t .nil) := by
  intro h
  have := congrArg sizeOf h
  simp at this
  omega

/-- C19: a product or tuple with one field may be called with the value of its field, unassembled or assembled, in place of the whole value, and gives the same value; so does `from_fields`. -/
theorem C19_one_field (P : Process) (c : Nat) (k : Key) (t : Ty) (v : Val) (a : Arg) (hw : WF (.prod c (.cons k t .nil))) (hv : t.Has v)
    (ha : a = .raw v ∨ ∃ x, AV.new P.asm t (.raw v) = .ok x ∧ a = .asm x) :
    ∃ x, AV.new P.asm (.prod c (.cons k t .nil)) (.raw (.prod [v])) = .ok x ∧ AV.new P.asm (.prod c (.cons k t .nil)) a = .ok x ∧
      AV.fromFields P.asm (.prod c (.cons k t .nil)) [a] 0 = .ok x := by
  have hwt : WF t := hw.2.1
  have hvp : (Ty.prod c (.cons k t .nil)).Has (.prod [v]) := ⟨hv, trivial⟩
  have hfa : FieldArgs P (.cons k t .nil) [v] [a] := by
    rcases ha with rfl | ⟨x, hx, rfl⟩
    · exact .raw .nil
    · exact .asm hx .nil
  obtain ⟨x, h1, h2⟩ := C19_from_fields_product_partial P c (.cons k t .nil) [v] [a] 0 hw hvp hfa (by simp) (Or.inr rfl)
  refine ⟨x, h1, ?_, h2⟩
  obtain ⟨o, ho, hg⟩ := P.good hw
  have hn : ∃ f, AV.new P.asm t a = .ok f := by
    rcases ha with rfl | ⟨y, hy, rfl⟩
    · exact ⟨_, new_raw P hwt hv⟩
    · rw [new_raw P hwt hv, Except.ok.injEq] at hy
      subst hy
      exact ⟨_, new_asm P hwt _⟩
  obtain ⟨f, hf⟩ := hn
  have h2' : AV.fromParts o (.prod c (.cons k t .nil)) [f.asBv] 0 = .ok x := by
    simpa only [AV.fromFields, ho, AV.newFields, hf] using h2
  have hwd : o.width = width t := by rw [hg.width]; simp [width, sumWidths]
  by_cases hbv : ∃ c' w, t = .bv c' w
  · obtain ⟨c', w, rfl⟩ := hbv
    rw [new_raw P hw hvp, Except.ok.injEq] at h1
    have hb := bits_enc hv
    generalize he : encode (.bv c' w) v = e at hb
    have hx : x = .adt (.prod c (.cons k (.bv c' w) .nil)) (BV.ofNat w e) := by
      have he2 : encode (.prod c (.cons k (.bv c' w) .nil)) (.prod [v]) = e := by
        show encode (.bv c' w) v + 2 ^ width (.bv c' w) * 0 = e
        rw [he, Nat.mul_zero, Nat.add_zero]
      rw [← h1, he2]; simp [mkAV, width, sumWidths]
    have hin : AV.init o.width o.assemble (.prod c (.cons k (.bv c' w) .nil)) a = .ok x := by
      rcases ha with rfl | ⟨y, hy, rfl⟩
      · rw [hb, hx]; simp [AV.init, hwd, width]
      · rw [new_raw P hwt hv, Except.ok.injEq, he] at hy
        rw [← hy, hx]; simp [AV.init, mkAV, hwd, width]
    rw [AV.new, ho]
    simp only [hin]
  · have hi : AV.init o.width o.assemble (.prod c (.cons k t .nil)) a = .error .typeError := by
      rcases ha with rfl | ⟨y, hy, rfl⟩
      · have hni : (Ty.prod c (.cons k t .nil)).isinst v = false := by
          rw [← Bool.not_eq_true, isinst_iff]; exact one_not t c k v hv
        cases v with
        | bits b => cases t <;> simp only [Ty.Has] at hv; exact absurd ⟨_, _, rfl⟩ hbv
        | _ => simp only [AV.init, hni]; rfl
      · rw [new_raw P hwt hv, Except.ok.injEq] at hy
        have hne := ne_one t c k
        cases t with
        | bv c' w => exact absurd ⟨_, _, rfl⟩ hbv
        | bit _ => rw [← hy]; rfl
        | _ => rw [← hy]; simp only [AV.init, mkAV, if_neg hne]
    rw [AV.new, ho]
    simp only [hi, hf]
    exact h2'

/-- A tuple of one enum, given a member. -/
example : WF (.prod 3 (.cons 0 (.enum 4 [.lit 1, .lit 2]) .nil)) ∧ (Ty.enum 4 [.lit 1, .lit 2]).Has (.enum (.lit 2)) :=
  ⟨by simp [WF, WFs, Fields.toList, autos], by simp [Ty.Has]⟩

end Peak
