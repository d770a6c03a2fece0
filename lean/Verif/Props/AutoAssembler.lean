import Verif.Lemmas.AutoAssembler
/-!
# C20: the legacy auto-assembler round trips
-/

namespace Peak
open Peak.Spec

mutual
/-- No option of a `Sum` is a bare `Bit`. -/
def NoBitOption : Ty → Prop
  | .prod _ fs => NoBitOptions fs
  | .sum _ fs => (∀ k c, (k, Ty.bit c) ∉ fs.toList) ∧ NoBitOptions fs
  | _ => True
def NoBitOptions : Fields → Prop
  | .nil => True
  | .cons _ t fs => NoBitOption t ∧ NoBitOptions fs
end

mutual
theorem generate_good : ∀ (t : Ty), WF t → NoBitOption t → ∃ o, generateAssembler t = .ok o ∧ Auto.AGood t o
  | .bv c w, _, _ => by
    refine ⟨_, by simp only [generateAssembler]; rfl, by simp only [autoWidth], ?_⟩
    intro v hv
    cases v <;> simp only [Ty.Has] at hv
    next b =>
      subst hv
      exact ⟨b.val, b.isLt, ⟨.bv b, rfl, rfl, fun _ => by simp⟩, by simp [Enc.toNat]⟩
  | .bit c, _, _ => by
    refine ⟨_, by simp only [generateAssembler]; rfl, by simp only [autoWidth], ?_⟩
    intro v hv
    cases v <;> simp only [Ty.Has] at hv
    next b =>
      refine ⟨b.toNat, by cases b <;> decide, ⟨.bit b, rfl, rfl, fun h => absurd trivial h⟩, ?_⟩
      cases b <;> rfl
  | .enum c ms, hw, _ => by
    simp only [generateAssembler]
    exact Auto.autoEnum_good c hw
  | .prod c fs, hw, hb => by
    obtain ⟨l, hl, hg⟩ := generateAll_good fs hw.2 hb
    exact Auto.autoProduct_good c hg hl
  | .sum c fs, hw, hb => by
    obtain ⟨l, hl, hg⟩ := generateAll_good fs hw.2.2 hb.2
    refine Auto.autoSum_good c hw.1 hw.2.1 ?_ hg hl
    intro k t ht hbit
    cases t with
    | bit c => exact hb.1 k c ht
    | _ => exact hbit
theorem generateAll_good : ∀ (fs : Fields), WFs fs → NoBitOptions fs → ∃ l, generateAll fs = .ok l ∧ Auto.AGoodAll fs l
  | .nil, _, _ => ⟨[], rfl, trivial⟩
  | .cons k t fs, hw, hb => by
    obtain ⟨o, ho, hg⟩ := generate_good t hw.1 hb.1
    obtain ⟨l, hl, hgs⟩ := generateAll_good fs hw.2 hb.2
    exact ⟨(k, o) :: l, by simp only [generateAll, ho, hl], rfl, hg, hgs⟩
end

/-- C20 (partial: enums with negative explicit values and bare `Bit` options of unions are excluded, see `C20_violated`): for
every type the functions are generated, every value of the type is encoded, in the advertised number of bits, and decoding the
code returns it. -/
theorem C20_round_trip_partial (t : Ty) (hw : WF t) (hb : NoBitOption t) :
    ∃ o, generateAssembler t = .ok o ∧ ∀ v, t.Has v → ∃ e, o.asm v = .ok e ∧ o.dsm e = .ok v ∧
      (match e with | .bv b => b.size | .bit _ => 1) = o.width := by
  obtain ⟨o, ho, hg⟩ := generate_good t hw hb
  refine ⟨o, ho, fun v hv => ?_⟩
  by_cases hbit : Auto.IsBit t
  · cases t with
    | bit c =>
      simp only [generateAssembler, Except.ok.injEq] at ho
      subst ho
      cases v <;> simp only [Ty.Has] at hv
      next b => exact ⟨.bit b, rfl, by cases b <;> rfl, rfl⟩
    | _ => exact hbit.elim
  · obtain ⟨n, hn, ⟨e, h1, h2, h3⟩, h4⟩ := hg.rt v hv
    have he := h3 hbit
    subst he
    exact ⟨_, h1, h4, rfl⟩

/-- C20: consequently two different values never get the same code. -/
theorem C20_injective_partial (t : Ty) (hw : WF t) (hb : NoBitOption t) (o : AutoObj) (ho : generateAssembler t = .ok o)
    (v v' : Val) (hv : t.Has v) (hv' : t.Has v') (h : o.asm v = o.asm v') : v = v' := by
  obtain ⟨o', ho', hr⟩ := C20_round_trip_partial t hw hb
  rw [ho] at ho'
  simp only [Except.ok.injEq] at ho'
  subst ho'
  obtain ⟨e, h1, h2, _⟩ := hr v hv
  obtain ⟨e', h1', h2', _⟩ := hr v' hv'
  rw [h1, h1'] at h
  simp only [Except.ok.injEq] at h
  subst h
  rw [h2] at h2'
  simpa using h2'

/-- A nested instruction type: a product of an enum with automatic members, a bit and a union of a vector and a product. -/
def autoDemo : Ty :=
  .prod 0 (.cons 0 (.enum 1 [.auto 0, .lit 1, .auto 1]) (.cons 1 (.bit 2)
    (.cons 2 (.sum 3 (.cons 0 (.bv 4 8) (.cons 1 (.prod 5 (.cons 0 (.bv 6 2) (.cons 1 (.bit 2) .nil))) .nil))) .nil)))

example : WF autoDemo ∧ NoBitOption autoDemo ∧
    autoDemo.Has (.prod [.enum (.auto 1), .bit true, .sum 1 (.prod [.bits (BV.ofNat 2 3), .bit false])]) := by
  refine ⟨?_, ?_, ?_⟩
  · simp [autoDemo, WF, WFs, Fields.toList, autos]
  · simp [autoDemo, NoBitOption, NoBitOptions, Fields.toList]
  · simp [autoDemo, Ty.Has, Fields.HasAll, Fields.HasAt]

/-- A union with a bare `Bit` option: the functions are generated, but encoding a value of that option raises AttributeError. -/
theorem C20_bit_option_fails : ∃ t o v, generateAssembler t = .ok o ∧ t.Has v ∧ o.asm v = .error .attributeError := by
  have key : (match generateAssembler (.sum 0 (.cons 0 (.bit 1) (.cons 1 (.bv 2 4) .nil))) with
    | .ok o => (match o.asm (.sum 0 (.bit true)) with
      | .error e => e == .attributeError
      | .ok _ => false)
    | .error _ => false) = true := by decide +kernel
  split at key
  · next o ho =>
    split at key
    · next e he =>
      exact ⟨_, o, .sum 0 (.bit true), ho, by simp [Ty.Has, Fields.HasAt], by rw [he, beq_iff_eq.1 key]⟩
    · simp at key
  · simp at key

/-- An enum with a negative explicit value: two members share an opcode, so one of them is decoded as the other. -/
theorem C20_negative_enum_fails : ∃ t o v v' e, generateAssembler t = .ok o ∧ t.Has v ∧ t.Has v' ∧ v ≠ v' ∧
    o.asm v = .ok e ∧ o.asm v' = .ok e ∧ o.dsm e = .ok v' := by
  have key : (match generateAssembler (.enum 0 [.lit (-1), .lit 1]) with
    | .ok o => (match o.asm (.enum (.lit (-1))), o.asm (.enum (.lit 1)), o.dsm (.bv (BV.ofNat 1 1)) with
      | .ok (.bv b), .ok (.bv b'), .ok (.enum e) => b == BV.ofNat 1 1 && b' == BV.ofNat 1 1 && e == .lit 1
      | _, _, _ => false)
    | .error _ => false) = true := by decide +kernel
  split at key
  · next o ho =>
    split at key
    · next b b' e h1 h2 h3 =>
      simp only [Bool.and_eq_true, beq_iff_eq] at key
      obtain ⟨⟨rfl, rfl⟩, rfl⟩ := key
      exact ⟨_, o, _, _, _, ho, by simp [Ty.Has], by simp [Ty.Has], by simp, h1, h2, h3⟩
    · simp at key
  · simp at key

/-- C20 does not hold of every type the functions are generated for. -/
theorem C20_violated : ¬ ∀ t o v, generateAssembler t = .ok o → t.Has v → ∃ e, o.asm v = .ok e ∧ o.dsm e = .ok v := by
  intro h
  obtain ⟨t, o, v, h1, h2, h3⟩ := C20_bit_option_fails
  obtain ⟨e, h4, _⟩ := h t o v h1 h2
  rw [h3] at h4
  simp at h4

end Peak
