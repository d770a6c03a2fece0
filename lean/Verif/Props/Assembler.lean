import Verif.Lemmas.AsmEnv
import Verif.Lemmas.AsmUsed
/-!
# C01 – C06: assembling and disassembling

`assemblerAfter hist T` is what `Assembler(T)` returns in a process that has already constructed the assemblers of the types in
`hist`, in that order.  The specification (`width`, `Reads`, `encode`, ...) is in `Verif/Spec/Assembler.lean`.
-/

namespace Peak
open Peak.Spec

/-- `Assembler(T)` after a history of constructions. -/
def assemblerAfter (hist : List Ty) (t : Ty) : Except Err AsmObj := (t.build (runHistory hist)).1

theorem assemblerAfter_ok (hist : List Ty) (t : Ty) (hw : WF t) : ∃ o, assemblerAfter hist t = .ok o := by
  obtain ⟨o, st, h⟩ := build_ok hist t hw
  exact ⟨o, by rw [assemblerAfter, h]⟩

theorem build_of_after {hist : List Ty} {t : Ty} {o : AsmObj} (h : assemblerAfter hist t = .ok o) :
    t.build (runHistory hist) = (.ok o, (t.build (runHistory hist)).2) := Prod.ext h rfl

theorem Good.assemble {acc ex : Prop} {t : Ty} {o : AsmObj} (hg : Good acc ex t o) (hw : WF t) {v : Val} (hv : t.Has v) :
    o.assemble v = .ok (BV.ofNat (Spec.width t) (encode t v)) := by
  have h1 := (encode_spec t hw v hv).1
  unfold AsmObj.assemble
  rw [hg.asm_ok v hv, hg.width]
  have : bitLength (encode t v) ≤ Spec.width t := (bitLength_le_iff _ _).2 h1
  simp only [if_pos this]

theorem ofNat_val_of_lt {w n : Nat} (h : n < 2 ^ w) : (BV.ofNat w n).val = n := Nat.mod_eq_of_lt h

/-! ## a type and a history on which the hypotheses hold and the properties are interesting -/

/-- An instruction set: a tagged union of a product (an enum with explicit and `Auto()` members, and a 5-bit field), a bit, and
a one-bit vector listed under two names. -/
def demoIsa : Ty :=
  .sum 10 (.cons 0 (.prod 11 (.cons 0 (.enum 12 [.lit 2, .auto 0, .auto 1]) (.cons 1 (.bv 13 5) .nil)))
    (.cons 1 (.bit 14) (.cons 2 (.bv 15 1) (.cons 3 (.bv 15 1) .nil))))

/-- A variant with distinct option types. -/
def demoIsa2 : Ty :=
  .sum 20 (.cons 0 (.prod 11 (.cons 0 (.enum 12 [.lit 2, .auto 0, .auto 1]) (.cons 1 (.bv 13 5) .nil)))
    (.cons 1 (.bit 14) (.cons 2 (.bv 15 1) .nil)))

def demoVal : Val := .sum 0 (.prod [.enum (.auto 1), .bits (BV.ofNat 5 19)])

theorem demoIsa_wf : WF demoIsa := by simp [demoIsa, WF, WFs, Fields.toList, autos]
theorem demoIsa2_wf : WF demoIsa2 := by simp [demoIsa2, WF, WFs, Fields.toList, autos]
theorem demoVal_has : demoIsa.Has demoVal := by simp [demoIsa, demoVal, Ty.Has, Fields.HasAt, Fields.HasAll, BV.ofNat]
theorem demoVal_has2 : demoIsa2.Has demoVal := by simp [demoIsa2, demoVal, Ty.Has, Fields.HasAt, Fields.HasAll, BV.ofNat]

theorem demoIsa_tagSafe : TagSafe demoIsa := by
  simp only [demoIsa, TagSafe, TagSafes, true_and, and_true]
  intro ty h
  have h3 := h.1
  have h0 := h.2.1
  simp only [Fields.toList, tagsOf] at h3 h0
  grind

theorem demoIsa2_checkable : Checkable demoIsa2 := by
  simp only [demoIsa2, Checkable, Checkables, and_true]
  refine ⟨by decide, by decide +kernel, ⟨2, by decide +kernel, by decide⟩, ?_⟩
  intro h
  exact h.2.1 (by decide +kernel)

/-! ## C01: round trip -/

/-- C01, partial: disassembling an assembled value gives the value back, for every type without a "sparse one-hot" union and after any
history of such types.
Missing: unions listing one type under three or more names whose tags are 0 and powers of two with gaps; for these the
property is false (`C01_violated`). -/
theorem C01_round_trip_partial (hist : List Ty) (t : Ty) (v : Val) (hw : WF t) (hs : ∀ t' ∈ t :: hist, TagSafe t')
    (hv : t.Has v) :
    ∃ o b, assemblerAfter hist t = .ok o ∧ o.assemble v = .ok b ∧ o.disassemble b = .ok v := by
  obtain ⟨o, ho⟩ := assemblerAfter_ok hist t hw
  have hg := build_tagSafe hist t hw hs (build_of_after ho)
  obtain ⟨h1, h2⟩ := encode_spec t hw v hv
  refine ⟨o, _, ho, hg.assemble hw hv, hg.disassemble_complete trivial rfl ?_⟩
  rw [ofNat_val_of_lt h1]; exact h2

example : WF demoIsa ∧ (∀ t' ∈ [demoIsa, demoIsa, .bv 1 7], TagSafe t') ∧ demoIsa.Has demoVal :=
  ⟨demoIsa_wf, by simp [demoIsa_tagSafe, TagSafe], demoVal_has⟩

/-- In every process, after every history, whatever a round trip returns is the original value: the only failure is an
exception. -/
theorem C01_never_wrong (hist : List Ty) (t : Ty) (v v' : Val) (hw : WF t) (hv : t.Has v) (o : AsmObj) (b : BV)
    (ho : assemblerAfter hist t = .ok o) (ha : o.assemble v = .ok b) (hd : o.disassemble b = .ok v') : v' = v := by
  have hg := build_any hist t hw (build_of_after ho)
  obtain ⟨h1, h2⟩ := encode_spec t hw v hv
  rw [hg.assemble hw hv, Except.ok.injEq] at ha
  subst ha
  have := hg.disassemble_sound rfl hd
  rw [ofNat_val_of_lt h1] at this
  exact reads_unique t hw _ _ _ this h2

example : ∃ o b, assemblerAfter [demoIsa2] demoIsa = .ok o ∧ o.assemble demoVal = .ok b ∧ o.disassemble b = .ok demoVal := by
  obtain ⟨o, b, h⟩ := C01_round_trip_partial [demoIsa2] demoIsa demoVal demoIsa_wf (by
    intro t' ht
    simp only [List.mem_cons, List.not_mem_nil, or_false] at ht
    rcases ht with rfl | rfl
    · exact demoIsa_tagSafe
    · simp only [demoIsa2, TagSafe, TagSafes, true_and, and_true]
      intro ty h
      have h3 := h.1
      simp only [Fields.toList, tagsOf] at h3
      grind) demoVal_has
  exact ⟨o, b, h⟩

/-- Nine options, the 2-bit type listed at positions 0, 1 and 4. -/
def wideUnion : Ty :=
  .sum 1 (Fields.ofList [(0, .bv 0 2), (1, .bv 0 2), (2, .bit 0), (3, .bit 0), (4, .bv 0 2), (5, .bit 0), (6, .bit 0),
    (7, .bit 0), (8, .bit 0)])

/-- Five options, the 2-bit type listed at positions 0, 1 and 4. -/
def narrowUnion : Ty :=
  .sum 2 (Fields.ofList [(0, .bv 0 2), (1, .bv 0 2), (2, .bit 0), (3, .bit 0), (4, .bv 0 2)])

theorem narrow_rejected :
    (match assemblerAfter [wideUnion] narrowUnion with
      | .ok o => match o.assemble (.sum 0 (.bits (BV.ofNat 2 3))) with
        | .ok b => !o.isValid b && (match o.disassemble b with
          | .error .valueError => true
          | _ => false)
        | _ => false
      | _ => false) = true := by decide +kernel

theorem narrow_wf : WF narrowUnion ∧ narrowUnion.Has (.sum 0 (.bits (BV.ofNat 2 3))) := by
  refine ⟨?_, ?_⟩
  · simp [narrowUnion, Fields.ofList, WF, WFs, Fields.toList]
  · simp [narrowUnion, Fields.ofList, Ty.Has, Fields.HasAt, BV.ofNat]

/-- The code violates C01: after building the assembler of `wideUnion`, the assembler of `narrowUnion` refuses to disassemble
what it assembled. -/
theorem C01_violated :
    ¬ ∀ (hist : List Ty) (t : Ty) (v : Val), WF t → t.Has v →
      ∃ o b, assemblerAfter hist t = .ok o ∧ o.assemble v = .ok b ∧ o.disassemble b = .ok v := by
  intro h
  obtain ⟨o, b, h1, h2, h3⟩ := h [wideUnion] narrowUnion _ narrow_wf.1 narrow_wf.2
  have := narrow_rejected
  rw [h1] at this
  simp only [h2, h3, Bool.and_false, Bool.false_eq_true] at this

/-! ## C02: width -/

/-- C02: for every type, value and history, `assemble` succeeds, and the opcode has the advertised width and is the
number prescribed by the encoding. -/
theorem C02_opcode_fits (hist : List Ty) (t : Ty) (v : Val) (hw : WF t) (hv : t.Has v) :
    ∃ o b, assemblerAfter hist t = .ok o ∧ o.assemble v = .ok b ∧ o.width = width t ∧ b.size = o.width ∧
      b.val = encode t v ∧ encode t v < 2 ^ o.width := by
  obtain ⟨o, ho⟩ := assemblerAfter_ok hist t hw
  have hg := build_any hist t hw (build_of_after ho)
  have h1 := (encode_spec t hw v hv).1
  refine ⟨o, _, ho, hg.assemble hw hv, hg.width, hg.width.symm, ofNat_val_of_lt h1, ?_⟩
  rw [hg.width]; exact h1

example : WF demoIsa ∧ demoIsa.Has demoVal ∧ width demoIsa = 9 ∧ encode demoIsa demoVal = 308 :=
  ⟨demoIsa_wf, demoVal_has, by decide +kernel, by decide +kernel⟩

/-! ## C03: injectivity -/

/-- C03: two values of one type with the same opcode are equal, even if they were assembled by assemblers built in different processes. -/
theorem C03_assemble_injective (hist hist' : List Ty) (t : Ty) (v v' : Val) (hw : WF t) (hv : t.Has v) (hv' : t.Has v')
    (o o' : AsmObj) (b : BV) (ho : assemblerAfter hist t = .ok o) (ho' : assemblerAfter hist' t = .ok o')
    (ha : o.assemble v = .ok b) (ha' : o'.assemble v' = .ok b) : v = v' := by
  rw [(build_any hist t hw (build_of_after ho)).assemble hw hv, Except.ok.injEq] at ha
  rw [(build_any hist' t hw (build_of_after ho')).assemble hw hv', Except.ok.injEq] at ha'
  obtain ⟨h1, h2⟩ := encode_spec t hw v hv
  obtain ⟨h1', h2'⟩ := encode_spec t hw v' hv'
  have he : encode t v = encode t v' := by
    rw [← ofNat_val_of_lt h1, ← ofNat_val_of_lt h1', ha, ha']
  rw [he] at h2
  exact reads_unique t hw _ _ _ h2 h2'

example : WF demoIsa ∧ demoIsa.Has demoVal ∧ demoIsa.Has (.sum 3 (.bits (BV.ofNat 1 1))) ∧
    ∃ o b, assemblerAfter [wideUnion] demoIsa = .ok o ∧ o.assemble demoVal = .ok b := by
  refine ⟨demoIsa_wf, demoVal_has, by simp [demoIsa, Ty.Has, Fields.HasAt, BV.ofNat], ?_⟩
  obtain ⟨o, b, h1, h2, _⟩ := C02_opcode_fits [wideUnion] demoIsa demoVal demoIsa_wf demoVal_has
  exact ⟨o, b, h1, h2⟩

/-! ## C04: assembled opcodes are valid -/

/-- C04, partial: assembled opcodes are accepted, with the exception and the missing part of C01. -/
theorem C04_assembled_is_valid_partial (hist : List Ty) (t : Ty) (v : Val) (hw : WF t)
    (hs : ∀ t' ∈ t :: hist, TagSafe t') (hv : t.Has v) :
    ∃ o b, assemblerAfter hist t = .ok o ∧ o.assemble v = .ok b ∧ o.isValid b = true := by
  obtain ⟨o, ho⟩ := assemblerAfter_ok hist t hw
  have hg := build_tagSafe hist t hw hs (build_of_after ho)
  obtain ⟨h1, h2⟩ := encode_spec t hw v hv
  refine ⟨o, _, ho, hg.assemble hw hv, hg.accepts trivial _ v rfl ?_⟩
  rw [ofNat_val_of_lt h1]; exact h2

example : WF demoIsa ∧ (∀ t' ∈ [demoIsa, demoIsa, .bv 1 7], TagSafe t') ∧ demoIsa.Has demoVal :=
  ⟨demoIsa_wf, by simp [demoIsa_tagSafe, TagSafe], demoVal_has⟩

/-- The code violates C04 on the example of `C01_violated`. -/
theorem C04_violated :
    ¬ ∀ (hist : List Ty) (t : Ty) (v : Val), WF t → t.Has v →
      ∃ o b, assemblerAfter hist t = .ok o ∧ o.assemble v = .ok b ∧ o.isValid b = true := by
  intro h
  obtain ⟨o, b, h1, h2, h3⟩ := h [wideUnion] narrowUnion _ narrow_wf.1 narrow_wf.2
  have := narrow_rejected
  rw [h1] at this
  simp only [h2, h3, Bool.not_true, Bool.false_and, Bool.false_eq_true] at this

/-! ## C05: invalid opcodes are rejected -/

/-- C05, partial: a bit pattern of the type's width is accepted exactly when it spells a value; accepted patterns disassemble to that value, all
others are reported by ValueError.
Missing: enums whose only code is 0 or whose codes have the "several ranges" shape, one-option unions and unions listing a type
twice, in the type or in the history; with the first three the property is false (`C05_violated`,
`C05_violated_by_history`). -/
theorem C05_is_valid_exact_partial (hist : List Ty) (t : Ty) (hw : ∀ t' ∈ t :: hist, WF t')
    (hc : ∀ t' ∈ t :: hist, Checkable t') :
    ∃ o, assemblerAfter hist t = .ok o ∧ ∀ b : BV, b.size = o.width →
      (o.isValid b = true ↔ ∃ v, Reads t b.val v) ∧
      (∀ v, Reads t b.val v → o.disassemble b = .ok v) ∧
      ((¬ ∃ v, Reads t b.val v) → o.disassemble b = .error .valueError) := by
  have hwt := hw t (by simp)
  obtain ⟨o, ho⟩ := assemblerAfter_ok hist t hwt
  have hg := build_checkable hist t hw hc (build_of_after ho)
  refine ⟨o, ho, fun b hb => ?_⟩
  rw [hg.width] at hb
  have hiff : o.isValid b = true ↔ ∃ v, Reads t b.val v := by
    constructor
    · intro h
      obtain ⟨v, hv⟩ := hg.exact trivial b hb h
      exact ⟨v, hg.dsm_sound b v hb hv⟩
    · rintro ⟨v, hv⟩; exact hg.accepts trivial b v hb hv
  refine ⟨hiff, fun v hv => hg.disassemble_complete trivial hb hv, fun hn => ?_⟩
  unfold AsmObj.disassemble
  rw [if_neg (by rw [hiff]; exact hn)]

example : (∀ t' ∈ [demoIsa2, demoIsa2, .bv 1 7], WF t') ∧ (∀ t' ∈ [demoIsa2, demoIsa2, .bv 1 7], Checkable t') :=
  ⟨by simp [demoIsa2_wf, WF], by simp [demoIsa2_checkable, Checkable]⟩

/-- The code violates C05 already in a fresh process: the enum with codes 0,1,2,5,6,7 declares 3 valid and then
fails to disassemble it with a KeyError. -/
theorem C05_violated :
    ∃ (t : Ty) (o : AsmObj) (b : BV), WF t ∧ assemblerAfter [] t = .ok o ∧ b.size = o.width ∧ o.isValid b = true ∧
      o.disassemble b = .error .keyError := by
  have hw : WF (.enum 0 [.lit 0, .lit 1, .lit 2, .lit 5, .lit 6, .lit 7]) := by simp [WF, autos]
  obtain ⟨o, ho⟩ := assemblerAfter_ok [] _ hw
  have hg := build_any [] _ hw (build_of_after ho)
  have key : (match assemblerAfter [] (.enum 0 [.lit 0, .lit 1, .lit 2, .lit 5, .lit 6, .lit 7]) with
      | .ok o => o.isValid (BV.ofNat 3 3) && (match o.disassemble (BV.ofNat 3 3) with
          | .error .keyError => true
          | _ => false)
      | _ => false) = true := by decide +kernel
  rw [ho] at key
  simp only [Bool.and_eq_true] at key
  refine ⟨_, o, BV.ofNat 3 3, hw, ho, ?_, key.1, ?_⟩
  · rw [hg.width]; decide +kernel
  · have := key.2
    split at this
    · assumption
    · simp at this

/-- A type that is exact in a fresh process stops being so after a history: once a one-member enum was built, a union of three
options accepts tag 3. -/
theorem C05_violated_by_history :
    ∃ (hist : List Ty) (t : Ty) (o : AsmObj) (b : BV), WF t ∧ Checkable t ∧ assemblerAfter hist t = .ok o ∧
      b.size = o.width ∧ o.isValid b = true ∧ o.disassemble b = .error .keyError := by
  let t : Ty := .sum 1 (.cons 0 (.bv 0 2) (.cons 1 (.bv 1 2) (.cons 2 (.bit 0) .nil)))
  have hw : WF t := by simp [t, WF, WFs, Fields.toList]
  have hc : Checkable t := by
    simp only [t, Checkable, Checkables, and_true]
    exact ⟨by decide, by decide +kernel⟩
  let hist : List Ty := [.enum 0 [.lit 0]]
  obtain ⟨o, ho⟩ := assemblerAfter_ok hist t hw
  have hg := build_any hist t hw (build_of_after ho)
  have key : (match assemblerAfter hist t with
      | .ok o => o.isValid (BV.ofNat 4 3) && (match o.disassemble (BV.ofNat 4 3) with
          | .error .keyError => true
          | _ => false)
      | _ => false) = true := by decide +kernel
  rw [ho] at key
  simp only [Bool.and_eq_true] at key
  refine ⟨hist, t, o, BV.ofNat 4 3, hw, hc, ho, ?_, key.1, ?_⟩
  · rw [hg.width]; decide +kernel
  · have := key.2
    split at this
    · assumption
    · simp at this

/-! ## C06: disassembly is sound -/

/-- C06: in every process, whatever `disassemble` returns is a value of the type which the bit pattern spells, and which
re-assembles to the same bits wherever they carry information. -/
theorem C06_disassemble_sound (hist : List Ty) (t : Ty) (hw : WF t) (o : AsmObj) (b : BV) (v : Val)
    (ho : assemblerAfter hist t = .ok o) (hb : b.size = o.width) (hd : o.disassemble b = .ok v) :
    t.Has v ∧ Reads t b.val v ∧ ∃ b', o.assemble v = .ok b' ∧ b'.size = b.size ∧
      (∀ i, Used t v i → b'.val.testBit i = b.val.testBit i) ∧ (UnionFree t → b' = b) := by
  have hg := build_any hist t hw (build_of_after ho)
  rw [hg.width] at hb
  have hr := hg.disassemble_sound hb hd
  have hv := reads_has t b.val v hr
  obtain ⟨h1, h2⟩ := encode_spec t hw v hv
  have hu : ∀ i, Used t v i → (encode t v).testBit i = b.val.testBit i := used_eq t hw _ _ v h2 hr
  refine ⟨hv, hr, _, hg.assemble hw hv, hb.symm, ?_, ?_⟩
  · intro i hi; rw [ofNat_val_of_lt h1]; exact hu i hi
  · intro hf
    apply BV.ext hb.symm
    rw [ofNat_val_of_lt h1]
    apply Nat.eq_of_testBit_eq
    intro i
    by_cases hi : i < width t
    · exact hu i (used_unionFree t v hv hf i hi)
    · have hblt := b.isLt
      rw [hb] at hblt
      have hle : 2 ^ width t ≤ 2 ^ i := Nat.pow_le_pow_right (by decide) (by omega)
      rw [Nat.testBit_lt_two_pow (by omega), Nat.testBit_lt_two_pow (by omega)]

example : ∃ o v, assemblerAfter [] demoIsa = .ok o ∧ (BV.ofNat 9 308).size = o.width ∧
    o.disassemble (BV.ofNat 9 308) = .ok v := by
  obtain ⟨o, b, h1, h2, h3⟩ := C01_round_trip_partial [] demoIsa demoVal demoIsa_wf (by simp [demoIsa_tagSafe]) demoVal_has
  obtain ⟨o', b', h1', h2', h3', h4', h5', _⟩ := C02_opcode_fits [] demoIsa demoVal demoIsa_wf demoVal_has
  rw [h1, Except.ok.injEq] at h1'; subst h1'
  rw [h2, Except.ok.injEq] at h2'; subst h2'
  have hwd : width demoIsa = 9 := by decide +kernel
  have he : encode demoIsa demoVal = 308 := by decide +kernel
  have : b = BV.ofNat 9 308 := BV.ext (by rw [h4', h3', hwd]; rfl) (by rw [h5', he]; rfl)
  exact ⟨o, demoVal, h1, by rw [h3', hwd]; rfl, this ▸ h3⟩

end Peak
