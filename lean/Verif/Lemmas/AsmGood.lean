import Verif.Lemmas.Encoding
import Verif.Lemmas.Validator3

namespace Peak
open Peak.Spec

/-- Layout of a product's fields from bit `base` on. -/
def layoutFrom : Nat → Fields → List (Key × (Nat × Nat))
  | _, .nil => []
  | base, .cons k t fs => (k, (base, base + width t)) :: layoutFrom (base + width t) fs

/-- Expected `layout` table. -/
def layoutOf : Ty → List (Key × (Nat × Nat))
  | .prod _ fs => layoutFrom 0 fs
  | .sum _ fs => fs.toList.map (fun p =>
      (p.1, (tagBits fs.toList.length, tagBits fs.toList.length + width p.2)))
  | _ => []

/-- What is known of the assembler object of a union's tag. -/
structure GoodTag (ex : Prop) (fs : Fields) (tg : TagObj) : Prop where
  width : tg.width = tagBits fs.toList.length
  asm_ok : ∀ k ∈ fs.toList.map (·.1), tg.asm k = .ok (optionIndex fs k)
  dsm_iff : ∀ b k, tg.dsm b = .ok k ↔ (fs.toList.map (·.1))[b.val]? = some k
  accepts : ∀ b : BV, b.size = tagBits fs.toList.length → b.val < fs.toList.length → tg.isv b = true
  exact : ex → ∀ b : BV, b.size = tagBits fs.toList.length → tg.isv b = true → b.val < fs.toList.length

/-- What is known of an assembler object for the type `t`.  `acc`: no validator wrongly rejects; `ex`: no
validator wrongly accepts. -/
structure Good (acc ex : Prop) (t : Ty) (o : AsmObj) : Prop where
  width : o.width = width t
  asm_ok : ∀ v, t.Has v → o.asm v = .ok (encode t v)
  dsm_sound : ∀ b v, b.size = Spec.width t → o.dsm b = .ok v → Reads t b.val v
  accepts : acc → ∀ b v, b.size = Spec.width t → Reads t b.val v → o.isv b = true
  complete : acc → ∀ b v, b.size = Spec.width t → Reads t b.val v → o.dsm b = .ok v
  exact : ex → ∀ b, b.size = Spec.width t → o.isv b = true → ∃ v, o.dsm b = .ok v
  layout : o.layout = layoutOf t
  tag : match t with
    | .sum _ fs => ∃ tg, o.tag = some tg ∧ GoodTag ex fs tg
    | _ => o.tag = none

theorem Good.disassemble_sound {acc ex : Prop} {t : Ty} {o : AsmObj} (h : Good acc ex t o) {b : BV} {v : Val}
    (hb : b.size = Spec.width t) (hd : o.disassemble b = .ok v) : Reads t b.val v := by
  unfold AsmObj.disassemble at hd
  split at hd
  · exact h.dsm_sound b v hb hd
  · simp at hd

theorem Good.disassemble_complete {acc ex : Prop} {t : Ty} {o : AsmObj} (h : Good acc ex t o) (ha : acc) {b : BV} {v : Val}
    (hb : b.size = Spec.width t) (hd : Reads t b.val v) : o.disassemble b = .ok v := by
  unfold AsmObj.disassemble AsmObj.isValid
  rw [h.accepts ha b v hb hd, h.complete ha b v hb hd]; rfl

theorem Good.disassemble_exact {acc ex : Prop} {t : Ty} {o : AsmObj} (h : Good acc ex t o) (he : ex) {b : BV}
    (hb : b.size = Spec.width t) (hi : o.isv b = true) : ∃ v, o.disassemble b = .ok v := by
  unfold AsmObj.disassemble AsmObj.isValid
  rw [hi]; exact h.exact he b hb hi

/-! ### bit vectors and bits -/

theorem bvObj_good (acc ex : Prop) (c w : Nat) : Good acc ex (.bv c w) (bvObj w) where
  width := rfl
  asm_ok v h := by cases v <;> simp [Ty.Has] at h; rfl
  dsm_sound b v hb h := by
    simp only [bvObj, Except.ok.injEq] at h; subst h; rfl
  accepts _ b v hb h := rfl
  complete _ b v hb h := by
    cases v <;> simp only [Reads] at h
    subst h; rfl
  exact _ b hb h := ⟨_, rfl⟩
  layout := rfl
  tag := rfl

theorem bitObj_good (acc ex : Prop) (c : Nat) : Good acc ex (.bit c) bitObj where
  width := rfl
  asm_ok v h := by cases v <;> simp [Ty.Has] at h; rfl
  dsm_sound b v hb h := by
    simp only [bitObj, Except.ok.injEq] at h; subst h
    have := b.isLt
    simp only [Spec.width] at hb
    rw [hb] at this
    simp only [Reads]
    rcases (by omega : b.val = 0 ∨ b.val = 1) with h | h <;> simp [h]
  accepts _ b v hb h := rfl
  complete _ b v hb h := by
    cases v <;> simp only [Reads] at h
    next x =>
      have := b.isLt
      simp only [Spec.width] at hb
      rw [hb] at this
      simp only [bitObj]
      rcases (by omega : b.val = 0 ∨ b.val = 1) with h' | h' <;> rw [h'] at h <;> cases x <;> simp_all
  exact _ b hb h := ⟨_, rfl⟩
  layout := rfl
  tag := rfl

/-! ### enums -/

theorem lookup_iff_mem {α β} [BEq α] [LawfulBEq α] {l : List (α × β)} {a : α} {b : β}
    (hf : ∀ b b', (a, b) ∈ l → (a, b') ∈ l → b = b') : l.lookup a = some b ↔ (a, b) ∈ l := by
  constructor
  · exact mem_of_lookup
  · intro h
    cases hl : l.lookup a with
    | none =>
      exfalso
      rw [List.lookup_eq_none_iff] at hl
      have := hl _ h; simp at this
    | some b' => rw [hf b b' h (mem_of_lookup hl)]

theorem mem_dictValues {l : List (EVal × Nat)} (hf : ∀ e n n', (e, n) ∈ l → (e, n') ∈ l → n = n') :
    ∀ (seen : List EVal) (x : Nat), x ∈ dictValues l seen ↔ ∃ e, e ∉ seen ∧ (e, x) ∈ l := by
  induction l with
  | nil => intro seen x; simp [dictValues]
  | cons p l ih =>
    obtain ⟨k, v⟩ := p
    intro seen x
    have hf' : ∀ e n n', (e, n) ∈ l → (e, n') ∈ l → n = n' :=
      fun e n n' h h' => hf e n n' (List.mem_cons_of_mem _ h) (List.mem_cons_of_mem _ h')
    simp only [dictValues]
    split
    · next hk =>
      rw [ih hf']
      constructor
      · rintro ⟨e, h1, h2⟩; exact ⟨e, h1, List.mem_cons_of_mem _ h2⟩
      · rintro ⟨e, h1, h2⟩
        rcases List.mem_cons.1 h2 with h2 | h2
        · simp only [Prod.mk.injEq] at h2; exact absurd (h2.1 ▸ hk) h1
        · exact ⟨e, h1, h2⟩
    · next hk =>
      rw [List.mem_cons, ih hf']
      constructor
      · rintro (h | ⟨e, h1, h2⟩)
        · exact ⟨k, hk, by rw [h]; exact List.mem_cons_self⟩
        · exact ⟨e, fun h => h1 (List.mem_cons_of_mem _ h), List.mem_cons_of_mem _ h2⟩
      · rintro ⟨e, h1, h2⟩
        by_cases he : e = k
        · subst he
          left; exact hf e x v h2 List.mem_cons_self
        · right
          refine ⟨e, ?_, ?_⟩
          · intro h; rcases List.mem_cons.1 h with h | h
            · exact he h
            · exact h1 h
          · rcases List.mem_cons.1 h2 with h2 | h2
            · simp only [Prod.mk.injEq] at h2; exact absurd h2.1 he
            · exact h2

theorem dictValues_nodup {l : List (EVal × Nat)} (hf : ∀ e n n', (e, n) ∈ l → (e, n') ∈ l → n = n')
    (hi : ∀ e e' n, (e, n) ∈ l → (e', n) ∈ l → e = e') :
    ∀ (seen : List EVal), (dictValues l seen).Nodup := by
  induction l with
  | nil => intro seen; simp [dictValues]
  | cons p l ih =>
    obtain ⟨k, v⟩ := p
    intro seen
    have hf' : ∀ e n n', (e, n) ∈ l → (e, n') ∈ l → n = n' :=
      fun e n n' h h' => hf e n n' (List.mem_cons_of_mem _ h) (List.mem_cons_of_mem _ h')
    have hi' : ∀ e e' n, (e, n) ∈ l → (e', n) ∈ l → e = e' :=
      fun e e' n h h' => hi e e' n (List.mem_cons_of_mem _ h) (List.mem_cons_of_mem _ h')
    simp only [dictValues]
    split
    · exact ih hf' hi' seen
    · rw [List.nodup_cons]
      refine ⟨?_, ih hf' hi' _⟩
      rw [mem_dictValues hf']
      rintro ⟨e, h1, h2⟩
      apply h1
      rw [hi e k v (List.mem_cons_of_mem _ h2) List.mem_cons_self]
      exact List.mem_cons_self

/-- The codes of an enum that is being built: the request made to the validator generator. -/
theorem enum_request {ms : List EVal} (hw : WF (.enum 0 ms)) :
    ∃ a, enumTables ms = .ok a ∧ a.asm ≠ [] ∧
      (∀ x, x ∈ dictValues a.asm [] ↔ x ∈ enumCodes ms) ∧ (dictValues a.asm []).Nodup ∧
      bitLength (listMax (dictValues a.asm [])) = enumWidth ms := by
  obtain ⟨h1, h2, h3⟩ := hw
  obtain ⟨b, hb⟩ := enumScan_ok ms h2 {}
  have ha : enumTables ms = .ok (enumAuto b.free 0 b) := by simp [enumTables, hb]
  obtain ⟨s1, s2⟩ := enumTables_spec ha h3
  have hf : ∀ e n n', (e, n) ∈ (enumAuto b.free 0 b).asm → (e, n') ∈ (enumAuto b.free 0 b).asm → n = n' := by
    intro e n n' h h'; rw [s1] at h h'; rw [h] at h'; simpa using h'
  have hm : ∀ x, x ∈ dictValues (enumAuto b.free 0 b).asm [] ↔ x ∈ enumCodes ms := by
    intro x; rw [mem_dictValues hf, mem_enumCodes]; simp [s1]
  refine ⟨_, ha, ?_, hm, ?_, ?_⟩
  · obtain ⟨e, he⟩ := List.exists_mem_of_ne_nil _ h1
    obtain ⟨n, hn⟩ := enumCode_isSome h2 he
    intro h
    have := (s1 e n).2 hn
    rw [h] at this; simp at this
  · apply dictValues_nodup hf
    intro e e' n h h'
    rw [s1] at h h'
    exact enumCode_inj h3 h h'
  · unfold enumWidth listMax; rw [foldl_max_congr hm]

theorem enumObj_good {acc ex : Prop} {c : Nat} {ms : List EVal} (hw : WF (.enum c ms)) {a : EnumAcc}
    (ha : enumTables ms = .ok a) {vc vc' : VCache} {isv : Validator}
    (hg : genIsValid (dictValues a.asm []) (bitLength (listMax (dictValues a.asm []))) vc = (.ok isv, vc'))
    (hacc : acc → ∀ b : BV, b.size = enumWidth ms → b.val ∈ dictValues a.asm [] → isv b = true)
    (hex : ex → ∀ b : BV, b.size = enumWidth ms → isv b = true → b.val ∈ dictValues a.asm []) :
    ∃ o, enumObj ms vc = (.ok o, vc') ∧ Good acc ex (.enum c ms) o := by
  obtain ⟨a', ha', hne, hm, hnd, hwd⟩ := enum_request (ms := ms) hw
  rw [ha] at ha'; cases ha'
  obtain ⟨s1, s2⟩ := enumTables_spec ha hw.2.2
  have l1 : ∀ e n, a.asm.lookup e = some n ↔ enumCode ms e = some n := by
    intro e n
    rw [lookup_iff_mem, s1]
    intro n n' h h'; rw [s1] at h h'; rw [h] at h'; simpa using h'
  have l2 : ∀ e n, a.dsm.lookup n = some e ↔ enumCode ms e = some n := by
    intro e n
    rw [lookup_iff_mem, s2]
    intro e e' h h'; rw [s2] at h h'; exact enumCode_inj hw.2.2 h h'
  have hE : enumObj ms vc = (.ok {
          asm := fun v => match v with
            | .enum e => match a.asm.lookup e with
              | some n => .ok n
              | none => .error .keyError
            | _ => .error .keyError
          dsm := fun b => match a.dsm.lookup b.val with
            | some e => .ok (.enum e)
            | none => .error .keyError
          isv := isv
          width := bitLength (listMax (dictValues a.asm []))
          layout := []
          tag := none }, vc') := by
    unfold enumObj
    simp only [ha, if_neg hne, hg]
    rfl
  refine ⟨_, hE, ?_⟩
  have hval : ∀ (b : BV), b.size = enumWidth ms → b.val % 2 ^ enumWidth ms = b.val := by
    intro b hb; rw [← hb]; exact Nat.mod_eq_of_lt b.isLt
  constructor
  · exact hwd
  · intro v hv
    cases v <;> simp only [Ty.Has] at hv
    next e =>
      obtain ⟨n, hn⟩ := enumCode_isSome hw.2.1 hv
      simp [(l1 e n).2 hn, encode, hn]
  · intro b v hb h
    simp only at h
    split at h
    · next e he =>
      simp only [Except.ok.injEq] at h
      subst h
      simp only [Reads]
      rw [hval b hb]
      exact (l2 e _).1 he
    · simp at h
  · intro ha' b v hb h
    cases v <;> simp only [Reads] at h
    rw [hval b hb] at h
    apply hacc ha' b hb
    rw [hm, mem_enumCodes]; exact ⟨_, h⟩
  · intro ha' b v hb h
    cases v <;> simp only [Reads] at h
    rw [hval b hb] at h
    simp [(l2 _ _).2 h]
  · intro he b hb h
    have := hex he b hb h
    rw [hm, mem_enumCodes] at this
    obtain ⟨e, he⟩ := this
    exact ⟨.enum e, by simp [(l2 _ _).2 he]⟩
  · rfl
  · rfl

/-! ### products -/

/-- The assemblers of the fields, in order. -/
def GoodAll (acc ex : Prop) : Fields → List (Key × Ty × AsmObj) → Prop
  | .nil, [] => True
  | .cons k t fs, (k', t', o) :: l => k' = k ∧ t' = t ∧ Good acc ex t o ∧ GoodAll acc ex fs l
  | _, _ => False

def strip (l : List (Key × Ty × AsmObj)) : List (Key × AsmObj) := l.map (fun x => (x.1, x.2.2))

theorem or_shift {a x i : Nat} (h : a < 2 ^ i) : a ||| (x <<< i) = a + 2 ^ i * x := by
  rw [Nat.or_comm, ← Nat.shiftLeft_add_eq_or_of_lt h, Nat.shiftLeft_eq, Nat.mul_comm, Nat.add_comm]

theorem pow_add_lt {a b i j : Nat} (ha : a < 2 ^ i) (hb : b < 2 ^ j) : a + 2 ^ i * b < 2 ^ (i + j) := by
  rw [Nat.pow_add]
  calc a + 2 ^ i * b < 2 ^ i + 2 ^ i * b := by omega
    _ = 2 ^ i * (b + 1) := by rw [Nat.mul_add]; omega
    _ ≤ _ := Nat.mul_le_mul_left _ hb

variable {acc ex : Prop}

theorem asmRows_spec : ∀ (fs : Fields) (l : List (Key × Ty × AsmObj)) (vs : List Val) (base opcode : Nat),
    GoodAll acc ex fs l → WFs fs → fs.HasAll vs → opcode < 2 ^ base →
    asmRows (tupleRows (strip l) base) vs opcode = .ok (opcode + 2 ^ base * encodeAll fs vs)
  | .nil, l, vs, base, opcode, hg, _, hv, ho => by
    cases l <;> simp only [GoodAll] at hg
    cases vs <;> simp only [Fields.HasAll] at hv
    simp [strip, tupleRows, asmRows, encodeAll]
  | .cons k t fs, l, vs, base, opcode, hg, hw, hv, ho => by
    cases l with
    | nil => simp only [GoodAll] at hg
    | cons p l =>
      obtain ⟨k', t', o⟩ := p
      simp only [GoodAll] at hg
      obtain ⟨rfl, rfl, hg, hgs⟩ := hg
      cases vs with
      | nil => simp only [Fields.HasAll] at hv
      | cons v vs =>
        simp only [Fields.HasAll] at hv
        have he := (encode_spec _ hw.1 v hv.1).1
        have ih := asmRows_spec fs l vs (base + width t') (opcode + 2 ^ base * encode t' v) hgs hw.2 hv.2
          (pow_add_lt ho he)
        simp only [strip, List.map_cons, tupleRows, asmRows, hg.asm_ok v hv.1, hg.width, encodeAll] at ih ⊢
        rw [or_shift ho, ih, Nat.mul_add, Nat.pow_add, Nat.mul_assoc, Nat.add_assoc]

theorem slice_field {b : BV} {base w : Nat} (h : base + w ≤ b.size) :
    (b.slice base (base + w)).size = w ∧ (b.slice base (base + w)).val = b.val / 2 ^ base % 2 ^ w := by
  refine ⟨?_, ?_⟩
  · rw [BV.slice_size b h]; omega
  · rw [BV.slice_val b h]; congr 2; omega

theorem dsmRows_sound : ∀ (fs : Fields) (l : List (Key × Ty × AsmObj)) (vs : List Val) (base : Nat) (b : BV),
    GoodAll acc ex fs l → base + sumWidths fs ≤ b.size →
    dsmRows (tupleRows (strip l) base) b = .ok vs → ReadsAll fs (b.val / 2 ^ base) vs
  | .nil, l, vs, base, b, hg, hb, h => by
    cases l <;> simp only [GoodAll] at hg
    simp only [strip, List.map_nil, tupleRows, dsmRows, Except.ok.injEq] at h
    subst h; simp [ReadsAll]
  | .cons k t fs, l, vs, base, b, hg, hb, h => by
    cases l with
    | nil => simp only [GoodAll] at hg
    | cons p l =>
      obtain ⟨k', t', o⟩ := p
      simp only [GoodAll] at hg
      obtain ⟨rfl, rfl, hg, hgs⟩ := hg
      simp only [sumWidths] at hb
      simp only [strip, List.map_cons, tupleRows, dsmRows, hg.width] at h
      split at h
      · simp at h
      · next v hv =>
        split at h
        · simp at h
        · next vs' hvs =>
          simp only [Except.ok.injEq] at h
          subst h
          obtain ⟨s1, s2⟩ := slice_field (b := b) (base := base) (w := width t') (by omega)
          simp only [ReadsAll]
          constructor
          · have := hg.disassemble_sound s1 hv
            rw [s2, reads_mod _ _ _ _ (Nat.le_refl _)] at this
            exact this
          · have := dsmRows_sound fs l vs' (base + width t') b hgs (by omega) hvs
            rw [Nat.pow_add, ← Nat.div_div_eq_div_mul] at this
            exact this

theorem dsmRows_complete (ha : acc) : ∀ (fs : Fields) (l : List (Key × Ty × AsmObj)) (vs : List Val) (base : Nat) (b : BV),
    GoodAll acc ex fs l → base + sumWidths fs ≤ b.size → ReadsAll fs (b.val / 2 ^ base) vs →
    dsmRows (tupleRows (strip l) base) b = .ok vs ∧
      (tupleRows (strip l) base).all (fun r => r.obj.isValid (b.slice r.lo r.hi)) = true
  | .nil, l, vs, base, b, hg, hb, h => by
    cases l <;> simp only [GoodAll] at hg
    cases vs <;> simp only [ReadsAll] at h
    simp [strip, tupleRows, dsmRows]
  | .cons k t fs, l, vs, base, b, hg, hb, h => by
    cases l with
    | nil => simp only [GoodAll] at hg
    | cons p l =>
      obtain ⟨k', t', o⟩ := p
      simp only [GoodAll] at hg
      obtain ⟨rfl, rfl, hg, hgs⟩ := hg
      simp only [sumWidths] at hb
      cases vs <;> simp only [ReadsAll] at h
      next v vs =>
        obtain ⟨s1, s2⟩ := slice_field (b := b) (base := base) (w := width t') (by omega)
        have hr : Reads t' (b.slice base (base + width t')).val v := by
          rw [s2, reads_mod _ _ _ _ (Nat.le_refl _)]; exact h.1
        have h1 := hg.disassemble_complete ha s1 hr
        have h2 := hg.accepts ha _ _ s1 hr
        obtain ⟨h3, h4⟩ := dsmRows_complete ha fs l vs (base + width t') b hgs (by omega)
          (by rw [Nat.pow_add, ← Nat.div_div_eq_div_mul]; exact h.2)
        simp only [strip] at h3 h4
        simp only [strip, List.map_cons, tupleRows, dsmRows, hg.width, h1, h3, List.all_cons, h4, Bool.and_true]
        exact ⟨trivial, h2⟩

theorem dsmRows_exact (he : ex) : ∀ (fs : Fields) (l : List (Key × Ty × AsmObj)) (base : Nat) (b : BV),
    GoodAll acc ex fs l → base + sumWidths fs ≤ b.size →
    (tupleRows (strip l) base).all (fun r => r.obj.isValid (b.slice r.lo r.hi)) = true →
    ∃ vs, dsmRows (tupleRows (strip l) base) b = .ok vs
  | .nil, l, base, b, hg, hb, h => by
    cases l <;> simp only [GoodAll] at hg
    exact ⟨[], by simp [strip, tupleRows, dsmRows]⟩
  | .cons k t fs, l, base, b, hg, hb, h => by
    cases l with
    | nil => simp only [GoodAll] at hg
    | cons p l =>
      obtain ⟨k', t', o⟩ := p
      simp only [GoodAll] at hg
      obtain ⟨rfl, rfl, hg, hgs⟩ := hg
      simp only [sumWidths] at hb
      simp only [strip, List.map_cons, tupleRows, hg.width, List.all_cons, Bool.and_eq_true] at h
      obtain ⟨s1, s2⟩ := slice_field (b := b) (base := base) (w := width t') (by omega)
      obtain ⟨v, hv⟩ := hg.disassemble_exact he s1 h.1
      obtain ⟨vs, hvs⟩ := dsmRows_exact he fs l (base + width t') b hgs (by omega) h.2
      simp only [strip] at hvs
      exact ⟨v :: vs, by simp [strip, tupleRows, dsmRows, hg.width, hv, hvs]⟩

theorem foldl_add (l : List Nat) (a : Nat) : l.foldl (· + ·) a = a + l.sum := by
  induction l generalizing a with
  | nil => simp
  | cons x l ih => rw [List.foldl_cons, ih, List.sum_cons]; omega

theorem tuple_width : ∀ (fs : Fields) (l : List (Key × Ty × AsmObj)), GoodAll acc ex fs l →
    ((strip l).map (fun p => p.2.width)).sum = sumWidths fs
  | .nil, l, hg => by cases l <;> simp only [GoodAll] at hg; simp [strip, sumWidths]
  | .cons k t fs, l, hg => by
    cases l with
    | nil => simp only [GoodAll] at hg
    | cons p l =>
      obtain ⟨k', t', o⟩ := p
      simp only [GoodAll] at hg
      obtain ⟨rfl, rfl, hg, hgs⟩ := hg
      have := tuple_width fs l hgs
      simp only [strip] at this
      simp only [strip, List.map_cons, List.sum_cons, sumWidths, hg.width, this]

theorem tuple_layout : ∀ (fs : Fields) (l : List (Key × Ty × AsmObj)) (base : Nat), GoodAll acc ex fs l →
    (tupleRows (strip l) base).map (fun r => (r.key, (r.lo, r.hi))) = layoutFrom base fs
  | .nil, l, base, hg => by cases l <;> simp only [GoodAll] at hg; simp [strip, tupleRows, layoutFrom]
  | .cons k t fs, l, base, hg => by
    cases l with
    | nil => simp only [GoodAll] at hg
    | cons p l =>
      obtain ⟨k', t', o⟩ := p
      simp only [GoodAll] at hg
      obtain ⟨rfl, rfl, hg, hgs⟩ := hg
      have := tuple_layout fs l (base + width t') hgs
      simp only [strip] at this
      simp only [strip, List.map_cons, tupleRows, layoutFrom, hg.width, this]

theorem tupleObj_good {c : Nat} {fs : Fields} (hw : WFs fs) {l : List (Key × Ty × AsmObj)}
    (hg : GoodAll acc ex fs l) : Good acc ex (.prod c fs) (tupleObj (strip l)) := by
  have hW : (tupleObj (strip l)).width = sumWidths fs := by
    simp only [tupleObj, foldl_add, tuple_width fs l hg]; omega
  constructor
  · exact hW
  · intro v hv
    cases v <;> simp only [Ty.Has] at hv
    next vs =>
      have := asmRows_spec fs l vs 0 0 hg hw hv (by simp)
      simp only [tupleObj, this, encode]; simp
  · intro b v hb h
    simp only [Spec.width] at hb
    simp only [tupleObj] at h
    split at h
    · simp at h
    · next vs hvs =>
      simp only [Except.ok.injEq] at h
      subst h
      have := dsmRows_sound fs l vs 0 b hg (by omega) hvs
      simpa [Reads] using this
  · intro ha b v hb h
    simp only [Spec.width] at hb
    cases v <;> simp only [Reads] at h
    next vs =>
      have := (dsmRows_complete ha fs l vs 0 b hg (by omega) (by simpa using h)).2
      simp only [tupleObj, foldl_and_all, this, Bool.true_and]
  · intro ha b v hb h
    simp only [Spec.width] at hb
    cases v <;> simp only [Reads] at h
    next vs =>
      have := (dsmRows_complete ha fs l vs 0 b hg (by omega) (by simpa using h)).1
      simp only [tupleObj, this]
  · intro he b hb h
    simp only [Spec.width] at hb
    simp only [tupleObj, foldl_and_all, Bool.true_and] at h
    obtain ⟨vs, hvs⟩ := dsmRows_exact he fs l 0 b hg (by omega) h
    exact ⟨.prod vs, by simp only [tupleObj, hvs]⟩
  · simp only [tupleObj, layoutOf, tuple_layout fs l 0 hg]
  · rfl

end Peak
