import Verif.Spec.RiscVAsm
import Verif.Lemmas.RiscV
import Mathlib.Tactic.Ring
import Mathlib.Logic.Basic
/-!
# C45, C52: the RISC-V assembler helpers
-/

namespace Peak.RV

theorem get_size {d : Data} {f : Fld} {v : Nat} (h : d.get f = some v) : ∃ s, d.layout.fieldSize f = some s ∧ v < 2 ^ s := by
  cases d <;> cases f <;> simp only [Data.get, Option.some.injEq, reduceCtorEq] at h <;> subst h <;>
    exact ⟨_, rfl, BitVec.isLt _⟩

theorem get_isSome (d : Data) (f : Fld) : (d.get f).isSome = (d.layout.fieldSize f).isSome := by
  cases d <;> cases f <;> rfl

theorem data_ext {d d' : Data} (hl : d.layout = d'.layout) (h : ∀ f, d.get f = d'.get f) : d = d' := by
  have h1 := h .rs1
  have h2 := h .rs2
  have h3 := h .rd
  have h4 := h .imm
  cases d <;> cases d' <;> simp only [Data.layout, reduceCtorEq] at hl <;>
    simp only [Data.get, Option.some.injEq, BitVec.toNat_inj] at h1 h2 h3 h4 <;>
    congr 1 <;> rename_i a b <;> cases a <;> cases b <;> simp_all

theorem mkData_ok (l : Layout) (kw : Fld → Option Nat) (h : ∀ f, (kw f).isSome = (l.fieldSize f).isSome) :
    ∃ d, mkData l kw = .ok d ∧ d.layout = l ∧ ∀ f s v, l.fieldSize f = some s → kw f = some v → d.get f = some (v % 2 ^ s) := by
  have h1 := h .rs1
  have h2 := h .rs2
  have h3 := h .rd
  have h4 := h .imm
  cases e1 : kw .rs1 <;> cases e2 : kw .rs2 <;> cases e3 : kw .rd <;> cases e4 : kw .imm <;> rw [e1] at h1 <;> rw [e2] at h2 <;>
    rw [e3] at h3 <;> rw [e4] at h4 <;> cases l <;> simp only [Layout.fieldSize, Option.isSome, reduceCtorEq] at h1 h2 h3 h4 <;>
    simp only [mkData, e1, e2, e3, e4] <;> refine ⟨_, rfl, rfl, ?_⟩ <;> intro f s v hs hv <;> cases f <;>
    simp only [Layout.fieldSize, Option.some.injEq, reduceCtorEq] at hs <;> subst hs <;> simp_all [Data.get]

theorem construct_ok (inst : Inst) (d : Data) (h : d.layout = (unpack inst).1.layout) :
    ∃ inst', construct (unpack inst).2.2 d (unpack inst).2.1 = .ok inst' ∧ unpack inst' = (d, (unpack inst).2) ∧ inst'.erase = inst.erase := by
  cases inst with
  | OP data t => cases t <;> cases d <;> simp only [unpack, Data.layout, reduceCtorEq] at h <;> exact ⟨_, rfl, rfl, rfl⟩
  | OP_IMM i => cases i <;> cases d <;> simp only [unpack, Data.layout, reduceCtorEq] at h <;> exact ⟨_, rfl, rfl, rfl⟩
  | _ => cases d <;> simp only [unpack, Data.layout, reduceCtorEq] at h <;> exact ⟨_, rfl, rfl, rfl⟩

theorem unpack_inj {i j : Inst} (h : unpack i = unpack j) : i = j := by
  have hc : ∀ i, construct (unpack i).2.2 (unpack i).1 (unpack i).2.1 = .ok i := by
    intro i
    cases i with
    | OP data t => cases t <;> rfl
    | OP_IMM i => cases i <;> rfl
    | _ => rfl
  have := hc i
  rw [h, hc j] at this
  exact (Except.ok.inj this).symm

/-- The ranges of the specification are those of the code's tables. -/
theorem range_eq (inst : Inst) (f : Fld) : (∃ lo hi s, (unpack inst).1.layout.fieldSize f = some s ∧ fieldBits (unpack inst).1.layout f s = .ok (lo, hi) ∧
    hi = lo + s ∧ inst.range f = some (lo, s)) ∨ ((unpack inst).1.layout.fieldSize f = none ∧ inst.range f = none) := by
  cases inst with
  | OP data t => cases t <;> cases f <;> first | exact .inr ⟨rfl, rfl⟩ | exact .inl ⟨_, _, _, rfl, rfl, rfl, rfl⟩
  | OP_IMM i => cases i <;> cases f <;> first | exact .inr ⟨rfl, rfl⟩ | exact .inl ⟨_, _, _, rfl, rfl, rfl, rfl⟩
  | _ => cases f <;> first | exact .inr ⟨rfl, rfl⟩ | exact .inl ⟨_, _, _, rfl, rfl, rfl, rfl⟩

theorem setField_some (inst : Inst) (f : Fld) (v : Int) :
    (∃ lo n, inst.range f = some (lo, n) ∧ Storable lo n v ∧ (unpack inst).1.layout.fieldSize f = some n ∧
      (v.toNat >>> lo) < 2 ^ n ∧ (v.toNat >>> lo) <<< lo = v.toNat ∧ setField (unpack inst).1 f (some v) = .ok (some (v.toNat >>> lo))) ∨
    ((¬ ∃ lo n, inst.range f = some (lo, n) ∧ Storable lo n v) ∧ setField (unpack inst).1 f (some v) = .error .valueError) := by
  rcases range_eq inst f with ⟨lo, hi, s, h1, h2, rfl, h4⟩ | ⟨h1, h2⟩
  · have hst : (∃ lo n, inst.range f = some (lo, n) ∧ Storable lo n v) ↔ Storable lo s v :=
      ⟨fun ⟨lo', n', a, b⟩ => by rw [h4] at a; cases a; exact b, fun h => ⟨lo, s, h4, h⟩⟩
    simp only [setField, h1, h2]
    by_cases hv : v < 0
    · refine .inr ⟨fun h => ?_, if_pos hv⟩
      have := (hst.mp h).1
      omega
    · rw [if_neg hv]
      by_cases hd : v % (2 ^ lo : Int) = 0
      · rw [if_neg (fun h => h hd)]
        by_cases hl : v % (2 ^ (lo + s) : Int) = v
        · rw [if_neg (fun h => h hl)]
          have hlt : v < 2 ^ (lo + s) := by
            rw [← hl]
            exact Int.emod_lt_of_pos _ (Int.pow_pos (by decide))
          have hS : Storable lo s v := ⟨by omega, Int.dvd_of_emod_eq_zero hd, hlt⟩
          obtain ⟨n, rfl⟩ := Int.eq_ofNat_of_zero_le (by omega : 0 ≤ v)
          have hn : n < 2 ^ (lo + s) := by exact_mod_cast hlt
          have hdn : n % 2 ^ lo = 0 := by exact_mod_cast hd
          have hq : n >>> lo < 2 ^ s := by
            rw [Nat.shiftRight_eq_div_pow]
            apply Nat.div_lt_of_lt_mul
            rwa [← Nat.pow_add]
          refine .inl ⟨lo, s, h4, hS, rfl, hq, ?_, ?_⟩
          · show n >>> lo <<< lo = n
            rw [Nat.shiftRight_eq_div_pow, Nat.shiftLeft_eq]
            exact Nat.div_mul_cancel (Nat.dvd_of_mod_eq_zero hdn)
          · show Except.ok (some ((n >>> lo) % 2 ^ s)) = _
            rw [Nat.mod_eq_of_lt hq]
            rfl
        · rw [if_pos hl]
          refine .inr ⟨fun h => hl ?_, rfl⟩
          obtain ⟨a, _, c⟩ := hst.mp h
          exact Int.emod_eq_of_lt a c
      · rw [if_pos hd]
        refine .inr ⟨fun h => hd (Int.emod_eq_zero_of_dvd (hst.mp h).2.1), rfl⟩
  · refine .inr ⟨?_, by simp only [setField, h1]⟩
    rintro ⟨lo, n, a, _⟩
    rw [h2] at a
    cases a

theorem setField_none (d : Data) (f : Fld) : setField d f none = .ok (d.get f) := by
  have := get_isSome d f
  cases h : d.layout.fieldSize f with
  | none =>
    rw [h] at this
    simp only [setField, h]
    cases h2 : d.get f with
    | none => rfl
    | some v => rw [h2] at this; cases this
  | some s => simp only [setField, h]

theorem getField_eq (inst : Inst) (f : Fld) :
    getField (unpack inst).1 f = .ok ((unpack inst).1.get f |>.map (· <<< ((inst.range f).map (·.1)).getD 0)) := by
  cases inst with
  | OP data t => cases t <;> cases f <;> rfl
  | OP_IMM i => cases i <;> cases f <;> rfl
  | _ => cases f <;> rfl

theorem getFields_eq (inst : Inst) :
    ∃ g, getFields inst = .ok g ∧ ∀ f, g.get f = ((unpack inst).1.get f).map (· <<< ((inst.range f).map (·.1)).getD 0) := by
  unfold getFields
  simp only [getField_eq]
  refine ⟨_, rfl, ?_⟩
  intro f
  cases f <;> rfl

theorem range_erase {i j : Inst} (h : i.erase = j.erase) (f : Fld) : i.range f = j.range f := by
  have : ∀ i : Inst, i.erase.range f = i.range f := by
    intro i
    cases i with
    | OP_IMM i => cases i <;> cases f <;> rfl
    | _ => cases f <;> rfl
  rw [← this i, ← this j, h]

/-- An instruction is determined by its opcode and tag and its fields. -/
theorem inst_ext {i j : Inst} (h : i.erase = j.erase) {g : FieldVals Nat} (hi : getFields i = .ok g) (hj : getFields j = .ok g) : i = j := by
  have hu : ∀ i : Inst, (unpack i.erase).2 = (unpack i).2 ∧ (unpack i.erase).1.layout = (unpack i).1.layout := by
    intro i
    cases i with
    | OP data t => cases t <;> exact ⟨rfl, rfl⟩
    | OP_IMM i => cases i <;> exact ⟨rfl, rfl⟩
    | _ => exact ⟨rfl, rfl⟩
  obtain ⟨g1, e1, f1⟩ := getFields_eq i
  obtain ⟨g2, e2, f2⟩ := getFields_eq j
  rw [hi] at e1
  rw [hj] at e2
  cases e1
  cases e2
  apply unpack_inj
  have hd : (unpack i).1 = (unpack j).1 := by
    apply data_ext
    · rw [← (hu i).2, ← (hu j).2, h]
    · intro f
      have := (f1 f).symm.trans (f2 f)
      rw [range_erase h f] at this
      refine Option.map_injective ?_ this
      intro a b hab
      simp only [Nat.shiftLeft_eq] at hab
      exact Nat.eq_of_mul_eq_mul_right (Nat.two_pow_pos _) hab
  have ht : (unpack i).2 = (unpack j).2 := by rw [← (hu i).1, ← (hu j).1, h]
  exact Prod.ext hd ht

/-- `set_fields` when every step of its loop succeeds. -/
theorem setFields_of {inst : Inst} {vals : FieldVals Int} {r : Fld → Option Nat} (h : ∀ f, setField (unpack inst).1 f (vals.get f) = .ok (r f)) :
    setFields inst vals = (mkData (unpack inst).1.layout r >>= fun d => construct (unpack inst).2.2 d (unpack inst).2.1) := by
  have h1 : setField (unpack inst).1 .rs1 vals.rs1 = _ := h .rs1
  have h2 : setField (unpack inst).1 .rs2 vals.rs2 = _ := h .rs2
  have h3 : setField (unpack inst).1 .rd vals.rd = _ := h .rd
  have h4 : setField (unpack inst).1 .imm vals.imm = _ := h .imm
  have hr : (fun f => FieldVals.get ⟨r .rs1, r .rs2, r .rd, r .imm⟩ f) = r := by
    funext f
    cases f <;> rfl
  unfold setFields
  simp only [h1, h2, h3, h4]
  show (mkData _ (fun f => FieldVals.get ⟨r .rs1, r .rs2, r .rd, r .imm⟩ f) >>= _) = _
  rw [hr]

/-- C45: when all requested values fit, `set_fields` succeeds; reading the fields of the new instruction gives the requested values, and
the old ones where none was requested; nothing else of the instruction changes. -/
theorem C45_set_get {inst : Inst} {vals : FieldVals Int} (h : Fits inst vals) :
    ∃ inst' g g', setFields inst vals = .ok inst' ∧ inst'.erase = inst.erase ∧ getFields inst = .ok g ∧ getFields inst' = .ok g' ∧
      ∀ f, g'.get f = match vals.get f with
        | some v => some v.toNat
        | none => g.get f := by
  have hstep : ∀ f, ∃ r : Option Nat, setField (unpack inst).1 f (vals.get f) = .ok r ∧ r.isSome = ((unpack inst).1.layout.fieldSize f).isSome ∧
      (∀ v s, r = some v → (unpack inst).1.layout.fieldSize f = some s → v < 2 ^ s) ∧
      r.map (· <<< ((inst.range f).map (·.1)).getD 0) = (match vals.get f with
        | some v => some v.toNat
        | none => ((unpack inst).1.get f).map (· <<< ((inst.range f).map (·.1)).getD 0)) := by
    intro f
    cases hv : vals.get f with
    | none =>
      refine ⟨_, setField_none _ f, get_isSome _ f, ?_, rfl⟩
      intro v s hg hs
      obtain ⟨s', hs', hl⟩ := get_size hg
      rw [hs] at hs'
      cases hs'
      exact hl
    | some v =>
      rcases setField_some inst f v with ⟨lo, n, h1, _, h2, h3, h4, h5⟩ | ⟨h1, _⟩
      · refine ⟨_, h5, by rw [h2]; rfl, ?_, ?_⟩
        · rintro v' s ⟨⟩ hs
          rw [h2] at hs
          cases hs
          exact h3
        · rw [h1]
          exact congrArg some h4
      · exact absurd (h f v hv) h1
  choose r hr1 hr2 hr3 hr4 using hstep
  obtain ⟨d, hd1, hd2, hd3⟩ := mkData_ok (unpack inst).1.layout r hr2
  obtain ⟨inst', hi1, hi2, hi3⟩ := construct_ok inst d hd2
  obtain ⟨g, hg, hg'⟩ := getFields_eq inst
  obtain ⟨k, hk, hk'⟩ := getFields_eq inst'
  refine ⟨inst', g, k, ?_, hi3, hg, hk, ?_⟩
  · rw [setFields_of hr1, hd1]
    exact hi1
  · intro f
    have hget : d.get f = r f := by
      cases hrf : r f with
      | none =>
        have h1 := get_isSome d f
        have h2 := hr2 f
        rw [hd2, ← h2, hrf] at h1
        cases hdf : d.get f with
        | none => rfl
        | some v => rw [hdf] at h1; cases h1
      | some v =>
        cases hs : (unpack inst).1.layout.fieldSize f with
        | none =>
          have h2 := hr2 f
          rw [hrf, hs] at h2
          cases h2
        | some s => rw [hd3 f s v hs hrf, Nat.mod_eq_of_lt (hr3 f v s hrf hs)]
    rw [hk' f, hi2, hget, range_erase hi3 f, hr4 f, hg' f]

/-- C45: when some requested value does not fit, because the instruction has no such field, the value is negative, too large or has bits
below the field, `set_fields` raises ValueError. -/
theorem C45_set_rejects {inst : Inst} {vals : FieldVals Int} (h : ¬ Fits inst vals) : setFields inst vals = .error .valueError := by
  have hstep : ∀ f, (∃ r, setField (unpack inst).1 f (vals.get f) = .ok r ∧
      ∀ v, vals.get f = some v → ∃ lo n, inst.range f = some (lo, n) ∧ Storable lo n v) ∨
      setField (unpack inst).1 f (vals.get f) = .error .valueError := by
    intro f
    cases hv : vals.get f with
    | none => exact .inl ⟨_, setField_none _ f, by rintro v ⟨⟩⟩
    | some v =>
      rcases setField_some inst f v with ⟨lo, n, h1, h2, _, _, _, h5⟩ | ⟨_, h2⟩
      · exact .inl ⟨_, h5, by rintro v' ⟨⟩; exact ⟨lo, n, h1, h2⟩⟩
      · exact .inr h2
  have h1 := hstep .rs1
  have h2 := hstep .rs2
  have h3 := hstep .rd
  have h4 := hstep .imm
  simp only [FieldVals.get] at h1 h2 h3 h4
  unfold setFields
  rcases h1 with ⟨r1, e1, f1⟩ | e1
  · rcases h2 with ⟨r2, e2, f2⟩ | e2
    · rcases h3 with ⟨r3, e3, f3⟩ | e3
      · rcases h4 with ⟨r4, e4, f4⟩ | e4
        · exact (h (fun f => by cases f <;> assumption)).elim
        · simp only [e1, e2, e3, e4]; rfl
      · simp only [e1, e2, e3]; rfl
    · simp only [e1, e2]; rfl
  · simp only [e1]; rfl

/-- C45: the fields that `get_fields` returns are those the instruction has, each within its range. -/
theorem C45_get_range {inst : Inst} {g : FieldVals Nat} (h : getFields inst = .ok g) (f : Fld) :
    match inst.range f with
    | none => g.get f = none
    | some (lo, n) => ∃ v, g.get f = some v ∧ Storable lo n v := by
  obtain ⟨g', h1, h2⟩ := getFields_eq inst
  rw [h] at h1
  cases h1
  have hs := get_isSome (unpack inst).1 f
  rcases range_eq inst f with ⟨lo, hi, s, e1, e2, e3, e4⟩ | ⟨e1, e2⟩
  · rw [e4]
    rw [e1] at hs
    obtain ⟨v, hv⟩ := Option.isSome_iff_exists.mp hs
    obtain ⟨s', hs', hl⟩ := get_size hv
    rw [e1] at hs'
    cases hs'
    refine ⟨v <<< lo, by rw [h2 f, hv, e4]; rfl, Int.natCast_nonneg _, ?_, ?_⟩
    · rw [Nat.shiftLeft_eq]
      exact ⟨v, by push_cast; ring⟩
    · rw [Nat.shiftLeft_eq]
      have : v * 2 ^ lo < 2 ^ (lo + s) := by
        rw [Nat.pow_add, Nat.mul_comm]
        exact Nat.mul_lt_mul_of_pos_left hl (Nat.two_pow_pos lo)
      exact_mod_cast this
  · rw [e2]
    rw [e1] at hs
    show g.get f = none
    rw [h2 f]
    cases hv : (unpack inst).1.get f with
    | none => rfl
    | some v => rw [hv] at hs; cases hs

/-- C45: setting the fields to the values read leaves the instruction as it was. -/
theorem C45_get_set {inst : Inst} {g : FieldVals Nat} (h : getFields inst = .ok g) :
    setFields inst ⟨g.rs1.map Int.ofNat, g.rs2.map Int.ofNat, g.rd.map Int.ofNat, g.imm.map Int.ofNat⟩ = .ok inst := by
  have hv : ∀ f, FieldVals.get ⟨g.rs1.map Int.ofNat, g.rs2.map Int.ofNat, g.rd.map Int.ofNat, g.imm.map Int.ofNat⟩ f = (g.get f).map Int.ofNat := by
    intro f
    cases f <;> rfl
  have hF : Fits inst ⟨g.rs1.map Int.ofNat, g.rs2.map Int.ofNat, g.rd.map Int.ofNat, g.imm.map Int.ofNat⟩ := by
    intro f v hf
    rw [hv f] at hf
    obtain ⟨n, hn, rfl⟩ := Option.map_eq_some_iff.mp hf
    have := C45_get_range h f
    cases hr : inst.range f with
    | none => rw [hr] at this; rw [this] at hn; cases hn
    | some p =>
      rw [hr] at this
      obtain ⟨v, h1, h2⟩ := this
      rw [hn] at h1
      cases h1
      exact ⟨p.1, p.2, rfl, h2⟩
  obtain ⟨inst', g0, g', h1, h2, h3, h4, h5⟩ := C45_set_get hF
  rw [h] at h3
  cases h3
  rw [h1]
  have hg : g' = g := by
    have : ∀ f, g'.get f = g.get f := by
      intro f
      rw [h5 f, hv f]
      cases g.get f <;> rfl
    have e1 := this .rs1
    have e2 := this .rs2
    have e3 := this .rd
    have e4 := this .imm
    obtain ⟨a, b, c, d⟩ := g
    obtain ⟨a', b', c', d'⟩ := g'
    rw [show a' = a from e1, show b' = b from e2, show c' = c from e3, show d' = d from e4]
  rw [hg] at h4
  rw [inst_ext h2 h4 h]

theorem signed_eq {w : Nat} (i : BitVec w) (hw : 0 < w) : signed w i.toNat = i.toInt := by
  obtain ⟨k, rfl⟩ : ∃ k, w = k + 1 := ⟨w - 1, by omega⟩
  rw [signed, BitVec.toInt_eq_toNat_cond]
  have h2 : (2 : Nat) ^ (k + 1) = 2 * 2 ^ k := by rw [Nat.pow_succ, Nat.mul_comm]
  have h3 : (2 : Int) ^ (k + 1 - 1) = ((2 ^ k : Nat) : Int) := by push_cast; rfl
  have h4 : (2 : Int) ^ (k + 1) = ((2 ^ (k + 1) : Nat) : Int) := by push_cast; rfl
  rw [h3, h4, h2]
  split <;> split <;> omega

theorem twice_eq {w : Nat} (i : BitVec w) (hw : 0 < w) : signed (w + 1) ((i.toNat <<< 1 : Nat)) = 2 * i.toInt := by
  obtain ⟨k, rfl⟩ : ∃ k, w = k + 1 := ⟨w - 1, by omega⟩
  rw [signed, BitVec.toInt_eq_toNat_cond, Nat.shiftLeft_eq]
  have h2 : (2 : Nat) ^ (k + 1) = 2 * 2 ^ k := by rw [Nat.pow_succ, Nat.mul_comm]
  have h3 : (2 : Int) ^ (k + 1 + 1 - 1) = ((2 ^ (k + 1) : Nat) : Int) := by push_cast; rfl
  have h4 : (2 : Int) ^ (k + 1 + 1) = 2 * ((2 ^ (k + 1) : Nat) : Int) := by push_cast; ring
  rw [h3, h4, h2]
  split <;> split <;> omega

/-- C45: after setting the immediate to `v`, the manual's effect of the instruction is that of an instruction with immediate `v`: upper
immediates, jump and branch offsets and arithmetic immediates all come back as the requested value. -/
theorem C45_immediate {inst inst' : Inst} {vals : FieldVals Int} {v : Int} (hv : vals.imm = some v) (h : setFields inst vals = .ok inst')
    (x : Idx → Word) (pc : Word) (e : Word × Word) (he : immEffect x pc v inst' = some e) :
    (isaResult x pc inst', isaNext x pc inst') = e := by
  have hF : Fits inst vals := by
    by_contra hn
    rw [C45_set_rejects hn] at h
    cases h
  obtain ⟨i2, g0, g', h1, h2, h3, h4, h5⟩ := C45_set_get hF
  rw [h] at h1
  cases h1
  have hi : g'.imm = some v.toNat := by
    have := h5 .imm
    rw [show vals.get .imm = some v from hv] at this
    exact this
  obtain ⟨lo, n, hr, h0, _, _⟩ := hF .imm v hv
  obtain ⟨m, rfl⟩ := Int.eq_ofNat_of_zero_le h0
  clear hF h5 hv h h2 h3 hr h0
  have hp : BitVec.ofInt 32 ((pc.toNat : Int) + 4) = BitVec.ofNat 32 (pc.toNat + 4) := by
    rw [← BitVec.ofInt_natCast]
    congr 1
  cases inst' with
  | OP_IMM i =>
    cases i with
    | arith d t =>
      cases h4
      have hm : m = d.imm.toNat := (Option.some.inj hi).symm
      subst hm
      cases he
      rw [hp, signed_eq d.imm (by decide)]
      rfl
    | shift d t =>
      cases h4
      have hm : m = d.imm.toNat := (Option.some.inj hi).symm
      subst hm
      cases he
      rw [hp]
      show (isaAlu _ _ (BitVec.ofNat 32 d.imm.toNat), _) = _
      rw [← BitVec.ofInt_natCast]
      rfl
  | LUI d =>
    cases h4
    have hm : m = d.imm.toNat <<< 12 := (Option.some.inj hi).symm
    subst hm
    cases he
    rw [hp, Nat.shiftLeft_eq, BitVec.ofInt_natCast]
    rfl
  | AUIPC d =>
    cases h4
    have hm : m = d.imm.toNat <<< 12 := (Option.some.inj hi).symm
    subst hm
    cases he
    rw [hp, Nat.shiftLeft_eq, ← Int.natCast_add, BitVec.ofInt_natCast]
    rfl
  | JAL d =>
    cases h4
    have hm : m = d.imm.toNat <<< 1 := (Option.some.inj hi).symm
    subst hm
    cases he
    rw [hp, twice_eq d.imm (by decide)]
    rfl
  | Branch d t =>
    cases h4
    have hm : m = d.imm.toNat <<< 1 := (Option.some.inj hi).symm
    subst hm
    cases he
    rw [twice_eq d.imm (by decide)]
    simp only [isaResult, isaNext]
    split
    · rfl
    · rw [hp]
  | OP _ _ => cases he
  | JALR _ => cases he
  | Load _ _ => cases he
  | Store _ _ => cases he

/-- Cases of C45: a branch offset of -8, and a rejected odd one. -/
example : setFields (.Branch ⟨1, 2, 0⟩ .BNE) { imm := some 8184, rs2 := some 7 } = .ok (.Branch ⟨1, 7, -4⟩ .BNE) ∧
    getFields (.Branch ⟨1, 7, -4⟩ .BNE) = .ok { rs1 := some 1, rs2 := some 7, imm := some 8184 } ∧
    setFields (.Branch ⟨1, 2, 0⟩ .BNE) { imm := some 9 } = .error .valueError ∧
    setFields (.LUI ⟨1, 0⟩) { imm := some 4096 } = .ok (.LUI ⟨1, 1⟩) :=
  ⟨rfl, rfl, rfl, rfl⟩

example : Fits (.Branch ⟨1, 2, 0⟩ .BNE) { imm := some 8184, rs2 := some 7 } := by
  intro f v h
  cases f <;> cases h
  · exact ⟨0, 5, rfl, by unfold Storable; decide⟩
  · exact ⟨1, 12, rfl, by unfold Storable; decide⟩

/-! ## C52: the instruction builders -/

/-- The operation an `asm_X` function is named after. -/
def build (e : AluInst) : Int → Int → Option Int → Option Int → Except Err Inst :=
  match e with
  | .arith .SUB => asmSub
  | .arith t => asmArith t
  | .shift t => asmShift t

/-- C52: `asm_X(rs1, rd, rs2=...)` is the instruction that applies X to the two registers and writes `rd`. -/
theorem C52_register (e : AluInst) (rs1 rd rs2 : Int) : ∃ inst, build e rs1 rd (some rs2) none = .ok inst ∧
    inst.dest = some (BitVec.ofInt 5 rd) ∧
    ∀ x pc, isaResult x pc inst = isaAlu e (x (BitVec.ofInt 5 rs1)) (x (BitVec.ofInt 5 rs2)) ∧ isaNext x pc inst = BitVec.ofNat 32 (pc.toNat + 4) := by
  cases e with
  | arith t => cases t <;> exact ⟨_, rfl, rfl, fun _ _ => ⟨rfl, rfl⟩⟩
  | shift t => exact ⟨_, rfl, rfl, fun _ _ => ⟨rfl, rfl⟩⟩

/-- C52: `asm_X` raises ValueError unless exactly one of `rs2` and `imm` is given. -/
theorem C52_exactly_one (e : AluInst) (rs1 rd : Int) (v w : Int) :
    build e rs1 rd (some v) (some w) = .error .valueError ∧ build e rs1 rd none none = .error .valueError := by
  cases e with
  | arith t => cases t <;> exact ⟨rfl, rfl⟩
  | shift t => exact ⟨rfl, rfl⟩

theorem toInt_ofInt {w : Nat} {i : Int} (h1 : -(2 ^ w : Int) ≤ 2 * i) (h2 : 2 * i < (2 ^ w : Int)) : (BitVec.ofInt w i).toInt = i := by
  rw [BitVec.toInt_ofInt]
  apply Int.bmod_eq_of_le_mul_two
  · push_cast; omega
  · push_cast; omega

/-- The immediates an operation accepts: signed 12-bit values, for shifts the amounts below 32; a subtraction accepts the negations of
signed 12-bit values, because it is an addition of the negated immediate. -/
def ImmOk : AluInst → Int → Prop
  | .arith .SUB, i => -2048 < i ∧ i ≤ 2048
  | .arith _, i => -2048 ≤ i ∧ i < 2048
  | .shift _, i => 0 ≤ i ∧ i < 32

/-- C52, for immediates in `ImmOk`: `asm_X(rs1, rd, imm=...)` is an instruction that applies X to the register and the immediate and writes
`rd`. -/
theorem C52_immediate_partial (e : AluInst) (rs1 rd imm : Int) (h : ImmOk e imm) : ∃ inst, build e rs1 rd none (some imm) = .ok inst ∧
    inst.dest = some (BitVec.ofInt 5 rd) ∧
    ∀ x pc, isaResult x pc inst = isaAlu e (x (BitVec.ofInt 5 rs1)) (BitVec.ofInt 32 imm) ∧ isaNext x pc inst = BitVec.ofNat 32 (pc.toNat + 4) := by
  have key : ∀ t : ArithInst, -2048 ≤ imm → imm < 2048 → ∀ x : Idx → Word,
      isaAlu (.arith t) (x (BitVec.ofInt 5 rs1)) (BitVec.ofInt 32 (ofPy 12 imm).toInt) =
        isaAlu (.arith t) (x (BitVec.ofInt 5 rs1)) (BitVec.ofInt 32 imm) := by
    intro t h1 h2 x
    rw [ofPy, toInt_ofInt (by omega) (by omega)]
  cases e with
  | arith t =>
    cases t with
    | SUB =>
      refine ⟨_, rfl, rfl, fun x pc => ⟨?_, rfl⟩⟩
      show isaAlu (.arith .ADD) _ (BitVec.ofInt 32 (-(ofPy 12 imm)).toInt) = isaAlu (.arith .SUB) _ _
      obtain ⟨h1, h2⟩ := h
      have hn : -(ofPy 12 imm) = BitVec.ofInt 12 (-imm) := by rw [ofPy, BitVec.ofInt_neg]
      rw [hn, toInt_ofInt (by omega) (by omega)]
      show BitVec.ofNat 32 _ = BitVec.ofInt 32 _
      have e : BitVec.ofInt 32 (-imm) = -BitVec.ofInt 32 imm := BitVec.ofInt_neg
      rw [e, add_nat, sub_nat, BitVec.sub_eq_add_neg]
      rfl
    | _ =>
      obtain ⟨h1, h2⟩ := h
      refine ⟨_, rfl, rfl, fun x pc => ⟨?_, rfl⟩⟩
      first
        | exact key .ADD h1 h2 x | exact key .SLT h1 h2 x | exact key .SLTU h1 h2 x
        | exact key .AND h1 h2 x | exact key .OR h1 h2 x | exact key .XOR h1 h2 x
  | shift t =>
    refine ⟨_, rfl, rfl, fun x pc => ⟨?_, rfl⟩⟩
    obtain ⟨h1, h2⟩ := h
    show isaAlu _ _ (BitVec.ofNat 32 (ofPy 5 imm).toNat) = _
    obtain ⟨n, rfl⟩ := Int.eq_ofNat_of_zero_le h1
    have hn : n < 32 := by exact_mod_cast h2
    have : (ofPy 5 (n : Int)).toNat = n := by
      rw [ofPy, BitVec.ofInt_natCast, BitVec.toNat_ofNat]
      exact Nat.mod_eq_of_lt hn
    rw [this, BitVec.ofInt_natCast]
    rfl

/-- C52 is false of `asm_SUB(imm=-2048)`: the 12-bit negation of -2048 is -2048, so 2048 is subtracted from the register instead of added. -/
theorem C52_violated_sub : ∃ inst, asmSub 1 2 none (some (-2048)) = .ok inst ∧
    isaResult (fun _ => 0) 0 inst = BitVec.ofInt 32 (-2048) ∧ isaAlu (.arith .SUB) 0 (BitVec.ofInt 32 (-2048)) = BitVec.ofInt 32 2048 :=
  ⟨_, rfl, by decide, by decide⟩

/-- The other end of the range is right: subtracting 2048 is adding -2048. -/
example : ImmOk (.arith .SUB) 2048 ∧ ∃ inst, asmSub 1 2 none (some 2048) = .ok inst ∧ isaResult (fun _ => 5000) 0 inst = 2952 :=
  ⟨by unfold ImmOk; decide, _, rfl, by decide⟩

end Peak.RV
