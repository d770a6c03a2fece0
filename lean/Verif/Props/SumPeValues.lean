import Verif.Spec.RuleRight
import Verif.Props.InstMapC
import Verif.Props.SumPeCons
/-!
# C67: mapping to `examples/sum_pe` and `examples/tagged_pe` with a constraint on a data input
-/

namespace Peak.SPe
open Peak Peak.Spec

/-- Some instruction that meets the constraints computes `f` as its word for every allowed value of the first operand. -/
def FitsValues (cs : List Nat) (cons : List (RPath × List Nat)) (f : BitVec 8 → BitVec 8) : Prop :=
  ∃ k op c, IsInst k op c ∧ Meets cons k op c ∧ ∀ a ∈ cs, ∀ x, f x = word (k == kArith) (op == 1) (c != 0) (.ofNat 8 c) (.ofNat 8 a) x

/-- A function of one word. -/
def fn1 (f : BitVec 8 → BitVec 8) (xs : List (BitVec 8)) : BitVec 8 := f (xs[0]?.getD 0)

/-- `path_constraints` with allowed values for `in0` besides those for the instruction (tests/test_aadt_mapping.py:457-468). -/
def withIn0 (cs : List Nat) (cons : List (RPath × List Nat)) : List (RPath × List Nat) := ([1], cs) :: cons

theorem in0_problem (A : Ty → Except Err AsmObj) (tagged : Bool) (enc : IEnc) (f : List (BitVec 8) → BitVec 8) {cs : List Nat} (hcs : cs ≠ []) {cons : List (RPath × List Nat)} (hc : ConsOk cons) :
    DataConsProblem (consProblem A tagged enc 1 f (withIn0 cs cons)) 0 (instT tagged) (wordFields 8 1 1) (.cons 0 (.bv 0 8) .nil) dIn peOut := by
  have h := cons_problem A tagged enc 1 f hc
  refine ⟨h.ir_in, h.ir_out, h.arch_in, h.arch_out, h.iin_flat, h.iout_flat, h.din_flat, h.dout_flat, rfl, rfl, ?_, ?_⟩
  · intro p cs' hp
    simp only [consProblem, withIn0, List.mem_cons, Prod.mk.injEq] at hp
    rcases hp with ⟨rfl, rfl⟩ | hp
    · exact ⟨hcs, .inr ⟨1, .bv 0 8, rfl, by simp [dIn, Fields.toList], by simp⟩⟩
    · exact ⟨(h.cons p cs' hp).1, .inl (h.cons p cs' hp).2⟩
  · simp only [consProblem, withIn0, List.map_cons, List.nodup_cons]
    refine ⟨?_, hc.2⟩
    intro hm
    obtain ⟨⟨p, cs'⟩, hp, e⟩ := List.mem_map.mp hm
    simp only at e
    subst e
    obtain ⟨_, k, i, _, _, e⟩ := hc.1 _ _ hp
    simp at e

theorem in0_meets {cs : List Nat} {cons : List (RPath × List Nat)} {k : Key} {op c : Nat} : Meets (withIn0 cs cons) k op c ↔ Meets cons k op c := by
  simp [Meets, withIn0]

theorem in0_allowed {cs : List Nat} {cons : List (RPath × List Nat)} (hc : ConsOk cons) {z : Key → Nat} :
    AllowedData (withIn0 cs cons) dIn z ↔ ∃ a ∈ cs, BitVec.ofNat 8 (z 1) = BitVec.ofNat 8 a := by
  have e : ∀ a b : Nat, BitVec.ofNat 8 a = BitVec.ofNat 8 b ↔ a % 2 ^ 8 = b % 2 ^ 8 := by
    intro a b
    rw [← BitVec.toNat_inj, BitVec.toNat_ofNat, BitVec.toNat_ofNat]
  simp only [e]
  constructor
  · intro h
    exact h 1 (.bv 0 8) (by simp [dIn, Fields.toList]) cs (by simp [withIn0])
  · intro h k t hk cs' hcs'
    simp only [withIn0, List.mem_cons, Prod.mk.injEq, List.cons.injEq, and_true] at hcs'
    rcases hcs' with ⟨rfl, rfl⟩ | hp
    · have : t = .bv 0 8 := by simpa [dIn, Fields.toList] using hk
      rw [this]
      exact h
    · obtain ⟨_, k, i, _, _, e⟩ := hc.1 _ _ hp
      simp at e

/-- Which functions some instruction that meets the constraints computes. -/
theorem can_values {P : Process} (hP : MildProcess P) {tagged : Bool} {enc : IEnc} {f : BitVec 8 → BitVec 8} {cs : List Nat} {cons : List (RPath × List Nat)} (hc : ConsOk cons) :
    CanComputeValues P.asm (consProblem P.asm tagged enc 1 (fn1 f) (withIn0 cs cons)) (WIr.wordFn 8 (fn1 f)) peFn 0 (instT tagged) (wordFields 8 1 1) (.cons 0 (.bv 0 8) .nil) dIn peOut ↔
      FitsValues cs cons f := by
  constructor
  · rintro ⟨inst, src, out, hi, hv, hob, hS, hSn, hO, h⟩
    obtain ⟨k, op, c, rfl, ho, hk⟩ := inst_shape hi
    have ha := ((known hP tagged).valid_iff _ (SB.code_lt _ _ (inst_wf tagged) hi)).mp hv
    rw [accepts_inst ho hk] at ha
    refine ⟨k, op, c, ⟨ha, hk⟩, in0_meets.mp ((obeys_iff (key_of hk)).mp hob), ?_⟩
    obtain ⟨o, ho, hout, _⟩ := hO.once 0 (.bv 0 8) (by simp [Fields.toList])
    have ho0 : o = 0 := by
      simp only [peOut, Fields.toList, List.map_cons, List.map_nil, List.mem_cons, List.not_mem_nil, or_false] at ho
      rcases ho with h | rfl
      · exact h
      · have := hO.typed 1 (.bv 0 1) 0 (by simp [peOut, Fields.toList]) hout
        simp [Fields.toList] at this
    subst ho0
    have h1 : src 1 = none := hSn 1 (by simp [dIn, Fields.toList]) cs (by simp [consProblem, withIn0])
    intro a hacs x
    have := h (fun _ => x.toNat) (fun k => if k = 1 then a else x.toNat) (fun _ _ => []) (fun _ _ => 0) (fun _ _ => 0) ((in0_allowed hc).mpr ⟨a, hacs, rfl⟩)
      (by simp [consProblem, wordIr, BoxesCompute]) (by simp [consProblem, pe, BoxesCompute]) 0 (by simp [peOut, Fields.toList]) 0 hout
    have w1 : wired src (fun _ => x.toNat) (fun k => if k = 1 then a else x.toNat) 1 = a := by unfold wired; rw [h1]; rfl
    have w2 : wired src (fun _ => x.toNat) (fun k => if k = 1 then a else x.toNat) 2 = x.toNat := by unfold wired; cases src 2 <;> rfl
    simp only [dIn, rowOf, peFn, WIr.wordFn, prodBits, peOut, fieldBits, if_true, width, ofNat_mod8, w1, w2, wordFields, List.map_cons, List.map_nil, WIr.leafWord] at this
    have := (BitVec.eq_of_toNat_eq this).symm
    simpa [fn1] using this
  · rintro ⟨k, op, c, ⟨ha, hk⟩, hm, h⟩
    have ho : op < 4 := by omega
    have hh := inst_has (tagged := tagged) ho hk
    refine ⟨_, (fun k => if k = 2 then some 1 else none), (fun k => if k = 0 then some 0 else none), hh,
      ((known hP tagged).valid_iff _ (SB.code_lt _ _ (inst_wf tagged) hh)).mpr ((accepts_inst ho hk).mpr ha), (obeys_iff (key_of hk)).mpr (in0_meets.mpr hm), ⟨?_, ?_⟩, ?_, ⟨?_, ?_⟩, ?_⟩
    · intro a t q ha hq
      simp only [dIn, Fields.toList, List.mem_cons, Prod.mk.injEq, List.not_mem_nil, or_false] at ha
      rcases ha with ⟨rfl, rfl⟩ | ⟨rfl, rfl⟩ | ⟨rfl, rfl⟩ | ⟨rfl, rfl⟩ <;> simp at hq
      subst hq
      simp [wordFields, Fields.toList]
    · intro q t hq
      simp only [wordFields, Fields.toList, List.mem_cons, Prod.mk.injEq, List.not_mem_nil, or_false] at hq
      obtain ⟨rfl, rfl⟩ := hq
      simp [dIn, Fields.toList]
    · intro a ha cs' hcs'
      simp only [consProblem, withIn0, List.mem_cons, Prod.mk.injEq, List.cons.injEq, and_true] at hcs'
      rcases hcs' with ⟨rfl, rfl⟩ | hp
      · rfl
      · obtain ⟨_, k, i, _, _, e⟩ := hc.1 _ _ hp
        simp at e
    · intro a t q ha hq
      simp only [peOut, Fields.toList, List.mem_cons, Prod.mk.injEq, List.not_mem_nil, or_false] at ha
      rcases ha with ⟨rfl, rfl⟩ | ⟨rfl, rfl⟩ <;> simp at hq
      subst hq
      simp [Fields.toList]
    · intro q t hq
      simp only [Fields.toList, List.mem_cons, Prod.mk.injEq, List.not_mem_nil, or_false] at hq
      obtain ⟨rfl, rfl⟩ := hq
      simp [peOut, Fields.toList]
    · intro x z F ρi ρa hz _ _ a ha q hq
      obtain ⟨v, hv, e⟩ := (in0_allowed hc).mp hz
      simp only [peOut, Fields.toList, List.map_cons, List.map_nil, List.mem_cons, List.not_mem_nil, or_false] at ha
      rcases ha with rfl | rfl
      · simp only [if_true, Option.some.injEq] at hq
        subst hq
        have w1 : wired (fun k => if k = 2 then some 1 else none) x z 1 = z 1 := rfl
        have w2 : wired (fun k => if k = 2 then some 1 else none) x z 2 = x 1 := rfl
        simp only [dIn, rowOf, peFn, WIr.wordFn, prodBits, peOut, fieldBits, if_true, width, ofNat_mod8, w1, w2, wordFields, List.map_cons, List.map_nil, WIr.leafWord, e, fn1]
        rw [← h v hv]
        simp
      · simp at hq

/-- C67: with allowed values for the first operand and any constraints on the instruction, either PE, either encoding of the index variables and any sound and complete solver, the mapper returns a
rule for a function of one word if and only if some instruction that meets the constraints computes it as its word for each of those values; every rule with another of the values in place
of the one returned is a correct mapping too. Otherwise it returns `None`. -/
theorem C67_mapped (P : Process) (hP : MildProcess P) (tagged : Bool) (enc : IEnc) (cs : List Nat) (hcs : cs ≠ []) (cons : List (RPath × List Nat)) (hc : ConsOk cons) (f : BitVec 8 → BitVec 8)
    (solve : (MAsg Nat → Prop) → Option (MAsg Nat)) (hsat : ∀ φ a, solve φ = some a → φ a) (hcomp : ∀ φ a, φ a → ∃ a', solve φ = some a') (a0 : MAsg Nat) :
    (FitsValues cs cons f → ∃ r, mapSolve P.asm (consProblem P.asm tagged enc 1 (fn1 f) (withIn0 cs cons)) solve a0 = .ok (some r) ∧
      (∃ r', WithValues (consProblem P.asm tagged enc 1 (fn1 f) (withIn0 cs cons)) r r') ∧ ∀ r', WithValues (consProblem P.asm tagged enc 1 (fn1 f) (withIn0 cs cons)) r r' →
        IsMappingC P.asm (consProblem P.asm tagged enc 1 (fn1 f) (withIn0 cs cons)) r' ∧ RuleRight P (wordIr 8 1 (fn1 f)) (pe P.asm tagged) r') ∧
    (¬ FitsValues cs cons f → mapSolve P.asm (consProblem P.asm tagged enc 1 (fn1 f) (withIn0 cs cons)) solve a0 = .ok none) := by
  have key := C33_instruction_values P (consProblem P.asm tagged enc 1 (fn1 f) (withIn0 cs cons)) (WIr.wordFn 8 (fn1 f)) peFn (fun _ => [1]) 0 (instT tagged) _ _ _ _
    (in0_problem P.asm tagged enc (fn1 f) hcs hc) rfl rfl
    (any_setup P tagged enc (by decide) (fn1 f)) (pe_total P tagged) ((known hP tagged).leaves (known_leaves hP tagged)) solve hsat hcomp a0
  rw [can_values hP hc] at key
  have S := any_setup P tagged enc (n := 1) (by decide) (fn1 f)
  exact ⟨fun a => let ⟨r, x, y, z⟩ := key.1 a; ⟨r, x, y, fun r' h => ⟨(z r' h).1, _, _, S.ir_fn, S.arch_fn, (z r' h).2⟩⟩, key.2⟩

/-- C67: the same with `simple_formula=True`. -/
theorem C67_mapped_simple (P : Process) (hP : MildProcess P) (tagged : Bool) (enc : IEnc) (cs : List Nat) (hcs : cs ≠ []) (cons : List (RPath × List Nat)) (hc : ConsOk cons)
    (f : BitVec 8 → BitVec 8) (solve : (SAsg Nat → Prop) → Option (SAsg Nat)) (hsat : ∀ φ a, solve φ = some a → φ a) (hcomp : ∀ φ a, φ a → ∃ a', solve φ = some a') (a0 : SAsg Nat) :
    (FitsValues cs cons f → ∃ r, simpleSolve P.asm (consProblem P.asm tagged enc 1 (fn1 f) (withIn0 cs cons)) solve a0 = .ok (some r) ∧
      (∃ r', WithValues (consProblem P.asm tagged enc 1 (fn1 f) (withIn0 cs cons)) r r') ∧ ∀ r', WithValues (consProblem P.asm tagged enc 1 (fn1 f) (withIn0 cs cons)) r r' →
        IsMappingC P.asm (consProblem P.asm tagged enc 1 (fn1 f) (withIn0 cs cons)) r' ∧ RuleRight P (wordIr 8 1 (fn1 f)) (pe P.asm tagged) r') ∧
    (¬ FitsValues cs cons f → simpleSolve P.asm (consProblem P.asm tagged enc 1 (fn1 f) (withIn0 cs cons)) solve a0 = .ok none) := by
  have key := C55_instruction_values P (consProblem P.asm tagged enc 1 (fn1 f) (withIn0 cs cons)) (WIr.wordFn 8 (fn1 f)) peFn (fun _ => [1]) 0 (instT tagged) _ _ _ _
    (in0_problem P.asm tagged enc (fn1 f) hcs hc)
    (any_setup P tagged enc (by decide) (fn1 f)) (pe_total P tagged) (pe_boxes P.asm tagged) ((known hP tagged).leaves (known_leaves hP tagged)) solve hsat hcomp a0
  rw [can_values hP hc] at key
  have S := any_setup P tagged enc (n := 1) (by decide) (fn1 f)
  exact ⟨fun a => let ⟨r, x, y, z⟩ := key.1 a; ⟨r, x, y, fun r' h => ⟨(z r' h).1, _, _, S.ir_fn, S.arch_fn, (z r' h).2⟩⟩, key.2⟩

/-- C67: with more allowed values no more is found. -/
theorem C67_more_values (P : Process) (hP : MildProcess P) (tagged : Bool) (enc : IEnc) (cs cs' : List Nat) (hcs : cs ≠ []) (hsub : ∀ a ∈ cs, a ∈ cs') (cons : List (RPath × List Nat))
    (hc : ConsOk cons) (f : BitVec 8 → BitVec 8)
    (solve : (MAsg Nat → Prop) → Option (MAsg Nat)) (hsat : ∀ φ a, solve φ = some a → φ a) (hcomp : ∀ φ a, φ a → ∃ a', solve φ = some a') (a0 : MAsg Nat)
    (h : mapSolve P.asm (consProblem P.asm tagged enc 1 (fn1 f) (withIn0 cs cons)) solve a0 = .ok none) :
    mapSolve P.asm (consProblem P.asm tagged enc 1 (fn1 f) (withIn0 cs' cons)) solve a0 = .ok none := by
  have hcs' : cs' ≠ [] := by
    rintro rfl
    obtain ⟨a, ha⟩ := List.exists_mem_of_ne_nil _ hcs
    exact absurd (hsub a ha) (by simp)
  refine (C67_mapped P hP tagged enc cs' hcs' cons hc f solve hsat hcomp a0).2 ?_
  rintro ⟨k, op, c, h1, h2, h3⟩
  obtain ⟨r, hr, _⟩ := (C67_mapped P hP tagged enc cs hcs cons hc f solve hsat hcomp a0).1 ⟨k, op, c, h1, h2, fun a ha => h3 a (hsub a ha)⟩
  rw [h] at hr
  simp at hr

/-- The constant 0 is the conjunction with 0, and so with the allowed values 0 and 256, which are the same in 8 bits; with 1 and 2 allowed nothing computes it
from in1. -/
example : FitsValues [0, 256] [] (fun _ => 0) :=
  ⟨kBit, 1, 0, ⟨.inl rfl, .inr ⟨rfl, by decide⟩⟩, by simp [Meets], fun a ha x => by
    have : BitVec.ofNat 8 a = 0 := by
      simp only [List.mem_cons, List.not_mem_nil, or_false] at ha
      rcases ha with rfl | rfl <;> rfl
    simp [word, kBit, kArith, this]⟩
example : ¬ FitsValues [1, 2] [] (fun _ => 0) := by
  rintro ⟨k, op, c, ⟨ho, hk⟩, _, h⟩
  rcases hk with ⟨rfl, hc⟩ | ⟨rfl, hc⟩
  · have e1 := (h 1 (by simp) 0).symm.trans (h 1 (by simp) 1)
    rcases ho with rfl | rfl <;> simp [word] at e1
  · have e1 := (h 1 (by simp) 0).symm.trans (h 1 (by simp) 255)
    rcases ho with rfl | rfl <;> by_cases hc0 : (c != 0) = true <;> simp [word, kBit, kArith, hc0] at e1

/-! ## `tests/test_aadt_mapping.py` -/

/-- The constraints on the instruction of test_non_const_constraint: the operation `A` and the offset 5. -/
def add5Cons : List (RPath × List Nat) := [([0, kArith, 0], [1]), ([0, kArith, 1], [5])]

/-- Its values for `in0`, -5 and -4 as vectors of 8 bits, with the answers expected there. -/
def in0Tests : List (List Nat × Bool) := [([251], true), ([252], false), ([251, 252], false)]

/-- The first operand is returned unchanged if 5 and the value of the other one add up to 0; a bitwise instruction also returns it, for the value 0 or 255. -/
theorem id_fits (cs : List Nat) : FitsValues cs add5Cons id ↔ (∀ a ∈ cs, a % 256 = 251) ∨ (∀ a ∈ cs, a % 256 = 255) ∨ (∀ a ∈ cs, a % 256 = 0) := by
  have e : ∀ a b : Nat, BitVec.ofNat 8 a = BitVec.ofNat 8 b ↔ a % 256 = b % 256 := by
    intro a b
    rw [← BitVec.toNat_inj, BitVec.toNat_ofNat, BitVec.toNat_ofNat]
  constructor
  · rintro ⟨k, op, c, ⟨ho, hk⟩, hm, h⟩
    rcases hk with ⟨rfl, hc⟩ | ⟨rfl, hc⟩
    · have h1 : op = 1 := by simpa using hm.1 [1] (by simp [add5Cons])
      have h2 : c = 5 := by simpa [kArith] using hm.2 [5] (by simp [add5Cons])
      subst h1 h2
      refine .inl (fun a ha => ?_)
      have := h a ha 0
      simp only [word, beq_self_eq_true, if_true, id] at this
      have := congrArg BitVec.toNat this
      simp at this
      omega
    · rcases ho with rfl | rfl
      · have hc0 : c = 0 ∨ ∀ a ∈ cs, False := by
          by_cases hcc : c = 0
          · exact .inl hcc
          · refine .inr (fun a ha => ?_)
            have := h a ha 0
            have hb : (c != 0) = true := by simp [hcc]
            simp [word, kBit, kArith, hb] at this
        rcases hc0 with rfl | hf
        · refine .inr (.inl (fun a ha => ?_))
          have := h a ha 255
          simp only [word, kBit, kArith, id] at this
          have := (e 255 a).mp (by
            have h255 : BitVec.ofNat 8 a &&& 255#8 = BitVec.ofNat 8 a := BitVec.and_allOnes
            simpa [h255] using this)
          omega
        · exact .inl (fun a ha => (hf a ha).elim)
      · have hc0 : c = 0 ∨ ∀ a ∈ cs, False := by
          by_cases hcc : c = 0
          · exact .inl hcc
          · refine .inr (fun a ha => ?_)
            have := h a ha 255
            have hb : (c != 0) = true := by simp [hcc]
            have h255 : BitVec.ofNat 8 a ||| 255#8 = 255#8 := BitVec.or_allOnes
            simp [word, kBit, kArith, hb, h255] at this
        rcases hc0 with rfl | hf
        · refine .inr (.inr (fun a ha => ?_))
          have := h a ha 0
          simp only [word, kBit, kArith, id] at this
          have := (e 0 a).mp (by simpa using this)
          omega
        · exact .inl (fun a ha => (hf a ha).elim)
  · rintro (h | h | h)
    · refine ⟨kArith, 1, 5, ⟨.inl rfl, .inl ⟨rfl, by decide⟩⟩, by simp [Meets, add5Cons, kArith], fun a ha x => ?_⟩
      rw [(e a 251).mpr (h a ha)]
      simp only [word, beq_self_eq_true, if_true, id]
      rw [BitVec.add_comm, ← BitVec.add_assoc]
      simp
    · refine ⟨kBit, 1, 0, ⟨.inl rfl, .inr ⟨rfl, by decide⟩⟩, by simp [Meets, add5Cons, kBit, kArith], fun a ha x => ?_⟩
      rw [(e a 255).mpr (h a ha)]
      have : (BitVec.ofNat 8 255 &&& x) = x := BitVec.allOnes_and
      simp [word, kBit, kArith, this]
    · refine ⟨kBit, 2, 0, ⟨.inr rfl, .inr ⟨rfl, by decide⟩⟩, by simp [Meets, add5Cons, kBit, kArith], fun a ha x => ?_⟩
      rw [(e a 0).mpr (h a ha)]
      simp [word, kBit, kArith]

theorem add5_ok : ConsOk add5Cons := by
  refine ⟨?_, by simp [add5Cons, kArith]⟩
  intro p cs h
  simp only [add5Cons, List.mem_cons, Prod.mk.injEq, List.not_mem_nil, or_false] at h
  rcases h with ⟨rfl, rfl⟩ | ⟨rfl, rfl⟩
  · exact ⟨by simp, kArith, 0, .inl rfl, .inl rfl, rfl⟩
  · exact ⟨by simp, kArith, 1, .inl rfl, .inr rfl, rfl⟩

/-- C67: test_non_const_constraint (tests/test_aadt_mapping.py:430-469), with both formulas and for every sound and complete solver. -/
theorem C67_test_non_const_constraint (P : Process) (hP : MildProcess P) (tagged : Bool) (enc : IEnc)
    (solve : (MAsg Nat → Prop) → Option (MAsg Nat)) (hsat : ∀ φ a, solve φ = some a → φ a) (hcomp : ∀ φ a, φ a → ∃ a', solve φ = some a') (a0 : MAsg Nat)
    (solve' : (SAsg Nat → Prop) → Option (SAsg Nat)) (hsat' : ∀ φ a, solve' φ = some a → φ a) (hcomp' : ∀ φ a, φ a → ∃ a', solve' φ = some a') (a0' : SAsg Nat) :
    ∀ row ∈ in0Tests,
      (if row.2 then ∃ r, mapSolve P.asm (consProblem P.asm tagged enc 1 (fn1 id) (withIn0 row.1 add5Cons)) solve a0 = .ok (some r)
        else mapSolve P.asm (consProblem P.asm tagged enc 1 (fn1 id) (withIn0 row.1 add5Cons)) solve a0 = .ok none) ∧
      (if row.2 then ∃ r, simpleSolve P.asm (consProblem P.asm tagged enc 1 (fn1 id) (withIn0 row.1 add5Cons)) solve' a0' = .ok (some r)
        else simpleSolve P.asm (consProblem P.asm tagged enc 1 (fn1 id) (withIn0 row.1 add5Cons)) solve' a0' = .ok none) := by
  intro row hrow
  have hrow' : row.1 ≠ [] ∧ (row.2 = true ↔ FitsValues row.1 add5Cons id) := by
    simp only [in0Tests, List.mem_cons, List.not_mem_nil, or_false] at hrow
    rcases hrow with rfl | rfl | rfl <;> simp [id_fits]
  have h1 := C67_mapped P hP tagged enc row.1 hrow'.1 add5Cons add5_ok id solve hsat hcomp a0
  have h2 := C67_mapped_simple P hP tagged enc row.1 hrow'.1 add5Cons add5_ok id solve' hsat' hcomp' a0'
  rw [← hrow'.2] at h1 h2
  cases hb : row.2
  · exact ⟨h1.2 (by simp [hb]), h2.2 (by simp [hb])⟩
  · obtain ⟨r1, g1, _⟩ := h1.1 hb
    obtain ⟨r2, g2, _⟩ := h2.1 hb
    exact ⟨⟨r1, g1⟩, ⟨r2, g2⟩⟩

end Peak.SPe
