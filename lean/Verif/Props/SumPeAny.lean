import Verif.Spec.RuleRight
import Verif.Props.InstMap
import Verif.Props.SumPe
/-!
# C61: which functions are mapped to the PEs of `examples/sum_pe` and `examples/tagged_pe`

For every function of two words, not only those of `SmallIR`.
-/

namespace Peak.SPe
open Peak Peak.Spec

/-- What the lambdas of `SmallIR` are meant to compute, on numbers below 256. -/
def smallOp : Op → Nat → Nat → Nat
  | .add, x, y => (x + y) % 256
  | .sub, x, y => (x + (256 - y)) % 256
  | .and, x, y => x &&& y
  | .nand, x, y => 255 - (x &&& y)
  | .or, x, y => x ||| y
  | .nor, x, y => 255 - (x ||| y)
  | .mul, x, y => x * y % 256
  | .shftr, x, y => x / 2 ^ y
  | .shftl, x, y => x * 2 ^ y % 256
  | .not, x, _ => 255 - x
  | .neg, x, _ => (256 - x) % 256

/-- C61: what the instructions of `SmallIR` compute (`Not` and `Neg` take one argument). -/
theorem C61_small_ir_ops (op : Op) (x y : Nat) (hx : x < 256) (hy : y < 256) (k k' : Key) (bb : List (Nat × List BV)) :
    (op ≠ .not ∧ op ≠ .neg → (ir op).run [(k, .bits (BV.ofNat 8 x)), (k', .bits (BV.ofNat 8 y))] bb = ([.bits (BV.ofNat 8 (smallOp op x y))], [])) ∧
    (op = .not ∨ op = .neg → (ir op).run [(k, .bits (BV.ofNat 8 x))] bb = ([.bits (BV.ofNat 8 (smallOp op x y))], [])) := by
  have hs : ∀ a : Nat, a < 256 → 256 - 1 - a = 255 - a := fun _ _ => rfl
  have key : ∀ z, (op = .not ∨ op = .neg) ∨ z = BitVec.ofNat 8 y → (op.fn (.ofNat 8 x) z).toNat = smallOp op x y := by
    intro z hz
    have hand : x &&& y < 256 := Nat.and_lt_two_pow (n := 8) x hy
    have hor : x ||| y < 256 := Nat.or_lt_two_pow (n := 8) hx hy
    have hx' : x % 256 = x := Nat.mod_eq_of_lt hx
    have hy' : y % 256 = y := Nat.mod_eq_of_lt hy
    cases op <;> simp at hz <;> (try subst hz) <;>
      simp [Op.fn, smallOp, Nat.shiftRight_eq_div_pow, Nat.shiftLeft_eq, Nat.mod_eq_of_lt hand, Nat.mod_eq_of_lt hor, hx', hy'] <;> omega
  constructor
  · intro h
    simp only [ir, b8, w8_ofNat]
    rw [key _ (.inr rfl)]
  · intro h
    simp only [ir, b8, w8_ofNat]
    rw [key _ (.inl h)]

example : smallOp .sub 3 5 = 254 ∧ smallOp .shftl 3 7 = 128 ∧ smallOp .neg 0 0 = 0 ∧ smallOp .nor 5 6 = 248 := by decide

/-- A function of two words, or of one, mapped to one of the PEs. -/
def anyProblem (A : Ty → Except Err AsmObj) (tagged : Bool) (enc : IEnc) (n : Nat) (f : List (BitVec 8) → BitVec 8) : MapPb Nat Nat where
  ir := wordIr 8 n f
  arch := pe A tagged
  irConst := []
  archConst := [[0]]
  cons := []
  enc := enc

/-- The data inputs of the PEs. -/
def dIn : Fields := .cons 1 (.bv 0 8) (.cons 2 (.bv 0 8) (.cons 3 (.bv 0 8) (.cons 4 (.bit 0) .nil)))

/-- What the PEs can compute from two words: a sum or difference plus a constant, or a conjunction or disjunction, perhaps negated. -/
def Sums (g : BitVec 8 → BitVec 8 → BitVec 8) : Prop :=
  (∃ c, ∀ x y, g x y = x + y + c) ∨ (∃ c, ∀ x y, g x y = x - y + c) ∨ (∃ c, ∀ x y, g x y = y - x + c) ∨
  (∀ x y, g x y = x &&& y) ∨ (∀ x y, g x y = ~~~(x &&& y)) ∨ (∀ x y, g x y = x ||| y) ∨ (∀ x y, g x y = ~~~(x ||| y))

theorem any_problem (A : Ty → Except Err AsmObj) (tagged : Bool) (enc : IEnc) (n : Nat) (f : List (BitVec 8) → BitVec 8) :
    InstProblem (anyProblem A tagged enc n f) 0 (instT tagged) (wordFields 8 1 n) (.cons 0 (.bv 0 8) .nil) dIn peOut := by
  refine ⟨⟨8, rfl⟩, ⟨9, rfl⟩, ⟨6, rfl⟩, ⟨7, rfl⟩, WIr.fields_flat 8 1 n, ?_, ?_, ?_, rfl, rfl, rfl, rfl, rfl⟩
  · intro k t h
    simp only [Fields.toList, List.mem_singleton, Prod.mk.injEq] at h
    rw [h.2]
    trivial
  · intro k t h
    simp only [dIn, Fields.toList, List.mem_cons, Prod.mk.injEq, List.not_mem_nil, or_false] at h
    rcases h with ⟨_, rfl⟩ | ⟨_, rfl⟩ | ⟨_, rfl⟩ | ⟨_, rfl⟩ <;> trivial
  · intro k t h
    simp only [peOut, Fields.toList, List.mem_cons, Prod.mk.injEq, List.not_mem_nil, or_false] at h
    rcases h with ⟨_, rfl⟩ | ⟨_, rfl⟩ <;> trivial

theorem any_setup (P : Process) (tagged : Bool) (enc : IEnc) {n : Nat} (hn : 0 < n) (f : List (BitVec 8) → BitVec 8) :
    Setup P (anyProblem P.asm tagged enc n f).ir (anyProblem P.asm tagged enc n f).arch (WIr.wordFn 8 f) peFn (fun _ => [1]) := by
  have S := pe_setup P tagged .add
  refine WIr.setup 8 n f (by decide) hn S.arch_fn S.arch_in S.arch_out rfl ?_ rfl
  intro r bb h
  simp only [peFn]
  split <;> rfl

theorem any_trusted (P : Process) (tagged : Bool) (enc : IEnc) (n : Nat) (f : List (BitVec 8) → BitVec 8) (hI : Trusted P (instT tagged)) (hO : Trusted P opT) :
    ∀ p c ms, (p, Ty.enum c ms) ∈ leafTypes (anyProblem P.asm tagged enc n f).arch.inT [] → Trusted P (.enum c ms) :=
  (trusted_parts P tagged enc .add hI hO).2

/-- Every instruction computes one of the words. -/
theorem inst_word {tagged : Bool} {v : Val} (h : (instT tagged).Has v) : ∃ arith opA neg off, ∀ a b e d bb,
    (peFn (.prod [rawOf (instT tagged) v, .leaf a, .leaf b, .leaf e, .leaf d]) bb).1 = .prod [.leaf (word arith opA neg off (.ofNat 8 a) (.ofNat 8 b)).toNat, .leaf d] := by
  obtain ⟨k, op, c, e, _, _⟩ := inst_shape (C38_rawOf _ v (inst_wf tagged) h).1
  rw [e]
  exact ⟨k == kArith, op == 1, c != 0, .ofNat 8 c, fun _ _ _ _ _ => rfl⟩

/-- Every one of the words is computed by an instruction. -/
theorem word_inst (tagged arith opA neg : Bool) (off : BitVec 8) : ∃ v, (instT tagged).Has v ∧ ∀ a b e d bb,
    (peFn (.prod [rawOf (instT tagged) v, .leaf a, .leaf b, .leaf e, .leaf d]) bb).1 = .prod [.leaf (word arith opA neg off (.ofNat 8 a) (.ofNat 8 b)).toNat, .leaf d] := by
  let m : EVal := if opA then memA else .lit 2
  have hm : opT.Has (.enum m) := by cases opA <;> simp [m, opT, Ty.Has]
  have hc : rawOf opT (.enum m) = .leaf (if opA then 1 else 2) := by
    cases opA
    · exact congrArg RVal.leaf (by decide +kernel)
    · exact congrArg RVal.leaf (by decide +kernel)
  cases arith
  · refine ⟨.sum kBit (.prod [.enum m, .bits (BV.ofNat 1 neg.toNat)]), ?_, ?_⟩
    · cases tagged <;> simp [instT, bitOpT, Ty.Has, Fields.HasAt, Fields.HasAll, hm, kBit, kArith, BV.ofNat_size]
    · intro a b e d bb
      have : rawOf (instT tagged) (.sum kBit (.prod [.enum m, .bits (BV.ofNat 1 neg.toNat)])) = .sum kBit (.prod [.leaf (if opA then 1 else 2), .leaf neg.toNat]) := by
        have h1 : neg.toNat % 2 = neg.toNat := by cases neg <;> rfl
        cases tagged <;> simp [instT, bitOpT, rawOf, rawOfAt, rawOfAll, hc, kBit, kArith, encode, BV.ofNat_val, h1]
      rw [this]
      cases opA <;> cases neg <;> simp [peFn, word, kBit, kArith]
  · refine ⟨.sum kArith (.prod [.enum m, .bits (BV.ofNat 8 off.toNat)]), ?_, ?_⟩
    · cases tagged <;> simp [instT, arithOpT, Ty.Has, Fields.HasAt, Fields.HasAll, hm, kBit, kArith, BV.ofNat_size]
    · intro a b e d bb
      have : rawOf (instT tagged) (.sum kArith (.prod [.enum m, .bits (BV.ofNat 8 off.toNat)])) = .sum kArith (.prod [.leaf (if opA then 1 else 2), .leaf off.toNat]) := by
        have h1 : off.toNat % 256 = off.toNat := Nat.mod_eq_of_lt off.isLt
        cases tagged <;> simp [instT, arithOpT, rawOf, rawOfAt, rawOfAll, hc, kBit, kArith, encode, BV.ofNat_val, h1]
      rw [this]
      cases opA <;> simp [peFn, word, kArith]

/-- Both operands of a word matter. -/
theorem operands_matter (arith opA neg : Bool) (off : BitVec 8) :
    (∃ b z z', word arith opA neg off z b ≠ word arith opA neg off z' b) ∧ ∃ a z z', word arith opA neg off a z ≠ word arith opA neg off a z' := by
  cases arith <;> cases opA
  · exact ⟨⟨0, 0, 255, by cases neg <;> simp [word]⟩, ⟨0, 0, 255, by cases neg <;> simp [word]⟩⟩
  · exact ⟨⟨255, 0, 255, by cases neg <;> simp [word]⟩, ⟨255, 0, 255, by cases neg <;> simp [word]⟩⟩
  · exact ⟨⟨0, 0, 1, by simp [word]⟩, ⟨0, 0, 1, by simp [word]⟩⟩
  · exact ⟨⟨0, 0, 1, by simp [word]⟩, ⟨0, 0, 1, by simp [word]⟩⟩

theorem ofNat_mod8 (n : Nat) : BitVec.ofNat 8 (n % 2 ^ 8) = .ofNat 8 n := by
  apply BitVec.eq_of_toNat_eq
  simp

/-- The wiring of an instruction that computes `f`. -/
theorem wiring {tagged : Bool} {n : Nat} {f : List (BitVec 8) → BitVec 8} (hc : CanCompute (WIr.wordFn 8 f) peFn (instT tagged) (wordFields 8 1 n) (.cons 0 (.bv 0 8) .nil) dIn peOut) :
    ∃ arith opA neg off q1 q2, q1 ≠ q2 ∧ (1 ≤ q1 ∧ q1 ≤ n) ∧ (1 ≤ q2 ∧ q2 ≤ n) ∧ ∀ x : Key → Nat,
      f ((rowOf (wordFields 8 1 n) x).map (WIr.leafWord 8)) = word arith opA neg off (.ofNat 8 (x q1)) (.ofNat 8 (x q2)) := by
  obtain ⟨v, src, out, hv, hS, hO, h⟩ := hc
  obtain ⟨arith, opA, neg, off, hw⟩ := inst_word hv
  obtain ⟨o, ho, hout, _⟩ := hO.once 0 (.bv 0 8) (by simp [Fields.toList])
  have ho0 : o = 0 := by
    simp only [peOut, Fields.toList, List.map_cons, List.map_nil, List.mem_cons, List.not_mem_nil, or_false] at ho
    rcases ho with h | rfl
    · exact h
    · have := hO.typed 1 (.bv 0 1) 0 (by simp [peOut, Fields.toList]) hout
      simp [Fields.toList] at this
  subst ho0
  have key : ∀ x z : Key → Nat, f ((rowOf (wordFields 8 1 n) x).map (WIr.leafWord 8)) = word arith opA neg off (.ofNat 8 (wired src x z 1)) (.ofNat 8 (wired src x z 2)) := by
    intro x z
    have := h x z 0 (by simp [peOut, Fields.toList]) 0 hout
    simp only [dIn, rowOf, hw, WIr.wordFn, prodBits, peOut, fieldBits, if_true, width, ofNat_mod8] at this
    exact (BitVec.eq_of_toNat_eq this).symm
  obtain ⟨⟨b, z1, z1', m1⟩, ⟨a, z2, z2', m2⟩⟩ := operands_matter arith opA neg off
  have h1 : ∃ q, src 1 = some q := by
    by_contra hne
    have hn : src 1 = none := Option.eq_none_iff_forall_ne_some.mpr (fun q hq => hne ⟨q, hq⟩)
    apply m1
    have e : ∀ z : BitVec 8, f ((rowOf (wordFields 8 1 n) (fun _ => b.toNat)).map (WIr.leafWord 8)) = word arith opA neg off z b := by
      intro z
      have := key (fun _ => b.toNat) (fun k => if k = 1 then z.toNat else b.toNat)
      have h2 : wired src (fun _ => b.toNat) (fun k => if k = 1 then z.toNat else b.toNat) 2 = b.toNat := by
        unfold wired; cases src 2 <;> rfl
      have h1 : wired src (fun _ => b.toNat) (fun k => if k = 1 then z.toNat else b.toNat) 1 = z.toNat := by
        unfold wired; rw [hn]; rfl
      rw [h1, h2] at this
      simpa using this
    rw [← e, ← e]
  have h2 : ∃ q, src 2 = some q := by
    by_contra hne
    have hn : src 2 = none := Option.eq_none_iff_forall_ne_some.mpr (fun q hq => hne ⟨q, hq⟩)
    apply m2
    have e : ∀ z : BitVec 8, f ((rowOf (wordFields 8 1 n) (fun _ => a.toNat)).map (WIr.leafWord 8)) = word arith opA neg off a z := by
      intro z
      have := key (fun _ => a.toNat) (fun k => if k = 2 then z.toNat else a.toNat)
      have h1 : wired src (fun _ => a.toNat) (fun k => if k = 2 then z.toNat else a.toNat) 1 = a.toNat := by
        unfold wired; cases src 1 <;> rfl
      have h2 : wired src (fun _ => a.toNat) (fun k => if k = 2 then z.toNat else a.toNat) 2 = z.toNat := by
        unfold wired; rw [hn]; rfl
      rw [h1, h2] at this
      simpa using this
    rw [← e, ← e]
  obtain ⟨q1, h1⟩ := h1
  obtain ⟨q2, h2⟩ := h2
  have t1 := hS.typed 1 (.bv 0 8) q1 (by simp [dIn, Fields.toList]) h1
  have t2 := hS.typed 2 (.bv 0 8) q2 (by simp [dIn, Fields.toList]) h2
  have g1 := WIr.fields_mem.mp t1
  have g2 := WIr.fields_mem.mp t2
  refine ⟨arith, opA, neg, off, q1, q2, ?_, ⟨g1.1, by omega⟩, ⟨g2.1, by omega⟩, ?_⟩
  · rintro rfl
    obtain ⟨k, _, _, hk⟩ := hS.once q1 _ t1
    have e1 := hk 1 (by simp [dIn, Fields.toList]) h1
    have e2 := hk 2 (by simp [dIn, Fields.toList]) h2
    exact absurd (e1.trans e2.symm) (by decide)
  · intro x
    have := key x (fun _ => 0)
    simpa only [wired, h1, h2] using this

/-- The PEs compute a function of two words if and only if it is one of `Sums`. -/
theorem two_words (tagged : Bool) (f : List (BitVec 8) → BitVec 8) :
    CanCompute (WIr.wordFn 8 f) peFn (instT tagged) (wordFields 8 1 2) (.cons 0 (.bv 0 8) .nil) dIn peOut ↔ Sums (fun x y => f [x, y]) := by
  constructor
  · intro hc
    obtain ⟨arith, opA, neg, off, q1, q2, hne, h1, h2, h⟩ := wiring hc
    have h' : ∀ x y : BitVec 8, f [x, y] = word arith opA neg off (if q1 = 1 then x else y) (if q2 = 1 then x else y) := by
      intro x y
      have := h (fun k => if k = 1 then x.toNat else y.toNat)
      simp only [wordFields, rowOf, List.map_cons, List.map_nil, WIr.leafWord, width, ofNat_mod8, if_true] at this
      rw [if_neg (by decide)] at this
      simp only [BitVec.ofNat_toNat, BitVec.setWidth_eq] at this
      rw [this]
      congr 1 <;> split <;> simp
    have hq : q1 = 1 ∧ q2 = 2 ∨ q1 = 2 ∧ q2 = 1 := by omega
    have hd : ¬ ((2 : Nat) = 1) := by decide
    rcases hq with ⟨rfl, rfl⟩ | ⟨rfl, rfl⟩ <;> simp only [if_true, if_neg hd] at h'
    · cases arith <;> cases opA
      · cases neg
        · exact .inr (.inr (.inr (.inr (.inr (.inl (fun x y => by simp [h', word]))))))
        · exact .inr (.inr (.inr (.inr (.inr (.inr (fun x y => by simp [h', word]))))))
      · cases neg
        · exact .inr (.inr (.inr (.inl (fun x y => by simp [h', word]))))
        · exact .inr (.inr (.inr (.inr (.inl (fun x y => by simp [h', word])))))
      · exact .inr (.inl ⟨off, fun x y => by simp [h', word]⟩)
      · exact .inl ⟨off, fun x y => by simp [h', word]⟩
    · cases arith <;> cases opA
      · cases neg
        · exact .inr (.inr (.inr (.inr (.inr (.inl (fun x y => by simp [h', word, BitVec.or_comm]))))))
        · exact .inr (.inr (.inr (.inr (.inr (.inr (fun x y => by simp [h', word, BitVec.or_comm]))))))
      · cases neg
        · exact .inr (.inr (.inr (.inl (fun x y => by simp [h', word, BitVec.and_comm]))))
        · exact .inr (.inr (.inr (.inr (.inl (fun x y => by simp [h', word, BitVec.and_comm])))))
      · exact .inr (.inr (.inl ⟨off, fun x y => by simp [h', word]⟩))
      · exact .inl ⟨off, fun x y => by simp [h', word, BitVec.add_comm y x]⟩
  · intro h
    have hw : ∃ (swap arith opA neg : Bool) (off : BitVec 8), ∀ x y, f [x, y] = word arith opA neg off (if swap then y else x) (if swap then x else y) := by
      rcases h with ⟨c, h⟩ | ⟨c, h⟩ | ⟨c, h⟩ | h | h | h | h
      · exact ⟨false, true, true, false, c, fun x y => by simp [h, word]⟩
      · exact ⟨false, true, false, false, c, fun x y => by simp [h, word]⟩
      · exact ⟨true, true, false, false, c, fun x y => by simp [h, word]⟩
      · exact ⟨false, false, true, false, 0, fun x y => by simp [h, word]⟩
      · exact ⟨false, false, true, true, 0, fun x y => by simp [h, word]⟩
      · exact ⟨false, false, false, false, 0, fun x y => by simp [h, word]⟩
      · exact ⟨false, false, false, true, 0, fun x y => by simp [h, word]⟩
    obtain ⟨swap, arith, opA, neg, off, hf⟩ := hw
    obtain ⟨v, hv, hp⟩ := word_inst tagged arith opA neg off
    refine ⟨v, fun k => if k = 1 then some (if swap then 2 else 1) else if k = 2 then some (if swap then 1 else 2) else none, fun k => if k = 0 then some 0 else none, hv,
      ⟨?_, ?_⟩, ⟨?_, ?_⟩, ?_⟩
    · intro a t i ha hi
      simp only [dIn, Fields.toList, List.mem_cons, Prod.mk.injEq, List.not_mem_nil, or_false] at ha
      rcases ha with ⟨rfl, rfl⟩ | ⟨rfl, rfl⟩ | ⟨rfl, rfl⟩ | ⟨rfl, rfl⟩ <;> simp at hi <;> subst hi <;> cases swap <;> simp [wordFields, Fields.toList]
    · intro i t hi
      simp only [wordFields, Fields.toList, List.mem_cons, Prod.mk.injEq, List.not_mem_nil, or_false] at hi
      rcases hi with ⟨rfl, rfl⟩ | ⟨rfl, rfl⟩ <;> cases swap <;> simp [dIn, Fields.toList]
    · intro a t i ha hi
      simp only [peOut, Fields.toList, List.mem_cons, Prod.mk.injEq, List.not_mem_nil, or_false] at ha
      rcases ha with ⟨rfl, rfl⟩ | ⟨rfl, rfl⟩ <;> simp at hi
      subst hi
      simp [Fields.toList]
    · intro i t hi
      simp only [Fields.toList, List.mem_cons, Prod.mk.injEq, List.not_mem_nil, or_false] at hi
      obtain ⟨rfl, rfl⟩ := hi
      simp [peOut, Fields.toList]
    · intro x z k hk q hq
      simp only [peOut, Fields.toList, List.map_cons, List.map_nil, List.mem_cons, List.not_mem_nil, or_false] at hk
      rcases hk with rfl | rfl
      · simp only [if_true, Option.some.injEq] at hq
        subst hq
        simp only [dIn, rowOf, hp, WIr.wordFn, prodBits, peOut, fieldBits, if_true, width, ofNat_mod8, wordFields, List.map_cons, List.map_nil, WIr.leafWord, hf, wired]
        cases swap <;> simp
      · simp at hq

theorem one_word (tagged : Bool) (f : List (BitVec 8) → BitVec 8) :
    ¬ CanCompute (WIr.wordFn 8 f) peFn (instT tagged) (wordFields 8 1 1) (.cons 0 (.bv 0 8) .nil) dIn peOut := by
  intro hc
  obtain ⟨_, _, _, _, q1, q2, hne, h1, h2, _⟩ := wiring hc
  omega

theorem pe_boxes (A : Ty → Except Err AsmObj) (tagged : Bool) : TotalBoxes (pe A tagged) (fun _ => [1]) := by
  intro ci fi _ d bb _
  refine ⟨?_, by simp [pe]⟩
  simp only [pe]
  split <;> rfl

/-- C61 for every function of two words: of every sound and complete solver, either encoding of the index variables, and either PE, the mapper returns a rule if and only if the
function is a sum or difference plus a constant, or a conjunction or disjunction, perhaps negated; the rule is a correct mapping.  Otherwise it returns `None`. -/
theorem C61_any_function (P : Process) (tagged : Bool) (enc : IEnc) (hI : Trusted P (instT tagged)) (hO : Trusted P opT)
    (solve : (MAsg Nat → Prop) → Option (MAsg Nat)) (hsat : ∀ φ a, solve φ = some a → φ a) (hcomp : ∀ φ a, φ a → ∃ a', solve φ = some a') (a0 : MAsg Nat)
    (f : List (BitVec 8) → BitVec 8) :
    (Sums (fun x y => f [x, y]) → ∃ r, mapSolve P.asm (anyProblem P.asm tagged enc 2 f) solve a0 = .ok (some r) ∧
      IsMapping P.asm (anyProblem P.asm tagged enc 2 f) r ∧ RuleRight P (wordIr 8 2 f) (pe P.asm tagged) r) ∧
    (¬ Sums (fun x y => f [x, y]) → mapSolve P.asm (anyProblem P.asm tagged enc 2 f) solve a0 = .ok none) := by
  rw [← two_words tagged f]
  exact right_of (any_setup P tagged enc (by decide) f) <| C33_instruction P (anyProblem P.asm tagged enc 2 f) (WIr.wordFn 8 f) peFn (fun _ => [1]) 0 (instT tagged) _ _ _ _ (any_problem P.asm tagged enc 2 f)
    (any_setup P tagged enc (by decide) f) (pe_total P tagged) hI (any_trusted P tagged enc 2 f hI hO) solve hsat hcomp a0

/-- C61 for every function of two words, with `simple_formula=True`. -/
theorem C61_any_function_simple (P : Process) (tagged : Bool) (enc : IEnc) (hI : Trusted P (instT tagged)) (hO : Trusted P opT)
    (solve : (SAsg Nat → Prop) → Option (SAsg Nat)) (hsat : ∀ φ a, solve φ = some a → φ a) (hcomp : ∀ φ a, φ a → ∃ a', solve φ = some a') (a0 : SAsg Nat)
    (f : List (BitVec 8) → BitVec 8) :
    (Sums (fun x y => f [x, y]) → ∃ r, simpleSolve P.asm (anyProblem P.asm tagged enc 2 f) solve a0 = .ok (some r) ∧
      IsMapping P.asm (anyProblem P.asm tagged enc 2 f) r ∧ RuleRight P (wordIr 8 2 f) (pe P.asm tagged) r) ∧
    (¬ Sums (fun x y => f [x, y]) → simpleSolve P.asm (anyProblem P.asm tagged enc 2 f) solve a0 = .ok none) := by
  rw [← two_words tagged f]
  exact right_of (any_setup P tagged enc (by decide) f) <| C55_instruction P (anyProblem P.asm tagged enc 2 f) (WIr.wordFn 8 f) peFn (fun _ => [1]) 0 (instT tagged) _ _ _ _ (any_problem P.asm tagged enc 2 f)
    (any_setup P tagged enc (by decide) f) (pe_total P tagged) (pe_boxes P.asm tagged) hI (any_trusted P tagged enc 2 f hI hO) solve hsat hcomp a0

/-- C61: no function of one word is mapped to these PEs, with either formula. -/
theorem C61_one_word (P : Process) (tagged : Bool) (enc : IEnc) (hI : Trusted P (instT tagged)) (hO : Trusted P opT)
    (solve : (MAsg Nat → Prop) → Option (MAsg Nat)) (hsat : ∀ φ a, solve φ = some a → φ a) (hcomp : ∀ φ a, φ a → ∃ a', solve φ = some a') (a0 : MAsg Nat)
    (solve' : (SAsg Nat → Prop) → Option (SAsg Nat)) (hsat' : ∀ φ a, solve' φ = some a → φ a) (hcomp' : ∀ φ a, φ a → ∃ a', solve' φ = some a') (a0' : SAsg Nat)
    (f : List (BitVec 8) → BitVec 8) :
    mapSolve P.asm (anyProblem P.asm tagged enc 1 f) solve a0 = .ok none ∧ simpleSolve P.asm (anyProblem P.asm tagged enc 1 f) solve' a0' = .ok none :=
  ⟨(C33_instruction P (anyProblem P.asm tagged enc 1 f) (WIr.wordFn 8 f) peFn (fun _ => [1]) 0 (instT tagged) _ _ _ _ (any_problem P.asm tagged enc 1 f)
    (any_setup P tagged enc (by decide) f) (pe_total P tagged) hI (any_trusted P tagged enc 1 f hI hO) solve hsat hcomp a0).2 (one_word tagged f),
   (C55_instruction P (anyProblem P.asm tagged enc 1 f) (WIr.wordFn 8 f) peFn (fun _ => [1]) 0 (instT tagged) _ _ _ _ (any_problem P.asm tagged enc 1 f)
    (any_setup P tagged enc (by decide) f) (pe_total P tagged) (pe_boxes P.asm tagged) hI (any_trusted P tagged enc 1 f hI hO) solve' hsat' hcomp' a0').2 (one_word tagged f)⟩

/-- In a process that has built no assembler before: `y - x + 7` is mapped, exclusive or is not. -/
example (tagged : Bool) (enc : IEnc) (solve : (MAsg Nat → Prop) → Option (MAsg Nat)) (hsat : ∀ φ a, solve φ = some a → φ a)
    (hcomp : ∀ φ a, φ a → ∃ a', solve φ = some a') (a0 : MAsg Nat) :
    (∃ r, mapSolve (Process.asm ⟨fun _ => []⟩) (anyProblem (Process.asm ⟨fun _ => []⟩) tagged enc 2 (fun l => l[1]! - l[0]! + 7)) solve a0 = .ok (some r)) ∧
    mapSolve (Process.asm ⟨fun _ => []⟩) (anyProblem (Process.asm ⟨fun _ => []⟩) tagged enc 2 (fun l => l[0]! ^^^ l[1]!)) solve a0 = .ok none := by
  obtain ⟨h1, h2⟩ := trusted_fresh tagged
  constructor
  · obtain ⟨r, hr, _⟩ := (C61_any_function _ tagged enc h1 h2 solve hsat hcomp a0 (fun l => l[1]! - l[0]! + 7)).1 (.inr (.inr (.inl ⟨7, fun x y => rfl⟩)))
    exact ⟨r, hr⟩
  · refine (C61_any_function _ tagged enc h1 h2 solve hsat hcomp a0 (fun l => l[0]! ^^^ l[1]!)).2 ?_
    rintro (⟨c, h⟩ | ⟨c, h⟩ | ⟨c, h⟩ | h | h | h | h)
    · have h0 := h 0 0
      have h1 := h 1 1
      simp at h0
      subst h0
      simp at h1
    · have h0 := h 0 0
      have h1 := h 0 1
      simp at h0
      subst h0
      simp at h1
    · have h0 := h 0 0
      have h1 := h 1 0
      simp at h0
      subst h0
      simp at h1
    · have := h 0 1; simp at this
    · have := h 1 0; simp at this
    · have := h 1 1; simp at this
    · have := h 0 0; simp at this

end Peak.SPe
