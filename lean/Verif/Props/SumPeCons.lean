import Verif.Spec.RuleRight
import Verif.Spec.SumPeCons
import Verif.Props.SumPeAny
import Verif.Props.InstMapKnown
/-!
# C65: mapping to `examples/sum_pe` and `examples/tagged_pe` with constraints on the instruction
-/

namespace Peak.SPe
open Peak Peak.Spec

/-! ## the validator and the constraints -/

theorem op_mild : Mild opT := ⟨1, by decide +kernel, by decide⟩

theorem inst_mild (tagged : Bool) : Mild (instT tagged) := by
  have h1 : Mild arithOpT := ⟨op_mild, trivial, trivial⟩
  have h2 : Mild bitOpT := ⟨op_mild, trivial, trivial⟩
  cases tagged
  · exact ⟨by decide, by decide, h2, h1, trivial⟩
  · exact ⟨by decide, by decide, h1, h2, trivial⟩

theorem accepts_op (n : Nat) (hn : n < 4) : Accepts opT n ↔ n = 1 ∨ n = 2 := by
  have hw := op_width
  have e : (enumCodes [memA, .lit 2]) = [1, 2] := by decide +kernel
  have hns : ¬ SeveralRanges (enumCodes [memA, .lit 2]).dedup := by
    intro h
    rw [e] at h
    exact h.2.1 (by decide +kernel)
  simp only [opT, Accepts]
  rw [← opT, hw, e, Nat.mod_eq_of_lt hn, e.symm]
  simp only [hns, false_or]
  rw [e]
  simp

theorem inst_leaves {tagged : Bool} {k : Key} (hk : k = kArith ∨ k = kBit) (op c : Nat) :
    rawLeaves (instT tagged) (.sum k (.prod [.leaf op, .leaf c])) = [([k, 0], opT, op), ([k, 1], offT k, c)] := by
  rcases hk with rfl | rfl <;> cases tagged <;> simp [instT, kArith, kBit, rawLeaves, rawLeavesAll, rawLeavesAt, arithOpT, bitOpT, offT, opT]

theorem key_of {k : Key} {c : Nat} (h : k = kArith ∧ c < 256 ∨ k = kBit ∧ c < 2) : k = kArith ∨ k = kBit := h.imp And.left And.left

theorem accepts_inst {tagged : Bool} {k : Key} {op c : Nat} (ho : op < 4) (hk : k = kArith ∧ c < 256 ∨ k = kBit ∧ c < 2) :
    Accepts (instT tagged) (rawCode (instT tagged) (.sum k (.prod [.leaf op, .leaf c]))) ↔ op = 1 ∨ op = 2 := by
  rw [Acc.accepts_leaves _ _ (inst_wf tagged) (inst_has ho hk), inst_leaves (key_of hk)]
  have : Accepts (offT k) c := by unfold offT; split <;> trivial
  simp [this, accepts_op op ho]

theorem obeys_iff {tagged : Bool} {cons : List (RPath × List Nat)} {k : Key} {op c : Nat} (hk : k = kArith ∨ k = kBit) :
    Obeys cons 0 (instT tagged) (.sum k (.prod [.leaf op, .leaf c])) ↔ Meets cons k op c := by
  have hw : 2 ^ width (offT k) = if k = kArith then 256 else 2 := by unfold offT; split <;> rfl
  unfold Obeys
  rw [inst_leaves hk]
  constructor
  · intro h
    refine ⟨fun cs hcs => ?_, fun cs hcs => ?_⟩
    · have := h [k, 0] opT op (by simp) cs hcs
      rwa [op_width] at this
    · have := h [k, 1] (offT k) c (by simp) cs hcs
      rwa [hw] at this
  · rintro ⟨h1, h2⟩ p t n hp cs hcs
    simp only [List.mem_cons, List.not_mem_nil, or_false, Prod.mk.injEq] at hp
    rcases hp with ⟨rfl, rfl, rfl⟩ | ⟨rfl, rfl, rfl⟩
    · rw [op_width]; exact h1 cs hcs
    · rw [hw]; exact h2 cs hcs

/-! ## the problem -/

theorem cons_problem (A : Ty → Except Err AsmObj) (tagged : Bool) (enc : IEnc) (n : Nat) (f : List (BitVec 8) → BitVec 8) {cons : List (RPath × List Nat)} (hc : ConsOk cons) :
    ConsProblem (consProblem A tagged enc n f cons) 0 (instT tagged) (wordFields 8 1 n) (.cons 0 (.bv 0 8) .nil) dIn peOut := by
  have h := any_problem A tagged enc n f
  refine ⟨h.ir_in, h.ir_out, h.arch_in, h.arch_out, h.iin_flat, h.iout_flat, h.din_flat, h.dout_flat, rfl, rfl, ?_, hc.2⟩
  intro p cs hp
  obtain ⟨h1, k, i, hk, hi, rfl⟩ := hc.1 p cs hp
  refine ⟨h1, [k, i], if i = 0 then opT else offT k, rfl, ?_⟩
  rcases hk with rfl | rfl <;> rcases hi with rfl | rfl <;> cases tagged <;>
    simp [instT, kArith, kBit, leafTypes, leafTypesF, arithOpT, bitOpT, offT, opT]

theorem known {P : Process} (hP : MildProcess P) (tagged : Bool) : Known P (instT tagged) := by
  intro t' ht
  rcases List.mem_cons.mp ht with rfl | ht
  · exact ⟨inst_wf tagged, inst_mild tagged⟩
  · exact hP _ _ ht

theorem known_leaves {P : Process} (hP : MildProcess P) (tagged : Bool) : ∀ p c ms, (p, Ty.enum c ms) ∈ leafTypes (instT tagged) [] → Known P (.enum c ms) := by
  intro p c ms h t' ht
  rcases List.mem_cons.mp ht with rfl | ht
  · have hm : Ty.enum c ms = opT := by
      cases tagged <;> simp [instT, leafTypes, leafTypesF, arithOpT, bitOpT, opT] at h ⊢ <;> rcases h with h | h <;> exact ⟨h.2.1, h.2.2⟩
    rw [hm]
    exact ⟨op_wf, op_mild⟩
  · exact hP _ _ ht

/-! ## wirings -/

theorem words_get {n : Nat} {x : Key → Nat} {q : Nat} (h1 : 1 ≤ q) (h2 : q ≤ n) :
    ((rowOf (wordFields 8 1 n) x).map (WIr.leafWord 8))[q - 1]?.getD 0 = .ofNat 8 (x q) := by
  have key : ∀ (n i j : Nat), j < n → ((rowOf (wordFields 8 i n) x).map (WIr.leafWord 8))[j]? = some (.ofNat 8 (x (i + j))) := by
    intro n
    induction n with
    | zero => intro i j h; omega
    | succ n ih =>
      intro i j h
      cases j with
      | zero => simp [wordFields, rowOf, WIr.leafWord, width, ← ofNat_mod8 (x i)]
      | succ j =>
        have := ih (i + 1) j (by omega)
        simp only [wordFields, rowOf, List.map_cons, List.getElem?_cons_succ, this]
        rw [show i + 1 + j = i + (j + 1) by omega]
  rw [key n 1 (q - 1) (by omega)]
  simp only [Option.getD_some]
  rw [show 1 + (q - 1) = q by omega]

theorem words_env {n : Nat} {xs : List (BitVec 8)} (h : xs.length = n) :
    (rowOf (wordFields 8 1 n) (fun k => (xs[k - 1]?.getD 0).toNat)).map (WIr.leafWord 8) = xs := by
  apply List.ext_getElem?
  intro j
  have hl : ∀ (n i : Nat) (x : Key → Nat), (rowOf (wordFields 8 i n) x).length = n := by
    intro n
    induction n with
    | zero => intro i x; rfl
    | succ n ih => intro i x; simp [wordFields, rowOf, ih]
  by_cases hj : j < n
  · have := words_get (n := n) (x := fun k => (xs[k - 1]?.getD 0).toNat) (q := j + 1) (by omega) (by omega)
    simp only [Nat.add_sub_cancel] at this
    have h1 : j < ((rowOf (wordFields 8 1 n) (fun k => (xs[k - 1]?.getD 0).toNat)).map (WIr.leafWord 8)).length := by rw [List.length_map, hl]; exact hj
    rw [List.getElem?_eq_getElem h1] at this ⊢
    rw [List.getElem?_eq_getElem (by omega : j < xs.length)] at this ⊢
    simp only [Option.getD_some, BitVec.ofNat_toNat, BitVec.setWidth_eq] at this
    rw [this]
  · rw [List.getElem?_eq_none (by rw [List.length_map, hl]; omega), List.getElem?_eq_none (by omega)]

theorem few_words {n q1 q2 : Nat} {s : Option Nat} (g11 : 1 ≤ q1) (g12 : q1 ≤ n) (g21 : 1 ≤ q2) (g22 : q2 ≤ n) (hne : q1 ≠ q2)
    (hcov : ∀ q, 1 ≤ q → q ≤ n → q = q1 ∨ q = q2 ∨ s = some q) : n = 2 ∨ n = 3 := by
  have hge : 2 ≤ n := by omega
  by_contra hn
  have hn4 : 4 ≤ n := by omega
  have : ∃ a b : Nat, a ≠ b ∧ (1 ≤ a ∧ a ≤ n ∧ a ≠ q1 ∧ a ≠ q2) ∧ (1 ≤ b ∧ b ≤ n ∧ b ≠ q1 ∧ b ≠ q2) := by
    by_cases c1 : q1 ≤ 2 ∧ q2 ≤ 2
    · exact ⟨3, 4, by omega, by omega, by omega⟩
    by_cases c2 : q1 ≤ 2 ∧ q2 = 3
    · exact ⟨3 - q1, 4, by omega, by omega, by omega⟩
    by_cases c3 : q2 ≤ 2 ∧ q1 = 3
    · exact ⟨3 - q2, 4, by omega, by omega, by omega⟩
    by_cases c4 : q1 ≤ 2
    · exact ⟨3 - q1, 3, by omega, by omega, by omega⟩
    by_cases c5 : q2 ≤ 2
    · exact ⟨3 - q2, 3, by omega, by omega, by omega⟩
    · exact ⟨1, 2, by omega, by omega, by omega⟩
  obtain ⟨a, b, hab, ⟨a1, a2, a3, a4⟩, ⟨b1, b2, b3, b4⟩⟩ := this
  have ha := hcov a a1 a2
  have hb := hcov b b1 b2
  rcases ha with ha | ha | ha
  · exact a3 ha
  · exact a4 ha
  rcases hb with hb | hb | hb
  · exact b3 hb
  · exact b4 hb
  exact hab (Option.some.inj (ha.symm.trans hb))

/-- The wiring with which an instruction computes `f`. -/
theorem wiring_of {n : Nat} {f : List (BitVec 8) → BitVec 8} {k : Key} {op c : Nat} {src out : Key → Option Key}
    (hc : ComputesWith (WIr.wordFn 8 f) peFn (wordFields 8 1 n) (.cons 0 (.bv 0 8) .nil) dIn peOut (.sum k (.prod [.leaf op, .leaf c])) src out) :
    (n = 2 ∨ n = 3) ∧ ∃ i j, i < n ∧ j < n ∧ i ≠ j ∧
      ∀ xs : List (BitVec 8), xs.length = n → f xs = word (k == kArith) (op == 1) (c != 0) (.ofNat 8 c) (xs[i]?.getD 0) (xs[j]?.getD 0) := by
  obtain ⟨hS, hO, h⟩ := hc
  generalize harith : (k == kArith) = arith at *
  generalize hopA : (op == 1) = opA at *
  generalize hneg : (c != 0) = neg at *
  obtain ⟨o, ho, hout, _⟩ := hO.once 0 (.bv 0 8) (by simp [Fields.toList])
  have ho0 : o = 0 := by
    simp only [peOut, Fields.toList, List.map_cons, List.map_nil, List.mem_cons, List.not_mem_nil, or_false] at ho
    rcases ho with h | rfl
    · exact h
    · have := hO.typed 1 (.bv 0 1) 0 (by simp [peOut, Fields.toList]) hout
      simp [Fields.toList] at this
  subst ho0
  have key : ∀ x z : Key → Nat, f ((rowOf (wordFields 8 1 n) x).map (WIr.leafWord 8)) =
      word arith opA neg (.ofNat 8 c) (.ofNat 8 (wired src x z 1)) (.ofNat 8 (wired src x z 2)) := by
    intro x z
    have := h x z 0 (by simp [peOut, Fields.toList]) 0 hout
    simp only [dIn, rowOf, peFn, WIr.wordFn, prodBits, peOut, fieldBits, if_true, width, ofNat_mod8, harith, hopA, hneg] at this
    exact (BitVec.eq_of_toNat_eq this).symm
  obtain ⟨⟨b, z1, z1', m1⟩, ⟨a, z2, z2', m2⟩⟩ := operands_matter arith opA neg (.ofNat 8 c)
  have h1 : ∃ q, src 1 = some q := by
    by_contra hne
    have hn : src 1 = none := Option.eq_none_iff_forall_ne_some.mpr (fun q hq => hne ⟨q, hq⟩)
    apply m1
    have e : ∀ z : BitVec 8, f ((rowOf (wordFields 8 1 n) (fun _ => b.toNat)).map (WIr.leafWord 8)) = word arith opA neg (.ofNat 8 c) z b := by
      intro z
      have := key (fun _ => b.toNat) (fun k => if k = 1 then z.toNat else b.toNat)
      have h2 : wired src (fun _ => b.toNat) (fun k => if k = 1 then z.toNat else b.toNat) 2 = b.toNat := by
        unfold wired; cases src 2 <;> rfl
      have h1 : wired src (fun _ => b.toNat) (fun k => if k = 1 then z.toNat else b.toNat) 1 = z.toNat := by
        unfold wired; rw [hn]; rfl
      rw [h1, h2] at this
      simpa using this
    rw [← e, ← e]
  have h2 : ∃ q, src 2 = some q := by
    by_contra hne
    have hn : src 2 = none := Option.eq_none_iff_forall_ne_some.mpr (fun q hq => hne ⟨q, hq⟩)
    apply m2
    have e : ∀ z : BitVec 8, f ((rowOf (wordFields 8 1 n) (fun _ => a.toNat)).map (WIr.leafWord 8)) = word arith opA neg (.ofNat 8 c) a z := by
      intro z
      have := key (fun _ => a.toNat) (fun k => if k = 2 then z.toNat else a.toNat)
      have h1 : wired src (fun _ => a.toNat) (fun k => if k = 2 then z.toNat else a.toNat) 1 = a.toNat := by
        unfold wired; cases src 1 <;> rfl
      have h2 : wired src (fun _ => a.toNat) (fun k => if k = 2 then z.toNat else a.toNat) 2 = z.toNat := by
        unfold wired; rw [hn]; rfl
      rw [h1, h2] at this
      simpa using this
    rw [← e, ← e]
  obtain ⟨q1, h1⟩ := h1
  obtain ⟨q2, h2⟩ := h2
  have t1 := hS.typed 1 (.bv 0 8) q1 (by simp [dIn, Fields.toList]) h1
  have t2 := hS.typed 2 (.bv 0 8) q2 (by simp [dIn, Fields.toList]) h2
  have g1 := WIr.fields_mem.mp t1
  have g2 := WIr.fields_mem.mp t2
  have hne : q1 ≠ q2 := by
    rintro rfl
    obtain ⟨k, _, _, hk⟩ := hS.once q1 _ t1
    have e1 := hk 1 (by simp [dIn, Fields.toList]) h1
    have e2 := hk 2 (by simp [dIn, Fields.toList]) h2
    exact absurd (e1.trans e2.symm) (by decide)
  have hcov : ∀ q : Nat, 1 ≤ q → q ≤ n → q = q1 ∨ q = q2 ∨ src 3 = some q := by
    intro q hq1 hq2
    obtain ⟨a, ha, hs, _⟩ := hS.once q (.bv 0 8) (WIr.fields_mem.mpr ⟨hq1, by omega, rfl⟩)
    simp only [dIn, Fields.toList, List.map_cons, List.map_nil, List.mem_cons, List.not_mem_nil, or_false] at ha
    rcases ha with rfl | rfl | rfl | rfl
    · rw [h1] at hs; exact .inl (Option.some.inj hs).symm
    · rw [h2] at hs; exact .inr (.inl (Option.some.inj hs).symm)
    · exact .inr (.inr hs)
    · have := hS.typed 4 (.bit 0) q (by simp [dIn, Fields.toList]) hs
      have := (WIr.fields_mem.mp this).2.2
      cases this
  have g11 : 1 ≤ q1 := g1.1
  have g21 : 1 ≤ q2 := g2.1
  have g12 : (q1 : Nat) < 1 + n := g1.2.1
  have g22 : (q2 : Nat) < 1 + n := g2.2.1
  have hneN : @Ne Nat q1 q2 := hne
  have hn := few_words g11 (by omega) g21 (by omega) hneN hcov
  refine ⟨hn, q1 - 1, q2 - 1, by omega, by omega, by omega, ?_⟩
  intro xs hl
  have := key (fun k => (xs[k - 1]?.getD 0).toNat) (fun _ => 0)
  simp only [wired, h1, h2, words_env hl, BitVec.ofNat_toNat, BitVec.setWidth_eq] at this
  exact this

/-- The wiring for two of two or three words. -/
def srcFor (n i j : Nat) (k : Key) : Option Key :=
  if k = 1 then some (i + 1) else if k = 2 then some (j + 1) else if k = 3 ∧ n = 3 then some (4 - i - j) else none

theorem of_wiring {n : Nat} {f : List (BitVec 8) → BitVec 8} {k : Key} {op c i j : Nat} (hn : n = 2 ∨ n = 3) (hi : i < n) (hj : j < n) (hij : i ≠ j)
    (h : ∀ xs : List (BitVec 8), xs.length = n → f xs = word (k == kArith) (op == 1) (c != 0) (.ofNat 8 c) (xs[i]?.getD 0) (xs[j]?.getD 0)) :
    ComputesWith (WIr.wordFn 8 f) peFn (wordFields 8 1 n) (.cons 0 (.bv 0 8) .nil) dIn peOut (.sum k (.prod [.leaf op, .leaf c])) (srcFor n i j) (fun k => if k = 0 then some 0 else none) := by
  have hrow : ∀ (x : Key → Nat), ((rowOf (wordFields 8 1 n) x).map (WIr.leafWord 8)).length = n := by
    intro x
    have hl : ∀ (n i : Nat) (x : Key → Nat), (rowOf (wordFields 8 i n) x).length = n := by
      intro n
      induction n with
      | zero => intro i x; rfl
      | succ n ih => intro i x; simp [wordFields, rowOf, ih]
    rw [List.length_map, hl]
  refine ⟨⟨?_, ?_⟩, ⟨?_, ?_⟩, ?_⟩
  · intro a t (q : Nat) ha hq
    rw [WIr.fields_mem]
    have h21 : ¬ ((2 : Key) = 1) := by decide
    have h31 : ¬ ((3 : Key) = 1) := by decide
    have h32 : ¬ ((3 : Key) = 2) := by decide
    simp only [dIn, Fields.toList, List.mem_cons, Prod.mk.injEq, List.not_mem_nil, or_false] at ha
    rcases ha with ⟨rfl, rfl⟩ | ⟨rfl, rfl⟩ | ⟨rfl, rfl⟩ | ⟨rfl, rfl⟩
    · simp only [srcFor, if_true, Option.some.injEq] at hq
      have e : @Eq Nat (i + 1) q := hq
      exact ⟨(by omega : 1 ≤ q), (by omega : q < 1 + n), rfl⟩
    · simp only [srcFor, if_true, if_neg h21, Option.some.injEq] at hq
      have e : @Eq Nat (j + 1) q := hq
      exact ⟨(by omega : 1 ≤ q), (by omega : q < 1 + n), rfl⟩
    · simp only [srcFor, if_neg h31, if_neg h32, true_and] at hq
      split at hq
      · simp only [Option.some.injEq] at hq
        have e : @Eq Nat (4 - i - j) q := hq
        exact ⟨(by omega : 1 ≤ q), (by omega : q < 1 + n), rfl⟩
      · cases hq
    · simp [srcFor] at hq
  · intro (q : Nat) t hq
    obtain ⟨g1, g2, rfl⟩ := WIr.fields_mem.mp hq
    have hs1 : srcFor n i j 1 = some (i + 1) := rfl
    have hs2 : srcFor n i j 2 = some (j + 1) := rfl
    have hs3 : n = 3 → srcFor n i j 3 = some (4 - i - j) := by rintro rfl; rfl
    have hs3' : n = 2 → srcFor n i j 3 = none := by rintro rfl; rfl
    have hs4 : srcFor n i j 4 = none := by simp [srcFor]
    have hk : ∀ a ∈ dIn.toList.map (·.1), a = 1 ∨ a = 2 ∨ a = 3 ∨ a = 4 := by
      intro a ha
      simpa [dIn, Fields.toList] using ha
    have g1' : 1 ≤ q := g1
    have g2' : q < 1 + n := g2
    by_cases e1 : q = i + 1
    · refine ⟨1, by simp [dIn, Fields.toList], by rw [hs1, e1], ?_⟩
      intro a ha hq'
      rcases hk a ha with rfl | rfl | rfl | rfl
      · rfl
      · rw [hs2] at hq'; have : j + 1 = q := Option.some.inj hq'; omega
      · rcases hn with hn | hn
        · rw [hs3' hn] at hq'; cases hq'
        · rw [hs3 hn] at hq'; have : 4 - i - j = q := Option.some.inj hq'; omega
      · rw [hs4] at hq'; cases hq'
    by_cases e2 : q = j + 1
    · refine ⟨2, by simp [dIn, Fields.toList], by rw [hs2, e2], ?_⟩
      intro a ha hq'
      rcases hk a ha with rfl | rfl | rfl | rfl
      · rw [hs1] at hq'; have : i + 1 = q := Option.some.inj hq'; omega
      · rfl
      · rcases hn with hn | hn
        · rw [hs3' hn] at hq'; cases hq'
        · rw [hs3 hn] at hq'; have : 4 - i - j = q := Option.some.inj hq'; omega
      · rw [hs4] at hq'; cases hq'
    have hn3 : n = 3 := by omega
    refine ⟨3, by simp [dIn, Fields.toList], by rw [hs3 hn3]; exact congrArg some (by omega : 4 - i - j = q), ?_⟩
    intro a ha hq'
    rcases hk a ha with rfl | rfl | rfl | rfl
    · rw [hs1] at hq'; have : i + 1 = q := Option.some.inj hq'; omega
    · rw [hs2] at hq'; have : j + 1 = q := Option.some.inj hq'; omega
    · rfl
    · rw [hs4] at hq'; cases hq'
  · intro a t q ha hq
    simp only [peOut, Fields.toList, List.mem_cons, Prod.mk.injEq, List.not_mem_nil, or_false] at ha
    rcases ha with ⟨rfl, rfl⟩ | ⟨rfl, rfl⟩ <;> simp at hq
    subst hq
    simp [Fields.toList]
  · intro q t hq
    simp only [Fields.toList, List.mem_cons, Prod.mk.injEq, List.not_mem_nil, or_false] at hq
    obtain ⟨rfl, rfl⟩ := hq
    simp [peOut, Fields.toList]
  · intro x z a ha q hq
    simp only [peOut, Fields.toList, List.map_cons, List.map_nil, List.mem_cons, List.not_mem_nil, or_false] at ha
    rcases ha with rfl | rfl
    · simp only [if_true, Option.some.injEq] at hq
      subst hq
      have e1 := words_get (n := n) (x := x) (q := i + 1) (by omega) (by omega)
      have e2 := words_get (n := n) (x := x) (q := j + 1) (by omega) (by omega)
      simp only [Nat.add_sub_cancel] at e1 e2
      simp only [dIn, rowOf, peFn, WIr.wordFn, prodBits, peOut, fieldBits, if_true, width, ofNat_mod8, h _ (hrow x), e1, e2, wired, srcFor]
      simp
    · simp at hq

/-- Which functions some instruction that meets the constraints computes. -/
theorem can_cons {P : Process} (hP : MildProcess P) {tagged : Bool} {enc : IEnc} {n : Nat} {f : List (BitVec 8) → BitVec 8} {cons : List (RPath × List Nat)} :
    CanComputeCons P.asm (consProblem P.asm tagged enc n f cons) (WIr.wordFn 8 f) peFn 0 (instT tagged) (wordFields 8 1 n) (.cons 0 (.bv 0 8) .nil) dIn peOut ↔ Fits cons n f := by
  have hb := fun (inst : RVal) (src out : Key → Option Key) => InM.boxes_nil (fi := WIr.wordFn 8 f) (fa := peFn) (inst := inst) (src := src) (out := out) (any_problem P.asm tagged enc n f)
  constructor
  · rintro ⟨inst, src, out, hi, hv, hob, hc⟩
    obtain ⟨k, op, c, rfl, ho, hk⟩ := inst_shape hi
    have ha := ((known hP tagged).valid_iff _ (SB.code_lt _ _ (inst_wf tagged) hi)).mp hv
    rw [accepts_inst ho hk] at ha
    obtain ⟨h1, h2⟩ := wiring_of ((hb _ _ _).mp hc)
    exact ⟨h1, k, op, c, ⟨ha, hk⟩, (obeys_iff (key_of hk)).mp hob, h2⟩
  · rintro ⟨hn, k, op, c, ⟨ha, hk⟩, hm, i, j, hi, hj, hij, h⟩
    have ho : op < 4 := by omega
    have hh := inst_has (tagged := tagged) ho hk
    exact ⟨_, _, _, hh, ((known hP tagged).valid_iff _ (SB.code_lt _ _ (inst_wf tagged) hh)).mpr ((accepts_inst ho hk).mpr ha), (obeys_iff (key_of hk)).mpr hm,
      (hb _ _ _).mpr (of_wiring hn hi hj hij h)⟩

/-- C65: with any constraints on the instruction, either PE, either encoding of the index variables, and any sound and complete solver, the mapper returns a rule for a function of words if and only if
some instruction that meets the constraints computes it; the rule is a correct mapping, so its instruction meets the constraints. Otherwise it returns `None`. -/
theorem C65_mapped (P : Process) (hP : MildProcess P) (tagged : Bool) (enc : IEnc) (cons : List (RPath × List Nat)) (hc : ConsOk cons) (n : Nat) (hn : 0 < n) (f : List (BitVec 8) → BitVec 8)
    (solve : (MAsg Nat → Prop) → Option (MAsg Nat)) (hsat : ∀ φ a, solve φ = some a → φ a) (hcomp : ∀ φ a, φ a → ∃ a', solve φ = some a') (a0 : MAsg Nat) :
    (Fits cons n f → ∃ r, mapSolve P.asm (consProblem P.asm tagged enc n f cons) solve a0 = .ok (some r) ∧ IsMapping P.asm (consProblem P.asm tagged enc n f cons) r ∧
      RuleRight P (wordIr 8 n f) (pe P.asm tagged) r) ∧
    (¬ Fits cons n f → mapSolve P.asm (consProblem P.asm tagged enc n f cons) solve a0 = .ok none) := by
  have key := C33_instruction_constraints P (consProblem P.asm tagged enc n f cons) (WIr.wordFn 8 f) peFn (fun _ => [1]) 0 (instT tagged) _ _ _ _ (cons_problem P.asm tagged enc n f hc) rfl rfl
    (any_setup P tagged enc hn f) (pe_total P tagged) ((known hP tagged).leaves (known_leaves hP tagged)) solve hsat hcomp a0
  rw [can_cons hP] at key
  exact right_of (any_setup P tagged enc hn f) key

/-- C65: the same with `simple_formula=True`. -/
theorem C65_mapped_simple (P : Process) (hP : MildProcess P) (tagged : Bool) (enc : IEnc) (cons : List (RPath × List Nat)) (hc : ConsOk cons) (n : Nat) (hn : 0 < n)
    (f : List (BitVec 8) → BitVec 8) (solve : (SAsg Nat → Prop) → Option (SAsg Nat)) (hsat : ∀ φ a, solve φ = some a → φ a) (hcomp : ∀ φ a, φ a → ∃ a', solve φ = some a') (a0 : SAsg Nat) :
    (Fits cons n f → ∃ r, simpleSolve P.asm (consProblem P.asm tagged enc n f cons) solve a0 = .ok (some r) ∧ IsMapping P.asm (consProblem P.asm tagged enc n f cons) r ∧
      RuleRight P (wordIr 8 n f) (pe P.asm tagged) r) ∧
    (¬ Fits cons n f → simpleSolve P.asm (consProblem P.asm tagged enc n f cons) solve a0 = .ok none) := by
  have key := C55_instruction_constraints P (consProblem P.asm tagged enc n f cons) (WIr.wordFn 8 f) peFn (fun _ => [1]) 0 (instT tagged) _ _ _ _ (cons_problem P.asm tagged enc n f hc)
    (any_setup P tagged enc hn f) (pe_total P tagged) (pe_boxes P.asm tagged) ((known hP tagged).leaves (known_leaves hP tagged)) solve hsat hcomp a0
  rw [can_cons hP] at key
  exact right_of (any_setup P tagged enc hn f) key

/-! ## `tests/test_aadt_mapping.py` -/

/-- The IR instruction of tests/test_aadt_mapping.py:398. -/
def add4 (xs : List (BitVec 8)) : BitVec 8 := xs[0]?.getD 0 + xs[1]?.getD 0 + 4

/-- It fits exactly if the sum and the offset 4 are allowed for an arithmetic instruction. -/
theorem add4_fits (cons : List (RPath × List Nat)) : Fits cons 2 add4 ↔ Meets cons kArith 1 4 := by
  constructor
  · rintro ⟨_, k, op, c, ⟨ho, hk⟩, hm, i, j, hi, hj, hij, h⟩
    have h00 := h [0, 0] rfl
    have h01 := h [0, 1] rfl
    have h10 := h [1, 0] rfl
    have e : add4 [0, 0] = 4 ∧ add4 [0, 1] = 5 ∧ add4 [1, 0] = 5 := by decide
    rw [e.1] at h00
    rw [e.2.1] at h01
    rw [e.2.2] at h10
    have hij' : i = 0 ∧ j = 1 ∨ i = 1 ∧ j = 0 := by omega
    rcases hk with ⟨rfl, hc⟩ | ⟨rfl, hc⟩
    · have hc4 : ∀ b : BitVec 8, (4 : BitVec 8) = 0 + 0 + .ofNat 8 c → c = 4 := by
        intro _ e
        have := congrArg BitVec.toNat e
        simp at this
        omega
      rcases ho with rfl | rfl
      · have : c = 4 := by
          refine hc4 0 ?_
          rcases hij' with ⟨rfl, rfl⟩ | ⟨rfl, rfl⟩ <;> simpa [word] using h00
        rw [this] at hm
        exact hm
      · exfalso
        have hb : (.ofNat 8 c : BitVec 8) = 4 := by rcases hij' with ⟨rfl, rfl⟩ | ⟨rfl, rfl⟩ <;> simpa [word] using h00.symm
        rcases hij' with ⟨rfl, rfl⟩ | ⟨rfl, rfl⟩
        · have h01' : (5 : BitVec 8) = 0 - 1 + .ofNat 8 c := by simpa [word] using h01
          rw [hb] at h01'
          exact absurd h01' (by decide)
        · have h10' : (5 : BitVec 8) = 0 - 1 + .ofNat 8 c := by simpa [word] using h10
          rw [hb] at h10'
          exact absurd h10' (by decide)
    · exfalso
      have hz : ∀ b : Bool, (4 : BitVec 8) ≠ if b then ~~~0 else 0 := by decide
      refine hz (c != 0) ?_
      rcases hij' with ⟨rfl, rfl⟩ | ⟨rfl, rfl⟩ <;> rcases ho with rfl | rfl <;> simpa [word, kBit, kArith] using h00
  · intro h
    exact ⟨.inl rfl, kArith, 1, 4, ⟨.inl rfl, .inl ⟨rfl, by decide⟩⟩, h, 0, 1, by decide, by decide, by decide, fun xs _ => by simp [add4, word]⟩

/-- The constraints of test_const_constraint, on the offset and on the operation (`A` is 1, `B` is 2), with the answers expected there. -/
def constTests : List (List (RPath × List Nat) × Bool) :=
  [([([0, kArith, 1], [4])], true), ([([0, kArith, 1], [4, 5])], true), ([([0, kArith, 1], [5])], false), ([([0, kArith, 1], [3, 5])], false),
   ([([0, kArith, 0], [1])], true), ([([0, kArith, 0], [1, 2])], true), ([([0, kArith, 0], [2])], false)]

/-- C65: test_const_constraint (tests/test_aadt_mapping.py:385-428), with both formulas and for every sound and complete solver. -/
theorem C65_test_const_constraint (P : Process) (hP : MildProcess P) (tagged : Bool) (enc : IEnc)
    (solve : (MAsg Nat → Prop) → Option (MAsg Nat)) (hsat : ∀ φ a, solve φ = some a → φ a) (hcomp : ∀ φ a, φ a → ∃ a', solve φ = some a') (a0 : MAsg Nat)
    (solve' : (SAsg Nat → Prop) → Option (SAsg Nat)) (hsat' : ∀ φ a, solve' φ = some a → φ a) (hcomp' : ∀ φ a, φ a → ∃ a', solve' φ = some a') (a0' : SAsg Nat) :
    ∀ row ∈ constTests,
      (if row.2 then ∃ r, mapSolve P.asm (consProblem P.asm tagged enc 2 add4 row.1) solve a0 = .ok (some r) ∧ RuleRight P (wordIr 8 2 add4) (pe P.asm tagged) r
        else mapSolve P.asm (consProblem P.asm tagged enc 2 add4 row.1) solve a0 = .ok none) ∧
      (if row.2 then ∃ r, simpleSolve P.asm (consProblem P.asm tagged enc 2 add4 row.1) solve' a0' = .ok (some r) ∧ RuleRight P (wordIr 8 2 add4) (pe P.asm tagged) r
        else simpleSolve P.asm (consProblem P.asm tagged enc 2 add4 row.1) solve' a0' = .ok none) := by
  intro row hrow
  have hrow' : ConsOk row.1 ∧ (row.2 = true ↔ Meets row.1 kArith 1 4) := by
    simp only [constTests, List.mem_cons, List.not_mem_nil, or_false] at hrow
    rcases hrow with rfl | rfl | rfl | rfl | rfl | rfl | rfl <;> simp [ConsOk, Meets, kArith, kBit]
  have h1 := C65_mapped P hP tagged enc row.1 hrow'.1 2 (by decide) add4 solve hsat hcomp a0
  have h2 := C65_mapped_simple P hP tagged enc row.1 hrow'.1 2 (by decide) add4 solve' hsat' hcomp' a0'
  rw [add4_fits, ← hrow'.2] at h1 h2
  cases hb : row.2
  · exact ⟨h1.2 (by simp [hb]), h2.2 (by simp [hb])⟩
  · obtain ⟨r1, g1, _, g2⟩ := h1.1 hb
    obtain ⟨r2, g3, _, g4⟩ := h2.1 hb
    exact ⟨⟨r1, g1, g2⟩, ⟨r2, g3, g4⟩⟩

/-- A function of three words, one of them unused, fits; with a constraint that rules out its operation it does not matter that another option is constrained too. -/
example : Fits [([0, kArith, 0], [2])] 3 (fun xs => xs[2]?.getD 0 - xs[0]?.getD 0 + 9) :=
  ⟨.inr rfl, kArith, 2, 9, ⟨.inr rfl, .inl ⟨rfl, by decide⟩⟩, by simp [Meets, kArith], 2, 0, by decide, by decide, by decide, fun xs _ => by simp [word, kArith]⟩
example : Fits [([0, kArith, 0], [2])] 2 (fun xs => xs[0]?.getD 0 &&& xs[1]?.getD 0) :=
  ⟨.inl rfl, kBit, 1, 0, ⟨.inl rfl, .inr ⟨rfl, by decide⟩⟩, by simp [Meets, kArith, kBit], 0, 1, by decide, by decide, by decide, fun xs _ => by simp [word, kArith, kBit]⟩

end Peak.SPe
