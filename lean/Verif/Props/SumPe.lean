import Verif.Spec.RuleRight
import Verif.Props.SimpleFormula
import Verif.Lemmas.SumPe
import Mathlib.Data.List.Pairwise
/-!
# C61: mapping `SmallIR` to the PEs of `examples/sum_pe` and `examples/tagged_pe`
-/

namespace Peak.SPe
open Peak Peak.Spec

/-- The inputs of an IR instruction. -/
theorem ir_shape {op : Op} {r : RVal} (h : RHas (ir op).inT r) :
    (op.unary = true ∧ ∃ x, r = .prod [.leaf x] ∧ x < 256) ∨ (op.unary = false ∧ ∃ x y, r = .prod [.leaf x, .leaf y] ∧ x < 256 ∧ y < 256) := by
  cases r with
  | leaf _ => simp [ir, RHas] at h
  | sum _ _ => simp [ir, RHas] at h
  | prod vs =>
    simp only [ir, RHas, irIn] at h
    cases hu : op.unary
    · right
      simp only [hu, Bool.false_eq_true, if_false] at h
      match vs, h with
      | [v, w], ⟨h1, h2, _⟩ =>
        obtain ⟨x, rfl, hx⟩ := leaf_shape (.inl ⟨_, _, rfl⟩) h1
        obtain ⟨y, rfl, hy⟩ := leaf_shape (.inl ⟨_, _, rfl⟩) h2
        exact ⟨rfl, x, y, rfl, hx, hy⟩
    · left
      simp only [hu, if_true] at h
      match vs, h with
      | [v], ⟨h1, _⟩ =>
        obtain ⟨x, rfl, hx⟩ := leaf_shape (.inl ⟨_, _, rfl⟩) h1
        exact ⟨rfl, x, rfl, hx⟩

theorem w8_ofNat (x : Nat) : w8 (BV.ofNat 8 x) = BitVec.ofNat 8 x := by
  apply BitVec.eq_of_toNat_eq
  simp [w8, BV.ofNat_val]

theorem ir_computes (P : Process) (op : Op) : Computes P (ir op) (irFn op) := by
  refine ⟨8, irIn op, 9, _, rfl, rfl, ?_⟩
  intro vs bb h
  rcases ir_shape h with ⟨hu, x, hr, hx⟩ | ⟨hu, x, y, hr, hx, hy⟩
  · cases hr
    refine ⟨_, rfl, ⟨BitVec.isLt _, trivial⟩, ?_⟩
    simp only [irIn, hu, if_true, inputDict, ir, mkAV, rawCode, w8_ofNat]
    exact ⟨⟨new8 P _, trivial⟩, rfl⟩
  · cases hr
    refine ⟨_, rfl, ⟨BitVec.isLt _, trivial⟩, ?_⟩
    simp only [irIn, hu, if_false, Bool.false_eq_true, inputDict, ir, mkAV, rawCode, w8_ofNat]
    exact ⟨⟨new8 P _, trivial⟩, rfl⟩

theorem inst_buildable (tagged : Bool) : Buildable (instT tagged) := by
  have h1 := op_width
  have h2 := bitOp_width
  have h3 := arithOp_width
  have hp : ∀ c w, 0 < w → Buildable (.prod c (.cons 0 opT (.cons 1 (.bv 0 w) .nil))) := by
    intro c w hw
    refine ⟨by simp [Fields.toList], .inl ?_, by simp [Buildables, opT, Buildable]⟩
    intro kt hkt
    simp only [Fields.toList, List.mem_cons, List.not_mem_nil, or_false] at hkt
    rcases hkt with rfl | rfl
    · simp only [h1]; decide
    · simpa [width] using hw
  cases tagged
  · refine ⟨by simp [Fields.toList], ?_, hp _ _ (by decide), hp _ _ (by decide), trivial⟩
    simp [Fields.toList, h2, h3]
  · refine ⟨by simp [Fields.toList], ?_, hp _ _ (by decide), hp _ _ (by decide), trivial⟩
    simp [Fields.toList, h2, h3]

theorem pe_setup (P : Process) (tagged : Bool) (op : Op) : Setup P (ir op) (pe P.asm tagged) (irFn op) peFn (fun _ => [1]) := by
  refine ⟨ir_computes P op, pe_computes P tagged, ?_, ?_, ?_, ?_, ?_, ?_, rfl⟩
  · cases hu : op.unary <;> simp [ir, irIn, hu, WF, WFs, Buildable, Buildables, Fields.toList, width]
  · have := inst_wf tagged
    have := inst_buildable tagged
    have := inst_width tagged
    simp_all [pe, peIn, WF, WFs, Buildable, Buildables, Fields.toList, width]
  · simp [ir, WF, WFs, Buildable, Buildables, Fields.toList, UnionFree, UnionFrees]
  · simp [pe, peOut, WF, WFs, Buildable, Buildables, Fields.toList, UnionFree, UnionFrees, width]
  · refine ⟨by simp [ir], by simp, by simp [ir], fun r bb h => ⟨?_, by simp [ir]⟩⟩
    simp only [irFn, ir, List.map_nil]
    split <;> rfl
  · refine ⟨by simp [pe], by simp, by simp [pe], fun r bb h => ⟨?_, by simp [pe]⟩⟩
    simp only [peFn, pe, List.map_nil]
    split <;> rfl

/-! ## what a mapping of these PEs computes -/

/-- Where a word of the PE comes from: an input of the IR instruction, or anywhere. -/
inductive Src
  | x | y | free
  deriving DecidableEq

def Src.pick : Src → BitVec 8 → BitVec 8 → BitVec 8 → BitVec 8
  | .x, a, _, _ => a
  | .y, _, b, _ => b
  | .free, _, _, z => z

def srcOf : RSrc → Src
  | .path [1] => .x
  | .path [2] => .y
  | _ => .free

/-- The type of the second half of an instruction. -/
def offT (k : Key) : Ty := if k = kArith then .bv 0 8 else .bv 0 1

theorem pe_leaves {tagged : Bool} {k : Key} (hk : k = kArith ∨ k = kBit) (op c a b e d : Nat) :
    rawLeaves (.prod 6 (peIn tagged)) (.prod [.sum k (.prod [.leaf op, .leaf c]), .leaf a, .leaf b, .leaf e, .leaf d]) =
      [([0, k, 0], opT, op), ([0, k, 1], offT k, c), ([1], .bv 0 8, a), ([2], .bv 0 8, b), ([3], .bv 0 8, e), ([4], .bit 0, d)] := by
  rcases hk with rfl | rfl <;> cases tagged <;>
    simp [peIn, instT, kArith, kBit, rawLeaves, rawLeavesAll, rawLeavesAt, arithOpT, bitOpT, offT, opT]

/-- The input of the IR instruction. -/
def irArg (op : Op) (x y : BitVec 8) : RVal := if op.unary then .prod [.leaf x.toNat] else .prod [.leaf x.toNat, .leaf y.toNat]

theorem ir_leaves (op : Op) (x y : BitVec 8) : rawLeaves (ir op).inT (irArg op x y) =
    if op.unary then [([1], .bv 0 8, x.toNat)] else [([1], .bv 0 8, x.toNat), ([2], .bv 0 8, y.toNat)] := by
  cases hu : op.unary <;> simp [ir, irIn, irArg, hu, rawLeaves, rawLeavesAll]

theorem irArg_has (op : Op) (x y : BitVec 8) : RHas (ir op).inT (irArg op x y) := by
  cases hu : op.unary <;> simp only [ir, irIn, irArg, hu, if_true, if_false, Bool.false_eq_true]
  · exact ⟨x.isLt, y.isLt, trivial⟩
  · exact ⟨x.isLt, trivial⟩

theorem ir_paths {op : Op} {r : RVal} (h : RHas (ir op).inT r) : ∃ x y, r = irArg op x y := by
  rcases ir_shape h with ⟨hu, x, rfl, hx⟩ | ⟨hu, x, y, rfl, hx, hy⟩
  · exact ⟨.ofNat 8 x, 0, by simp [irArg, hu, Nat.mod_eq_of_lt hx]⟩
  · exact ⟨.ofNat 8 x, .ofNat 8 y, by simp [irArg, hu, Nat.mod_eq_of_lt hx, Nat.mod_eq_of_lt hy]⟩

theorem unary_fn {op : Op} (h : op.unary = true) (x y y' : BitVec 8) : op.fn x y = op.fn x y' := by
  cases op <;> simp [Op.unary] at h <;> rfl

theorem irFn_arg (op : Op) (x y : BitVec 8) (bb : List (Nat × List BV)) : (irFn op (irArg op x y) bb).1 = .prod [.leaf (op.fn x y).toNat] := by
  cases hu : op.unary
  · simp [irArg, hu, irFn]
  · simp only [irArg, hu, irFn, if_true, BitVec.ofNat_toNat, BitVec.setWidth_eq]
    rw [unary_fn hu x 0 y]

theorem const_iff (p : RPath) : IsConst [[0]] p ↔ ∃ q, p = 0 :: q := by
  constructor
  · rintro ⟨c, hc, q, rfl⟩
    simp only [List.mem_singleton] at hc
    subst hc
    exact ⟨q, rfl⟩
  · rintro ⟨q, rfl⟩
    exact ⟨[0], by simp, q, rfl⟩

theorem mapping_form (P : Process) (tagged : Bool) (enc : IEnc) (op : Op) (r : RRule) (hM : IsMapping P.asm (problem P.asm tagged enc op) r)
    (hC : RuleCorrect (ir op) (pe P.asm tagged) (irFn op) peFn r) :
    ∃ arith opA neg off s1 s2, (s1 = s2 → s1 = Src.free) ∧
      ∀ x y z1 z2 : BitVec 8, op.fn x y = word arith opA neg off (s1.pick x y z1) (s2.pick x y z2) := by
  obtain ⟨ri, vs, hrel, _⟩ := hM.input
  obtain ⟨k, o, c, a, b, e, d, rfl, ho, hk, ha, hb, he, hd⟩ := pe_shape hrel.arch
  obtain ⟨x0, y0, rfl⟩ := ir_paths (op := op) hrel.ir
  have hk' : k = kArith ∨ k = kBit := by rcases hk with h | h; exacts [.inl h.1, .inr h.1]
  have hap := hrel.arch_paths
  have hL := fun o c a b e d => pe_leaves (tagged := tagged) hk' o c a b e d
  simp only [problem, pe, hL, List.map_cons, List.map_nil] at hap
  have hnd : (r.ib.map (·.2)).Nodup := by
    rw [hap.nodup_iff]
    rcases hk' with rfl | rfl <;> decide
  have huniq : ∀ e e', e ∈ r.ib → e' ∈ r.ib → e.2 = e'.2 → e = e' := fun e e' h h' => List.inj_on_of_nodup_map hnd h h'
  have hentry : ∀ p, p ∈ [[0, k, 0], [0, k, 1], [1], [2], [3], [4]] → ∃ s, (s, p) ∈ r.ib := by
    intro p hp
    obtain ⟨e, h1, h2⟩ := List.mem_map.mp (hap.symm.subset hp)
    exact ⟨e.1, by rw [← h2]; exact h1⟩
  obtain ⟨s1, h1⟩ := hentry [1] (by simp)
  obtain ⟨s2, h2⟩ := hentry [2] (by simp)
  obtain ⟨s3, h3⟩ := hentry [3] (by simp)
  have hir := hrel.ir_paths
  simp only [problem, ir_leaves] at hir
  have hpath : ∀ q p, (RSrc.path q, p) ∈ r.ib → q = [1] ∨ q = [2] ∧ op.unary = false := by
    intro q p h
    have : q ∈ irSources r.ib := List.mem_filterMap.mpr ⟨_, h, rfl⟩
    have := hir.subset this
    cases hu : op.unary <;> simp [hu] at this
    · rcases this with h | h
      · exact .inl h
      · exact .inr ⟨h, rfl⟩
    · exact .inl this
  have hsrc : (irSources r.ib).Nodup := by
    rw [hir.nodup_iff]
    cases op.unary <;> simp
  have honce : ∀ q p p', (RSrc.path q, p) ∈ r.ib → (RSrc.path q, p') ∈ r.ib → p = p' := by
    intro q p p' h h'
    by_contra hne
    unfold irSources List.Nodup at hsrc
    rw [List.pairwise_filterMap] at hsrc
    have : Std.Symm (fun (a a' : RSrc × RPath) => ∀ b, (match a.1 with | .path q => some q | _ => none) = some b →
        ∀ b', (match a'.1 with | .path q => some q | _ => none) = some b' → b ≠ b') :=
      ⟨fun _ _ hab b hb b' hb' => (hab b' hb' b hb).symm⟩
    exact hsrc.forall h h' (by simpa using hne) q rfl q rfl rfl
  have hword : ∀ s p, (s, p) ∈ r.ib → (∀ q, p ≠ 0 :: q) → s = .unbound ∨ s = .path [1] ∨ s = .path [2] ∧ op.unary = false := by
    intro s p h hp
    cases s with
    | unbound => exact .inl rfl
    | const c =>
      obtain ⟨q, hq⟩ := (const_iff _).mp (hM.const c p h).1
      exact absurd hq (hp q)
    | path q =>
      rcases hpath q p h with rfl | ⟨rfl, hu⟩
      · exact .inr (.inl rfl)
      · exact .inr (.inr ⟨rfl, hu⟩)
  have hw1 := hword s1 _ h1 (by simp)
  have hw2 := hword s2 _ h2 (by simp)
  have hw3 := hword s3 _ h3 (by simp)
  refine ⟨k == kArith, o == 1, c != 0, .ofNat 8 c, srcOf s1, srcOf s2, ?_, ?_⟩
  · intro hs
    rcases hw1 with rfl | rfl | ⟨rfl, _⟩ <;> rcases hw2 with rfl | rfl | ⟨rfl, _⟩ <;> first | rfl | (exact absurd hs (by decide)) | (exact absurd (honce _ _ _ h1 h2) (by decide))
  · intro x y z1 z2
    have hrel' : Related (ir op).inT (pe P.asm tagged).inT r.ib (irArg op x y)
        (.prod [.sum k (.prod [.leaf o, .leaf c]), .leaf ((srcOf s1).pick x y z1).toNat, .leaf ((srcOf s2).pick x y z2).toNat, .leaf ((srcOf s3).pick x y 0).toNat, .leaf d]) := by
      refine ⟨irArg_has op x y, ?_, ?_, ?_, ?_⟩
      · obtain ⟨g0, _⟩ := hrel.arch
        exact ⟨g0, BitVec.isLt _, BitVec.isLt _, BitVec.isLt _, hd, trivial⟩
      · simp only [pe, hL, List.map_cons, List.map_nil]
        exact hap
      · rw [ir_leaves]
        cases hu : op.unary <;> simpa [hu] using hir
      · rintro ⟨s, p⟩ hs
        have hp := hap.subset (List.mem_map.mpr ⟨_, hs, rfl⟩)
        have leafOk : ∀ (s' : RSrc) (j : Nat) (z : BitVec 8), (s', [j]) ∈ r.ib → (s' = .unbound ∨ s' = .path [1] ∨ s' = .path [2] ∧ op.unary = false) →
            ([j], Ty.bv 0 8, ((srcOf s').pick x y z).toNat) ∈ rawLeaves (pe P.asm tagged).inT (.prod [.sum k (.prod [.leaf o, .leaf c]), .leaf ((srcOf s1).pick x y z1).toNat,
              .leaf ((srcOf s2).pick x y z2).toNat, .leaf ((srcOf s3).pick x y 0).toNat, .leaf d]) →
            EntryHolds (ir op).inT (pe P.asm tagged).inT (irArg op x y) (.prod [.sum k (.prod [.leaf o, .leaf c]), .leaf ((srcOf s1).pick x y z1).toNat,
              .leaf ((srcOf s2).pick x y z2).toNat, .leaf ((srcOf s3).pick x y 0).toNat, .leaf d]) (s', [j]) := by
          intro s' j z hs' hf hm
          refine ⟨_, _, hm, ?_⟩
          rcases hf with rfl | rfl | ⟨rfl, hu⟩
          · trivial
          · refine ⟨.bv 0 8, ?_, rfl⟩
            rw [ir_leaves]
            cases op.unary <;> simp [srcOf, Src.pick]
          · refine ⟨.bv 0 8, ?_, rfl⟩
            rw [ir_leaves, hu]
            simp [srcOf, Src.pick]
        have hcst : ∀ j, p = [0, k, j] → EntryHolds (ir op).inT (pe P.asm tagged).inT (irArg op x y) (.prod [.sum k (.prod [.leaf o, .leaf c]), .leaf ((srcOf s1).pick x y z1).toNat,
              .leaf ((srcOf s2).pick x y z2).toNat, .leaf ((srcOf s3).pick x y 0).toNat, .leaf d]) (s, p) := by
          rintro j rfl
          obtain ⟨t, n, hm, hc⟩ := hrel.entries _ hs
          refine ⟨t, n, ?_, ?_⟩
          · simp only [problem, pe, hL] at hm ⊢
            simpa using hm
          · cases s with
            | const cc => exact hc
            | unbound => trivial
            | path q =>
              exfalso
              have := ((hM.bound q _ hs).2.1).mpr ((const_iff _).mpr ⟨_, rfl⟩)
              obtain ⟨_, h, _⟩ := this
              simp [problem] at h
        simp only [List.mem_cons, List.not_mem_nil, or_false] at hp
        rcases hp with rfl | rfl | rfl | rfl | rfl | rfl
        · exact hcst 0 rfl
        · exact hcst 1 rfl
        · cases huniq _ _ hs h1 rfl
          exact leafOk _ _ z1 hs hw1 (by simp [pe, hL])
        · cases huniq _ _ hs h2 rfl
          exact leafOk _ _ z2 hs hw2 (by simp [pe, hL])
        · cases huniq _ _ hs h3 rfl
          exact leafOk _ _ 0 hs hw3 (by simp [pe, hL])
        · have hf := hword s _ hs (by simp)
          refine ⟨.bit 0, d, by simp [pe, hL], ?_⟩
          rcases hf with rfl | hf
          · trivial
          · exfalso
            have : ∃ q, s = .path q := by rcases hf with rfl | ⟨rfl, _⟩ <;> exact ⟨_, rfl⟩
            obtain ⟨q, rfl⟩ := this
            obtain ⟨_, _, t, g1, g2⟩ := hM.bound q _ hs
            have g2' : t = .bit 0 := by
              cases tagged <;> simpa [problem, pe, peIn, instT, arithOpT, bitOpT, opT, leafTypes, leafTypesF] using g2
            subst g2'
            cases hu : op.unary <;> simp [problem, ir, irIn, hu, leafTypes, leafTypesF] at g1
    obtain ⟨f, hR, hf⟩ := hM.outs
    have hob : (some [0], [0]) ∈ r.ob := by
      obtain ⟨p, hp, hp2, _⟩ := hf.once [0] (.bv 0 8) (by simp [problem, ir, leafTypes, leafTypesF])
      have hpm : p = [0] ∨ p = [1] := by simpa [problem, pe, peOut, leafTypes, leafTypesF] using hp
      have hp0 : p = [0] := by
        rcases hpm with h | rfl
        · exact h
        · have := hf.typed [1] (.bv 0 1) [0] (by simp [problem, pe, peOut, leafTypes, leafTypesF]) hp2
          simp [problem, ir, leafTypes, leafTypesF] at this
      subst hp0
      obtain ⟨e, he1, he2⟩ := List.mem_map.mp (hR.1.symm.subset hp)
      have he3 := hR.2 e he1
      rw [he2, hp2] at he3
      have : e = (some [0], [0]) := Prod.ext he3 he2
      rw [← this]
      exact he1
    obtain ⟨t, u, n, g1, g2⟩ := hC _ _ hrel' (fun _ _ => []) (fun _ _ => 0) (fun _ _ => 0) (by simp [BoxesCompute, ir]) (by simp [BoxesCompute, pe]) _ _ hob
    rw [irFn_arg] at g1
    simp only [ir, rawLeaves, rawLeavesAll, List.map_cons, List.map_nil, List.append_nil, List.mem_singleton, Prod.mk.injEq, true_and] at g1
    simp [peFn, pe, peOut, rawLeaves, rawLeavesAll] at g2
    apply BitVec.eq_of_toNat_eq
    rw [← g1.2, g2.2]

/-! ## which instructions a mapping of these PEs computes -/

def pts : List (BitVec 8) := [0, 1, 3]

theorem no_form_pts : ∀ op ∈ [Op.mul, .shftr, .shftl, .not, .neg], ∀ arith opA neg, ∀ s1 ∈ [Src.x, .y, .free], ∀ s2 ∈ [Src.x, .y, .free], (s1 = s2 → s1 = .free) →
    ∃ x ∈ pts, ∃ y ∈ pts, ∃ z1 ∈ pts, ∃ z2 ∈ pts, op.fn x y ≠ word arith opA neg (op.fn 0 0) (s1.pick x y z1) (s2.pick x y z2) := by
  decide +kernel

theorem no_form {op : Op} (hop : op ∉ expectFound) : ¬ ∃ arith opA neg off s1 s2, (s1 = s2 → s1 = Src.free) ∧
      ∀ x y z1 z2 : BitVec 8, op.fn x y = word arith opA neg off (s1.pick x y z1) (s2.pick x y z2) := by
  rintro ⟨arith, opA, neg, off, s1, s2, hs, h⟩
  have hmem : op ∈ [Op.mul, .shftr, .shftl, .not, .neg] := by cases op <;> simp_all [expectFound]
  have hsrc : ∀ s : Src, s ∈ [Src.x, .y, .free] := by intro s; cases s <;> simp
  obtain ⟨x, _, y, _, z1, _, z2, _, hne⟩ := no_form_pts op hmem arith opA neg s1 (hsrc _) s2 (hsrc _) hs
  apply hne
  rw [h x y z1 z2]
  cases arith
  · rfl
  · have h0 := h 0 0 0 0
    have hp : ∀ s : Src, s.pick 0 0 0 = 0 := by intro s; cases s <;> rfl
    rw [hp, hp] at h0
    have : op.fn 0 0 = off := by
      rw [h0]
      cases opA <;> simp [word]
    rw [this]

/-! ## rules for the instructions that are found -/

/-- The option, the code of the operation and the offset or flag used for an instruction. -/
def choice : Op → Key × Nat × Nat
  | .add => (kArith, 1, 0)
  | .sub => (kArith, 2, 0)
  | .and => (kBit, 1, 0)
  | .nand => (kBit, 1, 1)
  | .or => (kBit, 2, 0)
  | _ => (kBit, 2, 1)

def rule (op : Op) : RRule :=
  ⟨[(.const (.bits (BV.ofNat 2 (choice op).2.1)), [0, (choice op).1, 0]),
    (.const (.bits (BV.ofNat (width (offT (choice op).1)) (choice op).2.2)), [0, (choice op).1, 1]),
    (.path [1], [1]), (.path [2], [2]), (.unbound, [3]), (.unbound, [4])], [(some [0], [0]), (none, [1])]⟩

theorem choice_key (op : Op) : (choice op).1 = kArith ∨ (choice op).1 = kBit := by cases op <;> simp [choice]

theorem choice_word {op : Op} (hop : op ∈ expectFound) (x y : BitVec 8) :
    word ((choice op).1 == kArith) ((choice op).2.1 == 1) ((choice op).2.2 != 0) (.ofNat 8 (choice op).2.2) x y = op.fn x y := by
  simp only [expectFound, List.mem_cons, List.not_mem_nil, or_false] at hop
  rcases hop with rfl | rfl | rfl | rfl | rfl | rfl <;> simp [choice, word, Op.fn, kArith, kBit]

theorem not_unary {op : Op} (hop : op ∈ expectFound) : op.unary = false := by
  simp only [expectFound, List.mem_cons, List.not_mem_nil, or_false] at hop
  rcases hop with rfl | rfl | rfl | rfl | rfl | rfl <;> rfl

/-- The instruction as a value. -/
def choiceVal (op : Op) : Val :=
  .sum (choice op).1 (.prod [.enum (if (choice op).2.1 = 1 then memA else .lit 2), .bits (BV.ofNat (width (offT (choice op).1)) (choice op).2.2)])

theorem choice_valid (P : Process) (tagged : Bool) (hT : Trusted P (instT tagged)) (op : Op) :
    isValidAV P.asm (mkAV (instT tagged) (rawCode (instT tagged) (.sum (choice op).1 (.prod [.leaf (choice op).2.1, .leaf (choice op).2.2])))) = .ok true := by
  have hh : (instT tagged).Has (choiceVal op) := by
    cases op <;> cases tagged <;> simp [choiceVal, choice, instT, arithOpT, bitOpT, opT, Ty.Has, Fields.HasAll, Fields.HasAt, kArith, kBit, memA, offT, width, BV.ofNat_size]
  have hc : encode (instT tagged) (choiceVal op) = rawCode (instT tagged) (.sum (choice op).1 (.prod [.leaf (choice op).2.1, .leaf (choice op).2.2])) := by
    cases op <;> cases tagged <;> decide +kernel
  obtain ⟨h1, h2⟩ := encode_spec _ (inst_wf tagged) _ hh
  rw [← hc]
  exact (hT.valid_iff _ h1).mpr ⟨_, h2⟩

theorem inst_has {tagged : Bool} {k : Key} {o c : Nat} (ho : o < 4) (hk : k = kArith ∧ c < 256 ∨ k = kBit ∧ c < 2) :
    RHas (instT tagged) (.sum k (.prod [.leaf o, .leaf c])) := by
  have hp : ∀ cc w, c < 2 ^ w → RHas (.prod cc (.cons 0 opT (.cons 1 (.bv 0 w) .nil))) (.prod [.leaf o, .leaf c]) := by
    intro cc w hc
    refine ⟨?_, hc, trivial⟩
    have := op_width
    unfold opT at this ⊢
    simp only [RHas, this]
    exact ho
  rcases hk with ⟨rfl, hc⟩ | ⟨rfl, hc⟩
  · have := hp 4 8 hc
    cases tagged <;> simpa [instT, RHas, RHasAt, kArith, kBit, arithOpT, bitOpT] using this
  · have := hp 3 1 hc
    cases tagged <;> simpa [instT, RHas, RHasAt, kArith, kBit, arithOpT, bitOpT] using this

theorem rule_related {op : Op} (hop : op ∈ expectFound) (tagged : Bool) (A : Ty → Except Err AsmObj) :
    Related (ir op).inT (pe A tagged).inT (rule op).ib (irArg op 5 6)
      (.prod [.sum (choice op).1 (.prod [.leaf (choice op).2.1, .leaf (choice op).2.2]), .leaf 5, .leaf 6, .leaf 0, .leaf 0]) := by
  have hu := not_unary hop
  refine ⟨irArg_has _ _ _, ?_, ?_, ?_, ?_⟩
  · refine ⟨?_, by simp [RHas, width], by simp [RHas, width], by simp [RHas, width], by simp [RHas, width], trivial⟩
    cases op <;> exact inst_has (by decide) (by first | exact .inl ⟨rfl, by decide⟩ | exact .inr ⟨rfl, by decide⟩)
  · simp only [pe, pe_leaves (choice_key op)]
    exact .refl _
  · rw [ir_leaves, hu]
    exact .refl _
  · intro e he
    simp only [rule, List.mem_cons, List.not_mem_nil, or_false] at he
    have hL := fun o c a b e d => pe_leaves (tagged := tagged) (choice_key op) o c a b e d
    rcases he with rfl | rfl | rfl | rfl | rfl | rfl
    · exact ⟨opT, (choice op).2.1, by simp [pe, hL], by simp [opT], by rw [op_width]; rfl, by cases op <;> rfl⟩
    · refine ⟨offT (choice op).1, (choice op).2.2, by simp [pe, hL], ?_, rfl, by cases op <;> rfl⟩
      intro x
      unfold offT
      split <;> simp
    · exact ⟨.bv 0 8, 5, by simp [pe, hL], .bv 0 8, by simp [ir_leaves, hu], rfl⟩
    · exact ⟨.bv 0 8, 6, by simp [pe, hL], .bv 0 8, by simp [ir_leaves, hu], rfl⟩
    · exact ⟨.bv 0 8, 0, by simp [pe, hL], trivial⟩
    · exact ⟨.bit 0, 0, by simp [pe, hL], trivial⟩

theorem rule_mapping (P : Process) (tagged : Bool) (enc : IEnc) {op : Op} (hop : op ∈ expectFound) (hT : Trusted P (instT tagged)) :
    IsMapping P.asm (problem P.asm tagged enc op) (rule op) := by
  have hu := not_unary hop
  refine ⟨⟨_, _, rule_related hop tagged P.asm, ?_⟩, ?_, ?_, ?_, ?_⟩
  · intro c fs hty k x hx hk
    cases hty
    simp only [problem, List.mem_singleton, List.cons.injEq, and_true] at hk
    subst hk
    simp only [peIn, inputDict, List.mem_cons, List.not_mem_nil, or_false, Prod.mk.injEq, true_and] at hx
    rcases hx with rfl | hx
    · exact choice_valid P tagged hT op
    · rcases hx with ⟨h, _⟩ | ⟨h, _⟩ | ⟨h, _⟩ | ⟨h, _⟩ <;> exact absurd h (by decide)
  · refine ⟨fun p => if p = [0] then some [0] else none, ⟨?_, ?_⟩, ⟨?_, ?_⟩⟩
    · simp [problem, pe, peOut, leafTypes, leafTypesF, rule]
    · simp [rule]
    · intro a t i h h'
      split at h'
      · next ha =>
        subst ha
        simp only [Option.some.injEq] at h'
        subst h'
        simpa [problem, pe, peOut, ir, leafTypes, leafTypesF] using h
      · cases h'
    · intro i t h
      have : i = [0] := by
        simp [problem, ir, leafTypes, leafTypesF] at h
        exact h.1
      subst this
      refine ⟨[0], by simp [problem, pe, peOut, leafTypes, leafTypesF], by simp, ?_⟩
      intro a' _ h'
      by_contra hne
      simp [hne] at h'
  · intro q p h
    refine ⟨by simp [problem], ?_⟩
    simp only [rule, List.mem_cons, List.not_mem_nil, or_false, Prod.mk.injEq, RSrc.path.injEq, reduceCtorEq, false_and, false_or] at h
    have hc : ¬ IsConst (problem P.asm tagged enc op).irConst q := by
      rintro ⟨_, h, _⟩
      simp [problem] at h
    have hc' : ¬ IsConst (problem P.asm tagged enc op).archConst p := by
      intro h'
      obtain ⟨q, hq⟩ := (const_iff p).mp h'
      rcases h with ⟨_, rfl⟩ | ⟨_, rfl⟩ <;> simp at hq
    refine ⟨by simp [hc, hc'], .bv 0 8, ?_, ?_⟩
    · rcases h with ⟨rfl, _⟩ | ⟨rfl, _⟩ <;> simp [problem, ir, irIn, hu, leafTypes, leafTypesF]
    · rcases h with ⟨_, rfl⟩ | ⟨_, rfl⟩ <;> simp [problem, pe, peIn, leafTypes, leafTypesF]
  · intro c p h
    refine ⟨(const_iff p).mpr ?_, by simp [problem]⟩
    simp only [rule, List.mem_cons, List.not_mem_nil, or_false, Prod.mk.injEq, RSrc.const.injEq, reduceCtorEq, false_and] at h
    rcases h with ⟨_, rfl⟩ | ⟨_, rfl⟩ <;> exact ⟨_, rfl⟩
  · intro p h
    refine ⟨?_, by simp [problem]⟩
    intro h'
    obtain ⟨q, hq⟩ := (const_iff p).mp h'
    simp only [rule, List.mem_cons, List.not_mem_nil, or_false, Prod.mk.injEq, reduceCtorEq, false_and, false_or, true_and] at h
    rcases h with rfl | rfl <;> simp at hq

theorem rule_correct (P : Process) (tagged : Bool) {op : Op} (hop : op ∈ expectFound) :
    RuleCorrect (ir op) (pe P.asm tagged) (irFn op) peFn (rule op) := by
  intro ri ra h F ρi ρa _ _ q p hq
  have hu := not_unary hop
  obtain ⟨x, y, rfl⟩ := ir_paths h.ir
  have hra := h.arch
  cases ra with
  | leaf _ => simp [pe, RHas] at hra
  | sum _ _ => simp [pe, RHas] at hra
  | prod vs =>
    obtain ⟨k, o, c, a, b, e, d, rfl, ho, hk, ha, hb, he, hd⟩ := pe_shape hra
    have hk' : k = kArith ∨ k = kBit := by rcases hk with h | h; exacts [.inl h.1, .inr h.1]
    have hL := fun o c a b e d => pe_leaves (tagged := tagged) hk' o c a b e d
    have h0 := h.entries (.const (.bits (BV.ofNat 2 (choice op).2.1)), [0, (choice op).1, 0]) (by simp [rule])
    have h1 := h.entries (.const (.bits (BV.ofNat (width (offT (choice op).1)) (choice op).2.2)), [0, (choice op).1, 1]) (by simp [rule])
    have h2 := h.entries (.path [1], [1]) (by simp [rule])
    have h3 := h.entries (.path [2], [2]) (by simp [rule])
    obtain ⟨t0, n0, m0, _, _, g0⟩ := h0
    obtain ⟨t1, n1, m1, _, _, g1⟩ := h1
    obtain ⟨t2, n2, m2, u2, g2, _⟩ := h2
    obtain ⟨t3, n3, m3, u3, g3, _⟩ := h3
    simp [pe, hL] at m0 m1 m2 m3
    simp [ir_leaves, hu] at g2 g3
    obtain ⟨rfl, -, rfl⟩ := m0
    obtain ⟨-, -, rfl⟩ := m1
    obtain ⟨-, rfl⟩ := m2
    obtain ⟨-, rfl⟩ := m3
    obtain ⟨-, rfl⟩ := g2
    obtain ⟨-, rfl⟩ := g3
    have e0 : (BV.ofNat 2 (choice op).2.1).val = (choice op).2.1 := by cases op <;> rfl
    have e1 : (BV.ofNat (width (offT (choice op).1)) (choice op).2.2).val = (choice op).2.2 := by cases op <;> rfl
    rw [e0] at g0
    rw [e1] at g1
    simp only [rule, List.mem_cons, List.not_mem_nil, or_false, Prod.mk.injEq, Option.some.injEq, reduceCtorEq, false_and] at hq
    obtain ⟨rfl, rfl⟩ := hq
    refine ⟨.bv 0 8, .bv 0 8, (op.fn x y).toNat, ?_, ?_⟩
    · rw [irFn_arg]
      simp [ir, rawLeaves, rawLeavesAll]
    · rw [← choice_word hop x y, g0, g1]
      simp [peFn, pe, peOut, rawLeaves, rawLeavesAll]

/-- What both formulas need to know about the types. -/
theorem trusted_parts (P : Process) (tagged : Bool) (enc : IEnc) (op : Op) (hI : Trusted P (instT tagged)) (hO : Trusted P opT) :
    (∀ k t, (k, t) ∈ (problem P.asm tagged enc op).arch.inT.fieldDict → [k] ∈ (problem P.asm tagged enc op).archConst → Trusted P t) ∧
    ∀ p c ms, (p, Ty.enum c ms) ∈ leafTypes (problem P.asm tagged enc op).arch.inT [] → Trusted P (.enum c ms) := by
  constructor
  · intro k t h hk
    simp only [problem, List.mem_singleton, List.cons.injEq, and_true] at hk
    subst hk
    simp [problem, pe, peIn, Ty.fieldDict, Fields.toList] at h
    rw [h]
    exact hI
  · intro p c ms h
    have : Ty.enum c ms = opT := by
      cases tagged <;> simp [problem, pe, peIn, instT, arithOpT, bitOpT, leafTypes, leafTypesF, opT] at h ⊢ <;> tauto
    rw [this]
    exact hO

/-- C61: what tests/test_aadt_mapping.py:54-73 expects, of every sound and complete solver, either encoding of the index variables, and either PE.  For the instructions
`Add`, `Sub`, `And`, `Nand`, `Or`, `Nor` the mapper returns a rule, and the rule is a mapping that is correct on all inputs; for `Mul`, `Shftr`, `Shftl`, `Not` and `Neg` it returns
`None`.  It never raises.  `Not` is `Nor(x, x)`, but a mapping gives an IR input to one input of the architecture only. -/
theorem C61_small_ir_mapping (P : Process) (tagged : Bool) (enc : IEnc) (hI : Trusted P (instT tagged)) (hO : Trusted P opT)
    (solve : (MAsg Nat → Prop) → Option (MAsg Nat)) (hsat : ∀ φ a, solve φ = some a → φ a) (hcomp : ∀ φ a, φ a → ∃ a', solve φ = some a') (a0 : MAsg Nat) (op : Op) :
    (op ∈ expectFound → ∃ r, mapSolve P.asm (problem P.asm tagged enc op) solve a0 = .ok (some r) ∧
      IsMapping P.asm (problem P.asm tagged enc op) r ∧ RuleRight P (ir op) (pe P.asm tagged) r) ∧
    (op ∉ expectFound → mapSolve P.asm (problem P.asm tagged enc op) solve a0 = .ok none) := by
  obtain ⟨ht1, ht2⟩ := trusted_parts P tagged enc op hI hO
  have key := C33_decides_partial P (problem P.asm tagged enc op) (irFn op) peFn (fun _ => [1]) (pe_setup P tagged op) (pe_total P tagged)
    (by cases hu : op.unary <;> simp [problem, ir, irIn, hu, UnionFree, UnionFrees]) rfl rfl (by simp [problem]) (by simp [problem])
    ⟨0, instT tagged, by simp [problem, pe, peIn, Ty.fieldDict, Fields.toList], by simp [problem]⟩ (by simp [problem]) ht1 ht2 solve hsat hcomp a0
  constructor
  · intro hop
    rcases key with ⟨r, h1, h2, h3⟩ | ⟨_, h⟩
    · exact ⟨r, h1, h2, _, _, (pe_setup P tagged op).ir_fn, (pe_setup P tagged op).arch_fn, h3⟩
    · exact absurd ⟨_, rule_mapping P tagged enc hop hI, rule_correct P tagged hop⟩ h
  · intro hop
    rcases key with ⟨r, _, hM, hC⟩ | ⟨h, _⟩
    · exact absurd (mapping_form P tagged enc op r hM hC) (no_form hop)
    · exact h

/-- C61 with `simple_formula=True`. -/
theorem C61_small_ir_mapping_simple (P : Process) (tagged : Bool) (enc : IEnc) (hI : Trusted P (instT tagged)) (hO : Trusted P opT)
    (solve : (SAsg Nat → Prop) → Option (SAsg Nat)) (hsat : ∀ φ a, solve φ = some a → φ a) (hcomp : ∀ φ a, φ a → ∃ a', solve φ = some a') (a0 : SAsg Nat) (op : Op) :
    (op ∈ expectFound → ∃ r, simpleSolve P.asm (problem P.asm tagged enc op) solve a0 = .ok (some r) ∧
      IsMapping P.asm (problem P.asm tagged enc op) r ∧ RuleRight P (ir op) (pe P.asm tagged) r) ∧
    (op ∉ expectFound → simpleSolve P.asm (problem P.asm tagged enc op) solve a0 = .ok none) := by
  obtain ⟨ht1, ht2⟩ := trusted_parts P tagged enc op hI hO
  have hboxes : TotalBoxes (pe P.asm tagged) (fun _ => [1]) := by
    intro ci fi _ d bb _
    refine ⟨?_, by simp [pe]⟩
    simp only [pe]
    split <;> rfl
  have key := C55_decides_partial P (problem P.asm tagged enc op) (irFn op) peFn (fun _ => [1]) (pe_setup P tagged op) (pe_total P tagged) hboxes
    (by cases hu : op.unary <;> simp [problem, ir, irIn, hu, UnionFree, UnionFrees])
    (by simp [Flat, problem, ir, leafTypes, leafTypesF]) (by
      intro p u h
      simp [problem, pe, peOut, leafTypes, leafTypesF] at h
      rcases h with ⟨rfl, _⟩ | ⟨rfl, _⟩ <;> exact ⟨_, rfl⟩) (by simp [problem, ir, leafTypes, leafTypesF])
    (by simp [problem]) (by simp [problem])
    ⟨0, instT tagged, by simp [problem, pe, peIn, Ty.fieldDict, Fields.toList], by simp [problem]⟩ (by simp [problem, IsConst]) (by simp [problem]) ht1 ht2 solve hsat hcomp a0
  constructor
  · intro hop
    rcases key with ⟨r, h1, h2, h3⟩ | ⟨_, h⟩
    · exact ⟨r, h1, h2, _, _, (pe_setup P tagged op).ir_fn, (pe_setup P tagged op).arch_fn, h3⟩
    · exact absurd ⟨_, rule_mapping P tagged enc hop hI, rule_correct P tagged hop⟩ h
  · intro hop
    rcases key with ⟨r, _, hM, hC⟩ | ⟨h, _⟩
    · exact absurd (mapping_form P tagged enc op r hM hC) (no_form hop)
    · exact h

theorem trusted_fresh (tagged : Bool) : Trusted ⟨fun _ => []⟩ (instT tagged) ∧ Trusted ⟨fun _ => []⟩ opT := by
  have hs : ¬ SeveralRanges (enumCodes [memA, EVal.lit 2]).dedup := fun h => absurd h.1 (by decide)
  have ho : Checkable opT := ⟨⟨1, by decide, by decide⟩, hs⟩
  constructor
  · intro t ht
    simp only [List.mem_singleton] at ht
    subst ht
    refine ⟨inst_wf tagged, ?_⟩
    cases tagged <;> simp [instT, Checkable, Checkables, arithOpT, bitOpT, ho, Fields.toList]
  · intro t ht
    simp only [List.mem_singleton] at ht
    subst ht
    exact ⟨op_wf, ho⟩

/-- In a process that has built no assembler before, `Nand` is mapped and `Mul` is not. -/
example (tagged : Bool) (enc : IEnc) (solve : (MAsg Nat → Prop) → Option (MAsg Nat)) (hsat : ∀ φ a, solve φ = some a → φ a)
    (hcomp : ∀ φ a, φ a → ∃ a', solve φ = some a') (a0 : MAsg Nat) :
    (∃ r, mapSolve (Process.asm ⟨fun _ => []⟩) (problem (Process.asm ⟨fun _ => []⟩) tagged enc .nand) solve a0 = .ok (some r)) ∧
    mapSolve (Process.asm ⟨fun _ => []⟩) (problem (Process.asm ⟨fun _ => []⟩) tagged enc .mul) solve a0 = .ok none := by
  obtain ⟨h1, h2⟩ := trusted_fresh tagged
  obtain ⟨r, hr, _⟩ := (C61_small_ir_mapping _ tagged enc h1 h2 solve hsat hcomp a0 .nand).1 (by decide)
  exact ⟨⟨r, hr⟩, (C61_small_ir_mapping _ tagged enc h1 h2 solve hsat hcomp a0 .mul).2 (by decide)⟩

/-- The same with `simple_formula=True`; the hypotheses are those of `C55_decides_partial` for this problem. -/
example (tagged : Bool) (enc : IEnc) (solve : (SAsg Nat → Prop) → Option (SAsg Nat)) (hsat : ∀ φ a, solve φ = some a → φ a)
    (hcomp : ∀ φ a, φ a → ∃ a', solve φ = some a') (a0 : SAsg Nat) :
    (∃ r, simpleSolve (Process.asm ⟨fun _ => []⟩) (problem (Process.asm ⟨fun _ => []⟩) tagged enc .nand) solve a0 = .ok (some r)) ∧
    simpleSolve (Process.asm ⟨fun _ => []⟩) (problem (Process.asm ⟨fun _ => []⟩) tagged enc .mul) solve a0 = .ok none := by
  obtain ⟨h1, h2⟩ := trusted_fresh tagged
  obtain ⟨r, hr, _⟩ := (C61_small_ir_mapping_simple _ tagged enc h1 h2 solve hsat hcomp a0 .nand).1 (by decide)
  exact ⟨⟨r, hr⟩, (C61_small_ir_mapping_simple _ tagged enc h1 h2 solve hsat hcomp a0 .mul).2 (by decide)⟩

end Peak.SPe
