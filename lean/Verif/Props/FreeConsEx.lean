import Verif.Props.FreeCons
import Verif.Props.SimpleFormulaEx
/-!
# Constraints on inputs that are not `Const`: problems that meet the hypotheses, and violations
-/

namespace Peak
open Spec

/-- The rule that is made from an answer of the solver, when no leaf is an enum. -/
theorem IM.rule_get {B K : Type} [DecidableEq B] {P : Process} {pb : MapPb B K} {fi fa : Fn B} {inW : K → List Nat} (S : Setup P pb.ir pb.arch fi fa inW) {bs : Bdgs}
    (hB : IM.BdgsOk0 pb bs) {a : MAsg B} {s : RVal} {i bi bo : Nat} {l : List Bdg} {ib ob : Bdg}
    (hs : (RF.skels pb.arch.inT)[i]? = some s) (hl : bs.ins[i]? = some l) (hib : l[bi]? = some ib) (hob : bs.outs[bo]? = some ob)
    (m1 : pb.enc.matchIndex (RF.skels pb.arch.inT).length (ivar pb.enc (RF.skels pb.arch.inT).length a.fi) i = .ok true)
    (m2 : pb.enc.matchIndex bs.maxIns (ivar pb.enc bs.maxIns a.ib) bi = .ok true)
    (m3 : pb.enc.matchIndex bs.outs.length (ivar pb.enc bs.outs.length a.ob) bo = .ok true)
    (he : ∀ p c ms, (p, Ty.enum c ms) ∉ leafTypes pb.arch.inT []) :
    ∃ r, rrFromSolver P.asm pb bs a = .ok r ∧ r.ob = ob ∧ List.Forall₂ (IM.EntryR pb a) ib r.ib := by
  rcases IM.rule_any0 S hB (a := a) hs hl hib hob m1 m2 m3 with ⟨r, hr⟩ | ⟨_, p, c, ms, h, _⟩
  · obtain ⟨i', bi', bo', s', l', ib', ob', hs', hl', hib', hob', n1, n2, n3, hro, hF⟩ := IM.rule_inv S.arch_in hr
    have e1 := IM.match_unique n1 m1
    have e2 := IM.match_unique n2 m2
    have e3 := IM.match_unique n3 m3
    subst e1 e2 e3
    rw [hl] at hl'; cases hl'
    rw [hib] at hib'; cases hib'
    rw [hob] at hob'; cases hob'
    exact ⟨r, hr, hro, hF⟩
  · exact absurd h (he p c ms)

/-- A constant of 8 bits. -/
theorem IM.const8 {c : RConst} {n : Nat} (h : ConstIs c (.bv 0 8) (n % 2 ^ width (.bv 0 8))) : c = .bits (BV.ofNat 8 n) := by
  cases c with
  | bit b => obtain ⟨⟨x, hx⟩, _⟩ := h; cases hx
  | bits b =>
    obtain ⟨_, hs, hv⟩ := h
    exact congrArg RConst.bits (BV.ext hs (by rw [hv, BV.ofNat_val]; rfl))

/-! ## `a + 3` as `x + y`, where `y` is not `Const` but constrained to 3 -/

theorem wFree : ∀ p, IsFree wPb p → p = [6] := by
  rintro p ⟨_, cs, h⟩
  simp only [wPb, List.mem_singleton, Prod.mk.injEq] at h
  exact h.1

theorem wMappingC (P : Process) : IsMappingC P.asm wPb vRule := by
  have h := vMapping P
  obtain ⟨ri, vs, h1, h2⟩ := h.input
  refine ⟨⟨ri, vs, h1, wValid P vs⟩, h.outs, ?_, ?_, ?_⟩
  · intro q p hm
    simp only [vRule, List.mem_cons, List.not_mem_nil, or_false, Prod.mk.injEq, RSrc.path.injEq, reduceCtorEq, false_and] at hm
    obtain ⟨rfl, rfl⟩ := hm
    refine ⟨by simp [wPb], ?_, .bv 0 8, by simp [wPb, vIr, vIn1, leafTypes, leafTypesF], by simp [wPb, vArch, vIn2, leafTypes, leafTypesF]⟩
    simp [wPb, IsConst]
  · intro c p hm
    simp only [vRule, List.mem_cons, List.not_mem_nil, or_false, Prod.mk.injEq, RSrc.const.injEq, reduceCtorEq, false_and, false_or] at hm
    obtain ⟨rfl, rfl⟩ := hm
    refine ⟨.inr ⟨[3], by simp [wPb]⟩, fun cs hcs => ?_⟩
    simp only [wPb, List.mem_singleton, Prod.mk.injEq, true_and] at hcs
    subst hcs
    exact ⟨3, by simp, .bv 0 8, by simp [wPb, vArch, vIn2, leafTypes, leafTypesF], by simp, rfl, rfl⟩
  · intro p hm
    simp [vRule] at hm

theorem wAllowed {c : RConst} (h : Allowed wPb [6] c) : c = .bits (BV.ofNat 8 3) := by
  obtain ⟨n, hn, t, ht, hc⟩ := h [3] (by simp [wPb])
  simp only [List.mem_singleton] at hn
  subst hn
  have htt : t = .bv 0 8 := by simpa [wPb, vArch, vIn2, leafTypes, leafTypesF] using ht
  subst htt
  exact IM.const8 hc

theorem wValues (rule' : RRule) (h : WithValues wPb vRule rule') : rule' = vRule := by
  obtain ⟨ib, ob⟩ := rule'
  obtain ⟨h1, h2⟩ := h
  simp only at h1 h2
  subst h1
  simp only [vRule] at h2 ⊢
  cases h2 with
  | @cons _ e1 _ _ f1 h2 =>
  cases h2 with
  | @cons _ e2 _ _ f2 h2 =>
  cases h2
  obtain ⟨x1, p1⟩ := e1
  obtain ⟨x2, p2⟩ := e2
  obtain ⟨g1, _, g3⟩ := f1
  obtain ⟨k1, k2, _⟩ := f2
  simp only at g1 k1 g3 k2
  subst g1 k1
  rw [g3 (fun h => by have := wFree _ h; simp at this)]
  obtain ⟨c, hc, hA⟩ := k2 ⟨by simp [wPb, IsConst], [3], by simp [wPb]⟩
  rw [hc, wAllowed hA]

theorem wCorrect : RuleCorrect wPb.ir wPb.arch (vIrFn (· + 3)) vArchFn vRule := vCorrect.1

/-- The hypotheses of the theorems hold for `a + 3` as `x + y` with `y` constrained to 3, and any complete solver: both searches return a rule, and with 3 for `y` it is a
correct mapping. -/
example (P : Process) (solve : (MAsg Nat → Prop) → Option (MAsg Nat)) (hsat : ∀ φ a, solve φ = some a → φ a) (hcomp : ∀ φ a, φ a → ∃ a', solve φ = some a')
    (a0 : MAsg Nat) : ∃ r, mapSolve P.asm wPb solve a0 = .ok (some r) ∧
      ∃ r', WithValues wPb r r' ∧ IsMappingC P.asm wPb r' ∧ RuleCorrect wPb.ir wPb.arch (vIrFn (· + 3)) vArchFn r' := by
  have hcons : ∀ p cs, (p, cs) ∈ wPb.cons → cs ≠ [] ∧ ∃ t, (p, t) ∈ leafTypes wPb.arch.inT [] := by
    intro p cs h
    simp only [wPb, List.mem_singleton, Prod.mk.injEq] at h
    obtain ⟨rfl, rfl⟩ := h
    exact ⟨by simp, .bv 0 8, by simp [wPb, vArch, vIn2, leafTypes, leafTypesF]⟩
  rcases C33_complete_values_partial P wPb (vIrFn (· + 3)) vArchFn (fun _ => [1]) (vSetup P (· + 3)) (vTotal P) wB.uf rfl rfl hcons (by simp [wPb])
    ⟨5, .bv 0 8, by simp [wPb, vArch, vIn2, Ty.fieldDict, Fields.toList], by simp [wPb]⟩ solve hsat hcomp a0 vRule (wMappingC P)
    (fun r' h => wValues r' h ▸ wCorrect) with ⟨r, hr⟩ | ⟨_, _, _, _, _, _, _, _, h, _, _⟩ | ⟨_, p, c, ms, _, h⟩
  · obtain ⟨⟨r', h1⟩, h2⟩ := C33_sound_values_partial P wPb (vIrFn (· + 3)) vArchFn (fun _ => [1]) (VF.setup0 (vSetup P (· + 3))) (by simp [wPb]) solve hsat a0 r hr
    exact ⟨r, hr, r', h1, h2 r' h1⟩
  · have := VF.mem_types (by assumption) h
    simp [wPb, vArch, vIn2, leafTypes, leafTypesF] at this
  · simp [wPb, vArch, vIn2, leafTypes, leafTypesF] at h

theorem wBind (P : Process) : mapBindings P.asm wPb true = .ok (some wBs) := by
  rw [← wBs_eq]
  refine IM.bindings_any' (vSetup P (· + 3)) (vTotal P) wB.uf true (fun h => by cases h) wB.cons ⟨2, vIn2, 5, rfl, by simp [vIn2, Fields.toList], by simp [wPb]⟩ ?_ ?_
  · exact ⟨.prod [.leaf 0, .leaf 0], by simp [show RF.skels wPb.arch.inT = [.prod [.leaf 0, .leaf 0]] from rfl],
      by rw [show IM.formB wPb (.prod [.leaf 0, .leaf 0]) = [wIb] from rfl]; simp⟩
  · rw [show createBindings (leafTypes wPb.arch.outT []) (leafTypes wPb.ir.outT []) = [wOb] from rfl]; simp

example (P : Process) (solve : (SAsg Nat → Prop) → Option (SAsg Nat)) (hsat : ∀ φ a, solve φ = some a → φ a) (hcomp : ∀ φ a, φ a → ∃ a', solve φ = some a')
    (a0 : SAsg Nat) : ∃ r, simpleSolve P.asm wPb solve a0 = .ok (some r) ∧
      ∃ r', WithValues wPb r r' ∧ IsMappingC P.asm wPb r' ∧ RuleCorrect wPb.ir wPb.arch (vIrFn (· + 3)) vArchFn r' := by
  have hcons : ∀ p cs, (p, cs) ∈ wPb.cons → cs ≠ [] ∧ ∃ t, (p, t) ∈ leafTypes wPb.arch.inT [] := by
    intro p cs h
    simp only [wPb, List.mem_singleton, Prod.mk.injEq] at h
    obtain ⟨rfl, rfl⟩ := h
    exact ⟨by simp, .bv 0 8, by simp [wPb, vArch, vIn2, leafTypes, leafTypesF]⟩
  rcases C55_complete_values_partial P wPb (vIrFn (· + 3)) vArchFn (fun _ => [1]) (vSetup P (· + 3)) (vTotal P) vTotalBoxes wB.uf flatOut flatOut
    (by simp [wPb, vIr, vOut, leafTypes, leafTypesF]) hcons (by simp [wPb])
    ⟨5, .bv 0 8, by simp [wPb, vArch, vIn2, Ty.fieldDict, Fields.toList], by simp [wPb]⟩ solve hsat hcomp a0 vRule (wMappingC P)
    (fun r' h => wValues r' h ▸ wCorrect) (fun _ vs _ => wValid P vs) with ⟨r, hr⟩ | ⟨_, p, c, ms, h, _⟩
  · obtain ⟨⟨r', h1⟩, h2⟩ := C55_sound_values_partial P wPb (vIrFn (· + 3)) vArchFn (fun _ => [1]) (VF.setup0 (vSetup P (· + 3))) (by simp [wPb])
      (by
        intro bs hbs l hl b hb l' hl' b' hb' q p hp hm hm'
        rw [wBind] at hbs
        cases hbs
        simp only [wBs, List.mem_singleton] at hl hl'
        subst hl hl'
        simp only [List.mem_singleton] at hb hb'
        subst hb hb'
        simp only [wIb, List.mem_cons, List.not_mem_nil, or_false, Prod.mk.injEq, Option.some.injEq, reduceCtorEq, false_and, false_or] at hm hm'
        rw [hm.2] at hm'
        simp at hm')
      (by
        intro bs hbs p hf
        rw [wBind] at hbs
        cases hbs
        rw [wFree p hf]
        exact ⟨[wIb], by simp [wBs], wIb, by simp, none, by simp [wIb]⟩) solve hsat a0 r hr
    exact ⟨r, hr, r', h1, h2 r' h1⟩
  · simp [wPb, vArch, vIn2, leafTypes, leafTypesF] at h

/-! ## violations -/

theorem wReady (P : Process) : SFm.Ready P wPb wBs (vIrFn (· + 3)) vArchFn (fun _ => [1]) :=
  ⟨vSetup P (· + 3), vTotal P, vTotalBoxes, wB.toBdgsOk0, by simp [wPb], flatOut, flatOut, by simp [wPb, vIr, vOut, leafTypes, leafTypesF],
    ⟨5, .bv 0 8, by simp [wPb, vArch, vIn2, Ty.fieldDict, Fields.toList], by simp [wPb]⟩, by decide, by decide⟩

/-- The answer of the solver: `y` is quantified, and the solver gave 9 to its variable. -/
def wsAsg : SAsg Nat where
  m := wAsg
  archE := fun _ => 0
  archA := fun _ => 0

theorem wsSat (P : Process) : simpleSat P.asm wPb wBs wsAsg := by
  intro a' ha'
  have h1 : a'.m.fi = 0 := ha'.fi
  have h2 : a'.m.ib = 0 := ha'.ib
  have h3 : a'.m.ob = 0 := ha'.ob
  have hBO : IM.BOk wPb (.prod [.leaf 0, .leaf 0]) wIb :=
    IM.formB_ok (wReady P).S.ir_in.1 (wReady P).S.arch_in.1 (by simp [wPb, vArch, vIn2, RHas, RHasAll, width]) (by
      rw [show IM.formB wPb (.prod [.leaf 0, .leaf 0]) = [wIb] from rfl]; simp)
  refine SFm.holds_of (wReady P) (i := 0) (bi := 0) (bo := 0) (s := .prod [.leaf 0, .leaf 0]) (ib := wIb) (ob := wOb) rfl rfl a' ?_ hBO ?_ ?_ ?_ ?_ ?_
  · refine ⟨rfl, by decide, ?_, ?_, by decide⟩
    · rw [h1]; rfl
    · rw [h2]; rfl
  · rw [h3]; rfl
  · exact RF.tags_unionFree _ _ _ _ (by simp [wPb, vArch, vIn2, UnionFree, UnionFrees])
  · intro c hc hcp
    simp only [wPb, List.mem_singleton] at hc
    subst hc
    simp [wPb, constAt] at hcp
  · exact fun vs _ => wValid P vs
  · intro hfa ri hri hbits F _ _ q p hq
    simp only [wOb, List.mem_singleton, Prod.mk.injEq, Option.some.injEq] at hq
    obtain ⟨rfl, rfl⟩ := hq
    obtain ⟨n3, hn3, h6⟩ := hfa ([6], [3]) (by simp [wPb]) rfl
    simp only [List.mem_singleton] at hn3
    subst hn3
    rw [IM.consEq_ok P (wReady P).S.arch_in.1 (t := .bv 0 8) (by simp [wPb, vArch, vIn2, leafTypes, leafTypesF])] at h6
    simp only [Except.ok.injEq, beq_iff_eq, width] at h6
    cases ri with
    | leaf _ => simp [wPb, vIr, RHas] at hri
    | sum _ _ => simp [wPb, vIr, RHas] at hri
    | prod vs =>
      simp only [wPb, vIr, vIn1, RHas] at hri
      match vs, hri with
      | [v], h =>
        obtain ⟨n, rfl, hn⟩ := leaf8 v h.1
        have hb := hbits [0] [5] (by simp [wIb]) (.bv 0 8) n (by simp [wPb, vIr, vIn1, rawLeaves, rawLeavesAll])
        simp only [width] at hb
        have e6 : subArch wPb wBs (RF.skels wPb.arch.inT).length a' [6] = a'.m.arch [6] := (SFm.sub_free rfl).2 _ _
        refine ⟨.bv 0 8, .bv 0 8, (n + 3) % 256, ?_, ?_⟩
        · simp [wPb, vIr, vOut, vIrFn, rawLeaves, rawLeavesAll]
        · have hf : VF.fill wPb.arch.inT (.prod [.leaf 0, .leaf 0]) (subArch wPb wBs (RF.skels wPb.arch.inT).length a') = .prod [.leaf n, .leaf 3] := by
            generalize subArch wPb wBs (RF.skels wPb.arch.inT).length a' = v at hb e6
            simp only [wPb, vArch, vIn2, VF.fill, VF.fillAll, width]
            rw [hb, e6, h6]
          rw [hf]
          simp [wPb, vArch, vOut, vArchFn, rawLeaves, rawLeavesAll]

/-- The code violates C55 for constraints on a path that is not `Const`: `y` is constrained to 3 and quantified universally, the rule is made with the value the
solver happens to give to its variable (mapper.py:836-848), here 9.  It is not correct. -/
theorem C55_violated_constraint (P : Process) : ∃ (pb : MapPb Nat Nat) (fi fa : Fn Nat) (solve : (SAsg Nat → Prop) → Option (SAsg Nat)) (rule : RRule),
    Setup P pb.ir pb.arch fi fa (fun _ => [1]) ∧ (∀ φ a, solve φ = some a → φ a) ∧ (∀ a0, simpleSolve P.asm pb solve a0 = .ok (some rule)) ∧
    pb.cons = [([6], [3])] ∧ (.const (.bits (BV.ofNat 8 9)), [6]) ∈ rule.ib ∧ ¬ RuleCorrect pb.ir pb.arch fi fa rule := by
  classical
  have S : Setup P wPb.ir wPb.arch (vIrFn (· + 3)) vArchFn (fun _ => [1]) := vSetup P (· + 3)
  let solve : (SAsg Nat → Prop) → Option (SAsg Nat) := fun φ => if φ wsAsg then some wsAsg else none
  have hsat : ∀ φ a, solve φ = some a → φ a := by
    intro φ a h
    simp only [solve] at h
    split at h
    · next hx => cases h; exact hx
    · cases h
  have hrr : rrFromSolver P.asm wPb wBs wsAsg.m = .ok ⟨[(.path [0], [5]), (.const (.bits (BV.ofNat 8 9)), [6])], wOb⟩ := by
    obtain ⟨r, hr, ho, hF⟩ := IM.rule_get S wB.toBdgsOk0 (a := wsAsg.m) (l := [wIb]) (ib := wIb) (ob := wOb) (s := .prod [.leaf 0, .leaf 0]) (i := 0) (bi := 0) (bo := 0)
      rfl rfl rfl rfl rfl rfl rfl (by intro p c ms h; simp [wPb, vArch, vIn2, leafTypes, leafTypesF] at h)
    obtain ⟨rib, rob⟩ := r
    simp only at ho hF
    subst ho
    simp only [wIb] at hF
    cases hF with
    | @cons _ e1 _ _ h1 hF =>
      cases hF with
      | @cons _ e2 _ _ h2 hF =>
        cases hF
        obtain ⟨x1, p1⟩ := e1
        obtain ⟨x2, p2⟩ := e2
        obtain ⟨g1, g2⟩ := h1
        obtain ⟨k1, k2⟩ := h2
        simp only at g1 k1
        subst g1 k1
        simp only [Option.some.injEq, reduceCtorEq, false_and, or_false, exists_eq_left', false_or, exists_false, true_and] at g2 k2
        subst g2
        rcases k2 with ⟨_, c, t, rfl, ht, hc⟩ | ⟨_, k2, _⟩
        · have htt : t = .bv 0 8 := by simpa [wPb, vArch, vIn2, leafTypes, leafTypesF] using ht
          subst htt
          rw [hr, IM.const8 hc]
          rfl
        · exact absurd k2 (by simp [wPb])
  refine ⟨wPb, vIrFn (· + 3), vArchFn, solve, ⟨[(.path [0], [5]), (.const (.bits (BV.ofNat 8 9)), [6])], wOb⟩, S, hsat, fun a0 => ?_, rfl,
    List.mem_cons_of_mem _ List.mem_cons_self, ?_⟩
  · obtain ⟨x, _, _, _, _, _, _, _, _, _, _, _, _, _, hx, _⟩ := SFm.formula_any (wReady P) a0
    simp only [simpleSolve, wBind, hx, solve, if_pos (wsSat P), hrr]
  · intro h
    have hR : Related wPb.ir.inT wPb.arch.inT [(.path [0], [5]), (.const (.bits (BV.ofNat 8 9)), [6])] (.prod [.leaf 0]) (.prod [.leaf 0, .leaf 9]) := by
      refine ⟨by simp [wPb, vIr, vIn1, RHas, RHasAll, width], by simp [wPb, vArch, vIn2, RHas, RHasAll, width], ?_, ?_, ?_⟩
      · simp [wPb, vArch, vIn2, rawLeaves, rawLeavesAll]
      · simp [wPb, vIr, vIn1, rawLeaves, rawLeavesAll, irSources]
      · intro e he
        simp only [List.mem_cons, List.not_mem_nil, or_false] at he
        rcases he with rfl | rfl
        · exact ⟨.bv 0 8, 0, by simp [wPb, vArch, vIn2, rawLeaves, rawLeavesAll], .bv 0 8, by simp [wPb, vIr, vIn1, rawLeaves, rawLeavesAll], rfl⟩
        · exact ⟨.bv 0 8, 9, by simp [wPb, vArch, vIn2, rawLeaves, rawLeavesAll], by simp, rfl, rfl⟩
    obtain ⟨t, u, n, h1, h2⟩ := h _ _ hR (fun _ _ => []) (fun _ _ => 0) (fun _ _ => 0) (by intro b k i o hb; simp [wPb, vIr] at hb) (by intro b k i o hb; simp [wPb, vArch] at hb)
      [1] [1] (by simp [wOb])
    simp only [wPb, vIr, vArch, vOut, vIrFn, vArchFn, rawLeaves, rawLeavesAll, List.map_cons, List.map_nil, List.append_nil, List.mem_singleton, Prod.mk.injEq] at h1 h2
    omega

/-! ## a constrained leaf of a form that has no candidate binding -/

/-- The inputs: `d`, of 8 or of 4 bits, and `c`. -/
def ucSum : Fields := .cons 0 (.bv 0 8) (.cons 1 (.bv 0 4) .nil)
def ucIn : Fields := .cons 6 (.sum 9 ucSum) (.cons 7 (.bv 0 8) .nil)

/-- An architecture that returns 0. -/
def ucArch : PeakObj Nat Nat where
  inT := .prod 2 ucIn
  outT := .prod 1 vOut
  bbs := []
  bbOutW := fun _ => [1]
  run := fun _ _ => ([AV.bits (BV.ofNat 8 0)], [])

def ucArchFn : Fn Nat := fun _ _ => (.prod [.leaf 0], [])

/-- Map the identity to it, where `c` is `Const` and `d`, if it has 4 bits, is 3. -/
def ucPb : MapPb Nat Nat where
  ir := vIr id
  arch := ucArch
  irConst := []
  archConst := [[7]]
  cons := [([6, 1], [3])]
  enc := .binary

def ucIb : Bdg := [(some [0], [6, 0]), (none, [7])]
def ucBs : Bdgs := ⟨[[ucIb], []], [wOb]⟩

theorem ucBs_eq : (⟨(RF.skels ucPb.arch.inT).map (IM.formB ucPb), createBindings (leafTypes ucPb.arch.outT []) (leafTypes ucPb.ir.outT [])⟩ : Bdgs) = ucBs := by
  rfl

theorem ucSetup (P : Process) : Setup P ucPb.ir ucPb.arch (vIrFn id) ucArchFn (fun _ => [1]) := by
  have S := vSetup P id
  refine ⟨S.ir_fn, ⟨2, ucIn, 1, vOut, rfl, rfl, ?_⟩, S.ir_in, ?_, S.ir_out, S.arch_out, S.ir_boxes, ?_, rfl⟩
  · intro vs bb h
    refine ⟨[.leaf 0], rfl, ⟨by show 0 < 2 ^ width (.bv 0 8); decide, trivial⟩, ⟨rfl, trivial⟩, rfl⟩
  · exact ⟨by simp [ucPb, ucArch, ucIn, ucSum, WF, WFs, Fields.toList], by simp [ucPb, ucArch, ucIn, ucSum, Buildable, Buildables, Fields.toList, width, maxWidth, tagBits]⟩
  · refine ⟨by simp [ucPb, ucArch], by simp, by simp [ucPb, ucArch], fun r bb h => ?_⟩
    simp [ucArchFn, ucPb, ucArch]

theorem ucTotal (P : Process) : Total P ucPb.arch := by
  refine ⟨2, ucIn, 1, vOut, rfl, rfl, ?_⟩
  intro d bb h
  exact ⟨[.leaf 0], ⟨by show 0 < 2 ^ width (.bv 0 8); decide, trivial⟩, ⟨rfl, trivial⟩⟩

theorem ucTotalBoxes : TotalBoxes ucPb.arch (fun _ => [1]) := by
  intro ci fi hT d bb h
  exact ⟨rfl, by simp [ucPb, ucArch]⟩

theorem ucB : IM.BdgsOk ucPb ucBs := by
  rw [← ucBs_eq]
  refine ⟨⟨by simp [ucPb, vIr, vIn1, UnionFree, UnionFrees], rfl, rfl, ?_⟩, rfl, rfl⟩
  intro c hc
  simp only [ucPb, List.mem_singleton] at hc
  subst hc
  simp [ucPb, ucArch, ucIn, ucSum, leafTypes, leafTypesF]

theorem ucReady (P : Process) : SFm.Ready P ucPb ucBs (vIrFn id) ucArchFn (fun _ => [1]) :=
  ⟨ucSetup P, ucTotal P, ucTotalBoxes, ucB.toBdgsOk0, by simp [ucPb], flatOut, flatOut, by simp [ucPb, vIr, vOut, leafTypes, leafTypesF],
    ⟨7, .bv 0 8, by simp [ucPb, ucArch, ucIn, Ty.fieldDict, Fields.toList], by simp [ucPb]⟩, by decide, by decide⟩

theorem ucBind (P : Process) : mapBindings P.asm ucPb true = .ok (some ucBs) := by
  rw [← ucBs_eq]
  refine IM.bindings_any' (ucSetup P) (ucTotal P) ucB.uf true (fun h => by cases h) ucB.cons ⟨2, ucIn, 7, rfl, by simp [ucIn, Fields.toList], by simp [ucPb]⟩ ?_ ?_
  · refine ⟨.prod [.sum 0 (.leaf 0), .leaf 0], ?_, by rw [show IM.formB ucPb (.prod [.sum 0 (.leaf 0), .leaf 0]) = [ucIb] from rfl]; simp⟩
    rw [show RF.skels ucPb.arch.inT = [.prod [.sum 0 (.leaf 0), .leaf 0], .prod [.sum 1 (.leaf 0), .leaf 0]] from rfl]; simp
  · rw [show createBindings (leafTypes ucPb.arch.outT []) (leafTypes ucPb.ir.outT []) = [wOb] from rfl]; simp

/-- The answer of the solver: 0 everywhere. -/
def ucAsg : SAsg Nat where
  m := ⟨0, 0, 0, fun _ => 0, fun _ => 0, fun _ => 0, fun _ => 0, fun _ _ => 0, fun _ _ => 0⟩
  archE := fun _ => 0
  archA := fun _ => 0

theorem ucSat (P : Process) : simpleSat P.asm ucPb ucBs ucAsg := by
  intro a' ha'
  have h1 : a'.m.fi = 0 := ha'.fi
  have h2 : a'.m.ib = 0 := ha'.ib
  have h3 : a'.m.ob = 0 := ha'.ob
  have h4 : a'.m.archTag = fun _ => 0 := ha'.archTag
  have h5 : a'.m.arch [6, 1] = 0 := ha'.arch [6, 1] (by rintro ⟨h, _⟩; exact h (by decide))
  have hBO : IM.BOk ucPb (.prod [.sum 0 (.leaf 0), .leaf 0]) ucIb :=
    IM.formB_ok (ucReady P).S.ir_in.1 (ucReady P).S.arch_in.1 (by simp [ucPb, ucArch, ucIn, ucSum, RHas, RHasAll, RHasAt, width]) (by
      rw [show IM.formB ucPb (.prod [.sum 0 (.leaf 0), .leaf 0]) = [ucIb] from rfl]; simp)
  refine SFm.holds_of (ucReady P) (i := 0) (bi := 0) (bo := 0) (s := .prod [.sum 0 (.leaf 0), .leaf 0]) (ib := ucIb) (ob := wOb) rfl rfl a' ?_ hBO ?_ ?_ ?_ ?_ ?_
  · refine ⟨rfl, by decide, ?_, ?_, by decide⟩
    · rw [h1]; rfl
    · rw [h2]; rfl
  · rw [h3]; rfl
  · rw [h4]; decide
  · intro c hc hcp
    simp only [ucPb, List.mem_singleton] at hc
    subst hc
    simp [ucPb, constAt] at hcp
  · intro vs hvs c fs hT k x hx hk
    cases hT
    simp only [ucPb, ucArch, ucIn, VF.fill, VF.fillAll, RVal.prod.injEq] at hvs
    subst hvs
    simp only [ucIn, inputDict, List.mem_cons, List.not_mem_nil, or_false, Prod.mk.injEq] at hx
    rcases hx with ⟨rfl, rfl⟩ | ⟨rfl, rfl⟩
    · simp [ucPb] at hk
    · rfl
  · intro hfa
    obtain ⟨n3, hn3, h6⟩ := hfa ([6, 1], [3]) (by simp [ucPb]) rfl
    simp only [List.mem_singleton] at hn3
    subst hn3
    rw [IM.consEq_ok P (ucReady P).S.arch_in.1 (t := .bv 0 4) (by simp [ucPb, ucArch, ucIn, ucSum, leafTypes, leafTypesF])] at h6
    simp only [h5, Except.ok.injEq, beq_iff_eq, width] at h6
    exact absurd h6 (by decide)

/-- The code violates C55 in a second way: a constrained leaf that is not `Const` is quantified universally only if it occurs in a candidate binding (mapper.py:600-627).
Here it is in a form that has none, so its variable is existential; the solver makes the condition on it (mapper.py:684-696) false, and with that any mapping is
accepted.  The rule returned maps the identity to an architecture that returns 0; no values at the constrained leaves make it correct. -/
theorem C55_violated_unquantified_constraint (P : Process) : ∃ (pb : MapPb Nat Nat) (fi fa : Fn Nat) (solve : (SAsg Nat → Prop) → Option (SAsg Nat)) (rule : RRule),
    Setup P pb.ir pb.arch fi fa (fun _ => [1]) ∧ (∀ φ a, solve φ = some a → φ a) ∧ (∀ a0, simpleSolve P.asm pb solve a0 = .ok (some rule)) ∧
    pb.cons = [([6, 1], [3])] ∧ ([6, 1], .bv 0 4) ∈ leafTypes pb.arch.inT [] ∧ rule.ib = [(.path [0], [6, 0]), (.const (.bits (BV.ofNat 8 0)), [7])] ∧
    ∀ rule', WithValues pb rule rule' → ¬ RuleCorrect pb.ir pb.arch fi fa rule' := by
  classical
  have S := ucSetup P
  let solve : (SAsg Nat → Prop) → Option (SAsg Nat) := fun φ => if φ ucAsg then some ucAsg else none
  have hsat : ∀ φ a, solve φ = some a → φ a := by
    intro φ a h
    simp only [solve] at h
    split at h
    · next hx => cases h; exact hx
    · cases h
  have hrr : rrFromSolver P.asm ucPb ucBs ucAsg.m = .ok ⟨[(.path [0], [6, 0]), (.const (.bits (BV.ofNat 8 0)), [7])], wOb⟩ := by
    obtain ⟨r, hr, ho, hF⟩ := IM.rule_get S ucB.toBdgsOk0 (a := ucAsg.m) (l := [ucIb]) (ib := ucIb) (ob := wOb) (s := .prod [.sum 0 (.leaf 0), .leaf 0]) (i := 0) (bi := 0) (bo := 0)
      rfl rfl rfl rfl rfl rfl rfl (by intro p c ms h; simp [ucPb, ucArch, ucIn, ucSum, leafTypes, leafTypesF] at h)
    obtain ⟨rib, rob⟩ := r
    simp only at ho hF
    subst ho
    simp only [ucIb] at hF
    cases hF with
    | @cons _ e1 _ _ h1 hF =>
      cases hF with
      | @cons _ e2 _ _ h2 hF =>
        cases hF
        obtain ⟨x1, p1⟩ := e1
        obtain ⟨x2, p2⟩ := e2
        obtain ⟨g1, g2⟩ := h1
        obtain ⟨k1, k2⟩ := h2
        simp only at g1 k1
        subst g1 k1
        simp only [Option.some.injEq, reduceCtorEq, false_and, or_false, exists_eq_left', false_or, exists_false, true_and] at g2 k2
        subst g2
        rcases k2 with ⟨_, c, t, rfl, ht, hc⟩ | ⟨k2, _⟩
        · have htt : t = .bv 0 8 := by simpa [ucPb, ucArch, ucIn, ucSum, leafTypes, leafTypesF] using ht
          subst htt
          rw [hr, IM.const8 hc]
          rfl
        · exact absurd k2 (by simp [ucPb, constAt])
  refine ⟨ucPb, vIrFn id, ucArchFn, solve, ⟨[(.path [0], [6, 0]), (.const (.bits (BV.ofNat 8 0)), [7])], wOb⟩, S, hsat, fun a0 => ?_, rfl,
    by simp [ucPb, ucArch, ucIn, ucSum, leafTypes, leafTypesF], rfl, ?_⟩
  · obtain ⟨x, _, _, _, _, _, _, _, _, _, _, _, _, _, hx, _⟩ := SFm.formula_any (ucReady P) a0
    simp only [simpleSolve, ucBind, hx, solve, if_pos (ucSat P), hrr]
  · intro rule' hW h
    have hfree : ∀ p, IsFree ucPb p → p = [6, 1] := by
      rintro p ⟨_, cs, h⟩
      simp only [ucPb, List.mem_singleton, Prod.mk.injEq] at h
      exact h.1
    have hrule : rule' = ⟨[(.path [0], [6, 0]), (.const (.bits (BV.ofNat 8 0)), [7])], wOb⟩ := by
      obtain ⟨ib, ob⟩ := rule'
      obtain ⟨h1, h2⟩ := hW
      simp only at h1 h2
      subst h1
      cases h2 with
      | @cons _ e1 _ _ f1 h2 =>
      cases h2 with
      | @cons _ e2 _ _ f2 h2 =>
      cases h2
      obtain ⟨x1, p1⟩ := e1
      obtain ⟨x2, p2⟩ := e2
      obtain ⟨g1, _, g3⟩ := f1
      obtain ⟨k1, _, k3⟩ := f2
      simp only at g1 k1 g3 k3
      subst g1 k1
      rw [g3 (fun h => by have := hfree _ h; simp at this), k3 (fun h => by have := hfree _ h; simp at this)]
    subst hrule
    have hR : Related ucPb.ir.inT ucPb.arch.inT [(.path [0], [6, 0]), (.const (.bits (BV.ofNat 8 0)), [7])] (.prod [.leaf 1]) (.prod [.sum 0 (.leaf 1), .leaf 0]) := by
      refine ⟨by simp [ucPb, vIr, vIn1, RHas, RHasAll, width], by simp [ucPb, ucArch, ucIn, ucSum, RHas, RHasAll, RHasAt, width], ?_, ?_, ?_⟩
      · simp [ucPb, ucArch, ucIn, ucSum, rawLeaves, rawLeavesAll, rawLeavesAt]
      · simp [ucPb, vIr, vIn1, rawLeaves, rawLeavesAll, irSources]
      · intro e he
        simp only [List.mem_cons, List.not_mem_nil, or_false] at he
        rcases he with rfl | rfl
        · exact ⟨.bv 0 8, 1, by simp [ucPb, ucArch, ucIn, ucSum, rawLeaves, rawLeavesAll, rawLeavesAt], .bv 0 8, by simp [ucPb, vIr, vIn1, rawLeaves, rawLeavesAll], rfl⟩
        · exact ⟨.bv 0 8, 0, by simp [ucPb, ucArch, ucIn, ucSum, rawLeaves, rawLeavesAll, rawLeavesAt], by simp, rfl, rfl⟩
    obtain ⟨t, u, n, h1, h2⟩ := h _ _ hR (fun _ _ => []) (fun _ _ => 0) (fun _ _ => 0) (by intro b k i o hb; simp [ucPb, vIr] at hb) (by intro b k i o hb; simp [ucPb, ucArch] at hb)
      [1] [1] (by simp [wOb])
    simp only [ucPb, vIr, ucArch, vOut, vIrFn, ucArchFn, rawLeaves, rawLeavesAll, List.map_cons, List.map_nil, List.append_nil, List.mem_singleton, Prod.mk.injEq, id] at h1 h2
    omega

end Peak
