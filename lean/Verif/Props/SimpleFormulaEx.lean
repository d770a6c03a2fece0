import Verif.Props.SimpleFormula
/-!
# C55: a problem with black boxes that meets the hypotheses, and violations
-/

namespace Peak
open Spec

/-! ## `box(a) + 3` as `box(x) + y` with the constant 3 -/

/-- The output of black box `b`. -/
def outOf (bb : List (Nat × List BV)) (b : Nat) : Nat := match bb.lookup b with
  | some [o] => o.val
  | _ => 0

def bIr : PeakObj Nat Nat where
  inT := .prod 0 vIn1
  outT := .prod 1 vOut
  bbs := [(0, 7)]
  bbOutW := fun _ => [8]
  run := fun d bb => match d with
    | [(_, .bits x)] => ([.bits (BV.ofNat 8 (outOf bb 0 + 3))], [(0, [x])])
    | _ => ([], [])

def bArch : PeakObj Nat Nat where
  inT := .prod 2 vIn2
  outT := .prod 1 vOut
  bbs := [(1, 7)]
  bbOutW := fun _ => [8]
  run := fun d bb => match d with
    | [(_, .bits x), (_, .bits y)] => ([.bits (BV.ofNat 8 (outOf bb 1 + y.val))], [(1, [x])])
    | _ => ([], [])

def bIrFn : Fn Nat := fun r bb => match r with
  | .prod [.leaf n] => (.prod [.leaf ((outOf bb 0 + 3) % 256)], [(0, [BV.ofNat 8 n])])
  | r => (r, [])

def bArchFn : Fn Nat := fun r bb => match r with
  | .prod [.leaf n, .leaf m] => (.prod [.leaf ((outOf bb 1 + m) % 256)], [(1, [BV.ofNat 8 n])])
  | r => (r, [])

theorem leaf8 : ∀ r, RHas (.bv 0 8) r → ∃ n, r = .leaf n ∧ n < 256 := by
  intro r h
  cases r <;> simp [RHas, width] at h
  exact ⟨_, rfl, h⟩

theorem bSetup (P : Process) : Setup P bIr bArch bIrFn bArchFn (fun _ => [8]) := by
  refine ⟨⟨0, vIn1, 1, vOut, rfl, rfl, ?_⟩, ⟨2, vIn2, 1, vOut, rfl, rfl, ?_⟩, ?_, ?_, ?_, ?_, ?_, ?_, rfl⟩
  · intro vs bb h
    simp only [bIr, vIn1, RHas] at h
    match vs, h with
    | [v], h =>
      obtain ⟨n, rfl, hn⟩ := leaf8 v h.1
      refine ⟨[.leaf ((outOf bb 0 + 3) % 256)], rfl, ⟨Nat.mod_lt _ (by decide), trivial⟩, ⟨?_, trivial⟩, rfl⟩
      simp only [AV.new, AV.plain, mkAV, rawCode, BV.ofNat_val, VF.ofNat_mod (w := 8)]
  · intro vs bb h
    simp only [bArch, vIn2, RHas] at h
    match vs, h with
    | [v, w], h =>
      obtain ⟨n, rfl, hn⟩ := leaf8 v h.1
      obtain ⟨m, rfl, hm⟩ := leaf8 w h.2.1
      refine ⟨[.leaf ((outOf bb 1 + m) % 256)], rfl, ⟨Nat.mod_lt _ (by decide), trivial⟩, ⟨?_, trivial⟩, rfl⟩
      simp only [AV.new, AV.plain, mkAV, rawCode, BV.ofNat_val]
      rw [show m % 2 ^ 8 = m from Nat.mod_eq_of_lt hm]
  · exact ⟨by simp [bIr, vIn1, WF, WFs, Fields.toList], by simp [bIr, vIn1, Buildable, Buildables, Fields.toList]⟩
  · exact ⟨by simp [bArch, vIn2, WF, WFs, Fields.toList], by simp [bArch, vIn2, Buildable, Buildables, Fields.toList, width]⟩
  · exact ⟨by simp [bIr, vOut, WF, WFs, Fields.toList], by simp [bIr, vOut, Buildable, Buildables, Fields.toList], by simp [bIr, vOut, UnionFree, UnionFrees]⟩
  · exact ⟨by simp [bArch, vOut, WF, WFs, Fields.toList], by simp [bArch, vOut, Buildable, Buildables, Fields.toList], by simp [bArch, vOut, UnionFree, UnionFrees]⟩
  · refine ⟨by simp [bIr], by simp, by simp [bIr], fun r bb h => ?_⟩
    cases r with
    | leaf _ => simp [bIr, RHas] at h
    | sum _ _ => simp [bIr, RHas] at h
    | prod vs =>
      simp only [bIr, vIn1, RHas] at h
      match vs, h with
      | [v], h =>
        obtain ⟨n, rfl, hn⟩ := leaf8 v h.1
        simp [bIrFn, bIr]
  · refine ⟨by simp [bArch], by simp, by simp [bArch], fun r bb h => ?_⟩
    cases r with
    | leaf _ => simp [bArch, RHas] at h
    | sum _ _ => simp [bArch, RHas] at h
    | prod vs =>
      simp only [bArch, vIn2, RHas] at h
      match vs, h with
      | [v, w], h =>
        obtain ⟨n, rfl, hn⟩ := leaf8 v h.1
        obtain ⟨m, rfl, hm⟩ := leaf8 w h.2.1
        simp [bArchFn, bArch]

theorem bTotal (P : Process) : Total P bArch := by
  refine ⟨2, vIn2, 1, vOut, rfl, rfl, ?_⟩
  intro d bb h
  match d, h with
  | [(_, x), (_, y)], ⟨_, ⟨n, hn, hx⟩, _, ⟨m, hm, hy⟩, _⟩ =>
    subst hx hy
    simp only [width] at hn hm
    refine ⟨[.leaf ((outOf bb 1 + m) % 256)], ⟨Nat.mod_lt _ (by decide), trivial⟩, ?_, trivial⟩
    simp only [AV.new, AV.plain, mkAV, rawCode, BV.ofNat_val, bArch]
    rw [Nat.mod_eq_of_lt hm, VF.ofNat_mod (w := 8)]

theorem bTotalBoxes : TotalBoxes bArch (fun _ => [8]) := by
  intro ci fi hT d bb h
  cases hT
  match d, h with
  | [(_, x), (_, y)], ⟨_, ⟨n, hn, hx⟩, _, ⟨m, hm, hy⟩, _⟩ =>
    subst hx hy
    simp [bArch, mkAV, BV.ofNat]

/-- Map `box(a) + 3` to `box(x) + y`, where `y` is `Const`, and 3 or 5. -/
def bPb : MapPb Nat Nat where
  ir := bIr
  arch := bArch
  irConst := []
  archConst := [[6]]
  cons := [([6], [3, 5])]
  enc := .binary

theorem bMapping (P : Process) : IsMapping P.asm bPb vRule := by
  have h := vMapping P
  exact ⟨h.input, h.outs, h.bound, h.const, h.unbound⟩

theorem bCorrect : RuleCorrect bIr bArch bIrFn bArchFn vRule := by
  intro ri ra h F ρi ρa hFi hFa q p hq
  obtain ⟨n, rfl, rfl⟩ := vRel (· + 3) ri ra h
  simp only [vRule, List.mem_cons, List.not_mem_nil, or_false, Prod.mk.injEq, Option.some.injEq] at hq
  obtain ⟨rfl, rfl⟩ := hq
  have h1 := hFi 0 7 [BV.ofNat 8 n] [BV.ofNat 8 (ρi 0 0)] (by simp [bIr]) (by simp [bIrFn]) (by simp [bIr, PeakObj.bbOuts])
  have h2 := hFa 1 7 [BV.ofNat 8 n] [BV.ofNat 8 (ρa 1 0)] (by simp [bArch]) (by simp [bArchFn]) (by simp [bArch, PeakObj.bbOuts])
  rw [h1] at h2
  have h3 : ρi 0 0 % 256 = ρa 1 0 % 256 := by
    simp only [List.cons.injEq, and_true] at h2
    have := congrArg BV.val h2
    simpa using this
  refine ⟨.bv 0 8, .bv 0 8, (ρi 0 0 % 256 + 3) % 256, ?_, ?_⟩
  · simp [bIr, vOut, bIrFn, rawLeaves, rawLeavesAll, outOf, PeakObj.bbOuts]
  · rw [h3]
    simp [bArch, vOut, bArchFn, rawLeaves, rawLeavesAll, outOf, PeakObj.bbOuts]

theorem valid8 (P : Process) (cs : List RPath) (vs : List RVal) : ConstsValid P.asm (.prod 2 vIn2) cs vs := by
  intro c fs hT k x hx _
  cases hT
  match vs, hx with
  | [], hx => simp [vIn2, inputDict] at hx
  | [v], hx =>
    simp only [inputDict, vIn2, List.mem_cons, List.not_mem_nil, or_false, Prod.mk.injEq] at hx
    rcases hx with ⟨_, rfl⟩; rfl
  | v :: w :: vs, hx =>
    simp only [inputDict, vIn2, List.mem_cons, List.not_mem_nil, or_false, Prod.mk.injEq] at hx
    rcases hx with ⟨_, rfl⟩ | ⟨_, rfl⟩ <;> rfl

theorem flatOut : Flat (.prod 1 vOut) := by
  intro p u h
  simp only [vOut, leafTypes, leafTypesF, List.nil_append, List.append_nil, List.mem_singleton, Prod.mk.injEq] at h
  exact ⟨1, h.1⟩

/-- The hypotheses of the theorems hold for `box(a) + 3` as `box(x) + y` with `y` one of 3 and 5, and any complete solver: a rule is returned, and it
is a correct mapping. -/
example (P : Process) (solve : (SAsg Nat → Prop) → Option (SAsg Nat)) (hsat : ∀ φ a, solve φ = some a → φ a) (hcomp : ∀ φ a, φ a → ∃ a', solve φ = some a')
    (a0 : SAsg Nat) : ∃ r, simpleSolve P.asm bPb solve a0 = .ok (some r) ∧ IsMapping P.asm bPb r ∧ RuleCorrect bIr bArch bIrFn bArchFn r := by
  have hcons : ∀ p cs, (p, cs) ∈ bPb.cons → IsConst bPb.archConst p ∧ cs ≠ [] ∧ ∃ t, (p, t) ∈ leafTypes bPb.arch.inT [] := by
    intro p cs h
    simp only [bPb, List.mem_singleton, Prod.mk.injEq] at h
    obtain ⟨rfl, rfl⟩ := h
    exact ⟨⟨[6], by simp [bPb], by simp⟩, by simp, .bv 0 8, by simp [bPb, bArch, vIn2, leafTypes, leafTypesF]⟩
  rcases C55_complete_partial P bPb bIrFn bArchFn (fun _ => [8]) (bSetup P) (bTotal P) bTotalBoxes
    (by simp [bPb, bIr, vIn1, UnionFree, UnionFrees]) flatOut flatOut (by simp [bPb, bIr, vOut, leafTypes, leafTypesF]) hcons (by simp [bPb])
    ⟨6, .bv 0 8, by simp [bPb, bArch, vIn2, Ty.fieldDict, Fields.toList], by simp [bPb]⟩
    solve hsat hcomp a0 vRule (bMapping P) bCorrect (fun _ vs _ => valid8 P _ vs) with ⟨r, hr⟩ | ⟨_, p, c, ms, h, _⟩
  · exact ⟨r, hr, C55_sound_partial P bPb bIrFn bArchFn (fun _ => [8]) (VF.setup0 (bSetup P)) (fun p cs h => (hcons p cs h).1) (by simp [bPb, IsConst]) solve hsat a0 r hr⟩
  · simp [bPb, bArch, vIn2, leafTypes, leafTypesF] at h

/-! ## violations -/

/-- `a` is `Const`, and so are `x` and `y`: each of them can be bound to `a` or be a constant. -/
def oPb : MapPb Nat Nat where
  ir := vIr (· + 3)
  arch := vArch
  irConst := [[0]]
  archConst := [[5], [6]]
  cons := []
  enc := .binary

def oIb : Bdg := [(some [0], [5]), (none, [6])]
def oIb' : Bdg := [(none, [5]), (some [0], [6])]
def oBs : Bdgs := ⟨[[oIb, oIb']], [wOb]⟩

/-- The solver found that the constant for `y` must be 3, and gave 9 to the variable that was replaced. -/
def oAsg : SAsg Nat where
  m := { fi := 0, ib := 0, ob := 0, ir := fun _ => 0, irTag := fun _ => 0, arch := fun p => if p = [6] then 9 else 0
         archTag := fun _ => 0, irBB := fun _ _ => 0, archBB := fun _ _ => 0 }
  archE := fun _ => 3
  archA := fun _ => 0

theorem vTotalBoxes : TotalBoxes vArch (fun _ => [1]) := by
  intro ci fi hT d bb h
  cases hT
  match d, h with
  | [(_, x), (_, y)], ⟨_, ⟨n, hn, hx⟩, _, ⟨m, hm, hy⟩, _⟩ =>
    subst hx hy
    simp [vArch, mkAV]

theorem oB : IM.BdgsOk0 oPb oBs := by
  refine ⟨by simp [oPb, vIr, vIn1, UnionFree, UnionFrees], rfl, rfl, ?_⟩
  intro c hc
  simp [oPb] at hc

theorem oReady (P : Process) : SFm.Ready P oPb oBs (vIrFn (· + 3)) vArchFn (fun _ => [1]) :=
  ⟨vSetup P (· + 3), vTotal P, vTotalBoxes, oB, by simp [oPb], flatOut, flatOut, by simp [oPb, vIr, vOut, leafTypes, leafTypesF],
    ⟨6, .bv 0 8, by simp [oPb, vArch, vIn2, Ty.fieldDict, Fields.toList], by simp [oPb]⟩, by decide, by decide⟩

theorem oSat (P : Process) : simpleSat P.asm oPb oBs oAsg := by
  intro a' ha'
  have h1 : a'.m.fi = 0 := ha'.fi
  have h2 : a'.m.ib = 0 := ha'.ib
  have h3 : a'.m.ob = 0 := ha'.ob
  have h4 : a'.archE = fun _ => 3 := ha'.archE
  have hBO : IM.BOk oPb (.prod [.leaf 0, .leaf 0]) oIb :=
    IM.formB_ok (oReady P).S.ir_in.1 (oReady P).S.arch_in.1 (by simp [oPb, vArch, vIn2, RHas, RHasAll, width]) (by
      rw [show IM.formB oPb (.prod [.leaf 0, .leaf 0]) = [oIb, oIb'] from rfl]; simp)
  have e6 : subArch oPb oBs (RF.skels oPb.arch.inT).length a' [6] = 3 := by
    have hov : oBs.overlap oPb [6] = true := by decide
    have hec : eCond oPb oBs (RF.skels oPb.arch.inT).length a'.m [6] = .ok true := by
      simp only [eCond, show oBs.existsFbs oPb [6] = [(0, 0)] from by decide, exMap, matchFB, h1, h2]
      rfl
    simp only [subArch, hov, if_true, hec, h4]
  refine SFm.holds_of (oReady P) (i := 0) (bi := 0) (bo := 0) (s := .prod [.leaf 0, .leaf 0]) (ib := oIb) (ob := wOb) rfl rfl a' ?_ hBO ?_ ?_ ?_ ?_ ?_
  · refine ⟨rfl, by decide, ?_, ?_, by decide⟩
    · rw [h1]; rfl
    · rw [h2]; rfl
  · rw [h3]; rfl
  · exact RF.tags_unionFree _ _ _ _ (by simp [oPb, vArch, vIn2, UnionFree, UnionFrees])
  · intro c hc; simp [oPb] at hc
  · exact fun vs _ => valid8 P _ vs
  · intro _ ri hri hbits F _ _ q p hq
    simp only [wOb, List.mem_singleton, Prod.mk.injEq, Option.some.injEq] at hq
    obtain ⟨rfl, rfl⟩ := hq
    cases ri with
    | leaf _ => simp [oPb, vIr, RHas] at hri
    | sum _ _ => simp [oPb, vIr, RHas] at hri
    | prod vs =>
      simp only [oPb, vIr, vIn1, RHas] at hri
      match vs, hri with
      | [v], h =>
        obtain ⟨n, rfl, hn⟩ := leaf8 v h.1
        have hb := hbits [0] [5] (by simp [oIb]) (.bv 0 8) n (by simp [oPb, vIr, vIn1, rawLeaves, rawLeavesAll])
        simp only [width] at hb
        refine ⟨.bv 0 8, .bv 0 8, (n + 3) % 256, ?_, ?_⟩
        · simp [oPb, vIr, vOut, vIrFn, rawLeaves, rawLeavesAll]
        · have hf : VF.fill oPb.arch.inT (.prod [.leaf 0, .leaf 0]) (subArch oPb oBs (RF.skels oPb.arch.inT).length a') = .prod [.leaf n, .leaf 3] := by
            generalize subArch oPb oBs (RF.skels oPb.arch.inT).length a' = v at hb e6
            simp only [oPb, vArch, vIn2, VF.fill, VF.fillAll, width]
            rw [hb, e6]
          rw [hf]
          simp [oPb, vArch, vOut, vArchFn, rawLeaves, rawLeavesAll]

/-- The code violates C55 when an architecture leaf that is `Const` can be bound and can be a constant: the formula is about the variables
`…_EXISTS` and `…_FORALL` (mapper.py:633-644), but the rule is made with the value the solver happens to give to the original variable
(mapper.py:836-848).  `a + 3` is mapped to `x + y` with the constant 9 for `y`. -/
theorem C55_violated_overlap (P : Process) : ∃ (pb : MapPb Nat Nat) (fi fa : Fn Nat) (solve : (SAsg Nat → Prop) → Option (SAsg Nat)) (rule : RRule),
    Setup P pb.ir pb.arch fi fa (fun _ => [1]) ∧ (∀ φ a, solve φ = some a → φ a) ∧ (∀ a0, simpleSolve P.asm pb solve a0 = .ok (some rule)) ∧
    pb.cons = [] ∧ (.const (.bits (BV.ofNat 8 9)), [6]) ∈ rule.ib ∧ ¬ RuleCorrect pb.ir pb.arch fi fa rule := by
  classical
  have S : Setup P oPb.ir oPb.arch (vIrFn (· + 3)) vArchFn (fun _ => [1]) := vSetup P (· + 3)
  have hbind : mapBindings P.asm oPb true = .ok (some oBs) := by
    refine IM.bindings_any' S (vTotal P) oB.uf true (fun h => by cases h) oB.cons ⟨2, vIn2, 5, rfl, by simp [vIn2, Fields.toList], by simp [oPb]⟩ ?_ ?_
    · exact ⟨.prod [.leaf 0, .leaf 0], by simp [show RF.skels oPb.arch.inT = [.prod [.leaf 0, .leaf 0]] from rfl],
        by rw [show IM.formB oPb (.prod [.leaf 0, .leaf 0]) = [oIb, oIb'] from rfl]; simp⟩
    · rw [show createBindings (leafTypes oPb.arch.outT []) (leafTypes oPb.ir.outT []) = [wOb] from rfl]; simp
  let solve : (SAsg Nat → Prop) → Option (SAsg Nat) := fun φ => if φ oAsg then some oAsg else none
  have hsat : ∀ φ a, solve φ = some a → φ a := by
    intro φ a h
    simp only [solve] at h
    split at h
    · next hx => cases h; exact hx
    · cases h
  have hrr : rrFromSolver P.asm oPb oBs oAsg.m = .ok ⟨[(.path [0], [5]), (.const (.bits (BV.ofNat 8 9)), [6])], wOb⟩ := by
    rcases IM.rule_any0 S oB (a := oAsg.m) (l := [oIb, oIb']) (ib := oIb) (ob := wOb) (s := .prod [.leaf 0, .leaf 0]) (i := 0) (bi := 0) (bo := 0)
      rfl rfl rfl rfl rfl rfl rfl with ⟨r, hr⟩ | ⟨_, p, c, ms, h, _⟩
    · obtain ⟨i, bi, bo, s, l, ib, ob, hs, hl, hib, hob, _, m2, _, hro, hF⟩ := IM.rule_inv S.arch_in hr
      have hi : i = 0 := by
        have := (List.getElem?_eq_some_iff.mp hl).1
        simp only [oBs, List.length_cons, List.length_nil] at this
        omega
      subst hi
      cases hl
      have hbi : bi = 0 ∨ bi = 1 := by
        have := (List.getElem?_eq_some_iff.mp hib).1
        simp only [List.length_cons, List.length_nil] at this
        omega
      rcases hbi with rfl | rfl
      swap
      · have : (Except.ok false : Except Err Bool) = .ok true := m2
        cases this
      cases hib
      have hbo : bo = 0 := by
        have := (List.getElem?_eq_some_iff.mp hob).1
        simp only [oBs, List.length_cons, List.length_nil] at this
        omega
      subst hbo
      cases hob
      obtain ⟨rib, rob⟩ := r
      simp only [oIb] at hF hro
      subst hro
      cases hF with
      | cons h1 hF =>
        cases hF with
        | cons h2 hF =>
          cases hF
          rename_i e1 e2
          obtain ⟨x1, p1⟩ := e1
          obtain ⟨x2, p2⟩ := e2
          obtain ⟨g1, g2⟩ := h1
          obtain ⟨k1, k2⟩ := h2
          simp only at g1 k1
          subst g1 k1
          simp only [Option.some.injEq, reduceCtorEq, false_and, or_false, exists_eq_left', false_or, exists_false, true_and] at g2 k2
          subst g2
          rcases k2 with ⟨_, c, t, rfl, ht, hc⟩ | ⟨k2, _⟩
          · have htt : t = .bv 0 8 := by simpa [oPb, vArch, vIn2, leafTypes, leafTypesF] using ht
            subst htt
            cases c with
            | bit b => obtain ⟨⟨x, hx⟩, _⟩ := hc; cases hx
            | bits b =>
              obtain ⟨_, hs, hv⟩ := hc
              have : b = BV.ofNat 8 9 := BV.ext hs hv
              rw [hr, this]
          · exact absurd k2 (by decide)
    · simp [oPb, vArch, vIn2, leafTypes, leafTypesF] at h
  refine ⟨oPb, vIrFn (· + 3), vArchFn, solve, ⟨[(.path [0], [5]), (.const (.bits (BV.ofNat 8 9)), [6])], wOb⟩, S, hsat, fun a0 => ?_, rfl,
    List.mem_cons_of_mem _ List.mem_cons_self, ?_⟩
  · obtain ⟨x, _, _, _, _, _, _, _, _, _, _, _, _, _, hx, _⟩ := SFm.formula_any (oReady P) a0
    simp only [simpleSolve, hbind, hx, solve, if_pos (oSat P), hrr]
  · intro h
    have hR : Related oPb.ir.inT oPb.arch.inT [(.path [0], [5]), (.const (.bits (BV.ofNat 8 9)), [6])] (.prod [.leaf 0]) (.prod [.leaf 0, .leaf 9]) := by
      refine ⟨by simp [oPb, vIr, vIn1, RHas, RHasAll, width], by simp [oPb, vArch, vIn2, RHas, RHasAll, width], ?_, ?_, ?_⟩
      · simp [oPb, vArch, vIn2, rawLeaves, rawLeavesAll]
      · simp [oPb, vIr, vIn1, rawLeaves, rawLeavesAll, irSources]
      · intro e he
        simp only [List.mem_cons, List.not_mem_nil, or_false] at he
        rcases he with rfl | rfl
        · exact ⟨.bv 0 8, 0, by simp [oPb, vArch, vIn2, rawLeaves, rawLeavesAll], .bv 0 8, by simp [oPb, vIr, vIn1, rawLeaves, rawLeavesAll], rfl⟩
        · exact ⟨.bv 0 8, 9, by simp [oPb, vArch, vIn2, rawLeaves, rawLeavesAll], by simp, rfl, rfl⟩
    obtain ⟨t, u, n, h1, h2⟩ := h _ _ hR (fun _ _ => []) (fun _ _ => 0) (fun _ _ => 0) (by intro b k i o hb; simp [oPb, vIr] at hb) (by intro b k i o hb; simp [oPb, vArch] at hb)
      [1] [1] (by simp [wOb])
    simp only [oPb, vIr, vArch, vOut, vIrFn, vArchFn, rawLeaves, rawLeavesAll, List.map_cons, List.map_nil, List.append_nil, List.mem_singleton, Prod.mk.injEq] at h1 h2
    omega

/-- A formula that is built reads every bound output as a field of the instruction. -/
theorem SFm.fields_single {A : Ty → Except Err AsmObj} {irOut archOut : List (RPath × AV)} (hk : ∀ e ∈ irOut, ∃ k, e.1 = [k]) :
    ∀ {ob : Bdg} {l : List Bool}, fieldEqs A irOut archOut ob = .ok l → ∀ q p, (some q, p) ∈ ob → ∃ k, q = [k] := by
  intro ob
  induction ob with
  | nil => intro l _ q p h; cases h
  | cons e ob ih =>
    intro l h q p hm
    obtain ⟨x, p'⟩ := e
    cases x with
    | none =>
      rcases List.mem_cons.mp hm with h' | h'
      · cases h'
      · exact ih (l := l) (by simpa only [fieldEqs] using h) q p h'
    | some q' =>
      simp only [fieldEqs] at h
      split at h
      · cases h
      · next x hx =>
        split at h
        · cases h
        · simp only [SFm.exBind] at h
          obtain ⟨b, _, bs, hbs, _⟩ := h
          rcases List.mem_cons.mp hm with h' | h'
          · cases h'
            have hmem : (q, x) ∈ irOut := mem_of_lookup hx
            exact hk _ hmem
          · exact ih hbs q p h'

/-- The code violates C55's completeness for nested outputs: the outputs of the instructions are looked up field by field (mapper.py:653), the bindings
name leaves (mapper.py:669-671).  When a field of the IR's output is a product, no rule is ever returned, whatever the solver. -/
theorem C55_violated_nested {B K : Type} [DecidableEq B] [DecidableEq K] (P : Process) (pb : MapPb B K) (fi fa : Fn B) (inW : K → List Nat)
    (S : Setup P pb.ir pb.arch fi fa inW) (hn : ¬ Flat pb.ir.outT) (solve : (SAsg B → Prop) → Option (SAsg B)) (a0 : SAsg B) (rule : RRule) :
    simpleSolve P.asm pb solve a0 ≠ .ok (some rule) := by
  intro h
  obtain ⟨bs, a, hbs, ha, hr⟩ := SFm.solve_inv h
  have hB := (IM.bindings_inv' S.ir_in S.arch_in hbs).1
  obtain ⟨i, bi, bo, s, l, ib, ob, hs, hl, hib, hob, m1, m2, m3, rfl, hF⟩ := IM.rule_inv S.arch_in hr
  simp only [simpleSolve, hbs] at h
  split at h
  · cases h
  · next x hx =>
    simp only [simpleFormula, SFm.exBind] at hx
    obtain ⟨_, _, _, _, _, _, _, _, _, _, _, _, _, _, _, _, _, _, _, _, archOut, _, irOut, hio, obs, hobs, _⟩ := hx
    simp only [simpleRun, SFm.exBind] at hio
    obtain ⟨_, _, l', _, hio⟩ := hio
    cases hio
    have hk : ∀ e ∈ l'.map (fun e => (([e.1] : RPath), e.2)), ∃ k, e.1 = [k] := by
      intro e he
      obtain ⟨y, _, rfl⟩ := List.mem_map.mp he
      exact ⟨y.1, rfl⟩
    obtain ⟨y, _, hy⟩ := IM.forall₂_at' (RF.exMap_forall₂ hobs) (List.getElem?_zipIdx ▸ (by rw [hob]; rfl) : bs.outs.zipIdx[bo]? = some (rule.ob, 0 + bo))
    simp only [obCond, SFm.exBind] at hy
    obtain ⟨_, _, eqs, heqs, _⟩ := hy
    refine hn ?_
    intro q t hq
    have hm : rule.ob ∈ createBindings (leafTypes pb.arch.outT []) (leafTypes pb.ir.outT []) := hB.outs ▸ List.mem_of_getElem? hob
    obtain ⟨f, hR, hf⟩ := C28_sound _ _ (VF.types_nodup _ S.arch_out.1) (VF.types_nodup _ S.ir_out.1) _ hm
    obtain ⟨p, hp, hfp, _⟩ := hf.once q t hq
    obtain ⟨e, he, hee⟩ := List.mem_map.mp (hR.1.symm.subset hp)
    have h1 := hR.2 e he
    rw [hee, hfp] at h1
    obtain ⟨e1, e2⟩ := e
    simp only at h1
    subst h1
    exact SFm.fields_single hk heqs q e2 he

/-- `a + 3`, returned in a product. -/
def nIr : PeakObj Nat Nat where
  inT := .prod 0 vIn1
  outT := .prod 1 (.cons 1 (.prod 3 (.cons 2 (.bv 0 8) .nil)) .nil)
  bbs := []
  bbOutW := fun _ => [1]
  run := fun d _ => match d with
    | [(_, .bits x)] => ([mkAV (.prod 3 (.cons 2 (.bv 0 8) .nil)) ((x.val + 3) % 256)], [])
    | _ => ([], [])

def nIrFn : Fn Nat := fun r _ => match r with
  | .prod [.leaf n] => (.prod [.prod [.leaf ((n + 3) % 256)]], [])
  | r => (r, [])

/-- The hypotheses hold and a correct mapping exists: `IR.a → x`, `3 → y`, and the output to the leaf of the IR's. -/
example (P : Process) : Setup P nIr vArch nIrFn vArchFn (fun _ => [1]) ∧ ¬ Flat nIr.outT ∧
    IsMapping P.asm ⟨nIr, vArch, [], [[6]], [], .binary⟩ ⟨vRule.ib, [(some [1, 2], [1])]⟩ ∧
    RuleCorrect nIr vArch nIrFn vArchFn ⟨vRule.ib, [(some [1, 2], [1])]⟩ := by
  have V := vSetup P (· + 3)
  have M := vMapping P
  refine ⟨⟨⟨0, vIn1, 1, _, rfl, rfl, ?_⟩, V.arch_fn, V.ir_in, V.arch_in, ?_, V.arch_out, ?_, V.arch_boxes, rfl⟩, ?_, ?_, ?_⟩
  · intro vs bb h
    simp only [nIr, vIn1, RHas] at h
    match vs, h with
    | [v], h =>
      obtain ⟨n, rfl, hn⟩ := leaf8 v h.1
      refine ⟨[.prod [.leaf ((n + 3) % 256)]], rfl, ⟨⟨Nat.mod_lt _ (by decide), trivial⟩, trivial⟩, ⟨?_, trivial⟩, rfl⟩
      have e1 : rawCode (.prod 3 (.cons 2 (.bv 0 8) .nil)) (.prod [.leaf ((n + 3) % 256)]) = (n + 3) % 256 := by
        simp [rawCode, rawCodeAll]
      rw [e1]
      show AV.new P.asm (.prod 3 (.cons 2 (.bv 0 8) .nil)) (.asm (mkAV (.prod 3 (.cons 2 (.bv 0 8) .nil)) ((n % 2 ^ 8 + 3) % 256))) = _
      rw [show n % 2 ^ 8 = n from Nat.mod_eq_of_lt hn]
      exact new_asm P (t := .prod 3 (.cons 2 (.bv 0 8) .nil)) (by simp [WF, WFs, Fields.toList]) _
  · exact ⟨by simp [nIr, WF, WFs, Fields.toList], by simp [nIr, Buildable, Buildables, Fields.toList], by simp [nIr, UnionFree, UnionFrees]⟩
  · refine ⟨by simp [nIr], by simp, by simp [nIr], fun r bb h => ⟨?_, by simp [nIr]⟩⟩
    simp only [nIrFn, nIr, List.map_nil]
    split <;> rfl
  · intro h
    obtain ⟨k, hk⟩ := h [1, 2] (.bv 0 8) (by simp [nIr, leafTypes, leafTypesF])
    simp at hk
  · refine ⟨M.input, ?_, ?_, ?_, ?_⟩
    · refine ⟨fun _ => some [1, 2], ⟨?_, ?_⟩, ⟨?_, ?_⟩⟩
      · simp [vArch, vOut, leafTypes, leafTypesF]
      · simp
      · simp [vArch, nIr, vOut, leafTypes, leafTypesF]
      · simp [vArch, nIr, vOut, leafTypes, leafTypesF]
    · intro q p h
      obtain ⟨_, h2⟩ := M.bound q p h
      exact ⟨by simp, h2⟩
    · intro c p h
      exact ⟨(M.const c p h).1, by simp⟩
    · intro p h
      exact ⟨(M.unbound p h).1, by simp⟩
  · intro ri ra h F ρi ρa _ _ q p hq
    obtain ⟨n, rfl, rfl⟩ := vRel (· + 3) ri ra h
    simp only [List.mem_cons, List.not_mem_nil, or_false, Prod.mk.injEq, Option.some.injEq] at hq
    obtain ⟨rfl, rfl⟩ := hq
    exact ⟨.bv 0 8, .bv 0 8, (n + 3) % 256, by simp [nIr, nIrFn, rawLeaves, rawLeavesAll], by simp [vArch, vOut, vArchFn, rawLeaves, rawLeavesAll]⟩

end Peak
