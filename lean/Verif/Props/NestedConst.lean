import Verif.Props.FreeConsEx
/-!
# C33, C55: a `Const` enum inside a field that is not `Const`

Only fields that are `Const` themselves must hold valid codes (mapper.py:143-147).
-/

namespace Peak
open Peak.Spec

/-- Three members, so that 3 is no code. -/
def nEnum : Ty := .enum 4 [.lit 0, .lit 1, .lit 2]
def nIn : Fields := .cons 5 (.bv 0 8) (.cons 6 (.bv 0 8) (.cons 7 (.prod 3 (.cons 8 nEnum .nil)) .nil))

/-- `x + y`; the third input is a product with one enum, which is not used. -/
def nArch : PeakObj Nat Nat where
  inT := .prod 2 nIn
  outT := .prod 1 vOut
  bbs := []
  bbOutW := fun _ => [1]
  run := fun d _ => match d with
    | [(_, .bits x), (_, .bits y), _] => ([.bits (BV.ofNat 8 (x.val + y.val))], [])
    | _ => ([], [])

def nArchFn : Fn Nat := fun r _ => match r with
  | .prod [.leaf n, .leaf m, _] => (.prod [.leaf ((n + m) % 256)], [])
  | r => (r, [])

/-- `y` is `Const`, and so is the enum inside the third input. -/
def nPb : MapPb Nat Nat where
  ir := vIr (· + 3)
  arch := nArch
  irConst := []
  archConst := [[6], [7, 8]]
  cons := []
  enc := .binary

theorem nSetup (P : Process) : Setup P nPb.ir nPb.arch (vIrFn (· + 3)) nArchFn (fun _ => [1]) := by
  have S := vSetup P (· + 3)
  have leaf8 : ∀ r, RHas (.bv 0 8) r → ∃ n, r = .leaf n ∧ n < 256 := by
    intro r h
    cases r <;> simp [RHas, width] at h
    exact ⟨_, rfl, h⟩
  refine ⟨S.ir_fn, ⟨2, nIn, 1, vOut, rfl, rfl, ?_⟩, S.ir_in, ?_, S.ir_out, S.arch_out, S.ir_boxes, ?_, rfl⟩
  · intro vs bb h
    simp only [nPb, nArch, nIn, RHas] at h
    match vs, h with
    | [v, w, z], h =>
      obtain ⟨n, rfl, hn⟩ := leaf8 v h.1
      obtain ⟨m, rfl, hm⟩ := leaf8 w h.2.1
      refine ⟨[.leaf ((n + m) % 256)], rfl, ⟨Nat.mod_lt _ (by decide), trivial⟩, ⟨?_, trivial⟩, rfl⟩
      simp only [AV.new, AV.plain, mkAV, rawCode, BV.ofNat_val]
      rw [show n % 2 ^ 8 = n from Nat.mod_eq_of_lt hn, show m % 2 ^ 8 = m from Nat.mod_eq_of_lt hm]
  · exact ⟨by simp [nPb, nArch, nIn, nEnum, WF, WFs, Fields.toList, autos], by simp [nPb, nArch, nIn, nEnum, Buildable, Buildables, Fields.toList, width, sumWidths, show 0 < enumWidth [.lit 0, .lit 1, .lit 2] from by decide]⟩
  · refine ⟨by simp [nPb, nArch], by simp, by simp [nPb, nArch], fun r bb h => ⟨?_, by simp [nPb, nArch]⟩⟩
    simp only [nArchFn, nPb, nArch, List.map_nil]
    split <;> rfl

theorem nTotal (P : Process) : Total P nArch := by
  refine ⟨2, nIn, 1, vOut, rfl, rfl, ?_⟩
  intro d bb h
  match d, h with
  | [(_, x), (_, y), (_, z)], ⟨_, ⟨n, hn, hx⟩, _, ⟨m, hm, hy⟩, _⟩ =>
    subst hx hy
    simp only [width] at hn hm
    refine ⟨[.leaf ((n + m) % 256)], ⟨Nat.mod_lt _ (by decide), trivial⟩, ?_, trivial⟩
    simp only [AV.new, AV.plain, mkAV, rawCode, BV.ofNat_val]
    rw [Nat.mod_eq_of_lt hn, Nat.mod_eq_of_lt hm, VF.ofNat_mod (w := 8)]

/-- The process has built no assembler before. -/
def nP : Process := ⟨fun _ => []⟩

def nIb : Bdg := [(some [0], [5]), (none, [6]), (none, [7, 8])]
def nBs : Bdgs := ⟨[[nIb]], [wOb]⟩

theorem nBs_eq : (⟨(RF.skels nPb.arch.inT).map (IM.formB nPb), createBindings (leafTypes nPb.arch.outT []) (leafTypes nPb.ir.outT [])⟩ : Bdgs) = nBs := by
  rfl

/-- 3 for `y`, and 3 for the enum. -/
def nAsg : MAsg Nat where
  fi := 0
  ib := 0
  ob := 0
  ir := fun _ => 0
  irTag := fun _ => 0
  arch := fun _ => 3
  archTag := fun _ => 0
  irBB := fun _ _ => 0
  archBB := fun _ _ => 0

theorem nB : IM.BdgsOk nPb nBs := by
  rw [← nBs_eq]
  exact ⟨⟨by simp [nPb, vIr, vIn1, UnionFree, UnionFrees], rfl, rfl, by simp [nPb]⟩, rfl, rfl⟩

theorem nRR : rrFromSolver nP.asm nPb nBs nAsg = .error .valueError := by
  rfl

theorem nValid (P : Process) (vs : List RVal) : ConstsValid P.asm nPb.arch.inT nPb.archConst vs := by
  intro c fs hT k x hx hk
  cases hT
  have hk6 : k = 6 := by simpa [nPb] using hk
  subst hk6
  match vs, hx with
  | [], hx => simp [nIn, inputDict] at hx
  | [v], hx => simp [nIn, inputDict] at hx
  | [v, w], hx =>
    simp only [inputDict, nIn, List.mem_cons, List.not_mem_nil, or_false, Prod.mk.injEq] at hx
    rcases hx with ⟨h, _⟩ | ⟨_, rfl⟩
    · cases h
    · rfl
  | v :: w :: z :: vs, hx =>
    simp only [inputDict, nIn, List.mem_cons, List.not_mem_nil, or_false, Prod.mk.injEq] at hx
    rcases hx with ⟨h, _⟩ | ⟨_, rfl⟩ | ⟨h, _⟩
    · cases h
    · rfl
    · cases h

/-- The outputs agree when `y` is 3. -/
theorem nOuts (a : MAsg Nat) (h : a.arch [6] = 3) : OutputsAgree nPb.ir.outT nPb.arch.outT wOb
    (vIrFn (· + 3) (VF.fill nPb.ir.inT (.prod [.leaf 0]) a.ir) []).1 (nArchFn (VF.fill nPb.arch.inT (.prod [.leaf 0, .leaf 0, .prod [.leaf 0]]) (substArch nIb a).arch) []).1 := by
  intro q p hq
  simp only [wOb, List.mem_singleton, Prod.mk.injEq, Option.some.injEq] at hq
  obtain ⟨rfl, rfl⟩ := hq
  have e5 : (substArch nIb a).arch [5] = a.ir [0] := rfl
  have e6 : (substArch nIb a).arch [6] = 3 := h
  refine ⟨.bv 0 8, .bv 0 8, (a.ir [0] % 256 + 3) % 256, ?_, ?_⟩
  · simp [nPb, vIr, vIn1, vOut, VF.fill, VF.fillAll, vIrFn, rawLeaves, rawLeavesAll, width]
  · simp [nPb, nArch, nIn, vOut, VF.fill, VF.fillAll, nArchFn, rawLeaves, rawLeavesAll, width, e5, e6]

theorem nConj (P : Process) (a : MAsg Nat) (h1 : a.fi = 0) (h2 : a.ib = 0) (h3 : a.ob = 0) (h6 : a.arch [6] = 3) :
    mapConj P.asm nPb nBs a (0, 0, 0, nIb, wOb) = .ok true := by
  have S := nSetup P
  have hc : IM.Conj P nPb (vIrFn (· + 3)) nArchFn nBs a (.prod [.leaf 0, .leaf 0, .prod [.leaf 0]]) (.prod [.leaf 0]) 0 0 0 nIb wOb := by
    refine ⟨?_, ?_, ?_, RF.tags_unionFree _ _ _ _ (by simp [nPb, nArch, nIn, nEnum, UnionFree, UnionFrees]), fun vs _ => nValid P vs, nOuts a h6⟩
    · rw [h1]; rfl
    · rw [h2]; rfl
    · rw [h3]; rfl
  obtain ⟨am, g1, _⟩ := IM.mapper_any P (nTotal P) S.arch_in S.arch_out nPb.archConst a.arch a.archTag a.archBB
  obtain ⟨am', g2, _⟩ := IM.mapper_any P (nTotal P) S.arch_in S.arch_out nPb.archConst (substArch nIb a).arch (substArch nIb a).archTag (substArch nIb a).archBB
  obtain ⟨im, g3⟩ := IM.mapper_one P S.ir_fn S.ir_in S.ir_out nB.uf nPb.irConst a.ir a.irTag a.irBB
  obtain ⟨y, hy, hy2⟩ := IM.conj_sem S nB.uf rfl rfl g1 g2 g3 (bs := nBs) (i := 0) (bi := 0) (bo := 0) (ib := nIb) (ob := wOb)
    (s := .prod [.leaf 0, .leaf 0, .prod [.leaf 0]]) (si := .prod [.leaf 0]) rfl rfl (by decide) (by decide)
    (IM.outs_typed S.ir_out.1 S.arch_out.1 (ob := wOb) (by rw [← nB.outs]; exact List.mem_cons_self)) hc.tags
  rw [hy, hy2.mpr hc]

theorem nSat (P : Process) : mapSat P.asm nPb nBs nAsg := by
  intro a' ha'
  have h6 : a'.arch [6] = 3 := ha'.arch [6] (by
    rintro ⟨h, _⟩
    exact absurd h (by decide))
  have hF : mapFormula0 P.asm nPb nBs a' = .ok true := by
    simp only [mapFormula0, show mapTriples nBs = [(0, 0, 0, nIb, wOb)] from rfl, exMap]
    rw [nConj P a' ha'.fi ha'.ib ha'.ob h6]
    rfl
  simp only [mapFormula, show nPb.cons = [] from rfl, forallCons, hF, existsCons]

/-- `IR.a → x`, 3 → `y`, the member 0 for the enum. -/
def nRule : RRule := ⟨[(.path [0], [5]), (.const (.bits (BV.ofNat 8 3)), [6]), (.const (.bits (BV.ofNat 2 0)), [7, 8])], [(some [1], [1])]⟩

theorem nRelated : Related nPb.ir.inT nPb.arch.inT nRule.ib (.prod [.leaf 7]) (.prod [.leaf 7, .leaf 3, .prod [.leaf 0]]) := by
  refine ⟨by simp [nPb, vIr, vIn1, RHas, RHasAll, width], by simp [nPb, nArch, nIn, nEnum, RHas, RHasAll, width, show 0 < 2 ^ enumWidth [.lit 0, .lit 1, .lit 2] from by decide], ?_, ?_, ?_⟩
  · simp [nPb, nArch, nIn, nEnum, rawLeaves, rawLeavesAll, nRule]
  · simp [nPb, vIr, vIn1, rawLeaves, rawLeavesAll, nRule, irSources]
  · intro e he
    simp only [nRule, List.mem_cons, List.not_mem_nil, or_false] at he
    rcases he with rfl | rfl | rfl
    · exact ⟨.bv 0 8, 7, by simp [nPb, nArch, nIn, nEnum, rawLeaves, rawLeavesAll], .bv 0 8, by simp [nPb, vIr, vIn1, rawLeaves, rawLeavesAll], rfl⟩
    · exact ⟨.bv 0 8, 3, by simp [nPb, nArch, nIn, nEnum, rawLeaves, rawLeavesAll], by simp, rfl, rfl⟩
    · exact ⟨nEnum, 0, by simp [nPb, nArch, nIn, nEnum, rawLeaves, rawLeavesAll], by simp [nEnum], by decide, rfl⟩

theorem nCorrect : RuleCorrect nPb.ir nPb.arch (vIrFn (· + 3)) nArchFn nRule := by
  intro ri ra h F ρi ρa _ _ q p hq
  have leaf8 : ∀ r, RHas (.bv 0 8) r → ∃ n, r = .leaf n := by
    intro r h
    cases r <;> simp [RHas] at h
    exact ⟨_, rfl⟩
  have h1 := h.ir
  have h2 := h.arch
  simp only [nRule, List.mem_cons, List.not_mem_nil, or_false, Prod.mk.injEq, Option.some.injEq] at hq
  obtain ⟨rfl, rfl⟩ := hq
  cases ri with
  | leaf _ => simp [nPb, vIr, RHas] at h1
  | sum _ _ => simp [nPb, vIr, RHas] at h1
  | prod vs =>
    cases ra with
    | leaf _ => simp [nPb, nArch, RHas] at h2
    | sum _ _ => simp [nPb, nArch, RHas] at h2
    | prod ws =>
      simp only [nPb, vIr, vIn1, RHas] at h1
      simp only [nPb, nArch, nIn, RHas] at h2
      match vs, h1, ws, h2 with
      | [v], h1, [w, x, z], h2 =>
        obtain ⟨n, rfl⟩ := leaf8 v h1.1
        obtain ⟨m, rfl⟩ := leaf8 w h2.1
        obtain ⟨k, rfl⟩ := leaf8 x h2.2.1
        obtain ⟨j, rfl⟩ : ∃ j, z = .prod [.leaf j] := by
          have h3 := h2.2.2.1
          cases z with
          | leaf _ => simp [RHas] at h3
          | sum _ _ => simp [RHas] at h3
          | prod zs =>
            simp only [RHas] at h3
            match zs, h3 with
            | [y], h3 =>
              have h4 := h3.1
              cases y with
              | leaf j => exact ⟨j, rfl⟩
              | sum _ _ => simp [nEnum, RHas] at h4
              | prod _ => simp [nEnum, RHas] at h4
        obtain ⟨t, n', g1, u, g2, _⟩ := h.entries (.path [0], [5]) (by simp [nRule])
        obtain ⟨t', n'', g3, _, _, g4⟩ := h.entries (.const (.bits (BV.ofNat 8 3)), [6]) (by simp [nRule])
        have c1 : n' = m := by simp [nPb, nArch, nIn, nEnum, rawLeaves, rawLeavesAll] at g1; exact g1.2
        have c2 : n' = n := by simp [nPb, vIr, vIn1, rawLeaves, rawLeavesAll] at g2; exact g2.2
        have c3 : n'' = k := by simp [nPb, nArch, nIn, nEnum, rawLeaves, rawLeavesAll] at g3; exact g3.2
        have c4 : k = 3 := by rw [← c3, ← g4]; rfl
        rw [c1] at c2
        subst c2 c4
        exact ⟨.bv 0 8, .bv 0 8, (m + 3) % 256, by simp [nPb, vIr, vOut, vIrFn, rawLeaves, rawLeavesAll], by simp [nPb, nArch, vOut, nArchFn, rawLeaves, rawLeavesAll]⟩

theorem nMapping (P : Process) : IsMapping P.asm nPb nRule := by
  refine ⟨⟨_, _, nRelated, nValid P _⟩, ?_, ?_, ?_, ?_⟩
  · refine ⟨fun _ => some [1], ⟨?_, ?_⟩, ⟨?_, ?_⟩⟩
    · simp [nPb, nArch, vOut, leafTypes, leafTypesF, nRule]
    · simp [nRule]
    · simp [nPb, nArch, vIr, vOut, leafTypes, leafTypesF]
    · simp [nPb, nArch, vIr, vOut, leafTypes, leafTypesF]
  · intro q p h
    simp only [nRule, List.mem_cons, List.not_mem_nil, or_false, Prod.mk.injEq, RSrc.path.injEq, reduceCtorEq, false_and] at h
    obtain ⟨rfl, rfl⟩ := h
    refine ⟨by simp [nPb], by simp [nPb, IsConst], .bv 0 8, ?_, ?_⟩
    · simp [nPb, vIr, vIn1, leafTypes, leafTypesF]
    · simp [nPb, nArch, nIn, leafTypes, leafTypesF]
  · intro c p h
    simp only [nRule, List.mem_cons, List.not_mem_nil, or_false, Prod.mk.injEq, RSrc.const.injEq, reduceCtorEq, false_and, false_or] at h
    refine ⟨?_, fun cs hcs => by simp [nPb] at hcs⟩
    rcases h with ⟨_, rfl⟩ | ⟨_, rfl⟩
    · exact ⟨[6], by simp [nPb], by simp⟩
    · exact ⟨[7, 8], by simp [nPb], by simp⟩
  · intro p h
    simp [nRule] at h

/-- The code violates C33 for `Const` enums inside a field that is not `Const`: nothing makes the solver give them a code of a member, and with another code
`solve` raises a ValueError instead of returning a rule, although there is a correct one. -/
theorem C33_violated_nested_const : ∃ (P : Process) (pb : MapPb Nat Nat) (fi fa : Fn Nat) (solve : (MAsg Nat → Prop) → Option (MAsg Nat)) (rule : RRule),
    Setup P pb.ir pb.arch fi fa (fun _ => [1]) ∧ (∀ φ a, solve φ = some a → φ a) ∧ (∀ φ a, φ a → ∃ a', solve φ = some a') ∧
    IsMapping P.asm pb rule ∧ RuleCorrect pb.ir pb.arch fi fa rule ∧ ∀ a0, mapSolve P.asm pb solve a0 = .error .valueError := by
  classical
  have S := nSetup nP
  have hbind : mapBindings nP.asm nPb = .ok (some nBs) := by
    rw [← nBs_eq]
    refine IM.bindings_any S (nTotal nP) nB.uf rfl rfl nB.cons ⟨2, nIn, 6, rfl, by simp [nIn, Fields.toList], by simp [nPb]⟩ ?_ ?_
    · exact ⟨.prod [.leaf 0, .leaf 0, .prod [.leaf 0]], by simp [show RF.skels nPb.arch.inT = [.prod [.leaf 0, .leaf 0, .prod [.leaf 0]]] from rfl],
        by rw [show IM.formB nPb (.prod [.leaf 0, .leaf 0, .prod [.leaf 0]]) = [nIb] from rfl]; simp⟩
    · rw [show createBindings (leafTypes nPb.arch.outT []) (leafTypes nPb.ir.outT []) = [wOb] from rfl]; simp
  have hformula : ∀ a0, ∃ b, mapFormula nP.asm nPb nBs a0 = .ok b := by
    intro a0
    obtain ⟨y, hy⟩ := IM.conj_any S nB.uf rfl (nTotal nP) nBs a0 (i := 0) (bi := 0) (bo := 0) (ib := nIb) (ob := wOb)
      (si := .prod [.leaf 0]) rfl (by decide) (by decide) (by decide)
      (IM.outs_typed S.ir_out.1 S.arch_out.1 (ob := wOb) (by rw [← nB.outs]; exact List.mem_cons_self))
    have hF : mapFormula0 nP.asm nPb nBs a0 = .ok ([y].any id) := by
      simp only [mapFormula0, show mapTriples nBs = [(0, 0, 0, nIb, wOb)] from rfl, exMap, hy]
      rfl
    simp only [mapFormula, show nPb.cons = [] from rfl, forallCons, exMap, hF, existsCons]
    exact ⟨_, rfl⟩
  let solve : (MAsg Nat → Prop) → Option (MAsg Nat) := fun φ => if φ nAsg then some nAsg else if h : ∃ a, φ a then some h.choose else none
  have hsat : ∀ φ a, solve φ = some a → φ a := by
    intro φ a h
    simp only [solve] at h
    split at h
    · next hx => cases h; exact hx
    · split at h
      · next hx => cases h; exact hx.choose_spec
      · cases h
  have hcomp : ∀ φ a, φ a → ∃ a', solve φ = some a' := by
    intro φ a h
    have hx : ∃ a, φ a := ⟨a, h⟩
    simp only [solve]
    split
    · exact ⟨_, rfl⟩
    · exact ⟨hx.choose, by simp only [dif_pos hx]⟩
  refine ⟨nP, nPb, vIrFn (· + 3), nArchFn, solve, nRule, S, hsat, hcomp, nMapping nP, nCorrect, fun a0 => ?_⟩
  obtain ⟨b, hb⟩ := hformula a0
  simp only [mapSolve, hbind, hb, solve, if_pos (nSat nP), nRR]

/-! ## the simple formula -/

theorem nTotalBoxes : TotalBoxes nArch (fun _ => [1]) := by
  intro ci fi h d bb hd
  refine ⟨?_, by simp [nArch]⟩
  simp only [nArch, List.map_nil, List.map_eq_nil_iff]
  split <;> rfl

theorem nReady (P : Process) : SFm.Ready P nPb nBs (vIrFn (· + 3)) nArchFn (fun _ => [1]) :=
  ⟨nSetup P, nTotal P, nTotalBoxes, nB.toBdgsOk0, by simp [nPb], flatOut, flatOut, by simp [nPb, vIr, vOut, leafTypes, leafTypesF],
    ⟨6, .bv 0 8, by simp [nPb, nArch, nIn, Ty.fieldDict, Fields.toList], by simp [nPb]⟩, by decide, by decide⟩

theorem nBind (P : Process) : mapBindings P.asm nPb true = .ok (some nBs) := by
  rw [← nBs_eq]
  refine IM.bindings_any' (nSetup P) (nTotal P) nB.uf true (fun h => by cases h) nB.cons ⟨2, nIn, 6, rfl, by simp [nIn, Fields.toList], by simp [nPb]⟩ ?_ ?_
  · exact ⟨.prod [.leaf 0, .leaf 0, .prod [.leaf 0]], by simp [show RF.skels nPb.arch.inT = [.prod [.leaf 0, .leaf 0, .prod [.leaf 0]]] from rfl],
      by rw [show IM.formB nPb (.prod [.leaf 0, .leaf 0, .prod [.leaf 0]]) = [nIb] from rfl]; simp⟩
  · rw [show createBindings (leafTypes nPb.arch.outT []) (leafTypes nPb.ir.outT []) = [wOb] from rfl]; simp

def nsAsg : SAsg Nat where
  m := nAsg
  archE := fun _ => 0
  archA := fun _ => 0

theorem nsSat (P : Process) : simpleSat P.asm nPb nBs nsAsg := by
  intro a' ha'
  have h1 : a'.m.fi = 0 := ha'.fi
  have h2 : a'.m.ib = 0 := ha'.ib
  have h3 : a'.m.ob = 0 := ha'.ob
  have h6 : a'.m.arch [6] = 3 := ha'.arch [6] (by
    rintro ⟨h, _⟩
    exact absurd h (by decide))
  have hBO : IM.BOk nPb (.prod [.leaf 0, .leaf 0, .prod [.leaf 0]]) nIb :=
    IM.formB_ok (nReady P).S.ir_in.1 (nReady P).S.arch_in.1 (by simp [nPb, nArch, nIn, nEnum, RHas, RHasAll, width]; decide) (by
      rw [show IM.formB nPb (.prod [.leaf 0, .leaf 0, .prod [.leaf 0]]) = [nIb] from rfl]; simp)
  refine SFm.holds_of (nReady P) (i := 0) (bi := 0) (bo := 0) (s := .prod [.leaf 0, .leaf 0, .prod [.leaf 0]]) (ib := nIb) (ob := wOb) rfl rfl a' ?_ hBO ?_ ?_ ?_ ?_ ?_
  · refine ⟨rfl, by decide, ?_, ?_, by decide⟩
    · rw [h1]; rfl
    · rw [h2]; rfl
  · rw [h3]; rfl
  · exact RF.tags_unionFree _ _ _ _ (by simp [nPb, nArch, nIn, nEnum, UnionFree, UnionFrees])
  · intro c hc hcp
    simp [nPb] at hc
  · exact fun vs _ => nValid P vs
  · intro hfa ri hri hbits F _ _ q p hq
    simp only [wOb, List.mem_singleton, Prod.mk.injEq, Option.some.injEq] at hq
    obtain ⟨rfl, rfl⟩ := hq
    cases ri with
    | leaf _ => simp [nPb, vIr, RHas] at hri
    | sum _ _ => simp [nPb, vIr, RHas] at hri
    | prod vs =>
      simp only [nPb, vIr, vIn1, RHas] at hri
      match vs, hri with
      | [v], h =>
        obtain ⟨n, rfl, hn⟩ := leaf8 v h.1
        have hb := hbits [0] [5] (by simp [nIb]) (.bv 0 8) n (by simp [nPb, vIr, vIn1, rawLeaves, rawLeavesAll])
        simp only [width] at hb
        have e6 : subArch nPb nBs (RF.skels nPb.arch.inT).length a' [6] = 3 := by
          have ho : nBs.overlap nPb [6] = false := by decide
          simp only [subArch, ho, Bool.false_eq_true, if_false, h6]
        refine ⟨.bv 0 8, .bv 0 8, (n + 3) % 256, ?_, ?_⟩
        · simp [nPb, vIr, vOut, vIrFn, rawLeaves, rawLeavesAll]
        · obtain ⟨z, hf⟩ : ∃ z, VF.fill nPb.arch.inT (.prod [.leaf 0, .leaf 0, .prod [.leaf 0]]) (subArch nPb nBs (RF.skels nPb.arch.inT).length a') = .prod [.leaf n, .leaf 3, z] := by
            generalize subArch nPb nBs (RF.skels nPb.arch.inT).length a' = v at hb e6
            simp only [nPb, nArch, nIn, VF.fill, VF.fillAll, width]
            rw [hb, e6]
            exact ⟨_, rfl⟩
          rw [hf]
          simp [nPb, nArch, vOut, nArchFn, rawLeaves, rawLeavesAll]

/-- C55 is violated in the same way. -/
theorem C55_violated_nested_const : ∃ (P : Process) (pb : MapPb Nat Nat) (fi fa : Fn Nat) (solve : (SAsg Nat → Prop) → Option (SAsg Nat)) (rule : RRule),
    Setup P pb.ir pb.arch fi fa (fun _ => [1]) ∧ (∀ φ a, solve φ = some a → φ a) ∧ (∀ φ a, φ a → ∃ a', solve φ = some a') ∧
    IsMapping P.asm pb rule ∧ RuleCorrect pb.ir pb.arch fi fa rule ∧ ∀ a0, simpleSolve P.asm pb solve a0 = .error .valueError := by
  classical
  have S := nSetup nP
  let solve : (SAsg Nat → Prop) → Option (SAsg Nat) := fun φ => if φ nsAsg then some nsAsg else if h : ∃ a, φ a then some h.choose else none
  have hsat : ∀ φ a, solve φ = some a → φ a := by
    intro φ a h
    simp only [solve] at h
    split at h
    · next hx => cases h; exact hx
    · split at h
      · next hx => cases h; exact hx.choose_spec
      · cases h
  have hcomp : ∀ φ a, φ a → ∃ a', solve φ = some a' := by
    intro φ a h
    have hx : ∃ a, φ a := ⟨a, h⟩
    simp only [solve]
    split
    · exact ⟨_, rfl⟩
    · exact ⟨hx.choose, rfl⟩
  refine ⟨nP, nPb, vIrFn (· + 3), nArchFn, solve, nRule, S, hsat, hcomp, nMapping nP, nCorrect, fun a0 => ?_⟩
  obtain ⟨x, _, _, _, _, _, _, _, _, _, _, _, _, _, hx, _⟩ := SFm.formula_any (nReady nP) a0
  have hrr : rrFromSolver nP.asm nPb nBs nsAsg.m = .error .valueError := nRR
  simp only [simpleSolve, nBind, hx, solve, if_pos (nsSat nP), hrr]

end Peak
