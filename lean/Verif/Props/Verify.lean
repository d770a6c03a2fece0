import Verif.Lemmas.Verify
/-!
# C36: `RewriteRule.verify` decides whether a rule is correct; C38: `build_inputs`
-/

namespace Peak
open Peak.Spec

/-- C38, `build_inputs`: given the leaves of the IR input `vs` and the unbound leaves of the architecture input `ws`, when the rule relates `vs` and
`ws`, the keyword arguments made for the two are `vs` and `ws`. -/
theorem C38_build_inputs_partial (P : Process) (ci ca : Nat) (fi fa : Fields) (ib : List (RSrc × RPath)) (vs ws : List RVal)
    (hwi : WF (.prod ci fi)) (hbi : Buildable (.prod ci fi)) (hwa : WF (.prod ca fa)) (hba : Buildable (.prod ca fa))
    (hR : Related (.prod ci fi) (.prod ca fa) ib (.prod vs) (.prod ws)) (irIn archIn : List (RPath × AV))
    (hki : ∀ q, q ∈ irIn.map (·.1) ↔ ∃ p, (.path q, p) ∈ ib) (hka : ∀ p, p ∈ archIn.map (·.1) ↔ (.unbound, p) ∈ ib)
    (hvi : ∀ q t n, (q, t, n) ∈ rawLeaves (.prod ci fi) (.prod vs) → irIn.lookup q = some (plainAV t n))
    (hva : ∀ p t n, (.unbound, p) ∈ ib → (p, t, n) ∈ rawLeaves (.prod ca fa) (.prod ws) → archIn.lookup p = some (plainAV t n)) :
    buildInputs P.asm (.prod ci fi) (.prod ca fa) ib irIn archIn = .ok (inputDict fi vs, inputDict fa ws) :=
  VF.buildInputs_ok P hwi hbi hwa hba hR (fun q => (hki q).trans VF.mem_irSources.symm) hka hvi hva

/-- C38, `build_inputs` is asked for exactly the inputs the rule has: when the unbound inputs are leaves of the architecture, values for other paths than the IR paths of the rule, or for others
than its unbound paths, too many or too few, are a ValueError. -/
theorem C38_build_inputs_refused (A : Ty → Except Err AsmObj) (irT archT : Ty) (ib : List (RSrc × RPath)) (irIn archIn : List (RPath × AV))
    (hu : ∀ p, (.unbound, p) ∈ ib → ∃ t, (p, t) ∈ leafTypes archT [])
    (h : ¬ ((∀ q, q ∈ irIn.map (·.1) ↔ ∃ p, (.path q, p) ∈ ib) ∧ ∀ p, p ∈ archIn.map (·.1) ↔ (.unbound, p) ∈ ib)) :
    buildInputs A irT archT ib irIn archIn = .error .valueError := by
  have hs : ∀ a b : List RPath, samePaths a b = true → ∀ p, p ∈ a ↔ p ∈ b := by
    intro a b h p
    simp only [samePaths, Bool.and_eq_true, List.all_eq_true, List.contains_iff_mem] at h
    exact ⟨h.1 p, h.2 p⟩
  have hp := VF.inputPaths_ok (types := leafTypes archT []) (ib := ib) (fun p hp => by
    obtain ⟨t, ht⟩ := hu p hp
    cases e : (leafTypes archT []).lookup p with
    | some t => exact ⟨t, rfl⟩
    | none => have := List.lookup_eq_none_iff.mp e (p, t) ht; simp at this)
  unfold buildInputs
  rw [hp]
  simp only
  split
  · rfl
  · split
    · rfl
    · rename_i h1 h2
      simp only [Bool.not_eq_true, Bool.not_eq_false'] at h1 h2
      exact absurd ⟨fun q => (hs _ _ h1 q).trans VF.mem_irSources, fun p => (hs _ _ h2 p).trans VF.mem_unboundPaths⟩ h

example : buildInputs (fun _ => .error .keyError) (.prod 0 (.cons 0 (.bv 0 8) .nil)) (.prod 0 (.cons 0 (.bv 0 8) (.cons 1 (.bv 0 8) .nil))) [(.path [0], [0]), (.unbound, [1])]
    [([0], .bits (BV.ofNat 8 3))] [] = .error .valueError :=
  C38_build_inputs_refused _ _ _ _ _ _ (by simp [leafTypes, leafTypesF]) (fun h => by have := (h.2 [1]).2 (by simp); simp at this)

/-- The two conclusions of C36 for one way `agree` of comparing outputs that the formula decides. -/
theorem VF.verify_general {B K : Type} [DecidableEq B] [DecidableEq K] (P : Process) (ir arch : PeakObj B K) (fi fa : Fn B) (inW : K → List Nat)
    (S : Setup0 P ir arch fi fa inW) (rule : RRule) (hF : RuleFits ir.inT arch.inT ir.outT arch.outT rule)
    (solve : (VAsg B → Bool) → Option (VAsg B)) (hsat : ∀ φ a, solve φ = some a → φ a = true) (hunsat : ∀ φ, solve φ = none → ∀ a, φ a = false)
    (a0 : VAsg B) (agree : RVal → RVal → Prop)
    (hform : ∀ {ri ra : RVal}, Related ir.inT arch.inT rule.ib ri ra → ∀ (a : VAsg B),
      (∀ q t n, (q, t, n) ∈ rawLeaves ir.inT ri → n = a.ir q % 2 ^ width t) →
      (∀ p t n, (.unbound, p) ∈ rule.ib → (p, t, n) ∈ rawLeaves arch.inT ra → n = a.arch p % 2 ^ width t) →
      ∃ f, verifyFormula P.asm ir arch rule a = .ok f ∧
        (f = true ↔ ((∃ F : K → List BV → List BV, BoxesCompute F ir.bbs (fi ri (ir.bbOuts a.irBB)).2 (ir.bbOuts a.irBB) ∧
            BoxesCompute F arch.bbs (fa ra (arch.bbOuts a.archBB)).2 (arch.bbOuts a.archBB)) →
          agree (fi ri (ir.bbOuts a.irBB)).1 (fa ra (arch.bbOuts a.archBB)).1))) :
    ∃ res, verify P.asm solve ir arch rule a0 = .ok res ∧
      (res = none ↔ ∀ ri ra, Related ir.inT arch.inT rule.ib ri ra → ∀ (F : K → List BV → List BV) (ρi ρa : B → Nat → Nat),
        BoxesCompute F ir.bbs (fi ri (ir.bbOuts ρi)).2 (ir.bbOuts ρi) → BoxesCompute F arch.bbs (fa ra (arch.bbOuts ρa)).2 (arch.bbOuts ρa) →
        agree (fi ri (ir.bbOuts ρi)).1 (fa ra (arch.bbOuts ρa)).1) ∧
      ∀ a, res = some a → ∃ ri ra, Related ir.inT arch.inT rule.ib ri ra ∧
        (∀ q t n, (q, t, n) ∈ rawLeaves ir.inT ri → n = a.ir q % 2 ^ width t) ∧
        (∀ p t n, (.unbound, p) ∈ rule.ib → (p, t, n) ∈ rawLeaves arch.inT ra → n = a.arch p % 2 ^ width t) ∧
        ∃ (F : K → List BV → List BV), BoxesCompute F ir.bbs (fi ri (ir.bbOuts a.irBB)).2 (ir.bbOuts a.irBB) ∧
          BoxesCompute F arch.bbs (fa ra (arch.bbOuts a.archBB)).2 (arch.bbOuts a.archBB) ∧
          ¬ agree (fi ri (ir.bbOuts a.irBB)).1 (fa ra (arch.bbOuts a.archBB)).1 := by
  obtain ⟨ri0, ra0, hR0⟩ := hF.input
  -- every assignment has inputs
  have hfill : ∀ a : VAsg B, ∃ ri ra, Related ir.inT arch.inT rule.ib ri ra ∧
      (∀ q t n, (q, t, n) ∈ rawLeaves ir.inT ri → n = a.ir q % 2 ^ width t) ∧
      (∀ p t n, (.unbound, p) ∈ rule.ib → (p, t, n) ∈ rawLeaves arch.inT ra → n = a.arch p % 2 ^ width t) := by
    intro a
    refine ⟨_, _, VF.related_fill S.arch_in.1 hR0 a.ir a.arch, ?_, ?_⟩
    · intro q t n h
      rw [(VF.fill_spec _ _ _ hR0.ir).2] at h
      obtain ⟨l, _, he⟩ := List.mem_map.mp h
      simp only [VF.refl, Prod.mk.injEq] at he
      obtain ⟨rfl, rfl, rfl⟩ := he
      rfl
    · intro p t n hp h
      rw [(VF.fill_spec _ _ _ hR0.arch).2] at h
      obtain ⟨l, _, he⟩ := List.mem_map.mp h
      simp only [VF.refl, Prod.mk.injEq] at he
      obtain ⟨rfl, rfl, rfl⟩ := he
      have hn : (rule.ib.map (·.2)).Nodup := hR0.arch_paths.nodup_iff.mpr (VF.leaves_nodup S.arch_in.1 hR0.arch)
      have := VF.archBits_eq hn hp a.ir a.arch
      simp only at this
      rw [this]
  have hok : ∀ a, ∃ f, verifyFormula P.asm ir arch rule a = .ok f := by
    intro a
    obtain ⟨ri, ra, h1, h2, h3⟩ := hfill a
    obtain ⟨f, hf, _⟩ := hform h1 a h2 h3
    exact ⟨f, hf⟩
  obtain ⟨f0, hf0⟩ := hok a0
  refine ⟨solve (fun a => negated (verifyFormula P.asm ir arch rule a)), by simp only [verify, hf0], ?_, ?_⟩
  · constructor
    · intro hn ri ra hR F ρi ρa hi ha
      -- the assignment of these inputs
      let a : VAsg B := ⟨fun q => (((rawLeaves ir.inT ri).lookup q).map (·.2)).getD 0,
        fun p => (((rawLeaves arch.inT ra).lookup p).map (·.2)).getD 0, ρi, ρa⟩
      obtain ⟨f, hf, hf2⟩ := hform hR a
        (fun q t n h => by
          simp only [a, VF.lookup_of_mem' (VF.leaves_nodup S.ir_in.1 hR.ir) h, Option.map_some, Option.getD_some]
          exact (Nat.mod_eq_of_lt (VF.leaf_bound _ _ hR.ir _ h)).symm)
        (fun p t n _ h => by
          simp only [a, VF.lookup_of_mem' (VF.leaves_nodup S.arch_in.1 hR.arch) h, Option.map_some, Option.getD_some]
          exact (Nat.mod_eq_of_lt (VF.leaf_bound _ _ hR.arch _ h)).symm)
      have := hunsat _ hn a
      simp only [negated, hf, Bool.not_eq_false'] at this
      exact hf2.mp this ⟨F, hi, ha⟩
    · intro hc
      cases hs : solve (fun a => negated (verifyFormula P.asm ir arch rule a)) with
      | none => rfl
      | some a =>
        exfalso
        have h := hsat _ a hs
        obtain ⟨ri, ra, h1, h2, h3⟩ := hfill a
        obtain ⟨f, hf, hf2⟩ := hform h1 a h2 h3
        simp only [negated, hf, Bool.not_eq_true'] at h
        have : f = true := hf2.mpr (fun ⟨F, g1, g2⟩ => hc ri ra h1 F a.irBB a.archBB g1 g2)
        rw [this] at h
        cases h
  · intro a hs
    have h := hsat _ a hs
    obtain ⟨ri, ra, h1, h2, h3⟩ := hfill a
    obtain ⟨f, hf, hf2⟩ := hform h1 a h2 h3
    simp only [negated, hf, Bool.not_eq_true'] at h
    rw [h] at hf2
    have hn := mt hf2.mpr (by simp)
    rw [Classical.not_imp] at hn
    obtain ⟨⟨F, g1, g2⟩, g3⟩ := hn
    exact ⟨ri, ra, h1, h2, h3, F, g1, g2, g3⟩

/-- C36, for rules whose input binding fits the input types and uses every IR leaf once, whose outputs have no unions, and which have at
least one bound output: with a solver that finds an assignment exactly when there is one, `verify` returns no counterexample exactly when the
rule is correct on all inputs, and a counterexample is a real one.  Enum leaves range over all bit patterns, not only the codes of members. -/
theorem C36_verify_partial {B K : Type} [DecidableEq B] [DecidableEq K] (P : Process) (ir arch : PeakObj B K) (fi fa : Fn B) (inW : K → List Nat)
    (S : Setup P ir arch fi fa inW) (rule : RRule) (hF : RuleFits ir.inT arch.inT ir.outT arch.outT rule)
    (solve : (VAsg B → Bool) → Option (VAsg B)) (hsat : ∀ φ a, solve φ = some a → φ a = true) (hunsat : ∀ φ, solve φ = none → ∀ a, φ a = false)
    (a0 : VAsg B) :
    ∃ res, verify P.asm solve ir arch rule a0 = .ok res ∧ (res = none ↔ RuleCorrect ir arch fi fa rule) ∧
      ∀ a, res = some a → IsCounterexample ir arch fi fa rule a :=
  VF.verify_general P ir arch fi fa inW (VF.setup0 S) rule hF solve hsat hunsat a0 _ (fun hR a => VF.formula_ok P S hF hR a)

/-- C36 for outputs that may have unions (but no `TaggedUnion`s): `verify` compares, for every bound output, the bits in the place of the leaf, whether or
not the output holds the option the leaf is in, and does not compare tags. -/
theorem C36_verify_places_partial {B K : Type} [DecidableEq B] [DecidableEq K] (P : Process) (ir arch : PeakObj B K) (fi fa : Fn B) (inW : K → List Nat)
    (S : Setup0 P ir arch fi fa inW) (hti : NoTagged ir.tagged ir.outT) (hta : NoTagged arch.tagged arch.outT)
    (rule : RRule) (hF : RuleFits ir.inT arch.inT ir.outT arch.outT rule)
    (solve : (VAsg B → Bool) → Option (VAsg B)) (hsat : ∀ φ a, solve φ = some a → φ a = true) (hunsat : ∀ φ, solve φ = none → ∀ a, φ a = false)
    (a0 : VAsg B) :
    ∃ res, verify P.asm solve ir arch rule a0 = .ok res ∧ (res = none ↔ RulePlacesCorrect ir arch fi fa rule) ∧
      ∀ a, res = some a → IsPlacesCounterexample ir arch fi fa rule a :=
  VF.verify_general P ir arch fi fa inW S rule hF solve hsat hunsat a0 _ (fun hR a => VF.formula_places P S hti hta hF hR a)

/-! ## a rule: `a + 3` as `x + y` with the constant 3 -/

def vIn1 : Fields := .cons 0 (.bv 0 8) .nil
def vIn2 : Fields := .cons 5 (.bv 0 8) (.cons 6 (.bv 0 8) .nil)
def vOut : Fields := .cons 1 (.bv 0 8) .nil

/-- A function of one 8-bit input. -/
def vIr (g : Nat → Nat) : PeakObj Nat Nat where
  inT := .prod 0 vIn1
  outT := .prod 1 vOut
  bbs := []
  bbOutW := fun _ => [1]
  run := fun d _ => match d with
    | [(_, .bits x)] => ([.bits (BV.ofNat 8 (g x.val))], [])
    | _ => ([], [])

/-- `x + y`. -/
def vArch : PeakObj Nat Nat where
  inT := .prod 2 vIn2
  outT := .prod 1 vOut
  bbs := []
  bbOutW := fun _ => [1]
  run := fun d _ => match d with
    | [(_, .bits x), (_, .bits y)] => ([.bits (BV.ofNat 8 (x.val + y.val))], [])
    | _ => ([], [])

def vIrFn (g : Nat → Nat) : Fn Nat := fun r _ => match r with
  | .prod [.leaf n] => (.prod [.leaf (g n % 256)], [])
  | r => (r, [])

def vArchFn : Fn Nat := fun r _ => match r with
  | .prod [.leaf n, .leaf m] => (.prod [.leaf ((n + m) % 256)], [])
  | r => (r, [])

theorem vSetup (P : Process) (g : Nat → Nat) : Setup P (vIr g) vArch (vIrFn g) vArchFn (fun _ => [1]) := by
  have leaf8 : ∀ r, RHas (.bv 0 8) r → ∃ n, r = .leaf n ∧ n < 256 := by
    intro r h
    cases r <;> simp [RHas, width] at h
    exact ⟨_, rfl, h⟩
  refine ⟨⟨0, vIn1, 1, vOut, rfl, rfl, ?_⟩, ⟨2, vIn2, 1, vOut, rfl, rfl, ?_⟩, ?_, ?_, ?_, ?_, ?_, ?_, rfl⟩
  · intro vs bb h
    simp only [vIr, vIn1, RHas] at h
    match vs, h with
    | [v], h =>
      obtain ⟨n, rfl, hn⟩ := leaf8 v h.1
      refine ⟨[.leaf (g n % 256)], rfl, ⟨Nat.mod_lt _ (by decide), trivial⟩, ⟨?_, trivial⟩, rfl⟩
      simp only [AV.new, AV.plain, mkAV, rawCode, BV.ofNat_val]
      rw [show n % 2 ^ 8 = n from Nat.mod_eq_of_lt hn]
  · intro vs bb h
    simp only [vArch, vIn2, RHas] at h
    match vs, h with
    | [v, w], h =>
      obtain ⟨n, rfl, hn⟩ := leaf8 v h.1
      obtain ⟨m, rfl, hm⟩ := leaf8 w h.2.1
      refine ⟨[.leaf ((n + m) % 256)], rfl, ⟨Nat.mod_lt _ (by decide), trivial⟩, ⟨?_, trivial⟩, rfl⟩
      simp only [AV.new, AV.plain, mkAV, rawCode, BV.ofNat_val]
      rw [show n % 2 ^ 8 = n from Nat.mod_eq_of_lt hn, show m % 2 ^ 8 = m from Nat.mod_eq_of_lt hm]
  · exact ⟨by simp [vIr, vIn1, WF, WFs, Fields.toList], by simp [vIr, vIn1, Buildable, Buildables, Fields.toList]⟩
  · exact ⟨by simp [vArch, vIn2, WF, WFs, Fields.toList], by simp [vArch, vIn2, Buildable, Buildables, Fields.toList, width]⟩
  · exact ⟨by simp [vIr, vOut, WF, WFs, Fields.toList], by simp [vIr, vOut, Buildable, Buildables, Fields.toList], by simp [vIr, vOut, UnionFree, UnionFrees]⟩
  · exact ⟨by simp [vArch, vOut, WF, WFs, Fields.toList], by simp [vArch, vOut, Buildable, Buildables, Fields.toList], by simp [vArch, vOut, UnionFree, UnionFrees]⟩
  · refine ⟨by simp [vIr], by simp, by simp [vIr], fun r bb h => ⟨?_, by simp [vIr]⟩⟩
    simp only [vIrFn, vIr, List.map_nil]
    split <;> rfl
  · refine ⟨by simp [vArch], by simp, by simp [vArch], fun r bb h => ⟨?_, by simp [vArch]⟩⟩
    simp only [vArchFn, vArch, List.map_nil]
    split <;> rfl

/-- `IR.a → x`, `3 → y`; output to output. -/
def vRule : RRule := ⟨[(.path [0], [5]), (.const (.bits (BV.ofNat 8 3)), [6])], [(some [1], [1])]⟩

theorem vRelated (g : Nat → Nat) : Related (vIr g).inT vArch.inT vRule.ib (.prod [.leaf 7]) (.prod [.leaf 7, .leaf 3]) := by
  refine ⟨by simp [vIr, vIn1, RHas, RHasAll, width], by simp [vArch, vIn2, RHas, RHasAll, width], ?_, ?_, ?_⟩
  · simp [vArch, vIn2, rawLeaves, rawLeavesAll, vRule]
  · simp [vIr, vIn1, rawLeaves, rawLeavesAll, vRule, irSources]
  · intro e he
    simp only [vRule, List.mem_cons, List.not_mem_nil, or_false] at he
    rcases he with rfl | rfl
    · exact ⟨.bv 0 8, 7, by simp [vArch, vIn2, rawLeaves, rawLeavesAll], .bv 0 8, by simp [vIr, vIn1, rawLeaves, rawLeavesAll], rfl⟩
    · exact ⟨.bv 0 8, 3, by simp [vArch, vIn2, rawLeaves, rawLeavesAll], by simp, rfl, rfl⟩

theorem vFits (g : Nat → Nat) : RuleFits (vIr g).inT vArch.inT (vIr g).outT vArch.outT vRule := by
  refine ⟨⟨.prod [.leaf 7], .prod [.leaf 7, .leaf 3], vRelated g⟩, ⟨[1], [1], by simp [vRule]⟩, ?_⟩
  · intro q p h
    simp only [vRule, List.mem_cons, List.not_mem_nil, or_false, Prod.mk.injEq, Option.some.injEq] at h
    obtain ⟨rfl, rfl⟩ := h
    exact ⟨.bv 0 8, .bv 0 8, by simp [vIr, vOut, leafTypes, leafTypesF], by simp [vArch, vOut, leafTypes, leafTypesF], rfl⟩

theorem vRel (g : Nat → Nat) (ri ra : RVal) (h : Related (vIr g).inT vArch.inT vRule.ib ri ra) : ∃ n, ri = .prod [.leaf n] ∧ ra = .prod [.leaf n, .leaf 3] := by
  have h1 := h.ir
  have h2 := h.arch
  have leaf8 : ∀ r, RHas (.bv 0 8) r → ∃ n, r = .leaf n := by
    intro r h
    cases r <;> simp [RHas] at h
    exact ⟨_, rfl⟩
  cases ri with
  | leaf _ => simp [vIr, RHas] at h1
  | sum _ _ => simp [vIr, RHas] at h1
  | prod vs =>
    cases ra with
    | leaf _ => simp [vArch, RHas] at h2
    | sum _ _ => simp [vArch, RHas] at h2
    | prod ws =>
      simp only [vIr, vIn1, RHas] at h1
      simp only [vArch, vIn2, RHas] at h2
      match vs, h1, ws, h2 with
      | [v], h1, [w, x], h2 =>
        obtain ⟨n, rfl⟩ := leaf8 v h1.1
        obtain ⟨m, rfl⟩ := leaf8 w h2.1
        obtain ⟨k, rfl⟩ := leaf8 x h2.2.1
        obtain ⟨t, n', g1, u, g2, _⟩ := h.entries (.path [0], [5]) (by simp [vRule])
        obtain ⟨t', n'', g3, _, _, g4⟩ := h.entries (.const (.bits (BV.ofNat 8 3)), [6]) (by simp [vRule])
        have c1 : n' = m := by simp [vArch, vIn2, rawLeaves, rawLeavesAll] at g1; exact g1.2
        have c2 : n' = n := by simp [vIr, vIn1, rawLeaves, rawLeavesAll] at g2; exact g2.2
        have c3 : n'' = k := by simp [vArch, vIn2, rawLeaves, rawLeavesAll] at g3; exact g3.2
        exact ⟨n, rfl, by rw [← c1, ← c3, c2, ← g4]; rfl⟩

/-- The rule is correct for `a + 3` and wrong for `a + 4`: both sides of the theorem occur. -/
theorem vCorrect : RuleCorrect (vIr (· + 3)) vArch (vIrFn (· + 3)) vArchFn vRule ∧ ¬ RuleCorrect (vIr (· + 4)) vArch (vIrFn (· + 4)) vArchFn vRule := by
  constructor
  · intro ri ra h F ρi ρa _ _ q p hq
    obtain ⟨n, rfl, rfl⟩ := vRel _ ri ra h
    simp only [vRule, List.mem_cons, List.not_mem_nil, or_false, Prod.mk.injEq, Option.some.injEq] at hq
    obtain ⟨rfl, rfl⟩ := hq
    exact ⟨.bv 0 8, .bv 0 8, (n + 3) % 256, by simp [vIr, vOut, vIrFn, rawLeaves, rawLeavesAll], by simp [vArch, vOut, vArchFn, rawLeaves, rawLeavesAll]⟩
  · intro h
    obtain ⟨ri, ra, hR⟩ := (vFits (· + 4)).input
    have h2 := h ri ra hR (fun _ _ => []) (fun _ _ => 0) (fun _ _ => 0) (by intro b k i o hb; simp [vIr] at hb) (by intro b k i o hb; simp [vArch] at hb)
    obtain ⟨n, rfl, rfl⟩ := vRel _ ri ra hR
    obtain ⟨t, u, m, g1, g2⟩ := h2 [1] [1] (by simp [vRule])
    simp only [vIr, vArch, vOut, vIrFn, vArchFn, rawLeaves, rawLeavesAll, List.map_cons, List.map_nil, List.append_nil, List.mem_singleton, Prod.mk.injEq] at g1 g2
    omega

/-- The code violates C36 for rules that read an IR input twice: `a + a` as `x + y` with `a` for both `x` and `y`.  The rule is correct, but
`verify` raises an AssertionError (in `build_inputs`) instead of returning `None`. -/
theorem C36_violated (P : Process) (solve : (VAsg Nat → Bool) → Option (VAsg Nat)) (a0 : VAsg Nat) :
    Setup P (vIr (fun n => n + n)) vArch (vIrFn (fun n => n + n)) vArchFn (fun _ => [1]) ∧
    (∀ n, n < 256 → (vIrFn (fun n => n + n) (.prod [.leaf n]) []).1 = (vArchFn (.prod [.leaf n, .leaf n]) []).1) ∧
    verify P.asm solve (vIr (fun n => n + n)) vArch ⟨[(.path [0], [5]), (.path [0], [6])], [(some [1], [1])]⟩ a0 = .error .assertionError := by
  refine ⟨vSetup P _, fun n _ => rfl, ?_⟩
  obtain ⟨o, ho, hg⟩ := P.good (t := .prod 2 vIn2) (by simp [vIn2, WF, WFs, Fields.toList])
  have h1 : wholeValue P.asm (.prod 2 vIn2) [(.val (.bits (BV.ofNat 8 (a0.ir [0]))), [5]), (.val (.bits (BV.ofNat 8 (a0.ir [0]))), [6])] =
      .ok (mkAV (.prod 2 vIn2) (rawCode (.prod 2 vIn2) (.prod [.leaf (a0.ir [0] % 256), .leaf (a0.ir [0] % 256)]))) := by
    refine VF.whole_prod P (by simp [vIn2, WF, WFs, Fields.toList]) (by simp [vIn2, Buildable, Buildables, Fields.toList, width])
      (by simp [vIn2, RHas, RHasAll, width, Nat.mod_lt]) ?_ (by simp [BSrc.isVal])
    refine ⟨[([5], .bv 0 8, a0.ir [0] % 256), ([6], .bv 0 8, a0.ir [0] % 256)], by simp [vIn2, rawLeaves, rawLeavesAll], ?_⟩
    have hm : Means P (.bv 0 8) (a0.ir [0] % 256) (.bits (BV.ofNat 8 (a0.ir [0]))) := by
      simp only [Means, AV.new, AV.plain, mkAV, BV.ofNat_val]
    exact .cons ⟨rfl, _, rfl, hm⟩ (.cons ⟨rfl, _, rfl, hm⟩ .nil)
  have h2 : buildInputs P.asm (.prod 0 vIn1) (.prod 2 vIn2) [(.path [0], [5]), (.path [0], [6])] [([0], .bits (BV.ofNat 8 (a0.ir [0])))] [] =
      .error .assertionError := by
    simp only [buildInputs, RRule.inputPaths, buildBindings, List.lookup, List.map_cons, List.map_nil]
    rw [show samePaths [[0]] [[0], [0]] = true from rfl, show samePaths [] [] = true from rfl]
    simp only [Bool.not_true, Bool.false_eq_true, if_false, reduceCtorEq, beq_self_eq_true]
    rw [h1]
    rfl
  have h3 : verifyFormula P.asm (vIr (fun n => n + n)) vArch ⟨[(.path [0], [5]), (.path [0], [6])], [(some [1], [1])]⟩ a0 = .error .assertionError := by
    simp only [verifyFormula, RRule.inputPaths]
    rw [show ([[0], [0]] : List RPath).dedup = [[0]] by decide,
      show freeVars P.asm (leafTypes (vIr (fun n => n + n)).inT []) a0.ir [[0]] = .ok [([0], .bits (BV.ofNat 8 (a0.ir [0])))] from rfl,
      show freeVars P.asm (leafTypes vArch.inT []) a0.arch ([] : List RPath).dedup = .ok [] from rfl]
    simp only
    rw [show (vIr (fun n => n + n)).inT = .prod 0 vIn1 from rfl, show vArch.inT = .prod 2 vIn2 from rfl, h2]
  simp only [verify, h3]

end Peak
