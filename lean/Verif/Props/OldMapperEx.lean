import Verif.Props.OldMapper
/-!
# C57: examples and counterexamples for `gen_mapping`
-/

namespace Peak

namespace Old

/-- A solver that answers every query correctly. -/
noncomputable def oracle {St BI SI : Type} (pb : OldPb St BI SI) (q : (String → Nat) → Prop) : Bool :=
  @decide (∀ ρ, CoreFits (pb.coreIn.map (fun e => (if e.1 = "in" then "in_" else e.1, e.2))) ρ → ¬ q ρ) (Classical.propDecidable _)

theorem oracle_correct {St BI SI : Type} (pb : OldPb St BI SI) : SolverCorrect pb (oracle pb) := by
  intro q
  unfold oracle
  exact @decide_eq_true_iff _ (Classical.propDecidable _)

theorem oracle_false {St BI SI : Type} (pb : OldPb St BI SI) (q : (String → Nat) → Prop) (ρ : String → Nat)
    (hρ : CoreFits (pb.coreIn.map (fun e => (if e.1 = "in" then "in_" else e.1, e.2))) ρ) (h : q ρ) : oracle pb q = false := by
  rw [← Bool.not_eq_true, oracle_correct pb q]
  intro h'
  exact h' ρ hρ h

theorem oldCalls_next {St BI SI : Type} (pb : OldPb St BI SI) (unsat : ((String → Nat) → Prop) → Bool) (bvL : List BI) (ii : Nat) (i : SI)
    (b : List (Option String × String)) (rest : List (Nat × SI × List (Option String × String))) (st : (String → Nat) → St) (n n' : Nat)
    (ys : List (OldMap BI))
    (h : oldOuts pb unsat bvL ii i b st ((pb.outSorts i).zipIdx.map (fun e => (e.2, e.1))) n = (ys, .inl n'))
    (r : List (OldMap BI) × OldEnd) (hr : oldCalls pb unsat bvL rest (fun ρ => (pb.call (st ρ) i (bindingEnv b ρ)).1) n' = r) :
    oldCalls pb unsat bvL ((ii, i, b) :: rest) st n = (ys ++ r.1, r.2) := by
  subst hr
  rw [oldCalls, h]

theorem oldCalls_stop {St BI SI : Type} (pb : OldPb St BI SI) (unsat : ((String → Nat) → Prop) → Bool) (bvL : List BI) (ii : Nat) (i : SI)
    (b : List (Option String × String)) (rest : List (Nat × SI × List (Option String × String))) (st : (String → Nat) → St) (n : Nat)
    (ys : List (OldMap BI)) (x : Option Err)
    (h : oldOuts pb unsat bvL ii i b st ((pb.outSorts i).zipIdx.map (fun e => (e.2, e.1))) n = (ys, .inr x)) :
    oldCalls pb unsat bvL ((ii, i, b) :: rest) st n = (ys, .inr x) := by
  rw [oldCalls, h]

/-- A call whose single result is the CoreIR module's value. -/
theorem oldOuts_hit {St BI SI : Type} (pb : OldPb St BI SI) (bvL : List BI) (ii : Nat) (i : SI)
    (b : List (Option String × String)) (st : (String → Nat) → St) (n : Nat) (bi : BI) (o : String)
    (hs : pb.outSorts i = [some pb.coreSort]) (ho : pb.peakOutputs[0]? = some o) (hi : bvL[ii]? = some bi)
    (h : ∀ ρ, CoreFits (pb.coreIn.map (fun e => (if e.1 = "in" then "in_" else e.1, e.2))) ρ →
      (pb.call (st ρ) i (bindingEnv b ρ)).2[0]? = some (pb.coreFn ρ)) :
    oldOuts pb (oracle pb) bvL ii i b st ((pb.outSorts i).zipIdx.map (fun e => (e.2, e.1))) n =
      ([⟨bi, o, oldInputMap b⟩], if n ≤ 1 then .inr none else .inl (n - 1)) := by
  rw [hs]
  show oldOuts pb (oracle pb) bvL ii i b st [(0, some pb.coreSort)] n = _
  rw [oldOuts, if_pos ⟨rfl, (oracle_correct pb _).mpr (fun ρ hρ h' => h' (h ρ hρ))⟩, ho, hi]
  by_cases hn : n ≤ 1
  · simp only [if_pos hn]
  · simp only [if_neg hn, oldOuts]

/-- A call whose single result is not. -/
theorem oldOuts_miss {St BI SI : Type} (pb : OldPb St BI SI) (bvL : List BI) (ii : Nat) (i : SI)
    (b : List (Option String × String)) (st : (String → Nat) → St) (n : Nat)
    (hs : pb.outSorts i = [some pb.coreSort]) (ρ : String → Nat)
    (hρ : CoreFits (pb.coreIn.map (fun e => (if e.1 = "in" then "in_" else e.1, e.2))) ρ)
    (h : (pb.call (st ρ) i (bindingEnv b ρ)).2[0]? ≠ some (pb.coreFn ρ)) :
    oldOuts pb (oracle pb) bvL ii i b st ((pb.outSorts i).zipIdx.map (fun e => (e.2, e.1))) n = ([], .inl n) := by
  rw [hs]
  show oldOuts pb (oracle pb) bvL ii i b st [(0, some pb.coreSort)] n = _
  rw [oldOuts, if_neg, oldOuts]
  rintro ⟨_, h'⟩
  rw [oracle_false pb _ ρ hρ h] at h'
  cases h'

/-- The run of the generator, from that of its loops. -/
theorem genMapping_run {St BI SI : Type} (pb : OldPb St BI SI) (unsat : ((String → Nat) → Prop) → Bool) (mx : Int)
    (bs : List (List (Option String × String))) (hb : oldBindings (filterIO pb.peakInputs) (coreInputs pb.coreIn) = .ok bs) (hm : 0 < mx)
    (r : List (OldMap BI) × OldEnd) (hr : oldCalls pb unsat (pb.bvIsa.filter pb.okBv)
      (((pb.smtIsa.filter pb.okSmt).zipIdx).flatMap (fun e => bs.map (fun b => (e.2, e.1, b)))) (fun _ => pb.init) mx.toNat = r) :
    genMapping pb unsat mx = (r.1, match r.2 with | .inl _ => none | .inr x => x) := by
  subst hr
  exact genMapping_ok pb unsat mx bs hb hm

/-- A PE with 8-bit inputs `a`, `b`, an instruction input, and the instructions "a + b" (0) and "a - b" (1), and a CoreIR subtractor with
inputs `in` and `in1`. -/
def exPb : OldPb Unit Nat Nat where
  peakInputs := [("inst", none), ("a", some (.bv 8)), ("b", some (.bv 8))]
  peakOutputs := ["out"]
  init := ()
  call := fun _ i e => ((), [if i = 0 then (e "a" + e "b") % 256 else (e "a" + 256 - e "b") % 256])
  outSorts := fun _ => [some (.bv 8)]
  coreIn := [("in", 8), ("in1", 8)]
  coreSort := .bv 8
  coreFn := fun ρ => (ρ "in_" + 256 - ρ "in1") % 256
  bvIsa := [0, 1]
  smtIsa := [0, 1]
  okBv := fun _ => true
  okSmt := fun _ => true

theorem exPb_names : CoreNames exPb.coreIn := ⟨by decide, by decide, by decide⟩

theorem exPb_bindings : oldBindings (filterIO exPb.peakInputs) (coreInputs exPb.coreIn) =
    .ok [[(some "in_", "a"), (some "in1", "b")], [(some "in_", "b"), (some "in1", "a")]] := rfl

/-- The run of the search for the subtractor. -/
theorem exPb_run : genMapping exPb (oracle exPb) 3 = ([⟨1, "out", [("in", "a"), ("in1", "b")]⟩], none) := by
  have hfit : ∀ ρ : String → Nat, ρ "in_" < 256 → ρ "in1" < 256 →
      CoreFits (exPb.coreIn.map (fun e => (if e.1 = "in" then "in_" else e.1, e.2))) ρ := by
    intro ρ h1 h2 e he
    have : e = ("in_", 8) ∨ e = ("in1", 8) := by
      have hl : exPb.coreIn.map (fun e => (if e.1 = "in" then "in_" else e.1, e.2)) = [("in_", 8), ("in1", 8)] := rfl
      rw [hl] at he
      simpa using he
    rcases this with rfl | rfl
    · exact h1
    · exact h2
  let ρ1 : String → Nat := fun n => if n = "in1" then 1 else 0
  have f1 : CoreFits (exPb.coreIn.map (fun e => (if e.1 = "in" then "in_" else e.1, e.2))) ρ1 := hfit ρ1 (by decide) (by decide)
  refine genMapping_run exPb (oracle exPb) 3 _ exPb_bindings (by decide) ([⟨1, "out", [("in", "a"), ("in1", "b")]⟩], .inl 2) ?_
  refine oldCalls_next exPb _ _ _ _ _ _ _ _ 3 [] ?_ ([⟨1, "out", [("in", "a"), ("in1", "b")]⟩], .inl 2) ?_
  · exact oldOuts_miss exPb _ _ _ _ _ _ rfl ρ1 f1 (by decide)
  refine oldCalls_next exPb _ _ _ _ _ _ _ _ 3 [] ?_ ([⟨1, "out", [("in", "a"), ("in1", "b")]⟩], .inl 2) ?_
  · exact oldOuts_miss exPb _ _ _ _ _ _ rfl ρ1 f1 (by decide)
  refine oldCalls_next exPb _ _ _ _ _ _ _ _ 2 [⟨1, "out", [("in", "a"), ("in1", "b")]⟩] ?_ ([], .inl 2) ?_
  · exact oldOuts_hit exPb _ _ _ _ _ _ 1 "out" rfl rfl rfl (fun ρ _ => rfl)
  refine oldCalls_next exPb _ _ _ _ _ _ _ _ 2 [] ?_ ([], .inl 2) ?_
  · exact oldOuts_miss exPb _ _ _ _ _ _ rfl ρ1 f1 (by decide)
  rfl

end Old

/-- The hypotheses of `C57_sound_partial` and `C57_complete_partial` hold for the subtractor, and the search yields one mapping of the three
asked for. -/
example : CoreNames Old.exPb.coreIn ∧ ((filterIO Old.exPb.peakInputs).map (·.1)).Nodup ∧ SolverCorrect Old.exPb (Old.oracle Old.exPb) ∧
    Stateless Old.exPb ∧ ReadsParams Old.exPb ∧ List.Forall₂ (· = ·) Old.exPb.bvIsa Old.exPb.smtIsa ∧
    (∀ b s, b = s → Old.exPb.okBv b = Old.exPb.okSmt s) ∧
    (∀ i, (Old.exPb.outSorts i).length ≤ Old.exPb.peakOutputs.length) ∧
    genMapping Old.exPb (Old.oracle Old.exPb) 3 = ([⟨1, "out", [("in", "a"), ("in1", "b")]⟩], none) ∧
    IsAssignment (filterIO Old.exPb.peakInputs) (Old.exPb.coreIn.map (fun e => (e.1, OTy.bv e.2)))
      (fun k => if k = "a" then some "in" else if k = "b" then some "in1" else none) := by
  refine ⟨Old.exPb_names, by decide, Old.oracle_correct _, fun _ _ _ => rfl, ?_, by decide, fun _ _ _ => rfl, fun _ => Nat.le_refl 1,
    Old.exPb_run, ⟨?_, ?_⟩⟩
  · intro ρ ρ' h
    have h1 := h ("in", 8) (by decide)
    have h2 := h ("in1", 8) (by decide)
    show (ρ "in_" + 256 - ρ "in1") % 256 = (ρ' "in_" + 256 - ρ' "in1") % 256
    have e1 : inName "in" = "in_" := by decide
    have e2 : inName "in1" = "in1" := by decide
    simp only [e1] at h1
    simp only [e2] at h2
    rw [h1, h2]
  · intro a t i h hf
    have hl : filterIO Old.exPb.peakInputs = [("a", .bv 8), ("b", .bv 8)] := rfl
    rw [hl] at h
    simp at h
    rcases h with ⟨rfl, rfl⟩ | ⟨rfl, rfl⟩ <;> simp at hf <;> subst hf <;> decide
  · intro i t h
    have hl : Old.exPb.coreIn.map (fun e => (e.1, OTy.bv e.2)) = [("in", .bv 8), ("in1", .bv 8)] := rfl
    have hp : (filterIO Old.exPb.peakInputs).map (·.1) = ["a", "b"] := rfl
    rw [hl] at h
    rw [hp]
    simp at h
    rcases h with ⟨rfl, rfl⟩ | ⟨rfl, rfl⟩
    · exact ⟨"a", by decide, by decide, by decide⟩
    · exact ⟨"b", by decide, by decide, by decide⟩

namespace Old

/-- A PE that complements its input `a` with either of two instructions; `b`, `c` and `d` are not used.  The CoreIR module is a complement of
`in0`. -/
def dupPb : OldPb Unit Nat Nat where
  peakInputs := [("a", some (.bv 8)), ("b", some (.bv 8)), ("c", some (.bv 8)), ("d", some .bit)]
  peakOutputs := ["out"]
  init := ()
  call := fun _ _ e => ((), [255 - e "a"])
  outSorts := fun _ => [some (.bv 8)]
  coreIn := [("in0", 8)]
  coreSort := .bv 8
  coreFn := fun ρ => 255 - ρ "in0"
  bvIsa := [0, 1]
  smtIsa := [0, 1]
  okBv := fun _ => true
  okSmt := fun _ => true

/-- A PE whose register holds the number of calls made so far; instruction 1 gives 0 on a new PE, and `a` otherwise.  The CoreIR module is a
wire. -/
def statePb : OldPb Nat Nat Nat where
  peakInputs := [("a", some (.bv 8))]
  peakOutputs := ["out"]
  init := 0
  call := fun s _ e => (s + 1, [if s = 0 then 0 else e "a"])
  outSorts := fun _ => [some (.bv 8)]
  coreIn := [("in0", 8)]
  coreSort := .bv 8
  coreFn := fun ρ => ρ "in0"
  bvIsa := [0, 1]
  smtIsa := [0, 1]
  okBv := fun _ => true
  okSmt := fun _ => true

/-- A PE that is a wire from `a`, and a CoreIR wire whose input is named `in_`. -/
def inPb : OldPb Unit Nat Nat where
  peakInputs := [("a", some (.bv 8))]
  peakOutputs := ["out"]
  init := ()
  call := fun _ _ e => ((), [e "a"])
  outSorts := fun _ => [some (.bv 8)]
  coreIn := [("in_", 8)]
  coreSort := .bv 8
  coreFn := fun ρ => ρ "in_"
  bvIsa := [0]
  smtIsa := [0]
  okBv := fun _ => true
  okSmt := fun _ => true

end Old

/-- C57, violated: the mappings yielded are not distinct.  With two unused PE inputs of the type of a CoreIR input, every mapping is yielded
twice, and the repetitions count: of two mappings asked for, the same one comes twice, and the other instruction is not found.  The input map
has a single entry for all the inputs set to 0. -/
theorem C57_violated_duplicate : genMapping Old.dupPb (Old.oracle Old.dupPb) 2 =
      ([⟨0, "out", [("in0", "a"), ("0", "d")]⟩, ⟨0, "out", [("in0", "a"), ("0", "d")]⟩], none) ∧
    Implements Old.dupPb 1 (mappedInput [("in0", "a"), ("0", "d")]) 0 := by
  refine ⟨?_, fun ρ _ => rfl⟩
  refine Old.genMapping_run Old.dupPb (Old.oracle Old.dupPb) 2 _ rfl (by decide)
    ([⟨0, "out", [("in0", "a"), ("0", "d")]⟩, ⟨0, "out", [("in0", "a"), ("0", "d")]⟩], .inr none) ?_
  refine Old.oldCalls_next Old.dupPb _ _ _ _ _ _ _ _ 1 [⟨0, "out", [("in0", "a"), ("0", "d")]⟩] ?_ ([⟨0, "out", [("in0", "a"), ("0", "d")]⟩], .inr none) ?_
  · exact Old.oldOuts_hit Old.dupPb _ _ _ _ _ _ 0 "out" rfl rfl rfl (fun ρ _ => rfl)
  refine Old.oldCalls_stop Old.dupPb _ _ _ _ _ _ _ _ [⟨0, "out", [("in0", "a"), ("0", "d")]⟩] none ?_
  exact Old.oldOuts_hit Old.dupPb _ _ _ _ _ _ 0 "out" rfl rfl rfl (fun ρ _ => rfl)

/-- C57, violated: all the calls are made on one PE, so for a PE with state a mapping can be yielded that does not hold on a new PE. -/
theorem C57_violated_state : genMapping Old.statePb (Old.oracle Old.statePb) 1 = ([⟨1, "out", [("in0", "a")]⟩], none) ∧
    ¬ Implements Old.statePb 1 (mappedInput [("in0", "a")]) 0 := by
  let ρ1 : String → Nat := fun _ => 1
  have f1 : CoreFits (Old.statePb.coreIn.map (fun e => (if e.1 = "in" then "in_" else e.1, e.2))) ρ1 := by
    intro e he
    have : e = ("in0", 8) := by
      have hl : Old.statePb.coreIn.map (fun e => (if e.1 = "in" then "in_" else e.1, e.2)) = [("in0", 8)] := rfl
      rw [hl] at he
      simpa using he
    subst this
    decide
  refine ⟨?_, ?_⟩
  · refine Old.genMapping_run Old.statePb (Old.oracle Old.statePb) 1 _ rfl (by decide) ([⟨1, "out", [("in0", "a")]⟩], .inr none) ?_
    refine Old.oldCalls_next Old.statePb _ _ _ _ _ _ _ _ 1 [] (Old.oldOuts_miss Old.statePb _ _ _ _ _ _ rfl ρ1 f1 (by decide))
      ([⟨1, "out", [("in0", "a")]⟩], .inr none) ?_
    exact Old.oldCalls_stop Old.statePb _ _ _ _ _ _ _ _ _ none
      (Old.oldOuts_hit Old.statePb _ _ _ _ _ _ 1 "out" rfl rfl rfl (fun ρ _ => rfl))
  · intro h
    have := h ρ1 (by
      intro e he
      have : e = ("in0", 8) := by
        have hl : Old.statePb.coreIn = [("in0", 8)] := rfl
        rw [hl] at he
        simpa using he
      subst this
      decide)
    exact absurd this (by decide)

/-- C57, violated: a CoreIR input named `in_` is called `in` in the mapping, although the module has no such input. -/
theorem C57_violated_in_ : genMapping Old.inPb (Old.oracle Old.inPb) 1 = ([⟨0, "out", [("in", "a")]⟩], none) ∧
    "in" ∉ Old.inPb.coreIn.map (·.1) := by
  refine ⟨?_, by decide⟩
  refine Old.genMapping_run Old.inPb (Old.oracle Old.inPb) 1 _ rfl (by decide) ([⟨0, "out", [("in", "a")]⟩], .inr none) ?_
  exact Old.oldCalls_stop Old.inPb _ _ _ _ _ _ _ _ _ none
    (Old.oldOuts_hit Old.inPb _ _ _ _ _ _ 0 "out" rfl rfl rfl (fun ρ _ => rfl))

/-- The assertions fail for a module with a 16-bit input (`C57_assertion`). -/
example : genMapping { Old.exPb with coreIn := [("in", 16)] } (fun _ => true) 1 = ([], some .assertionError) := rfl

end Peak
