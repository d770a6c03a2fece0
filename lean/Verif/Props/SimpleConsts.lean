import Verif.Props.InstMapK
/-!
# C55: the constants of a rule found with `simple_formula=True`
-/

namespace Peak
open Peak Peak.Spec

namespace SFm
variable {B K : Type} {P : Process} {pb : MapPb B K} {fi fa : Fn B} {inW : K → List Nat} {bs : Bdgs}

/-- A leaf that is quantified both ways could hold a `Const` leaf of the IR instruction. -/
theorem could_of_overlap [DecidableEq B] (S : Setup P pb.ir pb.arch fi fa inW) (hB : IM.BdgsOk0 pb bs) {p : RPath} (ho : bs.overlap pb p = true) : CouldHold pb p := by
  obtain ⟨h1, h2⟩ := overlap_iff.mp ho
  obtain ⟨⟨i1, b1⟩, h1⟩ := List.exists_mem_of_ne_nil _ h1
  obtain ⟨⟨i2, b2⟩, h2⟩ := List.exists_mem_of_ne_nil _ h2
  obtain ⟨ib1, ⟨x, p'⟩, f1, f2, f3, f4⟩ := mem_forall.mp h1
  obtain ⟨ib2, g1, g2, g3⟩ := mem_exists.mp h2
  simp only at f3 f4
  subst f3
  rw [g3] at f4
  simp only [Bool.true_eq_false, or_false] at f4
  obtain ⟨q, rfl⟩ := Option.isSome_iff_exists.mp f4
  obtain ⟨l, k1, k2⟩ := mem_fbs.mp f1
  have hl := List.mem_of_getElem? k1
  rw [hB.ins] at hl
  obtain ⟨s, hs, rfl⟩ := List.mem_map.mp hl
  have hok := IM.formB_ok S.ir_in.1 S.arch_in.1 (IM.skels_mem_has (P := P) S.arch_in.1 S.arch_in.2 hs) (List.mem_of_getElem? k2)
  obtain ⟨_, h3, t, h4, h5⟩ := hok.typed q p' f2
  rw [g3] at h3
  exact ⟨IM.constAt_iff.mp g3, q, t, IM.constAt_iff.mp h3, h4, h5⟩

/-- The entry of another assignment. -/
theorem entry_at {m : MAsg B} {e : Option RPath × RPath} {e' : RSrc × RPath} (h : IM.EntryR pb m e e') (X : RPath → Prop) (w : RPath → Nat) (hwf : WF pb.arch.inT)
    (hX : ∀ p, ¬ X p → w p = m.arch p) : ∃ e'', IM.EntryR pb { m with arch := w } e e'' ∧ SameButAt pb.arch.inT X e' e'' := by
  by_cases hx : X e.2
  · obtain ⟨e'', g1, g2, g3⟩ := entry_change h w hwf
    refine ⟨e'', g1, g2, ?_⟩
    rcases g3 with g3 | g3
    · exact .inl g3
    · refine .inr ⟨h.1 ▸ hx, ?_⟩
      obtain ⟨c, c', k1, k2⟩ := g3
      rcases h.2 with ⟨q, _, h⟩ | ⟨_, _, c1, t, h3, h4, h5⟩ | ⟨_, _, _, h⟩
      · rw [k1] at h; cases h
      · rw [k1] at h3
        cases h3
        exact ⟨c, c', t, _, k1, k2, h.1 ▸ h4, Nat.mod_lt _ (Nat.two_pow_pos _), h5⟩
      · rw [k1] at h; cases h
  · refine ⟨e', ⟨h.1, ?_⟩, rfl, .inl rfl⟩
    rcases h.2 with h | ⟨h1, h2, c, t, h3, h4, h5⟩ | h
    · exact .inl h
    · refine .inr (.inl ⟨h1, h2, c, t, h3, h4, ?_⟩)
      simp only [hX _ hx]
      exact h5
    · exact .inr (.inr h)

end SFm

/-- C55, soundness up to constants, for problems whose constrained inputs are all `Const` and outputs without unions: as `C55_sound_up_to_constants_partial`, and the
only constants to change are those of `Const` architecture leaves that have the type of a `Const` IR leaf. -/
theorem C55_sound_up_to_places_partial {B K : Type} [DecidableEq B] [DecidableEq K] (P : Process) (pb : MapPb B K) (fi fa : Fn B) (inW : K → List Nat)
    (S0 : Setup0 P pb.ir pb.arch fi fa inW) (hcons : ∀ p cs, (p, cs) ∈ pb.cons → IsConst pb.archConst p)
    (solve : (SAsg B → Prop) → Option (SAsg B)) (hsat : ∀ φ a, solve φ = some a → φ a) (a0 : SAsg B) (rule : RRule)
    (h : simpleSolve P.asm pb solve a0 = .ok (some rule)) :
    ∃ rule', rule'.ob = rule.ob ∧ List.Forall₂ (SameButAt pb.arch.inT (CouldHold pb)) rule.ib rule'.ib ∧ IsMapping P.asm pb rule' ∧ RuleCorrect pb.ir pb.arch fi fa rule' := by
  have hc : ∀ c ∈ pb.cons, constAt pb.archConst c.1 = true := fun c hc => IM.constAt_iff.mpr (hcons c.1 c.2 hc)
  obtain ⟨bs, a, hbs, ha, hr⟩ := SFm.solve_inv h
  have S := IM.setup_of_bindings S0 hbs
  have hB := (IM.bindings_inv' S.ir_in S.arch_in hbs).1
  obtain ⟨i, bi, bo, s, l, ib, ob, hs, hl, hib, hob, m1, m2, m3, rfl, hF⟩ := IM.rule_inv S.arch_in hr
  have hX : ∀ p, ¬ CouldHold pb p → SFm.used pb bs a p = a.m.arch p := by
    intro p hp
    have : ¬ bs.overlap pb p = true := fun h => hp (SFm.could_of_overlap S hB h)
    simp [SFm.used, this]
  have : ∃ rib, List.Forall₂ (SameButAt pb.arch.inT (CouldHold pb)) rule.ib rib ∧ List.Forall₂ (IM.EntryR pb { a.m with arch := SFm.used pb bs a }) ib rib := by
    clear * - hF S hX
    generalize rule.ib = rib0 at hF
    induction hF with
    | nil => exact ⟨[], .nil, .nil⟩
    | cons h _ ih =>
      obtain ⟨rib, h1, h2⟩ := ih
      obtain ⟨e'', g1, g2⟩ := SFm.entry_at h (CouldHold pb) (SFm.used pb bs a) S.arch_in.1 hX
      exact ⟨e'' :: rib, .cons g2 h1, .cons g1 h2⟩
  obtain ⟨rib, h1, h2⟩ := this
  exact ⟨⟨rib, rule.ob⟩, rfl, h1, SFm.core_const S hc hB (hsat _ a ha) hs hl hib hob m1 m2 m3 h2⟩

namespace InM
variable {B K : Type} [DecidableEq B] {P : Process} {pb : MapPb B K} {fi fa : Fn B} {inW : K → List Nat} {k0 : Key} {instT : Ty} {iin iout din dout : Fields}

/-- The search does not raise. -/
theorem simple_any [DecidableEq K] (hs : ConstProblem pb k0 instT iin iout din dout) (S : Setup P pb.ir pb.arch fi fa inW) (hT : Total P pb.arch) (hTb : TotalBoxes pb.arch inW)
    (hl : ∀ r p c ms n, RHas instT r → isValidAV P.asm (mkAV instT (rawCode instT r)) = .ok true → (p, Ty.enum c ms, n) ∈ rawLeaves instT r →
      isValidAV P.asm (mkAV (.enum c ms) n) = .ok true)
    (hne : ∀ q c ms, [q] ∈ pb.irConst → (q, Ty.enum c ms) ∉ iin.toList)
    (solve : (SAsg B → Prop) → Option (SAsg B)) (hsat : ∀ φ a, solve φ = some a → φ a) (a0 : SAsg B) :
    (∃ r, simpleSolve P.asm pb solve a0 = .ok (some r)) ∨
    (simpleSolve P.asm pb solve a0 = .ok none ∧
      (mapBindings P.asm pb true = .ok none ∨ ∃ bs, mapBindings P.asm pb true = .ok (some bs) ∧ solve (simpleSat P.asm pb bs) = none)) := by
  obtain ⟨ci, eIn⟩ := hs.ir_in
  obtain ⟨co, eOut⟩ := hs.ir_out
  obtain ⟨ca, aIn⟩ := hs.arch_in
  obtain ⟨cb, aOut⟩ := hs.arch_out
  have hso : leafTypes pb.ir.outT [] ≠ [] := by
    have := S.ir_out.2.1
    rw [eOut] at this ⊢
    simp only [leafTypes, InM.flat_types hs.iout_flat]
    intro h
    exact this.1 (List.map_eq_nil_iff.mp h)
  have hcl := InM.const_cons_leaves hs
  have hu : UnionFree pb.ir.inT := by rw [eIn]; exact InM.free_flat hs.iin_flat
  have fli : Flat pb.ir.outT := by rw [eOut]; exact InM.flat_prod hs.iout_flat
  have fla : Flat pb.arch.outT := by rw [aOut]; exact InM.flat_prod hs.dout_flat
  have hk : ∃ k t, (k, t) ∈ pb.arch.inT.fieldDict ∧ [k] ∈ pb.archConst := ⟨k0, instT, by simp [aIn, Ty.fieldDict, Fields.toList], by simp [hs.arch_const]⟩
  rcases SFm.solve_any P pb fi fa inW S hT hTb hu fli fla hso hcl hk solve hsat a0 with h | h | ⟨_, p, c, ms, _, h2, ⟨q, h3, h4⟩ | ⟨vs, n, h3, h4, h5, h6⟩⟩
  · exact .inl h
  · exact .inr h
  · rw [eIn] at h4
    simp only [leafTypes, InM.flat_types hs.iin_flat, List.mem_map, Prod.mk.injEq] at h4
    obtain ⟨⟨k, t⟩, hk, rfl, rfl⟩ := h4
    exact absurd hk (hne k c ms ((InM.ir_const_iff hs).mp h3))
  · rw [InM.leaves_checked_consts S hs hl vs p c ms n h3 h4 h5 h2] at h6
    cases h6

end InM

open Classical in
/-- C55 for IR instructions with `Const` inputs, without the assumption that an instruction has one leaf of the type of such an input: with a sound and complete solver, a search
with `simple_formula=True` returns a rule exactly if the architecture can compute the IR instruction; but the rule is only correct after changing some of its constants, those for
leaves of the instruction that have the type of a `Const` IR input. -/
theorem C55_instruction_consts_partial {B K : Type} [DecidableEq B] [DecidableEq K] (P : Process) (pb : MapPb B K) (fi fa : Fn B) (inW : K → List Nat) (k0 : Key) (instT : Ty)
    (iin iout din dout : Fields) (hs : ConstProblem pb k0 instT iin iout din dout) (S : Setup P pb.ir pb.arch fi fa inW) (hT : Total P pb.arch) (hTb : TotalBoxes pb.arch inW)
    (hl : ∀ r p c ms n, RHas instT r → isValidAV P.asm (mkAV instT (rawCode instT r)) = .ok true → (p, Ty.enum c ms, n) ∈ rawLeaves instT r →
      isValidAV P.asm (mkAV (.enum c ms) n) = .ok true)
    (hne : ∀ q c ms, [q] ∈ pb.irConst → (q, Ty.enum c ms) ∉ iin.toList)
    (hv : ∀ inst inst' src x, RHas instT inst → isValidAV P.asm (mkAV instT (rawCode instT inst)) = .ok true → Feeds pb k0 instT iin din inst src → Holds k0 instT src x inst inst' →
      isValidAV P.asm (mkAV instT (rawCode instT inst')) = .ok true)
    (solve : (SAsg B → Prop) → Option (SAsg B)) (hsat : ∀ φ a, solve φ = some a → φ a) (hcomp : ∀ φ a, φ a → ∃ a', solve φ = some a') (a0 : SAsg B) :
    (CanComputeConsts P.asm pb fi fa k0 instT iin iout din dout → ∃ r, simpleSolve P.asm pb solve a0 = .ok (some r) ∧
      ∃ r', r'.ob = r.ob ∧ List.Forall₂ (SameButAt pb.arch.inT (CouldHold pb)) r.ib r'.ib ∧ IsMapping P.asm pb r' ∧ RuleCorrect pb.ir pb.arch fi fa r') ∧
    (¬ CanComputeConsts P.asm pb fi fa k0 instT iin iout din dout → simpleSolve P.asm pb solve a0 = .ok none) := by
  obtain ⟨ci, eIn⟩ := hs.ir_in
  obtain ⟨co, eOut⟩ := hs.ir_out
  obtain ⟨ca, aIn⟩ := hs.arch_in
  obtain ⟨cb, aOut⟩ := hs.arch_out
  have hso : leafTypes pb.ir.outT [] ≠ [] := by
    have := S.ir_out.2.1
    rw [eOut] at this ⊢
    simp only [leafTypes, InM.flat_types hs.iout_flat]
    intro h
    exact this.1 (List.map_eq_nil_iff.mp h)
  have hcl := InM.const_cons_leaves hs
  have hu : UnionFree pb.ir.inT := by rw [eIn]; exact InM.free_flat hs.iin_flat
  have fli : Flat pb.ir.outT := by rw [eOut]; exact InM.flat_prod hs.iout_flat
  have fla : Flat pb.arch.outT := by rw [aOut]; exact InM.flat_prod hs.dout_flat
  have hk : ∃ k t, (k, t) ∈ pb.arch.inT.fieldDict ∧ [k] ∈ pb.archConst := ⟨k0, instT, by simp [aIn, Ty.fieldDict, Fields.toList], by simp [hs.arch_const]⟩
  have hsound := fun r h => C55_sound_up_to_places_partial P pb fi fa inW (VF.setup0 S) (fun p cs h => (hcl p cs h).1) solve hsat a0 r h
  have key := InM.simple_any hs S hT hTb hl hne solve hsat a0
  constructor
  · rintro ⟨inst, src, out, h1, h2, h3, h4⟩
    obtain ⟨hM, hC, hV⟩ := InM.rule_of_choice_consts S hs h1 h2 h3 h4
    rcases C55_complete_partial P pb fi fa inW S hT hTb hu fli fla hso hcl hs.cons_once hk solve hsat hcomp a0 _ hM hC
      (fun ri vs hR => hV ri vs hR (fun x inst' hh => hv inst inst' src x h1 h2 h4.1 hh)) with ⟨r, h⟩ | ⟨h, _⟩
    · exact ⟨r, h, hsound r h⟩
    · rcases key with ⟨r, h'⟩ | ⟨h', _⟩
      · exact ⟨r, h', hsound r h'⟩
      · rw [h] at h'; cases h'
  · intro hc
    rcases key with ⟨r, h⟩ | ⟨h, _⟩
    · obtain ⟨r', _, _, hM, hC⟩ := hsound r h
      exact absurd ((InM.mapping_iff_consts S hs).mp ⟨r', hM, hC⟩) hc
    · exact h

namespace SFm
variable {B K : Type} [DecidableEq B] {P : Process} {pb : MapPb B K} {fi fa : Fn B} {inW : K → List Nat} {bs : Bdgs}

/-- The formula does not read the original variables of leaves that are quantified both ways. -/
theorem formula_congr [DecidableEq K] (hin : WF pb.arch.inT ∧ Buildable pb.arch.inT) (a : SAsg B) (w : RPath → Nat) (hw : ∀ p, bs.overlap pb p = false → w p = a.m.arch p) :
    simpleFormula P.asm pb bs { a with m := { a.m with arch := w } } = simpleFormula P.asm pb bs a := by
  obtain ⟨r1, h1, _⟩ := SF.forms_ok P a.m.arch a.m.archTag pb.arch.inT hin.1 hin.2 []
  obtain ⟨r2, h2, _⟩ := SF.forms_ok P w a.m.archTag pb.arch.inT hin.1 hin.2 []
  have e : r2.forms.length = r1.forms.length := (forms_length hin.1 hin.2 h2).trans (forms_length hin.1 hin.2 h1).symm
  have hsub : subArch pb bs r2.forms.length { a with m := { a.m with arch := w } } = subArch pb bs r1.forms.length a := by
    funext p
    rw [e]
    simp only [subArch]
    cases ho : bs.overlap pb p with
    | true => rfl
    | false => simp [hw p ho]
  simp only [simpleFormula, h1, h2, bind, Except.bind, hsub]
  rw [e]
  rfl

theorem sat_congr [DecidableEq K] (hin : WF pb.arch.inT ∧ Buildable pb.arch.inT) {a : SAsg B} (h : simpleSat P.asm pb bs a) (w : RPath → Nat)
    (hw : ∀ p, bs.overlap pb p = false → w p = a.m.arch p) : simpleSat P.asm pb bs { a with m := { a.m with arch := w } } := by
  intro b hb
  have h' := h { b with m := { b.m with arch := fun p => if bs.overlap pb p then a.m.arch p else b.m.arch p } } ⟨hb.fi, hb.ib, hb.ob, hb.ir, hb.irTag, ?_, hb.archTag, hb.archE, hb.archA⟩
  · rw [← h']
    refine (formula_congr hin b _ ?_).symm
    intro p hp
    simp [hp]
  · intro p hp
    show (if bs.overlap pb p then a.m.arch p else b.m.arch p) = a.m.arch p
    cases ho : bs.overlap pb p with
    | true => simp
    | false =>
      have h1 := hb.arch p hp
      simp only [Bool.false_eq_true, if_false]
      exact h1.trans (hw p ho)

theorem constIs_unique {c c' : RConst} {t : Ty} {n : Nat} (h : ConstIs c t n) (h' : ConstIs c' t n) : c' = c := by
  cases c with
  | bits b =>
    cases c' with
    | bits b' => exact congrArg _ (BV.ext (h'.2.1.trans h.2.1.symm) (h'.2.2.trans h.2.2.symm))
    | bit b' => exact absurd h'.1 (by rintro ⟨x, hx⟩; exact h.1 x hx)
  | bit b =>
    cases c' with
    | bits b' => exact absurd h.1 (by rintro ⟨x, hx⟩; exact h'.1 x hx)
    | bit b' =>
      have := h'.2.trans h.2.symm
      cases b <;> cases b' <;> simp_all

/-- The entry for another assignment, which differs in `X` only. -/
theorem entry_replaced {m : MAsg B} {e : Option RPath × RPath} {e' e'' : RSrc × RPath} {X : RPath → Prop} {w w' : RPath → Nat} (hin : WF pb.arch.inT) (h : IM.EntryR pb m e e')
    (h' : IM.EntryR pb { m with arch := w' } e e'') (h0 : ∀ p, ¬ X p → w' p = m.arch p) (h1 : ∀ p, X p → w' p = w p) : Replaced pb X w e' e'' := by
  refine ⟨h'.1.trans h.1.symm, ?_⟩
  have hp : e'.2 = e.2 := h.1
  rcases h.2 with ⟨q, g1, g2⟩ | ⟨g1, g2, c, t, g3, g4, g5⟩ | ⟨g1, g2, g3, g4⟩
  · left
    rcases h'.2 with ⟨q', k1, k2⟩ | ⟨k1, _⟩ | ⟨k1, _⟩
    · rw [g1] at k1
      cases k1
      exact ⟨.inr (by rw [g2]; simp), k2.trans g2.symm⟩
    · rw [g1] at k1; cases k1
    · rw [g1] at k1; cases k1
  · rcases h'.2 with ⟨q', k1, k2⟩ | ⟨_, _, c', t', k3, k4, k5⟩ | ⟨_, k2, k3, _⟩
    · rw [g1] at k1; cases k1
    · by_cases hX : X e'.2
      · refine .inr ⟨hX, ⟨c, g3⟩, c', t', k3, hp ▸ k4, ?_⟩
        simp only at k5
        rwa [h1 _ (hp ▸ hX), ← hp] at k5
      · refine .inl ⟨.inl hX, ?_⟩
        simp only at k5
        rw [h0 _ (hp ▸ hX)] at k5
        obtain rfl : t' = t := (Prod.ext_iff.mp (List.inj_on_of_nodup_map (VF.types_nodup _ hin) k4 g4 rfl)).2
        rw [g3, k3, constIs_unique g5 k5]
    · rcases g2 with g2 | g2
      · rw [g2] at k2; cases k2
      · exact absurd g2 k3
  · left
    rcases h'.2 with ⟨q', k1, k2⟩ | ⟨_, k2, _⟩ | ⟨_, _, _, k4⟩
    · rw [g1] at k1; cases k1
    · rcases k2 with k2 | k2
      · rw [g2] at k2; cases k2
      · exact absurd k2 g3
    · exact ⟨.inr (by rw [g4]; simp), k4.trans g4.symm⟩

end SFm

namespace InM
variable {B K : Type} [DecidableEq B] {P : Process} {pb : MapPb B K} {fi fa : Fn B} {inW : K → List Nat} {k0 : Key} {instT : Ty} {iin iout din dout : Fields}

open Classical in
/-- Another solver returns the rule with other constants in the leaves that are quantified both ways. -/
theorem replaced [DecidableEq K] (hs : ConstProblem pb k0 instT iin iout din dout) (S : Setup P pb.ir pb.arch fi fa inW) (hT : Total P pb.arch) (hTb : TotalBoxes pb.arch inW)
    (hl : ∀ r p c ms n, RHas instT r → isValidAV P.asm (mkAV instT (rawCode instT r)) = .ok true → (p, Ty.enum c ms, n) ∈ rawLeaves instT r →
      isValidAV P.asm (mkAV (.enum c ms) n) = .ok true)
    (hne : ∀ q c ms, [q] ∈ pb.irConst → (q, Ty.enum c ms) ∉ iin.toList)
    {solve : (SAsg B → Prop) → Option (SAsg B)} (hsat : ∀ φ a, solve φ = some a → φ a) (hcomp : ∀ φ a, φ a → ∃ a', solve φ = some a') {a0 : SAsg B} {r : RRule}
    (h : simpleSolve P.asm pb solve a0 = .ok (some r)) (w : RPath → Nat) :
    ∃ (bs : Bdgs) (i bi : Nat) (l : List Bdg) (ib : Bdg), mapBindings P.asm pb true = .ok (some bs) ∧ bs.ins[i]? = some l ∧ l[bi]? = some ib ∧ (∃ m, List.Forall₂ (IM.EntryR pb m) ib r.ib) ∧
      ∃ solve' : (SAsg B → Prop) → Option (SAsg B), (∀ φ a, solve' φ = some a → φ a) ∧ (∀ φ a, φ a → ∃ a', solve' φ = some a') ∧
        ∃ r', simpleSolve P.asm pb solve' a0 = .ok (some r') ∧ r'.ob = r.ob ∧ List.Forall₂ (Replaced pb (fun p => bs.overlap pb p = true) w) r.ib r'.ib := by
  obtain ⟨bs, a, hbs, ha, hr⟩ := SFm.solve_inv h
  obtain ⟨i, bi, bo, s, l, ib, ob, h1, h2, h3, h4, m1, m2, m3, h5, h6⟩ := IM.rule_inv S.arch_in hr
  let w' : RPath → Nat := fun p => if bs.overlap pb p then w p else a.m.arch p
  let a' : SAsg B := { a with m := { a.m with arch := w' } }
  have ha' : simpleSat P.asm pb bs a' := SFm.sat_congr S.arch_in (hsat _ _ ha) w' (fun p hp => by simp [w', hp])
  let solve' : (SAsg B → Prop) → Option (SAsg B) := fun φ => if φ = simpleSat P.asm pb bs then some a' else solve φ
  have hsat' : ∀ φ a, solve' φ = some a → φ a := by
    intro φ x hx
    simp only [solve'] at hx
    split at hx
    · next e => cases hx; rw [e]; exact ha'
    · exact hsat _ _ hx
  have hcomp' : ∀ φ a, φ a → ∃ a', solve' φ = some a' := by
    intro φ x hx
    simp only [solve']
    split
    · exact ⟨_, rfl⟩
    · exact hcomp _ _ hx
  have hsolve : solve' (simpleSat P.asm pb bs) = some a' := by simp [solve']
  refine ⟨bs, i, bi, l, ib, hbs, h2, h3, ⟨_, h6⟩, solve', hsat', hcomp', ?_⟩
  rcases simple_any hs S hT hTb hl hne solve' hsat' a0 with ⟨r', h'⟩ | ⟨_, h' | ⟨bs', hb, h'⟩⟩
  · refine ⟨r', h', ?_⟩
    obtain ⟨bs', x, hbs', hx, hr'⟩ := SFm.solve_inv h'
    rw [hbs] at hbs'
    cases hbs'
    rw [hsolve] at hx
    cases hx
    obtain ⟨i', bi', bo', s', l', ib', ob', h1', h2', h3', h4', m1', m2', m3', h5', h6'⟩ := IM.rule_inv S.arch_in hr'
    obtain rfl := IM.match_unique m1 m1'
    obtain rfl := IM.match_unique m2 m2'
    obtain rfl := IM.match_unique m3 m3'
    rw [h2] at h2'
    cases h2'
    rw [h3] at h3'
    cases h3'
    rw [h4] at h4'
    cases h4'
    refine ⟨h5'.trans h5.symm, ?_⟩
    have h0 : ∀ p, ¬ bs.overlap pb p = true → w' p = a.m.arch p := fun p hp => by simp [w', hp]
    have h1 : ∀ p, bs.overlap pb p = true → w' p = w p := fun p hp => by simp [w', hp]
    clear * - h6 h6' S h0 h1
    generalize r.ib = rib at h6
    generalize r'.ib = rib' at h6'
    induction h6 generalizing rib' with
    | nil => cases h6'; exact .nil
    | cons h _ ih =>
      cases h6' with
      | cons h' t => exact .cons (SFm.entry_replaced S.arch_in.1 h h' h0 h1) (ih _ t)
  · rw [hbs] at h'
    cases h'
  · rw [hbs] at hb
    cases hb
    rw [hsolve] at h'
    cases h'

end InM

end Peak
