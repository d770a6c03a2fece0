import Verif.Props.SimpleFormula
import Verif.Lemmas.WordIr
import Verif.Spec.Verify
import Verif.Model.ConstPe
/-!
# Early outs of the mapper (`peak/mapper/mapper.py:504-521`, `tests/test_aadt_mapping.py:310-371`)
-/

namespace Peak
open Peak.Spec

/-- C33, C55: if some IR input has no architecture input of its type which is `Const` exactly when it is and has no constraint, or some IR output has no architecture output of its type, there are
no bindings and the result is `None`, whatever the solver does: it is not asked.  The architecture need not have a `Const` input. -/
theorem C33_early_out {B K : Type} [DecidableEq B] [DecidableEq K] (P : Process) (pb : MapPb B K) (fi fa : Fn B) (inW : K → List Nat) (S : Setup P pb.ir pb.arch fi fa inW)
    (hT : Total P pb.arch) (hu : UnionFree pb.ir.inT) (hc : ∀ p cs, (p, cs) ∈ pb.cons → ∃ t, (p, t) ∈ leafTypes pb.arch.inT [])
    (hno : (∃ q t, (q, t) ∈ leafTypes pb.ir.inT [] ∧ ∀ p, (p, t) ∈ leafTypes pb.arch.inT [] → ¬ (IsConst pb.irConst q ↔ IsConst pb.archConst p) ∨ ∃ cs, (p, cs) ∈ pb.cons) ∨
      ∃ q t, (q, t) ∈ leafTypes pb.ir.outT [] ∧ ∀ p, (p, t) ∉ leafTypes pb.arch.outT []) :
    (pb.ir.bbs = [] → pb.arch.bbs = [] → mapBindings P.asm pb = .ok none ∧ ∀ solve a0, mapSolve P.asm pb solve a0 = .ok none) ∧
    mapBindings P.asm pb true = .ok none ∧ ∀ solve a0, simpleSolve P.asm pb solve a0 = .ok none := by
  have hno' : (∀ s ∈ RF.skels pb.arch.inT, IM.formB pb s = []) ∨ createBindings (leafTypes pb.arch.outT []) (leafTypes pb.ir.outT []) = [] := by
    rcases hno with ⟨q, t, hq, h⟩ | ⟨q, t, hq, h⟩
    · left
      intro s hs
      apply List.eq_nil_iff_forall_not_mem.mpr
      intro b hb
      have hok := IM.formB_ok S.ir_in.1 S.arch_in.1 (IM.skels_mem_has (P := P) S.arch_in.1 S.arch_in.2 hs) hb
      obtain ⟨⟨o, p⟩, he, ho⟩ := List.mem_filterMap.mp (hok.once.symm.subset (List.mem_map.mpr ⟨(q, t), hq, rfl⟩))
      simp only at ho
      subst ho
      obtain ⟨h1, h2, t', h3, h4⟩ := hok.typed q p he
      have ht : t' = t := VF.eq_of_fst (VF.types_nodup _ S.ir_in.1) h3 hq
      subst ht
      rcases h p h4 with h | ⟨cs, h⟩
      · exact h (by rw [← IM.constAt_iff, ← IM.constAt_iff, h2])
      · exact h1 (List.mem_map.mpr ⟨_, h, rfl⟩)
    · right
      exact C28_none _ _ q t hq h
  have hc' : ∀ c ∈ pb.cons, c.1 ∈ (leafTypes pb.arch.inT []).map (·.1) := by
    rintro ⟨p, cs⟩ h
    obtain ⟨t, ht⟩ := hc p cs h
    exact List.mem_map.mpr ⟨_, ht, rfl⟩
  have ht := IM.bindings_none' S hT hu true (by simp) hc' hno'
  refine ⟨fun h1 h2 => ?_, ht, fun solve a0 => by simp only [simpleSolve, ht]⟩
  have hf := IM.bindings_none S hT hu h1 h2 hc' hno'
  exact ⟨hf, fun solve a0 => by simp only [mapSolve, hf]⟩

namespace EO

theorem word_total (P : Process) (w n : Nat) (f : List (BitVec w) → BitVec w) : Spec.Total P (wordIr w n f) :=
  ⟨8, _, 9, _, rfl, rfl, fun _ _ _ => ⟨[.leaf _], ⟨BitVec.isLt _, trivial⟩, WIr.new_word P w _, trivial⟩⟩

/-- The lowest bit on raw inputs. -/
def lowFn (w : Nat) : Fn Nat := fun r _ => match r with
  | .prod vs => (.prod [.leaf (((vs.map (WIr.leafWord w))[0]?.getD 0).getLsbD 0).toNat], [])
  | r => (r, [])

theorem bit_new (P : Process) (b : Bool) : AV.new P.asm (.bit 0) (.asm (.bit b)) = .ok (mkAV (.bit 0) b.toNat) := by
  cases b <;> rfl

theorem low_computes (P : Process) (w : Nat) : Computes P (lowBit w) (lowFn w) := by
  refine ⟨8, _, 9, _, rfl, rfl, ?_⟩
  intro vs bb h
  refine ⟨_, rfl, ⟨Bool.toNat_lt _, trivial⟩, ?_, rfl⟩
  simp only [lowBit]
  rw [WIr.words_dict w 1 1 vs h]
  exact ⟨bit_new P _, trivial⟩

theorem low_total (P : Process) (w : Nat) : Spec.Total P (lowBit w) :=
  ⟨8, _, 9, _, rfl, rfl, fun _ _ _ => ⟨[.leaf _], ⟨Bool.toNat_lt _, trivial⟩, bit_new P _, trivial⟩⟩

theorem word_in {w m : Nat} (hw : 0 < w) (hm : 0 < m) : WF (.prod 8 (wordFields w 1 m)) ∧ Buildable (.prod 8 (wordFields w 1 m)) := by
  refine ⟨⟨WIr.fields_nodup w 1 m, WIr.fields_wf w 1 m⟩, ?_, .inl ?_, WIr.fields_build w 1 m⟩
  · intro h
    have : (1, Ty.bv 0 w) ∈ (wordFields w 1 m).toList := WIr.fields_mem.mpr ⟨Nat.le_refl _, by omega, rfl⟩
    rw [h] at this
    cases this
  · rintro ⟨k, t⟩ hk
    obtain ⟨_, _, rfl⟩ := WIr.fields_mem.mp hk
    exact hw

/-- C68: `test_early_out_inputs`, for words of any width, any functions of any numbers of words and any solver: there are no bindings and no rule. -/
theorem C68_early_out_inputs (P : Process) (w : Nat) (hw : 0 < w) (enc : IEnc) (n : Nat) (hn : 0 < n) (f : List (BitVec w) → BitVec w) (m : Nat) (hm : 0 < m) (g : List (BitVec w) → BitVec w) :
    (mapBindings P.asm (inputsPb w enc n f m g) = .ok none ∧ ∀ solve a0, mapSolve P.asm (inputsPb w enc n f m g) solve a0 = .ok none) ∧
    mapBindings P.asm (inputsPb w enc n f m g) true = .ok none ∧ ∀ solve a0, simpleSolve P.asm (inputsPb w enc n f m g) solve a0 = .ok none := by
  have S : Setup P (wordIr w n f) (wordIr w m g) (WIr.wordFn w f) (WIr.wordFn w g) (fun _ => [1]) := by
    refine WIr.setup w n f hw hn (WIr.computes P w m g) (word_in hw hm) ⟨⟨by simp [Fields.toList], trivial, trivial⟩, ⟨by simp [Fields.toList], .inr rfl, trivial, trivial⟩, trivial, trivial⟩ rfl
      (fun r bb _ => ?_) rfl
    simp only [WIr.wordFn]
    split <;> rfl
  have key := C33_early_out P (inputsPb w enc n f m g) _ _ _ S (word_total P w m g) (WIr.fields_free w 1 n) (by simp [inputsPb])
    (.inl ⟨[1], .bv 0 w, ?_, fun p _ => .inl (by simp [inputsPb, IsConst])⟩)
  · exact ⟨key.1 rfl rfl, key.2⟩
  · simp only [inputsPb, wordIr, leafTypes, InM.flat_types (WIr.fields_flat w 1 n)]
    exact List.mem_map.mpr ⟨(1, .bv 0 w), WIr.fields_mem.mpr ⟨Nat.le_refl _, by omega, rfl⟩, rfl⟩

/-- C68: `test_early_out_outputs`, for words of any width, any function and any solver. -/
theorem C68_early_out_outputs (P : Process) (w : Nat) (hw : 0 < w) (enc : IEnc) (f : List (BitVec w) → BitVec w) :
    (mapBindings P.asm (outputsPb w enc f) = .ok none ∧ ∀ solve a0, mapSolve P.asm (outputsPb w enc f) solve a0 = .ok none) ∧
    mapBindings P.asm (outputsPb w enc f) true = .ok none ∧ ∀ solve a0, simpleSolve P.asm (outputsPb w enc f) solve a0 = .ok none := by
  have S : Setup P (wordIr w 1 f) (lowBit w) (WIr.wordFn w f) (lowFn w) (fun _ => [1]) := by
    refine WIr.setup w 1 f hw (by decide) (low_computes P w) (word_in hw (by decide)) ⟨⟨by simp [Fields.toList], trivial, trivial⟩, ⟨by simp [Fields.toList], .inr rfl, trivial, trivial⟩, trivial, trivial⟩ rfl
      (fun r bb _ => ?_) rfl
    simp only [lowFn]
    split <;> rfl
  have key := C33_early_out P (outputsPb w enc f) _ _ _ S (low_total P w) (WIr.fields_free w 1 1) (by simp [outputsPb])
    (.inr ⟨[0], .bv 0 w, by simp [outputsPb, wordIr, leafTypes, leafTypesF], by simp [outputsPb, lowBit, leafTypes, leafTypesF]⟩)
  exact ⟨key.1 rfl rfl, key.2⟩

end EO
end Peak
