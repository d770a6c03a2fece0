import Verif.Model.WordIr
import Verif.Lemmas.InstMap
/-!
# IR instructions made from a function on words
-/

namespace Peak.WIr
open Peak Peak.Spec

/-- The word in a leaf. -/
def leafWord (w : Nat) : RVal → BitVec w
  | .leaf n => .ofNat w n
  | _ => 0

/-- The instruction on raw inputs. -/
def wordFn (w : Nat) (f : List (BitVec w) → BitVec w) : Fn Nat := fun r _ => match r with
  | .prod vs => (.prod [.leaf (f (vs.map (leafWord w))).toNat], [])
  | r => (r, [])

theorem fields_mem {w k : Nat} {t : Ty} : ∀ {i n : Nat}, (k, t) ∈ (wordFields w i n).toList ↔ i ≤ k ∧ k < i + n ∧ t = .bv 0 w
  | i, 0 => by simp [wordFields, Fields.toList]; omega
  | i, n + 1 => by
    simp only [wordFields, Fields.toList, List.mem_cons, Prod.mk.injEq, fields_mem (i := i + 1) (n := n)]
    constructor
    · rintro (⟨rfl, rfl⟩ | ⟨h1, h2, h3⟩)
      · exact ⟨Nat.le_refl _, by omega, rfl⟩
      · exact ⟨by omega, by omega, h3⟩
    · rintro ⟨h1, h2, h3⟩
      by_cases h : k = i
      · exact .inl ⟨h, h3⟩
      · exact .inr ⟨by omega, by omega, h3⟩

theorem fields_flat (w i n : Nat) : FlatFields (wordFields w i n) := by
  intro k t h
  obtain ⟨_, _, rfl⟩ := fields_mem.mp h
  trivial

theorem fields_nodup (w : Nat) : ∀ i n, ((wordFields w i n).toList.map (·.1)).Nodup
  | _, 0 => by simp [wordFields, Fields.toList]
  | i, n + 1 => by
    simp only [wordFields, Fields.toList, List.map_cons, List.nodup_cons]
    refine ⟨?_, fields_nodup w (i + 1) n⟩
    intro h
    obtain ⟨⟨k, t⟩, h1, h2⟩ := List.mem_map.mp h
    have := (fields_mem.mp h1).1
    simp only at h2
    subst h2
    exact absurd this (Nat.not_succ_le_self _)

theorem fields_wf (w : Nat) : ∀ i n, WFs (wordFields w i n)
  | _, 0 => trivial
  | i, n + 1 => ⟨trivial, fields_wf w (i + 1) n⟩

theorem fields_build (w : Nat) : ∀ i n, Buildables (wordFields w i n)
  | _, 0 => trivial
  | i, n + 1 => ⟨trivial, fields_build w (i + 1) n⟩

theorem fields_free (w : Nat) : ∀ i n, UnionFrees (wordFields w i n)
  | _, 0 => trivial
  | i, n + 1 => ⟨trivial, fields_free w (i + 1) n⟩

/-- The arguments hold the words of the raw values. -/
theorem words_dict (w : Nat) : ∀ (i n : Nat) (vs : List RVal), RHasAll (wordFields w i n) vs →
    (inputDict (wordFields w i n) vs).map (fun kv => wordOf w kv.2) = vs.map (leafWord w)
  | _, 0, [], _ => rfl
  | _, 0, _ :: _, h => by simp [wordFields, RHasAll] at h
  | _, _ + 1, [], h => by simp [wordFields, RHasAll] at h
  | i, n + 1, v :: vs, h => by
    obtain ⟨m, rfl, hm⟩ := (InM.leaf_has (.inl ⟨0, w, rfl⟩)).mp h.1
    have ih := words_dict w (i + 1) n vs h.2
    simp only [wordFields, inputDict, List.map_cons, ih, List.cons.injEq, and_true]
    simp only [mkAV, rawCode, wordOf, leafWord, BV.ofNat_val]
    apply BitVec.eq_of_toNat_eq
    simp

theorem new_word (P : Process) (w : Nat) (n : Nat) : AV.new P.asm (.bv 0 w) (.asm (.bits (BV.ofNat w n))) = .ok (mkAV (.bv 0 w) n) := by
  simp only [AV.new, AV.plain, mkAV, BV.ofNat_val]
  rw [VF.ofNat_mod]

theorem computes (P : Process) (w n : Nat) (f : List (BitVec w) → BitVec w) : Computes P (wordIr w n f) (wordFn w f) := by
  refine ⟨8, wordFields w 1 n, 9, .cons 0 (.bv 0 w) .nil, rfl, rfl, ?_⟩
  intro vs bb h
  refine ⟨_, rfl, ⟨BitVec.isLt _, trivial⟩, ?_, rfl⟩
  simp only [wordIr]
  rw [words_dict w 1 n vs h]
  exact ⟨new_word P w _, trivial⟩

/-- The mapper's assumptions about the instruction. -/
theorem setup {P : Process} {arch : PeakObj Nat Nat} {fa : Fn Nat} (w n : Nat) (f : List (BitVec w) → BitVec w) (hw : 0 < w) (hn : 0 < n)
    (arch_fn : Computes P arch fa) (arch_in : WF arch.inT ∧ Buildable arch.inT) (arch_out : WF arch.outT ∧ Buildable arch.outT ∧ UnionFree arch.outT)
    (hb : arch.bbs = []) (hbf : ∀ r bb, RHas arch.inT r → (fa r bb).2 = []) (hbo : arch.bbOutW = fun _ => [1]) :
    Setup P (wordIr w n f) arch (wordFn w f) fa (fun _ => [1]) := by
  refine ⟨computes P w n f, arch_fn, ⟨⟨fields_nodup w 1 n, fields_wf w 1 n⟩, ?_⟩, arch_in, ⟨⟨by simp [Fields.toList], trivial, trivial⟩, ⟨by simp [Fields.toList], .inr rfl, trivial, trivial⟩, trivial, trivial⟩, arch_out, ?_, ?_, ?_⟩
  · refine ⟨?_, .inl ?_, fields_build w 1 n⟩
    · intro h
      have : (1, Ty.bv 0 w) ∈ (wordFields w 1 n).toList := fields_mem.mpr ⟨Nat.le_refl _, by omega, rfl⟩
      rw [h] at this
      cases this
    · rintro ⟨k, t⟩ hk
      obtain ⟨_, _, rfl⟩ := fields_mem.mp hk
      exact hw
  · refine ⟨by simp [wordIr], by simp, by simp [wordIr], fun r bb h => ⟨?_, by simp [wordIr]⟩⟩
    simp only [wordIr, wordFn, List.map_nil]
    split <;> rfl
  · refine ⟨by simp [hb], by simp, by simp [hbo], fun r bb h => ⟨by simp [hbf r bb h, hb], by simp [hb]⟩⟩
  · rw [hbo]; rfl

end Peak.WIr
