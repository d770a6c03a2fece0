import Verif.Lemmas.AsmWidths
import Verif.Props.Assembler
/-!
# Round trips with sparse unions

`C01_round_trip_partial` and `C04_assembled_is_valid_partial` exclude unions with a sparse one-hot set of tags altogether.  Here
such unions are admitted: it is enough that the process does not use one such set at two widths.
-/

namespace Peak
open Peak.Spec

/-- C01, partial: the round trip succeeds in every process in which no sparse one-hot set of codes is used at two different
widths.
Missing: the processes that use one such set at two widths; there the property is false (`C01_violated`). -/
theorem C01_round_trip_widths_partial (hist : List Ty) (t : Ty) (v : Val) (hw : ∀ t' ∈ t :: hist, WF t')
    (hs : OneWidth (t :: hist)) (hv : t.Has v) :
    ∃ o b, assemblerAfter hist t = .ok o ∧ o.assemble v = .ok b ∧ o.disassemble b = .ok v := by
  have hwt := hw t (by simp)
  obtain ⟨o, ho⟩ := assemblerAfter_ok hist t hwt
  have hg := build_oneWidth hist t hw hs (build_of_after ho)
  obtain ⟨h1, h2⟩ := encode_spec t hwt v hv
  refine ⟨o, _, ho, hg.assemble hwt hv, hg.disassemble_complete trivial rfl ?_⟩
  rw [ofNat_val_of_lt h1]; exact h2

/-- C04, partial: in the same processes the assembled opcode is accepted. -/
theorem C04_assembled_is_valid_widths_partial (hist : List Ty) (t : Ty) (v : Val) (hw : ∀ t' ∈ t :: hist, WF t')
    (hs : OneWidth (t :: hist)) (hv : t.Has v) :
    ∃ o b, assemblerAfter hist t = .ok o ∧ o.assemble v = .ok b ∧ o.isValid b = true := by
  have hwt := hw t (by simp)
  obtain ⟨o, ho⟩ := assemblerAfter_ok hist t hwt
  have hg := build_oneWidth hist t hw hs (build_of_after ho)
  obtain ⟨h1, h2⟩ := encode_spec t hwt v hv
  refine ⟨o, _, ho, hg.assemble hwt hv, hg.accepts trivial _ v rfl ?_⟩
  rw [ofNat_val_of_lt h1]; exact h2

/-- An enum with the codes of the tags of the 2-bit options of `narrowUnion`. -/
def sparseEnum : Ty := .enum 3 [.lit 0, .lit 1, .lit 4]

theorem narrow_oneWidth : OneWidth [narrowUnion, sparseEnum, narrowUnion] := by
  have hn : ∀ S w, CodeSet narrowUnion S w → w = 3 := by
    intro S w h
    simp only [narrowUnion, Fields.ofList, CodeSet, CodeSets, or_self, false_or] at h
    obtain ⟨_, _, h⟩ := h
    rw [h]; decide +kernel
  have he : ∀ S w, CodeSet sparseEnum S w → w = 3 := by
    intro S w h
    simp only [sparseEnum, CodeSet] at h
    rw [h.2]; decide +kernel
  have : ∀ t ∈ [narrowUnion, sparseEnum, narrowUnion], ∀ S w, CodeSet t S w → w = 3 := by
    intro t ht S w h
    simp only [List.mem_cons, List.not_mem_nil, or_false] at ht
    rcases ht with rfl | rfl | rfl
    · exact hn S w h
    · exact he S w h
    · exact hn S w h
  intro t₁ h₁ t₂ h₂ S w₁ w₂ _ _ c₁ c₂
  rw [this t₁ h₁ S w₁ c₁, this t₂ h₂ S w₂ c₂]

theorem narrow_notSafe : ¬ TagSafe narrowUnion := by
  intro h
  refine h.2 (.bv 0 2) ⟨by decide +kernel, by decide +kernel, by decide +kernel, ?_⟩
  intro x hx
  have : x = 0 ∨ x = 1 ∨ x = 4 := by
    have e : tagsOf (.bv 0 2) (Fields.ofList [(0, .bv 0 2), (1, .bv 0 2), (2, .bit 0), (3, .bit 0), (4, .bv 0 2)]).toList 0
        = [0, 1, 4] := by decide +kernel
    rw [e] at hx; simpa using hx
  rcases this with rfl | rfl | rfl
  · exact Or.inl rfl
  · exact Or.inr ⟨0, rfl⟩
  · exact Or.inr ⟨2, rfl⟩

/-- A union outside the reach of `C01_round_trip_partial`, after an enum with the same codes and after itself. -/
example : ¬ TagSafe narrowUnion ∧ (∀ t' ∈ [narrowUnion, sparseEnum, narrowUnion], WF t') ∧
    OneWidth [narrowUnion, sparseEnum, narrowUnion] ∧ narrowUnion.Has (.sum 0 (.bits (BV.ofNat 2 3))) := by
  refine ⟨narrow_notSafe, ?_, narrow_oneWidth, narrow_wf.2⟩
  intro t' ht
  simp only [List.mem_cons, List.not_mem_nil, or_false] at ht
  rcases ht with rfl | rfl | rfl
  · exact narrow_wf.1
  · simp [sparseEnum, WF, enumCode, freeCode, explicitCodes, autos]
  · exact narrow_wf.1

mutual
theorem codeSet_of_tagSafe : ∀ (t : Ty), TagSafe t → ∀ S w, S.Nodup → SparseOneHotWithZero S → CodeSet t S w →
    w = bitLength (S.foldl max 0)
  | .bv _ _, _, _, _, _, _, h => h.elim
  | .bit _, _, _, _, _, _, h => h.elim
  | .enum _ ms, _, S, w, _, _, h => by
    simp only [CodeSet] at h
    rw [h.2, enumWidth, foldl_max_congr h.1]
  | .prod _ fs, hs, S, w, hn, hsp, h => codeSets_of_tagSafes fs hs S w hn hsp (by simpa only [CodeSet] using h)
  | .sum _ fs, hs, S, w, hn, hsp, h => by
    simp only [CodeSet] at h
    rcases h with h | ⟨ty, h, _⟩
    · exact codeSets_of_tagSafes fs hs.1 S w hn hsp h
    · refine absurd ?_ (hs.2 ty)
      have hp : S.Perm (tagsOf ty fs.toList 0) := (List.perm_ext_iff_of_nodup hn (tagsOf_nodup _ _)).2 h
      refine ⟨by rw [← hp.length_eq]; exact hsp.1, (h 0).1 hsp.2.1, ?_, fun x hx => hsp.2.2.2 x ((h x).2 hx)⟩
      rw [← perm_runCount h hn (tagsOf_nodup _ _)]; exact hsp.2.2.1
theorem codeSets_of_tagSafes : ∀ (fs : Fields), TagSafes fs → ∀ S w, S.Nodup → SparseOneHotWithZero S → CodeSets fs S w →
    w = bitLength (S.foldl max 0)
  | .nil, _, _, _, _, _, h => h.elim
  | .cons _ t fs, hs, S, w, hn, hsp, h => by
    simp only [CodeSets] at h
    rcases h with h | h
    · exact codeSet_of_tagSafe t hs.1 S w hn hsp h
    · exact codeSets_of_tagSafes fs hs.2 S w hn hsp h
end

/-- The condition covers all processes of `C01_round_trip_partial`. -/
theorem oneWidth_of_tagSafe (ts : List Ty) (h : ∀ t ∈ ts, TagSafe t) : OneWidth ts := by
  intro t₁ h₁ t₂ h₂ S w₁ w₂ hn hs c₁ c₂
  rw [codeSet_of_tagSafe t₁ (h t₁ h₁) S w₁ hn hs c₁, codeSet_of_tagSafe t₂ (h t₂ h₂) S w₂ hn hs c₂]

end Peak
