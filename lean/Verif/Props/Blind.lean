import Verif.Spec.Blind
import Verif.Props.Validator
import Verif.Props.Assembler
/-!
# C05, C11: types whose validator accepts every bit pattern, whatever was built before
-/

namespace Peak
open Peak.Spec

namespace Bl

/-- Assemblers of blind types accept everything. -/
def All (st : St) : Prop := ∀ p ∈ st.icache, WF p.1 → Blind p.1 → ∀ b, p.2.isv b = true

theorem cached_all {t : Ty} {make : St → Except Err AsmObj × St} {st : St} (hS : All st) (h1 : All (make st).2)
    (h2 : ∀ o, (make st).1 = .ok o → WF t → Blind t → ∀ b, o.isv b = true) :
    All (cached t make st).2 ∧ ∀ o, (cached t make st).1 = .ok o → WF t → Blind t → ∀ b, o.isv b = true := by
  unfold cached
  cases hl : st.icache.lookup t with
  | some o =>
    refine ⟨hS, fun o' ho hw hb => ?_⟩
    cases ho
    exact hS (t, o) (mem_of_lookup hl) hw hb
  | none =>
    simp only
    generalize make st = m at *
    obtain ⟨r, st'⟩ := m
    cases r with
    | error e => exact ⟨h1, fun o ho => by cases ho⟩
    | ok o =>
      refine ⟨?_, fun o' ho => h2 o' ho⟩
      intro p hp hw hb
      rcases List.mem_cons.1 hp with hp | hp
      · subst hp
        exact h2 o rfl hw hb
      · exact h1 p hp hw hb

theorem rows_all : ∀ (l : List (Key × AsmObj)) (base : Nat), (∀ p ∈ l, ∀ b, p.2.isv b = true) → ∀ r ∈ tupleRows l base, ∀ b, r.obj.isv b = true
  | [], _, _, r, hr, _ => by simp [tupleRows] at hr
  | (k, o) :: l, base, h, r, hr, b => by
    simp only [tupleRows, List.mem_cons] at hr
    rcases hr with rfl | hr
    · exact h (k, o) (by simp) b
    · exact rows_all l _ (fun p hp => h p (by simp [hp])) r hr b

theorem fold_all (b : BV) : ∀ (l : List Row), (∀ r ∈ l, ∀ b, r.obj.isv b = true) → l.foldl (fun acc r => acc && r.obj.isValid (b.slice r.lo r.hi)) true = true
  | [], _ => rfl
  | r :: l, h => by
    simp only [List.foldl_cons, AsmObj.isValid, h r (by simp), Bool.and_self]
    exact fold_all b l (fun r hr => h r (by simp [hr]))

mutual
theorem build_all : ∀ (t : Ty) (st : St), SInv Env.any st → All st → All (t.build st).2 ∧ ∀ o, (t.build st).1 = .ok o → WF t → Blind t → ∀ b, o.isv b = true
  | .bv c w, st, _, hS => by
    unfold Ty.build
    exact cached_all hS hS (fun o ho _ _ b => by cases ho; rfl)
  | .bit c, st, _, hS => by
    unfold Ty.build
    exact cached_all hS hS (fun o ho _ _ b => by cases ho; rfl)
  | .enum c ms, st, hI, hS => by
    unfold Ty.build
    refine cached_all hS hS ?_
    intro o ho hw hb b
    obtain ⟨a, ha, hne, hm, hnd, _⟩ := enum_request (ms := ms) hw
    have hdv : dictValues a.asm [] ≠ [] := by
      cases h : a.asm with
      | nil => exact absurd h hne
      | cons p l => obtain ⟨k, v⟩ := p; simp [dictValues]
    obtain ⟨isv, vc', g1, _, ⟨w', g3, _⟩, _⟩ := request Env.any (w := bitLength (listMax (dictValues a.asm []))) hI.1 hdv (reqs_any (.enum c ms) a ha hne)
    have hsr : SeveralRanges (dictValues a.asm []) :=
      (severalRanges_congr (fun x => by rw [hm, List.mem_dedup]) hnd (List.nodup_dedup _)).mpr hb
    simp only [enumObj, ha, if_neg hne, g1] at ho
    cases ho
    simp only [g3]
    rw [pureV_multi (isMultiB_several hnd hsr)]
    rfl
  | .prod c fs, st, hI, hS => by
    unfold Ty.build
    obtain ⟨h1, h2⟩ := fields_all fs st hI hS
    refine cached_all hS ?_ ?_
    · generalize fs.build st = m at *
      obtain ⟨r, st'⟩ := m
      cases r <;> exact h1
    · intro o ho hw hb b
      generalize fs.build st = m at *
      obtain ⟨r, st'⟩ := m
      cases r with
      | error e => cases ho
      | ok l =>
        cases ho
        refine fold_all b _ (rows_all _ _ ?_)
        intro p hp
        obtain ⟨x, hx, rfl⟩ := List.mem_map.mp hp
        exact h2 l rfl hw.2 hb x hx
  | .sum c fs, st, hI, hS => by
    unfold Ty.build
    obtain ⟨h1, _⟩ := fields_all fs st hI hS
    refine cached_all hS ?_ (fun _ _ _ hb => hb.elim)
    generalize fs.build st = m at *
    obtain ⟨r, st'⟩ := m
    cases r <;> exact h1
theorem fields_all : ∀ (fs : Fields) (st : St), SInv Env.any st → All st →
    All (fs.build st).2 ∧ ∀ l, (fs.build st).1 = .ok l → WFs fs → Blinds fs → ∀ p ∈ l, ∀ b, p.2.2.isv b = true
  | .nil, st, _, hS => by
    unfold Fields.build
    exact ⟨hS, fun l hl _ _ p hp => by cases hl; cases hp⟩
  | .cons k t fs, st, hI, hS => by
    unfold Fields.build
    obtain ⟨h1, h2⟩ := build_all t st hI hS
    have hI' := (build_inv Env.any t st (reqs_any t) hI).1
    generalize t.build st = m at *
    obtain ⟨r, st'⟩ := m
    cases r with
    | error e => exact ⟨h1, fun l hl => by cases hl⟩
    | ok o =>
      obtain ⟨h3, h4⟩ := fields_all fs st' hI' h1
      simp only
      generalize fs.build st' = m at *
      obtain ⟨r, st''⟩ := m
      cases r with
      | error e => exact ⟨h3, fun l hl => by cases hl⟩
      | ok l =>
        refine ⟨h3, fun l' hl hw hb p hp => ?_⟩
        cases hl
        rcases List.mem_cons.mp hp with rfl | hp
        · exact h2 o rfl hw.1 hb.1
        · exact h4 l rfl hw.2 hb.2 p hp
end

theorem history_all (hist : List Ty) : All (runHistory hist) := by
  unfold runHistory
  suffices H : ∀ (hist : List Ty) (st : St), SInv Env.any st → All st → All (hist.foldl (fun st t => (t.build st).2) st) by
    refine H hist {} ⟨by intro e he; simp at he, by simp⟩ ?_
    intro p hp
    cases hp
  intro hist
  induction hist with
  | nil => intro st _ hS; exact hS
  | cons t hist ih =>
    intro st hI hS
    rw [List.foldl_cons]
    exact ih _ (build_inv Env.any t st (reqs_any t) hI).1 (build_all t st hI hS).1

end Bl

/-- C05 fails for every type without unions whose enums have codes in several ranges: whatever was built before, `is_valid` accepts every bit pattern. -/
theorem C05_violated_blind (hist : List Ty) (t : Ty) (hw : WF t) (hb : Blind t) : ∃ o, assemblerAfter hist t = .ok o ∧ ∀ b, o.isValid b = true := by
  obtain ⟨o, ho⟩ := assemblerAfter_ok hist t hw
  exact ⟨o, ho, (Bl.build_all t _ (runHistory_inv Env.any hist (fun t _ => reqs_any t)) (Bl.history_all hist)).2 o ho hw hb⟩

/-- The opcode enum of `examples/PE_lut`, with the codes 1, 2 and 6, is such a type: 3 is accepted, but disassembling it fails. -/
example (hist : List Ty) : ∃ o, assemblerAfter hist (.enum 30 [.lit 1, .lit 2, .lit 6]) = .ok o ∧ o.isValid (BV.ofNat 3 3) = true ∧ ∀ v, o.disassemble (BV.ofNat 3 3) ≠ .ok v := by
  have hs : SeveralRanges (enumCodes [.lit 1, .lit 2, .lit 6]).dedup := by
    have e : (enumCodes [.lit 1, .lit 2, .lit 6]).dedup = [1, 2, 6] := by decide +kernel
    rw [e]
    refine ⟨by decide, by decide, ?_, by decide⟩
    intro hh
    rcases hh 6 (by decide) with h | ⟨i, hi⟩
    · omega
    · rcases i with _ | _ | _ | i
      · omega
      · omega
      · omega
      · have := Nat.two_pow_pos i; rw [Nat.pow_succ, Nat.pow_succ, Nat.pow_succ] at hi; omega
  have hw : WF (.enum 30 [.lit 1, .lit 2, .lit 6]) := by simp [WF, autos]
  obtain ⟨o, ho, hv⟩ := C05_violated_blind hist _ hw hs
  refine ⟨o, ho, hv _, ?_⟩
  intro v hd
  have hr := (build_any hist _ hw (build_of_after ho)).disassemble_sound (by decide +kernel) hd
  have hh := reads_has _ _ _ hr
  cases v with
  | enum e =>
    simp only [Ty.Has, List.mem_cons, List.not_mem_nil, or_false] at hh
    simp only [Reads] at hr
    rcases hh with rfl | rfl | rfl <;> exact absurd hr (by decide +kernel)
  | _ => simp [Reads] at hr

end Peak
