import Verif.Props.SmtForms
import Verif.Props.Verify
import Verif.Props.IRMapper
import Verif.Props.SimpleFormula
/-!
# C32 for a given value, and outputs with unions

`SMTForms` called with a value.  The value is given by its encoding `n`, of which only the bits that `v` uses matter (`Reads`).
-/

namespace Peak
open Peak.Spec

namespace ValF

mutual
theorem spells_reads {ρ τ : RPath → Nat} : ∀ (t : Ty), WF t → ∀ (p : RPath) (n : Nat) (v : Val), Reads t n v →
    (∀ q, ρ (p ++ q) = bitsAt t n q) → (∀ q, τ (p ++ q) = tagAt t n q) → Spells ρ τ t p v
  | .bv c w, _, p, n, v, h, hρ, _ => by
    have h0 : ρ p = n := by simpa [bitsAt] using hρ []
    cases v <;> simp only [Reads] at h
    subst h
    simp [Spells, h0, encode, width, BV.ofNat_val]
  | .bit c, _, p, n, v, h, hρ, _ => by
    have h0 : ρ p = n := by simpa [bitsAt] using hρ []
    cases v <;> simp only [Reads] at h
    simp [Spells, h0, encode, width, h]
  | .enum c ms, _, p, n, v, h, hρ, _ => by
    have h0 : ρ p = n := by simpa [bitsAt] using hρ []
    cases v <;> simp only [Reads] at h
    simp [Spells, h0, encode, width, h]
  | .prod c fs, hw, p, n, v, h, hρ, hτ => by
    cases v <;> simp only [Reads] at h
    next vs =>
      simp only [Spells]
      exact spellsAll_reads fs hw.1 hw.2 p n vs h (fun k _ q => by rw [List.append_assoc, hρ]; simp [bitsAt])
        (fun k _ q => by rw [List.append_assoc, hτ]; simp [tagAt])
  | .sum c fs, hw, p, n, v, h, hρ, hτ => by
    cases v <;> simp only [Reads] at h
    next k v =>
      obtain ⟨t, hi, hr⟩ := (readsAt_iff fs _ k _ v).mp h
      have hm := List.mem_of_getElem? hi
      simp only [Spells]
      refine ⟨?_, ?_⟩
      · rw [optionIndex_of_get hw.2.1 hi]
        have : τ p = n % 2 ^ tagBits fs.toList.length := by simpa [tagAt] using hτ []
        rw [this, Nat.mod_mod]
      · refine spellsAt_reads fs hw.2.1 hw.2.2 p _ k v t hm hr (fun q => by rw [List.append_assoc, hρ]; simp [bitsAt])
          (fun q => by rw [List.append_assoc, hτ]; simp [tagAt])
theorem spellsAll_reads {ρ τ : RPath → Nat} : ∀ (fs : Fields), (fs.toList.map (·.1)).Nodup → WFs fs → ∀ (p : RPath) (n : Nat) (vs : List Val), ReadsAll fs n vs →
    (∀ k ∈ fs.toList.map (·.1), ∀ q, ρ (p ++ [k] ++ q) = bitsAtF fs n k q) → (∀ k ∈ fs.toList.map (·.1), ∀ q, τ (p ++ [k] ++ q) = tagAtF fs n k q) →
    SpellsAll ρ τ fs p vs
  | .nil, _, _, p, n, vs, h, _, _ => by cases vs <;> simp_all [ReadsAll, SpellsAll]
  | .cons k t fs, hn, hw, p, n, vs, h, hρ, hτ => by
    cases vs with
    | nil => simp [ReadsAll] at h
    | cons v vs =>
      simp only [Fields.toList, List.map_cons, List.nodup_cons] at hn
      refine ⟨spells_reads t hw.1 (p ++ [k]) (n % 2 ^ width t) v ((reads_mod t n _ v (Nat.le_refl _)).mpr h.1)
          (fun q => by rw [hρ k (by simp [Fields.toList])]; simp [bitsAtF]) (fun q => by rw [hτ k (by simp [Fields.toList])]; simp [tagAtF]),
        spellsAll_reads fs hn.2 hw.2 p _ vs h.2 (fun k' hk q => ?_) (fun k' hk q => ?_)⟩
      · have hne : k' ≠ k := by rintro rfl; exact hn.1 hk
        rw [hρ k' (by simp only [Fields.toList, List.map_cons]; exact List.mem_cons_of_mem _ hk)]; simp [bitsAtF, hne]
      · have hne : k' ≠ k := by rintro rfl; exact hn.1 hk
        rw [hτ k' (by simp only [Fields.toList, List.map_cons]; exact List.mem_cons_of_mem _ hk)]; simp [tagAtF, hne]
theorem spellsAt_reads {ρ τ : RPath → Nat} : ∀ (fs : Fields), (fs.toList.map (·.1)).Nodup → WFs fs → ∀ (p : RPath) (n : Nat) (k : Key) (v : Val) (t : Ty),
    (k, t) ∈ fs.toList → Reads t n v → (∀ q, ρ (p ++ [k] ++ q) = bitsAtO fs n k q) → (∀ q, τ (p ++ [k] ++ q) = tagAtO fs n k q) → SpellsAt ρ τ fs p k v
  | .nil, _, _, _, _, _, _, _, h, _, _, _ => by simp [Fields.toList] at h
  | .cons k' t' fs, hn, hw, p, n, k, v, t, hm, hr, hρ, hτ => by
    simp only [Fields.toList, List.map_cons, List.nodup_cons, List.mem_cons, Prod.mk.injEq] at hn hm
    by_cases hk : k = k'
    · subst hk
      have ht : t = t' := by
        rcases hm with hm | hm
        · exact hm.2
        · exact absurd (List.mem_map_of_mem (f := (·.1)) hm) hn.1
      subst ht
      simp only [SpellsAt, if_true]
      exact spells_reads t hw.1 (p ++ [k]) (n % 2 ^ width t) v ((reads_mod t n _ v (Nat.le_refl _)).mpr hr)
        (fun q => by rw [hρ]; simp [bitsAtO]) (fun q => by rw [hτ]; simp [tagAtO])
    · simp only [SpellsAt, if_neg hk]
      refine spellsAt_reads fs hn.2 hw.2 p n k v t ?_ hr (fun q => by rw [hρ]; simp [bitsAtO, hk]) (fun q => by rw [hτ]; simp [tagAtO, hk])
      rcases hm with hm | hm
      · exact absurd hm.1 hk
      · exact hm
end

theorem filter_keys {g : SForm → Bool} {g' : SForm → Bool} (hg : ∀ f f', fkey f = fkey f' → g f = g' f') : ∀ {l l' : List SForm}, l.map fkey = l'.map fkey →
    (l.filter g).map fkey = (l'.filter g').map fkey
  | [], [], _ => rfl
  | [], _ :: _, h => by simp at h
  | _ :: _, [], h => by simp at h
  | f :: l, f' :: l', h => by
    simp only [List.map_cons, List.cons.injEq] at h
    have ih := filter_keys hg h.2
    simp only [List.filter_cons, hg f f' h.1]
    split
    · simp [h.1, ih]
    · exact ih

/-! ### `TaggedUnion`s -/

mutual
theorem val_tagged (P : Process) (tu : Nat → Bool) : ∀ (t : Ty), WF t → Buildable t → ¬ NoTagged tu t → ∀ (p : RPath) (n : Nat), n < 2 ^ width t →
    valForms P.asm tu t p (mkAV t n) = .error .keyError
  | .bv _ _, _, _, h, _, _, _ => by simp [NoTagged] at h
  | .bit _, _, _, h, _, _, _ => by simp [NoTagged] at h
  | .enum _ _, _, _, h, _, _, _ => by simp [NoTagged] at h
  | .prod c fs, hw, hb, h, p, n, hn => by
    have := fields_tagged P tu fs hw.2 hb.2.2 h p (mkAV (.prod c fs) n) (fun k t hk => by
      obtain ⟨m, a1, a2, _⟩ := get_num P hw hn hk
      exact ⟨m, a1, a2⟩)
    simp only [valForms, isOf_mkAV, if_true, this]
  | .sum c fs, hw, hb, h, p, n, hn => by
    have := opts_tagged P tu c fs hw hb n hn (BV.ofNat (tagBits fs.toList.length) n) rfl p fs hw.2.2 hb.2.2
      (by intro e; rw [e] at hb; simp [Buildable, Fields.toList] at hb) h (fun _ hk => hk)
    simp only [valForms, isOf_mkAV, if_true, tag_num P hw hn, this]
theorem fields_tagged (P : Process) (tu : Nat → Bool) : ∀ (fs : Fields), WFs fs → Buildables fs → ¬ NoTaggeds tu fs → ∀ (p : RPath) (x : AV),
    (∀ k t, (k, t) ∈ fs.toList → ∃ m, m < 2 ^ width t ∧ x.get P.asm k = .ok (mkAV t m)) → valFields P.asm tu x fs p = .error .keyError
  | .nil, _, _, h, _, _, _ => by simp [NoTaggeds] at h
  | .cons k t fs, hw, hb, h, p, x, hx => by
    obtain ⟨m, h1, h2⟩ := hx k t (by simp [Fields.toList])
    by_cases ht : NoTagged tu t
    · obtain ⟨r, r', h3, _, _⟩ := val_same P tu (fun q => bitsAt t m (q.drop (p ++ [k]).length)) (fun q => tagAt t m (q.drop (p ++ [k]).length)) t hw.1 hb.1 ht (p ++ [k]) m h1
        (fun q => by simp only [List.drop_left]) (fun q => by simp only [List.drop_left])
      have := fields_tagged P tu fs hw.2 hb.2 (fun hf => h ⟨ht, hf⟩) p x (fun k' t' hk => hx k' t' (by simp [Fields.toList, hk]))
      simp only [valFields, h2, h3, this]
    · simp only [valFields, h2, val_tagged P tu t hw.1 hb.1 ht (p ++ [k]) m h1]
theorem opts_tagged (P : Process) (tu : Nat → Bool) (c : Nat) (full : Fields) (hwf : WF (.sum c full)) (hbf : Buildable (.sum c full)) (n : Nat)
    (hn : n < 2 ^ width (.sum c full)) (tag : BV) (htag : tag.size = tagBits full.toList.length) (p : RPath) : ∀ (fs : Fields), WFs fs → Buildables fs →
    fs ≠ .nil → ¬ (tu c = false ∧ NoTaggeds tu fs) → (∀ kt ∈ fs.toList, kt ∈ full.toList) →
    valOptions P.asm tu (mkAV (.sum c full) n) (.sum c full) (tu c) tag fs p = .error .keyError
  | .nil, _, _, hne, _, _ => absurd rfl hne
  | .cons k t fs, hw, hb, _, h, hsub => by
    cases hc : tu c with
    | true => simp [valOptions]
    | false =>
      have hk := hsub (k, t) (by simp [Fields.toList])
      obtain ⟨m, b, h1, h2, _⟩ := option_num P hwf hn hk
      by_cases ht : NoTagged tu t
      · obtain ⟨r, r', h3, h4, h5⟩ := val_same P tu (fun q => bitsAt t m (q.drop (p ++ [k]).length)) (fun q => tagAt t m (q.drop (p ++ [k]).length)) t hw.1 hb.1 ht (p ++ [k]) m h1
          (fun q => by simp only [List.drop_left]) (fun q => by simp only [List.drop_left])
        obtain ⟨m', hm', hv⟩ := h5.typed
        have hx := SF.fromOption_bits P hwf hbf hk hm' htag
        obtain ⟨f0, hget⟩ := SF.getOption_bits P hwf hk hm' htag
        have hf : ¬ NoTaggeds tu fs := fun hf => h ⟨hc, ht, hf⟩
        have := opts_tagged P tu c full hwf hbf n hn tag htag p fs hw.2 hb.2 (by rintro rfl; simp [NoTaggeds] at hf)
          (fun hh => hf hh.2) (fun kt hkt => hsub kt (by simp [Fields.toList, hkt]))
        rw [hc] at this
        simp only [valOptions, Bool.false_eq_true, if_false, h2, h3, hv, hx, hget, this]
      · simp only [valOptions, Bool.false_eq_true, if_false, h2, val_tagged P tu t hw.1 hb.1 ht (p ++ [k]) m h1]
end

end ValF

/-- The value is an instance of the assembled class: a bit, a vector of the size, or a value of the class itself. -/
def InstanceOf : Ty → AV → Prop
  | .bit _, x => ∃ b, x = .bit b
  | .bv _ w, x => ∃ b, x = .bits b ∧ b.size = w
  | t, x => ∃ b, x = .adt t b

/-- C32: a value that is not an instance of the class is refused. -/
theorem C32_wrong_type (A : Ty → Except Err AsmObj) (tu : Nat → Bool) (t : Ty) (p : RPath) (x : AV) (h : ¬ InstanceOf t x) : valForms A tu t p x = .error .assertionError := by
  have hi : x.isOf t = false := by
    cases t <;> cases x <;> simp_all [AV.isOf, InstanceOf]
    all_goals (rintro rfl; exact h _ rfl)
  cases t <;> simp [valForms, hi]

/-- C32 for a given value, for types without `TaggedUnion`s: exactly one of the forms of the value has all its match conditions true.  It has the choices
and the leaves of the value, with the value's bits, and the full term denotes the value.  Missing: the types excluded by `Buildable` and the
`TaggedUnion`s (see `C32_violated_tagged`). -/
theorem C32_value_partial (P : Process) (tu : Nat → Bool) (t : Ty) (hw : WF t) (hb : Buildable t) (ht : NoTagged tu t) (v : Val) (n : Nat) (hn : n < 2 ^ width t)
    (hr : Reads t n v) :
    ∃ r, valForms P.asm tu t [] (mkAV t n) = .ok r ∧ AV.asBv r.value = BV.ofNat (width t) (encode t v) ∧
      ∃ f, r.forms.filter (formMatches r.varmap) = [f] ∧ f.leaves = leaves t [] v ∧ f.pathDict = decisions t [] v := by
  have hv := reads_has t n v hr
  obtain ⟨r, r', h1, h2, h3⟩ := ValF.val_same P tu (bitsAt t n) (tagAt t n) t hw hb ht [] n hn (fun _ => rfl) (fun _ => rfl)
  obtain ⟨r'', g1, f', g2, g3, g4, g5, g6⟩ := C32_one_form_partial P t hw hb _ _ v hv (ValF.spells_reads t hw [] n v hr (fun _ => rfl) (fun _ => rfl))
  rw [h2] at g1
  cases g1
  have h4 := ValF.filter_keys (g := formMatches r.varmap) (g' := formMatches r'.varmap)
    (fun f f' h => by simp only [ValF.fkey, Prod.mk.injEq] at h; simp only [formMatches, h3.varmap, h.1]) h3.forms
  rw [g2] at h4
  obtain ⟨f, hf⟩ := List.length_eq_one_iff.mp (show (r.forms.filter (formMatches r.varmap)).length = 1 by simpa using congrArg List.length h4)
  rw [hf] at h4
  simp only [List.map_cons, List.map_nil, ValF.fkey, List.cons.injEq, Prod.mk.injEq] at h4
  exact ⟨r, h1, by rw [h3.value]; exact g6, f, hf, by rw [h4.1.2, g3], by rw [h4.1.1, g4]⟩

/-- In particular for the value built by the constructor from a Python value `v`. -/
theorem C32_constructed_value_partial (P : Process) (tu : Nat → Bool) (t : Ty) (hw : WF t) (hb : Buildable t) (ht : NoTagged tu t) (v : Val) (hv : t.Has v) :
    ∃ x r, AV.new P.asm t (.raw v) = .ok x ∧ valForms P.asm tu t [] x = .ok r ∧ AV.asBv r.value = BV.ofNat (width t) (encode t v) ∧
      ∃ f, r.forms.filter (formMatches r.varmap) = [f] ∧ f.leaves = leaves t [] v ∧ f.pathDict = decisions t [] v := by
  obtain ⟨h1, h2⟩ := encode_spec t hw v hv
  obtain ⟨r, h3⟩ := C32_value_partial P tu t hw hb ht v _ h1 h2
  exact ⟨_, r, new_raw P hw hv, h3⟩

example : ∃ r, valForms (Process.asm ⟨fun _ => []⟩) (fun _ => false) exForms [] (mkAV exForms (encode exForms exFormsVal)) = .ok r ∧
    r.forms.length = 2 ∧ (r.forms.filter (formMatches r.varmap)).length = 1 := by
  have hw : WF exForms := by simp [exForms, WF, WFs, Fields.toList]
  have hv : exForms.Has exFormsVal := by simp [exForms, exFormsVal, Ty.Has, Fields.HasAll, Fields.HasAt, BV.ofNat]
  have hb : Buildable exForms := by simp [exForms, Buildable, Buildables, Fields.toList, width, sumWidths, maxWidth, tagBits]
  obtain ⟨h1, h2⟩ := encode_spec exForms hw exFormsVal hv
  obtain ⟨r, h3, _, f, h4, _⟩ := C32_value_partial ⟨fun _ => []⟩ (fun _ => false) exForms hw hb (by simp [exForms, NoTagged, NoTaggeds]) exFormsVal _ h1 h2
  exact ⟨r, h3, ValF.val_count _ _ _ _ _ _ h3, by rw [h4]; rfl⟩

/-- The code violates C32 for every type with a `TaggedUnion` inside, and every value of it: the forms of a given value are never built, the call raises a
KeyError. -/
theorem C32_violated_tagged (P : Process) (tu : Nat → Bool) (t : Ty) (hw : WF t) (hb : Buildable t) (ht : ¬ NoTagged tu t) (n : Nat) (hn : n < 2 ^ width t) :
    valForms P.asm tu t [] (mkAV t n) = .error .keyError :=
  ValF.val_tagged P tu t hw hb ht [] n hn

example : WF exForms ∧ Buildable exForms ∧ ¬ NoTagged (fun c => c == 1) exForms := by
  refine ⟨by simp [exForms, WF, WFs, Fields.toList], by simp [exForms, Buildable, Buildables, Fields.toList, width, sumWidths, maxWidth, tagBits], ?_⟩
  simp [exForms, NoTagged, NoTaggeds]

/-! ## outputs with unions -/

/-- The mapper does not map outputs with unions: when the output of the IR instruction or of the architecture has a union inside, neither kind of `solve`
returns, with a rule or without; a NotImplementedError or an earlier exception is raised. -/
theorem C33_union_outputs {B K : Type} [DecidableEq B] [DecidableEq K] (P : Process) (pb : MapPb B K) (hi : WF pb.ir.outT ∧ Buildable pb.ir.outT)
    (ha : WF pb.arch.outT ∧ Buildable pb.arch.outT) (hu : ¬ (UnionFree pb.ir.outT ∧ UnionFree pb.arch.outT)) :
    (∀ solve a0 r, mapSolve P.asm pb solve a0 ≠ .ok r) ∧ (∀ solve a0 r, simpleSolve P.asm pb solve a0 ≠ .ok r) := by
  constructor
  · intro solve a0 r h
    unfold mapSolve at h
    cases hb : mapBindings P.asm pb with
    | error e => rw [hb] at h; cases h
    | ok bs => exact hu (IM.bindings_outs hi ha hb)
  · intro solve a0 r h
    unfold simpleSolve at h
    cases hb : mapBindings P.asm pb true with
    | error e => rw [hb] at h; cases h
    | ok bs => exact hu (IM.bindings_outs hi ha hb)

/-- An 8-bit number in one of two options. -/
def uSum : Ty := .sum 9 (.cons 2 (.bv 0 8) (.cons 3 (.bv 0 8) .nil))
def uOut : Fields := .cons 1 uSum .nil

/-- A function that returns its input in option `k`. -/
def uObj (k : Key) (j : Nat) : PeakObj Nat Nat where
  inT := .prod 0 vIn1
  outT := .prod 1 uOut
  bbs := []
  bbOutW := fun _ => [1]
  run := fun d _ => match d with
    | [(_, .bits x)] => ([mkAV uSum (j + 2 * x.val)], [])
    | _ => ([], [])

def uFn (k : Key) : Fn Nat := fun r _ => match r with
  | .prod [.leaf n] => (.prod [.sum k (.leaf n)], [])
  | r => (r, [])

theorem uSetup (P : Process) : Setup0 P (uObj 2 0) (uObj 3 1) (uFn 2) (uFn 3) (fun _ => [1]) := by
  have leaf8 : ∀ r, RHas (.bv 0 8) r → ∃ n, r = .leaf n ∧ n < 256 := by
    intro r h
    cases r <;> simp [RHas, width] at h
    exact ⟨_, rfl, h⟩
  have hs : WF uSum := by simp [uSum, WF, WFs, Fields.toList]
  have hws : width uSum = 9 := by simp [uSum, width, maxWidth, Fields.toList]; decide
  have ht : tagBits 2 = 1 := by decide
  have run : ∀ k j, (k = 2 ∧ j = 0 ∨ k = 3 ∧ j = 1) → Computes P (uObj k j) (uFn k) := by
    intro k j hkj
    refine ⟨0, vIn1, 1, uOut, rfl, rfl, ?_⟩
    intro vs bb h
    simp only [uObj, vIn1, RHas] at h
    match vs, h with
    | [v], h =>
      obtain ⟨n, rfl, hn⟩ := leaf8 v h.1
      refine ⟨[.sum k (.leaf n)], rfl, ?_, ⟨?_, trivial⟩, rfl⟩
      · rcases hkj with ⟨rfl, rfl⟩ | ⟨rfl, rfl⟩ <;> simp [uObj, uOut, uSum, RHas, RHasAll, RHasAt, width, hn]
      · have e : rawCode uSum (.sum k (.leaf n)) = j + 2 * n := by
          rcases hkj with ⟨rfl, rfl⟩ | ⟨rfl, rfl⟩ <;> simp [uSum, rawCode, rawCodeAt, optionIndex, Fields.toList, ht]
        have e' : (BV.ofNat 8 n).val = n := Nat.mod_eq_of_lt hn
        rw [e]
        have := new_asm P hs (j + 2 * (BV.ofNat 8 n).val)
        rw [e'] at this
        show AV.new P.asm uSum (.asm (mkAV uSum (j + 2 * (BV.ofNat 8 n).val))) = _
        rw [e']
        exact this
  have hin : WF (.prod 0 vIn1) ∧ Buildable (.prod 0 vIn1) := ⟨by simp [vIn1, WF, WFs, Fields.toList], by simp [vIn1, Buildable, Buildables, Fields.toList]⟩
  have hout : WF (.prod 1 uOut) ∧ Buildable (.prod 1 uOut) :=
    ⟨by simp [uOut, uSum, WF, WFs, Fields.toList], by simp [uOut, uSum, Buildable, Buildables, Fields.toList, width]⟩
  have hbox : ∀ k j, BoxesOk (uObj k j) (uFn k) (fun _ => [1]) := by
    intro k j
    refine ⟨by simp [uObj], by simp, by simp [uObj], fun r bb h => ⟨?_, by simp [uObj]⟩⟩
    simp only [uFn, uObj, List.map_nil]
    split <;> rfl
  exact ⟨run 2 0 (by simp), run 3 1 (by simp), hin, hin, hout, hout, hbox _ _, hbox _ _, rfl⟩

/-- The input to the input, the number of option 2 to that of option 2. -/
def uRule : RRule := ⟨[(.path [0], [0])], [(some [1, 2], [1, 2])]⟩

/-- The code violates C36 for outputs with unions: the IR instruction returns its input in option 2, the architecture returns it in option 3, and
the rule binds the number in option 2 to the number in option 2.  The architecture never returns an option 2, but `verify` with a
complete solver returns `None`: the tags are not compared. -/
theorem C36_violated_variant (P : Process) (solve : (VAsg Nat → Bool) → Option (VAsg Nat)) (hsat : ∀ φ a, solve φ = some a → φ a = true)
    (hunsat : ∀ φ, solve φ = none → ∀ a, φ a = false) (a0 : VAsg Nat) :
    Setup0 P (uObj 2 0) (uObj 3 1) (uFn 2) (uFn 3) (fun _ => [1]) ∧ RuleFits (uObj 2 0).inT (uObj 3 1).inT (uObj 2 0).outT (uObj 3 1).outT uRule ∧
    verify P.asm solve (uObj 2 0) (uObj 3 1) uRule a0 = .ok none ∧ ¬ RuleCorrect (uObj 2 0) (uObj 3 1) (uFn 2) (uFn 3) uRule ∧
    ∀ n bb, (uFn 2 (.prod [.leaf n]) bb).1 = .prod [.sum 2 (.leaf n)] ∧ (uFn 3 (.prod [.leaf n]) bb).1 = .prod [.sum 3 (.leaf n)] := by
  have hR : Related (uObj 2 0).inT (uObj 3 1).inT uRule.ib (.prod [.leaf 7]) (.prod [.leaf 7]) := by
    refine ⟨by simp [uObj, vIn1, RHas, RHasAll, width], by simp [uObj, vIn1, RHas, RHasAll, width], ?_, ?_, ?_⟩
    · simp [uObj, vIn1, rawLeaves, rawLeavesAll, uRule]
    · simp [uObj, vIn1, rawLeaves, rawLeavesAll, uRule, irSources]
    · intro e he
      simp only [uRule, List.mem_cons, List.not_mem_nil, or_false] at he
      subst he
      exact ⟨.bv 0 8, 7, by simp [uObj, vIn1, rawLeaves, rawLeavesAll], .bv 0 8, by simp [uObj, vIn1, rawLeaves, rawLeavesAll], rfl⟩
  have hF : RuleFits (uObj 2 0).inT (uObj 3 1).inT (uObj 2 0).outT (uObj 3 1).outT uRule := by
    refine ⟨⟨_, _, hR⟩, ⟨[1, 2], [1, 2], by simp [uRule]⟩, ?_⟩
    intro q p h
    simp only [uRule, List.mem_cons, List.not_mem_nil, or_false, Prod.mk.injEq, Option.some.injEq] at h
    obtain ⟨rfl, rfl⟩ := h
    exact ⟨.bv 0 8, .bv 0 8, by simp [uObj, uOut, uSum, leafTypes, leafTypesF], by simp [uObj, uOut, uSum, leafTypes, leafTypesF], rfl⟩
  refine ⟨uSetup P, hF, ?_, ?_, fun n bb => ⟨rfl, rfl⟩⟩
  · obtain ⟨res, h1, h2, _⟩ := C36_verify_places_partial P _ _ _ _ _ (uSetup P) (by simp [uObj, uOut, uSum, NoTagged, NoTaggeds])
      (by simp [uObj, uOut, uSum, NoTagged, NoTaggeds]) uRule hF solve hsat hunsat a0
    rw [h1, h2.mpr ?_]
    intro ri ra h F ρi ρa _ _ q p hq
    simp only [uRule, List.mem_cons, List.not_mem_nil, or_false, Prod.mk.injEq, Option.some.injEq] at hq
    obtain ⟨rfl, rfl⟩ := hq
    have g1 := h.ir
    have g2 := h.arch
    have leaf8 : ∀ r, RHas (.bv 0 8) r → ∃ n, r = .leaf n := by
      intro r h
      cases r <;> simp [RHas] at h
      exact ⟨_, rfl⟩
    cases ri with
    | leaf _ => simp [uObj, RHas] at g1
    | sum _ _ => simp [uObj, RHas] at g1
    | prod vs =>
      cases ra with
      | leaf _ => simp [uObj, RHas] at g2
      | sum _ _ => simp [uObj, RHas] at g2
      | prod ws =>
        simp only [uObj, vIn1, RHas] at g1 g2
        match vs, g1, ws, g2 with
        | [v], g1, [w], g2 =>
          obtain ⟨n, rfl⟩ := leaf8 v g1.1
          obtain ⟨m, rfl⟩ := leaf8 w g2.1
          obtain ⟨t, n', e1, u, e2, _⟩ := h.entries (.path [0], [0]) (by simp [uRule])
          have c1 : n' = m := by simp [uObj, vIn1, rawLeaves, rawLeavesAll] at e1; exact e1.2
          have c2 : n' = n := by simp [uObj, vIn1, rawLeaves, rawLeavesAll] at e2; exact e2.2
          subst c1 c2
          have ht : tagBits 2 = 1 := by decide
          simp [uFn, uObj, uOut, uSum, bitsAt, bitsAtF, bitsAtO, rawCode, rawCodeAll, rawCodeAt, optionIndex, Fields.toList, width, maxWidth, ht]
          omega
  · intro h
    obtain ⟨t, u, m, _, e2⟩ := h _ _ hR (fun _ _ => []) (fun _ _ => 0) (fun _ _ => 0) (by intro b k i o hb; simp [uObj] at hb) (by intro b k i o hb; simp [uObj] at hb)
      [1, 2] [1, 2] (by simp [uRule])
    simp [uFn, uObj, uOut, uSum, rawLeaves, rawLeavesAll, rawLeavesAt] at e2

/-- Both sides of `C33_union_outputs` and the hypotheses of `C36_verify_places_partial` occur. -/
example : ¬ (UnionFree (uObj 2 0).outT ∧ UnionFree (uObj 3 1).outT) ∧ NoTagged (uObj 2 0).tagged (uObj 2 0).outT := by
  simp [uObj, uOut, uSum, UnionFree, UnionFrees, NoTagged, NoTaggeds]

end Peak
