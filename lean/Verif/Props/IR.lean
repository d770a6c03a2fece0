import Verif.Model.IR
import Mathlib.Data.List.Nodup
/-!
# C41, C49: the IR table and the generated instructions
-/

namespace Peak

namespace IRp

theorem lookup_append {β : Type} (l m : List (String × β)) (n : String) :
    (l ++ m).lookup n = match l.lookup n with | some v => some v | none => m.lookup n := by
  induction l with
  | nil => rfl
  | cons p l ih =>
    obtain ⟨k, v⟩ := p
    by_cases h : n = k
    · subst h; simp
    · simp only [List.cons_append, List.lookup, beq_eq_false_iff_ne.mpr h, ih]

end IRp

/-- C41: adding under a name already present raises ValueError and leaves the table unchanged; otherwise the name now denotes the added
closure and every other lookup is as before. -/
theorem C41_add {φ : Type} (table : List (String × φ)) (name : String) (fc : φ) :
    (∀ f, table.lookup name = some f → irAdd table name fc = (.error .valueError, table)) ∧
    (table.lookup name = none →
      (irAdd table name fc).1 = .ok () ∧ (irAdd table name fc).2.lookup name = some fc ∧
      ∀ other, other ≠ name → (irAdd table name fc).2.lookup other = table.lookup other) := by
  refine ⟨fun f h => by simp [irAdd, h], fun h => ?_⟩
  simp only [irAdd, h]
  refine ⟨trivial, by simp [IRp.lookup_append, h], fun o ho => ?_⟩
  rw [IRp.lookup_append]
  cases table.lookup o with
  | some v => rfl
  | none => simp [List.lookup, beq_eq_false_iff_ne.mpr ho]

/-- C41 over sequences of additions to an empty table: a name denotes the closure it was first added with, exactly the first additions
succeed, and the names in the table stay distinct. -/
theorem C41_history {φ : Type} (adds : List (String × φ)) :
    (∀ n, (irAddAll [] adds).2.lookup n = adds.lookup n) ∧
    (((irAddAll [] adds).2).map (·.1)).Nodup ∧
    (∀ (i : Nat) (n : String) (f : φ), adds[i]? = some (n, f) →
      (irAddAll [] adds).1[i]? = some (if n ∈ (adds.take i).map (·.1) then .error .valueError else .ok ())) := by
  have mem_lookup : ∀ (l : List (String × φ)) (n : String), n ∈ l.map (·.1) ↔ l.lookup n ≠ none := by
    intro l n
    induction l with
    | nil => simp
    | cons p l ih =>
      obtain ⟨k, v⟩ := p
      by_cases h : n = k
      · subst h; simp
      · simp only [List.map_cons, List.mem_cons, h, false_or, ih, List.lookup, beq_eq_false_iff_ne.mpr h]
  have key : ∀ (adds t : List (String × φ)), (t.map (·.1)).Nodup →
      (∀ n, (irAddAll t adds).2.lookup n = (t ++ adds).lookup n) ∧
      (((irAddAll t adds).2).map (·.1)).Nodup ∧
      (∀ (i : Nat) (n : String) (f : φ), adds[i]? = some (n, f) →
        (irAddAll t adds).1[i]? = some (if n ∈ (t ++ adds.take i).map (·.1) then .error .valueError else .ok ())) := by
    intro adds
    induction adds with
    | nil => intro t ht; exact ⟨fun n => by simp [irAddAll], ht, by simp⟩
    | cons a adds ih =>
      intro t ht
      obtain ⟨n0, f0⟩ := a
      cases hl : t.lookup n0 with
      | some g =>
        have hadd : irAdd t n0 f0 = (.error .valueError, t) := by simp [irAdd, hl]
        obtain ⟨h1, h2, h3⟩ := ih t ht
        have hin : n0 ∈ t.map (·.1) := (mem_lookup t n0).2 (by simp [hl])
        refine ⟨fun n => ?_, by simpa [irAddAll, hadd] using h2, fun i n f hi => ?_⟩
        · simp only [irAddAll, hadd, h1, IRp.lookup_append]
          cases htn : t.lookup n with
          | some v => rfl
          | none =>
            have : n ≠ n0 := by rintro rfl; rw [hl] at htn; cases htn
            simp [List.lookup, beq_eq_false_iff_ne.mpr this]
        · cases i with
          | zero =>
            simp only [List.getElem?_cons_zero, Option.some.injEq, Prod.mk.injEq] at hi
            obtain ⟨rfl, rfl⟩ := hi
            simp only [irAddAll, hadd, List.getElem?_cons_zero, List.take_zero, List.append_nil, if_pos hin]
          | succ i =>
            have := h3 i n f (by simpa using hi)
            simp only [irAddAll, hadd, List.getElem?_cons_succ, this, List.take_succ_cons]
            congr 1
            have : n ∈ (t ++ adds.take i).map (·.1) ↔ n ∈ (t ++ (n0, f0) :: adds.take i).map (·.1) := by
              simp only [List.map_append, List.mem_append, List.map_cons, List.mem_cons]
              constructor
              · rintro (h | h)
                · exact Or.inl h
                · exact Or.inr (Or.inr h)
              · rintro (h | rfl | h)
                · exact Or.inl h
                · exact Or.inl hin
                · exact Or.inr h
            exact if_congr this rfl rfl
      | none =>
        have hadd : irAdd t n0 f0 = (.ok (), t ++ [(n0, f0)]) := by simp [irAdd, hl]
        have hnin : n0 ∉ t.map (·.1) := fun hc => (mem_lookup t n0).1 hc hl
        obtain ⟨h1, h2, h3⟩ := ih (t ++ [(n0, f0)]) (by
          rw [List.map_append, List.nodup_append]
          refine ⟨ht, by simp, ?_⟩
          intro a ha b hb hab
          simp only [List.map_cons, List.map_nil, List.mem_singleton] at hb
          subst hab hb
          exact hnin ha)
        refine ⟨fun n => ?_, by simpa [irAddAll, hadd] using h2, fun i n f hi => ?_⟩
        · simp only [irAddAll, hadd, h1, List.append_assoc, List.cons_append, List.nil_append]
        · cases i with
          | zero =>
            simp only [List.getElem?_cons_zero, Option.some.injEq, Prod.mk.injEq] at hi
            obtain ⟨rfl, rfl⟩ := hi
            simp only [irAddAll, hadd, List.getElem?_cons_zero, List.take_zero, List.append_nil, if_neg hnin]
          | succ i =>
            have := h3 i n f (by simpa using hi)
            simp only [irAddAll, hadd, List.getElem?_cons_succ, this, List.take_succ_cons, List.append_assoc, List.cons_append,
              List.nil_append]
            congr 1
  simpa using key adds [] (by simp)

example : (irAddAll [] [("add", 1), ("sub", 2), ("add", 3)]) =
    ([.ok (), .ok (), .error .valueError], [("add", 1), ("sub", 2)]) := by rfl

/-! ## C49: the generated instruction class -/

/-- C49, for input names other than `self`, `family` and `_fun_` and class names other than `family` and `_fun_`: the generated class
calls the given function with the family and then the inputs in declaration order. -/
theorem C49_generated_call_partial (clsName : String) (inputs : List String) (hnd : inputs.Nodup)
    (h1 : "self" ∉ inputs) (h2 : "family" ∉ inputs) (h3 : "_fun_" ∉ inputs) (h4 : clsName ≠ "family") (h5 : clsName ≠ "_fun_") :
    genCall clsName inputs = some (some .func, some .family :: (List.range inputs.length).map (fun i => some (.input i))) := by
  have zipNone : ∀ (l : List String) (vs : List GenVal) (n : String), n ∉ l → (l.zip vs).lookup n = none := by
    intro l
    induction l with
    | nil => intro vs n _; rfl
    | cons m l ih =>
      intro vs n hn
      cases vs with
      | nil => rfl
      | cons v vs =>
        simp only [List.mem_cons, not_or] at hn
        simp only [List.zip_cons_cons, List.lookup, beq_eq_false_iff_ne.mpr hn.1]
        exact ih vs n hn.2
  have hfam : genResolve clsName inputs "family" = some .family := by
    have : (genCallScope inputs).lookup "family" = none := by
      simp only [genCallScope, List.lookup]
      exact zipNone _ _ _ h2
    simp [genResolve, this, genFcScope, List.lookup, beq_eq_false_iff_ne.mpr (Ne.symm h4)]
  have hfun : genResolve clsName inputs "_fun_" = some .func := by
    have : (genCallScope inputs).lookup "_fun_" = none := by
      simp only [genCallScope, List.lookup]
      exact zipNone _ _ _ h3
    simp [genResolve, this, genFcScope, List.lookup, beq_eq_false_iff_ne.mpr (Ne.symm h5), genGlobals]
  have hin : ∀ (l : List String) (vs : List GenVal), l.Nodup → l.length = vs.length → l.map (fun n => (l.zip vs).lookup n) = vs.map some := by
    intro l
    induction l with
    | nil => intro vs _ hl; cases vs with
      | nil => rfl
      | cons => simp at hl
    | cons m l ih =>
      intro vs hn hl
      cases vs with
      | nil => simp at hl
      | cons v vs =>
        simp only [List.nodup_cons] at hn
        simp only [List.zip_cons_cons, List.map_cons, List.lookup, beq_self_eq_true]
        congr 1
        rw [← ih vs hn.2 (by simpa using hl)]
        apply List.map_congr_left
        intro n hn'
        have : n ≠ m := by rintro rfl; exact hn.1 hn'
        simp [beq_eq_false_iff_ne.mpr this]
  have hargs : inputs.map (genResolve clsName inputs) = (List.range inputs.length).map (fun i => some (.input i)) := by
    have h := hin inputs ((List.range inputs.length).map .input) hnd (by simp)
    rw [List.map_map] at h
    show _ = (List.range inputs.length).map (some ∘ GenVal.input)
    rw [← h]
    apply List.map_congr_left
    intro n hn
    have hne : n ≠ "self" := by rintro rfl; exact h1 hn
    have hs : (genCallScope inputs).lookup n = (inputs.zip ((List.range inputs.length).map .input)).lookup n := by
      simp [genCallScope, List.lookup, beq_eq_false_iff_ne.mpr hne]
    have hx : (inputs.zip ((List.range inputs.length).map GenVal.input)).lookup n ∈ ((List.range inputs.length).map GenVal.input).map some := by
      rw [List.map_map]
      rw [← h]
      exact List.mem_map_of_mem (f := fun n => (inputs.zip ((List.range inputs.length).map GenVal.input)).lookup n) hn
    simp only [List.mem_map] at hx
    obtain ⟨v, _, hv⟩ := hx
    simp only [genResolve, hs, ← hv]
  simp [genCall, h1, hnd, hfun, hfam, hargs]

/-- C49 fails for an input called `family`: the function gets that input in place of the family. -/
theorem C49_violated_family : genCall "Add" ["family", "x"] =
    some (some .func, [some (.input 0), some (.input 0), some (.input 1)]) := by decide

/-- C49 fails for an instruction called `family` without another class name: the function gets the class in place of the family. -/
theorem C49_violated_class : genCall "family" ["x"] = some (some .func, [some .cls, some (.input 0)]) := by decide

/-- C49 fails for an input called `self`: the source does not compile. -/
theorem C49_violated_self : genCall "Add" ["self"] = none := by decide

example : genCall "Add" ["a", "b"] = some (some .func, [some .family, some (.input 0), some (.input 1)]) := by decide

end Peak
