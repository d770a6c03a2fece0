import Verif.Lemmas.SmtForms
/-!
# C32: the forms of an instruction type

The variables of the forms are given by their values: `ρ p` for the leaf at `p`, `τ p` for the tag of the union at `p`.  `Spells ρ τ t [] v`
(Spec/Forms) says that they spell the value `v`; `leaves`, `decisions` are the leaves and union choices of a value.
-/

namespace Peak
open Peak.Spec

namespace SF

mutual
theorem spells_congr {ρ τ ρ' τ' : RPath → Nat} : ∀ (t : Ty) (p : RPath) (v : Val), (∀ q, p <+: q → ρ q = ρ' q ∧ τ q = τ' q) →
    Spells ρ τ t p v → Spells ρ' τ' t p v
  | .prod _ fs, p, .prod vs, h, hs => by
    simp only [Spells] at hs ⊢
    exact spellsAll_congr fs p vs (fun k _ q hq => h q (prefix_of_step hq)) hs
  | .sum _ fs, p, .sum k v, h, hs => by
    simp only [Spells] at hs ⊢
    rw [← (h p (List.prefix_refl _)).2]
    exact ⟨hs.1, spellsAt_congr fs p k v (fun q hq => h q hq) hs.2⟩
  | .bv _ _, p, v, h, hs => by cases v <;> (simp only [Spells] at hs ⊢; rw [← (h p (List.prefix_refl _)).1]; exact hs)
  | .bit _, p, v, h, hs => by cases v <;> (simp only [Spells] at hs ⊢; rw [← (h p (List.prefix_refl _)).1]; exact hs)
  | .enum _ _, p, v, h, hs => by cases v <;> (simp only [Spells] at hs ⊢; rw [← (h p (List.prefix_refl _)).1]; exact hs)
  | .prod _ fs, p, .bits _, h, hs => by simp only [Spells] at hs ⊢; rw [← (h p (List.prefix_refl _)).1]; exact hs
  | .prod _ fs, p, .bit _, h, hs => by simp only [Spells] at hs ⊢; rw [← (h p (List.prefix_refl _)).1]; exact hs
  | .prod _ fs, p, .enum _, h, hs => by simp only [Spells] at hs ⊢; rw [← (h p (List.prefix_refl _)).1]; exact hs
  | .prod _ fs, p, .sum _ _, h, hs => by simp only [Spells] at hs ⊢; rw [← (h p (List.prefix_refl _)).1]; exact hs
  | .sum _ fs, p, .bits _, h, hs => by simp only [Spells] at hs ⊢; rw [← (h p (List.prefix_refl _)).1]; exact hs
  | .sum _ fs, p, .bit _, h, hs => by simp only [Spells] at hs ⊢; rw [← (h p (List.prefix_refl _)).1]; exact hs
  | .sum _ fs, p, .enum _, h, hs => by simp only [Spells] at hs ⊢; rw [← (h p (List.prefix_refl _)).1]; exact hs
  | .sum _ fs, p, .prod _, h, hs => by simp only [Spells] at hs ⊢; rw [← (h p (List.prefix_refl _)).1]; exact hs
theorem spellsAll_congr {ρ τ ρ' τ' : RPath → Nat} : ∀ (fs : Fields) (p : RPath) (vs : List Val),
    (∀ k ∈ fs.toList.map (·.1), ∀ q, (p ++ [k]) <+: q → ρ q = ρ' q ∧ τ q = τ' q) → SpellsAll ρ τ fs p vs → SpellsAll ρ' τ' fs p vs
  | .nil, _, [], _, _ => trivial
  | .nil, _, _ :: _, _, h => by simp [SpellsAll] at h
  | .cons _ _ _, _, [], _, h => by simp [SpellsAll] at h
  | .cons k t fs, p, v :: vs, h, hs =>
    ⟨spells_congr t (p ++ [k]) v (h k (by simp [Fields.toList])) hs.1,
     spellsAll_congr fs p vs (fun k' hk' => h k' (by rw [Fields.toList, List.map_cons]; exact List.mem_cons_of_mem _ hk')) hs.2⟩
theorem spellsAt_congr {ρ τ ρ' τ' : RPath → Nat} : ∀ (fs : Fields) (p : RPath) (k : Key) (v : Val),
    (∀ q, p <+: q → ρ q = ρ' q ∧ τ q = τ' q) → SpellsAt ρ τ fs p k v → SpellsAt ρ' τ' fs p k v
  | .nil, _, _, _, _, h => by simp [SpellsAt] at h
  | .cons k' t fs, p, k, v, h, hs => by
    simp only [SpellsAt] at hs ⊢
    by_cases hk : k = k'
    · rw [if_pos hk] at hs ⊢
      exact spells_congr t (p ++ [k']) v (fun q hq => h q (prefix_of_step hq)) hs
    · rw [if_neg hk] at hs ⊢
      exact spellsAt_congr fs p k v h hs
end

mutual
theorem spells_exists : ∀ (t : Ty) (p : RPath) (v : Val), WF t → t.Has v → ∃ ρ τ : RPath → Nat, Spells ρ τ t p v
  | .bv c w, p, v, hw, hv => by
    refine ⟨fun _ => encode (.bv c w) v, fun _ => 0, ?_⟩
    cases v <;> (simp only [Spells]; exact Nat.mod_eq_of_lt (encode_spec _ hw _ hv).1)
  | .bit c, p, v, hw, hv => by
    refine ⟨fun _ => encode (.bit c) v, fun _ => 0, ?_⟩
    cases v <;> (simp only [Spells]; exact Nat.mod_eq_of_lt (encode_spec _ hw _ hv).1)
  | .enum c ms, p, v, hw, hv => by
    refine ⟨fun _ => encode (.enum c ms) v, fun _ => 0, ?_⟩
    cases v <;> (simp only [Spells]; exact Nat.mod_eq_of_lt (encode_spec _ hw _ hv).1)
  | .prod c fs, p, .prod vs, hw, hv => by
    obtain ⟨ρ, τ, h⟩ := spellsAll_exists fs p vs hw.1 hw.2 hv
    exact ⟨ρ, τ, by simpa only [Spells] using h⟩
  | .sum c fs, p, .sum k v, hw, hv => by
    obtain ⟨i, t, hi, hvt⟩ := (hasAt_iff hw.2.1 k v).1 hv
    obtain ⟨ρ, τ, h⟩ := spellsAt_exists fs p k v t hw.2.2 (lookup_of_get hw.2.1 hi) hvt
    refine ⟨ρ, fun q => if q = p then optionIndex fs k else τ q, ?_⟩
    simp only [Spells, if_true]
    have hil : i < fs.toList.length := (List.getElem?_eq_some_iff.mp hi).1
    refine ⟨Nat.mod_eq_of_lt ?_, ?_⟩
    · rw [optionIndex_of_get hw.2.1 hi]
      exact lt_tagBits hil
    · obtain ⟨_, _, h1⟩ := decisionsAt_get (ρ := ρ) (τ := τ) fs p k v t hw.2.1 (List.mem_of_getElem? hi)
      obtain ⟨_, _, h2⟩ := decisionsAt_get (ρ := ρ) (τ := fun q => if q = p then optionIndex fs k else τ q) fs p k v t hw.2.1 (List.mem_of_getElem? hi)
      rw [h2]
      refine spells_congr t (p ++ [k]) v ?_ (h1.mp h)
      intro q hq
      refine ⟨rfl, ?_⟩
      rw [if_neg (beq_eq_false_iff_ne.mp (lookup_self_not_prefix hq))]
  | .prod _ _, _, .bits _, _, hv => by simp [Ty.Has] at hv
  | .prod _ _, _, .bit _, _, hv => by simp [Ty.Has] at hv
  | .prod _ _, _, .enum _, _, hv => by simp [Ty.Has] at hv
  | .prod _ _, _, .sum _ _, _, hv => by simp [Ty.Has] at hv
  | .sum _ _, _, .bits _, _, hv => by simp [Ty.Has] at hv
  | .sum _ _, _, .bit _, _, hv => by simp [Ty.Has] at hv
  | .sum _ _, _, .enum _, _, hv => by simp [Ty.Has] at hv
  | .sum _ _, _, .prod _, _, hv => by simp [Ty.Has] at hv
theorem spellsAll_exists : ∀ (fs : Fields) (p : RPath) (vs : List Val), (fs.toList.map (·.1)).Nodup → WFs fs → fs.HasAll vs →
    ∃ ρ τ : RPath → Nat, SpellsAll ρ τ fs p vs
  | .nil, _, [], _, _, _ => ⟨fun _ => 0, fun _ => 0, trivial⟩
  | .nil, _, _ :: _, _, _, hv => by simp [Fields.HasAll] at hv
  | .cons _ _ _, _, [], _, _, hv => by simp [Fields.HasAll] at hv
  | .cons k t fs, p, v :: vs, hn, hw, hv => by
    simp only [Fields.toList, List.map_cons, List.nodup_cons] at hn
    obtain ⟨ρ1, τ1, h1⟩ := spells_exists t (p ++ [k]) v hw.1 hv.1
    obtain ⟨ρ2, τ2, h2⟩ := spellsAll_exists fs p vs hn.2 hw.2 hv.2
    refine ⟨fun q => if (p ++ [k]).isPrefixOf q then ρ1 q else ρ2 q, fun q => if (p ++ [k]).isPrefixOf q then τ1 q else τ2 q, ?_, ?_⟩
    · refine spells_congr t _ v ?_ h1
      intro q hq
      simp [List.isPrefixOf_iff_prefix.mpr hq]
    · refine spellsAll_congr fs p vs ?_ h2
      intro k' hk' q hq
      have : ¬ (p ++ [k]).isPrefixOf q = true := by
        intro hp
        have := prefix_inj (List.isPrefixOf_iff_prefix.mp hp) hq
        exact hn.1 (this ▸ hk')
      simp [this]
theorem spellsAt_exists : ∀ (fs : Fields) (p : RPath) (k : Key) (v : Val) (t : Ty), WFs fs → fs.toList.lookup k = some t → t.Has v →
    ∃ ρ τ : RPath → Nat, SpellsAt ρ τ fs p k v
  | .nil, _, _, _, _, _, hl, _ => by simp [Fields.toList] at hl
  | .cons k' t' fs, p, k, v, t, hw, hl, hv => by
    rw [Fields.toList, List.lookup_cons] at hl
    by_cases hk : k = k'
    · subst hk
      rw [beq_self_eq_true] at hl
      cases hl
      obtain ⟨ρ, τ, h⟩ := spells_exists t' (p ++ [k]) v hw.1 hv
      exact ⟨ρ, τ, by simpa only [SpellsAt, if_true] using h⟩
    · rw [beq_eq_false_iff_ne.mpr hk] at hl
      obtain ⟨ρ, τ, h⟩ := spellsAt_exists fs p k v t hw.2 hl hv
      exact ⟨ρ, τ, by simpa only [SpellsAt, if_neg hk] using h⟩
end

/-! ### every form is the shape of some value -/

mutual
theorem inhabited_ty : ∀ (t : Ty), WF t → ∃ v, t.Has v
  | .bv _ w, _ => ⟨.bits (BV.ofNat w 0), rfl⟩
  | .bit _, _ => ⟨.bit false, trivial⟩
  | .enum _ ms, h => by
    obtain ⟨e, he⟩ := List.exists_mem_of_ne_nil ms h.1
    exact ⟨.enum e, he⟩
  | .prod _ fs, h => by
    obtain ⟨vs, hvs⟩ := inhabited_fields fs h.2
    exact ⟨.prod vs, hvs⟩
  | .sum _ .nil, h => absurd rfl h.1
  | .sum _ (.cons k t fs), h => by
    obtain ⟨v, hv⟩ := inhabited_ty t h.2.2.1
    exact ⟨.sum k v, .inl ⟨rfl, hv⟩⟩
theorem inhabited_fields : ∀ (fs : Fields), WFs fs → ∃ vs, fs.HasAll vs
  | .nil, _ => ⟨[], trivial⟩
  | .cons _ t fs, h => by
    obtain ⟨v, hv⟩ := inhabited_ty t h.1
    obtain ⟨vs, hvs⟩ := inhabited_fields fs h.2
    exact ⟨v :: vs, hv, hvs⟩
end

theorem exMap_mem {α β : Type} {f : α → Except Err β} : ∀ {l : List α} {l' : List β}, exMap f l = .ok l' → ∀ b ∈ l', ∃ a ∈ l, f a = .ok b
  | [], l', h, b, hb => by cases h; simp at hb
  | a :: l, l', h, b, hb => by
    simp only [exMap] at h
    cases h1 : f a with
    | error e => rw [h1] at h; cases h
    | ok b' =>
      rw [h1] at h
      cases h2 : exMap f l with
      | error e => rw [h2] at h; cases h
      | ok bs =>
        rw [h2] at h
        cases h
        rcases List.mem_cons.mp hb with rfl | hb
        · exact ⟨a, List.mem_cons_self, h1⟩
        · obtain ⟨a', ha', h3⟩ := exMap_mem h2 b hb
          exact ⟨a', List.mem_cons_of_mem _ ha', h3⟩

/-- The form has the choices and the leaves of a value. -/
def ShapeOf (t : Ty) (p : RPath) (f : SForm) : Prop :=
  ∃ v, t.Has v ∧ f.pathDict = decisions t p v ∧ f.leaves.map (·.1) = (leaves t p v).map (·.1)

def ShapesOf : Fields → RPath → List (List SForm) → Prop
  | .nil, _, [] => True
  | .cons k t fs, p, fm :: fms => (∀ f ∈ fm, ShapeOf t (p ++ [k]) f) ∧ ShapesOf fs p fms
  | _, _, _ => False

theorem shapes_product {p : RPath} : ∀ (fs : Fields) (fms : List (List SForm)), ShapesOf fs p fms → ∀ subs ∈ pyProduct fms,
    ∃ vs, fs.HasAll vs ∧ subs.flatMap (·.pathDict) = decisionsAll fs p vs ∧
      (subs.flatMap (·.leaves)).map (·.1) = (leavesAll fs p vs).map (·.1)
  | .nil, [], _, subs, hs => by
    simp only [pyProduct, List.mem_singleton] at hs
    subst hs
    exact ⟨[], trivial, rfl, rfl⟩
  | .cons k t fs, fm :: fms, h, subs, hs => by
    simp only [pyProduct, List.mem_flatMap, List.mem_map] at hs
    obtain ⟨f, hf, sub, hsub, rfl⟩ := hs
    obtain ⟨vs, i1, i2, i3⟩ := shapes_product fs fms h.2 sub hsub
    obtain ⟨v, j1, j2, j3⟩ := h.1 f hf
    refine ⟨v :: vs, ⟨j1, i1⟩, ?_, ?_⟩
    · rw [List.flatMap_cons, i2, j2]; rfl
    · rw [List.flatMap_cons, List.map_append, i3, j3, ← List.map_append]; rfl
  | .nil, _ :: _, h, _, _ => by simp [ShapesOf] at h
  | .cons .., [], h, _, _ => by simp [ShapesOf] at h

theorem combine_inv {A : Ty → Except Err AsmObj} {t : Ty} {subs : List SForm} {f : SForm} (h : combineForms A t subs = .ok f) :
    f.pathDict = subs.flatMap (·.pathDict) ∧ f.leaves = subs.flatMap (·.leaves) := by
  simp only [combineForms] at h
  cases hx : AV.fromFields A t (subs.map (fun f => .asm f.value)) 0 with
  | error e => rw [hx] at h; cases h
  | ok y => rw [hx] at h; cases h; exact ⟨rfl, rfl⟩

theorem lift_inv {A : Ty → Except Err AsmObj} {u : Ty} {p : RPath} {k : Key} {tag : BV} {f g : SForm} (h : liftForm A u p k tag f = .ok g) :
    g.pathDict = (p, k) :: f.pathDict ∧ g.leaves = f.leaves := by
  simp only [liftForm] at h
  cases hx : AV.fromOption A u k (.asm f.value) (some tag) 0 with
  | error e => rw [hx] at h; cases h
  | ok y => rw [hx] at h; cases h; exact ⟨rfl, rfl⟩

mutual
theorem forms_shape {A : Ty → Except Err AsmObj} {ρ τ : RPath → Nat} : ∀ (t : Ty), WF t → ∀ p r, smtForms A ρ τ t p = .ok r → 
    ∀ f ∈ r.forms, ShapeOf t p f
  | .bv _ w, hw, p, r, h, f, hf => by
    cases h
    rw [List.mem_singleton] at hf
    subst hf
    exact ⟨.bits (BV.ofNat w 0), rfl, rfl, rfl⟩
  | .bit _, hw, p, r, h, f, hf => by
    cases h
    rw [List.mem_singleton] at hf
    subst hf
    exact ⟨.bit false, trivial, rfl, rfl⟩
  | .enum c ms, hw, p, r, h, f, hf => by
    simp only [smtForms] at h
    split at h
    · cases h
    · split at h
      · cases h
      · cases h
        rw [List.mem_singleton] at hf
        subst hf
        obtain ⟨e, he⟩ := List.exists_mem_of_ne_nil ms hw.1
        exact ⟨.enum e, he, rfl, rfl⟩
  | .prod c fs, hw, p, r, h, f, hf => by
    simp only [smtForms] at h
    cases hrows : smtFields A ρ τ fs p with
    | error e => rw [hrows] at h; cases h
    | ok rows =>
      rw [hrows] at h
      simp only at h
      split at h
      · cases h
      · rename_i x hx
        cases hc : exMap (combineForms A (.prod c fs)) (pyProduct (rows.map (·.forms))) with
        | error e => rw [hc] at h; cases h
        | ok forms =>
          rw [hc] at h
          cases h
          obtain ⟨subs, hs, hsf⟩ := exMap_mem hc f hf
          obtain ⟨vs, h1, h2, h3⟩ := shapes_product fs _ (fields_shape fs hw.2 p rows hrows) subs hs
          refine ⟨.prod vs, h1, ?_, ?_⟩
          · rw [(combine_inv hsf).1, h2]; rfl
          · rw [(combine_inv hsf).2, h3]; rfl
  | .sum c fs, hw, p, r, h, f, hf => by
    simp only [smtForms] at h
    split at h
    · cases h
    · split at h
      · cases h
      · rename_i tg htg
        cases hrows : smtOptions A ρ τ (.sum c fs) (BV.ofNat tg.width (τ p)) fs p with
        | error e => rw [hrows] at h; cases h
        | ok rows =>
          rw [hrows] at h
          simp only at h
          split at h
          · cases h
          · cases h
            obtain ⟨row, hrow, hfr⟩ := List.mem_flatMap.mp hf
            obtain ⟨k, v, t, ht, h1, h2, h3⟩ := options_shape fs hw.2.2 p rows hrows row hrow f hfr
            obtain ⟨i, hi⟩ := List.getElem?_of_mem ht
            obtain ⟨d1, d2, _⟩ := decisionsAt_get (ρ := ρ) (τ := τ) fs p k v t hw.2.1 ht
            refine ⟨.sum k v, (hasAt_iff hw.2.1 k v).2 ⟨i, t, hi, h1⟩, ?_, ?_⟩
            · rw [h2]; simp only [decisions, d1]
            · rw [h3]; simp only [leaves, d2]
theorem fields_shape {A : Ty → Except Err AsmObj} {ρ τ : RPath → Nat} : ∀ (fs : Fields), WFs fs → ∀ p rows, smtFields A ρ τ fs p = .ok rows → 
    ShapesOf fs p (rows.map (·.forms))
  | .nil, _, p, rows, h => by cases h; trivial
  | .cons k t fs, hw, p, rows, h => by
    simp only [smtFields] at h
    cases h1 : smtForms A ρ τ t (p ++ [k]) with
    | error e => rw [h1] at h; cases h
    | ok r =>
      rw [h1] at h
      cases h2 : smtFields A ρ τ fs p with
      | error e => rw [h2] at h; cases h
      | ok rs =>
        rw [h2] at h
        cases h
        exact ⟨forms_shape t hw.1 (p ++ [k]) r h1, fields_shape fs hw.2 p rs h2⟩
theorem options_shape {A : Ty → Except Err AsmObj} {ρ τ : RPath → Nat} {u : Ty} {tag : BV} : ∀ (fs : Fields), WFs fs → ∀ p rows,
    smtOptions A ρ τ u tag fs p = .ok rows → ∀ row ∈ rows, ∀ f ∈ row.2.1.forms, 
    ∃ k v t, (k, t) ∈ fs.toList ∧ t.Has v ∧ f.pathDict = (p, k) :: decisions t (p ++ [k]) v ∧
      f.leaves.map (·.1) = (leaves t (p ++ [k]) v).map (·.1)
  | .nil, _, p, rows, h, row, hrow, _, _ => by cases h; simp at hrow
  | .cons k t fs, hw, p, rows, h, row, hrow, f, hf => by
    simp only [smtOptions] at h
    cases h1 : smtForms A ρ τ t (p ++ [k]) with
    | error e => rw [h1] at h; cases h
    | ok r =>
      rw [h1] at h
      simp only at h
      split at h
      · cases h
      · cases h2 : exMap (liftForm A u p k tag) r.forms with
        | error e => rw [h2] at h; cases h
        | ok forms =>
          rw [h2] at h
          simp only at h
          split at h
          · cases h
          · cases h3 : smtOptions A ρ τ u tag fs p with
            | error e => rw [h3] at h; cases h
            | ok rs =>
              rw [h3] at h
              cases h
              rcases List.mem_cons.mp hrow with rfl | hrow
              · obtain ⟨g, hg, hgf⟩ := exMap_mem h2 f hf
                obtain ⟨v, i1, i2, i3⟩ := forms_shape t hw.1 (p ++ [k]) r h1 g hg
                exact ⟨k, v, t, by simp [Fields.toList], i1, by rw [(lift_inv hgf).1, i2], by rw [(lift_inv hgf).2, i3]⟩
              · obtain ⟨k', v, t', i0, i1⟩ := options_shape fs hw.2 p rs h3 row hrow f hf
                exact ⟨k', v, t', by simp [Fields.toList, i0], i1⟩
end

end SF

/-- C32, for the types whose values can be put together from fields (`Buildable`): whenever the variables spell a value, exactly one of the
forms has all its match conditions true.  That form's leaves are the value's leaves with the value's bits, its choices are the
value's choices, and the form and the full term both denote the encoding of the value.  Missing: the types excluded by `Buildable`
(see `C32_violated`). -/
theorem C32_one_form_partial (P : Process) (t : Ty) (hw : WF t) (hb : Buildable t) (ρ τ : RPath → Nat) (v : Val) (hv : t.Has v)
    (hs : Spells ρ τ t [] v) :
    ∃ r, smtForms P.asm ρ τ t [] = .ok r ∧
      ∃ f, r.forms.filter (formMatches r.varmap) = [f] ∧
        f.leaves = leaves t [] v ∧ f.pathDict = decisions t [] v ∧
        AV.asBv f.value = BV.ofNat (width t) (encode t v) ∧ AV.asBv r.value = BV.ofNat (width t) (encode t v) := by
  obtain ⟨r, h1, h2⟩ := SF.forms_ok P ρ τ t hw hb []
  obtain ⟨h3, f, h4, h5, h6, h7⟩ := h2.vals v hv hs
  have hlt := (encode_spec t hw v hv).1
  exact ⟨r, h1, f, h4, h7, h6, by rw [h5, asBv_mkAV hlt], by rw [h3, asBv_mkAV hlt]⟩

/-- Every value is spelled by some assignment of the variables. -/
theorem C32_every_value_spelled (t : Ty) (hw : WF t) (v : Val) (hv : t.Has v) : ∃ ρ τ : RPath → Nat, Spells ρ τ t [] v :=
  SF.spells_exists t [] v hw hv

/-- No form is spurious: each has the choices and the leaves of some value of the type. -/
theorem C32_forms_are_shapes (P : Process) (t : Ty) (hw : WF t) (ρ τ : RPath → Nat) (r : FormsRes)
    (h : smtForms P.asm ρ τ t [] = .ok r) (f : SForm) (hf : f ∈ r.forms) :
    ∃ v, t.Has v ∧ f.pathDict = decisions t [] v ∧ f.leaves.map (·.1) = (leaves t [] v).map (·.1) :=
  SF.forms_shape t hw [] r h f hf

/-- A product of a 2-bit vector and a union of a bit and a pair of bits. -/
def exForms : Ty := .prod 0 (.cons 0 (.bv 0 2) (.cons 1 (.sum 1 (.cons 2 (.bit 0) (.cons 3 (.prod 2 (.cons 4 (.bit 0) (.cons 5 (.bit 0) .nil))) .nil))) .nil))
def exFormsVal : Val := .prod [.bits (BV.ofNat 2 3), .sum 3 (.prod [.bit true, .bit false])]

example : WF exForms ∧ Buildable exForms ∧ exForms.Has exFormsVal ∧ ∃ ρ τ : RPath → Nat, Spells ρ τ exForms [] exFormsVal := by
  have hw : WF exForms := by simp [exForms, WF, WFs, Fields.toList]
  have hv : exForms.Has exFormsVal := by simp [exForms, exFormsVal, Ty.Has, Fields.HasAll, Fields.HasAt, BV.ofNat]
  refine ⟨hw, ?_, hv, C32_every_value_spelled _ hw _ hv⟩
  simp [exForms, Buildable, Buildables, Fields.toList, width, sumWidths, maxWidth, tagBits]

/-- The code violates C32: for some types (here a pair of a 3-bit vector and an enum with one member) no forms are produced; the call
raises. -/
theorem C32_violated :
    ¬ ∀ (P : Process) (t : Ty) (ρ τ : RPath → Nat) (v : Val), WF t → t.Has v → Spells ρ τ t [] v → ∃ r, smtForms P.asm ρ τ t [] = .ok r ∧
      ∃ f, r.forms.filter (formMatches r.varmap) = [f] := by
  intro h
  obtain ⟨r, h1, _⟩ := h ⟨fun _ => []⟩ (.prod 0 (.cons 0 (.bv 0 3) (.cons 1 (.enum 1 [.lit 0]) .nil))) (fun _ => 0) (fun _ => 0)
    (.prod [.bits (BV.ofNat 3 0), .enum (.lit 0)])
    (by simp [WF, WFs, Fields.toList, autos]) (by simp [Ty.Has, Fields.HasAll, BV.ofNat])
    (by simp only [Spells, SpellsAll]; decide +kernel)
  have h2 : (match smtForms (Process.asm ⟨fun _ => []⟩) (fun _ => 0) (fun _ => 0)
      (.prod 0 (.cons 0 (.bv 0 3) (.cons 1 (.enum 1 [.lit 0]) .nil))) [] with | .ok _ => true | .error _ => false) = false := by decide +kernel
  rw [h1] at h2
  cases h2

end Peak
