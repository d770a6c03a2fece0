import Verif.Lemmas.Bindings
/-!
# C28: binding enumeration
-/

namespace Peak

/-- Specification: the assignment `f` gives each architecture input nothing (`none`, i.e. Unbound) or an IR input of the same type, and
every IR input is given to exactly one architecture input. -/
structure IsAssignment {P T : Type} (arch ir : List (P × T)) (f : P → Option P) : Prop where
  typed : ∀ a t i, (a, t) ∈ arch → f a = some i → (i, t) ∈ ir
  once : ∀ i t, (i, t) ∈ ir → ∃ a, a ∈ arch.map (·.1) ∧ f a = some i ∧ ∀ a', a' ∈ arch.map (·.1) → f a' = some i → a' = a

/-- Specification: the list `b` of pairs (IR input or Unbound, architecture input) is the assignment `f`: it has one pair for each
architecture input, namely the value of `f` there. -/
def Represents {P T : Type} (arch : List (P × T)) (b : List (Option P × P)) (f : P → Option P) : Prop :=
  (b.map (·.2)).Perm (arch.map (·.1)) ∧ ∀ e ∈ b, e.1 = f e.2

namespace Bnd

variable {P T : Type} [DecidableEq P] [DecidableEq T]

theorem mem_typeBindings (irPaths archPaths : List P) (b : List (Option P × P)) :
    b ∈ typeBindings irPaths archPaths ↔
      b.map (·.2) = archPaths ∧ (∀ e ∈ b, ∀ i, e.1 = some i → i ∈ irPaths) ∧
      ∀ p ∈ irPaths, (b.map (·.1)).count (some p) = 1 := by
  have hfor : ∀ (m : List (Option P)) (n : Nat), List.Forall₂ (fun x y => x ∈ y) m (List.replicate n (irPaths.map some ++ [none])) ↔
      m.length = n ∧ ∀ x ∈ m, ∀ i, x = some i → i ∈ irPaths := by
    intro m
    induction m with
    | nil => intro n; cases n <;> simp [List.replicate]
    | cons x m ih =>
      intro n
      cases n with
      | zero => simp
      | succ n =>
        rw [List.replicate_succ, List.forall₂_cons, ih n]
        simp only [List.mem_append, List.mem_map, List.mem_singleton, List.length_cons, Nat.add_right_cancel_iff,
          List.forall_mem_cons]
        constructor
        · rintro ⟨h1, h2, h3⟩
          refine ⟨h2, ?_, h3⟩
          rintro i rfl
          rcases h1 with ⟨a, ha, h⟩ | h
          · cases h; exact ha
          · cases h
        · rintro ⟨h2, h1, h3⟩
          refine ⟨?_, h2, h3⟩
          cases x with
          | none => exact .inr rfl
          | some i => exact .inl ⟨i, h1 i rfl, rfl⟩
  simp only [typeBindings, List.mem_map, List.mem_filter, mem_pyProduct, hfor, bindFilt, List.all_eq_true, beq_iff_eq]
  constructor
  · rintro ⟨m, ⟨⟨h1, h2⟩, h3⟩, rfl⟩
    refine ⟨List.map_snd_zip (by omega), ?_, ?_⟩
    · rintro ⟨x, a⟩ he i rfl
      exact h2 _ (List.of_mem_zip he).1 i rfl
    · rw [List.map_fst_zip (by omega)]
      exact h3
  · rintro ⟨h1, h2, h3⟩
    refine ⟨b.map (·.1), ⟨⟨?_, ?_⟩, h3⟩, ?_⟩
    · rw [← h1]; simp
    · intro x hx i hi
      obtain ⟨e, he, rfl⟩ := List.mem_map.mp hx
      exact h2 e he i hi
    · rw [← h1]
      clear h1 h2 h3
      induction b with
      | nil => rfl
      | cons e b ih => simp [ih]

theorem typeBindings_nodup (irPaths archPaths : List P) (hi : irPaths.Nodup) : (typeBindings irPaths archPaths).Nodup := by
  have hn : (irPaths.map some ++ [none] : List (Option P)).Nodup := by
    rw [List.nodup_append]
    refine ⟨hi.map (fun _ _ h => by cases h; rfl), by simp, ?_⟩
    intro a ha b hb
    simp at hb
    subst hb
    obtain ⟨x, _, rfl⟩ := List.mem_map.mp ha
    simp
  have hp : (pyProduct (List.replicate archPaths.length (irPaths.map some ++ [none] : List (Option P)))).Nodup :=
    pyProduct_nodup _ (fun l hl => by rw [(List.mem_replicate.mp hl).2]; exact hn)
  refine List.Nodup.map_on ?_ (hp.filter _)
  intro m hm m' hm' h
  have hl : ∀ m ∈ (pyProduct (List.replicate archPaths.length (irPaths.map some ++ [none] : List (Option P)))),
      m.length = archPaths.length := by
    intro m hm
    have := ((mem_pyProduct _ _).mp hm).length_eq
    simpa using this
  have h1 := hl m (List.mem_filter.mp hm).1
  have h2 := hl m' (List.mem_filter.mp hm').1
  have e1 : (m.zip archPaths).map (·.1) = m := List.map_fst_zip (by omega)
  have e2 : (m'.zip archPaths).map (·.1) = m' := List.map_fst_zip (by omega)
  rw [← e1, ← e2, h]

/-- Membership in `create_bindings`, segment by segment. -/
theorem mem_createBindings (arch ir : List (P × T)) (b : List (Option P × P)) :
    b ∈ createBindings arch ir ↔
      (∀ s ∈ ir.map (·.2), s ∈ arch.map (·.2)) ∧
      ∃ l : List (List (Option P × P)), l.flatten = b ∧
        List.Forall₂ (fun x (e : T × List P) => x ∈ typeBindings (((sortByT ir).lookup e.1).getD []) e.2) l (sortByT arch) := by
  have hall : ((sortByT ir).all (fun e => ((sortByT arch).lookup e.1).isSome)) = true ↔
      ∀ s ∈ ir.map (·.2), s ∈ arch.map (·.2) := by
    rw [List.all_eq_true]
    constructor
    · intro h s hs
      obtain ⟨e, he, rfl⟩ := List.mem_map.mp ((mem_keys_sortByT ir s).mpr hs)
      have := h e he
      rw [sortByT_lookup] at this
      by_cases hm : e.1 ∈ arch.map (·.2)
      · exact hm
      · rw [if_neg hm] at this; simp at this
    · intro h e he
      rw [sortByT_lookup, if_pos (h e.1 (mem_sortByT ir e he).2)]
      rfl
  unfold createBindings
  simp only []
  split
  · next h =>
    rw [List.mem_map]
    simp only [mem_pyProduct, List.forall₂_map_right_iff]
    constructor
    · rintro ⟨l, hl, rfl⟩
      exact ⟨hall.mp h, l, rfl, hl⟩
    · rintro ⟨_, l, rfl, hl⟩
      exact ⟨l, hl, rfl⟩
  · next h =>
    simp only [List.not_mem_nil, false_iff, not_and]
    intro hh
    exact absurd (hall.mpr hh) h

theorem map_snd_flatten (l : List (List (Option P × P))) (s : List (T × List P)) (g : T → List P)
    (h : List.Forall₂ (fun x (e : T × List P) => x ∈ typeBindings (g e.1) e.2) l s) :
    l.flatten.map (·.2) = s.flatMap (·.2) := by
  induction h with
  | nil => rfl
  | cons h1 _ ih =>
    simp only [List.flatten_cons, List.map_append, List.flatMap_cons, ih]
    rw [((mem_typeBindings _ _ _).mp h1).1]

theorem count_flatten (l : List (List (Option P × P))) (s : List (T × List P)) (g : T → List P) (t : T) (i : P)
    (h : List.Forall₂ (fun x (e : T × List P) => x ∈ typeBindings (g e.1) e.2) l s)
    (hs : (s.map (·.1)).Nodup) (ht : t ∈ s.map (·.1)) (hi : i ∈ g t) (hu : ∀ t', i ∈ g t' → t' = t) :
    (l.flatten.map (·.1)).count (some i) = 1 := by
  have hzero : ∀ (x : List (Option P × P)) (e : T × List P), x ∈ typeBindings (g e.1) e.2 → e.1 ≠ t →
      (x.map (·.1)).count (some i) = 0 := by
    intro x e hx hne
    rw [List.count_eq_zero]
    intro hm
    obtain ⟨y, hy, hyi⟩ := List.mem_map.mp hm
    exact hne (hu _ (((mem_typeBindings _ _ _).mp hx).2.1 y hy i hyi))
  have hzeros : ∀ (l : List (List (Option P × P))) (s : List (T × List P)),
      List.Forall₂ (fun x (e : T × List P) => x ∈ typeBindings (g e.1) e.2) l s → t ∉ s.map (·.1) →
      (l.flatten.map (·.1)).count (some i) = 0 := by
    intro l s h
    induction h with
    | nil => simp
    | @cons x e l s h1 _ ih =>
      intro hn
      simp only [List.map_cons, List.mem_cons, not_or] at hn
      simp only [List.flatten_cons, List.map_append, List.count_append, ih hn.2]
      rw [hzero x e h1 (fun h => hn.1 h.symm)]
  induction h with
  | nil => simp at ht
  | @cons x e l s h1 h2 ih =>
    simp only [List.flatten_cons, List.map_append, List.count_append]
    simp only [List.map_cons, List.nodup_cons] at hs
    by_cases hte : e.1 = t
    · subst hte
      rw [hzeros l s h2 hs.1]
      simpa using ((mem_typeBindings _ _ _).mp h1).2.2 i hi
    · rw [hzero x e h1 hte, ih hs.2 (by simpa [Ne.symm hte, eq_comm] using ht)]

theorem lookup_getD (ir : List (P × T)) (s : T) :
    ((sortByT ir).lookup s).getD [] = (ir.filter (fun e => e.2 = s)).map (·.1) := by
  rw [sortByT_lookup]
  split
  · rfl
  · next h =>
    symm
    simp only [Option.getD_none, List.map_eq_nil_iff, List.filter_eq_nil_iff]
    intro e he hes
    simp at hes
    exact h (List.mem_map.mpr ⟨e, he, hes⟩)

theorem mem_of_type (ir : List (P × T)) (s : T) (i : P) : i ∈ (ir.filter (fun e => e.2 = s)).map (·.1) ↔ (i, s) ∈ ir := by
  simp [List.mem_map, List.mem_filter]

theorem type_unique (l : List (P × T)) (h : (l.map (·.1)).Nodup) {p : P} {s t : T} (h1 : (p, s) ∈ l) (h2 : (p, t) ∈ l) : s = t := by
  have e1 := lookup_of_mem l h _ h1
  have e2 := lookup_of_mem l h _ h2
  simp only at e1 e2
  rw [e1] at e2
  cases e2
  rfl

/-- The list of architecture inputs of a binding is always the same list. -/
theorem binding_keys (arch ir : List (P × T)) (b : List (Option P × P)) (hb : b ∈ createBindings arch ir) :
    b.map (·.2) = (sortByT arch).flatMap (·.2) := by
  obtain ⟨_, l, rfl, hl⟩ := (mem_createBindings arch ir b).mp hb
  exact map_snd_flatten l _ (fun t => ((sortByT ir).lookup t).getD []) hl

end Bnd

section
variable {P T : Type} [DecidableEq P] [DecidableEq T]

/-- C28, soundness: every enumerated binding is a legal assignment: each architecture input is unbound or given an IR input
of the same type, and every IR input is used exactly once. -/
theorem C28_sound (arch ir : List (P × T)) (ha : (arch.map (·.1)).Nodup) (hi : (ir.map (·.1)).Nodup)
    (b : List (Option P × P)) (hb : b ∈ createBindings arch ir) :
    ∃ f, Represents arch b f ∧ IsAssignment arch ir f := by
  obtain ⟨hty, l, hl, hfor⟩ := (Bnd.mem_createBindings arch ir b).mp hb
  have hkeys := Bnd.binding_keys arch ir b hb
  have hperm : (b.map (·.2)).Perm (arch.map (·.1)) := by rw [hkeys]; exact Bnd.sortByT_flat arch
  have hnd : (b.map (·.2)).Nodup := hperm.nodup_iff.mpr ha
  let f : P → Option P := fun a => ((b.map (fun e => (e.2, e.1))).lookup a).getD none
  have hf : ∀ e ∈ b, e.1 = f e.2 := by
    intro e he
    have := Bnd.lookup_of_mem (b.map (fun e => (e.2, e.1))) (by rw [List.map_map]; exact hnd) (e.2, e.1) (List.mem_map.mpr ⟨e, he, rfl⟩)
    simp only at this
    simp only [f, this, Option.getD_some]
  -- every pair of b is well typed
  have htyped : ∀ e ∈ b, ∀ i, e.1 = some i → ∃ t, (e.2, t) ∈ arch ∧ (i, t) ∈ ir := by
    intro e he i hei
    rw [← hl] at he
    obtain ⟨x, hx, hex⟩ := List.mem_flatten.mp he
    have : ∀ (l : List (List (Option P × P))) (s : List (T × List P)),
        List.Forall₂ (fun x (e : T × List P) => x ∈ typeBindings (((sortByT ir).lookup e.1).getD []) e.2) l s →
        x ∈ l → ∃ y ∈ s, x ∈ typeBindings (((sortByT ir).lookup y.1).getD []) y.2 := by
      intro l s h
      induction h with
      | nil => simp
      | @cons x' y l s h1 _ ih =>
        intro hm
        rcases List.mem_cons.mp hm with rfl | hm
        · exact ⟨y, by simp, h1⟩
        · obtain ⟨z, hz, hz2⟩ := ih hm
          exact ⟨z, by simp [hz], hz2⟩
    obtain ⟨y, hy, hxy⟩ := this l _ hfor hx
    obtain ⟨h1, h2, _⟩ := (Bnd.mem_typeBindings _ _ _).mp hxy
    refine ⟨y.1, ?_, ?_⟩
    · rw [← Bnd.mem_of_type, ← (Bnd.mem_sortByT arch y hy).1, ← h1]
      exact List.mem_map_of_mem hex
    · have := h2 e hex i hei
      rw [Bnd.lookup_getD] at this
      exact (Bnd.mem_of_type ir y.1 i).mp this
  refine ⟨f, ⟨hperm, hf⟩, ⟨?_, ?_⟩⟩
  · intro a t i hat hfa
    have hmem : a ∈ b.map (·.2) := hperm.mem_iff.mpr (List.mem_map.mpr ⟨(a, t), hat, rfl⟩)
    obtain ⟨e, he, rfl⟩ := List.mem_map.mp hmem
    obtain ⟨t', h1, h2⟩ := htyped e he i ((hf e he).trans hfa)
    rw [Bnd.type_unique arch ha hat h1]
    exact h2
  · intro i t hit
    have hcount : (b.map (·.1)).count (some i) = 1 := by
      rw [← hl]
      refine Bnd.count_flatten l _ (fun t => ((sortByT ir).lookup t).getD []) t i hfor (Bnd.sortByT_keys_nodup arch) ?_ ?_ ?_
      · exact (Bnd.mem_keys_sortByT arch t).mpr (hty t (List.mem_map.mpr ⟨(i, t), hit, rfl⟩))
      · simp only [Bnd.lookup_getD]; exact (Bnd.mem_of_type ir t i).mpr hit
      · intro t' h
        simp only [Bnd.lookup_getD] at h
        exact Bnd.type_unique ir hi ((Bnd.mem_of_type ir t' i).mp h) hit
    have hm : some i ∈ b.map (·.1) := by
      rw [← List.count_pos_iff, hcount]; exact Nat.one_pos
    obtain ⟨e, he, hei⟩ := List.mem_map.mp hm
    refine ⟨e.2, hperm.mem_iff.mp (List.mem_map_of_mem he), (hf e he).symm.trans hei, ?_⟩
    intro a' ha' hfa'
    obtain ⟨e', he', rfl⟩ := List.mem_map.mp (hperm.mem_iff.mpr ha')
    have hei' : e'.1 = some i := (hf e' he').trans hfa'
    -- two positions with the same IR input would make the count two
    by_cases hee : e' = e
    · rw [hee]
    · exfalso
      have : ∀ (b : List (Option P × P)), e ∈ b → e' ∈ b → 2 ≤ (b.map (·.1)).count (some i) := by
        intro b
        induction b with
        | nil => simp
        | cons z b ih =>
          intro h1 h2
          rw [List.map_cons, List.count_cons]
          rcases List.mem_cons.mp h1 with h1' | h1'
          · subst h1'
            rcases List.mem_cons.mp h2 with rfl | h2
            · exact absurd rfl hee
            · have : 0 < (b.map (·.1)).count (some i) := List.count_pos_iff.mpr (List.mem_map.mpr ⟨e', h2, hei'⟩)
              rw [hei]; simp only [beq_self_eq_true, if_true]; omega
          · rcases List.mem_cons.mp h2 with h2 | h2
            · subst h2
              have : 0 < (b.map (·.1)).count (some i) := List.count_pos_iff.mpr (List.mem_map.mpr ⟨e, h1', hei⟩)
              rw [hei']; simp only [beq_self_eq_true, if_true]; omega
            · exact Nat.le_trans (ih h1' h2) (Nat.le_add_right _ _)
      have := this b he he'
      omega

/-- C28, completeness: every legal assignment is enumerated. -/
theorem C28_complete (arch ir : List (P × T)) (ha : (arch.map (·.1)).Nodup) (hi : (ir.map (·.1)).Nodup)
    (f : P → Option P) (hf : IsAssignment arch ir f) :
    ∃ b ∈ createBindings arch ir, Represents arch b f := by
  refine ⟨((sortByT arch).map (fun e => e.2.map (fun a => (f a, a)))).flatten, ?_, ?_, ?_⟩
  · rw [Bnd.mem_createBindings]
    refine ⟨?_, _, rfl, ?_⟩
    · intro s hs
      obtain ⟨⟨i, t⟩, he, rfl⟩ := List.mem_map.mp hs
      obtain ⟨a, ha', hfa, _⟩ := hf.once i t he
      obtain ⟨⟨a, t'⟩, he', rfl⟩ := List.mem_map.mp ha'
      have : t' = t := Bnd.type_unique ir hi (hf.typed a t' i he' hfa) he
      subst this
      exact List.mem_map.mpr ⟨_, he', rfl⟩
    · rw [List.forall₂_map_left_iff, List.forall₂_same]
      intro e he
      obtain ⟨h1, h2⟩ := Bnd.mem_sortByT arch e he
      rw [Bnd.mem_typeBindings, Bnd.lookup_getD]
      refine ⟨by simp [Function.comp_def], ?_, ?_⟩
      · intro x hx i hxi
        obtain ⟨a, ha', rfl⟩ := List.mem_map.mp hx
        rw [h1, Bnd.mem_of_type] at ha'
        exact (Bnd.mem_of_type ir e.1 i).mpr (hf.typed a e.1 i ha' hxi)
      · intro i hi'
        have hit := (Bnd.mem_of_type ir e.1 i).mp hi'
        obtain ⟨a, ha', hfa, hu⟩ := hf.once i e.1 hit
        have hty : (a, e.1) ∈ arch := by
          obtain ⟨⟨a, t'⟩, he', rfl⟩ := List.mem_map.mp ha'
          have : t' = e.1 := Bnd.type_unique ir hi (hf.typed a t' i he' hfa) hit
          rw [← this]; exact he'
        have hae : a ∈ e.2 := by rw [h1]; exact (Bnd.mem_of_type arch e.1 a).mpr hty
        have hsub : ∀ a' ∈ e.2, f a' = some i → a' = a := by
          intro a' h3 h4
          refine hu a' ?_ h4
          rw [h1, Bnd.mem_of_type] at h3
          exact List.mem_map.mpr ⟨_, h3, rfl⟩
        have hnd : e.2.Nodup := by
          rw [h1]
          exact (List.Sublist.map _ List.filter_sublist).nodup ha
        rw [List.map_map]
        clear h1 h2 he
        generalize e.2 = ps at hae hsub hnd
        induction ps with
        | nil => simp at hae
        | cons x ps ih =>
          simp only [List.map_cons, List.count_cons, Function.comp]
          simp only [List.nodup_cons] at hnd
          by_cases hx : x = a
          · subst hx
            rw [hfa]
            simp only [beq_self_eq_true, if_true, Nat.add_eq_right, List.count_eq_zero]
            intro hm
            obtain ⟨y, hy, hyi⟩ := List.mem_map.mp hm
            have := hsub y (by simp [hy]) hyi
            subst this
            exact hnd.1 hy
          · have : f x ≠ some i := fun h => hx (hsub x (by simp) h)
            simp only [beq_eq_false_iff_ne.mpr this, Bool.false_eq_true, if_false, Nat.add_zero]
            refine ih ?_ (fun a' h => hsub a' (by simp [h])) hnd.2
            rcases List.mem_cons.mp hae with h | h
            · exact absurd h.symm hx
            · exact h
  · have : ∀ s : List (T × List P), ((s.map (fun e => e.2.map (fun a => (f a, a)))).flatten).map (·.2) = s.flatMap (·.2) := by
      intro s
      induction s with
      | nil => rfl
      | cons e s ih => simp only [List.map_cons, List.flatten_cons, List.map_append, ih, List.flatMap_cons]; simp [Function.comp_def]
    rw [this]
    exact Bnd.sortByT_flat arch
  · intro x hx
    obtain ⟨l, hl, hxl⟩ := List.mem_flatten.mp hx
    obtain ⟨e, _, rfl⟩ := List.mem_map.mp hl
    obtain ⟨a, _, rfl⟩ := List.mem_map.mp hxl
    rfl

/-- C28, no duplicates: the list has no repetition, and two enumerated bindings that denote the same assignment are the same. -/
theorem C28_nodup (arch ir : List (P × T)) (hi : (ir.map (·.1)).Nodup) :
    (createBindings arch ir).Nodup ∧
    ∀ b ∈ createBindings arch ir, ∀ b' ∈ createBindings arch ir, ∀ f, Represents arch b f → Represents arch b' f → b = b' := by
  refine ⟨?_, ?_⟩
  · unfold createBindings
    simp only []
    split
    · refine List.Nodup.map_on ?_ (Bnd.pyProduct_nodup _ ?_)
      · intro x hx y hy hxy
        refine Bnd.flatten_inj x y ?_ hxy
        rw [Bnd.mem_pyProduct, List.forall₂_map_right_iff] at hx hy
        have : ∀ (x y : List (List (Option P × P))) (s : List (T × List P)),
            List.Forall₂ (fun x (e : T × List P) => x ∈ typeBindings (((sortByT ir).lookup e.1).getD []) e.2) x s →
            List.Forall₂ (fun x (e : T × List P) => x ∈ typeBindings (((sortByT ir).lookup e.1).getD []) e.2) y s →
            List.Forall₂ (fun a b => a.length = b.length) x y := by
          intro x y s h
          induction h generalizing y with
          | nil => intro h; cases h; exact .nil
          | cons h1 _ ih =>
            intro h
            cases h with
            | cons h3 h4 =>
              refine .cons ?_ (ih _ h4)
              have e1 := congrArg List.length ((Bnd.mem_typeBindings _ _ _).mp h1).1
              have e2 := congrArg List.length ((Bnd.mem_typeBindings _ _ _).mp h3).1
              simp only [List.length_map] at e1 e2
              rw [e1, e2]
        exact this x y _ hx hy
      · intro l hl
        obtain ⟨e, _, rfl⟩ := List.mem_map.mp hl
        refine Bnd.typeBindings_nodup _ _ ?_
        rw [Bnd.lookup_getD]
        exact (List.Sublist.map _ List.filter_sublist).nodup hi
    · simp
  · intro b hb b' hb' f hf hf'
    have k := (Bnd.binding_keys arch ir b hb).trans (Bnd.binding_keys arch ir b' hb').symm
    have e : ∀ b : List (Option P × P), (∀ e ∈ b, e.1 = f e.2) → b = (b.map (·.2)).map (fun a => (f a, a)) := by
      intro b hb
      induction b with
      | nil => rfl
      | cons e b ih =>
        have h0 := hb e (by simp)
        simp only [List.map_cons]
        rw [← ih (fun e he => hb e (by simp [he])), ← h0]
    rw [e b hf.2, e b' hf'.2, k]

/-- C28: nothing is enumerated when some IR input's type has no architecture input of that type (nor, by soundness, whenever there is no
legal assignment). -/
theorem C28_none (arch ir : List (P × T)) (i : P) (t : T) (h : (i, t) ∈ ir) (hn : ∀ a, (a, t) ∉ arch) :
    createBindings arch ir = [] := by
  apply List.eq_nil_iff_forall_not_mem.mpr
  intro b hb
  obtain ⟨hty, _⟩ := (Bnd.mem_createBindings arch ir b).mp hb
  obtain ⟨e, he, het⟩ := List.mem_map.mp (hty t (List.mem_map.mpr ⟨(i, t), h, rfl⟩))
  refine hn e.1 ?_
  rw [← het]
  exact he

end

/-- Three architecture inputs of two types, two IR inputs of one type: two legal assignments, listed once each. -/
example : createBindings [(10, 0), (11, 1), (12, 0)] [(20, 0), (21, 0)] =
      [[(some 20, 10), (some 21, 12), (none, 11)], [(some 21, 10), (some 20, 12), (none, 11)]] ∧
    IsAssignment [(10, 0), (11, 1), (12, 0)] [(20, 0), (21, 0)]
      (fun a => if a = 10 then some 21 else if a = 12 then some 20 else none) := by
  refine ⟨by decide, ⟨?_, ?_⟩⟩
  · intro a t i h hf
    simp at h
    rcases h with ⟨rfl, rfl⟩ | ⟨rfl, rfl⟩ | ⟨rfl, rfl⟩ <;> simp at hf <;> subst hf <;> simp
  · intro i t h
    simp at h
    rcases h with ⟨rfl, rfl⟩ | ⟨rfl, rfl⟩
    · exact ⟨12, by simp, by simp, by simp⟩
    · exact ⟨10, by simp, by simp, by simp⟩

end Peak
