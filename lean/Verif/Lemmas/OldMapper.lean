import Verif.Spec.OldMapper
import Verif.Props.Bindings
import Mathlib.Data.List.Perm.Subperm
/-!
# Lemmas about `gen_mapping`
-/

namespace Peak.Old

/-! ## Permutations -/

theorem picks_mem {α : Type} (l : List α) (e : α × List α) (h : e ∈ picks l) : (e.1 :: e.2).Perm l := by
  induction l generalizing e with
  | nil => simp [picks] at h
  | cons a l ih =>
    simp only [picks, List.mem_cons, List.mem_map] at h
    rcases h with rfl | ⟨e', he', rfl⟩
    · exact .refl _
    · exact (List.Perm.swap _ _ _).trans ((ih e' he').cons a)

theorem mem_picks {α : Type} (l : List α) (x : α) (h : x ∈ l) : ∃ r, (x, r) ∈ picks l := by
  induction l with
  | nil => simp at h
  | cons a l ih =>
    rcases List.mem_cons.mp h with rfl | h
    · exact ⟨l, by simp [picks]⟩
    · obtain ⟨r, hr⟩ := ih h
      exact ⟨a :: r, by simp only [picks, List.mem_cons, List.mem_map]; exact .inr ⟨_, hr, rfl⟩⟩

theorem mem_permsN {α : Type} (n : Nat) (l : List α) (hn : l.length = n) (x : List α) : x ∈ permsN n l ↔ x.Perm l := by
  induction n generalizing l x with
  | zero =>
    have : l = [] := List.length_eq_zero_iff.mp hn
    subst this
    simp [permsN]
  | succ n ih =>
    simp only [permsN, List.mem_flatMap, List.mem_map]
    constructor
    · rintro ⟨e, he, r, hr, rfl⟩
      have hp := picks_mem l e he
      have hl : e.2.length = n := by have := hp.length_eq; simp only [List.length_cons] at this; omega
      exact (((ih e.2 hl r).mp hr).cons e.1).trans hp
    · intro h
      cases x with
      | nil => have := h.length_eq; simp at this; omega
      | cons a r =>
        obtain ⟨r', hr'⟩ := mem_picks l a (h.subset (by simp))
        have hp := picks_mem l _ hr'
        have hl : r'.length = n := by have := hp.length_eq; simp only [List.length_cons] at this; omega
        exact ⟨_, hr', r, (ih r' hl r).mpr ((h.trans hp.symm).cons_inv), rfl⟩

theorem mem_pyPerms {α : Type} (l x : List α) : x ∈ pyPerms l ↔ x.Perm l := mem_permsN _ _ rfl _

/-- A permutation of the image of a list is the image of a permutation of the list. -/
theorem perm_of_map {α β : Type} (g : α → β) (l : List β) (y : List α) (h : l.Perm (y.map g)) : ∃ x : List α, x.Perm y ∧ x.map g = l := by
  generalize hz : y.map g = z at h
  induction h generalizing y with
  | nil =>
    have : y = [] := by simpa using hz
    subst this
    exact ⟨[], .refl _, rfl⟩
  | cons a _ ih =>
    cases y with
    | nil => simp at hz
    | cons b y =>
      simp only [List.map_cons, List.cons.injEq] at hz
      obtain ⟨x, hx, hm⟩ := ih y hz.2
      exact ⟨b :: x, hx.cons b, by simp [hm, hz.1]⟩
  | swap a b l =>
    match y, hz with
    | c :: d :: y, hz =>
      simp only [List.map_cons, List.cons.injEq] at hz
      exact ⟨d :: c :: y, .swap _ _ _, by simp [hz]⟩
  | trans _ _ ih1 ih2 =>
    obtain ⟨x, hx, hm⟩ := ih2 y hz
    obtain ⟨x', hx', hm'⟩ := ih1 x hm
    exact ⟨x', hx'.trans hx, hm'⟩

/-! ## Bindings of one type -/

section
variable {P T : Type} [DecidableEq P] [DecidableEq T]

theorem count_some_pad (ci : List P) (n : Nat) (hc : ci.Nodup) (p : P) (hp : p ∈ ci) :
    (ci.map some ++ List.replicate n none).count (some p) = 1 := by
  rw [List.count_append, List.count_eq_one_of_mem (hc.map (fun _ _ h => by cases h; rfl)) (List.mem_map_of_mem hp)]
  simp [List.count_replicate]

theorem old_to_new (ci pi : List P) (hc : ci.Nodup) (hp : pi.Nodup) (hl : ci.length ≤ pi.length) (x : List (Option P × P))
    (hx : x ∈ oldTypeBindings ci pi) : ∃ y ∈ typeBindings ci pi, x.Perm y := by
  obtain ⟨perm, hperm, rfl⟩ := List.mem_map.mp hx
  rw [mem_pyPerms] at hperm
  have hlen : (ci.map some ++ List.replicate (pi.length - ci.length) (none : Option P)).length = perm.length := by
    rw [hperm.length_eq]; simp; omega
  generalize hv : ci.map some ++ List.replicate (pi.length - ci.length) (none : Option P) = vs at hlen
  have h2 : (vs.zip perm).map (·.2) = perm := List.map_snd_zip (by omega)
  have h1 : (vs.zip perm).map (·.1) = vs := List.map_fst_zip (by omega)
  obtain ⟨y, hy, hy2⟩ := perm_of_map (·.2) pi (vs.zip perm) (by rw [h2]; exact hperm.symm)
  refine ⟨y, ?_, hy.symm⟩
  rw [Bnd.mem_typeBindings]
  refine ⟨hy2, ?_, ?_⟩
  · intro e he i hi
    have : e.1 ∈ vs := by rw [← h1]; exact List.mem_map_of_mem (hy.subset he)
    rw [← hv, List.mem_append] at this
    rcases this with h | h
    · obtain ⟨c, hc', h⟩ := List.mem_map.mp h
      rw [hi] at h
      cases h
      exact hc'
    · rw [hi] at h
      simp at h
  · intro p hp'
    rw [(hy.map (·.1)).count_eq, h1, ← hv]
    exact count_some_pad ci _ hc p hp'

theorem new_to_old (ci pi : List P) (hc : ci.Nodup) (y : List (Option P × P))
    (hy : y ∈ typeBindings ci pi) : ci.length ≤ pi.length ∧ ∃ x ∈ oldTypeBindings ci pi, x.Perm y := by
  obtain ⟨h1, h2, h3⟩ := (Bnd.mem_typeBindings _ _ _).mp hy
  have hsplit : ∀ l : List (Option P), (∀ i, some i ∈ l → i ∈ ci) → (∀ p ∈ ci, l.count (some p) = 1) →
      ∃ n, (ci.map some ++ List.replicate n none).Perm l := by
    intro l hm hcount
    refine ⟨l.count none, ?_⟩
    rw [List.perm_iff_count]
    intro o
    cases o with
    | none => rw [List.count_append, List.count_eq_zero_of_not_mem (by simp)]; simp
    | some p =>
      by_cases hp : p ∈ ci
      · rw [count_some_pad ci _ hc p hp, hcount p hp]
      · rw [List.count_eq_zero_of_not_mem (l := l) (fun h => hp (hm p h)), List.count_eq_zero_of_not_mem]
        simp [hp]
  obtain ⟨n, hn⟩ := hsplit (y.map (·.1)) (by
    intro i hi
    obtain ⟨e, he, hei⟩ := List.mem_map.mp hi
    exact h2 e he i hei) h3
  have hlen : ci.length + n = pi.length := by
    have := hn.length_eq
    rw [← h1]
    simpa using this
  refine ⟨by omega, ?_⟩
  obtain ⟨x, hx, hx1⟩ := perm_of_map (·.1) _ y hn
  refine ⟨x, ?_, hx⟩
  refine List.mem_map.mpr ⟨x.map (·.2), ?_, ?_⟩
  · rw [mem_pyPerms, ← h1]; exact hx.map _
  · have : pi.length - ci.length = n := by omega
    rw [this, ← hx1]
    clear hx hx1 hy
    induction x with
    | nil => rfl
    | cons e x ih => simp [ih]

/-! ## Bindings of all types -/

theorem forall2_exists {α β : Type} (R S : α → β → Prop) (Q : α → α → Prop) (l : List α) (s : List β)
    (h : List.Forall₂ R l s) (hr : ∀ a, ∀ b ∈ s, R a b → ∃ a', S a' b ∧ Q a a') :
    ∃ l', List.Forall₂ S l' s ∧ List.Forall₂ Q l l' := by
  induction h with
  | nil => exact ⟨[], .nil, .nil⟩
  | @cons a b l s h1 _ ih =>
    obtain ⟨a', h2, h3⟩ := hr a b (by simp) h1
    obtain ⟨l', h4, h5⟩ := ih (fun a b hb => hr a b (by simp [hb]))
    exact ⟨a' :: l', .cons h2 h4, .cons h3 h5⟩

theorem flatten_perm {α : Type} (l l' : List (List α)) (h : List.Forall₂ List.Perm l l') : l.flatten.Perm l'.flatten := by
  induction h with
  | nil => exact .refl _
  | cons h _ ih => simp only [List.flatten_cons]; exact h.append ih

/-- The two assertions, in words. -/
def Counts (peak core : List (P × T)) : Prop :=
  (∀ s ∈ core.map (·.2), s ∈ peak.map (·.2)) ∧
  ∀ s ∈ core.map (·.2), (core.filter (fun e => e.2 = s)).length ≤ (peak.filter (fun e => e.2 = s)).length

theorem oldBindings_eq (peak core : List (P × T)) :
    (Counts peak core ∧ oldBindings peak core =
      .ok ((pyProduct ((sortByT peak).map (fun e => oldTypeBindings (((sortByT core).lookup e.1).getD []) e.2))).map List.flatten)) ∨
    (¬ Counts peak core ∧ oldBindings peak core = .error .assertionError) := by
  have h1 : ((sortByT core).all (fun e => ((sortByT peak).lookup e.1).isSome)) = true ↔
      ∀ s ∈ core.map (·.2), s ∈ peak.map (·.2) := by
    rw [List.all_eq_true]
    constructor
    · intro h s hs
      obtain ⟨e, he, rfl⟩ := List.mem_map.mp ((Bnd.mem_keys_sortByT core s).mpr hs)
      have := h e he
      rw [Bnd.sortByT_lookup] at this
      by_cases hm : e.1 ∈ peak.map (·.2)
      · exact hm
      · rw [if_neg hm] at this; simp at this
    · intro h e he
      rw [Bnd.sortByT_lookup, if_pos (h e.1 (Bnd.mem_sortByT core e he).2)]
      rfl
  have h2 : ((sortByT core).all (fun e => decide (e.2.length ≤ (((sortByT peak).lookup e.1).getD []).length))) = true ↔
      ∀ s ∈ core.map (·.2), (core.filter (fun e => e.2 = s)).length ≤ (peak.filter (fun e => e.2 = s)).length := by
    rw [List.all_eq_true]
    constructor
    · intro h s hs
      obtain ⟨e, he, rfl⟩ := List.mem_map.mp ((Bnd.mem_keys_sortByT core s).mpr hs)
      have := of_decide_eq_true (h e he)
      rw [Bnd.lookup_getD, (Bnd.mem_sortByT core e he).1] at this
      simpa using this
    · intro h e he
      rw [Bnd.lookup_getD, decide_eq_true_eq, (Bnd.mem_sortByT core e he).1]
      simpa using h e.1 (Bnd.mem_sortByT core e he).2
  unfold oldBindings Counts
  simp only []
  by_cases c1 : ((sortByT core).all (fun e => ((sortByT peak).lookup e.1).isSome)) = true
  · by_cases c2 : ((sortByT core).all (fun e => decide (e.2.length ≤ (((sortByT peak).lookup e.1).getD []).length))) = true
    · left
      refine ⟨⟨h1.mp c1, h2.mp c2⟩, ?_⟩
      rw [c1, c2]; rfl
    · right
      refine ⟨fun h => c2 (h2.mpr h.2), ?_⟩
      rw [c1]
      rw [Bool.not_eq_true] at c2
      rw [c2]; rfl
  · right
    refine ⟨fun h => c1 (h1.mpr h.1), ?_⟩
    rw [Bool.not_eq_true] at c1
    rw [c1]; rfl

theorem mem_oldBindings (peak core : List (P × T)) (bs : List (List (Option P × P))) (h : oldBindings peak core = .ok bs)
    (b : List (Option P × P)) : b ∈ bs ↔
      ∃ l : List (List (Option P × P)), l.flatten = b ∧
        List.Forall₂ (fun x (e : T × List P) => x ∈ oldTypeBindings (((sortByT core).lookup e.1).getD []) e.2) l (sortByT peak) := by
  rcases oldBindings_eq peak core with ⟨_, h'⟩ | ⟨_, h'⟩
  · rw [h'] at h
    cases h
    rw [List.mem_map]
    constructor
    · rintro ⟨l, hl, rfl⟩
      rw [Bnd.mem_pyProduct, List.forall₂_map_right_iff] at hl
      exact ⟨l, rfl, hl⟩
    · rintro ⟨l, rfl, hl⟩
      exact ⟨l, by rw [Bnd.mem_pyProduct, List.forall₂_map_right_iff]; exact hl, rfl⟩
  · rw [h'] at h; cases h

theorem nodup_of_type (l : List (P × T)) (h : (l.map (·.1)).Nodup) (t : T) : ((l.filter (fun e => e.2 = t)).map (·.1)).Nodup :=
  (List.Sublist.map _ List.filter_sublist).nodup h

/-- Every binding is a permutation of one of `create_bindings`. -/
theorem old_to_create (peak core : List (P × T)) (ha : (peak.map (·.1)).Nodup) (hi : (core.map (·.1)).Nodup)
    (bs : List (List (Option P × P))) (h : oldBindings peak core = .ok bs) (b : List (Option P × P)) (hb : b ∈ bs) :
    ∃ b' ∈ createBindings peak core, b.Perm b' := by
  have hc : Counts peak core := by
    rcases oldBindings_eq peak core with ⟨hc, _⟩ | ⟨_, h'⟩
    · exact hc
    · rw [h'] at h; cases h
  obtain ⟨l, hl, hfor⟩ := (mem_oldBindings peak core bs h b).mp hb
  obtain ⟨l', h1, h2⟩ := forall2_exists _ (fun x (e : T × List P) => x ∈ typeBindings (((sortByT core).lookup e.1).getD []) e.2)
    List.Perm l (sortByT peak) hfor (by
      intro x e he hx
      obtain ⟨he1, he2⟩ := Bnd.mem_sortByT peak e he
      have hci : (((sortByT core).lookup e.1).getD []).Nodup := by rw [Bnd.lookup_getD]; exact nodup_of_type core hi _
      have hpi : e.2.Nodup := by rw [he1]; exact nodup_of_type peak ha _
      have hlen : (((sortByT core).lookup e.1).getD []).length ≤ e.2.length := by
        rw [Bnd.lookup_getD, he1]
        simp only [List.length_map]
        by_cases hm : e.1 ∈ core.map (·.2)
        · exact hc.2 _ hm
        · have : core.filter (fun x => x.2 = e.1) = [] := by
            rw [List.filter_eq_nil_iff]
            intro x hx
            simp only [decide_eq_true_eq]
            rintro h'
            exact hm (List.mem_map.mpr ⟨x, hx, h'⟩)
          rw [this]; exact Nat.zero_le _
      exact old_to_new _ _ hci hpi hlen x hx)
  refine ⟨l'.flatten, ?_, ?_⟩
  · rw [Bnd.mem_createBindings]
    exact ⟨hc.1, l', rfl, h1⟩
  · rw [← hl]; exact flatten_perm l l' h2

/-- Every binding of `create_bindings` is a permutation of one of `gen_mapping`. -/
theorem create_to_old (peak core : List (P × T)) (hi : (core.map (·.1)).Nodup)
    (b : List (Option P × P)) (hb : b ∈ createBindings peak core) :
    ∃ bs, oldBindings peak core = .ok bs ∧ ∃ b' ∈ bs, b'.Perm b := by
  obtain ⟨hty, l, hl, hfor⟩ := (Bnd.mem_createBindings peak core b).mp hb
  have hci : ∀ t, (((sortByT core).lookup t).getD []).Nodup := by
    intro t; rw [Bnd.lookup_getD]; exact nodup_of_type core hi _
  have hcount : Counts peak core := by
    refine ⟨hty, ?_⟩
    intro s hs
    obtain ⟨e, he, rfl⟩ := List.mem_map.mp ((Bnd.mem_keys_sortByT peak s).mpr (hty s hs))
    have : ∀ (l : List (List (Option P × P))) (s : List (T × List P)),
        List.Forall₂ (fun x (e : T × List P) => x ∈ typeBindings (((sortByT core).lookup e.1).getD []) e.2) l s → e ∈ s →
        ∃ x, x ∈ typeBindings (((sortByT core).lookup e.1).getD []) e.2 := by
      intro l s h
      induction h with
      | nil => simp
      | @cons x' y l s h1 _ ih =>
        intro hm
        rcases List.mem_cons.mp hm with rfl | hm
        · exact ⟨_, h1⟩
        · exact ih hm
    obtain ⟨x, hx⟩ := this l _ hfor he
    have := (new_to_old _ _ (hci _) x hx).1
    rw [Bnd.lookup_getD, (Bnd.mem_sortByT peak e he).1] at this
    simpa using this
  rcases oldBindings_eq peak core with ⟨_, h'⟩ | ⟨hn, _⟩
  · refine ⟨_, h', ?_⟩
    obtain ⟨l', h1, h2⟩ := forall2_exists _
      (fun x (e : T × List P) => x ∈ oldTypeBindings (((sortByT core).lookup e.1).getD []) e.2)
      (fun a a' => a'.Perm a) l (sortByT peak) hfor (by
        intro x e _ hx
        exact (new_to_old _ _ (hci _) x hx).2)
    refine ⟨l'.flatten, (mem_oldBindings peak core _ h' _).mpr ⟨l', rfl, h1⟩, ?_⟩
    rw [← hl]
    exact (flatten_perm l l' (by
      clear h1 hl hfor
      induction h2 with
      | nil => exact .nil
      | cons h _ ih => exact .cons h.symm ih)).symm
  · exact absurd hcount hn

theorem represents_perm (peak : List (P × T)) (b b' : List (Option P × P)) (h : b.Perm b') (f : P → Option P)
    (hr : Represents peak b' f) : Represents peak b f :=
  ⟨(h.map _).trans hr.1, fun e he => hr.2 e (h.subset he)⟩

theorem pyPerms_ne {α : Type} (l : List α) : pyPerms l ≠ [] := by
  intro h
  have := (mem_pyPerms l l).mpr (.refl _)
  rw [h] at this
  simp at this

theorem oldBindings_ne (peak core : List (P × T)) (bs : List (List (Option P × P))) (h : oldBindings peak core = .ok bs) : ∃ b, b ∈ bs := by
  refine ⟨((sortByT peak).map (fun e => (oldTypeBindings (((sortByT core).lookup e.1).getD []) e.2).headD [])).flatten, ?_⟩
  rw [mem_oldBindings peak core bs h]
  refine ⟨_, rfl, ?_⟩
  rw [List.forall₂_map_left_iff, List.forall₂_same]
  intro e _
  have hne : oldTypeBindings (((sortByT core).lookup e.1).getD []) e.2 ≠ [] := by
    intro hn
    exact pyPerms_ne e.2 (List.map_eq_nil_iff.mp hn)
  cases hc : oldTypeBindings (((sortByT core).lookup e.1).getD []) e.2 with
  | nil => exact absurd hc hne
  | cons a l => simp

/-- Renaming the CoreIR inputs. -/
theorem rename_assignment (peak core : List (P × T)) (ren : P → P)
    (hinj : ∀ a ∈ core.map (·.1), ∀ b ∈ core.map (·.1), ren a = ren b → a = b) (f : P → Option P)
    (hf : IsAssignment peak core f) : IsAssignment peak (core.map (fun e => (ren e.1, e.2))) (fun a => (f a).map ren) := by
  refine ⟨?_, ?_⟩
  · intro a t i hat hfa
    cases hc : f a with
    | none => rw [hc] at hfa; cases hfa
    | some c =>
      rw [hc] at hfa
      cases hfa
      exact List.mem_map.mpr ⟨(c, t), hf.typed a t c hat hc, rfl⟩
  · intro i t hit
    obtain ⟨⟨c, t'⟩, hct, he⟩ := List.mem_map.mp hit
    simp only [Prod.mk.injEq] at he
    obtain ⟨rfl, rfl⟩ := he
    obtain ⟨a, ha, hfa, hu⟩ := hf.once c t' hct
    refine ⟨a, ha, by rw [hfa]; rfl, ?_⟩
    intro a' ha' hfa'
    cases hc : f a' with
    | none => rw [hc] at hfa'; cases hfa'
    | some c' =>
      rw [hc] at hfa'
      simp only [Option.map_some, Option.some.injEq] at hfa'
      obtain ⟨⟨a', t2⟩, h2, rfl⟩ := List.mem_map.mp ha'
      have := hinj c' (List.mem_map.mpr ⟨_, hf.typed a' t2 c' h2 hc, rfl⟩) c (List.mem_map.mpr ⟨_, hct, rfl⟩) hfa'
      subst this
      exact hu a' ha' hc

end

/-! ## Dicts and names -/

theorem dictSet_fresh {α β : Type} [DecidableEq α] (k : α) (v : β) (d : List (α × β)) (h : k ∉ d.map (·.1)) :
    dictSet k v d = d ++ [(k, v)] := by
  induction d with
  | nil => rfl
  | cons e d ih =>
    obtain ⟨k', v'⟩ := e
    simp only [List.map_cons, List.mem_cons, not_or] at h
    simp only [dictSet, if_neg h.1, ih h.2, List.cons_append]

theorem mem_dictSet_keys {α β : Type} [DecidableEq α] (k : α) (v : β) (d : List (α × β)) (x : α) :
    x ∈ (dictSet k v d).map (·.1) ↔ x = k ∨ x ∈ d.map (·.1) := by
  induction d with
  | nil => simp [dictSet]
  | cons e d ih =>
    obtain ⟨k', v'⟩ := e
    unfold dictSet
    split
    · next h => subst h; simp
    · simp only [List.map_cons, List.mem_cons, ih]; tauto

theorem dictSet_nodup {α β : Type} [DecidableEq α] (k : α) (v : β) (d : List (α × β)) (h : (d.map (·.1)).Nodup) :
    ((dictSet k v d).map (·.1)).Nodup := by
  induction d with
  | nil => simp [dictSet]
  | cons e d ih =>
    obtain ⟨k', v'⟩ := e
    simp only [List.map_cons, List.nodup_cons] at h
    unfold dictSet
    split
    · simpa using h
    · next hk =>
      simp only [List.map_cons, List.nodup_cons]
      refine ⟨?_, ih h.2⟩
      rw [mem_dictSet_keys]
      rintro (h' | h')
      · exact hk h'.symm
      · exact h.1 h'

theorem mem_dictSet {α β : Type} [DecidableEq α] (k : α) (v : β) (d : List (α × β)) (h : (d.map (·.1)).Nodup) (x : α) (y : β) :
    (x, y) ∈ dictSet k v d ↔ (x = k ∧ y = v) ∨ (x ≠ k ∧ (x, y) ∈ d) := by
  induction d with
  | nil => simp [dictSet]
  | cons e d ih =>
    obtain ⟨k', v'⟩ := e
    simp only [List.map_cons, List.nodup_cons] at h
    unfold dictSet
    split
    · next hk =>
      subst hk
      simp only [List.mem_cons, Prod.mk.injEq]
      constructor
      · rintro (h' | h')
        · exact .inl h'
        · refine .inr ⟨?_, .inr h'⟩
          rintro rfl
          exact h.1 (List.mem_map.mpr ⟨_, h', rfl⟩)
      · rintro (h' | ⟨h1, h' | h'⟩)
        · exact .inl h'
        · exact absurd h'.1 h1
        · exact .inr h'
    · next hk =>
      simp only [List.mem_cons, Prod.mk.injEq, ih h.2]
      constructor
      · rintro (⟨h1, h2⟩ | h' | ⟨h1, h2⟩)
        · subst h1; exact .inr ⟨fun h' => hk h'.symm, .inl ⟨rfl, h2⟩⟩
        · exact .inl h'
        · exact .inr ⟨h1, .inr h2⟩
      · rintro (h' | ⟨h1, h' | h'⟩)
        · exact .inr (.inl h')
        · exact .inl h'
        · exact .inr (.inr ⟨h1, h'⟩)

/-- The name in the input map of a variable of the search. -/
def outName (v : String) : String := if v = "in_" then "in" else v

theorem outName_inName (k : String) (h : k ≠ "in_") : outName (inName k) = k := by
  unfold outName inName
  by_cases hk : k = "in"
  · subst hk; decide
  · rw [if_pos hk, if_neg h]

theorem coreInputs_eq (core : List (String × Nat)) (h : CoreNames core) :
    coreInputs core = core.map (fun e => (inName e.1, OTy.bv e.2)) := by
  obtain ⟨hn, hi, _⟩ := h
  unfold coreInputs
  have : ∀ (l : List (String × Nat)) (acc : List (String × OTy)), (l.map (·.1)).Nodup → "in_" ∉ l.map (·.1) →
      (∀ e ∈ l, inName e.1 ∉ acc.map (·.1)) →
      l.foldl (fun d e => dictSet (inName e.1) (OTy.bv e.2) d) acc = acc ++ l.map (fun e => (inName e.1, OTy.bv e.2)) := by
    intro l
    induction l with
    | nil => intro acc _ _ _; simp
    | cons e l ih =>
      intro acc hn hi ha
      simp only [List.map_cons, List.nodup_cons, List.mem_cons, not_or] at hn hi
      rw [List.foldl_cons, dictSet_fresh _ _ _ (ha e (by simp)), ih _ hn.2 hi.2]
      · simp
      · intro e' he'
        simp only [List.map_append, List.map_cons, List.map_nil, List.mem_append, List.mem_singleton, not_or]
        refine ⟨ha e' (by simp [he']), ?_⟩
        intro heq
        have := congrArg outName heq
        rw [outName_inName _ (fun h => hi.2 (List.mem_map.mpr ⟨e', he', h⟩)), outName_inName _ (fun h => hi.1 h.symm)] at this
        exact hn.1 (List.mem_map.mpr ⟨e', he', this⟩)
  rw [this core [] hn hi (by simp)]
  rfl

theorem inName_inj (core : List (String × Nat)) (h : CoreNames core) (a : String) (ha : a ∈ core.map (·.1)) (b : String)
    (hb : b ∈ core.map (·.1)) (e : inName a = inName b) : a = b := by
  have := congrArg outName e
  rwa [outName_inName a (fun h' => h.noIn (h' ▸ ha)), outName_inName b (fun h' => h.noIn (h' ▸ hb))] at this

theorem inName_nodup (core : List (String × Nat)) (h : CoreNames core) : ((coreInputs core).map (·.1)).Nodup := by
  rw [coreInputs_eq core h, List.map_map]
  have : core.map ((fun e : String × OTy => e.1) ∘ fun e : String × Nat => (inName e.1, OTy.bv e.2)) = (core.map (·.1)).map inName := by
    rw [List.map_map]; rfl
  rw [this]
  exact List.Nodup.map_on (fun a ha b hb => inName_inj core h a ha b hb) h.nodup

/-! ## The input map -/

/-- The key of the input map for an entry of a binding. -/
def keyOf (e : Option String × String) : String := match e.1 with | none => "0" | some v => outName v

theorem oldInputMap_eq (b : List (Option String × String)) :
    oldInputMap b = b.foldl (fun d e => dictSet (keyOf e) e.2 d) [] := rfl

theorem mem_inputMap (b : List (Option String × String)) (hp : b.Pairwise (fun e e' => keyOf e = keyOf e' → keyOf e = "0"))
    (c k : String) (hc : c ≠ "0") : (c, k) ∈ oldInputMap b ↔ ∃ e ∈ b, keyOf e = c ∧ e.2 = k := by
  rw [oldInputMap_eq]
  have : ∀ (b : List (Option String × String)) (acc : List (String × String)), (acc.map (·.1)).Nodup →
      b.Pairwise (fun e e' => keyOf e = keyOf e' → keyOf e = "0") →
      (∀ e ∈ b, keyOf e ∈ acc.map (·.1) → keyOf e = "0") →
      ((c, k) ∈ b.foldl (fun d e => dictSet (keyOf e) e.2 d) acc ↔ (c, k) ∈ acc ∨ ∃ e ∈ b, keyOf e = c ∧ e.2 = k) := by
    intro b
    induction b with
    | nil => intro acc _ _ _; simp
    | cons e b ih =>
      intro acc hn hp ha
      rw [List.pairwise_cons] at hp
      rw [List.foldl_cons, ih _ (dictSet_nodup _ _ _ hn) hp.2, mem_dictSet _ _ _ hn]
      · constructor
        · rintro ((⟨h1, h2⟩ | ⟨_, h2⟩) | ⟨e', he', h⟩)
          · exact .inr ⟨e, by simp, h1.symm, h2.symm⟩
          · exact .inl h2
          · exact .inr ⟨e', by simp [he'], h⟩
        · rintro (h | ⟨e', he', h1, h2⟩)
          · refine .inl (.inr ⟨?_, h⟩)
            rintro rfl
            exact hc (ha e (by simp) (List.mem_map.mpr ⟨_, h, rfl⟩))
          · rcases List.mem_cons.mp he' with rfl | he'
            · exact .inl (.inl ⟨h1.symm, h2.symm⟩)
            · exact .inr ⟨e', he', h1, h2⟩
      · intro e' he' hm
        rw [mem_dictSet_keys] at hm
        rcases hm with h | h
        · rw [h]; exact hp.1 e' he' h.symm
        · exact ha e' (by simp [he']) h
  rw [this b [] (by simp) hp (by simp)]
  simp

end Peak.Old
