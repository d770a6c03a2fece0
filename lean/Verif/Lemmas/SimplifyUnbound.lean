import Verif.Lemmas.Verify
import Verif.Lemmas.RawForms
/-!
# Lemmas about `SimplifyBinding` on bindings with `Unbound` entries

A binding with `Unbound` entries is compared with the binding that has paths in their places: the calls differ only where the binding of an option of
a union is a single `Unbound` entry.
-/

namespace Peak
open Peak.Spec

mutual
/-- The type at a path of a type. -/
def tyAt : Ty → RPath → Option Ty
  | t, [] => some t
  | .prod _ fs, k :: p => tyAtF fs k p
  | .sum _ fs, k :: p => tyAtF fs k p
  | _, _ => none
def tyAtF : Fields → Key → RPath → Option Ty
  | .nil, _, _ => none
  | .cons k' t fs, k, p => if k = k' then tyAt t p else tyAtF fs k p
end

/-- Some union inside `t` has one entry of `b` below it, and this entry is `Unbound`. -/
def LoneUnbound (t : Ty) (b : List BEntry) : Prop :=
  ∃ p c fs k q, tyAt t p = some (.sum c fs) ∧ b.filter (fun e => p.isPrefixOf e.2) = [(.unbound, p ++ k :: q)]

/-- The leaf binding `b` gives every leaf of the raw value `r` its bits, or leaves it `Unbound`, and has nothing else. -/
def BindsU (P : Process) (η : RPath → AV) (t : Ty) (r : RVal) (b : List BEntry) : Prop :=
  ∃ L, List.Perm L (rawLeaves t r) ∧
    List.Forall₂ (fun e l => e.2 = l.1 ∧ (e.1 = .unbound ∨ ∃ x, e.1.resolve η = some x ∧ Means P l.2.1 l.2.2 x)) b L

/-- The binding `b'` gives parts of `r` their values, except for `Unbound` entries, which are leaves of `r` that are `Unbound` in `b`; these parts
have all leaves of `r`, each once. -/
def GroupsU (P : Process) (η : RPath → AV) (t : Ty) (r : RVal) (b b' : List BEntry) : Prop :=
  (∀ e ∈ b', (e.1 = .unbound ∧ e ∈ b) ∨
    ∃ u s, rawAt t r e.2 = some (u, s) ∧ ∃ x, e.1.resolve η = some x ∧ Means P u (rawCode u s) x) ∧
  (b'.flatMap (fun e => leavesBelow t r e.2)).Perm (rawLeaves t r)

namespace SU

theorem tyAtF_eq : ∀ (fs : Fields) (k : Key) (p : RPath), tyAtF fs k p = (fs.toList.lookup k).bind (fun t => tyAt t p)
  | .nil, _, _ => by simp [tyAtF, Fields.toList]
  | .cons k' t fs, k, p => by
    simp only [tyAtF, Fields.toList, List.lookup_cons]
    by_cases h : k = k'
    · subst h; simp
    · rw [if_neg h, beq_eq_false_iff_ne.mpr h]; exact tyAtF_eq fs k p

theorem at_eq (A : Ty → Except Err AsmObj) : ∀ (fs : Fields) (k : Key) (t : Ty) (b : List BEntry), fs.toList.lookup k = some t →
    simplifyAt A fs k b = simplifyBinding A t b
  | .nil, _, _, _, h => by simp [Fields.toList] at h
  | .cons k' t' fs, k, t, b, h => by
    simp only [Fields.toList, List.lookup_cons] at h
    simp only [simplifyAt]
    by_cases hk : k = k'
    · subst hk
      rw [beq_self_eq_true] at h
      cases h
      simp
    · rw [beq_eq_false_iff_ne.mpr hk] at h
      rw [if_neg hk]
      exact at_eq A fs k t b h

mutual
theorem tyInd {p : Ty → Prop} (hbv : ∀ c w, p (.bv c w)) (hbit : ∀ c, p (.bit c)) (henum : ∀ c ms, p (.enum c ms))
    (hprod : ∀ c fs, (∀ k t, fs.toList.lookup k = some t → p t) → p (.prod c fs))
    (hsum : ∀ c fs, (∀ k t, fs.toList.lookup k = some t → p t) → p (.sum c fs)) : ∀ t, p t
  | .bv c w => hbv c w
  | .bit c => hbit c
  | .enum c ms => henum c ms
  | .prod c fs => hprod c fs (tyIndF hbv hbit henum hprod hsum fs)
  | .sum c fs => hsum c fs (tyIndF hbv hbit henum hprod hsum fs)
theorem tyIndF {p : Ty → Prop} (hbv : ∀ c w, p (.bv c w)) (hbit : ∀ c, p (.bit c)) (henum : ∀ c ms, p (.enum c ms))
    (hprod : ∀ c fs, (∀ k t, fs.toList.lookup k = some t → p t) → p (.prod c fs))
    (hsum : ∀ c fs, (∀ k t, fs.toList.lookup k = some t → p t) → p (.sum c fs)) : ∀ (fs : Fields) k t, fs.toList.lookup k = some t → p t
  | .nil, k, t, h => by simp [Fields.toList] at h
  | .cons k' t' fs, k, t, h => by
    simp only [Fields.toList, List.lookup_cons] at h
    by_cases hk : k = k'
    · subst hk
      rw [beq_self_eq_true] at h
      have h' : t' = t := Option.some.inj h
      exact h' ▸ tyInd hbv hbit henum hprod hsum t'
    · rw [beq_eq_false_iff_ne.mpr hk] at h
      exact tyIndF hbv hbit henum hprod hsum fs k t h
end

/-! ## lone `Unbound` entries -/

theorem sub_mem {k : Key} {s : BSrc} {p : RPath} : ∀ {b : List BEntry}, (s, p) ∈ subBinding k b ↔ (s, k :: p) ∈ b
  | [] => by simp [subBinding]
  | (s', []) :: b => by simp [subBinding, sub_mem (b := b)]
  | (s', k' :: p') :: b => by
    simp only [subBinding]
    by_cases hk : k' = k
    · subst hk
      simp [sub_mem (b := b)]
    · rw [if_neg hk]
      simp only [sub_mem (b := b), List.mem_cons, Prod.mk.injEq, List.cons.injEq]
      constructor
      · exact .inr
      · rintro (⟨_, h, _⟩ | h)
        · exact absurd h.symm hk
        · exact h

theorem filter_sub (k : Key) (p : RPath) : ∀ (b : List BEntry),
    b.filter (fun e => (k :: p).isPrefixOf e.2) = addPrefix k ((subBinding k b).filter (fun e => p.isPrefixOf e.2))
  | [] => rfl
  | (s, []) :: b => by
    simp only [subBinding, List.filter_cons, List.isPrefixOf, Bool.false_eq_true, if_false]
    exact filter_sub k p b
  | (s, k' :: q) :: b => by
    have ih := filter_sub k p b
    simp only [subBinding, List.filter_cons, List.isPrefixOf]
    by_cases hk : k' = k
    · subst hk
      simp only [beq_self_eq_true, Bool.true_and, if_true, List.filter_cons]
      cases hq : p.isPrefixOf q
      · simpa using ih
      · simp only [if_true, addPrefix, List.map_cons, List.cons.injEq, true_and]
        exact ih
    · rw [if_neg hk]
      have : (k == k') = false := beq_eq_false_iff_ne.mpr (Ne.symm hk)
      simp only [this, Bool.false_and, Bool.false_eq_true, if_false]
      exact ih

theorem prefix_sing {k : Key} {l : List BEntry} {q : RPath} (h : addPrefix k l = [(.unbound, q)]) : ∃ q', l = [(.unbound, q')] ∧ q = k :: q' := by
  match l, h with
  | [(s, q')], h =>
    simp only [addPrefix, List.map_cons, List.map_nil, List.cons.injEq, Prod.mk.injEq, and_true] at h
    exact ⟨q', by rw [h.1], h.2.symm⟩

theorem lone_fields {fs : Fields} {b : List BEntry} :
    (∃ k t, fs.toList.lookup k = some t ∧ LoneUnbound t (subBinding k b)) ↔
    ∃ k p c fs' k' q, tyAtF fs k p = some (.sum c fs') ∧ b.filter (fun e => (k :: p).isPrefixOf e.2) = [(.unbound, k :: p ++ k' :: q)] := by
  constructor
  · rintro ⟨k, t, hl, p, c, fs', k', q, h1, h2⟩
    refine ⟨k, p, c, fs', k', q, by rw [tyAtF_eq, hl]; exact h1, ?_⟩
    rw [filter_sub, h2]; rfl
  · rintro ⟨k, p, c, fs', k', q, h1, h2⟩
    rw [tyAtF_eq] at h1
    cases hl : fs.toList.lookup k with
    | none => rw [hl] at h1; cases h1
    | some t =>
      rw [hl] at h1
      rw [filter_sub] at h2
      obtain ⟨q', h3, h4⟩ := prefix_sing h2
      rw [List.cons_append, List.cons.injEq] at h4
      exact ⟨k, t, hl, p, c, fs', k', q, h1, by rw [h3, h4.2]⟩

theorem lone_prod {c : Nat} {fs : Fields} {b : List BEntry} :
    LoneUnbound (.prod c fs) b ↔ ∃ k t, fs.toList.lookup k = some t ∧ LoneUnbound t (subBinding k b) := by
  rw [lone_fields]
  constructor
  · rintro ⟨p, c', fs', k', q, h1, h2⟩
    cases p with
    | nil => simp [tyAt] at h1
    | cons k p => exact ⟨k, p, c', fs', k', q, h1, h2⟩
  · rintro ⟨k, p, c', fs', k', q, h1, h2⟩
    exact ⟨k :: p, c', fs', k', q, h1, h2⟩

theorem lone_sum {c : Nat} {fs : Fields} {b : List BEntry} :
    LoneUnbound (.sum c fs) b ↔ (∃ k q, b = [(.unbound, k :: q)]) ∨ ∃ k t, fs.toList.lookup k = some t ∧ LoneUnbound t (subBinding k b) := by
  rw [lone_fields]
  constructor
  · rintro ⟨p, c', fs', k', q, h1, h2⟩
    cases p with
    | nil => exact .inl ⟨k', q, by simpa [List.isPrefixOf] using h2⟩
    | cons k p => exact .inr ⟨k, p, c', fs', k', q, h1, h2⟩
  · rintro (⟨k, q, h⟩ | ⟨k, p, c', fs', k', q, h1, h2⟩)
    · exact ⟨[], c, fs, k, q, by simp [tyAt], by subst h; simp [List.isPrefixOf]⟩
    · exact ⟨k :: p, c', fs', k', q, h1, h2⟩

theorem lone_leaf {t : Ty} (ht : VF.IsLeaf t) {b : List BEntry} : ¬ LoneUnbound t b := by
  rintro ⟨p, c, fs, k, q, h, _⟩
  rcases ht with ⟨c, w, rfl⟩ | ⟨c, rfl⟩ | ⟨c, ms, rfl⟩ <;> cases p <;> simp [tyAt] at h

theorem lone_nil {t : Ty} : ¬ LoneUnbound t [] := by
  rintro ⟨p, c, fs, k, q, _, h⟩
  simp at h

theorem mem_left {α β : Type} {R : α → β → Prop} {l : List α} {m : List β} (h : List.Forall₂ R l m) : ∀ a ∈ l, ∃ b ∈ m, R a b := by
  induction h with
  | nil => simp
  | cons hab _ ih =>
    intro a ha
    rcases List.mem_cons.mp ha with rfl | ha
    · exact ⟨_, List.mem_cons_self, hab⟩
    · obtain ⟨b, hb, h⟩ := ih a ha
      exact ⟨b, List.mem_cons_of_mem _ hb, h⟩

/-! ## what can come out -/

def Rel (e e' : BEntry) : Prop := e.2 = e'.2 ∧ ((e.1 = e'.1 ∧ e.1 ≠ .unbound) ∨ (e.1 = .unbound ∧ ∃ q, e'.1 = .path q))

theorem heads_inv {names : List Key} : ∀ {b : List BEntry} {acc order : List Key}, bindingFields names b acc = .ok order → SB.Heads names b
  | [], _, _, _ => by intro e he; simp at he
  | (_, []) :: _, _, _, h => by cases h
  | (s, k :: p) :: b, acc, order, h => by
    simp only [bindingFields] at h
    by_cases hk : k ∈ names
    · rw [if_pos hk] at h
      intro e he
      rcases List.mem_cons.mp he with rfl | he
      · exact ⟨k, p, rfl, hk⟩
      · exact heads_inv h e he
    · rw [if_neg hk] at h; cases h

theorem strip_inv {k : Key} : ∀ {b sub : List BEntry}, stripOption k b = .ok sub → SB.Heads [k] b
  | [], _, _ => by intro e he; simp at he
  | (_, []) :: _, _, h => by cases h
  | (s, k' :: p) :: b, sub, h => by
    simp only [stripOption] at h
    by_cases hk : k' = k
    · rw [if_pos hk] at h
      cases h1 : stripOption k b with
      | error _ => rw [h1] at h; cases h
      | ok sub' =>
        intro e he
        rcases List.mem_cons.mp he with rfl | he
        · exact ⟨k', p, rfl, by simp [hk]⟩
        · exact strip_inv h1 e he
    · rw [if_neg hk] at h; cases h

theorem at_inv {A : Ty → Except Err AsmObj} : ∀ {fs : Fields} {k : Key} {b r : List BEntry}, simplifyAt A fs k b = .ok r →
    ∃ t, fs.toList.lookup k = some t ∧ simplifyBinding A t b = .ok r
  | .nil, _, _, _, h => by cases h
  | .cons k' t fs, k, b, r, h => by
    simp only [simplifyAt] at h
    simp only [Fields.toList, List.lookup_cons]
    by_cases hk : k = k'
    · subst hk
      rw [if_pos rfl] at h
      exact ⟨t, by simp, h⟩
    · rw [if_neg hk] at h
      rw [beq_eq_false_iff_ne.mpr hk]
      exact at_inv h

theorem prod_inv {A : Ty → Except Err AsmObj} {c : Nat} {fs : Fields} {b r : List BEntry} (h : simplifyBinding A (.prod c fs) b = .ok r) :
    (isLeafBinding b = true ∧ r = b) ∨ (isLeafBinding b = false ∧ ∃ order rows, bindingFields (fs.toList.map (·.1)) b [] = .ok order ∧
      order.length = fs.toList.length ∧ exMap (fun k => dictItem k (simplifyAt A fs k (subBinding k b))) order = .ok rows ∧
      ((∃ xs y, fieldValues rows (fs.toList.map (·.1)) = some xs ∧ AV.fromFields A (.prod c fs) (xs.map .asm) 0 = .ok y ∧ r = [(.val y, [])]) ∨
        (fieldValues rows (fs.toList.map (·.1)) = none ∧ r = rows.flatMap (fun r => addPrefix r.1 r.2)))) := by
  simp only [simplifyBinding] at h
  cases hb : isLeafBinding b with
  | true => rw [hb, if_pos rfl] at h; cases h; exact .inl ⟨rfl, rfl⟩
  | false =>
    rw [hb] at h
    simp only [Bool.false_eq_true, if_false] at h
    right
    refine ⟨rfl, ?_⟩
    cases h1 : bindingFields (fs.toList.map (·.1)) b [] with
    | error _ => rw [h1] at h; cases h
    | ok order =>
      rw [h1] at h
      simp only at h
      by_cases h2 : order.length = fs.toList.length
      · rw [if_pos h2] at h
        cases h3 : exMap (fun k => dictItem k (simplifyAt A fs k (subBinding k b))) order with
        | error _ => rw [h3] at h; cases h
        | ok rows =>
          rw [h3] at h
          simp only at h
          refine ⟨order, rows, rfl, h2, h3, ?_⟩
          cases h4 : fieldValues rows (fs.toList.map (·.1)) with
          | none => rw [h4] at h; cases h; exact .inr ⟨rfl, rfl⟩
          | some xs =>
            rw [h4] at h
            simp only at h
            cases h5 : AV.fromFields A (.prod c fs) (xs.map .asm) 0 with
            | error _ => rw [h5] at h; cases h
            | ok y => rw [h5] at h; cases h; exact .inl ⟨xs, y, rfl, h5, rfl⟩
      · rw [if_neg h2] at h; cases h

theorem sum_inv {A : Ty → Except Err AsmObj} {c : Nat} {fs : Fields} {b r : List BEntry} (h : simplifyBinding A (.sum c fs) b = .ok r) :
    (isLeafBinding b = true ∧ r = b) ∨ (isLeafBinding b = false ∧ ∃ k r0, b ≠ [] ∧ SB.Heads [k] b ∧ simplifyAt A fs k (subBinding k b) = .ok r0 ∧
      ((∃ x y, r0 = [(.val x, [])] ∧ AV.fromOption A (.sum c fs) k (.asm x) none 0 = .ok y ∧ r = [(.val y, [])]) ∨
        ((∀ s q, r0 = [(s, q)] → ∃ w, s = .path w) ∧ r = addPrefix k r0))) := by
  simp only [simplifyBinding] at h
  cases hb : isLeafBinding b with
  | true => rw [hb, if_pos rfl] at h; cases h; exact .inl ⟨rfl, rfl⟩
  | false =>
    rw [hb] at h
    simp only [Bool.false_eq_true, if_false] at h
    right
    refine ⟨rfl, ?_⟩
    match b, h with
    | (s, k :: p) :: b, h =>
      simp only at h
      cases h1 : stripOption k ((s, k :: p) :: b) with
      | error _ => rw [h1] at h; cases h
      | ok sub =>
        have hh := strip_inv h1
        have h2 := SB.strip_spec hh
        rw [h1] at h2
        cases h2
        rw [h1] at h
        simp only at h
        cases h3 : simplifyAt A fs k (subBinding k ((s, k :: p) :: b)) with
        | error _ => rw [h3] at h; cases h
        | ok r0 =>
          rw [h3] at h
          refine ⟨k, r0, by simp, hh, h3, ?_⟩
          match r0, h with
          | [(.val x, q)], h =>
            simp only at h
            by_cases hq : q = []
            · subst hq
              rw [if_pos rfl] at h
              cases h5 : AV.fromOption A (.sum c fs) k (.asm x) none 0 with
              | error _ => rw [h5] at h; cases h
              | ok y => rw [h5] at h; cases h; exact .inl ⟨x, y, rfl, h5, rfl⟩
            · rw [if_neg hq] at h; cases h
          | [(.unbound, q)], h =>
            simp only at h
            split at h <;> cases h
          | [(.path w, q)], h =>
            cases h
            exact .inr ⟨(by intro s q he; cases he; exact ⟨w, rfl⟩), rfl⟩
          | [], h => cases h; exact .inr ⟨(by intro s q he; cases he), rfl⟩
          | _ :: _ :: _, h =>
            simp only at h
            cases h
            exact .inr ⟨(by intro s q he; cases he), rfl⟩

theorem leaf_inv {A : Ty → Except Err AsmObj} {t : Ty} {b r : List BEntry} (ht : VF.IsLeaf t) (h : simplifyBinding A t b = .ok r) :
    isLeafBinding b = true ∧ r = b := by
  rcases ht with ⟨c, w, rfl⟩ | ⟨c, rfl⟩ | ⟨c, ms, rfl⟩ <;>
  · simp only [simplifyBinding] at h
    cases hb : isLeafBinding b with
    | true => rw [hb, if_pos rfl] at h; cases h; exact ⟨rfl, rfl⟩
    | false => rw [hb] at h; cases h

theorem rows_inv {A : Ty → Except Err AsmObj} {fs : Fields} {b : List BEntry} : ∀ {order : List Key} {rows : List (Key × List BEntry)},
    exMap (fun k => dictItem k (simplifyAt A fs k (subBinding k b))) order = .ok rows →
    List.Forall₂ (fun k row => row.1 = k ∧ simplifyAt A fs k (subBinding k b) = .ok row.2) order rows := by
  intro order rows h
  refine (RF.exMap_forall₂ h).imp ?_
  intro k row hr
  simp only [dictItem] at hr
  split at hr
  · cases hr
  · next r' hr' => cases hr; exact ⟨rfl, hr'⟩

theorem leafB {b : List BEntry} (h : isLeafBinding b = true) : ∃ s, b = [(s, [])] := by
  match b, h with
  | [(s, [])], _ => exact ⟨s, rfl⟩

/-- Entries of the result are values or entries of the binding. -/
theorem mem_out {A : Ty → Except Err AsmObj} : ∀ (t : Ty) (b r : List BEntry), simplifyBinding A t b = .ok r → ∀ e ∈ r, e.1.isVal = true ∨ e ∈ b := by
  refine tyInd ?_ ?_ ?_ ?_ ?_
  · intro c w b r h e he; rw [(leaf_inv (.inl ⟨c, w, rfl⟩) h).2] at he; exact .inr he
  · intro c b r h e he; rw [(leaf_inv (.inr (.inl ⟨c, rfl⟩)) h).2] at he; exact .inr he
  · intro c ms b r h e he; rw [(leaf_inv (.inr (.inr ⟨c, ms, rfl⟩)) h).2] at he; exact .inr he
  · intro c fs ih b r h e he
    rcases prod_inv h with ⟨_, rfl⟩ | ⟨_, order, rows, _, _, h3, ⟨xs, y, _, _, rfl⟩ | ⟨_, rfl⟩⟩
    · exact .inr he
    · rw [List.mem_singleton] at he; subst he; exact .inl rfl
    · obtain ⟨⟨k, r0⟩, hm, he⟩ := List.mem_flatMap.mp he
      obtain ⟨e0, he0, rfl⟩ := List.mem_map.mp he
      obtain ⟨k', _, hk, h5⟩ := SF.mem_right_of_forall₂ (rows_inv h3) _ hm
      obtain ⟨t, h6, h7⟩ := at_inv h5
      rcases ih _ t h6 _ _ h7 e0 he0 with h8 | h8
      · exact .inl h8
      · simp only at hk; subst hk
        exact .inr (sub_mem.mp h8)
  · intro c fs ih b r h e he
    rcases sum_inv h with ⟨_, rfl⟩ | ⟨_, k, r0, _, _, h3, ⟨x, y, _, _, rfl⟩ | ⟨_, rfl⟩⟩
    · exact .inr he
    · rw [List.mem_singleton] at he; subst he; exact .inl rfl
    · obtain ⟨e0, he0, rfl⟩ := List.mem_map.mp he
      obtain ⟨t, h6, h7⟩ := at_inv h3
      rcases ih _ t h6 _ _ h7 e0 he0 with h8 | h8
      · exact .inl h8
      · exact .inr (sub_mem.mp h8)

theorem out_ne {A : Ty → Except Err AsmObj} : ∀ (t : Ty) (b r : List BEntry), simplifyBinding A t b = .ok r → r ≠ [] := by
  have hleaf : ∀ b r : List BEntry, isLeafBinding b = true ∧ r = b → r ≠ [] := by
    rintro b r ⟨h, rfl⟩ h0
    subst h0
    cases h
  refine tyInd ?_ ?_ ?_ ?_ ?_
  · intro c w b r h; exact hleaf _ _ (leaf_inv (.inl ⟨c, w, rfl⟩) h)
  · intro c b r h; exact hleaf _ _ (leaf_inv (.inr (.inl ⟨c, rfl⟩)) h)
  · intro c ms b r h; exact hleaf _ _ (leaf_inv (.inr (.inr ⟨c, ms, rfl⟩)) h)
  · intro c fs ih b r h
    rcases prod_inv h with h | ⟨_, order, rows, _, h2, h3, ⟨xs, y, _, _, rfl⟩ | ⟨h4, rfl⟩⟩
    · exact hleaf _ _ h
    · simp
    · intro h0
      obtain ⟨k0, hk0, _⟩ := SB.fieldValues_none h4
      have hlen := (rows_inv h3).length_eq
      have : rows ≠ [] := by
        rintro rfl
        rw [List.length_nil] at hlen
        rw [hlen, eq_comm, List.length_eq_zero_iff] at h2
        rw [h2] at hk0
        simp at hk0
      obtain ⟨row, hrow⟩ := List.exists_mem_of_ne_nil _ this
      obtain ⟨k', _, _, h5⟩ := SF.mem_right_of_forall₂ (rows_inv h3) _ hrow
      obtain ⟨t, h6, h7⟩ := at_inv h5
      have := ih _ t h6 _ _ h7
      have h8 := List.flatMap_eq_nil_iff.mp h0 row hrow
      simp only [addPrefix, List.map_eq_nil_iff] at h8
      exact this h8
  · intro c fs ih b r h
    rcases sum_inv h with h | ⟨_, k, r0, _, _, h3, ⟨x, y, _, _, rfl⟩ | ⟨_, rfl⟩⟩
    · exact hleaf _ _ h
    · simp
    · obtain ⟨t, h6, h7⟩ := at_inv h3
      have := ih _ t h6 _ _ h7
      simpa [addPrefix] using this

theorem sub_all {k : Key} : ∀ {b : List BEntry}, SB.Heads [k] b → b = addPrefix k (subBinding k b)
  | [], _ => rfl
  | (s, p) :: b, h => by
    obtain ⟨k', q, hp, hk⟩ := h _ List.mem_cons_self
    simp only at hp
    subst hp
    rw [List.mem_singleton] at hk
    subst hk
    simp only [subBinding, if_true, addPrefix, List.map_cons, List.cons.injEq, true_and]
    exact sub_all (fun e he => h e (List.mem_cons_of_mem _ he))

/-- A single `Unbound` entry comes from a single `Unbound` entry. -/
theorem lone_out {A : Ty → Except Err AsmObj} : ∀ (t : Ty) (b : List BEntry) (q : RPath), simplifyBinding A t b = .ok [(.unbound, q)] → b = [(.unbound, q)] := by
  refine tyInd ?_ ?_ ?_ ?_ ?_
  · intro c w b q h; exact (leaf_inv (.inl ⟨c, w, rfl⟩) h).2.symm
  · intro c b q h; exact (leaf_inv (.inr (.inl ⟨c, rfl⟩)) h).2.symm
  · intro c ms b q h; exact (leaf_inv (.inr (.inr ⟨c, ms, rfl⟩)) h).2.symm
  · intro c fs ih b q h
    rcases prod_inv h with ⟨_, h⟩ | ⟨_, order, rows, h1, h2, h3, ⟨xs, y, _, _, h5⟩ | ⟨h4, h5⟩⟩
    · exact h.symm
    · cases h5
    · have hf := rows_inv h3
      have hne : ∀ row ∈ rows, row.2 ≠ [] := by
        intro row hrow
        obtain ⟨k', _, _, h5⟩ := SF.mem_right_of_forall₂ hf _ hrow
        obtain ⟨t, h6, h7⟩ := at_inv h5
        exact out_ne _ _ _ h7
      have h1' := SB.fields_spec (acc := []) (heads_inv h1) List.nodup_nil
      rw [h1] at h1'
      obtain ⟨_, he, _, hord⟩ := h1'
      cases he
      match rows, h5, hf, hne with
      | [], h5, _, _ => cases h5
      | [(k, r0)], h5, hf, _ =>
        simp only [List.flatMap_cons, List.flatMap_nil, List.append_nil] at h5
        obtain ⟨q', h6, _⟩ := prefix_sing h5.symm
        subst h6
        cases hf with
        | cons hr hnil =>
          cases hnil
          obtain ⟨hk, hr⟩ := hr
          simp only at hk
          subst hk
          obtain ⟨t, h6, h7⟩ := at_inv hr
          have := ih _ t h6 _ _ h7
          have hall : SB.Heads [k] b := by
            intro e he
            obtain ⟨k', p, hp, _⟩ := heads_inv h1 e he
            refine ⟨k', p, hp, ?_⟩
            exact (hord k').mpr (.inr ⟨e, he, p, hp⟩)
          rw [sub_all hall, this]
          exact h5.symm
      | (k, r0) :: (k', r1) :: rows, h5, _, hne =>
        have h6 := hne _ List.mem_cons_self
        have h7 := hne (k', r1) (by simp)
        have := congrArg List.length h5
        simp only [List.flatMap_cons, List.length_append, addPrefix, List.length_map, List.length_cons, List.length_nil] at this
        have h8 := List.length_pos_iff.mpr h6
        have h9 := List.length_pos_iff.mpr h7
        simp only at h8 h9
        omega
  · intro c fs ih b q h
    rcases sum_inv h with ⟨_, h⟩ | ⟨_, k, r0, _, _, h3, ⟨x, y, _, _, h5⟩ | ⟨h4, h5⟩⟩
    · exact h.symm
    · cases h5
    · obtain ⟨q', h6, _⟩ := prefix_sing h5.symm
      obtain ⟨w, hw⟩ := h4 _ _ h6
      cases hw

/-- A single `Unbound` entry stays as it is. -/
theorem lone_in {A : Ty → Except Err AsmObj} : ∀ (t : Ty) (q : RPath) (r : List BEntry), simplifyBinding A t [(.unbound, q)] = .ok r → r = [(.unbound, q)] := by
  refine tyInd ?_ ?_ ?_ ?_ ?_
  · intro c w q r h; exact (leaf_inv (.inl ⟨c, w, rfl⟩) h).2
  · intro c q r h; exact (leaf_inv (.inr (.inl ⟨c, rfl⟩)) h).2
  · intro c ms q r h; exact (leaf_inv (.inr (.inr ⟨c, ms, rfl⟩)) h).2
  · intro c fs ih q r h
    rcases prod_inv h with ⟨_, h⟩ | ⟨_, order, rows, h1, h2, h3, h4⟩
    · exact h
    · obtain ⟨k, p, hp, hk⟩ := heads_inv h1 _ List.mem_cons_self
      simp only at hp
      subst hp
      simp only [bindingFields, if_pos hk, List.not_mem_nil, if_false, List.nil_append, Except.ok.injEq] at h1
      subst h1
      have hf := rows_inv h3
      cases hf with
      | @cons _ row _ rows' hr hnil =>
        cases hnil
        obtain ⟨k0, r0⟩ := row
        obtain ⟨hk0, hr⟩ := hr
        simp only at hk0
        subst hk0
        obtain ⟨t, h6, h7⟩ := at_inv hr
        simp only [subBinding, if_true] at h7
        have := ih _ t h6 _ _ h7
        subst this
        rcases h4 with ⟨xs, y, h4, _, _⟩ | ⟨_, rfl⟩
        · exfalso
          have := SB.fieldValues_some h4
          obtain ⟨x, _, hx⟩ := mem_left this _ hk
          simp [fieldValue] at hx
        · rfl
  · intro c fs ih q r h
    rcases sum_inv h with ⟨_, h⟩ | ⟨_, k, r0, _, hh, h3, h4⟩
    · exact h
    · obtain ⟨k', p, hp, hk⟩ := hh _ List.mem_cons_self
      simp only at hp
      subst hp
      rw [List.mem_singleton] at hk
      subst hk
      obtain ⟨t, h6, h7⟩ := at_inv h3
      simp only [subBinding, if_true] at h7
      have := ih _ t h6 _ _ h7
      subst this
      rcases h4 with ⟨x, y, h4, _, _⟩ | ⟨h4, _⟩
      · cases h4
      · obtain ⟨w, hw⟩ := h4 _ _ rfl
        cases hw

/-! ## the same binding with paths in place of `Unbound` -/

theorem rel_sub {k : Key} {b b' : List BEntry} (h : List.Forall₂ Rel b b') : List.Forall₂ Rel (subBinding k b) (subBinding k b') := by
  induction h with
  | nil => exact .nil
  | @cons e e' b b' h1 _ ih =>
    obtain ⟨s, p⟩ := e
    obtain ⟨s', p'⟩ := e'
    obtain ⟨hp, hs⟩ := h1
    simp only at hp
    subst hp
    cases p with
    | nil => exact ih
    | cons k' p =>
      simp only [subBinding]
      by_cases hk : k' = k
      · rw [if_pos hk, if_pos hk]; exact .cons ⟨rfl, hs⟩ ih
      · rw [if_neg hk, if_neg hk]; exact ih

theorem rel_prefix {k : Key} {b b' : List BEntry} (h : List.Forall₂ Rel b b') : List.Forall₂ Rel (addPrefix k b) (addPrefix k b') := by
  induction h with
  | nil => exact .nil
  | cons h1 _ ih => exact .cons ⟨by simp only [h1.1], h1.2⟩ ih

theorem rel_leaf {b b' : List BEntry} (h : List.Forall₂ Rel b b') : isLeafBinding b = isLeafBinding b' := by
  cases h with
  | nil => rfl
  | @cons e e' b b' h1 h2 =>
    obtain ⟨s, p⟩ := e
    obtain ⟨s', p'⟩ := e'
    obtain ⟨hp, hs⟩ := h1
    simp only at hp
    subst hp
    cases h2 with
    | nil => cases p <;> rfl
    | cons _ _ => simp [isLeafBinding]

theorem rel_fields {names : List Key} {b b' : List BEntry} (h : List.Forall₂ Rel b b') : ∀ acc, bindingFields names b acc = bindingFields names b' acc := by
  induction h with
  | nil => intro _; rfl
  | @cons e e' b b' h1 h2 ih =>
    intro acc
    obtain ⟨s, p⟩ := e
    obtain ⟨s', p'⟩ := e'
    obtain ⟨hp, hs⟩ := h1
    simp only at hp
    subst hp
    cases p with
    | nil => rfl
    | cons k p => simp only [bindingFields, ih]

theorem rel_heads {names : List Key} {b b' : List BEntry} (h : List.Forall₂ Rel b b') (hb : SB.Heads names b') : SB.Heads names b := by
  intro e he
  obtain ⟨e', he', hr⟩ := mem_left h e he
  obtain ⟨k, p, hp, hk⟩ := hb e' he'
  exact ⟨k, p, hr.1.trans hp, hk⟩

theorem rel_value {b b' : List BEntry} (h : List.Forall₂ Rel b b') : fieldValue b = fieldValue b' := by
  cases h with
  | nil => rfl
  | @cons e e' b b' h1 h2 =>
    obtain ⟨s, p⟩ := e
    obtain ⟨s', p'⟩ := e'
    obtain ⟨hp, hs⟩ := h1
    cases h2 with
    | nil =>
      simp only at hs
      rcases hs with ⟨rfl, hn⟩ | ⟨rfl, q, rfl⟩
      · cases s <;> rfl
      · rfl
    | cons _ _ => simp [fieldValue]

/-- The two rows are for the same field, with related bindings. -/
def RowRel (row row' : Key × List BEntry) : Prop := row.1 = row'.1 ∧ List.Forall₂ Rel row.2 row'.2

theorem rel_lookup {rows rows' : List (Key × List BEntry)} (h : List.Forall₂ RowRel rows rows') (k : Key) :
    (rows.lookup k).bind fieldValue = (rows'.lookup k).bind fieldValue := by
  induction h with
  | nil => rfl
  | @cons r r' rows rows' h1 _ ih =>
    obtain ⟨k1, r1⟩ := r
    obtain ⟨k2, r2⟩ := r'
    obtain ⟨hk, hr⟩ := h1
    simp only at hk hr
    subst hk
    simp only [List.lookup_cons]
    cases k == k1
    · exact ih
    · exact rel_value hr

theorem rel_values {rows rows' : List (Key × List BEntry)} (h : List.Forall₂ RowRel rows rows') : ∀ names, fieldValues rows names = fieldValues rows' names
  | [] => rfl
  | k :: names => by simp only [fieldValues, rel_lookup h k, rel_values h names]

theorem rel_flat {rows rows' : List (Key × List BEntry)} (h : List.Forall₂ RowRel rows rows') :
    List.Forall₂ Rel (rows.flatMap (fun r => addPrefix r.1 r.2)) (rows'.flatMap (fun r => addPrefix r.1 r.2)) := by
  induction h with
  | nil => exact .nil
  | @cons r r' rows rows' h1 _ ih =>
    simp only [List.flatMap_cons]
    refine List.rel_append ?_ ih
    rw [h1.1]
    exact rel_prefix h1.2

theorem exMap_error {α β : Type} {f : α → Except Err β} : ∀ {l : List α} {a : α} {e : Err}, a ∈ l → f a = .error e → ∃ e', exMap f l = .error e'
  | [], _, _, h, _ => by simp at h
  | x :: l, a, e, h, hf => by
    simp only [exMap]
    cases hx : f x with
    | error e' => exact ⟨e', rfl⟩
    | ok y =>
      rcases List.mem_cons.mp h with rfl | h
      · rw [hf] at hx; cases hx
      · obtain ⟨e', he'⟩ := exMap_error h hf
        exact ⟨e', by simp only [he']⟩

/-- What the call on `b` does, given what the call on `b'` does. -/
def Sim (A : Ty → Except Err AsmObj) (t : Ty) : Prop := ∀ b b' c', List.Forall₂ Rel b b' → simplifyBinding A t b' = .ok c' →
  (¬ LoneUnbound t b → ∃ c, simplifyBinding A t b = .ok c ∧ List.Forall₂ Rel c c') ∧ (LoneUnbound t b → ∃ e, simplifyBinding A t b = .error e)

theorem leaf_ok {A : Ty → Except Err AsmObj} {t : Ty} {b : List BEntry} (h : isLeafBinding b = true) : simplifyBinding A t b = .ok b := by
  cases t <;> simp only [simplifyBinding, h, if_true]

theorem sub_leaf {k : Key} {b : List BEntry} (h : isLeafBinding b = true) : subBinding k b = [] := by
  obtain ⟨s, rfl⟩ := leafB h
  rfl

theorem sim_leaf {A : Ty → Except Err AsmObj} {t : Ty} (ht : VF.IsLeaf t) : Sim A t := by
  intro b b' c' hr h
  obtain ⟨h1, rfl⟩ := leaf_inv ht h
  rw [← rel_leaf hr] at h1
  exact ⟨fun _ => ⟨b, leaf_ok h1, hr⟩, fun hl => absurd hl (lone_leaf ht)⟩

theorem sim_prod {A : Ty → Except Err AsmObj} {c : Nat} {fs : Fields} (ih : ∀ k t, fs.toList.lookup k = some t → Sim A t) : Sim A (.prod c fs) := by
  intro b b' c' hr h
  rcases prod_inv h with ⟨h1, rfl⟩ | ⟨hlf, order, rows', h1, h2, h3, h4⟩
  · rw [← rel_leaf hr] at h1
    refine ⟨fun _ => ⟨b, leaf_ok h1, hr⟩, fun hl => ?_⟩
    obtain ⟨k, t, _, hl⟩ := lone_prod.mp hl
    rw [sub_leaf h1] at hl
    exact absurd hl lone_nil
  · rw [← rel_leaf hr] at hlf
    rw [← rel_fields hr] at h1
    have hheads := heads_inv h1
    have h1' := SB.fields_spec (acc := []) hheads List.nodup_nil
    rw [h1] at h1'
    obtain ⟨_, he, _, hord⟩ := h1'
    cases he
    have hf' := rows_inv h3
    have hfield : ∀ k ∈ order, ∃ t c0, fs.toList.lookup k = some t ∧ simplifyBinding A t (subBinding k b') = .ok c0 := by
      intro k hk
      obtain ⟨row, _, _, h5⟩ := mem_left hf' k hk
      obtain ⟨t, h6, h7⟩ := at_inv h5
      exact ⟨t, _, h6, h7⟩
    constructor
    · intro hl
      have hstep : ∀ (os : List Key) (rs' : List (Key × List BEntry)), (∀ k ∈ os, k ∈ order) →
          List.Forall₂ (fun k row => row.1 = k ∧ simplifyAt A fs k (subBinding k b') = .ok row.2) os rs' →
          ∃ rs, exMap (fun k => dictItem k (simplifyAt A fs k (subBinding k b))) os = .ok rs ∧ List.Forall₂ RowRel rs rs' := by
        intro os rs' hos hfa
        induction hfa with
        | nil => exact ⟨[], rfl, .nil⟩
        | @cons k row os rs' h5 _ ih2 =>
          obtain ⟨rs, h6, h7⟩ := ih2 (fun k hk => hos k (List.mem_cons_of_mem _ hk))
          obtain ⟨hk, h5⟩ := h5
          obtain ⟨t, h8, h9⟩ := at_inv h5
          have hnl : ¬ LoneUnbound t (subBinding k b) := fun h => hl (lone_prod.mpr ⟨k, t, h8, h⟩)
          obtain ⟨r0, h10, h11⟩ := (ih k t h8 _ _ _ (rel_sub hr) h9).1 hnl
          refine ⟨(k, r0) :: rs, ?_, .cons ⟨hk.symm, h11⟩ h7⟩
          have hd : dictItem k (simplifyAt A fs k (subBinding k b)) = .ok (k, r0) := by rw [at_eq A fs k t _ h8, h10]; rfl
          simp only [exMap, hd, h6]
      obtain ⟨rows, h5, h6⟩ := hstep order rows' (fun _ h => h) hf'
      have hv := rel_values h6 (fs.toList.map (·.1))
      rcases h4 with ⟨xs, y, h7, h8, rfl⟩ | ⟨h7, rfl⟩
      · refine ⟨[(.val y, [])], ?_, .cons ⟨rfl, .inl ⟨rfl, by simp⟩⟩ .nil⟩
        simp only [simplifyBinding, hlf, h1, h2, h5, hv, h7, h8, if_true, Bool.false_eq_true, if_false]
      · refine ⟨_, ?_, rel_flat h6⟩
        simp only [simplifyBinding, hlf, h1, h2, h5, hv, h7, if_true, Bool.false_eq_true, if_false]
    · intro hl
      obtain ⟨k, t, h5, hl⟩ := lone_prod.mp hl
      have hk : k ∈ order := by
        have : subBinding k b ≠ [] := by
          intro h0; rw [h0] at hl; exact lone_nil hl
        obtain ⟨⟨s, p⟩, he⟩ := List.exists_mem_of_ne_nil _ this
        exact (hord k).mpr (.inr ⟨_, sub_mem.mp he, p, rfl⟩)
      obtain ⟨t', c0, h6, h7⟩ := hfield k hk
      rw [h5] at h6
      cases h6
      obtain ⟨e, he⟩ := (ih k t h5 _ _ _ (rel_sub hr) h7).2 hl
      obtain ⟨e', he'⟩ := exMap_error (f := fun k => dictItem k (simplifyAt A fs k (subBinding k b))) (e := e) hk
        (by simp only [at_eq A fs k t _ h5, he, dictItem])
      exact ⟨e', by simp only [simplifyBinding, hlf, h1, h2, he', if_true, Bool.false_eq_true, if_false]⟩

theorem sim_sum {A : Ty → Except Err AsmObj} {c : Nat} {fs : Fields} (ih : ∀ k t, fs.toList.lookup k = some t → Sim A t) : Sim A (.sum c fs) := by
  intro b b' c' hr h
  rcases sum_inv h with ⟨h1, rfl⟩ | ⟨hlf, k, r0', hne, hh, h3, h4⟩
  · rw [← rel_leaf hr] at h1
    refine ⟨fun _ => ⟨b, leaf_ok h1, hr⟩, fun hl => ?_⟩
    rcases lone_sum.mp hl with ⟨k, q, rfl⟩ | ⟨k, t, _, hl⟩
    · cases h1
    · rw [sub_leaf h1] at hl
      exact absurd hl lone_nil
  · rw [← rel_leaf hr] at hlf
    have hh' := rel_heads hr hh
    obtain ⟨t, h5, h6⟩ := at_inv h3
    have hst := SB.strip_spec hh'
    obtain ⟨s, p, b0, rfl⟩ : ∃ s p b0, b = (s, k :: p) :: b0 := by
      cases hr with
      | nil => exact absurd rfl hne
      | @cons e e' b0 b1 _ _ =>
        obtain ⟨k', p, hp, hk⟩ := hh' _ List.mem_cons_self
        rw [List.mem_singleton] at hk
        subst hk
        exact ⟨e.1, p, b0, by rw [← hp]⟩
    have hcall : simplifyBinding A (.sum c fs) ((s, k :: p) :: b0) =
        match simplifyAt A fs k (subBinding k ((s, k :: p) :: b0)) with
          | .error e => .error e
          | .ok [(.val x, q)] =>
            if q = [] then
              match AV.fromOption A (.sum c fs) k (.asm x) none 0 with
              | .error e => .error e
              | .ok y => .ok [(.val y, [])]
            else .error .assertionError
          | .ok [(.unbound, q)] =>
            if q = [] then .error .typeError else .error .assertionError
          | .ok r => .ok (addPrefix k r) := by
      simp only [simplifyBinding, hlf, hst, Bool.false_eq_true, if_false]
      cases simplifyAt A fs k (subBinding k ((s, k :: p) :: b0)) with
      | error _ => rfl
      | ok r =>
        match r with
        | [] => rfl
        | [(.val _, _)] => rfl
        | [(.unbound, _)] => rfl
        | [(.path _, _)] => rfl
        | _ :: _ :: _ => simp only
    rw [hcall, at_eq A fs k t _ h5]
    generalize hb : (s, k :: p) :: b0 = b at *
    have hsim := ih k t h5 _ _ _ (rel_sub (k := k) hr) h6
    constructor
    · intro hl
      have hnl : ¬ LoneUnbound t (subBinding k b) := fun h => hl (lone_sum.mpr (.inr ⟨k, t, h5, h⟩))
      obtain ⟨r0, h7, h8⟩ := hsim.1 hnl
      rw [h7]
      rcases h4 with ⟨x, y, rfl, h9, rfl⟩ | ⟨h9, rfl⟩
      · obtain ⟨e, r1, hrel, hnil, rfl⟩ := List.forall₂_cons_right_iff.mp h8
        cases hnil
        obtain ⟨s1, q1⟩ := e
        obtain ⟨hq, hs⟩ := hrel
        simp only at hq hs
        subst hq
        rcases hs with ⟨rfl, _⟩ | ⟨_, w, hw⟩
        · exact ⟨[(.val y, [])], by simp only [if_true, h9], .cons ⟨rfl, .inl ⟨rfl, by simp⟩⟩ .nil⟩
        · cases hw
      · have hok : (∀ x q, r0 ≠ [(.val x, q)]) ∧ ∀ q, r0 ≠ [(.unbound, q)] := by
          constructor
          · rintro x q rfl
            obtain ⟨e', r1, hrel, hnil, rfl⟩ := List.forall₂_cons_left_iff.mp h8
            cases hnil
            obtain ⟨w, hw⟩ := h9 _ _ rfl
            rcases hrel.2 with ⟨h, _⟩ | ⟨h, _⟩
            · rw [hw] at h; cases h
            · cases h
          · rintro q rfl
            have := lone_out _ _ _ h7
            have hb' := sub_all hh'
            rw [this] at hb'
            exact hl (lone_sum.mpr (.inl ⟨k, q, hb'⟩))
        refine ⟨addPrefix k r0, ?_, rel_prefix h8⟩
        match r0, hok with
        | [(.val x, q)], hok => exact absurd rfl (hok.1 x q)
        | [(.unbound, q)], hok => exact absurd rfl (hok.2 q)
        | [(.path w, q)], _ => rfl
        | [], _ => rfl
        | _ :: _ :: _, _ => simp only
    · intro hl
      rcases lone_sum.mp hl with ⟨k1, q, hb1⟩ | ⟨k1, t1, h7, hl1⟩
      · subst hb1
        cases hb
        cases h7 : simplifyBinding A t (subBinding k [(BSrc.unbound, k :: p)]) with
        | error e => exact ⟨e, rfl⟩
        | ok r =>
          simp only [subBinding, if_true] at h7
          have := lone_in _ _ _ h7
          subst this
          by_cases hp : p = []
          · exact ⟨.typeError, by simp [hp]⟩
          · exact ⟨.assertionError, by simp [hp]⟩
      · have hk : k1 = k := by
          have : subBinding k1 b ≠ [] := by
            intro h0; rw [h0] at hl1; exact lone_nil hl1
          obtain ⟨⟨s1, p1⟩, he⟩ := List.exists_mem_of_ne_nil _ this
          obtain ⟨k', p', hp', hk'⟩ := hh' _ (sub_mem.mp he)
          rw [List.mem_singleton] at hk'
          simp only [List.cons.injEq] at hp'
          rw [hp'.1, hk']
        subst hk
        rw [h5] at h7
        cases h7
        obtain ⟨e, he⟩ := hsim.2 hl1
        exact ⟨e, by rw [he]⟩

theorem sim (A : Ty → Except Err AsmObj) : ∀ t, Sim A t :=
  tyInd (fun c w => sim_leaf (.inl ⟨c, w, rfl⟩)) (fun c => sim_leaf (.inr (.inl ⟨c, rfl⟩))) (fun c ms => sim_leaf (.inr (.inr ⟨c, ms, rfl⟩)))
    (fun _ _ ih => sim_prod ih) (fun _ _ ih => sim_sum ih)

/-! ## values in place of `Unbound` -/

theorem fresh (b : List BEntry) : ∃ K : Nat, ∀ q p, (BSrc.path q, p) ∈ b → ∀ k q', q = k :: q' → k ≠ K := by
  have : ∃ K : Nat, ∀ q p, (BSrc.path q, p) ∈ b → ∀ (k : Nat) q', q = k :: q' → k < K := by
    induction b with
    | nil => exact ⟨0, by simp⟩
    | cons e b ih =>
      obtain ⟨K, hK⟩ := ih
      obtain ⟨s, p0⟩ := e
      match s with
      | .path (k0 :: q0) =>
        refine ⟨K + (k0 : Nat) + 1, ?_⟩
        intro q p hm k q' hq
        rcases List.mem_cons.mp hm with h | h
        · cases h
          cases hq
          exact Nat.lt_succ_of_le (Nat.le_add_left _ _)
        · exact Nat.lt_of_lt_of_le (hK q p h k q' hq) (by omega)
      | .path [] | .unbound | .val _ =>
        refine ⟨K, ?_⟩
        intro q p hm k q' hq
        rcases List.mem_cons.mp hm with h | h
        · cases h <;> cases hq
        · exact hK q p h k q' hq
  obtain ⟨K, hK⟩ := this
  exact ⟨K, fun q p hm k q' hq h => Nat.lt_irrefl _ (h ▸ hK q p hm k q' hq)⟩

theorem rel_below {t : Ty} {r : RVal} {c c' : List BEntry} (h : List.Forall₂ Rel c c') :
    c.flatMap (fun e => leavesBelow t r e.2) = c'.flatMap (fun e => leavesBelow t r e.2) := by
  induction h with
  | nil => rfl
  | cons h _ ih => simp only [List.flatMap_cons, h.1, ih]

theorem simp_unbound (P : Process) (η : RPath → AV) (t : Ty) (r : RVal) (b : List BEntry) (hw : WF t) (hb : Buildable t) (hr : RHas t r)
    (h : BindsU P η t r b) :
    (¬ LoneUnbound t b → ∃ b', simplifyBinding P.asm t b = .ok b' ∧ GroupsU P η t r b b') ∧
      (LoneUnbound t b → ∃ e, simplifyBinding P.asm t b = .error e) := by
  obtain ⟨K, hK⟩ := fresh b
  obtain ⟨L, hL, hbL⟩ := h
  -- values for the markers
  let ν : RPath → AV := fun p => match (rawLeaves t r).lookup p with
    | some l => mkAV l.1 l.2
    | none => .bit false
  let η' : RPath → AV := fun q => match q with
    | [] => η []
    | k :: p => if k = K then ν p else η (k :: p)
  let mark : BEntry → BEntry := fun e => match e with
    | (.unbound, p) => (.path (K :: p), p)
    | e => e
  have hrel : List.Forall₂ Rel b (b.map mark) := by
    rw [List.forall₂_map_right_iff]
    refine List.forall₂_same.mpr ?_
    rintro ⟨s, p⟩ _
    cases s with
    | unbound => exact ⟨rfl, .inr ⟨rfl, _, rfl⟩⟩
    | path q => exact ⟨rfl, .inl ⟨rfl, by simp⟩⟩
    | val x => exact ⟨rfl, .inl ⟨rfl, by simp⟩⟩
  have hη : ∀ q p, (BSrc.path q, p) ∈ b → η' q = η q := by
    intro q p hm
    cases q with
    | nil => rfl
    | cons k q => exact if_neg (hK _ _ hm k q rfl)
  have hbinds : Binds P η' t r (b.map mark) := by
    refine ⟨L, hL, ?_⟩
    rw [List.forall₂_map_left_iff]
    have hmemL : ∀ l ∈ L, l ∈ rawLeaves t r := fun l hl => hL.mem_iff.mp hl
    have hη2 : ∀ q p, (BSrc.path q, p) ∈ b → η' q = η q := hη
    clear hrel hL hK hη
    induction hbL with
    | nil => exact .nil
    | @cons e l b L h1 _ ih =>
      refine .cons ?_ (ih (fun l hl => hmemL l (List.mem_cons_of_mem _ hl)) (fun q p hm => hη2 q p (List.mem_cons_of_mem _ hm)))
      obtain ⟨s, p⟩ := e
      obtain ⟨hp, hs⟩ := h1
      simp only at hp
      subst hp
      cases s with
      | unbound =>
        refine ⟨rfl, ν l.1, ?_, ?_⟩
        · simp only [mark, BSrc.resolve, η', if_true]
        · have hm := hmemL l List.mem_cons_self
          have hlk : (rawLeaves t r).lookup l.1 = some l.2 := VF.lookup_of_mem' (VF.leaves_nodup hw hr) hm
          have hwl := (VF.types_leaf t hw _ (VF.mem_types hr hm)).2
          simp only [ν, hlk]
          exact new_asm P hwl _
      | path q =>
        rcases hs with hs | ⟨x, hx, hm⟩
        · cases hs
        · refine ⟨rfl, x, ?_, hm⟩
          simp only [mark, BSrc.resolve] at hx ⊢
          rw [hη2 q _ List.mem_cons_self]
          exact hx
      | val y =>
        rcases hs with hs | ⟨x, hx, hm⟩
        · cases hs
        · exact ⟨rfl, x, hx, hm⟩
  obtain ⟨c', hc', hg, _⟩ := SB.simp_ok P η' t r _ hw hb hr hbinds
  obtain ⟨h1, h2⟩ := sim P.asm t _ _ _ hrel hc'
  refine ⟨fun hl => ?_, h2⟩
  obtain ⟨c, hc, hcr⟩ := h1 hl
  refine ⟨c, hc, ?_, ?_⟩
  · intro e he
    obtain ⟨e', he', hp, hs⟩ := mem_left hcr e he
    rcases hs with ⟨hs, hn⟩ | ⟨hs, _⟩
    · right
      obtain ⟨u, s, g1, x, g2, g3⟩ := hg.1 e' he'
      refine ⟨u, s, by rw [hp]; exact g1, x, ?_, g3⟩
      rw [← hs] at g2
      obtain ⟨s0, p0⟩ := e
      cases s0 with
      | unbound => exact absurd rfl hn
      | val y => exact g2
      | path q =>
        simp only [BSrc.resolve] at g2 ⊢
        rcases mem_out t b c hc _ he with h | h
        · cases h
        · rw [← hη q p0 h]; exact g2
    · left
      refine ⟨hs, ?_⟩
      rcases mem_out t b c hc e he with h | h
      · rw [hs] at h; cases h
      · exact h
  · rw [rel_below hcr]
    exact hg.2

end SU
end Peak
