import Verif.Lemmas.AsmGood

namespace Peak
open Peak.Spec

theorem mem_tagsOf {ty : Ty} {l : List (Key × Ty)} {i x : Nat} :
    x ∈ tagsOf ty l i ↔ ∃ j k, x = i + j ∧ l[j]? = some (k, ty) := by
  induction l generalizing i with
  | nil => simp [tagsOf]
  | cons p l ih =>
    obtain ⟨k, t⟩ := p
    have key : (∃ j k', x = i + j ∧ ((k, t) :: l)[j]? = some (k', ty)) ↔
        (x = i ∧ t = ty) ∨ ∃ j k', x = i + 1 + j ∧ l[j]? = some (k', ty) := by
      constructor
      · rintro ⟨j, k', h1, h2⟩
        cases j with
        | zero => simp at h2; left; exact ⟨by omega, h2.2⟩
        | succ j => right; exact ⟨j, k', by omega, by simpa using h2⟩
      · rintro (⟨h1, h2⟩ | ⟨j, k', h1, h2⟩)
        · exact ⟨0, k, by omega, by simp [h2]⟩
        · exact ⟨j + 1, k', by omega, by simpa using h2⟩
    simp only [tagsOf]
    rw [key]
    split
    · next h => rw [List.mem_cons, ih]; simp [h]
    · next h => rw [ih]; simp [h]

theorem tagsOf_ge {ty : Ty} {l : List (Key × Ty)} {i x : Nat} (h : x ∈ tagsOf ty l i) : i ≤ x := by
  obtain ⟨j, k, h, _⟩ := mem_tagsOf.1 h; omega

theorem tagsOf_sorted (ty : Ty) (l : List (Key × Ty)) (i : Nat) : (tagsOf ty l i).Pairwise (· < ·) := by
  induction l generalizing i with
  | nil => simp [tagsOf]
  | cons p l ih =>
    simp only [tagsOf]
    split
    · rw [List.pairwise_cons]
      refine ⟨?_, ih _⟩
      intro x hx; have := tagsOf_ge hx; omega
    · exact ih _

def pairs (l : List (Key × Ty × AsmObj)) : List (Key × Ty) := l.map (fun x => (x.1, x.2.1))

/-- The tags recorded so far for a type. -/
def tagsIn (rows : List FRow) (ty : Ty) : List Nat :=
  match rows.find? (fun r => r.ty == ty) with
  | some r => r.tags
  | none => []

theorem find_upd (rows : List FRow) (ty ty' : Ty) (tag : Nat) :
    (rows.map (fun r => if r.ty == ty then { r with tags := r.tags ++ [tag] } else r)).find? (fun r => r.ty == ty') =
      (rows.find? (fun r => r.ty == ty')).map
        (fun r => if r.ty == ty then { r with tags := r.tags ++ [tag] } else r) := by
  rw [List.find?_map]
  congr 1
  congr 1
  funext r
  simp only [Function.comp]
  split <;> rfl

/-- Bookkeeping of the main loop, for any options. -/
theorem sumScan_spec (tw : Nat) : ∀ (l : List (Key × Ty × AsmObj)) (tag : Nat) (a a' : SumAcc),
    sumScan tw l tag a = .ok a' →
    a'.names.map (·.key) = a.names.map (·.key) ++ l.map (·.1) ∧
    a'.names.map (·.tag) = a.names.map (·.tag) ++ List.range' tag l.length ∧
    ((a.names.map (·.key)).Nodup → (a'.names.map (·.key)).Nodup) ∧
    ((a.rows.map (·.ty)).Nodup → (a'.rows.map (·.ty)).Nodup) ∧
    (∀ ty, tagsIn a'.rows ty = tagsIn a.rows ty ++ tagsOf ty (pairs l) tag) ∧
    (∀ ty, ty ∈ a'.rows.map (·.ty) ↔ ty ∈ a.rows.map (·.ty) ∨ ty ∈ l.map (·.2.1)) ∧
    (∀ r ∈ a'.rows, ((∃ r0 ∈ a.rows, r.ty = r0.ty ∧ r.obj = r0.obj ∧ r.lo = r0.lo ∧ r.hi = r0.hi) ∨
      ∃ x ∈ l, r.ty = x.2.1 ∧ r.obj = x.2.2 ∧ r.lo = tw ∧ r.hi = tw + x.2.2.width)) := by
  intro l
  induction l with
  | nil =>
    intro tag a a' h
    simp only [sumScan, Except.ok.injEq] at h
    subst h
    refine ⟨by simp, by simp, fun h => h, fun h => h, by simp [pairs, tagsOf], by simp, ?_⟩
    intro r hr; left; exact ⟨r, hr, rfl, rfl, rfl, rfl⟩
  | cons x l ih =>
    intro tag a a' h
    obtain ⟨k, ty, o⟩ := x
    simp only [sumScan] at h
    split at h
    · simp at h
    · next hk =>
      have hk' : k ∉ a.names.map (·.key) := by
        simp only [List.any_eq_true, not_exists, not_and] at hk
        intro hm
        obtain ⟨n, hn, hn'⟩ := List.mem_map.1 hm
        exact hk n hn (by simpa using hn')
      have hkn : (a.names.map (·.key)).Nodup → (a.names.map (·.key) ++ [k]).Nodup := by
        intro h
        rw [List.nodup_append]
        refine ⟨h, by simp, ?_⟩
        intro a ha b hb; simp only [List.mem_singleton] at hb; subst hb
        rintro rfl; exact hk' ha
      have hr' : List.range' tag ((k, ty, o) :: l).length = tag :: List.range' (tag + 1) l.length := by
        simp [List.range'_succ]
      split at h
      · next hf =>
        obtain ⟨i1, i2, i3, i4, i5, i6, i7⟩ := ih _ _ _ h
        have hty : ty ∉ a.rows.map (·.ty) := by
          intro hm
          obtain ⟨r, hr, hr'⟩ := List.mem_map.1 hm
          rw [List.find?_eq_none] at hf
          exact hf r hr (by simpa using hr')
        refine ⟨?_, ?_, ?_, ?_, ?_, ?_, ?_⟩
        · rw [i1]; simp
        · rw [i2, hr']; simp
        · intro h; apply i3; simpa using hkn h
        · intro h; apply i4
          simp only [List.map_append, List.map_cons, List.map_nil]
          rw [List.nodup_append]
          refine ⟨h, by simp, ?_⟩
          intro a ha b hb; simp only [List.mem_singleton] at hb; subst hb
          rintro rfl; exact hty ha
        · intro ty'
          rw [i5]
          simp only [tagsIn, pairs, List.map_cons, tagsOf, List.find?_append]
          by_cases ht : ty = ty'
          · subst ht
            rw [hf]
            simp
          · have e1 : (ty == ty') = false := by simpa using ht
            simp [e1, if_neg ht]
        · intro ty'; rw [i6]; simp; grind
        · intro r hr
          rcases i7 r hr with ⟨r0, h0, h1⟩ | ⟨x, hx, h1⟩
          · rcases List.mem_append.1 h0 with h0 | h0
            · left; exact ⟨r0, h0, h1⟩
            · simp only [List.mem_singleton] at h0
              subst h0
              right; exact ⟨_, List.mem_cons_self, h1⟩
          · right; exact ⟨x, List.mem_cons_of_mem _ hx, h1⟩
      · next r hf =>
        obtain ⟨i1, i2, i3, i4, i5, i6, i7⟩ := ih _ _ _ h
        have hmt : (a.rows.map (fun r => if r.ty == ty then { r with tags := r.tags ++ [tag] } else r)).map (·.ty)
            = a.rows.map (·.ty) := by
          rw [List.map_map]; apply List.map_congr_left
          intro r _; simp only [Function.comp]; split <;> rfl
        refine ⟨?_, ?_, ?_, ?_, ?_, ?_, ?_⟩
        · rw [i1]; simp
        · rw [i2, hr']; simp
        · intro h; apply i3; simpa using hkn h
        · intro h; apply i4; rw [hmt]; exact h
        · intro ty'
          rw [i5]
          simp only [tagsIn, pairs, List.map_cons, tagsOf, find_upd]
          by_cases ht : ty = ty'
          · subst ht
            have hrt : (r.ty == ty) = true := (List.find?_some hf :)
            rw [hf]
            simp only [Option.map_some, hrt, if_true, List.append_assoc, List.singleton_append]
          · rw [if_neg ht]
            cases hf' : a.rows.find? (fun r => r.ty == ty') with
            | none => simp
            | some r' =>
              have hrt : r'.ty = ty' := by simpa using (List.find?_some hf' :)
              have : ¬ r'.ty = ty := by rw [hrt]; exact fun h => ht h.symm
              simp [this]
        · intro ty'
          rw [i6, hmt]
          have : ty ∈ a.rows.map (·.ty) := by
            refine List.mem_map.2 ⟨r, List.mem_of_find?_eq_some hf, ?_⟩
            simpa using (List.find?_some hf :)
          simp only [List.map_cons, List.mem_cons]
          constructor
          · rintro (h | h)
            · left; exact h
            · right; right; exact h
          · rintro (h | h | h)
            · left; exact h
            · left; rw [h]; exact this
            · right; exact h
        · intro r' hr'
          rcases i7 r' hr' with ⟨r0, h0, h1⟩ | ⟨x, hx, h1⟩
          · left
            obtain ⟨r00, h2, h3⟩ := List.mem_map.1 h0
            refine ⟨r00, h2, ?_⟩
            rw [← h3] at h1
            split at h1 <;> exact h1
          · right; exact ⟨x, List.mem_cons_of_mem _ hx, h1⟩

/-- No error if the names are new and distinct. -/
theorem sumScan_ok (tw : Nat) : ∀ (l : List (Key × Ty × AsmObj)) (tag : Nat) (a : SumAcc),
    (l.map (·.1)).Nodup → (∀ k ∈ l.map (·.1), k ∉ a.names.map (·.key)) → ∃ a', sumScan tw l tag a = .ok a' := by
  intro l
  induction l with
  | nil => intro tag a _ _; exact ⟨a, rfl⟩
  | cons x l ih =>
    intro tag a hn hd
    obtain ⟨k, ty, o⟩ := x
    simp only [List.map_cons, List.nodup_cons] at hn
    have hk : ¬ (a.names.any (fun n => n.key == k)) = true := by
      intro h
      obtain ⟨n, hn, hn'⟩ := List.any_eq_true.1 h
      exact hd k (by simp) (List.mem_map.2 ⟨n, hn, by simpa using hn'⟩)
    simp only [sumScan]
    rw [if_neg hk]
    have hd' : ∀ k' ∈ l.map (·.1), k' ∉ a.names.map (·.key) ++ [k] := by
      intro k' hk' hm
      rcases List.mem_append.1 hm with hm | hm
      · exact hd k' (by simp only [List.map_cons, List.mem_cons]; exact Or.inr hk') hm
      · simp only [List.mem_singleton] at hm; exact hn.1 (hm ▸ hk')
    split
    · exact ih _ _ hn.2 (by simpa using hd')
    · exact ih _ _ hn.2 (by simpa using hd')

/-- The dicts `name_to_*` when the widths are those of the types. -/
def nameRows (tw : Nat) : List (Key × Ty) → Nat → List NRow
  | [], _ => []
  | (k, ty) :: l, tag => ⟨k, ty, tag, tw, tw + width ty⟩ :: nameRows tw l (tag + 1)

def maxW : List (Key × Ty) → Nat
  | [] => 0
  | (_, t) :: l => max (width t) (maxW l)

theorem sumScan_names (tw : Nat) : ∀ (l : List (Key × Ty × AsmObj)) (tag : Nat) (a a' : SumAcc),
    sumScan tw l tag a = .ok a' → (∀ x ∈ l, x.2.2.width = width x.2.1) →
    (∀ r ∈ a.rows, r.lo = tw ∧ r.hi = tw + width r.ty ∧ width r.ty ≤ a.payloadWidth) →
    a'.names = a.names ++ nameRows tw (pairs l) tag ∧
    a'.payloadWidth = max a.payloadWidth (maxW (pairs l)) := by
  intro l
  induction l with
  | nil =>
    intro tag a a' h _ _
    simp only [sumScan, Except.ok.injEq] at h
    subst h
    simp [nameRows, pairs, maxW]
  | cons x l ih =>
    intro tag a a' h hw hr
    obtain ⟨k, ty, o⟩ := x
    have hwo : o.width = width ty := hw (k, ty, o) (by simp)
    have hw' : ∀ x ∈ l, x.2.2.width = width x.2.1 := fun x hx => hw x (by simp [hx])
    simp only [sumScan] at h
    split at h
    · simp at h
    · split at h
      · have := ih _ _ _ h hw' (by
          intro r hr'
          rcases List.mem_append.1 hr' with hr' | hr'
          · obtain ⟨r1, r2, r3⟩ := hr r hr'
            exact ⟨r1, r2, by simp only; omega⟩
          · simp only [List.mem_singleton] at hr'
            subst hr'
            exact ⟨rfl, by simp only; rw [hwo], by simp only; omega⟩)
        rw [this.1, this.2]
        simp only [pairs, List.map_cons, nameRows, maxW, hwo]
        refine ⟨by simp, by omega⟩
      · next r hf =>
        have hrm := List.mem_of_find?_eq_some hf
        have hrt : r.ty = ty := by simpa using (List.find?_some hf :)
        obtain ⟨r1, r2, r3⟩ := hr r hrm
        have := ih _ _ _ h hw' (by
          intro r' hr'
          obtain ⟨r00, h2, h3⟩ := List.mem_map.1 hr'
          obtain ⟨q1, q2, q3⟩ := hr r00 h2
          rw [← h3]
          split <;> exact ⟨q1, q2, q3⟩)
        rw [this.1, this.2]
        simp only [pairs, List.map_cons, nameRows, maxW]
        rw [r1, r2, hrt]
        refine ⟨by simp, by rw [hrt] at r3; omega⟩

theorem nameRows_tag (tw : Nat) : ∀ (l : List (Key × Ty)) (t0 x : Nat),
    (nameRows tw l t0).find? (fun n => n.tag == t0 + x) =
      (l[x]?).map (fun p => ⟨p.1, p.2, t0 + x, tw, tw + width p.2⟩) := by
  intro l
  induction l with
  | nil => intro t0 x; simp [nameRows]
  | cons p l ih =>
    intro t0 x
    obtain ⟨k, t⟩ := p
    simp only [nameRows, List.find?_cons]
    cases x with
    | zero => simp
    | succ x =>
      have : (t0 == t0 + (x + 1)) = false := by simp
      simp only [this]
      have := ih (t0 + 1) x
      rw [show t0 + (x + 1) = t0 + 1 + x by omega, this]
      simp

/-- Position of an option. -/
theorem optionIndex_get : ∀ (fs : Fields) (k : Key), k ∈ fs.toList.map (·.1) →
    ∃ t, fs.toList[optionIndex fs k]? = some (k, t)
  | .nil, k, h => by simp [Fields.toList] at h
  | .cons k' t fs, k, h => by
    simp only [optionIndex, Fields.toList]
    split
    · next hk => exact ⟨t, by simp [hk]⟩
    · next hk =>
      simp only [Fields.toList, List.map_cons, List.mem_cons] at h
      obtain ⟨t', ht'⟩ := optionIndex_get fs k (h.resolve_left hk)
      exact ⟨t', by simpa using ht'⟩

theorem nameRows_key (tw : Nat) : ∀ (fs : Fields) (t0 : Nat) (k : Key),
    (nameRows tw fs.toList t0).find? (fun n => n.key == k) =
      if k ∈ fs.toList.map (·.1) then
        (fs.toList[optionIndex fs k]?).map (fun p => ⟨p.1, p.2, t0 + optionIndex fs k, tw, tw + width p.2⟩)
      else none
  | .nil, t0, k => by simp [nameRows, Fields.toList]
  | .cons k' t fs, t0, k => by
    simp only [Fields.toList, nameRows, List.find?_cons, optionIndex, List.map_cons, List.mem_cons]
    by_cases hk : k = k'
    · subst hk; simp
    · have : (k' == k) = false := by simpa using fun h => hk h.symm
      simp only [this, hk, false_or, if_false]
      rw [nameRows_key tw fs (t0 + 1) k]
      simp only [List.getElem?_cons_succ]
      rw [show t0 + 1 + optionIndex fs k = t0 + (optionIndex fs k + 1) by omega]

theorem readsAt_iff : ∀ (fs : Fields) (tag : Nat) (k : Key) (n : Nat) (v : Val),
    ReadsAt fs tag k n v ↔ ∃ t, fs.toList[tag]? = some (k, t) ∧ Reads t n v
  | .nil, tag, k, n, v => by simp [ReadsAt, Fields.toList]
  | .cons k' t fs, tag, k, n, v => by
    cases tag with
    | zero =>
      simp only [ReadsAt, Fields.toList, List.getElem?_cons_zero, Option.some.injEq, Prod.mk.injEq]
      constructor
      · rintro ⟨h1, h2⟩; exact ⟨t, ⟨h1.symm, rfl⟩, h2⟩
      · rintro ⟨t', ⟨h1, h2⟩, h3⟩; subst h2; exact ⟨h1.symm, h3⟩
    | succ tag =>
      simp only [ReadsAt, Fields.toList, List.getElem?_cons_succ]
      exact readsAt_iff fs tag k n v

/-- Encoding of an option, by position. -/
theorem encodeAt_get : ∀ (fs : Fields) (k : Key) (v : Val) (t : Ty),
    fs.toList[optionIndex fs k]? = some (k, t) → encodeAt fs k v = encode t v
  | .nil, k, v, t, h => by simp [Fields.toList] at h
  | .cons k' t' fs, k, v, t, h => by
    simp only [optionIndex, encodeAt, Fields.toList] at h ⊢
    split
    · next hk => rw [if_pos hk] at h; simp at h; rw [h.2]
    · next hk => rw [if_neg hk] at h; exact encodeAt_get fs k v t (by simpa using h)

theorem hasAt_get : ∀ (fs : Fields) (k : Key) (v : Val) (t : Ty), (fs.toList.map (·.1)).Nodup → fs.HasAt k v →
    fs.toList[optionIndex fs k]? = some (k, t) → t.Has v
  | .nil, k, v, t, _, h, _ => by simp [Fields.HasAt] at h
  | .cons k' t' fs, k, v, t, hn, h, hg => by
    simp only [Fields.toList, List.map_cons, List.nodup_cons] at hn
    simp only [optionIndex, Fields.HasAt, Fields.toList] at h hg
    by_cases hk : k = k'
    · rw [if_pos hk] at hg
      simp at hg
      rcases h with h | h
      · rw [← hg.2]; exact h.2
      · exact absurd (hk ▸ hasAt_mem fs k v h) hn.1
    · rw [if_neg hk] at hg
      exact hasAt_get fs k v t hn.2 (h.resolve_left (fun h => hk h.1)) (by simpa using hg)

theorem width_le_maxWidth : ∀ (fs : Fields) (i : Nat) (k : Key) (t : Ty),
    fs.toList[i]? = some (k, t) → width t ≤ maxWidth fs
  | .nil, i, k, t, h => by simp [Fields.toList] at h
  | .cons k' t' fs, i, k, t, h => by
    simp only [maxWidth]
    cases i with
    | zero => simp [Fields.toList] at h; rw [h.2]; omega
    | succ i => have := width_le_maxWidth fs i k t (by simpa [Fields.toList] using h); omega

theorem maxW_toList : ∀ (fs : Fields), maxW fs.toList = maxWidth fs
  | .nil => rfl
  | .cons k t fs => by simp [Fields.toList, maxW, maxWidth, maxW_toList fs]

theorem wfs_mem : ∀ (fs : Fields), WFs fs → ∀ (i : Nat) (k : Key) (t : Ty), fs.toList[i]? = some (k, t) → WF t
  | .nil, _, i, k, t, h => by simp [Fields.toList] at h
  | .cons k' t' fs, hw, i, k, t, h => by
    cases i with
    | zero => simp [Fields.toList] at h; rw [← h.2]; exact hw.1
    | succ i => exact wfs_mem fs hw.2 i k t (by simpa [Fields.toList] using h)

theorem goodAll_pairs {acc ex : Prop} : ∀ (fs : Fields) (l : List (Key × Ty × AsmObj)), GoodAll acc ex fs l →
    pairs l = fs.toList ∧ ∀ x ∈ l, Good acc ex x.2.1 x.2.2
  | .nil, l, hg => by cases l <;> simp only [GoodAll] at hg; simp [pairs, Fields.toList]
  | .cons k t fs, l, hg => by
    cases l with
    | nil => simp only [GoodAll] at hg
    | cons p l =>
      obtain ⟨k', t', o⟩ := p
      simp only [GoodAll] at hg
      obtain ⟨rfl, rfl, hg, hgs⟩ := hg
      obtain ⟨h1, h2⟩ := goodAll_pairs fs l hgs
      refine ⟨by simpa [pairs, Fields.toList] using h1, ?_⟩
      intro x hx
      rcases List.mem_cons.1 hx with hx | hx
      · subst hx; exact hg
      · exact h2 x hx

end Peak
