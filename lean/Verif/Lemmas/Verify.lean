import Verif.Spec.Verify
import Verif.Lemmas.SimplifyBinding
import Verif.Props.BBFormula
import Verif.Lemmas.ValueForms
/-!
# Lemmas about `build_inputs` and `verify`
-/

namespace Peak
open Peak.Spec
namespace VF

/-! ## paths of leaves -/

mutual
theorem types_pre : ∀ (t : Ty) (p : RPath), leafTypes t p = (leafTypes t []).map (fun l => (p ++ l.1, l.2))
  | .bv _ _, p => by simp [leafTypes]
  | .bit _, p => by simp [leafTypes]
  | .enum _ _, p => by simp [leafTypes]
  | .prod _ fs, p => by simp only [leafTypes]; exact typesF_pre fs p
  | .sum _ fs, p => by simp only [leafTypes]; exact typesF_pre fs p
theorem typesF_pre : ∀ (fs : Fields) (p : RPath), leafTypesF fs p = (leafTypesF fs []).map (fun l => (p ++ l.1, l.2))
  | .nil, p => rfl
  | .cons k t fs, p => by
    simp only [leafTypesF]
    rw [types_pre t (p ++ [k]), types_pre t ([] ++ [k]), typesF_pre fs p]
    simp
end

theorem typesF_cons (k : Key) (t : Ty) (fs : Fields) :
    leafTypesF (.cons k t fs) [] = (leafTypes t []).map (fun l => (k :: l.1, l.2)) ++ leafTypesF fs [] := by
  simp only [leafTypesF]
  rw [types_pre t ([] ++ [k])]
  simp

theorem typesF_head : ∀ (fs : Fields), ∀ l ∈ leafTypesF fs [], ∃ k p, l.1 = k :: p ∧ k ∈ fs.toList.map (·.1)
  | .nil, l, h => by simp [leafTypesF] at h
  | .cons k t fs, l, h => by
    rw [typesF_cons] at h
    rcases List.mem_append.mp h with h | h
    · obtain ⟨l', _, rfl⟩ := List.mem_map.mp h
      exact ⟨k, l'.1, rfl, by simp [Fields.toList]⟩
    · obtain ⟨k', p, h1, h2⟩ := typesF_head fs l h
      exact ⟨k', p, h1, by simp [Fields.toList, h2]⟩

mutual
theorem types_nodup : ∀ (t : Ty), WF t → ((leafTypes t []).map (·.1)).Nodup
  | .bv _ _, _ => by simp [leafTypes]
  | .bit _, _ => by simp [leafTypes]
  | .enum _ _, _ => by simp [leafTypes]
  | .prod _ fs, hw => typesF_nodup fs hw.1 hw.2
  | .sum _ fs, hw => typesF_nodup fs hw.2.1 hw.2.2
theorem typesF_nodup : ∀ (fs : Fields), (fs.toList.map (·.1)).Nodup → WFs fs → ((leafTypesF fs []).map (·.1)).Nodup
  | .nil, _, _ => by simp [leafTypesF]
  | .cons k t fs, hn, hw => by
    simp only [Fields.toList, List.map_cons, List.nodup_cons] at hn
    rw [typesF_cons, List.map_append, List.nodup_append']
    refine ⟨?_, typesF_nodup fs hn.2 hw.2, ?_⟩
    · rw [List.map_map]
      have := types_nodup t hw.1
      rw [show ((fun l : RPath × Ty => l.1) ∘ fun l : RPath × Ty => (k :: l.1, l.2)) = (fun p => k :: p) ∘ (·.1) from rfl, ← List.map_map]
      exact this.map (fun a b h => by simpa using h)
    · intro p h1 h2
      obtain ⟨l1, h3, rfl⟩ := List.mem_map.mp h1
      obtain ⟨l1', _, rfl⟩ := List.mem_map.mp h3
      obtain ⟨l2, h4, h5⟩ := List.mem_map.mp h2
      obtain ⟨k', p, h6, h7⟩ := typesF_head fs l2 h4
      rw [h6] at h5
      simp only [List.cons.injEq] at h5
      exact hn.1 (h5.1 ▸ h7)
end

mutual
theorem leaves_sub : ∀ (t : Ty) (r : RVal), RHas t r →
    ((rawLeaves t r).map (fun l => (l.1, l.2.1))).Sublist (leafTypes t [])
  | .bv _ _, .leaf n, h => by simp [rawLeaves, leafTypes]
  | .bit _, .leaf n, h => by simp [rawLeaves, leafTypes]
  | .enum _ _, .leaf n, h => by simp [rawLeaves, leafTypes]
  | .prod _ fs, .prod vs, h => by
    simp only [rawLeaves, leafTypes]
    exact leavesAll_sub fs vs h
  | .sum _ fs, .sum k v, h => by
    simp only [rawLeaves, leafTypes]
    exact leavesAt_sub fs k v h
  | .bv _ _, .prod _, h => by simp [RHas] at h
  | .bv _ _, .sum _ _, h => by simp [RHas] at h
  | .bit _, .prod _, h => by simp [RHas] at h
  | .bit _, .sum _ _, h => by simp [RHas] at h
  | .enum _ _, .prod _, h => by simp [RHas] at h
  | .enum _ _, .sum _ _, h => by simp [RHas] at h
  | .prod _ _, .leaf _, h => by simp [RHas] at h
  | .prod _ _, .sum _ _, h => by simp [RHas] at h
  | .sum _ _, .leaf _, h => by simp [RHas] at h
  | .sum _ _, .prod _, h => by simp [RHas] at h
theorem leavesAll_sub : ∀ (fs : Fields) (vs : List RVal), RHasAll fs vs →
    ((rawLeavesAll fs vs).map (fun l => (l.1, l.2.1))).Sublist (leafTypesF fs [])
  | .nil, [], _ => by simp [rawLeavesAll]
  | .nil, _ :: _, h => by simp [RHasAll] at h
  | .cons .., [], h => by simp [RHasAll] at h
  | .cons k t fs, v :: vs, h => by
    rw [typesF_cons]
    simp only [rawLeavesAll, List.map_append]
    refine List.Sublist.append ?_ (leavesAll_sub fs vs h.2)
    have := (leaves_sub t v h.1).map (fun l => (k :: l.1, l.2))
    simpa [List.map_map, Function.comp_def] using this
theorem leavesAt_sub : ∀ (fs : Fields) (k : Key) (v : RVal), RHasAt fs k v →
    ((rawLeavesAt fs k v).map (fun l => (l.1, l.2.1))).Sublist (leafTypesF fs [])
  | .nil, _, _, h => by simp [RHasAt] at h
  | .cons k' t fs, k, v, h => by
    rw [typesF_cons]
    simp only [RHasAt] at h
    simp only [rawLeavesAt]
    split at h
    · next hk =>
      rw [if_pos hk]
      have := (leaves_sub t v h).map (fun l => (k' :: l.1, l.2))
      subst hk
      have h2 := this.trans (List.sublist_append_left _ (leafTypesF fs []))
      simpa [List.map_map, Function.comp_def] using h2
    · next hk =>
      rw [if_neg hk]
      exact (leavesAt_sub fs k v h).trans (List.sublist_append_right _ _)
end

theorem leaves_nodup {t : Ty} {r : RVal} (hw : WF t) (hr : RHas t r) : ((rawLeaves t r).map (·.1)).Nodup := by
  have := ((leaves_sub t r hr).map (·.1)).nodup (types_nodup t hw)
  simpa [List.map_map, Function.comp_def] using this

theorem lookup_of_mem' {α : Type} : ∀ {Z : List (RPath × α)} {k : RPath} {a : α}, (Z.map (·.1)).Nodup → (k, a) ∈ Z → Z.lookup k = some a
  | [], _, _, _, h => by simp at h
  | (k', a') :: Z, k, a, hn, h => by
    simp only [List.map_cons, List.nodup_cons] at hn
    rcases List.mem_cons.mp h with h' | h'
    · cases h'; simp
    · rw [List.lookup_cons, beq_eq_false_iff_ne.mpr]
      · exact lookup_of_mem' hn.2 h'
      · rintro rfl
        exact hn.1 (List.mem_map_of_mem (f := (·.1)) h')

theorem mem_types {t : Ty} {r : RVal} (hr : RHas t r) {p : RPath} {u : Ty} {n : Nat} (h : (p, u, n) ∈ rawLeaves t r) :
    (p, u) ∈ leafTypes t [] :=
  (leaves_sub t r hr).subset (List.mem_map.mpr ⟨_, h, rfl⟩)

theorem types_lookup {t : Ty} {r : RVal} (hw : WF t) (hr : RHas t r) {p : RPath} {u : Ty} {n : Nat} (h : (p, u, n) ∈ rawLeaves t r) :
    (leafTypes t []).lookup p = some u := lookup_of_mem' (types_nodup t hw) (mem_types hr h)

theorem eq_of_fst {α : Type} {Z : List (RPath × α)} (hn : (Z.map (·.1)).Nodup) {p : RPath} {a b : α} (h1 : (p, a) ∈ Z) (h2 : (p, b) ∈ Z) :
    a = b := Option.some.inj ((lookup_of_mem' hn h1).symm.trans (lookup_of_mem' hn h2))

/-- A leaf type. -/
def IsLeaf (t : Ty) : Prop := (∃ c w, t = .bv c w) ∨ (∃ c, t = .bit c) ∨ (∃ c ms, t = .enum c ms)

mutual
theorem types_leaf : ∀ (t : Ty), WF t → ∀ l ∈ leafTypes t [], IsLeaf l.2 ∧ WF l.2
  | .bv c w, hw, l, h => by simp only [leafTypes, List.mem_singleton] at h; subst h; exact ⟨.inl ⟨c, w, rfl⟩, hw⟩
  | .bit c, hw, l, h => by simp only [leafTypes, List.mem_singleton] at h; subst h; exact ⟨.inr (.inl ⟨c, rfl⟩), hw⟩
  | .enum c ms, hw, l, h => by simp only [leafTypes, List.mem_singleton] at h; subst h; exact ⟨.inr (.inr ⟨c, ms, rfl⟩), hw⟩
  | .prod _ fs, hw, l, h => typesF_leaf fs hw.2 l h
  | .sum _ fs, hw, l, h => typesF_leaf fs hw.2.2 l h
theorem typesF_leaf : ∀ (fs : Fields), WFs fs → ∀ l ∈ leafTypesF fs [], IsLeaf l.2 ∧ WF l.2
  | .nil, _, l, h => by simp [leafTypesF] at h
  | .cons k t fs, hw, l, h => by
    rw [typesF_cons] at h
    rcases List.mem_append.mp h with h | h
    · obtain ⟨l', h', rfl⟩ := List.mem_map.mp h
      exact types_leaf t hw.1 l' h'
    · exact typesF_leaf fs hw.2 l h
end

mutual
theorem leaf_bound : ∀ (t : Ty) (r : RVal), RHas t r → ∀ l ∈ rawLeaves t r, l.2.2 < 2 ^ width l.2.1
  | .bv _ _, .leaf n, h, l, hl => by simp only [rawLeaves, List.mem_singleton] at hl; subst hl; exact h
  | .bit _, .leaf n, h, l, hl => by simp only [rawLeaves, List.mem_singleton] at hl; subst hl; exact h
  | .enum _ _, .leaf n, h, l, hl => by simp only [rawLeaves, List.mem_singleton] at hl; subst hl; exact h
  | .prod _ fs, .prod vs, h, l, hl => leafAll_bound fs vs h l hl
  | .sum _ fs, .sum k v, h, l, hl => leafAt_bound fs k v h l hl
  | .bv _ _, .prod _, h, _, _ => by simp [RHas] at h
  | .bv _ _, .sum _ _, h, _, _ => by simp [RHas] at h
  | .bit _, .prod _, h, _, _ => by simp [RHas] at h
  | .bit _, .sum _ _, h, _, _ => by simp [RHas] at h
  | .enum _ _, .prod _, h, _, _ => by simp [RHas] at h
  | .enum _ _, .sum _ _, h, _, _ => by simp [RHas] at h
  | .prod _ _, .leaf _, h, _, _ => by simp [RHas] at h
  | .prod _ _, .sum _ _, h, _, _ => by simp [RHas] at h
  | .sum _ _, .leaf _, h, _, _ => by simp [RHas] at h
  | .sum _ _, .prod _, h, _, _ => by simp [RHas] at h
theorem leafAll_bound : ∀ (fs : Fields) (vs : List RVal), RHasAll fs vs → ∀ l ∈ rawLeavesAll fs vs, l.2.2 < 2 ^ width l.2.1
  | .nil, [], _, l, hl => by simp [rawLeavesAll] at hl
  | .nil, _ :: _, h, _, _ => by simp [RHasAll] at h
  | .cons .., [], h, _, _ => by simp [RHasAll] at h
  | .cons k t fs, v :: vs, h, l, hl => by
    simp only [rawLeavesAll] at hl
    rcases List.mem_append.mp hl with hl | hl
    · obtain ⟨l', h', rfl⟩ := List.mem_map.mp hl
      exact leaf_bound t v h.1 l' h'
    · exact leafAll_bound fs vs h.2 l hl
theorem leafAt_bound : ∀ (fs : Fields) (k : Key) (v : RVal), RHasAt fs k v → ∀ l ∈ rawLeavesAt fs k v, l.2.2 < 2 ^ width l.2.1
  | .nil, _, _, h, _, _ => by simp [RHasAt] at h
  | .cons k' t fs, k, v, h, l, hl => by
    simp only [RHasAt] at h
    simp only [rawLeavesAt] at hl
    split at h
    · next hk =>
      rw [if_pos hk] at hl
      obtain ⟨l', h', rfl⟩ := List.mem_map.mp hl
      exact leaf_bound t v h l' h'
    · next hk =>
      rw [if_neg hk] at hl
      exact leafAt_bound fs k v h l hl
end

/-! ## variables -/

theorem freeVar_ok (P : Process) {t : Ty} (hl : IsLeaf t) (hw : WF t) (n : Nat) : freeVar P.asm t n = .ok (plainAV t n) := by
  rcases hl with ⟨c, w, rfl⟩ | ⟨c, rfl⟩ | ⟨c, ms, rfl⟩
  · rfl
  · rfl
  · obtain ⟨o, ho, hg⟩ := P.good hw
    simp only [freeVar, ho, hg.width, plainAV]

theorem testBit_mod {n : Nat} : (n % 2 ^ 1).testBit 0 = n.testBit 0 := by simp [Nat.testBit_zero]

theorem ofNat_mod (w n : Nat) : BV.ofNat w (n % 2 ^ w) = BV.ofNat w n := BV.ext rfl (by simp [BV.ofNat])

theorem plainAV_mod (t : Ty) (n : Nat) : plainAV t (n % 2 ^ width t) = plainAV t n := by
  cases t <;> simp [plainAV, width, ofNat_mod]

/-- A variable of a leaf of the same kind can be given to a leaf. -/
theorem plainAV_means (P : Process) {t u : Ty} (hl : IsLeaf t) (hlu : IsLeaf u) (hw : WF t) (hk : SameKind t u) (n : Nat) : Means P t n (plainAV u n) := by
  unfold Means
  rcases hl with ⟨c, w, rfl⟩ | ⟨c, rfl⟩ | ⟨c, ms, rfl⟩ <;> rcases hlu with ⟨c', w', rfl⟩ | ⟨c', rfl⟩ | ⟨c', ms', rfl⟩ <;>
    simp only [SameKind] at hk
  · simp only [width] at hk; subst hk
    simp only [AV.new, AV.plain, plainAV, mkAV, BV.ofNat_val, width, ofNat_mod]
  · simp only [width] at hk; subst hk
    simp only [AV.new, AV.plain, plainAV, mkAV, BV.ofNat_val, width, ofNat_mod]
  · rfl
  · simp only [plainAV]
    rw [new_bits P hw (by simp) (by rw [BV.ofNat_size, hk]), BV.ofNat_val, ← hk, mkAV_mod]
  · simp only [plainAV]
    rw [new_bits P hw (by simp) (by rw [BV.ofNat_size, hk]), BV.ofNat_val, ← hk, mkAV_mod]

theorem sameKind_refl {t : Ty} (hl : IsLeaf t) : SameKind t t := by
  rcases hl with ⟨c, w, rfl⟩ | ⟨c, rfl⟩ | ⟨c, ms, rfl⟩ <;> simp [SameKind]

theorem sameKind_width {t u : Ty} (h : SameKind t u) : width t = width u := by
  cases t <;> cases u <;> simp_all [SameKind, width]

theorem const_means (P : Process) {t : Ty} (hl : IsLeaf t) (hw : WF t) {c : RConst} {n : Nat} (h : ConstIs c t n) : Means P t n c.toAV := by
  unfold Means
  cases c with
  | bits b =>
    obtain ⟨h1, h2, rfl⟩ := h
    exact new_bits P hw h1 h2
  | bit b =>
    obtain ⟨⟨x, rfl⟩, rfl⟩ := h
    cases b <;> rfl

/-! ## bindings -/

theorem exMap_ok {α β : Type} {f : α → Except Err β} {g : α → β} : ∀ {l : List α}, (∀ a ∈ l, f a = .ok (g a)) → exMap f l = .ok (l.map g)
  | [], _ => rfl
  | a :: l, h => by
    simp only [exMap, h a List.mem_cons_self, exMap_ok (fun b hb => h b (List.mem_cons_of_mem _ hb)), List.map_cons]

theorem lookup_map_fn {α : Type} (f : RPath → α) : ∀ (l : List RPath) (p : RPath), p ∈ l → (l.map (fun p => (p, f p))).lookup p = some (f p)
  | [], _, h => by simp at h
  | a :: l, p, h => by
    by_cases hp : p = a
    · subst hp; simp
    · rw [List.map_cons, List.lookup_cons, beq_eq_false_iff_ne.mpr hp]
      exact lookup_map_fn f l p (by simpa [hp] using h)

def unboundPaths (ib : List (RSrc × RPath)) : List RPath :=
  ib.filterMap (fun e => match e.1 with | .unbound => some e.2 | _ => none)

theorem inputPaths_ok {types : List (RPath × Ty)} : ∀ {ib : List (RSrc × RPath)}, (∀ p, (.unbound, p) ∈ ib → ∃ t, types.lookup p = some t) →
    RRule.inputPaths types ib = .ok (irSources ib, unboundPaths ib)
  | [], _ => rfl
  | (s, p) :: ib, h => by
    have ih := inputPaths_ok (fun p hp => h p (List.mem_cons_of_mem _ hp))
    cases s with
    | path q => simp [RRule.inputPaths, ih, irSources, unboundPaths]
    | unbound =>
      obtain ⟨t, ht⟩ := h p List.mem_cons_self
      simp [RRule.inputPaths, ih, irSources, unboundPaths, ht]
    | const c => simp [RRule.inputPaths, ih, irSources, unboundPaths]

theorem mem_irSources {ib : List (RSrc × RPath)} {q : RPath} : q ∈ irSources ib ↔ ∃ p, (.path q, p) ∈ ib := by
  simp only [irSources, List.mem_filterMap]
  constructor
  · rintro ⟨⟨s, p⟩, h1, h2⟩
    cases s <;> simp at h2
    subst h2
    exact ⟨p, h1⟩
  · rintro ⟨p, h⟩; exact ⟨_, h, rfl⟩

theorem mem_unboundPaths {ib : List (RSrc × RPath)} {p : RPath} : p ∈ unboundPaths ib ↔ (.unbound, p) ∈ ib := by
  simp only [unboundPaths, List.mem_filterMap]
  constructor
  · rintro ⟨⟨s, p'⟩, h1, h2⟩
    cases s <;> simp at h2
    subst h2
    exact h1
  · intro h; exact ⟨_, h, rfl⟩

/-- The source of an entry once the values of the variables are known. -/
def srcVal (xi xa : RPath → AV) (e : RSrc × RPath) : AV :=
  match e.1 with
  | .path q => xi q
  | .unbound => xa e.2
  | .const c => c.toAV

theorem buildBindings_ok {irIn archIn : List (RPath × AV)} {xi xa : RPath → AV} : ∀ {ib : List (RSrc × RPath)},
    (∀ e ∈ ib, e.2 ≠ []) → (∀ q p, (.path q, p) ∈ ib → irIn.lookup q = some (xi q)) → (∀ p, (.unbound, p) ∈ ib → archIn.lookup p = some (xa p)) →
    buildBindings irIn archIn ib = .ok ((irSources ib).map (fun q => (.val (xi q), q)), ib.map (fun e => (.val (srcVal xi xa e), e.2)))
  | [], _, _, _ => rfl
  | (s, p) :: ib, h0, h1, h2 => by
    have ih := buildBindings_ok (fun e he => h0 e (List.mem_cons_of_mem _ he)) (fun q p hp => h1 q p (List.mem_cons_of_mem _ hp))
      (fun p hp => h2 p (List.mem_cons_of_mem _ hp))
    have hp := h0 (s, p) List.mem_cons_self
    simp only at hp
    cases s with
    | path q => simp [buildBindings, ih, irSources, srcVal, hp, h1 q p List.mem_cons_self]
    | unbound => simp [buildBindings, ih, irSources, srcVal, hp, h2 p List.mem_cons_self]
    | const c => simp [buildBindings, ih, irSources, srcVal, hp]

theorem exists_perm_map {α β : Type} (f : α → β) {l : List β} {L : List α} (h : l.Perm (L.map f)) :
    ∃ L' : List α, L'.Perm L ∧ L'.map f = l := by
  have h1 : List.Forall₂ (fun b a => b = f a) (L.map f) L := by
    rw [List.forall₂_map_left_iff, List.forall₂_same]
    intro x _; rfl
  obtain ⟨L', h2, h3⟩ := (List.perm_comp_forall₂ h h1)
  refine ⟨L', h3, ?_⟩
  clear h1 h3 h
  induction h2 with
  | nil => rfl
  | cons h _ ih => rw [List.map_cons, ih, h]

theorem binds_of (P : Process) {η : RPath → AV} {t : Ty} {r : RVal} (hw : WF t) (hr : RHas t r) {b : List BEntry}
    (hp : (b.map (·.2)).Perm ((rawLeaves t r).map (·.1)))
    (he : ∀ e ∈ b, ∀ u n, (e.2, u, n) ∈ rawLeaves t r → ∃ x, e.1.resolve η = some x ∧ Means P u n x) : Binds P η t r b := by
  obtain ⟨L, h1, h2⟩ := exists_perm_map _ hp
  refine ⟨L, h1, ?_⟩
  have h3 : ∀ l ∈ L, l ∈ rawLeaves t r := fun l hl => h1.subset hl
  clear h1 hp
  induction b generalizing L with
  | nil =>
    cases L with
    | nil => exact .nil
    | cons _ _ => simp at h2
  | cons e b ih =>
    cases L with
    | nil => simp at h2
    | cons l L =>
      simp only [List.map_cons, List.cons.injEq] at h2
      refine .cons ⟨h2.1.symm, ?_⟩ (ih (fun e' h' => he e' (List.mem_cons_of_mem _ h')) L h2.2 (fun l' h' => h3 l' (List.mem_cons_of_mem _ h')))
      refine he e List.mem_cons_self _ _ ?_
      rw [← h2.1]
      exact h3 l List.mem_cons_self

/-- A product that a leaf binding without paths is simplified to is an assembled product. -/
theorem whole_prod (P : Process) {c : Nat} {fs : Fields} {r : RVal} (hw : WF (.prod c fs)) (hb : Buildable (.prod c fs)) (hr : RHas (.prod c fs) r)
    {b : List BEntry} (h : Binds P (fun _ => .bit false) (.prod c fs) r b) (hv : ∀ e ∈ b, e.1.isVal = true) :
    wholeValue P.asm (.prod c fs) b = .ok (mkAV (.prod c fs) (rawCode (.prod c fs) r)) := by
  obtain ⟨b', h1, h2, h3, h4⟩ := SB.simp_ok P _ _ r b hw hb hr h
  obtain ⟨x, rfl⟩ := h4 hv
  have hm : Means P (.prod c fs) (rawCode (.prod c fs) r) x := by
    obtain ⟨u, s, g1, y, g2, g3⟩ := h2.1 _ List.mem_cons_self
    rw [SB.rawAt_nil] at g1
    cases g1
    cases g2
    exact g3
  have hadt : ∃ bv, x = .adt (.prod c fs) bv := by
    have hnl : isLeafBinding b = false := by
      obtain ⟨L, hL, hF⟩ := h
      have hne := SB.leaves_ne _ _ hb hr
      cases b with
      | nil =>
        cases hF
        exact absurd hL.symm.eq_nil hne
      | cons e b =>
        cases L with
        | nil => cases hF
        | cons l L =>
          obtain ⟨hel, _⟩ := List.forall₂_cons.mp hF
          have hlm := hL.subset (List.mem_cons_self (a := l) (l := L))
          have := mem_types hr (p := l.1) (u := l.2.1) (n := l.2.2) hlm
          simp only [leafTypes] at this
          obtain ⟨k, p, hkp, _⟩ := typesF_head fs _ this
          rw [← hel.1] at hkp
          obtain ⟨s, q⟩ := e
          simp only at hkp
          subst hkp
          cases b <;> rfl
    simp only [simplifyBinding, hnl, Bool.false_eq_true, if_false] at h1
    split at h1
    · cases h1
    · split at h1
      · split at h1
        · cases h1
        · split at h1
          · split at h1
            · cases h1
            · next y hy =>
              simp only [Except.ok.injEq, List.cons.injEq, Prod.mk.injEq, BSrc.val.injEq, and_true] at h1
              subst h1
              simp only [AV.fromFields] at hy
              split at hy
              · cases hy
              · split at hy
                · cases hy
                · simp only [AV.fromParts] at hy
                  split at hy
                  · cases hy
                  · simp only [AV.init] at hy
                    split at hy
                    · cases hy; exact ⟨_, rfl⟩
                    · cases hy
          · simp only [Except.ok.injEq] at h1
            have : (BSrc.val x, ([] : RPath)) ∈ [(BSrc.val x, ([] : RPath))] := List.mem_cons_self
            rw [← h1] at this
            obtain ⟨row, _, hm2⟩ := List.mem_flatMap.mp this
            obtain ⟨e, _, he⟩ := List.mem_map.mp hm2
            simp at he
      · cases h1
  obtain ⟨bv, rfl⟩ := hadt
  have : AV.new P.asm (.prod c fs) (.asm (.adt (.prod c fs) bv)) = .ok (.adt (.prod c fs) bv) := by
    obtain ⟨o, ho, _⟩ := P.good hw
    simp only [AV.new, ho, AV.init, if_true]
  unfold Means at hm
  rw [this] at hm
  simp only [wholeValue, h1, Except.ok.inj hm]

theorem codeAll_field : ∀ (fs : Fields), WFs fs → ∀ (base : Nat) (vs : List RVal) (k : Key) (t : Ty) (v : RVal), RHasAll fs vs →
    (SB.zipF fs vs).lookup k = some (t, v) → fs.toList.lookup k = some t ∧ WF t ∧ RHas t v ∧
      ∃ off, (layoutFrom base fs).lookup k = some (base + off, base + off + width t) ∧ off + width t ≤ sumWidths fs ∧
        rawCodeAll fs vs / 2 ^ off % 2 ^ width t = rawCode t v
  | .nil, _, base, vs, k, t, v, _, h => by cases vs <;> simp [SB.zipF] at h
  | .cons k' t' fs, hw, base, [], k, t, v, hv, h => by simp [SB.zipF] at h
  | .cons k' t' fs, hw, base, v' :: vs, k, t, v, hv, h => by
    have he := SB.code_lt t' v' hw.1 hv.1
    simp only [SB.zipF, List.lookup_cons] at h
    by_cases hk : k = k'
    · subst hk
      simp only [beq_self_eq_true, Option.some.injEq, Prod.mk.injEq] at h
      obtain ⟨rfl, rfl⟩ := h
      refine ⟨by simp [Fields.toList], hw.1, hv.1, 0, by simp [layoutFrom], by simp [sumWidths], ?_⟩
      simp only [rawCodeAll, Nat.pow_zero, Nat.div_one, Nat.add_mul_mod_self_left]
      exact Nat.mod_eq_of_lt he
    · have hk' : (k == k') = false := by simpa using hk
      rw [hk'] at h
      obtain ⟨h1, h1', h1'', off, h2, h3, h4⟩ := codeAll_field fs hw.2 (base + width t') vs k t v hv.2 h
      refine ⟨by simp [Fields.toList, List.lookup_cons, hk', h1], h1', h1'', width t' + off, ?_, ?_, ?_⟩
      · simp only [layoutFrom, List.lookup_cons, hk', h2, Nat.add_assoc]
      · simp only [sumWidths]; omega
      · rw [← h4, rawCodeAll, Nat.pow_add, ← Nat.div_div_eq_div_mul,
          Nat.add_mul_div_left _ _ (Nat.two_pow_pos _), Nat.div_eq_of_lt he, Nat.zero_add]

theorem get_field (P : Process) {c : Nat} {fs : Fields} {vs : List RVal} (hw : WF (.prod c fs)) (hr : RHas (.prod c fs) (.prod vs))
    {k : Key} {t : Ty} {v : RVal} (h : (SB.zipF fs vs).lookup k = some (t, v)) :
    (mkAV (.prod c fs) (rawCode (.prod c fs) (.prod vs))).get P.asm k = .ok (mkAV t (rawCode t v)) := by
  obtain ⟨h1, h2, h3, off, h4, h5, h6⟩ := codeAll_field fs hw.2 0 vs k t v hr h
  obtain ⟨o, ho, hg⟩ := P.good hw
  rw [show mkAV (.prod c fs) (rawCode (.prod c fs) (.prod vs)) =
    .adt (.prod c fs) (BV.ofNat (width (.prod c fs)) (rawCode (.prod c fs) (.prod vs))) from rfl]
  simp only [AV.get, ho]
  rw [sub_spec P hg h2 rfl h1 (by simpa [layoutOf] using h4) (by simpa [width] using h5), ofNat_val_of_lt (SB.code_lt _ _ hw hr), ← mkAV_mod]
  rw [show rawCode (.prod c fs) (.prod vs) = rawCodeAll fs vs by simp only [rawCode], h6]

theorem inputDict_eq : ∀ (fs : Fields) (vs : List RVal), inputDict fs vs = (SB.zipF fs vs).map (fun z => (z.1, mkAV z.2.1 (rawCode z.2.1 z.2.2)))
  | .nil, _ => by simp [inputDict, SB.zipF]
  | .cons .., [] => rfl
  | .cons k t fs, v :: vs => by simp [inputDict, SB.zipF, inputDict_eq fs vs]

theorem dict_ok (P : Process) {c : Nat} {fs : Fields} {vs : List RVal} (hw : WF (.prod c fs)) (hr : RHas (.prod c fs) (.prod vs)) :
    productToDict P.asm (.prod c fs) (mkAV (.prod c fs) (rawCode (.prod c fs) (.prod vs))) = .ok (inputDict fs vs) := by
  have hn : ((SB.zipF fs vs).map (·.1)).Nodup := by rw [SB.zipF_names fs vs hr]; exact hw.1
  rw [inputDict_eq]
  unfold productToDict
  rw [show ((Ty.prod c fs).fieldDict.map (·.1)) = (SB.zipF fs vs).map (·.1) from (SB.zipF_names fs vs hr).symm]
  have : ∀ z ∈ SB.zipF fs vs, (mkAV (.prod c fs) (rawCode (.prod c fs) (.prod vs))).get P.asm z.1 = .ok (mkAV z.2.1 (rawCode z.2.1 z.2.2)) :=
    fun z hz => get_field P hw hr (SB.lookup_of_mem hn hz)
  revert this
  generalize SB.zipF fs vs = Z
  intro h
  clear hn
  induction Z with
  | nil => rfl
  | cons z Z ih =>
    simp only [List.map_cons, exMap, h z List.mem_cons_self]
    have := ih (fun z' hz' => h z' (List.mem_cons_of_mem _ hz'))
    simp only [this]

/-! ## outputs -/

theorem areFields_forall : ∀ {P : Process} {fs : Fields} {vs : List RVal} {xs : List AV}, WFs fs → RHasAll fs vs → AreFields P fs vs xs →
    List.Forall₂ (fun (z : (Key × Ty) × Nat) x => Means P z.1.2 z.2 x ∧ z.2 < 2 ^ width z.1.2)
      (fs.toList.zip ((SB.zipF fs vs).map (fun z => rawCode z.2.1 z.2.2))) xs
  | P, .nil, [], [], _, _, _ => .nil
  | P, .cons k t fs, v :: vs, x :: xs, hw, hr, h => by
    simp only [Fields.toList, SB.zipF, List.map_cons, List.zip_cons_cons]
    exact .cons ⟨h.1, SB.code_lt t v hw.1 hr.1⟩ (areFields_forall hw.2 hr.2 h.2)
  | _, .nil, [], _ :: _, _, _, h => by simp [AreFields] at h
  | _, .nil, _ :: _, _, _, h, _ => by simp [RHasAll] at h
  | _, .cons .., [], _, _, h, _ => by simp [RHasAll] at h
  | _, .cons .., _ :: _, [], _, _, h => by simp [AreFields] at h

theorem fromFields_raw (P : Process) {c : Nat} {fs : Fields} {vs : List RVal} {xs : List AV} (hw : WF (.prod c fs)) (hb : Buildable (.prod c fs))
    (hr : RHas (.prod c fs) (.prod vs)) (h : AreFields P fs vs xs) :
    AV.fromFields P.asm (.prod c fs) (xs.map .asm) 0 = .ok (mkAV (.prod c fs) (rawCode (.prod c fs) (.prod vs))) := by
  rw [SB.fromFields_means P hw hb (areFields_forall hw.2 hr h)]
  · simp only [rawCode, SB.rawCodeAll_eq fs vs hr]
  · rw [List.length_map, ← List.length_map (f := (·.1)), SB.zipF_names fs vs hr, List.length_map]

def fieldAVs (fs : Fields) (vs : List RVal) : List AV := (SB.zipF fs vs).map (fun z => mkAV z.2.1 (rawCode z.2.1 z.2.2))

theorem areFields_self (P : Process) : ∀ (fs : Fields) (vs : List RVal), WFs fs → RHasAll fs vs → AreFields P fs vs (fieldAVs fs vs)
  | .nil, [], _, _ => trivial
  | .cons k t fs, v :: vs, hw, hr => ⟨new_asm P hw.1 _, areFields_self P fs vs hw.2 hr.2⟩
  | .nil, _ :: _, _, h => by simp [RHasAll] at h
  | .cons .., [], _, h => by simp [RHasAll] at h

theorem buildables_mem : ∀ (fs : Fields), Buildables fs → ∀ kt ∈ fs.toList, Buildable kt.2
  | .nil, _, _, h => by simp [Fields.toList] at h
  | .cons k t fs, hb, kt, h => by
    rcases List.mem_cons.mp h with rfl | h
    · exact hb.1
    · exact buildables_mem fs hb.2 kt h

theorem index_lt : ∀ (fs : Fields) (k : Key) (v : RVal), RHasAt fs k v → optionIndex fs k < fs.toList.length
  | .nil, _, _, h => by simp [RHasAt] at h
  | .cons k' t fs, k, v, h => by
    by_cases hk : k = k'
    · simp [optionIndex, Fields.toList, hk]
    · simp only [RHasAt, if_neg hk] at h
      have := index_lt fs k v h
      simp only [optionIndex, if_neg hk, Fields.toList, List.length_cons]
      omega

mutual
theorem bitsAt_raw : ∀ (t : Ty) (r : RVal), WF t → RHas t r → ∀ p u n, (p, u, n) ∈ rawLeaves t r → bitsAt t (rawCode t r) p = n
  | .bv c w, .leaf m, _, _, p, u, n, h => by
    simp only [rawLeaves, List.mem_singleton, Prod.mk.injEq] at h; obtain ⟨rfl, rfl, rfl⟩ := h; simp [bitsAt, rawCode]
  | .bit c, .leaf m, _, _, p, u, n, h => by
    simp only [rawLeaves, List.mem_singleton, Prod.mk.injEq] at h; obtain ⟨rfl, rfl, rfl⟩ := h; simp [bitsAt, rawCode]
  | .enum c ms, .leaf m, _, _, p, u, n, h => by
    simp only [rawLeaves, List.mem_singleton, Prod.mk.injEq] at h; obtain ⟨rfl, rfl, rfl⟩ := h; simp [bitsAt, rawCode]
  | .prod c fs, .prod vs, hw, hr, p, u, n, h => by
    obtain ⟨k, q, rfl, _, h⟩ := bitsAll_raw fs vs hw.2 hw.1 hr p u n (by simpa [rawLeaves] using h)
    simpa [bitsAt, rawCode] using h
  | .sum c fs, .sum k v, hw, hr, p, u, n, h => by
    obtain ⟨q, rfl, h'⟩ := bitsAt_rawO fs k v hw.2.2 hr p u n (by simpa [rawLeaves] using h)
    simp only [bitsAt, rawCode]
    rw [Nat.add_mul_div_left _ _ (Nat.two_pow_pos _), Nat.div_eq_of_lt (lt_tagBits (index_lt fs k v hr)), Nat.zero_add]
    exact h'
  | .bv _ _, .prod _, _, h, _, _, _, _ => by simp [RHas] at h
  | .bv _ _, .sum _ _, _, h, _, _, _, _ => by simp [RHas] at h
  | .bit _, .prod _, _, h, _, _, _, _ => by simp [RHas] at h
  | .bit _, .sum _ _, _, h, _, _, _, _ => by simp [RHas] at h
  | .enum _ _, .prod _, _, h, _, _, _, _ => by simp [RHas] at h
  | .enum _ _, .sum _ _, _, h, _, _, _, _ => by simp [RHas] at h
  | .prod _ _, .leaf _, _, h, _, _, _, _ => by simp [RHas] at h
  | .prod _ _, .sum _ _, _, h, _, _, _, _ => by simp [RHas] at h
  | .sum _ _, .leaf _, _, h, _, _, _, _ => by simp [RHas] at h
  | .sum _ _, .prod _, _, h, _, _, _, _ => by simp [RHas] at h
theorem bitsAll_raw : ∀ (fs : Fields) (vs : List RVal), WFs fs → (fs.toList.map (·.1)).Nodup → RHasAll fs vs → ∀ p u n, (p, u, n) ∈ rawLeavesAll fs vs →
    ∃ k q, p = k :: q ∧ k ∈ fs.toList.map (·.1) ∧ bitsAtF fs (rawCodeAll fs vs) k q = n
  | .nil, [], _, _, _, _, _, _, h => by simp [rawLeavesAll] at h
  | .nil, _ :: _, _, _, h, _, _, _, _ => by simp [RHasAll] at h
  | .cons .., [], _, _, h, _, _, _, _ => by simp [RHasAll] at h
  | .cons k t fs, v :: vs, hw, hn, hr, p, u, n, h => by
    have he := SB.code_lt t v hw.1 hr.1
    simp only [Fields.toList, List.map_cons, List.nodup_cons] at hn
    simp only [rawLeavesAll, List.mem_append, List.mem_map] at h
    rcases h with ⟨⟨q, u', n'⟩, h, he'⟩ | h
    · cases he'
      refine ⟨k, q, rfl, by simp [Fields.toList], ?_⟩
      simp only [bitsAtF, if_pos, rawCodeAll, Nat.add_mul_mod_self_left, Nat.mod_eq_of_lt he]
      exact bitsAt_raw t v hw.1 hr.1 q _ _ h
    · obtain ⟨k', q, rfl, hk, h⟩ := bitsAll_raw fs vs hw.2 hn.2 hr.2 p u n h
      have hne : k' ≠ k := by rintro rfl; exact hn.1 hk
      refine ⟨k', q, rfl, by simp only [Fields.toList, List.map_cons]; exact List.mem_cons_of_mem _ hk, ?_⟩
      simp only [bitsAtF, if_neg hne, rawCodeAll]
      rw [Nat.add_mul_div_left _ _ (Nat.two_pow_pos _), Nat.div_eq_of_lt he, Nat.zero_add]
      exact h
theorem bitsAt_rawO : ∀ (fs : Fields) (k : Key) (v : RVal), WFs fs → RHasAt fs k v → ∀ p u n, (p, u, n) ∈ rawLeavesAt fs k v →
    ∃ q, p = k :: q ∧ bitsAtO fs (rawCodeAt fs k v) k q = n
  | .nil, _, _, _, h, _, _, _, _ => by simp [RHasAt] at h
  | .cons k' t fs, k, v, hw, hr, p, u, n, h => by
    by_cases hk : k = k'
    · subst hk
      simp only [RHasAt, if_true] at hr
      simp only [rawLeavesAt, if_true, List.mem_map] at h
      obtain ⟨⟨q, u', n'⟩, h, he'⟩ := h
      cases he'
      refine ⟨q, rfl, ?_⟩
      simp only [bitsAtO, if_true, rawCodeAt, Nat.mod_eq_of_lt (SB.code_lt t v hw.1 hr)]
      exact bitsAt_raw t v hw.1 hr q _ _ h
    · simp only [RHasAt, if_neg hk] at hr
      simp only [rawLeavesAt, if_neg hk] at h
      obtain ⟨q, rfl, h'⟩ := bitsAt_rawO fs k v hw.2 hr p u n h
      exact ⟨q, rfl, by simpa only [bitsAtO, if_neg hk, rawCodeAt] using h'⟩
end

mutual
theorem bitsAt_lt : ∀ (t : Ty), WF t → ∀ (n : Nat), n < 2 ^ width t → ∀ p u, (p, u) ∈ leafTypes t [] → bitsAt t n p < 2 ^ width u
  | .bv c w, _, n, hn, p, u, h => by
    simp only [leafTypes, List.mem_singleton, Prod.mk.injEq] at h; obtain ⟨rfl, rfl⟩ := h; simpa [bitsAt] using hn
  | .bit c, _, n, hn, p, u, h => by
    simp only [leafTypes, List.mem_singleton, Prod.mk.injEq] at h; obtain ⟨rfl, rfl⟩ := h; simpa [bitsAt] using hn
  | .enum c ms, _, n, hn, p, u, h => by
    simp only [leafTypes, List.mem_singleton, Prod.mk.injEq] at h; obtain ⟨rfl, rfl⟩ := h; simpa [bitsAt] using hn
  | .prod c fs, hw, n, hn, p, u, h => by
    obtain ⟨k, q, rfl, _, h⟩ := bitsAtF_lt fs hw.2 hw.1 p u (by simpa [leafTypes] using h)
    simpa only [bitsAt] using (h n).1
  | .sum c fs, hw, n, hn, p, u, h => by
    obtain ⟨k, q, rfl, _, h⟩ := bitsAtF_lt fs hw.2.2 hw.2.1 p u (by simpa [leafTypes] using h)
    simpa only [bitsAt] using (h _).2
theorem bitsAtF_lt : ∀ (fs : Fields), WFs fs → (fs.toList.map (·.1)).Nodup → ∀ p u, (p, u) ∈ leafTypesF fs [] →
    ∃ k q, p = k :: q ∧ k ∈ fs.toList.map (·.1) ∧ ∀ n, bitsAtF fs n k q < 2 ^ width u ∧ bitsAtO fs n k q < 2 ^ width u
  | .nil, _, _, _, _, h => by simp [leafTypesF] at h
  | .cons k t fs, hw, hn, p, u, h => by
    simp only [Fields.toList, List.map_cons, List.nodup_cons] at hn
    rw [typesF_cons] at h
    rcases List.mem_append.mp h with h | h
    · obtain ⟨⟨q, u'⟩, hm, he⟩ := List.mem_map.mp h
      cases he
      refine ⟨k, q, rfl, by simp [Fields.toList], fun n => ?_⟩
      have := bitsAt_lt t hw.1 (n % 2 ^ width t) (Nat.mod_lt _ (Nat.two_pow_pos _)) q _ hm
      simpa only [bitsAtF, bitsAtO, if_true] using ⟨this, this⟩
    · obtain ⟨k', q, rfl, hk, h⟩ := bitsAtF_lt fs hw.2 hn.2 p u h
      have hne : k' ≠ k := by rintro rfl; exact hn.1 hk
      refine ⟨k', q, rfl, by simp only [Fields.toList, List.map_cons]; exact List.mem_cons_of_mem _ hk, fun n => ?_⟩
      simp only [bitsAtF, bitsAtO, if_neg hne]
      exact ⟨(h _).1, (h _).2⟩
end

/-- The entry of an output leaf: its bits in the number `n`. -/
def placeEntry (T : Ty) (n : Nat) (l : RPath × Ty) : RPath × AV := (l.1, plainAV l.2 (bitsAt T n l.1))

theorem leafValues_eq {T : Ty} (hw : WF T) (n : Nat) :
    leafValues T ((leafTypes T []).map (ValF.leafOf (bitsAt T n))) = (leafTypes T []).map (placeEntry T n) := by
  unfold leafValues
  rw [List.map_map]
  refine List.map_congr_left (fun l hl => ?_)
  obtain ⟨q, u⟩ := l
  have := lookup_of_mem' (types_nodup T hw) hl
  simp only [Function.comp, ValF.leafOf, placeEntry, this]
  rcases (types_leaf T hw _ hl).1 with ⟨c, w, rfl⟩ | ⟨c, rfl⟩ | ⟨c, ms, rfl⟩ <;> simp [plainAV, width]

theorem forms_num (P : Process) {tu : Nat → Bool} {T : Ty} {n : Nat} (hw : WF T) (hb : Buildable T) (ht : NoTagged tu T) (hn : n < 2 ^ width T) :
    ∃ r, valForms P.asm tu T [] (mkAV T n) = .ok r ∧ r.varmap.leaves = (leafTypes T []).map (ValF.leafOf (bitsAt T n)) ∧
      (UnionFree T → ∃ f, r.forms = [f] ∧ f.leaves = r.varmap.leaves) := by
  obtain ⟨r, r', h1, h2, h3⟩ := ValF.val_same P tu (bitsAt T n) (tagAt T n) T hw hb ht [] n hn (fun _ => rfl) (fun _ => rfl)
  have h4 := ValF.smt_leaves P _ _ T hw [] r' h2
  refine ⟨r, h1, by rw [h3.varmap, h4], fun hu => ?_⟩
  obtain ⟨f', e1, e2, e3⟩ := ValF.smt_one P.asm _ _ T hu [] r' h2
  have h5 := h3.forms
  rw [e1] at h5
  obtain ⟨f, hf⟩ := List.length_eq_one_iff.mp (show r.forms.length = 1 by simpa using congrArg List.length h5)
  refine ⟨f, hf, ?_⟩
  rw [hf] at h5
  simp only [List.map_cons, List.map_nil, ValF.fkey, List.cons.injEq, Prod.mk.injEq] at h5
  rw [h5.1.2, e3, h3.varmap]

theorem parse_any (P : Process) {tu : Nat → Bool} {c : Nat} {fs : Fields} {vs : List RVal} {xs : List AV} (hw : WF (.prod c fs)) (hb : Buildable (.prod c fs))
    (ht : NoTagged tu (.prod c fs)) (hr : RHas (.prod c fs) (.prod vs)) (h : AreFields P fs vs xs) :
    parseOutput P.asm tu (.prod c fs) xs = .ok ((leafTypes (.prod c fs) []).map (placeEntry (.prod c fs) (rawCode (.prod c fs) (.prod vs)))) := by
  obtain ⟨r, h1, h2, _⟩ := forms_num P hw hb ht (SB.code_lt _ _ hw hr)
  simp only [parseOutput, parseForms, fromFields_raw P hw hb hr h, h1, h2]
  rw [leafValues_eq hw]

mutual
theorem leaves_types_unionFree : ∀ (t : Ty) (r : RVal), UnionFree t → RHas t r → (rawLeaves t r).map (fun l => (l.1, l.2.1)) = leafTypes t []
  | .bv _ _, .leaf n, _, h => by simp [rawLeaves, leafTypes]
  | .bit _, .leaf n, _, h => by simp [rawLeaves, leafTypes]
  | .enum _ _, .leaf n, _, h => by simp [rawLeaves, leafTypes]
  | .prod _ fs, .prod vs, hu, h => by
    simp only [rawLeaves, leafTypes]
    exact leaves_types_unionFrees fs vs hu h
  | .sum _ fs, _, hu, h => by simp [UnionFree] at hu
  | .bv _ _, .prod _, _, h => by simp [RHas] at h
  | .bv _ _, .sum _ _, _, h => by simp [RHas] at h
  | .bit _, .prod _, _, h => by simp [RHas] at h
  | .bit _, .sum _ _, _, h => by simp [RHas] at h
  | .enum _ _, .prod _, _, h => by simp [RHas] at h
  | .enum _ _, .sum _ _, _, h => by simp [RHas] at h
  | .prod _ _, .leaf _, _, h => by simp [RHas] at h
  | .prod _ _, .sum _ _, _, h => by simp [RHas] at h
theorem leaves_types_unionFrees : ∀ (fs : Fields) (vs : List RVal), UnionFrees fs → RHasAll fs vs →
    (rawLeavesAll fs vs).map (fun l => (l.1, l.2.1)) = leafTypesF fs []
  | .nil, [], _, _ => by simp [rawLeavesAll, leafTypesF]
  | .nil, _ :: _, _, h => by simp [RHasAll] at h
  | .cons .., [], _, h => by simp [RHasAll] at h
  | .cons k t fs, v :: vs, hu, h => by
    rw [typesF_cons]
    simp only [rawLeavesAll, List.map_append, leaves_types_unionFrees fs vs hu.2 h.2, ← leaves_types_unionFree t v hu.1 h.1, List.map_map]
    rfl
end

theorem places_raw {T : Ty} {r : RVal} (hw : WF T) (hu : UnionFree T) (hr : RHas T r) :
    (leafTypes T []).map (placeEntry T (rawCode T r)) = (rawLeaves T r).map (fun l => (l.1, plainAV l.2.1 l.2.2)) := by
  rw [← leaves_types_unionFree T r hu hr, List.map_map]
  refine List.map_congr_left (fun l hl => ?_)
  simp only [Function.comp, placeEntry, bitsAt_raw T r hw hr l.1 l.2.1 l.2.2 hl]

theorem parse_ok (P : Process) {tu : Nat → Bool} {c : Nat} {fs : Fields} {vs : List RVal} {xs : List AV} (hw : WF (.prod c fs)) (hb : Buildable (.prod c fs))
    (hu : UnionFree (.prod c fs)) (hr : RHas (.prod c fs) (.prod vs)) (h : AreFields P fs vs xs) :
    ∃ r f, parseForms P.asm tu (.prod c fs) xs = .ok r ∧ r.forms = [f] ∧
      leafValues (.prod c fs) f.leaves = (rawLeaves (.prod c fs) (.prod vs)).map (fun l => (l.1, plainAV l.2.1 l.2.2)) := by
  obtain ⟨r, h1, h2, h3⟩ := forms_num P hw hb (ValF.noTagged_of_free tu _ hu) (SB.code_lt _ _ hw hr)
  obtain ⟨f, h4, h5⟩ := h3 hu
  refine ⟨r, f, by simp only [parseForms, fromFields_raw P hw hb hr h, h1], h4, ?_⟩
  rw [h5, h2, leafValues_eq hw, places_raw hw hu hr]

theorem leafEq_ok {t u : Ty} {n m : Nat} (hk : SameKind t u) (hlt : IsLeaf t) (hlu : IsLeaf u) (hn : n < 2 ^ width t) (hm : m < 2 ^ width u) :
    leafEq (plainAV t n) (plainAV u m) = .ok (n == m) := by
  have h2 := sameKind_width hk
  rcases hlt with ⟨c, w, rfl⟩ | ⟨c, rfl⟩ | ⟨c, ms, rfl⟩ <;> rcases hlu with ⟨c', w', rfl⟩ | ⟨c', rfl⟩ | ⟨c', ms', rfl⟩ <;>
    simp only [SameKind] at hk
  case inr.inl.inr.inl =>
    simp only [width] at hn hm
    rcases (by omega : n = 0 ∨ n = 1) with rfl | rfl <;> rcases (by omega : m = 0 ∨ m = 1) with rfl | rfl <;> rfl
  all_goals
    simp only [plainAV, leafEq, BV.ofNat_size, if_pos h2, BV.ofNat_val, Nat.mod_eq_of_lt hn, Nat.mod_eq_of_lt hm]

theorem places_agree {irO archO : Ty} {oi oa : RVal} (hwi : WF irO) (hwa : WF archO) (hui : UnionFree irO) (hua : UnionFree archO)
    (hi : RHas irO oi) (ha : RHas archO oa) {ob : List (Option RPath × RPath)}
    (h : ∀ q p, (some q, p) ∈ ob → ∃ t u, (q, t) ∈ leafTypes irO [] ∧ (p, u) ∈ leafTypes archO [] ∧ SameKind t u) :
    PlacesAgree irO archO ob oi oa ↔ OutputsAgree irO archO ob oi oa := by
  have key : ∀ {T : Ty} {r : RVal}, UnionFree T → RHas T r → ∀ {q : RPath} {t : Ty}, (q, t) ∈ leafTypes T [] → ∃ n, (q, t, n) ∈ rawLeaves T r := by
    intro T r hu hr q t hq
    rw [← leaves_types_unionFree T r hu hr] at hq
    obtain ⟨⟨q', t', n⟩, hm, he⟩ := List.mem_map.mp hq
    simp only [Prod.mk.injEq] at he
    obtain ⟨rfl, rfl⟩ := he
    exact ⟨n, hm⟩
  constructor
  · intro h1 q p hqp
    obtain ⟨t, u, e1, e2, _⟩ := h q p hqp
    obtain ⟨n, hn⟩ := key hui hi e1
    obtain ⟨m, hm⟩ := key hua ha e2
    have := h1 q p hqp
    rw [bitsAt_raw _ _ hwi hi _ _ _ hn, bitsAt_raw _ _ hwa ha _ _ _ hm] at this
    exact ⟨t, u, n, hn, this ▸ hm⟩
  · intro h1 q p hqp
    obtain ⟨t, u, n, hn, hm⟩ := h1 q p hqp
    rw [bitsAt_raw _ _ hwi hi _ _ _ hn, bitsAt_raw _ _ hwa ha _ _ _ hm]

theorem outputEqs_ok {irO archO : Ty} {oi oa : RVal} (hwi : WF irO) (hwa : WF archO)
    (hi : RHas irO oi) (ha : RHas archO oa) : ∀ {ob : List (Option RPath × RPath)},
    (∀ q p, (some q, p) ∈ ob → ∃ t u, (q, t) ∈ leafTypes irO [] ∧ (p, u) ∈ leafTypes archO [] ∧ SameKind t u) →
    ∃ eqs, outputEqs ((leafTypes irO []).map (placeEntry irO (rawCode irO oi))) ((leafTypes archO []).map (placeEntry archO (rawCode archO oa))) ob = .ok eqs ∧
      (eqs = [] ↔ ∀ q p, (some q, p) ∉ ob) ∧ (eqs.all id = true ↔ PlacesAgree irO archO ob oi oa)
  | [], _ => ⟨[], rfl, by simp, by simp [PlacesAgree]⟩
  | (none, p) :: ob, h => by
    obtain ⟨eqs, h1, h2, h3⟩ := outputEqs_ok hwi hwa hi ha (ob := ob) (fun q p hp => h q p (List.mem_cons_of_mem _ hp))
    refine ⟨eqs, by simpa [outputEqs] using h1, by rw [h2]; simp, by rw [h3]; simp [PlacesAgree]⟩
  | (some q, p) :: ob, h => by
    obtain ⟨eqs, h1, h2, h3⟩ := outputEqs_ok hwi hwa hi ha (ob := ob) (fun q p hp => h q p (List.mem_cons_of_mem _ hp))
    obtain ⟨t, u, e1, e2, hk⟩ := h q p List.mem_cons_self
    have key : ∀ {T : Ty} {n : Nat}, WF T → n < 2 ^ width T → ∀ {q : RPath} {t : Ty}, (q, t) ∈ leafTypes T [] →
        bitsAt T n q < 2 ^ width t ∧ IsLeaf t ∧ ((leafTypes T []).map (placeEntry T n)).lookup q = some (plainAV t (bitsAt T n q)) := by
      intro T n hw hn q t hq
      refine ⟨bitsAt_lt T hw n hn q t hq, (types_leaf T hw _ hq).1, ?_⟩
      refine lookup_of_mem' ?_ (List.mem_map.mpr ⟨_, hq, rfl⟩)
      rw [List.map_map]
      exact types_nodup T hw
    obtain ⟨hn2, hn3, hn4⟩ := key hwi (SB.code_lt _ _ hwi hi) e1
    obtain ⟨hm2, hm3, hm4⟩ := key hwa (SB.code_lt _ _ hwa ha) e2
    refine ⟨(bitsAt irO (rawCode irO oi) q == bitsAt archO (rawCode archO oa) p) :: eqs,
      by simp only [outputEqs, hn4, hm4, leafEq_ok hk hn3 hm3 hn2 hm2, h1], ⟨fun h => by simp at h, fun h => absurd List.mem_cons_self (h q p)⟩, ?_⟩
    rw [List.all_cons, Bool.and_eq_true, h3]
    simp only [id, beq_iff_eq]
    constructor
    · rintro ⟨h4, h5⟩ q' p' hqp
      rcases List.mem_cons.mp hqp with hqp | hqp
      · cases hqp; exact h4
      · exact h5 q' p' hqp
    · intro h4
      exact ⟨h4 q p List.mem_cons_self, fun q' p' hqp => h4 q' p' (List.mem_cons_of_mem _ hqp)⟩

theorem outputEqs_raw {irO archO : Ty} {oi oa : RVal} (hwi : WF irO) (hwa : WF archO) (hui : UnionFree irO) (hua : UnionFree archO)
    (hi : RHas irO oi) (ha : RHas archO oa) {ob : List (Option RPath × RPath)}
    (h : ∀ q p, (some q, p) ∈ ob → ∃ t u, (q, t) ∈ leafTypes irO [] ∧ (p, u) ∈ leafTypes archO [] ∧ SameKind t u) :
    ∃ eqs, outputEqs ((rawLeaves irO oi).map (fun l => (l.1, plainAV l.2.1 l.2.2))) ((rawLeaves archO oa).map (fun l => (l.1, plainAV l.2.1 l.2.2))) ob = .ok eqs ∧
      (eqs = [] ↔ ∀ q p, (some q, p) ∉ ob) ∧ (eqs.all id = true ↔ OutputsAgree irO archO ob oi oa) := by
  rw [← places_agree hwi hwa hui hua hi ha h, ← places_raw hwi hui hi, ← places_raw hwa hua ha]
  exact outputEqs_ok hwi hwa hi ha h

/-! ## `build_inputs` -/

theorem samePaths_of {a b : List RPath} (h : ∀ p, p ∈ a ↔ p ∈ b) : samePaths a b = true := by
  simp only [samePaths, Bool.and_eq_true, List.all_eq_true, List.contains_iff_mem]
  exact ⟨fun p hp => (h p).1 hp, fun p hp => (h p).2 hp⟩

theorem unbound_types {irT archT : Ty} {ib : List (RSrc × RPath)} {ri ra : RVal} (hwa : WF archT) (hR : Related irT archT ib ri ra) :
    RRule.inputPaths (leafTypes archT []) ib = .ok (irSources ib, unboundPaths ib) := by
  refine inputPaths_ok (fun p hp => ?_)
  obtain ⟨t, n, h, _⟩ := hR.entries _ hp
  exact ⟨t, types_lookup hwa hR.arch h⟩

theorem prod_path {c : Nat} {fs : Fields} {r : RVal} (hr : RHas (.prod c fs) r) {l : RPath × Ty × Nat} (h : l ∈ rawLeaves (.prod c fs) r) : l.1 ≠ [] := by
  have := mem_types hr (p := l.1) (u := l.2.1) (n := l.2.2) h
  simp only [leafTypes] at this
  obtain ⟨k, p, hkp, _⟩ := typesF_head fs _ this
  simp only at hkp
  rw [hkp]
  simp

theorem buildInputs_ok (P : Process) {ci ca : Nat} {fi fa : Fields} {ib : List (RSrc × RPath)} {vs ws : List RVal}
    (hwi : WF (.prod ci fi)) (hbi : Buildable (.prod ci fi)) (hwa : WF (.prod ca fa)) (hba : Buildable (.prod ca fa))
    (hR : Related (.prod ci fi) (.prod ca fa) ib (.prod vs) (.prod ws)) {irIn archIn : List (RPath × AV)}
    (hki : ∀ q, q ∈ irIn.map (·.1) ↔ q ∈ irSources ib) (hka : ∀ p, p ∈ archIn.map (·.1) ↔ (.unbound, p) ∈ ib)
    (hvi : ∀ q t n, (q, t, n) ∈ rawLeaves (.prod ci fi) (.prod vs) → irIn.lookup q = some (plainAV t n))
    (hva : ∀ p t n, (.unbound, p) ∈ ib → (p, t, n) ∈ rawLeaves (.prod ca fa) (.prod ws) → archIn.lookup p = some (plainAV t n)) :
    buildInputs P.asm (.prod ci fi) (.prod ca fa) ib irIn archIn = .ok (inputDict fi vs, inputDict fa ws) := by
  have hlook : ∀ q p, (.path q, p) ∈ ib → ∃ t n, (q, t, n) ∈ rawLeaves (.prod ci fi) (.prod vs) := by
    intro q p hqp
    obtain ⟨t, n, _, u, h, _⟩ := hR.entries _ hqp
    exact ⟨u, n, h⟩
  have hB := buildBindings_ok (ib := ib) (irIn := irIn) (archIn := archIn) (xi := fun q => (irIn.lookup q).getD (.bit false))
    (xa := fun p => (archIn.lookup p).getD (.bit false))
    (fun e he => by
      obtain ⟨t, n, h, _⟩ := hR.entries e he
      exact prod_path hR.arch h)
    (fun q p hqp => by
      obtain ⟨t, n, h⟩ := hlook q p hqp
      rw [hvi q t n h]; rfl)
    (fun p hp => by
      obtain ⟨t, n, h, _⟩ := hR.entries _ hp
      rw [hva p t n hp h]; rfl)
  have leafOf : ∀ {T : Ty} {r : RVal}, WF T → RHas T r → ∀ {p t n}, (p, t, n) ∈ rawLeaves T r → IsLeaf t ∧ WF t := by
    intro T r hw hr p t n h
    exact types_leaf T hw _ (mem_types hr h)
  have bi : Binds P (fun _ => .bit false) (.prod ci fi) (.prod vs) ((irSources ib).map (fun q => (.val ((irIn.lookup q).getD (.bit false)), q))) := by
    refine binds_of P hwi hR.ir ?_ ?_
    · simpa [List.map_map, Function.comp_def] using hR.ir_paths
    · intro e he u n hu
      obtain ⟨q, hq, rfl⟩ := List.mem_map.mp he
      refine ⟨_, rfl, ?_⟩
      obtain ⟨l1, l2⟩ := leafOf hwi hR.ir hu
      rw [hvi q u n hu]
      exact plainAV_means P l1 l1 l2 (sameKind_refl l1) n
  have ba : Binds P (fun _ => .bit false) (.prod ca fa) (.prod ws)
      (ib.map (fun e => (.val (srcVal (fun q => (irIn.lookup q).getD (.bit false)) (fun p => (archIn.lookup p).getD (.bit false)) e), e.2))) := by
    refine binds_of P hwa hR.arch ?_ ?_
    · simpa [List.map_map, Function.comp_def] using hR.arch_paths
    · intro e he u n hu
      obtain ⟨⟨s, p⟩, hq, rfl⟩ := List.mem_map.mp he
      refine ⟨_, rfl, ?_⟩
      simp only at hu
      obtain ⟨l1, l2⟩ := leafOf hwa hR.arch hu
      obtain ⟨t', n', h1, h2⟩ := hR.entries _ hq
      have := eq_of_fst (leaves_nodup hwa hR.arch) hu h1
      simp only [Prod.mk.injEq] at this
      obtain ⟨rfl, rfl⟩ := this
      cases s with
      | path q =>
        obtain ⟨u', h3, h4⟩ := h2
        obtain ⟨m1, m2⟩ := leafOf hwi hR.ir h3
        simp only [srcVal, hvi q u' n h3]
        exact plainAV_means P l1 m1 l2 h4 n
      | unbound =>
        simp only [srcVal, hva p u n hq hu]
        exact plainAV_means P l1 l1 l2 (sameKind_refl l1) n
      | const c => exact const_means P l1 l2 h2
  have wi := whole_prod P hwi hbi hR.ir bi (fun e he => by obtain ⟨q, _, rfl⟩ := List.mem_map.mp he; rfl)
  have wa := whole_prod P hwa hba hR.arch ba (fun e he => by obtain ⟨q, _, rfl⟩ := List.mem_map.mp he; rfl)
  have s1 := samePaths_of hki
  have s2 := samePaths_of (b := unboundPaths ib) (fun p => (hka p).trans mem_unboundPaths.symm)
  simp only [buildInputs, unbound_types hwa hR, s1, s2, hB, wi, wa, dict_ok P hwi hR.ir, dict_ok P hwa hR.arch, Bool.not_true, Bool.false_eq_true,
    if_false]

/-! ## raw values with given leaves -/

mutual
/-- The raw value of the shape of `r` whose leaves are given by `ρ`. -/
def fill : Ty → RVal → (RPath → Nat) → RVal
  | .prod _ fs, .prod vs, ρ => .prod (fillAll fs vs ρ)
  | .sum _ fs, .sum k v, ρ => .sum k (fillAt fs k v ρ)
  | t, _, ρ => .leaf (ρ [] % 2 ^ width t)
def fillAll : Fields → List RVal → (RPath → Nat) → List RVal
  | .cons k t fs, v :: vs, ρ => fill t v (fun p => ρ (k :: p)) :: fillAll fs vs ρ
  | _, _, _ => []
def fillAt : Fields → Key → RVal → (RPath → Nat) → RVal
  | .nil, _, _, _ => .leaf 0
  | .cons k' t fs, k, v, ρ => if k = k' then fill t v (fun p => ρ (k :: p)) else fillAt fs k v ρ
end

def refl (ρ : RPath → Nat) (l : RPath × Ty × Nat) : RPath × Ty × Nat := (l.1, l.2.1, ρ l.1 % 2 ^ width l.2.1)

mutual
theorem fill_spec : ∀ (t : Ty) (r : RVal) (ρ : RPath → Nat), RHas t r → RHas t (fill t r ρ) ∧ rawLeaves t (fill t r ρ) = (rawLeaves t r).map (refl ρ)
  | .bv _ _, .leaf n, ρ, h => ⟨Nat.mod_lt _ (Nat.two_pow_pos _), by simp [fill, rawLeaves, refl]⟩
  | .bit _, .leaf n, ρ, h => ⟨Nat.mod_lt _ (Nat.two_pow_pos _), by simp [fill, rawLeaves, refl]⟩
  | .enum _ _, .leaf n, ρ, h => ⟨Nat.mod_lt _ (Nat.two_pow_pos _), by simp [fill, rawLeaves, refl]⟩
  | .prod _ fs, .prod vs, ρ, h => by
    simp only [fill, RHas, rawLeaves]
    exact fillAll_spec fs vs ρ h
  | .sum _ fs, .sum k v, ρ, h => by
    simp only [fill, RHas, rawLeaves]
    exact fillAt_spec fs k v ρ h
  | .bv _ _, .prod _, _, h => by simp [RHas] at h
  | .bv _ _, .sum _ _, _, h => by simp [RHas] at h
  | .bit _, .prod _, _, h => by simp [RHas] at h
  | .bit _, .sum _ _, _, h => by simp [RHas] at h
  | .enum _ _, .prod _, _, h => by simp [RHas] at h
  | .enum _ _, .sum _ _, _, h => by simp [RHas] at h
  | .prod _ _, .leaf _, _, h => by simp [RHas] at h
  | .prod _ _, .sum _ _, _, h => by simp [RHas] at h
  | .sum _ _, .leaf _, _, h => by simp [RHas] at h
  | .sum _ _, .prod _, _, h => by simp [RHas] at h
theorem fillAll_spec : ∀ (fs : Fields) (vs : List RVal) (ρ : RPath → Nat), RHasAll fs vs →
    RHasAll fs (fillAll fs vs ρ) ∧ rawLeavesAll fs (fillAll fs vs ρ) = (rawLeavesAll fs vs).map (refl ρ)
  | .nil, [], _, _ => ⟨trivial, rfl⟩
  | .nil, _ :: _, _, h => by simp [RHasAll] at h
  | .cons .., [], _, h => by simp [RHasAll] at h
  | .cons k t fs, v :: vs, ρ, h => by
    obtain ⟨h1, h2⟩ := fill_spec t v (fun p => ρ (k :: p)) h.1
    obtain ⟨h3, h4⟩ := fillAll_spec fs vs ρ h.2
    simp only [fillAll, RHasAll, rawLeavesAll, h2, h4, List.map_append, List.map_map]
    exact ⟨⟨h1, h3⟩, rfl⟩
theorem fillAt_spec : ∀ (fs : Fields) (k : Key) (v : RVal) (ρ : RPath → Nat), RHasAt fs k v →
    RHasAt fs k (fillAt fs k v ρ) ∧ rawLeavesAt fs k (fillAt fs k v ρ) = (rawLeavesAt fs k v).map (refl ρ)
  | .nil, _, _, _, h => by simp [RHasAt] at h
  | .cons k' t fs, k, v, ρ, h => by
    simp only [RHasAt] at h
    split at h
    · next hk =>
      obtain ⟨h1, h2⟩ := fill_spec t v (fun p => ρ (k :: p)) h
      simp only [fillAt, RHasAt, rawLeavesAt, if_pos hk, h2, List.map_map]
      exact ⟨h1, rfl⟩
    · next hk =>
      simp only [fillAt, RHasAt, rawLeavesAt, if_neg hk]
      exact fillAt_spec fs k v ρ h
end

/-- The bits an assignment gives to an architecture leaf. -/
def archBits (ib : List (RSrc × RPath)) (ai aa : RPath → Nat) (p : RPath) : Nat :=
  match ib.find? (fun e => e.2 == p) with
  | some (.path q, _) => ai q
  | some (.const (.bits b), _) => b.val
  | some (.const (.bit b), _) => b.toNat
  | _ => aa p

theorem archBits_eq {ib : List (RSrc × RPath)} (hn : (ib.map (·.2)).Nodup) {e : RSrc × RPath} (he : e ∈ ib) (ai aa : RPath → Nat) :
    archBits ib ai aa e.2 = match e.1 with
      | .path q => ai q
      | .const (.bits b) => b.val
      | .const (.bit b) => b.toNat
      | .unbound => aa e.2 := by
  have hf : ib.find? (fun e' => e'.2 == e.2) = some e := by
    clear ai aa
    induction ib with
    | nil => simp at he
    | cons x ib ih =>
      simp only [List.map_cons, List.nodup_cons] at hn
      rw [List.find?_cons]
      rcases List.mem_cons.mp he with rfl | he
      · simp
      · have : (x.2 == e.2) = false := by
          rw [beq_eq_false_iff_ne]
          intro h
          exact hn.1 (h ▸ List.mem_map_of_mem (f := (·.2)) he)
        rw [this]
        exact ih hn.2 he
  unfold archBits
  rw [hf]
  obtain ⟨s, p⟩ := e
  cases s with
  | const c => cases c <;> rfl
  | _ => rfl

theorem related_fill {irT archT : Ty} {ib : List (RSrc × RPath)} {ri ra : RVal} (hwa : WF archT) (hR : Related irT archT ib ri ra)
    (ai aa : RPath → Nat) :
    Related irT archT ib (fill irT ri ai) (fill archT ra (archBits ib ai aa)) := by
  obtain ⟨h1, h2⟩ := fill_spec irT ri ai hR.ir
  obtain ⟨h3, h4⟩ := fill_spec archT ra (archBits ib ai aa) hR.arch
  have hn : (ib.map (·.2)).Nodup := hR.arch_paths.nodup_iff.mpr (leaves_nodup hwa hR.arch)
  refine ⟨h1, h3, ?_, ?_, ?_⟩
  · rw [h4, List.map_map]; exact hR.arch_paths
  · rw [h2, List.map_map]; exact hR.ir_paths
  · intro e he
    obtain ⟨t, n, g1, g2⟩ := hR.entries e he
    have hb := archBits_eq hn he ai aa
    refine ⟨t, archBits ib ai aa e.2 % 2 ^ width t, ?_, ?_⟩
    · rw [h4]; exact List.mem_map.mpr ⟨_, g1, rfl⟩
    · obtain ⟨s, p⟩ := e
      rw [hb]
      have hlt := leaf_bound _ _ hR.arch _ g1
      simp only at hlt
      cases s with
      | path q =>
        obtain ⟨u, g3, g4⟩ := g2
        refine ⟨u, ?_, g4⟩
        rw [h2]
        refine List.mem_map.mpr ⟨_, g3, ?_⟩
        simp only [refl, sameKind_width g4]
      | unbound => trivial
      | const c =>
        cases c with
        | bits b =>
          obtain ⟨g5, g6, rfl⟩ := g2
          exact ⟨g5, g6, (Nat.mod_eq_of_lt hlt).symm⟩
        | bit b =>
          obtain ⟨g5, rfl⟩ := g2
          exact ⟨g5, (Nat.mod_eq_of_lt hlt).symm⟩

/-! ## the formula -/

theorem lookup_map_nodup {B α : Type} [DecidableEq B] {K : Type} (g : B × K → α) : ∀ {l : List (B × K)}, (l.map (·.1)).Nodup → ∀ {b : B} {k : K}, (b, k) ∈ l →
    (l.map (fun b => (b.1, g b))).lookup b = some (g (b, k))
  | [], _, _, _, h => by simp at h
  | x :: l, hn, b, k, h => by
    simp only [List.map_cons, List.nodup_cons] at hn
    rw [List.map_cons, List.lookup_cons]
    rcases List.mem_cons.mp h with rfl | h
    · simp
    · have : (b == x.1) = false := by
        rw [beq_eq_false_iff_ne]
        rintro rfl
        exact hn.1 (List.mem_map_of_mem (f := (·.1)) h)
      rw [this]
      exact lookup_map_nodup g hn.2 h

theorem bbOuts_lookup {B K : Type} [DecidableEq B] {obj : PeakObj B K} (hn : (obj.bbs.map (·.1)).Nodup) (ρ : B → Nat → Nat) {b : B} {k : K}
    (h : (b, k) ∈ obj.bbs) : ∃ o, (obj.bbOuts ρ).lookup b = some o ∧ o.map BV.size = obj.bbOutW k := by
  refine ⟨_, lookup_map_nodup (fun b : B × K => (obj.bbOutW b.2).mapIdx (fun i w => BV.ofNat w (ρ b.1 i))) hn h, ?_⟩
  simp only
  rw [List.mapIdx_eq_zipIdx_map]
  rw [List.map_map]
  have : ∀ (l : List Nat) (i : Nat), (l.zipIdx i).map (BV.size ∘ fun x => BV.ofNat x.1 (ρ b x.2)) = l := by
    intro l
    induction l with
    | nil => intro i; rfl
    | cons x l ih => intro i; rw [List.zipIdx_cons, List.map_cons, ih]; rfl
  exact this _ 0

theorem bbOuts_keys {B K : Type} (obj : PeakObj B K) (ρ : B → Nat → Nat) : (obj.bbOuts ρ).map (·.1) = obj.bbs.map (·.1) := by
  simp [PeakObj.bbOuts, List.map_map, Function.comp_def]

theorem called_iff {B K : Type} [DecidableEq B] (F : K → List BV → List BV) (bbs : List (B × K)) (ins outs : List (B × List BV)) :
    (∀ k i o, Called bbs ins outs k i o → F k i = o) ↔ BoxesCompute F bbs ins outs := by
  constructor
  · intro h b k i o h1 h2 h3; exact h k i o ⟨b, h1, h2, h3⟩
  · rintro h k i o ⟨b, h1, h2, h3⟩; exact h b k i o h1 h2 h3

theorem freeVars_ok (P : Process) {T : Ty} {r : RVal} (hw : WF T) (hr : RHas T r) (ρ : RPath → Nat)
    {paths : List RPath} (hp : ∀ p ∈ paths, ∃ t n, (p, t, n) ∈ rawLeaves T r) :
    freeVars P.asm (leafTypes T []) ρ paths =
      .ok (paths.map (fun p => (p, plainAV (((leafTypes T []).lookup p).getD (.bit 0)) (ρ p)))) := by
  unfold freeVars
  refine exMap_ok (fun p h => ?_)
  obtain ⟨t, n, hm⟩ := hp p h
  have h1 := types_lookup hw hr hm
  obtain ⟨l1, l2⟩ := types_leaf T hw _ (mem_types hr hm)
  simp only [h1, freeVar_ok P l1 l2, Option.getD_some]

theorem formula_places {B K : Type} [DecidableEq B] [DecidableEq K] (P : Process) {ir arch : PeakObj B K} {fi fa : Fn B} {inW : K → List Nat}
    (S : Setup0 P ir arch fi fa inW) (hti : NoTagged ir.tagged ir.outT) (hta : NoTagged arch.tagged arch.outT) {rule : RRule} (hF : RuleFits ir.inT arch.inT ir.outT arch.outT rule) {ri ra : RVal}
    (hR : Related ir.inT arch.inT rule.ib ri ra) (a : VAsg B)
    (hai : ∀ q t n, (q, t, n) ∈ rawLeaves ir.inT ri → n = a.ir q % 2 ^ width t)
    (haa : ∀ p t n, (.unbound, p) ∈ rule.ib → (p, t, n) ∈ rawLeaves arch.inT ra → n = a.arch p % 2 ^ width t) :
    ∃ f, verifyFormula P.asm ir arch rule a = .ok f ∧
      (f = true ↔ ((∃ F : K → List BV → List BV, BoxesCompute F ir.bbs (fi ri (ir.bbOuts a.irBB)).2 (ir.bbOuts a.irBB) ∧
          BoxesCompute F arch.bbs (fa ra (arch.bbOuts a.archBB)).2 (arch.bbOuts a.archBB)) →
        PlacesAgree ir.outT arch.outT rule.ob (fi ri (ir.bbOuts a.irBB)).1 (fa ra (arch.bbOuts a.archBB)).1)) := by
  obtain ⟨ii, fii, io, fio, e1, e2, hIr⟩ := S.ir_fn
  obtain ⟨ai, fai, ao, fao, e3, e4, hAr⟩ := S.arch_fn
  have prodOf : ∀ {c : Nat} {fs : Fields} {r : RVal}, RHas (.prod c fs) r → ∃ vs, r = .prod vs := by
    intro c fs r h
    cases r <;> simp [RHas] at h
    exact ⟨_, rfl⟩
  obtain ⟨vs, rfl⟩ := prodOf (e1 ▸ hR.ir)
  obtain ⟨ws, rfl⟩ := prodOf (e3 ▸ hR.arch)
  obtain ⟨os, ho1, ho2, ho3, ho4⟩ := hIr vs (ir.bbOuts a.irBB) hR.ir
  obtain ⟨us, hu1, hu2, hu3, hu4⟩ := hAr ws (arch.bbOuts a.archBB) hR.arch
  have hsrc : ∀ p ∈ (irSources rule.ib).dedup, ∃ t n, (p, t, n) ∈ rawLeaves ir.inT (.prod vs) := by
    intro p hp
    have := hR.ir_paths.subset (List.mem_dedup.mp hp)
    obtain ⟨⟨p', t, n⟩, h, rfl⟩ := List.mem_map.mp this
    exact ⟨t, n, h⟩
  have hunb : ∀ p ∈ (unboundPaths rule.ib).dedup, ∃ t n, (p, t, n) ∈ rawLeaves arch.inT (.prod ws) := by
    intro p hp
    obtain ⟨t, n, h, _⟩ := hR.entries _ (mem_unboundPaths.mp (List.mem_dedup.mp hp))
    exact ⟨t, n, h⟩
  have f1 := freeVars_ok P S.ir_in.1 hR.ir a.ir hsrc
  have f2 := freeVars_ok P S.arch_in.1 hR.arch a.arch hunb
  have hB := buildInputs_ok P (ci := ii) (fi := fii) (ca := ai) (fa := fai) (ib := rule.ib) (vs := vs) (ws := ws)
    (e1 ▸ S.ir_in.1) (e1 ▸ S.ir_in.2) (e3 ▸ S.arch_in.1) (e3 ▸ S.arch_in.2) (e1 ▸ e3 ▸ hR)
    (irIn := (irSources rule.ib).dedup.map (fun p => (p, plainAV (((leafTypes ir.inT []).lookup p).getD (.bit 0)) (a.ir p))))
    (archIn := (unboundPaths rule.ib).dedup.map (fun p => (p, plainAV (((leafTypes arch.inT []).lookup p).getD (.bit 0)) (a.arch p))))
    (fun q => by simp [List.map_map, Function.comp_def])
    (fun p => by simp [List.map_map, Function.comp_def, mem_unboundPaths])
    (fun q t n h => by
      rw [← e1] at h
      rw [lookup_map_fn (fun p => plainAV (((leafTypes ir.inT []).lookup p).getD (.bit 0)) (a.ir p)), types_lookup S.ir_in.1 hR.ir h, Option.getD_some,
        hai q t n h, plainAV_mod]
      exact List.mem_dedup.mpr (hR.ir_paths.symm.subset (List.mem_map_of_mem (f := (·.1)) h)))
    (fun p t n hp h => by
      rw [← e3] at h
      rw [lookup_map_fn (fun p => plainAV (((leafTypes arch.inT []).lookup p).getD (.bit 0)) (a.arch p)), types_lookup S.arch_in.1 hR.arch h,
        Option.getD_some, haa p t n hp h, plainAV_mod]
      exact List.mem_dedup.mpr (mem_unboundPaths.mpr hp))
  rw [← e1, ← e3] at hB
  have p1 := parse_any P (e2 ▸ S.ir_out.1) (e2 ▸ S.ir_out.2) (e2 ▸ hti) (e2 ▸ ho2) ho3
  have p2 := parse_any P (e4 ▸ S.arch_out.1) (e4 ▸ S.arch_out.2) (e4 ▸ hta) (e4 ▸ hu2) hu3
  rw [← e2] at p1
  rw [← e4] at p2
  obtain ⟨eqs, q1, q2, q3⟩ := outputEqs_ok S.ir_out.1 S.arch_out.1 ho2 hu2 hF.outputs
  have hne : eqs ≠ [] := by
    obtain ⟨q, p, h⟩ := hF.some_output
    exact fun h' => (q2.mp h') q p h
  obtain ⟨bi1, bi2, bi3, bi4⟩ := S.ir_boxes
  obtain ⟨ba1, _, ba3, ba4⟩ := S.arch_boxes
  obtain ⟨ki, li⟩ := bi4 (.prod vs) (ir.bbOuts a.irBB) hR.ir
  obtain ⟨ka, la⟩ := ba4 (.prod ws) (arch.bbOuts a.archBB) hR.arch
  obtain ⟨⟨g, fal⟩, hg⟩ := C35_succeeds (eqs.all id) arch.bbs (fa (.prod ws) (arch.bbOuts a.archBB)).2 (arch.bbOuts a.archBB)
    ir.bbs (fi (.prod vs) (ir.bbOuts a.irBB)).2 (ir.bbOuts a.irBB) inW arch.bbOutW bi2 ba3
    (fun p => by rw [ka, bbOuts_keys]) (fun p => by rw [ki, bbOuts_keys])
    (fun p k h => by
      obtain ⟨i, h1, h2⟩ := la p k h
      obtain ⟨o, h3, h4⟩ := bbOuts_lookup ba1 a.archBB h
      exact ⟨i, o, h1, h3, h2, h4⟩)
    (fun p k h => by
      obtain ⟨i, h1, h2⟩ := li p k h
      obtain ⟨o, h3, h4⟩ := bbOuts_lookup bi1 a.irBB h
      exact ⟨i, o, h1, h3, h2, S.same_classes ▸ h4⟩)
  have hun := (C35_uninterpreted _ _ _ _ _ _ _ _ _ hg).1
  refine ⟨g, ?_, ?_⟩
  · simp only [verifyFormula, unbound_types S.arch_in.1 hR, f1, f2, hB, p1, p2, q1, if_neg hne, ho4, hu4, hg]
  · rw [hun, q3, ho1, hu1]
    refine imp_congr (exists_congr (fun F => ?_)) Iff.rfl
    rw [← called_iff, ← called_iff]
    constructor
    · intro h; exact ⟨fun k i o hc => h k i o (.inr hc), fun k i o hc => h k i o (.inl hc)⟩
    · rintro ⟨h1, h2⟩ k i o (hc | hc)
      · exact h2 k i o hc
      · exact h1 k i o hc

theorem setup0 {B K : Type} [DecidableEq B] {P : Process} {ir arch : PeakObj B K} {fi fa : Fn B} {inW : K → List Nat}
    (S : Setup P ir arch fi fa inW) : Setup0 P ir arch fi fa inW :=
  ⟨S.ir_fn, S.arch_fn, S.ir_in, S.arch_in, ⟨S.ir_out.1, S.ir_out.2.1⟩, ⟨S.arch_out.1, S.arch_out.2.1⟩, S.ir_boxes, S.arch_boxes, S.same_classes⟩

theorem computes_has {B K : Type} {P : Process} {obj : PeakObj B K} {f : Fn B} (h : Computes P obj f) {r : RVal} (hr : RHas obj.inT r)
    (bb : List (B × List BV)) : RHas obj.outT (f r bb).1 := by
  obtain ⟨ci, fi, co, fo, e1, e2, h⟩ := h
  obtain ⟨vs, rfl⟩ : ∃ vs, r = .prod vs := by
    rw [e1] at hr
    cases r <;> simp [RHas] at hr
    exact ⟨_, rfl⟩
  obtain ⟨ws, h1, h2, _⟩ := h vs bb hr
  rw [h1]; exact h2

theorem agree_run {B K : Type} [DecidableEq B] {P : Process} {ir arch : PeakObj B K} {fi fa : Fn B} {inW : K → List Nat}
    (S : Setup P ir arch fi fa inW) {rule : RRule} (hF : RuleFits ir.inT arch.inT ir.outT arch.outT rule) {ri ra : RVal}
    (hi : RHas ir.inT ri) (ha : RHas arch.inT ra) (bi ba : List (B × List BV)) :
    PlacesAgree ir.outT arch.outT rule.ob (fi ri bi).1 (fa ra ba).1 ↔ OutputsAgree ir.outT arch.outT rule.ob (fi ri bi).1 (fa ra ba).1 :=
  places_agree S.ir_out.1 S.arch_out.1 S.ir_out.2.2 S.arch_out.2.2 (computes_has S.ir_fn hi bi) (computes_has S.arch_fn ha ba) hF.outputs

theorem formula_ok {B K : Type} [DecidableEq B] [DecidableEq K] (P : Process) {ir arch : PeakObj B K} {fi fa : Fn B} {inW : K → List Nat}
    (S : Setup P ir arch fi fa inW) {rule : RRule} (hF : RuleFits ir.inT arch.inT ir.outT arch.outT rule) {ri ra : RVal}
    (hR : Related ir.inT arch.inT rule.ib ri ra) (a : VAsg B)
    (hai : ∀ q t n, (q, t, n) ∈ rawLeaves ir.inT ri → n = a.ir q % 2 ^ width t)
    (haa : ∀ p t n, (.unbound, p) ∈ rule.ib → (p, t, n) ∈ rawLeaves arch.inT ra → n = a.arch p % 2 ^ width t) :
    ∃ f, verifyFormula P.asm ir arch rule a = .ok f ∧
      (f = true ↔ ((∃ F : K → List BV → List BV, BoxesCompute F ir.bbs (fi ri (ir.bbOuts a.irBB)).2 (ir.bbOuts a.irBB) ∧
          BoxesCompute F arch.bbs (fa ra (arch.bbOuts a.archBB)).2 (arch.bbOuts a.archBB)) →
        OutputsAgree ir.outT arch.outT rule.ob (fi ri (ir.bbOuts a.irBB)).1 (fa ra (arch.bbOuts a.archBB)).1)) := by
  obtain ⟨f, h1, h2⟩ := formula_places P (setup0 S) (ValF.noTagged_of_free _ _ S.ir_out.2.2) (ValF.noTagged_of_free _ _ S.arch_out.2.2) hF hR a hai haa
  exact ⟨f, h1, by rw [h2, agree_run S hF hR.ir hR.arch]⟩

end VF
end Peak
