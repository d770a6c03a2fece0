import Verif.Model.SimplifyBinding
import Verif.Spec.Raw
import Verif.Spec.Forms
import Verif.Lemmas.SmtForms
import Mathlib.Data.List.Dedup
/-!
# Lemmas about `SimplifyBinding`
-/

namespace Peak
open Peak.Spec

/-- `x`, given where a value of type `t` is expected, is taken for the value with bits `n`. -/
def Means (P : Process) (t : Ty) (n : Nat) (x : AV) : Prop := AV.new P.asm t (.asm x) = .ok (mkAV t n)

/-- The value a source stands for when `η` gives the values of the IR paths. -/
def BSrc.resolve (η : RPath → AV) : BSrc → Option AV
  | .path q => some (η q)
  | .val x => some x
  | .unbound => none

def BSrc.isVal : BSrc → Bool
  | .val _ => true
  | _ => false

/-- The leaf binding `b` gives every leaf of the raw value `r` its bits, and nothing else. -/
def Binds (P : Process) (η : RPath → AV) (t : Ty) (r : RVal) (b : List BEntry) : Prop :=
  ∃ L, List.Perm L (rawLeaves t r) ∧
    List.Forall₂ (fun e l => e.2 = l.1 ∧ ∃ x, e.1.resolve η = some x ∧ Means P l.2.1 l.2.2 x) b L

/-- The leaves of `r` below the path `p`. -/
def leavesBelow (t : Ty) (r : RVal) (p : RPath) : List (RPath × Ty × Nat) :=
  match rawAt t r p with
  | some (u, s) => (rawLeaves u s).map (fun l => (p ++ l.1, l.2))
  | none => []

/-- The binding `b'` gives parts of the raw value `r` their values, and these parts have all leaves of `r`, each once. -/
def Groups (P : Process) (η : RPath → AV) (t : Ty) (r : RVal) (b' : List BEntry) : Prop :=
  (∀ e ∈ b', ∃ u s, rawAt t r e.2 = some (u, s) ∧ ∃ x, e.1.resolve η = some x ∧ Means P u (rawCode u s) x) ∧
  (b'.flatMap (fun e => leavesBelow t r e.2)).Perm (rawLeaves t r)

namespace SB

/-! ## fields of a raw product -/

def zipF : Fields → List RVal → List (Key × Ty × RVal)
  | .cons k t fs, v :: vs => (k, t, v) :: zipF fs vs
  | _, _ => []

def pre (k : Key) (l : RPath × Ty × Nat) : RPath × Ty × Nat := (k :: l.1, l.2)

theorem rawLeavesAll_eq : ∀ (fs : Fields) (vs : List RVal),
    rawLeavesAll fs vs = (zipF fs vs).flatMap (fun z => (rawLeaves z.2.1 z.2.2).map (pre z.1))
  | .nil, _ => rfl
  | .cons .., [] => rfl
  | .cons k t fs, v :: vs => by
    simp only [rawLeavesAll, zipF, List.flatMap_cons, rawLeavesAll_eq fs vs]; rfl

theorem zipF_names : ∀ (fs : Fields) (vs : List RVal), RHasAll fs vs → (zipF fs vs).map (·.1) = fs.toList.map (·.1)
  | .nil, [], _ => rfl
  | .cons k t fs, v :: vs, h => by simp [zipF, Fields.toList, zipF_names fs vs h.2]
  | .nil, _ :: _, h => by simp [RHasAll] at h
  | .cons .., [], h => by simp [RHasAll] at h

theorem zipF_mem : ∀ (fs : Fields) (vs : List RVal), RHasAll fs vs → ∀ z ∈ zipF fs vs, (z.1, z.2.1) ∈ fs.toList ∧ RHas z.2.1 z.2.2
  | .nil, [], _, z, hz => by simp [zipF] at hz
  | .cons k t fs, v :: vs, h, z, hz => by
    rcases List.mem_cons.mp hz with rfl | hz
    · exact ⟨by simp [Fields.toList], h.1⟩
    · have := zipF_mem fs vs h.2 z hz
      exact ⟨by simp [Fields.toList, this.1], this.2⟩
  | .nil, _ :: _, h, _, _ => by simp [RHasAll] at h
  | .cons .., [], h, _, _ => by simp [RHasAll] at h

theorem rawAtAll_eq : ∀ (fs : Fields) (vs : List RVal) (k : Key) (p : RPath),
    rawAtAll fs vs k p = ((zipF fs vs).lookup k).bind (fun z => rawAt z.1 z.2 p)
  | .nil, _, _, _ => by simp [rawAtAll, zipF]
  | .cons .., [], _, _ => by simp [rawAtAll, zipF]
  | .cons k' t fs, v :: vs, k, p => by
    simp only [rawAtAll, zipF, List.lookup_cons]
    by_cases h : k = k'
    · subst h; simp
    · rw [if_neg h, beq_eq_false_iff_ne.mpr h]
      exact rawAtAll_eq fs vs k p

theorem rawCodeAll_eq : ∀ (fs : Fields) (vs : List RVal), RHasAll fs vs →
    rawCodeAll fs vs = SF.packAll fs ((zipF fs vs).map (fun z => rawCode z.2.1 z.2.2))
  | .nil, [], _ => rfl
  | .cons k t fs, v :: vs, h => by simp [rawCodeAll, zipF, SF.packAll, rawCodeAll_eq fs vs h.2]
  | .nil, _ :: _, h => by simp [RHasAll] at h
  | .cons .., [], h => by simp [RHasAll] at h

theorem lookup_of_mem {α : Type} : ∀ {Z : List (Key × α)} {k : Key} {a : α}, (Z.map (·.1)).Nodup → (k, a) ∈ Z → Z.lookup k = some a
  | [], _, _, _, h => by simp at h
  | (k', a') :: Z, k, a, hn, h => by
    simp only [List.map_cons, List.nodup_cons] at hn
    rcases List.mem_cons.mp h with h' | h'
    · cases h'; simp
    · rw [List.lookup_cons, beq_eq_false_iff_ne.mpr]
      · exact lookup_of_mem hn.2 h'
      · rintro rfl
        exact hn.1 (List.mem_map_of_mem (f := (·.1)) h')

theorem mem_of_lookup {α : Type} : ∀ {Z : List (Key × α)} {k : Key} {a : α}, Z.lookup k = some a → (k, a) ∈ Z
  | [], _, _, h => by simp at h
  | (k', a') :: Z, k, a, h => by
    rw [List.lookup_cons] at h
    by_cases hk : k = k'
    · subst hk
      rw [beq_self_eq_true] at h
      cases h
      exact List.mem_cons_self
    · rw [beq_eq_false_iff_ne.mpr hk] at h
      exact List.mem_cons_of_mem _ (mem_of_lookup h)

/-! ## codes fit -/

mutual
theorem code_lt : ∀ (t : Ty) (r : RVal), WF t → RHas t r → rawCode t r < 2 ^ width t
  | .bv _ _, .leaf n, _, h => h
  | .bit _, .leaf n, _, h => h
  | .enum _ _, .leaf n, _, h => h
  | .prod c fs, .prod vs, hw, h => by simp only [rawCode, width]; exact codeAll_lt fs vs hw.2 h
  | .sum c fs, .sum k v, hw, h => by
    obtain ⟨h1, i, t, hi⟩ := codeAt_lt fs k v hw.2.2 hw.2.1 h
    simp only [rawCode, width]
    refine pow_add_lt ?_ h1
    rw [optionIndex_of_get hw.2.1 hi]
    exact lt_tagBits (List.getElem?_eq_some_iff.1 hi).1
  | .bv _ _, .prod _, _, h => by simp [RHas] at h
  | .bv _ _, .sum _ _, _, h => by simp [RHas] at h
  | .bit _, .prod _, _, h => by simp [RHas] at h
  | .bit _, .sum _ _, _, h => by simp [RHas] at h
  | .enum _ _, .prod _, _, h => by simp [RHas] at h
  | .enum _ _, .sum _ _, _, h => by simp [RHas] at h
  | .prod _ _, .leaf _, _, h => by simp [RHas] at h
  | .prod _ _, .sum _ _, _, h => by simp [RHas] at h
  | .sum _ _, .leaf _, _, h => by simp [RHas] at h
  | .sum _ _, .prod _, _, h => by simp [RHas] at h
theorem codeAll_lt : ∀ (fs : Fields) (vs : List RVal), WFs fs → RHasAll fs vs → rawCodeAll fs vs < 2 ^ sumWidths fs
  | .nil, [], _, _ => by simp [rawCodeAll, sumWidths]
  | .cons _ t fs, v :: vs, hw, h => by
    simp only [rawCodeAll, sumWidths]
    exact pow_add_lt (code_lt t v hw.1 h.1) (codeAll_lt fs vs hw.2 h.2)
  | .nil, _ :: _, _, h => by simp [RHasAll] at h
  | .cons .., [], _, h => by simp [RHasAll] at h
theorem codeAt_lt : ∀ (fs : Fields) (k : Key) (v : RVal), WFs fs → (fs.toList.map (·.1)).Nodup → RHasAt fs k v →
    rawCodeAt fs k v < 2 ^ maxWidth fs ∧ ∃ (i : Nat) (t : Ty), fs.toList[i]? = some (k, t)
  | .nil, _, _, _, _, h => by simp [RHasAt] at h
  | .cons k' t fs, k, v, hw, hn, h => by
    simp only [Fields.toList, List.map_cons, List.nodup_cons] at hn
    simp only [RHasAt] at h
    simp only [rawCodeAt, maxWidth]
    by_cases hk : k = k'
    · rw [if_pos hk] at h ⊢
      exact ⟨Nat.lt_of_lt_of_le (code_lt t v hw.1 h) (Nat.pow_le_pow_right (by decide) (Nat.le_max_left _ _)), 0, t, by simp [Fields.toList, hk]⟩
    · rw [if_neg hk] at h ⊢
      obtain ⟨h1, i, t', hi⟩ := codeAt_lt fs k v hw.2 hn.2 h
      exact ⟨Nat.lt_of_lt_of_le h1 (Nat.pow_le_pow_right (by decide) (Nat.le_max_right _ _)), i + 1, t', by simpa [Fields.toList] using hi⟩
end

/-! ## there are leaves -/

mutual
theorem leaves_ne : ∀ (t : Ty) (r : RVal), Buildable t → RHas t r → rawLeaves t r ≠ []
  | .bv _ _, .leaf n, _, _ => by simp [rawLeaves]
  | .bit _, .leaf n, _, _ => by simp [rawLeaves]
  | .enum _ _, .leaf n, _, _ => by simp [rawLeaves]
  | .prod c (.cons k t fs), .prod (v :: vs), hb, h => by
    have := leaves_ne t v hb.2.2.1 h.1
    simp [rawLeaves, rawLeavesAll, this]
  | .prod c (.cons k t fs), .prod [], hb, h => by simp [RHas, RHasAll] at h
  | .prod c .nil, .prod _, hb, h => absurd rfl hb.1
  | .sum c fs, .sum k v, hb, h => by simp only [rawLeaves]; exact leavesAt_ne fs k v hb.2.2 h
  | .bv _ _, .prod _, _, h => by simp [RHas] at h
  | .bv _ _, .sum _ _, _, h => by simp [RHas] at h
  | .bit _, .prod _, _, h => by simp [RHas] at h
  | .bit _, .sum _ _, _, h => by simp [RHas] at h
  | .enum _ _, .prod _, _, h => by simp [RHas] at h
  | .enum _ _, .sum _ _, _, h => by simp [RHas] at h
  | .prod _ _, .leaf _, _, h => by simp [RHas] at h
  | .prod _ _, .sum _ _, _, h => by simp [RHas] at h
  | .sum _ _, .leaf _, _, h => by simp [RHas] at h
  | .sum _ _, .prod _, _, h => by simp [RHas] at h
theorem leavesAt_ne : ∀ (fs : Fields) (k : Key) (v : RVal), Buildables fs → RHasAt fs k v → rawLeavesAt fs k v ≠ []
  | .nil, _, _, _, h => by simp [RHasAt] at h
  | .cons k' t fs, k, v, hb, h => by
    simp only [RHasAt] at h
    simp only [rawLeavesAt]
    by_cases hk : k = k'
    · rw [if_pos hk] at h ⊢
      simpa using leaves_ne t v hb.1 h
    · rw [if_neg hk] at h ⊢
      exact leavesAt_ne fs k v hb.2 h
end

/-! ## splitting a binding by field -/

/-- The same as `subBinding`, on leaves. -/
def subL (k : Key) (l : RPath × Ty × Nat) : Option (RPath × Ty × Nat) :=
  match l.1 with
  | [] => none
  | k' :: p => if k' = k then some (p, l.2) else none

theorem subL_pre (k k' : Key) (l : RPath × Ty × Nat) : subL k (pre k' l) = if k' = k then some l else none := rfl

theorem filterMap_pre_self (k : Key) (l : List (RPath × Ty × Nat)) : (l.map (pre k)).filterMap (subL k) = l := by
  induction l with
  | nil => rfl
  | cons a l ih => simp [subL_pre, ih]

theorem filterMap_pre_other {k k' : Key} (h : k' ≠ k) (l : List (RPath × Ty × Nat)) : (l.map (pre k')).filterMap (subL k) = [] := by
  induction l with
  | nil => rfl
  | cons a l ih => simp [subL_pre, h, ih]

theorem filterMap_zip : ∀ {Z : List (Key × Ty × RVal)} {k : Key} {t : Ty} {v : RVal}, (Z.map (·.1)).Nodup → (k, t, v) ∈ Z →
    (Z.flatMap (fun z => (rawLeaves z.2.1 z.2.2).map (pre z.1))).filterMap (subL k) = rawLeaves t v
  | [], _, _, _, _, h => by simp at h
  | (k', t', v') :: Z, k, t, v, hn, h => by
    simp only [List.map_cons, List.nodup_cons] at hn
    rw [List.flatMap_cons, List.filterMap_append]
    rcases List.mem_cons.mp h with h | h
    · cases h
      rw [filterMap_pre_self]
      have : (Z.flatMap (fun z => (rawLeaves z.2.1 z.2.2).map (pre z.1))).filterMap (subL k') = [] := by
        rw [List.filterMap_eq_nil_iff]
        intro l hl
        obtain ⟨z, hz, hl⟩ := List.mem_flatMap.mp hl
        obtain ⟨l', _, rfl⟩ := List.mem_map.mp hl
        rw [subL_pre, if_neg]
        rintro rfl
        exact hn.1 (List.mem_map_of_mem (f := (·.1)) hz)
      rw [this, List.append_nil]
    · have hne : k' ≠ k := by
        rintro rfl
        exact hn.1 (List.mem_map_of_mem (f := (·.1)) h)
      rw [filterMap_pre_other hne, List.nil_append]
      exact filterMap_zip hn.2 h

variable {P : Process} {η : RPath → AV}

def EntOk (P : Process) (η : RPath → AV) (e : BEntry) (l : RPath × Ty × Nat) : Prop :=
  e.2 = l.1 ∧ ∃ x, e.1.resolve η = some x ∧ Means P l.2.1 l.2.2 x

theorem sub_forall₂ {k : Key} {b : List BEntry} {L : List (RPath × Ty × Nat)} (h : List.Forall₂ (EntOk P η) b L) :
    List.Forall₂ (EntOk P η) (subBinding k b) (L.filterMap (subL k)) := by
  induction h with
  | nil => exact .nil
  | @cons e l b L h1 _ ih =>
    obtain ⟨s, p⟩ := e
    obtain ⟨q, rest⟩ := l
    obtain ⟨hp, hx⟩ := h1
    simp only at hp
    subst hp
    cases p with
    | nil =>
      rw [List.filterMap_cons]
      simpa [subBinding, subL] using ih
    | cons k' p =>
      rw [List.filterMap_cons]
      by_cases hk : k' = k
      · simp only [subBinding, subL, if_pos hk]
        exact .cons ⟨rfl, hx⟩ ih
      · simp only [subBinding, subL, if_neg hk]
        exact ih

/-- All entries start with a name in `names`. -/
def Heads (names : List Key) (b : List BEntry) : Prop := ∀ e ∈ b, ∃ k p, e.2 = k :: p ∧ k ∈ names

theorem fields_spec {names : List Key} : ∀ {b : List BEntry} {acc : List Key}, Heads names b → acc.Nodup →
    ∃ order, bindingFields names b acc = .ok order ∧ order.Nodup ∧ ∀ k, k ∈ order ↔ k ∈ acc ∨ ∃ e ∈ b, ∃ p, e.2 = k :: p
  | [], acc, _, hn => ⟨acc, rfl, hn, by simp⟩
  | (s, p) :: b, acc, h, hn => by
    obtain ⟨k, q, hp, hk⟩ := h _ List.mem_cons_self
    simp only at hp
    subst hp
    have hb : Heads names b := fun e he => h e (List.mem_cons_of_mem _ he)
    simp only [bindingFields, if_pos hk]
    have hn' : (if k ∈ acc then acc else acc ++ [k]).Nodup := by
      by_cases hka : k ∈ acc
      · rwa [if_pos hka]
      · rw [if_neg hka, List.nodup_append]
        exact ⟨hn, by simp, by intro a ha b hb; rw [List.mem_singleton] at hb; subst hb; rintro rfl; exact hka ha⟩
    obtain ⟨order, h1, h2, h3⟩ := fields_spec hb hn'
    refine ⟨order, h1, h2, ?_⟩
    intro k'
    rw [h3]
    have hmem : k' ∈ (if k ∈ acc then acc else acc ++ [k]) ↔ k' ∈ acc ∨ k' = k := by
      by_cases hka : k ∈ acc
      · rw [if_pos hka]
        constructor
        · exact .inl
        · rintro (h | rfl)
          · exact h
          · exact hka
      · simp [if_neg hka]
    rw [hmem]
    constructor
    · rintro ((h | rfl) | ⟨e, he, p, hp⟩)
      · exact .inl h
      · exact .inr ⟨_, List.mem_cons_self, q, rfl⟩
      · exact .inr ⟨e, List.mem_cons_of_mem _ he, p, hp⟩
    · rintro (h | ⟨e, he, p, hp⟩)
      · exact .inl (.inl h)
      · rcases List.mem_cons.mp he with rfl | he
        · simp only [List.cons.injEq] at hp
          exact .inl (.inr hp.1.symm)
        · exact .inr ⟨e, he, p, hp⟩

theorem strip_spec {k : Key} : ∀ {b : List BEntry}, Heads [k] b → stripOption k b = .ok (subBinding k b)
  | [], _ => rfl
  | (s, p) :: b, h => by
    obtain ⟨k', q, hp, hk⟩ := h _ List.mem_cons_self
    simp only at hp
    subst hp
    rw [List.mem_singleton] at hk
    subst hk
    simp only [stripOption, subBinding, if_true, strip_spec (fun e he => h e (List.mem_cons_of_mem _ he))]

theorem heads_of {names : List Key} {b : List BEntry} {L : List (RPath × Ty × Nat)} (h : List.Forall₂ (EntOk P η) b L)
    (hL : ∀ l ∈ L, ∃ k p, l.1 = k :: p ∧ k ∈ names) : Heads names b := by
  induction h with
  | nil => intro e he; simp at he
  | cons h1 _ ih =>
    intro e he
    rcases List.mem_cons.mp he with rfl | he
    · obtain ⟨k, p, h2, h3⟩ := hL _ List.mem_cons_self
      exact ⟨k, p, h1.1.trans h2, h3⟩
    · exact ih (fun l hl => hL l (List.mem_cons_of_mem _ hl)) e he

theorem not_leaf {names : List Key} {b : List BEntry} (h : Heads names b) : isLeafBinding b = false := by
  match b with
  | [] => rfl
  | [(s, [])] => obtain ⟨k, p, hp, _⟩ := h _ List.mem_cons_self; cases hp
  | [(s, _ :: _)] => rfl
  | _ :: _ :: _ => simp [isLeafBinding]

theorem sub_val {k : Key} : ∀ {b : List BEntry}, (∀ e ∈ b, e.1.isVal = true) → ∀ e ∈ subBinding k b, e.1.isVal = true
  | [], _, _, he => by simp [subBinding] at he
  | (s, []) :: b, h, e, he => sub_val (fun e he => h e (List.mem_cons_of_mem _ he)) e he
  | (s, k' :: p) :: b, h, e, he => by
    simp only [subBinding] at he
    by_cases hk : k' = k
    · rw [if_pos hk] at he
      rcases List.mem_cons.mp he with rfl | he
      · exact h (s, k' :: p) List.mem_cons_self
      · exact sub_val (fun e he => h e (List.mem_cons_of_mem _ he)) e he
    · rw [if_neg hk] at he
      exact sub_val (fun e he => h e (List.mem_cons_of_mem _ he)) e he

/-! ## values of fields -/

theorem fromFields_means (P : Process) {c : Nat} {fs : Fields} {xs : List AV} {ns : List Nat} (hw : WF (.prod c fs))
    (hb : Buildable (.prod c fs)) (h : List.Forall₂ (fun (z : (Key × Ty) × Nat) x => Means P z.1.2 z.2 x ∧ z.2 < 2 ^ width z.1.2) (fs.toList.zip ns) xs)
    (hl : ns.length = fs.toList.length) :
    AV.fromFields P.asm (.prod c fs) (xs.map .asm) 0 = .ok (mkAV (.prod c fs) (SF.packAll fs ns)) := by
  have key : ∀ (fs : Fields) (ns : List Nat) (xs : List AV), WFs fs → ns.length = fs.toList.length →
      List.Forall₂ (fun (z : (Key × Ty) × Nat) x => Means P z.1.2 z.2 x ∧ z.2 < 2 ^ width z.1.2) (fs.toList.zip ns) xs →
      ∃ ys, SF.ValsOk fs ys ns ∧ AV.newFields P.asm fs (xs.map .asm) = AV.newFields P.asm fs (ys.map .asm) := by
    intro fs
    induction fs using Fields.rec (motive_1 := fun _ => True) with
    | nil =>
      intro ns xs _ hl h
      cases ns with
      | nil => cases h; exact ⟨[], trivial, rfl⟩
      | cons _ _ => simp [Fields.toList] at hl
    | cons k t fs _ ih =>
      intro ns xs hw hl h
      cases ns with
      | nil => simp [Fields.toList] at hl
      | cons n ns =>
        rw [Fields.toList, List.zip_cons_cons] at h
        obtain ⟨x, xs', h1, h2, rfl⟩ := List.forall₂_cons_left_iff.mp h
        obtain ⟨ys, h3, h4⟩ := ih ns xs' hw.2 (by simpa [Fields.toList] using hl) h2
        refine ⟨mkAV t n :: ys, ⟨rfl, h1.2, h3⟩, ?_⟩
        have h5 := h1.1
        simp only [Means] at h5
        simp only [List.map_cons, AV.newFields, h5, new_asm P hw.1, h4]
    | _ => trivial
  obtain ⟨ys, h1, h2⟩ := key fs ns xs hw.2 hl h
  have := SF.fromFields_bits P hw hb h1
  simp only [AV.fromFields, h2] at this ⊢
  exact this

theorem fromOption_means (P : Process) {c : Nat} {fs : Fields} {k : Key} {t : Ty} {n : Nat} {x : AV} (hw : WF (.sum c fs))
    (hb : Buildable (.sum c fs)) (hk : (k, t) ∈ fs.toList) (he : n < 2 ^ width t) (hx : Means P t n x) :
    AV.fromOption P.asm (.sum c fs) k (.asm x) none 0 =
      .ok (mkAV (.sum c fs) (optionIndex fs k + 2 ^ tagBits fs.toList.length * n)) := by
  obtain ⟨i, hi⟩ := List.getElem?_of_mem hk
  have hwt := wfs_mem fs hw.2.2 i k t hi
  obtain ⟨o, ho, hg⟩ := P.good hw
  obtain ⟨tg, ht, hgt⟩ := hg.tag
  have hkm : k ∈ fs.toList.map (·.1) := List.mem_map_of_mem (f := (·.1)) hk
  have htag := hgt.asm_ok k hkm
  have hlt : optionIndex fs k < 2 ^ tagBits fs.toList.length := by
    rw [optionIndex_of_get hw.2.1 hi]
    exact lt_tagBits (List.getElem?_eq_some_iff.1 hi).1
  have := SF.fromOption_bits P hw hb hk he (tag := BV.ofNat (tagBits fs.toList.length) (optionIndex fs k)) rfl
  rw [ofNat_val_of_lt hlt] at this
  rw [← this]
  simp only [Means] at hx
  have hat : o.assembleTag k = .ok (BV.ofNat (tagBits fs.toList.length) (optionIndex fs k)) := by
    simp only [AsmObj.assembleTag, ht, htag, hgt.width]
  simp only [AV.fromOption, ho, lookup_of_get hw.2.1 hi, hx, new_asm P hwt, hat]

/-! ## the result of a call -/

def Res (P : Process) (η : RPath → AV) (t : Ty) (r : RVal) (b : List BEntry) (res : Except Err (List BEntry)) : Prop :=
  ∃ b', res = .ok b' ∧ Groups P η t r b' ∧ (∀ x q, b' = [(.val x, q)] → q = []) ∧
    ((∀ e ∈ b, e.1.isVal = true) → ∃ x, b' = [(.val x, [])])

theorem rawAt_nil (t : Ty) (r : RVal) : rawAt t r [] = some (t, r) := by cases t <;> cases r <;> simp [rawAt]

theorem below_nil (t : Ty) (r : RVal) : leavesBelow t r [] = rawLeaves t r := by simp [leavesBelow, rawAt_nil]

theorem groups_whole {t : Ty} {r : RVal} {s : BSrc} {x : AV} (hs : s.resolve η = some x) (hx : Means P t (rawCode t r) x) :
    Groups P η t r [(s, [])] := by
  refine ⟨?_, ?_⟩
  · intro e he
    rw [List.mem_singleton] at he
    subst he
    exact ⟨t, r, rawAt_nil t r, x, hs, hx⟩
  · simp [below_nil]

theorem leaf_res {t : Ty} {n : Nat} {b : List BEntry} (hl : rawLeaves t (.leaf n) = [([], t, n)]) (hc : rawCode t (.leaf n) = n)
    (h : Binds P η t (.leaf n) b) :
    isLeafBinding b = true ∧ Res P η t (.leaf n) b (.ok b) := by
  obtain ⟨L, hL, hb⟩ := h
  rw [hl, List.perm_singleton] at hL
  subst hL
  obtain ⟨e, b', hb', h1, rfl⟩ := List.forall₂_cons_right_iff.mp hb
  obtain ⟨s, p⟩ := e
  obtain ⟨hp, x, hx, hm⟩ := hb'
  simp only at hp
  subst hp
  cases h1
  refine ⟨rfl, _, rfl, groups_whole hx (by rw [hc]; exact hm), ?_, ?_⟩
  · intro y q he
    simp only [List.cons.injEq, Prod.mk.injEq, and_true] at he
    exact he.2.symm
  · intro hv
    have := hv _ List.mem_cons_self
    cases s with
    | val y => exact ⟨y, rfl⟩
    | path _ => cases this
    | unbound => cases this

theorem fieldValues_some : ∀ {names : List Key} {rows : List (Key × List BEntry)} {xs : List AV}, fieldValues rows names = some xs →
    List.Forall₂ (fun k x => (rows.lookup k).bind fieldValue = some x) names xs
  | [], _, xs, h => by cases h; exact .nil
  | k :: ks, rows, xs, h => by
    simp only [fieldValues] at h
    cases h1 : (rows.lookup k).bind fieldValue with
    | none => rw [h1] at h; cases h
    | some x =>
      cases h2 : fieldValues rows ks with
      | none => rw [h1, h2] at h; cases h
      | some xs' =>
        rw [h1, h2] at h
        cases h
        exact .cons h1 (fieldValues_some h2)

theorem fieldValues_none : ∀ {names : List Key} {rows : List (Key × List BEntry)}, fieldValues rows names = none →
    ∃ k ∈ names, (rows.lookup k).bind fieldValue = none
  | [], _, h => by cases h
  | k :: ks, rows, h => by
    simp only [fieldValues] at h
    cases h1 : (rows.lookup k).bind fieldValue with
    | none => exact ⟨k, List.mem_cons_self, h1⟩
    | some x =>
      cases h2 : fieldValues rows ks with
      | none =>
        obtain ⟨k', hk', h3⟩ := fieldValues_none h2
        exact ⟨k', List.mem_cons_of_mem _ hk', h3⟩
      | some xs' => rw [h1, h2] at h; cases h

theorem fieldValue_inv {r : List BEntry} {x : AV} (h : fieldValue r = some x) : ∃ q, r = [(.val x, q)] := by
  match r, h with
  | [(.val y, q)], h => cases h; exact ⟨q, rfl⟩

theorem len_flatMap {α β : Type} {f : α → List β} : ∀ {l : List α} {a : α}, a ∈ l → (f a).length ≤ (l.flatMap f).length
  | [], _, h => by simp at h
  | b :: l, a, h => by
    rw [List.flatMap_cons, List.length_append]
    rcases List.mem_cons.mp h with rfl | h
    · omega
    · have := len_flatMap (f := f) h
      omega

theorem prod_res (P : Process) {c : Nat} {fs : Fields} {vs : List RVal} {b : List BEntry} (hw : WF (.prod c fs)) (hb : Buildable (.prod c fs))
    (hr : RHas (.prod c fs) (.prod vs)) (hbind : Binds P η (.prod c fs) (.prod vs) b)
    (ih : ∀ k t v b, fs.toList.lookup k = some t → RHas t v → Binds P η t v b → Res P η t v b (simplifyAt P.asm fs k b)) :
    Res P η (.prod c fs) (.prod vs) b (simplifyBinding P.asm (.prod c fs) b) := by
  have hr' : RHasAll fs vs := hr
  obtain ⟨L, hL, hbL⟩ := hbind
  have hnames := zipF_names fs vs hr'
  have hzm := zipF_mem fs vs hr'
  have hnd : ((zipF fs vs).map (·.1)).Nodup := by rw [hnames]; exact hw.1
  simp only [rawLeaves, rawLeavesAll_eq] at hL
  generalize hZ : zipF fs vs = Z at hL hnames hzm hnd
  have hlk : ∀ k t v, (k, t, v) ∈ Z → fs.toList.lookup k = some t := by
    intro k t v hm
    obtain ⟨i, hi⟩ := List.getElem?_of_mem (hzm _ hm).1
    exact lookup_of_get hw.1 hi
  have hbt : ∀ k t, (k, t) ∈ fs.toList → Buildable t ∧ WF t := by
    have : ∀ fs : Fields, Buildables fs → WFs fs → ∀ k t, (k, t) ∈ fs.toList → Buildable t ∧ WF t := by
      intro fs
      induction fs using Fields.rec (motive_1 := fun _ => True) with
      | nil => intro _ _ k t h; simp [Fields.toList] at h
      | cons k' t' fs _ ih =>
        intro h hw k t hm
        rw [Fields.toList, List.mem_cons] at hm
        rcases hm with hm | hm
        · cases hm; exact ⟨h.1, hw.1⟩
        · exact ih h.2 hw.2 k t hm
      | _ => trivial
    exact this fs hb.2.2 hw.2
  -- entries start with field names
  have hheads : Heads (fs.toList.map (·.1)) b := by
    refine heads_of hbL ?_
    intro l hl
    obtain ⟨z, hz, hl⟩ := List.mem_flatMap.mp (hL.mem_iff.mp hl)
    obtain ⟨l', _, rfl⟩ := List.mem_map.mp hl
    exact ⟨z.1, l'.1, rfl, by rw [← hnames]; exact List.mem_map_of_mem (f := (·.1)) hz⟩
  -- the binding of each field
  have hsub : ∀ k t v, (k, t, v) ∈ Z → Binds P η t v (subBinding k b) := by
    intro k t v hm
    refine ⟨L.filterMap (subL k), ?_, sub_forall₂ hbL⟩
    have := hL.filterMap (subL k)
    rwa [filterMap_zip hnd hm] at this
  obtain ⟨order, ho1, ho2, ho3⟩ := fields_spec (acc := []) hheads List.nodup_nil
  have hperm : order.Perm (fs.toList.map (·.1)) := by
    rw [List.perm_ext_iff_of_nodup ho2 hw.1]
    intro k
    rw [ho3]
    constructor
    · rintro (h | ⟨e, he, p, hp⟩)
      · simp at h
      · obtain ⟨k', p', hp', hk'⟩ := hheads e he
        rw [hp] at hp'
        cases hp'
        exact hk'
    · intro hk
      right
      rw [← hnames] at hk
      obtain ⟨⟨k', t, v⟩, hz, rfl⟩ := List.mem_map.mp hk
      obtain ⟨hm, hv⟩ := hzm _ hz
      obtain ⟨L', hL', hb'⟩ := hsub k' t v hz
      have hne := leaves_ne t v (hbt _ _ hm).1 hv
      have hne' : subBinding k' b ≠ [] := by
        intro h0
        rw [h0] at hb'
        cases hb'
        exact hne (List.nil_perm.mp hL')
      have : ∀ b : List BEntry, subBinding k' b ≠ [] → ∃ e ∈ b, ∃ p, e.2 = k' :: p := by
        intro b
        induction b with
        | nil => intro h; exact absurd rfl h
        | cons e b ih =>
          obtain ⟨s, p⟩ := e
          intro h
          cases p with
          | nil =>
            obtain ⟨e, he, h⟩ := ih h
            exact ⟨e, List.mem_cons_of_mem _ he, h⟩
          | cons k p =>
            by_cases hk : k = k'
            · exact ⟨_, List.mem_cons_self, p, by rw [hk]⟩
            · simp only [subBinding, if_neg hk] at h
              obtain ⟨e, he, h⟩ := ih h
              exact ⟨e, List.mem_cons_of_mem _ he, h⟩
      exact this b hne'
  -- the calls on the fields
  have hcall : ∀ k ∈ order, ∃ row, (fun k => dictItem k (simplifyAt P.asm fs k (subBinding k b))) k = .ok row := by
    intro k hk
    have hk' : k ∈ Z.map (·.1) := by rw [hnames]; exact hperm.mem_iff.mp hk
    obtain ⟨⟨k', t, v⟩, hz, rfl⟩ := List.mem_map.mp hk'
    obtain ⟨b', h1, _⟩ := ih k' t v _ (hlk _ _ _ hz) (hzm _ hz).2 (hsub _ _ _ hz)
    exact ⟨(k', b'), by simp only [h1, dictItem]⟩
  obtain ⟨rows, hrows, hfa⟩ := SF.exMap_ok hcall
  have hrow1 : rows.map (·.1) = order := by
    clear hrows
    clear * - hfa
    induction hfa with
    | nil => rfl
    | cons h _ ih =>
      rw [List.map_cons, ih]
      congr 1
      simp only [dictItem] at h
      split at h
      · cases h
      · cases h; rfl
  have hrow2 : ∀ k r, (k, r) ∈ rows → simplifyAt P.asm fs k (subBinding k b) = .ok r := by
    intro k r hm
    obtain ⟨k', _, h⟩ := SF.mem_right_of_forall₂ hfa _ hm
    simp only [dictItem] at h
    split at h
    · cases h
    · rename_i r' hr'
      cases h
      exact hr'
  have hrowZ : ∀ k r, (k, r) ∈ rows → ∃ t v, (k, t, v) ∈ Z ∧ Z.lookup k = some (t, v) ∧ Groups P η t v r ∧ (∀ x q, r = [(.val x, q)] → q = []) ∧
      ((∀ e ∈ b, e.1.isVal = true) → ∃ x, r = [(.val x, [])]) ∧ r ≠ [] := by
    intro k r hm
    have hk' : k ∈ Z.map (·.1) := by
      rw [hnames, ← hperm.mem_iff, ← hrow1]
      exact List.mem_map_of_mem (f := (·.1)) hm
    obtain ⟨⟨k', t, v⟩, hz, rfl⟩ := List.mem_map.mp hk'
    obtain ⟨b', h1, h2, h3, h4⟩ := ih k' t v _ (hlk _ _ _ hz) (hzm _ hz).2 (hsub _ _ _ hz)
    have := hrow2 _ _ hm
    rw [h1] at this
    cases this
    refine ⟨t, v, hz, lookup_of_mem hnd hz, h2, h3, fun hv => h4 (sub_val hv), ?_⟩
    rintro rfl
    have hp := h2.2
    simp only [List.flatMap_nil] at hp
    exact leaves_ne t v (hbt _ _ (hzm _ hz).1).1 (hzm _ hz).2 (List.nil_perm.mp hp)
  have hrnd : (rows.map (·.1)).Nodup := by rw [hrow1]; exact ho2
  have hrl : ∀ k ∈ fs.toList.map (·.1), ∃ r, (k, r) ∈ rows := by
    intro k hk
    rw [← hperm.mem_iff, ← hrow1] at hk
    obtain ⟨⟨k', r⟩, hm, rfl⟩ := List.mem_map.mp hk
    exact ⟨r, hm⟩
  have hlen : order.length = fs.toList.length := by rw [hperm.length_eq, List.length_map]
  simp only [simplifyBinding, not_leaf hheads, ho1, hlen, hrows, if_true, Bool.false_eq_true, if_false]
  cases hfv : fieldValues rows (fs.toList.map (·.1)) with
  | some xs =>
    have hf := fieldValues_some hfv
    simp only
    have hz2 : List.Forall₂ (fun (z : (Key × Ty) × Nat) x => Means P z.1.2 z.2 x ∧ z.2 < 2 ^ width z.1.2)
        (fs.toList.zip (Z.map (fun z => rawCode z.2.1 z.2.2))) xs := by
      have hzip : fs.toList.zip (Z.map (fun z => rawCode z.2.1 z.2.2)) = Z.map (fun z => ((z.1, z.2.1), rawCode z.2.1 z.2.2)) := by
        rw [← hZ]
        clear * - hr'
        have : ∀ (fs : Fields) (vs : List RVal), RHasAll fs vs →
          fs.toList.zip ((zipF fs vs).map (fun z => rawCode z.2.1 z.2.2)) = (zipF fs vs).map (fun z => ((z.1, z.2.1), rawCode z.2.1 z.2.2)) := by
          intro fs
          induction fs using Fields.rec (motive_1 := fun _ => True) with
          | nil => intro vs _; simp [zipF]
          | cons k t fs _ ih =>
            intro vs h
            cases vs with
            | nil => simp [RHasAll] at h
            | cons v vs => simp [zipF, Fields.toList, ih vs h.2]
          | _ => trivial
        exact this fs vs hr'
      rw [hzip]
      rw [← hnames] at hf
      rw [List.forall₂_map_left_iff] at hf ⊢
      have hall : ∀ z ∈ Z, ∀ x, (rows.lookup z.1).bind fieldValue = some x → Means P z.2.1 (rawCode z.2.1 z.2.2) x ∧
          rawCode z.2.1 z.2.2 < 2 ^ width z.2.1 := by
        rintro ⟨k, t, v⟩ hz x hx
        refine ⟨?_, code_lt t v (hbt _ _ (hzm _ hz).1).2 (hzm _ hz).2⟩
        cases hl : rows.lookup k with
        | none => rw [hl] at hx; cases hx
        | some r =>
          rw [hl] at hx
          obtain ⟨q, rfl⟩ := fieldValue_inv hx
          obtain ⟨t', v', hz', hzl, hg, hq, _, _⟩ := hrowZ k _ (mem_of_lookup hl)
          rw [lookup_of_mem hnd hz] at hzl
          cases hzl
          have := hq x q rfl
          subst this
          obtain ⟨u, s, h1, y, h2, h3⟩ := hg.1 _ List.mem_cons_self
          rw [rawAt_nil] at h1
          cases h1
          cases h2
          exact h3
      clear * - hf hall
      induction hf with
      | nil => exact .nil
      | cons h _ ih => exact .cons (hall _ List.mem_cons_self _ h) (ih (fun z hz => hall z (List.mem_cons_of_mem _ hz)))
    have hzl : (Z.map (fun z => rawCode z.2.1 z.2.2)).length = fs.toList.length := by
      have := congrArg List.length hnames
      simpa using this
    have hy := fromFields_means P hw hb hz2 hzl
    rw [hy]
    refine ⟨_, rfl, groups_whole (x := mkAV (.prod c fs) (SF.packAll fs (Z.map (fun z => rawCode z.2.1 z.2.2)))) rfl ?_, ?_, ?_⟩
    · simp only [rawCode, rawCodeAll_eq fs vs hr', hZ]
      exact new_asm P hw _
    · intro x q he
      simp only [List.cons.injEq, Prod.mk.injEq, and_true] at he
      exact he.2.symm
    · intro _; exact ⟨_, rfl⟩
  | none =>
    simp only
    obtain ⟨k0, hk0, hn0⟩ := fieldValues_none hfv
    obtain ⟨r0, hm0⟩ := hrl k0 hk0
    rw [lookup_of_mem hrnd hm0] at hn0
    replace hn0 : fieldValue r0 = none := hn0
    have hbelow : ∀ k t v q, Z.lookup k = some (t, v) →
        leavesBelow (.prod c fs) (.prod vs) (k :: q) = (leavesBelow t v q).map (pre k) := by
      intro k t v q hl
      simp only [leavesBelow, rawAt, rawAtAll_eq, hZ, hl, Option.bind_some]
      cases rawAt t v q with
      | none => rfl
      | some us => simp [pre, Function.comp_def]
    refine ⟨_, rfl, ⟨?_, ?_⟩, ?_, ?_⟩
    · intro e he
      obtain ⟨⟨k, r⟩, hm, he⟩ := List.mem_flatMap.mp he
      obtain ⟨e', he', rfl⟩ := List.mem_map.mp he
      obtain ⟨t, v, hz, hzl, hg, _⟩ := hrowZ k r hm
      obtain ⟨u, s, h1, h2⟩ := hg.1 e' he'
      exact ⟨u, s, by simp only [rawAt, rawAtAll_eq, hZ, hzl, Option.bind_some, h1], h2⟩
    · simp only [rawLeaves, rawLeavesAll_eq, hZ]
      let G : Key → List (RPath × Ty × Nat) := fun k =>
        match Z.lookup k with
        | some (t, v) => (rawLeaves t v).map (pre k)
        | none => []
      have e1 : ((rows.flatMap (fun r => addPrefix r.1 r.2)).flatMap (fun e => leavesBelow (.prod c fs) (.prod vs) e.2)).Perm
          (rows.flatMap (fun r => G r.1)) := by
        rw [List.flatMap_assoc]
        apply List.Perm.flatMap_left
        rintro ⟨k, r⟩ hm
        obtain ⟨t, v, hz, hzl, hg, _⟩ := hrowZ k r hm
        simp only [addPrefix, List.flatMap_map, G, hzl, hbelow k t v _ hzl]
        rw [← List.map_flatMap]
        exact hg.2.map _
      refine e1.trans ?_
      have e2 : rows.flatMap (fun r => G r.1) = order.flatMap G := by rw [← hrow1, List.flatMap_map]
      rw [e2]
      refine (hperm.flatMap_right G).trans ?_
      rw [← hnames, List.flatMap_map]
      apply List.Perm.of_eq
      apply List.flatMap_congr
      rintro ⟨k, t, v⟩ hz
      simp only [G, lookup_of_mem hnd hz]
    · intro x q he
      exfalso
      obtain ⟨_, _, _, _, _, _, _, hne⟩ := hrowZ k0 r0 hm0
      have hsubl : ∀ e ∈ r0, ((e.1, k0 :: e.2) : BEntry) ∈ [((.val x, q) : BEntry)] := by
        intro e he'
        rw [← he]
        exact List.mem_flatMap.mpr ⟨(k0, r0), hm0, List.mem_map.mpr ⟨e, he', rfl⟩⟩
      have hlen0 : r0.length ≤ 1 := by
        have h1 : (addPrefix k0 r0).length ≤ (rows.flatMap (fun r => addPrefix r.1 r.2)).length := by
          exact len_flatMap (f := fun r : Key × List BEntry => addPrefix r.1 r.2) hm0
        rw [he] at h1
        simpa [addPrefix] using h1
      match r0, hne, hlen0, hsubl, hn0 with
      | [e], _, _, hs, hn =>
        have := hs e List.mem_cons_self
        rw [List.mem_singleton] at this
        obtain ⟨s, p⟩ := e
        cases this
        cases hn
      | _ :: _ :: _, _, h, _, _ => simp at h
    · intro hv
      exfalso
      obtain ⟨_, _, _, _, _, _, h, _⟩ := hrowZ k0 r0 hm0
      obtain ⟨x, rfl⟩ := h hv
      cases hn0

/-- What is known about the option a raw union holds. -/
theorem at_spec : ∀ (fs : Fields) (k : Key) (v : RVal), (fs.toList.map (·.1)).Nodup → RHasAt fs k v →
    ∃ t, (k, t) ∈ fs.toList ∧ RHas t v ∧ rawLeavesAt fs k v = (rawLeaves t v).map (pre k) ∧ rawCodeAt fs k v = rawCode t v ∧
      ∀ p, rawAtOpt fs k v p = rawAt t v p
  | .nil, _, _, _, h => by simp [RHasAt] at h
  | .cons k' t fs, k, v, hn, h => by
    simp only [Fields.toList, List.map_cons, List.nodup_cons] at hn
    simp only [RHasAt] at h
    by_cases hk : k = k'
    · rw [if_pos hk] at h
      exact ⟨t, by simp [Fields.toList, hk], h, by simp only [rawLeavesAt, if_pos hk]; rfl, by simp only [rawCodeAt, if_pos hk],
        fun p => by simp only [rawAtOpt, if_pos hk]⟩
    · rw [if_neg hk] at h
      obtain ⟨t', h1, h2, h3, h4, h5⟩ := at_spec fs k v hn.2 h
      exact ⟨t', by simp [Fields.toList, h1], h2, by simp only [rawLeavesAt, if_neg hk, h3], by simp only [rawCodeAt, if_neg hk, h4],
        fun p => by simp only [rawAtOpt, if_neg hk, h5]⟩

theorem sum_res (P : Process) {c : Nat} {fs : Fields} {k : Key} {v : RVal} {b : List BEntry} (hw : WF (.sum c fs)) (hb : Buildable (.sum c fs))
    (hr : RHas (.sum c fs) (.sum k v)) (hbind : Binds P η (.sum c fs) (.sum k v) b)
    (ih : ∀ k t v b, fs.toList.lookup k = some t → RHas t v → Binds P η t v b → Res P η t v b (simplifyAt P.asm fs k b)) :
    Res P η (.sum c fs) (.sum k v) b (simplifyBinding P.asm (.sum c fs) b) := by
  have hne := leaves_ne _ _ hb hr
  obtain ⟨t, ht, hv, hlv, hcode, hat⟩ := at_spec fs k v hw.2.1 hr
  obtain ⟨L, hL, hbL⟩ := hbind
  have hbn : b ≠ [] := by
    rintro rfl
    cases hbL
    exact hne (List.nil_perm.mp hL)
  simp only [rawLeaves, hlv] at hL
  obtain ⟨i, hi⟩ := List.getElem?_of_mem ht
  have hwt := wfs_mem fs hw.2.2 i k t hi
  have hheads : Heads [k] b := by
    refine heads_of hbL ?_
    intro l hl
    obtain ⟨l', _, rfl⟩ := List.mem_map.mp (hL.mem_iff.mp hl)
    exact ⟨k, l'.1, rfl, by simp⟩
  have hsub : Binds P η t v (subBinding k b) := by
    refine ⟨L.filterMap (subL k), ?_, sub_forall₂ hbL⟩
    have := hL.filterMap (subL k)
    rwa [filterMap_pre_self] at this
  obtain ⟨r, h1, h2, h3, h4⟩ := ih k t v _ (lookup_of_get hw.2.1 hi) hv hsub
  have hnl := not_leaf hheads
  have hstrip := strip_spec hheads
  -- the result when the option is not simplified to one value
  have hrest : (∀ x q, r ≠ [(.val x, q)]) → Res P η (.sum c fs) (.sum k v) b (.ok (addPrefix k r)) := by
    intro hnv
    refine ⟨_, rfl, ⟨?_, ?_⟩, ?_, ?_⟩
    · intro e he
      obtain ⟨e', he', rfl⟩ := List.mem_map.mp he
      obtain ⟨u, s, g1, g2⟩ := h2.1 e' he'
      exact ⟨u, s, by simp only [rawAt, if_true, hat, g1], g2⟩
    · simp only [rawLeaves, hlv, addPrefix, List.flatMap_map]
      have : ∀ e : BEntry, leavesBelow (.sum c fs) (.sum k v) (k :: e.2) = (leavesBelow t v e.2).map (pre k) := by
        intro e
        simp only [leavesBelow, rawAt, if_true, hat]
        cases rawAt t v e.2 with
        | none => rfl
        | some us => simp [pre, Function.comp_def]
      simp only [this]
      rw [← List.map_flatMap]
      exact h2.2.map _
    · intro x q he
      exfalso
      match r, hnv, he with
      | [(s, p)], hnv, he =>
        simp only [addPrefix, List.map_cons, List.map_nil, List.cons.injEq, Prod.mk.injEq, and_true] at he
        obtain ⟨rfl, _⟩ := he
        exact hnv x p rfl
      | [], _, he => simp [addPrefix] at he
      | _ :: _ :: _, _, he => simp [addPrefix] at he
    · intro hval
      obtain ⟨x, hx⟩ := h4 (sub_val hval)
      exact absurd hx (hnv x [])
  obtain ⟨⟨s0, p0⟩, b0, rfl⟩ := List.exists_cons_of_ne_nil hbn
  obtain ⟨k1, p1, hp1, hk1⟩ := hheads _ List.mem_cons_self
  rw [List.mem_singleton] at hk1
  subst hk1
  simp only at hp1
  subst hp1
  simp only [simplifyBinding, hnl, Bool.false_eq_true, if_false, hstrip, h1]
  split
  · rename_i heq; cases heq
  · rename_i x q heq
    simp only [Except.ok.injEq] at heq
    subst heq
    have hq := h3 x q rfl
    subst hq
    obtain ⟨u, s, g1, y, g2, g3⟩ := h2.1 _ List.mem_cons_self
    rw [rawAt_nil] at g1
    cases g1
    cases g2
    have hy := fromOption_means P hw hb ht (code_lt t v hwt hv) g3
    simp only [if_true, hy]
    refine ⟨_, rfl, groups_whole rfl ?_, ?_, ?_⟩
    · simp only [rawCode, hcode]
      exact new_asm P hw _
    · intro x' q he
      simp only [List.cons.injEq, Prod.mk.injEq, and_true] at he
      exact he.2.symm
    · intro _; exact ⟨_, rfl⟩
  · rename_i q heq
    simp only [Except.ok.injEq] at heq
    subst heq
    obtain ⟨_, _, _, y, g2, _⟩ := h2.1 _ List.mem_cons_self
    cases g2
  · rename_i r' hn1 hn2 heq
    simp only [Except.ok.injEq] at heq
    subst heq
    exact hrest (fun x q he => hn1 x q (by rw [he]))

mutual
theorem simp_ok (P : Process) (η : RPath → AV) : ∀ (t : Ty) (r : RVal) (b : List BEntry), WF t → Buildable t → RHas t r → Binds P η t r b →
    Res P η t r b (simplifyBinding P.asm t b)
  | .bv c w, .leaf n, b, _, _, _, h => by
    obtain ⟨h1, h2⟩ := leaf_res (t := .bv c w) rfl rfl h
    simpa only [simplifyBinding, h1, if_true] using h2
  | .bit c, .leaf n, b, _, _, _, h => by
    obtain ⟨h1, h2⟩ := leaf_res (t := .bit c) rfl rfl h
    simpa only [simplifyBinding, h1, if_true] using h2
  | .enum c ms, .leaf n, b, _, _, _, h => by
    obtain ⟨h1, h2⟩ := leaf_res (t := .enum c ms) rfl rfl h
    simpa only [simplifyBinding, h1, if_true] using h2
  | .prod c fs, .prod vs, b, hw, hb, hr, h => prod_res P hw hb hr h (fun k t v b' h1 h2 h3 => simpAt_ok P η fs hw.2 hb.2.2 k t v b' h1 h2 h3)
  | .sum c fs, .sum k v, b, hw, hb, hr, h => sum_res P hw hb hr h (fun k t v b' h1 h2 h3 => simpAt_ok P η fs hw.2.2 hb.2.2 k t v b' h1 h2 h3)
  | .bv _ _, .prod _, _, _, _, h, _ => by simp [RHas] at h
  | .bv _ _, .sum _ _, _, _, _, h, _ => by simp [RHas] at h
  | .bit _, .prod _, _, _, _, h, _ => by simp [RHas] at h
  | .bit _, .sum _ _, _, _, _, h, _ => by simp [RHas] at h
  | .enum _ _, .prod _, _, _, _, h, _ => by simp [RHas] at h
  | .enum _ _, .sum _ _, _, _, _, h, _ => by simp [RHas] at h
  | .prod _ _, .leaf _, _, _, _, h, _ => by simp [RHas] at h
  | .prod _ _, .sum _ _, _, _, _, h, _ => by simp [RHas] at h
  | .sum _ _, .leaf _, _, _, _, h, _ => by simp [RHas] at h
  | .sum _ _, .prod _, _, _, _, h, _ => by simp [RHas] at h
theorem simpAt_ok (P : Process) (η : RPath → AV) : ∀ (fs : Fields), WFs fs → Buildables fs → ∀ (k : Key) (t : Ty) (v : RVal) (b : List BEntry),
    fs.toList.lookup k = some t → RHas t v → Binds P η t v b → Res P η t v b (simplifyAt P.asm fs k b)
  | .nil, _, _, k, t, v, b, h, _, _ => by simp [Fields.toList] at h
  | .cons k' t' fs, hw, hb, k, t, v, b, h, hr, hbind => by
    rw [Fields.toList, List.lookup_cons] at h
    by_cases hk : k = k'
    · subst hk
      rw [beq_self_eq_true] at h
      cases h
      have := simp_ok P η t' v b hw.1 hb.1 hr hbind
      simpa only [simplifyAt, if_true] using this
    · rw [beq_eq_false_iff_ne.mpr hk] at h
      have := simpAt_ok P η fs hw.2 hb.2 k t v b h hr hbind
      simpa only [simplifyAt, if_neg hk] using this
end

end SB
end Peak
