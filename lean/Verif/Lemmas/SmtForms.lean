import Verif.Model.SmtForms
import Verif.Spec.Forms
import Verif.Props.AssembledADT
import Verif.Lemmas.Bindings
/-!
# Lemmas about `SMTForms`
-/

namespace Peak.SF
open Peak Peak.Spec

/-! ## building from bits -/

/-- `xs` are the values with numbers `ns` of the field types. -/
def ValsOk : Fields → List AV → List Nat → Prop
  | .nil, [], [] => True
  | .cons _ t fs, x :: xs, n :: ns => x = mkAV t n ∧ n < 2 ^ width t ∧ ValsOk fs xs ns
  | _, _, _ => False

def packAll : Fields → List Nat → Nat
  | .cons _ t fs, n :: ns => n + 2 ^ width t * packAll fs ns
  | _, _ => 0

theorem packAll_lt : ∀ (fs : Fields) (xs : List AV) (ns : List Nat), ValsOk fs xs ns → packAll fs ns < 2 ^ sumWidths fs
  | .nil, [], [], _ => by simp [packAll, sumWidths]
  | .cons k t fs, x :: xs, n :: ns, h => by
    have := packAll_lt fs xs ns h.2.2
    simp only [packAll, sumWidths]
    exact pow_add_lt h.2.1 this
  | .nil, _ :: _, _, h => by simp [ValsOk] at h
  | .nil, [], _ :: _, h => by simp [ValsOk] at h
  | .cons .., [], _, h => by simp [ValsOk] at h
  | .cons .., _ :: _, [], h => by simp [ValsOk] at h

theorem newFields_bits (P : Process) : ∀ (fs : Fields) (xs : List AV) (ns : List Nat), ValsOk fs xs ns → WFs fs →
    ∃ bs, AV.newFields P.asm fs (xs.map .asm) = .ok bs ∧ bs.map (·.size) = fieldWidths fs ∧ concatVal bs = packAll fs ns
  | .nil, [], [], _, _ => ⟨[], rfl, rfl, rfl⟩
  | .cons k t fs, x :: xs, n :: ns, h, hw => by
    obtain ⟨rfl, he, h⟩ := h
    obtain ⟨bs, h1, h2, h3⟩ := newFields_bits P fs xs ns h hw.2
    refine ⟨_, by simp only [List.map_cons, AV.newFields, new_asm P hw.1, h1]; rfl, ?_, ?_⟩
    · simp only [List.map_cons, asBv_mkAV he, BV.ofNat_size, fieldWidths, h2]
    · simp only [concatVal, asBv_mkAV he, BV.ofNat_size, packAll, h3, ofNat_val_of_lt he]
  | .nil, _ :: _, _, h, _ => by simp [ValsOk] at h
  | .nil, [], _ :: _, h, _ => by simp [ValsOk] at h
  | .cons .., [], _, h, _ => by simp [ValsOk] at h
  | .cons .., _ :: _, [], h, _ => by simp [ValsOk] at h

/-- `from_fields` of a product on values given by numbers. -/
theorem fromFields_bits (P : Process) {c : Nat} {fs : Fields} {xs : List AV} {ns : List Nat} (hw : WF (.prod c fs))
    (hb : Buildable (.prod c fs)) (h : ValsOk fs xs ns) :
    AV.fromFields P.asm (.prod c fs) (xs.map .asm) 0 = .ok (mkAV (.prod c fs) (packAll fs ns)) := by
  obtain ⟨hne, hpos, _⟩ := hb
  obtain ⟨o, ho, hg⟩ := P.good hw
  obtain ⟨bs, b1, b2, b3⟩ := newFields_bits P fs xs ns h hw.2
  obtain ⟨a1, a2, a3, a4⟩ := layoutFrom_parts fs 0 bs b2
  rw [Nat.zero_add] at a1
  simp only [AV.fromFields, ho, b1, AV.fromParts, hg.width, hg.layout, layoutOf, width, mkAV]
  rw [createFromLayout_tiles a1, a2, b3]
  · simp only [AV.init, BV.ofNat_size, if_true]
  · intro hnil
    rw [hnil] at a4
    cases fs with
    | nil => exact hne rfl
    | cons k t fs => simp [fieldWidths] at a4
  · rcases hpos with hpos | hpos
    · left
      intro p hp
      have hm : p.1.2 - p.1.1 ∈ fs.toList.map (fun p => width p.2) := by
        rw [← fieldWidths_eq, ← a4]
        exact List.mem_map_of_mem (f := fun p => p.1.2 - p.1.1) hp
      obtain ⟨kt, hkt, he⟩ := List.mem_map.mp hm
      have := hpos kt hkt
      omega
    · right
      have := congrArg List.length a4
      rw [fieldWidths_eq] at this
      simpa [hpos] using this
  · intro p hp; exact (a3 p hp).1

theorem tagBits_pos {n : Nat} (h : 2 ≤ n) : 0 < tagBits n := by
  rcases Nat.eq_zero_or_pos (tagBits n) with h' | h'
  · have := lt_two_pow_bitLength (n - 1)
    unfold tagBits at h'
    rw [h'] at this; omega
  · exact h'

/-- `from_fields` of a union on a value given by a number, with the tag given. -/
theorem fromOption_bits (P : Process) {c : Nat} {fs : Fields} {k : Key} {t : Ty} {n : Nat} {tag : BV} (hw : WF (.sum c fs))
    (hb : Buildable (.sum c fs)) (hk : (k, t) ∈ fs.toList) (he : n < 2 ^ width t) (htag : tag.size = tagBits fs.toList.length) :
    AV.fromOption P.asm (.sum c fs) k (.asm (mkAV t n)) (some tag) 0 =
      .ok (mkAV (.sum c fs) (tag.val + 2 ^ tagBits fs.toList.length * n)) := by
  obtain ⟨h2, hpos, _⟩ := hb
  obtain ⟨i, hi⟩ := List.getElem?_of_mem hk
  have hwt := wfs_mem fs hw.2.2 i k t hi
  have hle := width_le_maxWidth fs i k t hi
  have htb := tagBits_pos h2
  obtain ⟨o, ho, hg⟩ := P.good hw
  obtain ⟨tg, ht, hgt⟩ := hg.tag
  simp only [AV.fromOption, ho, lookup_of_get hw.2.1 hi, new_asm P hwt, ht, hg.layout,
    sum_layout hw hi, hgt.width, hg.width, asBv_mkAV he]
  rw [createFromLayout_union htb (hpos _ hk) (by simp only [width]; omega) htag rfl]
  simp [AV.init, Nat.mod_eq_of_lt he, mkAV]

theorem sum_lt {fs : Fields} {k : Key} {t : Ty} {n : Nat} {tag : BV} (c : Nat) (hk : (k, t) ∈ fs.toList) (he : n < 2 ^ width t)
    (htag : tag.size = tagBits fs.toList.length) : tag.val + 2 ^ tagBits fs.toList.length * n < 2 ^ width (.sum c fs) := by
  obtain ⟨i, hi⟩ := List.getElem?_of_mem hk
  have hle := width_le_maxWidth fs i k t hi
  simp only [width]
  exact pow_add_lt (htag ▸ tag.isLt) (Nat.lt_of_lt_of_le he (Nat.pow_le_pow_right (by decide) hle))

/-- The match condition read off such a union. -/
theorem getOption_bits (P : Process) {c : Nat} {fs : Fields} {k : Key} {t : Ty} {n : Nat} {tag : BV} (hw : WF (.sum c fs))
    (hk : (k, t) ∈ fs.toList) (he : n < 2 ^ width t) (htag : tag.size = tagBits fs.toList.length) :
    ∃ f, (mkAV (.sum c fs) (tag.val + 2 ^ tagBits fs.toList.length * n)).getOption P.asm k =
      .ok (decide (tag.val = optionIndex fs k), f) := by
  obtain ⟨j, hj⟩ := List.getElem?_of_mem hk
  have hlt := sum_lt c hk he htag
  obtain ⟨o, ho, hg⟩ := P.good hw
  obtain ⟨tg, ht, hgt⟩ := hg.tag
  have hlej := width_le_maxWidth fs j k t hj
  have hs := sub_spec P hg (wfs_mem fs hw.2.2 j k t hj)
    (b := BV.ofNat (width (.sum c fs)) (tag.val + 2 ^ tagBits fs.toList.length * n))
    (k := k) (off := tagBits fs.toList.length) rfl (lookup_of_get hw.2.1 hj) (sum_layout hw hj)
    (by simp only [width]; omega)
  have hkj : k ∈ fs.toList.map (·.1) := List.mem_map_of_mem (f := (·.1)) hk
  have hfit : tag.val < 2 ^ tagBits fs.toList.length := htag ▸ tag.isLt
  have htag' := tag_slice (w := width (.sum c fs)) hfit (by simp only [width]; omega)
    (BV.ofNat (width (.sum c fs)) (tag.val + 2 ^ tagBits fs.toList.length * n)) rfl (by rw [ofNat_val_of_lt hlt])
  refine ⟨mkAV t ((BV.ofNat (width (.sum c fs)) (tag.val + 2 ^ tagBits fs.toList.length * n)).val / 2 ^ tagBits fs.toList.length), ?_⟩
  simp only [mkAV, AV.getOption, ho, hs, SubObj.tagIdx, AsmObj.sub, ht, AsmObj.assembleTag,
    hgt.asm_ok k hkj, hgt.width, Nat.zero_add, htag', optionIndex_of_get hw.2.1 hj]
  have hfj := lt_tagBits (List.getElem?_eq_some_iff.1 hj).1
  congr 2
  rw [decide_eq_decide]
  constructor
  · intro h
    have := congrArg BV.val h
    rw [ofNat_val_of_lt hfit, ofNat_val_of_lt hfj] at this
    exact this
  · intro h; rw [h]

/-! ## lists -/

theorem exMap_ok {α β : Type} {f : α → Except Err β} : ∀ {l : List α}, (∀ a ∈ l, ∃ b, f a = .ok b) →
    ∃ bs, exMap f l = .ok bs ∧ List.Forall₂ (fun a b => f a = .ok b) l bs
  | [], _ => ⟨[], rfl, .nil⟩
  | a :: l, h => by
    obtain ⟨b, hb⟩ := h a List.mem_cons_self
    obtain ⟨bs, h1, h2⟩ := exMap_ok (l := l) (fun a ha => h a (List.mem_cons_of_mem _ ha))
    exact ⟨b :: bs, by simp only [exMap, hb, h1], .cons hb h2⟩

theorem filter_forall₂ {α β : Type} {R : α → β → Prop} {P : α → Bool} {Q : β → Bool} {l : List α} {bs : List β}
    (h : List.Forall₂ R l bs) (hPQ : ∀ a ∈ l, ∀ b, R a b → Q b = P a) :
    List.Forall₂ R (l.filter P) (bs.filter Q) := by
  induction h with
  | nil => exact .nil
  | @cons a b l bs hab _ ih =>
    have ih' := ih (fun a ha b => hPQ a (List.mem_cons_of_mem _ ha) b)
    have hq := hPQ a List.mem_cons_self b hab
    cases hp : P a with
    | true => rw [List.filter_cons_of_pos hp, List.filter_cons_of_pos (by rw [hq, hp])]; exact .cons hab ih'
    | false => rw [List.filter_cons_of_neg (by rw [hp]; simp), List.filter_cons_of_neg (by rw [hq, hp]; simp)]; exact ih'

theorem mem_right_of_forall₂ {α β : Type} {R : α → β → Prop} {l : List α} {bs : List β} (h : List.Forall₂ R l bs) :
    ∀ b ∈ bs, ∃ a ∈ l, R a b := by
  induction h with
  | nil => simp
  | cons hab _ ih =>
    intro b hb
    rcases List.mem_cons.mp hb with rfl | hb
    · exact ⟨_, List.mem_cons_self, hab⟩
    · obtain ⟨a, ha, hr⟩ := ih b hb
      exact ⟨a, List.mem_cons_of_mem _ ha, hr⟩

/-! ## match conditions -/

def preMatches (m : List (RPath × List (Key × Bool))) (pd : List (RPath × Key)) : Bool :=
  pd.all (fun e => ((m.lookup e.1).bind (·.lookup e.2)) == some true)

theorem preMatches_append (m : List (RPath × List (Key × Bool))) (a b : List (RPath × Key)) :
    preMatches m (a ++ b) = (preMatches m a && preMatches m b) := by simp [preMatches]

theorem preMatches_congr {m m' : List (RPath × List (Key × Bool))} {pd : List (RPath × Key)}
    (h : ∀ e ∈ pd, m.lookup e.1 = m'.lookup e.1) : preMatches m pd = preMatches m' pd := by
  unfold preMatches
  induction pd with
  | nil => rfl
  | cons e pd ih =>
    simp only [List.all_cons, h e List.mem_cons_self]
    rw [ih (fun e he => h e (List.mem_cons_of_mem _ he))]

theorem lookup_append {α : Type} (q : RPath) (a b : List (RPath × α)) :
    (a ++ b).lookup q = if q ∈ a.map (·.1) then a.lookup q else b.lookup q := by
  induction a with
  | nil => simp
  | cons e a ih =>
    obtain ⟨q', x⟩ := e
    simp only [List.cons_append, List.lookup_cons, List.map_cons, List.mem_cons]
    by_cases h : q = q'
    · subst h; simp
    · rw [beq_eq_false_iff_ne.mpr h]
      simp only [ih, h, false_or]

/-- All keys of the tables of one list entry start with the entry's own path. -/
def Keyed {α : Type} (p : RPath) (L : List (Key × List (RPath × α))) : Prop :=
  ∀ e ∈ L, ∀ q ∈ e.2.map (·.1), (p ++ [e.1]) <+: q

theorem prefix_inj {p q : RPath} {k k' : Key} (h : (p ++ [k]) <+: q) (h' : (p ++ [k']) <+: q) : k = k' := by
  obtain ⟨r, hr⟩ := h
  obtain ⟨r', hr'⟩ := h'
  rw [← hr'] at hr
  simp only [List.append_assoc, List.singleton_append, List.append_cancel_left_eq, List.cons.injEq] at hr
  exact hr.1

theorem lookup_keyed {α : Type} {p : RPath} {L : List (Key × List (RPath × α))} (hk : Keyed p L) (hn : (L.map (·.1)).Nodup)
    {k : Key} {T : List (RPath × α)} (hm : (k, T) ∈ L) {q : RPath} (hq : q ∈ T.map (·.1)) :
    (L.flatMap (·.2)).lookup q = T.lookup q := by
  induction L with
  | nil => simp at hm
  | cons e L ih =>
    simp only [List.flatMap_cons, lookup_append]
    simp only [List.map_cons, List.nodup_cons] at hn
    rcases List.mem_cons.mp hm with rfl | hm
    · rw [if_pos hq]
    · rw [if_neg, ih (fun e he => hk e (List.mem_cons_of_mem _ he)) hn.2 hm]
      intro hq'
      have h1 := hk e List.mem_cons_self q hq'
      have h2 := hk _ (List.mem_cons_of_mem _ hm) q hq
      have := prefix_inj h1 h2
      exact hn.1 (this ▸ List.mem_map_of_mem (f := (·.1)) hm)

theorem foldr_matches {α : Type} (f : α → Varmap) (L : List α) :
    (L.foldr (fun r vm => (f r).append vm) ⟨[], [], []⟩).matches_ = L.flatMap (fun r => (f r).matches_) := by
  induction L with
  | nil => rfl
  | cons r L ih => rw [List.foldr_cons, List.flatMap_cons, ← ih]; rfl

/-! ## the invariant -/

/-- What is shown of the result for type `t` at path `p`. -/
structure FormsOk (ρ τ : RPath → Nat) (t : Ty) (p : RPath) (r : FormsRes) : Prop where
  val : ∃ n, n < 2 ^ width t ∧ r.value = mkAV t n
  fval : ∀ f ∈ r.forms, ∃ n, n < 2 ^ width t ∧ f.value = mkAV t n
  keys : ∀ q ∈ r.varmap.matches_.map (·.1), p <+: q
  dom : ∀ f ∈ r.forms, ∀ e ∈ f.pathDict, e.1 ∈ r.varmap.matches_.map (·.1)
  vals : ∀ v, t.Has v → Spells ρ τ t p v → r.value = mkAV t (encode t v) ∧
    ∃ f, r.forms.filter (formMatches r.varmap) = [f] ∧ f.value = mkAV t (encode t v) ∧
      f.pathDict = decisions t p v ∧ f.leaves = leaves t p v

def allMatch : List FormsRes → List SForm → Bool
  | r :: rs, f :: fs => formMatches r.varmap f && allMatch rs fs
  | _, _ => true

theorem filter_product {α : Type} {l : List α} {L : List (List α)} {P : α → Bool} {Q R : List α → Bool} {a : α} {b : List α}
    (h1 : l.filter P = [a]) (h2 : L.filter Q = [b]) (hR : ∀ x ∈ l, ∀ xs ∈ L, R (x :: xs) = (P x && Q xs)) :
    (l.flatMap (fun x => L.map (fun xs => x :: xs))).filter R = [a :: b] := by
  have hone : ∀ x ∈ l, (L.map (fun xs => x :: xs)).filter R = if P x then [x :: b] else [] := by
    intro x hx
    rw [List.filter_map]
    have : L.filter (R ∘ fun xs => x :: xs) = L.filter (fun xs => P x && Q xs) :=
      List.filter_congr (fun xs hxs => hR x hx xs hxs)
    rw [this]
    cases hp : P x with
    | true =>
      simp only [Bool.true_and, if_true]
      rw [show L.filter (fun xs => Q xs) = [b] from h2]; rfl
    | false => simp
  have key : ∀ l' : List α, (∀ x ∈ l', (L.map (fun xs => x :: xs)).filter R = if P x then [x :: b] else []) →
      (l'.flatMap (fun x => L.map (fun xs => x :: xs))).filter R = (l'.filter P).map (fun x => x :: b) := by
    intro l'
    induction l' with
    | nil => intro _; rfl
    | cons x l' ih =>
      intro h
      rw [List.flatMap_cons, List.filter_append, h x List.mem_cons_self, ih (fun y hy => h y (List.mem_cons_of_mem _ hy))]
      cases hp : P x with
      | true => rw [List.filter_cons_of_pos hp]; rfl
      | false => rw [List.filter_cons_of_neg (by rw [hp]; simp)]; rfl
  rw [key l hone, h1]; rfl

theorem filter_allMatch {rows : List FormsRes} {fs : List SForm}
    (h : List.Forall₂ (fun r f => r.forms.filter (formMatches r.varmap) = [f]) rows fs) :
    (pyProduct (rows.map (·.forms))).filter (allMatch rows) = [fs] := by
  induction h with
  | nil => rfl
  | cons h1 _ ih => exact filter_product h1 ih (fun x _ xs _ => rfl)

theorem allMatch_eq {rows : List FormsRes} {m : List (RPath × List (Key × Bool))} {subs : List SForm}
    (hs : subs ∈ pyProduct (rows.map (·.forms)))
    (hd : ∀ r ∈ rows, ∀ f ∈ r.forms, ∀ e ∈ f.pathDict, m.lookup e.1 = r.varmap.matches_.lookup e.1) :
    preMatches m (subs.flatMap (·.pathDict)) = allMatch rows subs := by
  induction rows generalizing subs with
  | nil =>
    simp only [List.map_nil, pyProduct, List.mem_singleton] at hs
    subst hs; rfl
  | cons r rows ih =>
    simp only [List.map_cons, pyProduct, List.mem_flatMap, List.mem_map] at hs
    obtain ⟨f, hf, fs, hfs, rfl⟩ := hs
    rw [List.flatMap_cons, preMatches_append, ih hfs (fun r hr => hd r (List.mem_cons_of_mem _ hr)),
      preMatches_congr (hd r List.mem_cons_self f hf)]
    rfl

/-! ## products -/

def encList : Fields → List Val → List Nat
  | .cons _ t fs, v :: vs => encode t v :: encList fs vs
  | _, _ => []

theorem pack_encList : ∀ (fs : Fields) (vs : List Val), fs.HasAll vs → packAll fs (encList fs vs) = encodeAll fs vs
  | .nil, [], _ => rfl
  | .cons k t fs, v :: vs, h => by simp only [packAll, encList, encodeAll, pack_encList fs vs h.2]
  | .nil, _ :: _, h => by simp [Fields.HasAll] at h
  | .cons .., [], h => by simp [Fields.HasAll] at h

variable {ρ τ : RPath → Nat}

def RowsOk (ρ τ : RPath → Nat) (p : RPath) : Fields → List FormsRes → Prop
  | .nil, [] => True
  | .cons k t fs, r :: rs => FormsOk ρ τ t (p ++ [k]) r ∧ RowsOk ρ τ p fs rs
  | _, _ => False

theorem rows_vals {p : RPath} : ∀ (fs : Fields) (rows : List FormsRes), RowsOk ρ τ p fs rows →
    ∃ ns, ValsOk fs (rows.map (·.value)) ns
  | .nil, [], _ => ⟨[], trivial⟩
  | .cons k t fs, r :: rs, h => by
    obtain ⟨ns, hns⟩ := rows_vals fs rs h.2
    obtain ⟨n, h1, h2⟩ := h.1.val
    exact ⟨n :: ns, h2, h1, hns⟩
  | .nil, _ :: _, h => by simp [RowsOk] at h
  | .cons .., [], h => by simp [RowsOk] at h

theorem subs_vals {p : RPath} : ∀ (fs : Fields) (rows : List FormsRes), RowsOk ρ τ p fs rows →
    ∀ subs ∈ pyProduct (rows.map (·.forms)), ∃ ns, ValsOk fs (subs.map (·.value)) ns
  | .nil, [], _, subs, hs => by
    simp only [List.map_nil, pyProduct, List.mem_singleton] at hs
    subst hs
    exact ⟨[], trivial⟩
  | .cons k t fs, r :: rs, h, subs, hs => by
    simp only [List.map_cons, pyProduct, List.mem_flatMap, List.mem_map] at hs
    obtain ⟨f, hf, sub, hsub, rfl⟩ := hs
    obtain ⟨ns, hns⟩ := subs_vals fs rs h.2 sub hsub
    obtain ⟨n, h1, h2⟩ := h.1.fval f hf
    exact ⟨n :: ns, h2, h1, hns⟩
  | .nil, _ :: _, h, _, _ => by simp [RowsOk] at h
  | .cons .., [], h, _, _ => by simp [RowsOk] at h

theorem rows_spell {p : RPath} : ∀ (fs : Fields) (rows : List FormsRes), RowsOk ρ τ p fs rows → WFs fs → ∀ vs, fs.HasAll vs →
    SpellsAll ρ τ fs p vs →
    ValsOk fs (rows.map (·.value)) (encList fs vs) ∧
    ∃ subs, List.Forall₂ (fun r f => r.forms.filter (formMatches r.varmap) = [f]) rows subs ∧
      ValsOk fs (subs.map (·.value)) (encList fs vs) ∧
      subs.flatMap (·.pathDict) = decisionsAll fs p vs ∧ subs.flatMap (·.leaves) = leavesAll fs p vs
  | .nil, [], _, _, [], _, _ => ⟨trivial, [], .nil, trivial, rfl, rfl⟩
  | .cons k t fs, r :: rs, h, hw, v :: vs, hv, hs => by
    obtain ⟨i1, subs, i2, i3, i4, i5⟩ := rows_spell fs rs h.2 hw.2 vs hv.2 hs.2
    obtain ⟨j1, f, j2, j3, j4, j5⟩ := h.1.vals v hv.1 hs.1
    have he := (encode_spec t hw.1 v hv.1).1
    refine ⟨⟨j1, he, i1⟩, f :: subs, .cons j2 i2, ⟨j3, he, i3⟩, ?_, ?_⟩
    · rw [List.flatMap_cons, i4, j4]; rfl
    · rw [List.flatMap_cons, i5, j5]; rfl
  | .nil, [], _, _, _ :: _, hv, _ => by simp [Fields.HasAll] at hv
  | .cons .., _ :: _, _, _, [], hv, _ => by simp [Fields.HasAll] at hv
  | .nil, _ :: _, h, _, _, _, _ => by simp [RowsOk] at h
  | .cons .., [], h, _, _, _, _ => by simp [RowsOk] at h

/-- The names with the match tables of the rows. -/
def tablesOf : Fields → List FormsRes → List (Key × List (RPath × List (Key × Bool)))
  | .cons k _ fs, r :: rs => (k, r.varmap.matches_) :: tablesOf fs rs
  | _, _ => []

theorem tables_facts {p : RPath} : ∀ (fs : Fields) (rows : List FormsRes), RowsOk ρ τ p fs rows →
    Keyed p (tablesOf fs rows) ∧ (tablesOf fs rows).map (·.1) = fs.toList.map (·.1) ∧
    (tablesOf fs rows).flatMap (·.2) = rows.flatMap (fun r => r.varmap.matches_) ∧
    (∀ r ∈ rows, ∃ k, (k, r.varmap.matches_) ∈ tablesOf fs rows) ∧
    (∀ r ∈ rows, ∀ f ∈ r.forms, ∀ e ∈ f.pathDict, e.1 ∈ r.varmap.matches_.map (·.1))
  | .nil, [], _ => ⟨by simp [Keyed, tablesOf], rfl, rfl, by simp, by simp⟩
  | .cons k t fs, r :: rs, h => by
    obtain ⟨i1, i2, i3, i4, i5⟩ := tables_facts fs rs h.2
    refine ⟨?_, ?_, ?_, ?_, ?_⟩
    · intro e he q hq
      rcases List.mem_cons.mp he with rfl | he
      · exact h.1.keys q hq
      · exact i1 e he q hq
    · simp [tablesOf, Fields.toList, i2]
    · simp [tablesOf, i3]
    · intro r' hr'
      rcases List.mem_cons.mp hr' with rfl | hr'
      · exact ⟨k, List.mem_cons_self⟩
      · obtain ⟨k', hk'⟩ := i4 r' hr'
        exact ⟨k', List.mem_cons_of_mem _ hk'⟩
    · intro r' hr'
      rcases List.mem_cons.mp hr' with rfl | hr'
      · exact h.1.dom
      · exact i5 r' hr'
  | .nil, _ :: _, h => by simp [RowsOk] at h
  | .cons .., [], h => by simp [RowsOk] at h

theorem prefix_of_step {p q : RPath} {k : Key} (h : (p ++ [k]) <+: q) : p <+: q := (List.prefix_append p [k]).trans h

theorem keyed_prefix {α : Type} {p : RPath} {L : List (Key × List (RPath × α))} (hk : Keyed p L) :
    ∀ q ∈ (L.flatMap (·.2)).map (·.1), ∃ k, (p ++ [k]) <+: q := by
  intro q hq
  obtain ⟨x, hx, rfl⟩ := List.mem_map.mp hq
  obtain ⟨e, he, hxe⟩ := List.mem_flatMap.mp hx
  exact ⟨e.1, hk e he _ (List.mem_map_of_mem (f := (·.1)) hxe)⟩

theorem prod_ok (P : Process) {c : Nat} {fs : Fields} {p : RPath} {rows : List FormsRes} (hw : WF (.prod c fs))
    (hb : Buildable (.prod c fs)) (hr : smtFields P.asm ρ τ fs p = .ok rows) (h : RowsOk ρ τ p fs rows) :
    ∃ r, smtForms P.asm ρ τ (.prod c fs) p = .ok r ∧ FormsOk ρ τ (.prod c fs) p r := by
  obtain ⟨ns, hns⟩ := rows_vals fs rows h
  have hx := fromFields_bits P hw hb hns
  rw [List.map_map] at hx
  have hcomb : ∀ subs ∈ pyProduct (rows.map (·.forms)), ∃ g, combineForms P.asm (.prod c fs) subs = .ok g := by
    intro subs hs
    obtain ⟨ms, hms⟩ := subs_vals fs rows h subs hs
    have := fromFields_bits P hw hb hms
    rw [List.map_map] at this
    refine ⟨⟨mkAV (.prod c fs) (packAll fs ms), subs.flatMap (·.pathDict), subs.flatMap (·.leaves)⟩, ?_⟩
    simp only [combineForms]
    rw [show (subs.map (fun f => Arg.asm f.value)) = subs.map (Arg.asm ∘ fun x => x.value) from rfl, this]
  obtain ⟨forms, hf, hfa⟩ := exMap_ok hcomb
  obtain ⟨t1, t2, t3, t4, t5⟩ := tables_facts fs rows h
  have hvm := foldr_matches (fun r : FormsRes => r.varmap) rows
  rw [← t3] at hvm
  refine ⟨⟨forms, rows.foldr (fun r vm => r.varmap.append vm) ⟨[], [], []⟩, mkAV (.prod c fs) (packAll fs ns)⟩, ?_, ?_⟩
  · simp only [smtForms, hr]
    rw [show (rows.map (fun r => Arg.asm r.value)) = rows.map (Arg.asm ∘ fun x => x.value) from rfl, hx]
    simp only [hf]
  · have hform : ∀ f ∈ forms, ∃ subs ∈ pyProduct (rows.map (·.forms)), combineForms P.asm (.prod c fs) subs = .ok f :=
      mem_right_of_forall₂ hfa
    have hpd : ∀ subs f, combineForms P.asm (.prod c fs) subs = .ok f →
        f.pathDict = subs.flatMap (·.pathDict) ∧ f.leaves = subs.flatMap (·.leaves) ∧
        AV.fromFields P.asm (.prod c fs) ((subs.map (·.value)).map .asm) 0 = .ok f.value := by
      intro subs f hsf
      simp only [combineForms] at hsf
      rw [List.map_map]
      cases hff : AV.fromFields P.asm (.prod c fs) (subs.map (fun f => Arg.asm f.value)) 0 with
      | error e => rw [hff] at hsf; cases hsf
      | ok y => rw [hff] at hsf; cases hsf; exact ⟨rfl, rfl, hff⟩
    have hlook : ∀ r ∈ rows, ∀ f ∈ r.forms, ∀ e ∈ f.pathDict,
        ((tablesOf fs rows).flatMap (·.2)).lookup e.1 = r.varmap.matches_.lookup e.1 := by
      intro r hr' f hf' e he
      obtain ⟨k, hk⟩ := t4 r hr'
      exact lookup_keyed t1 (by rw [t2]; exact hw.1) hk (t5 r hr' f hf' e he)
    refine ⟨⟨_, packAll_lt fs _ _ hns, rfl⟩, ?_, ?_, ?_, ?_⟩
    · intro f hf'
      obtain ⟨subs, hs, hsf⟩ := hform f hf'
      obtain ⟨ms, hms⟩ := subs_vals fs rows h subs hs
      have := (hpd subs f hsf).2.2
      rw [fromFields_bits P hw hb hms] at this
      exact ⟨_, packAll_lt fs _ _ hms, (Except.ok.inj this).symm⟩
    · simp only
      rw [hvm]
      intro q hq
      obtain ⟨k, hk⟩ := keyed_prefix t1 q hq
      exact prefix_of_step hk
    · intro f hf' e he
      simp only
      rw [hvm, t3]
      obtain ⟨subs, hs, hsf⟩ := hform f hf'
      rw [(hpd subs f hsf).1] at he
      obtain ⟨g, hg, he⟩ := List.mem_flatMap.mp he
      rw [Bnd.mem_pyProduct] at hs
      obtain ⟨gs, hgs, hgm⟩ := (show ∃ gs ∈ rows.map (·.forms), g ∈ gs from by
        clear * - hs hg
        generalize rows.map (·.forms) = L at hs
        induction hs with
        | nil => simp at hg
        | cons h1 _ ih =>
          rcases List.mem_cons.mp hg with rfl | hg
          · exact ⟨_, List.mem_cons_self, h1⟩
          · obtain ⟨gs, h2, h3⟩ := ih hg
            exact ⟨gs, List.mem_cons_of_mem _ h2, h3⟩)
      obtain ⟨r, hr', rfl⟩ := List.mem_map.mp hgs
      have := t5 r hr' g hgm e he
      obtain ⟨x, hx', hxe⟩ := List.mem_map.mp this
      rw [← hxe]
      exact List.mem_map_of_mem (f := Prod.fst) (List.mem_flatMap.mpr ⟨r, hr', hx'⟩)
    · intro v hv hs
      cases v with
      | prod vs =>
        simp only [Spells] at hs
        obtain ⟨i1, subs, i2, i3, i4, i5⟩ := rows_spell fs rows h hw.2 vs hv hs
        have hpk := pack_encList fs vs hv
        refine ⟨?_, ?_⟩
        · have := fromFields_bits P hw hb i1
          rw [fromFields_bits P hw hb hns] at this
          simp only [Except.ok.injEq] at this
          rw [this, hpk]; rfl
        · have hfil := filter_forall₂ (P := allMatch rows) (Q := formMatches (rows.foldr (fun r vm => r.varmap.append vm) ⟨[], [], []⟩)) hfa
            (by
              intro s hs' g hsg
              show preMatches _ g.pathDict = _
              rw [(hpd s g hsg).1, hvm]
              exact allMatch_eq hs' hlook)
          rw [filter_allMatch i2] at hfil
          obtain ⟨g, gs, hg, hgs, hgeq⟩ := List.forall₂_cons_left_iff.mp hfil
          cases hgs
          refine ⟨g, hgeq, ?_, ?_, ?_⟩
          · have := (hpd subs g hg).2.2
            rw [fromFields_bits P hw hb i3, hpk] at this
            exact (Except.ok.inj this).symm
          · rw [(hpd subs g hg).1, i4]; rfl
          · rw [(hpd subs g hg).2.1, i5]; rfl
      | _ => simp [Ty.Has] at hv

/-! ## unions -/

/-- What is shown of one option's row. -/
def OptOk (P : Process) (ρ τ : RPath → Nat) (u : Ty) (full : Fields) (tag : BV) (p : RPath) (k : Key) (t : Ty)
    (row : Key × FormsRes × Bool) : Prop :=
  row.1 = k ∧ row.2.2 = decide (tag.val = optionIndex full k) ∧
  ∃ r n, FormsOk ρ τ t (p ++ [k]) r ∧ n < 2 ^ width t ∧ r.value = mkAV t n ∧ row.2.1.varmap = r.varmap ∧
    row.2.1.value = mkAV u (tag.val + 2 ^ tagBits full.toList.length * n) ∧
    List.Forall₂ (fun f g => liftForm P.asm u p k tag f = .ok g) r.forms row.2.1.forms

def OptsOk (P : Process) (ρ τ : RPath → Nat) (u : Ty) (full : Fields) (tag : BV) (p : RPath) : Fields → List (Key × FormsRes × Bool) → Prop
  | .nil, [] => True
  | .cons k t fs, row :: rows => OptOk P ρ τ u full tag p k t row ∧ OptsOk P ρ τ u full tag p fs rows
  | _, _ => False

theorem option_ok (P : Process) {c : Nat} {full fs : Fields} {tag : BV} {p : RPath} {k : Key} {t : Ty} {r : FormsRes}
    {rows : List (Key × FormsRes × Bool)} (hw : WF (.sum c full)) (hb : Buildable (.sum c full)) (hk : (k, t) ∈ full.toList)
    (htag : tag.size = tagBits full.toList.length)
    (h1 : smtForms P.asm ρ τ t (p ++ [k]) = .ok r) (hr : FormsOk ρ τ t (p ++ [k]) r)
    (h2 : smtOptions P.asm ρ τ (.sum c full) tag fs p = .ok rows) :
    ∃ row, smtOptions P.asm ρ τ (.sum c full) tag (.cons k t fs) p = .ok (row :: rows) ∧
      OptOk P ρ τ (.sum c full) full tag p k t row := by
  obtain ⟨n, hn, hval⟩ := hr.val
  have hx := fromOption_bits P hw hb hk hn htag
  obtain ⟨f0, hget⟩ := getOption_bits P hw hk hn htag
  have hlift : ∀ f ∈ r.forms, ∃ g, liftForm P.asm (.sum c full) p k tag f = .ok g := by
    intro f hf
    obtain ⟨m, hm, hfv⟩ := hr.fval f hf
    refine ⟨⟨mkAV (.sum c full) (tag.val + 2 ^ tagBits full.toList.length * m), (p, k) :: f.pathDict, f.leaves⟩, ?_⟩
    simp only [liftForm, hfv, fromOption_bits P hw hb hk hm htag]
  obtain ⟨forms, hf, hfa⟩ := exMap_ok hlift
  refine ⟨(k, ⟨forms, r.varmap, mkAV (.sum c full) (tag.val + 2 ^ tagBits full.toList.length * n)⟩,
    decide (tag.val = optionIndex full k)), ?_, rfl, rfl, r, n, hr, hn, hval, rfl, rfl, hfa⟩
  simp only [smtOptions, h1, hval, hx, hf, hget, h2]

def optTables : List (Key × FormsRes × Bool) → List (Key × List (RPath × List (Key × Bool)))
  | rows => rows.map (fun r => (r.1, r.2.1.varmap.matches_))

theorem opts_names {P : Process} {u : Ty} {full : Fields} {tag : BV} {p : RPath} : ∀ (fs : Fields) (rows : List (Key × FormsRes × Bool)),
    OptsOk P ρ τ u full tag p fs rows → rows.map (·.1) = fs.toList.map (·.1) ∧ Keyed p (optTables rows) ∧
      (∀ row ∈ rows, ∃ t, (row.1, t) ∈ fs.toList ∧ OptOk P ρ τ u full tag p row.1 t row)
  | .nil, [], _ => ⟨rfl, by simp [Keyed, optTables], by simp⟩
  | .cons k t fs, row :: rows, h => by
    obtain ⟨i1, i2, i3⟩ := opts_names fs rows h.2
    obtain ⟨h1, h2, r, n, h3, h4, h5, h6, h7, h8⟩ := h.1
    refine ⟨by simp [Fields.toList, i1, h1], ?_, ?_⟩
    · intro e he q hq
      simp only [optTables, List.map_cons, List.mem_cons] at he
      rcases he with rfl | he
      · simp only [h6] at hq
        rw [h1]
        exact h3.keys q hq
      · exact i2 e he q hq
    · intro row' hrow'
      rcases List.mem_cons.mp hrow' with rfl | hrow'
      · exact ⟨t, by simp [Fields.toList, h1], by rw [h1]; exact h.1⟩
      · obtain ⟨t', ht', ho⟩ := i3 row' hrow'
        exact ⟨t', by simp [Fields.toList, ht'], ho⟩
  | .nil, _ :: _, h => by simp [OptsOk] at h
  | .cons .., [], h => by simp [OptsOk] at h

theorem lift_facts {P : Process} {u : Ty} {p : RPath} {k : Key} {tag : BV} {f g : SForm} (h : liftForm P.asm u p k tag f = .ok g) :
    g.pathDict = (p, k) :: f.pathDict ∧ g.leaves = f.leaves ∧
      AV.fromOption P.asm u k (.asm f.value) (some tag) 0 = .ok g.value := by
  simp only [liftForm] at h
  cases hx : AV.fromOption P.asm u k (.asm f.value) (some tag) 0 with
  | error e => rw [hx] at h; cases h
  | ok y => rw [hx] at h; cases h; exact ⟨rfl, rfl, rfl⟩

theorem lookup_self_not_prefix {p q : RPath} {k : Key} (h : (p ++ [k]) <+: q) : (q == p) = false := by
  rw [beq_eq_false_iff_ne]
  rintro rfl
  have := h.length_le
  rw [List.length_append, List.length_singleton] at this
  omega

theorem lookup_table {rows : List (Key × FormsRes × Bool)} (hn : (rows.map (·.1)).Nodup) {row : Key × FormsRes × Bool} (hr : row ∈ rows) :
    (rows.map (fun r => (r.1, r.2.2))).lookup row.1 = some row.2.2 := by
  induction rows with
  | nil => simp at hr
  | cons r rows ih =>
    simp only [List.map_cons, List.nodup_cons] at hn
    rcases List.mem_cons.mp hr with rfl | hr
    · simp
    · rw [List.map_cons, List.lookup_cons, beq_eq_false_iff_ne.mpr]
      · exact ih hn.2 hr
      · intro he
        exact hn.1 (he ▸ List.mem_map_of_mem (f := (·.1)) hr)

theorem flatMap_unique {α β κ : Type} {key : α → κ} {F : α → List β} {G : List β} {k : κ} : ∀ {l : List α}, (l.map key).Nodup → k ∈ l.map key →
    (∀ a ∈ l, key a = k → F a = G) → (∀ a ∈ l, key a ≠ k → F a = []) → l.flatMap F = G
  | [], _, h, _, _ => by simp at h
  | a :: l, hn, h, h1, h2 => by
    simp only [List.map_cons, List.nodup_cons] at hn
    rw [List.flatMap_cons]
    by_cases hk : key a = k
    · rw [h1 a List.mem_cons_self hk]
      have : l.flatMap F = [] := by
        rw [List.flatMap_eq_nil_iff]
        intro b hb
        refine h2 b (List.mem_cons_of_mem _ hb) ?_
        intro hbk
        exact hn.1 (hk ▸ hbk ▸ List.mem_map_of_mem (f := key) hb)
      rw [this, List.append_nil]
    · rw [h2 a List.mem_cons_self hk, List.nil_append]
      refine flatMap_unique hn.2 ?_ (fun b hb => h1 b (List.mem_cons_of_mem _ hb)) (fun b hb => h2 b (List.mem_cons_of_mem _ hb))
      rw [List.map_cons, List.mem_cons] at h
      exact h.resolve_left (fun h => hk h.symm)

theorem foldl_ite (l : List (Key × AV × Bool)) (x : AV) :
    (l.foldl (fun acc e => if e.2.2 then e.2.1 else acc) x = x ∧ ∀ e ∈ l, e.2.2 = false) ∨
    ∃ e ∈ l, e.2.2 = true ∧ l.foldl (fun acc e => if e.2.2 then e.2.1 else acc) x = e.2.1 := by
  induction l generalizing x with
  | nil => exact .inl ⟨rfl, by simp⟩
  | cons e l ih =>
    rw [List.foldl_cons]
    rcases ih (if e.2.2 then e.2.1 else x) with ⟨h1, h2⟩ | ⟨e', he', h1, h2⟩
    · cases hm : e.2.2 with
      | true => right; exact ⟨e, List.mem_cons_self, hm, by rw [hm] at h1; exact h1⟩
      | false =>
        left
        refine ⟨by rw [hm] at h1; exact h1, ?_⟩
        intro e' he'
        rcases List.mem_cons.mp he' with rfl | he'
        · exact hm
        · exact h2 e' he'
    · exact .inr ⟨e', List.mem_cons_of_mem _ he', h1, h2⟩

/-- The chain returns the value of some option; if exactly the options with key `k` match, of one of those. -/
theorem iteChain_spec {l : List (Key × AV × Bool)} (hne : l ≠ []) :
    ∃ e ∈ l, iteChain l = .ok e.2.1 ∧ ((∃ e' ∈ l, e'.2.2 = true) → e.2.2 = true) := by
  cases l with
  | nil => exact absurd rfl hne
  | cons a l =>
    simp only [iteChain]
    rcases foldl_ite l a.2.1 with ⟨h1, h2⟩ | ⟨e, he, h1, h2⟩
    · refine ⟨a, List.mem_cons_self, by rw [h1], ?_⟩
      rintro ⟨e', he', h⟩
      rcases List.mem_cons.mp he' with rfl | he'
      · exact h
      · rw [h2 e' he'] at h; cases h
    · exact ⟨e, List.mem_cons_of_mem _ he, by rw [h2], fun _ => h1⟩

theorem decisionsAt_get : ∀ (fs : Fields) (p : RPath) (k : Key) (v : Val) (t : Ty), (fs.toList.map (·.1)).Nodup → (k, t) ∈ fs.toList →
    decisionsAt fs p k v = decisions t (p ++ [k]) v ∧ leavesAt fs p k v = leaves t (p ++ [k]) v ∧ 
    (SpellsAt ρ τ fs p k v ↔ Spells ρ τ t (p ++ [k]) v)
  | .nil, _, _, _, _, _, h => by simp [Fields.toList] at h
  | .cons k' t' fs, p, k, v, t, hn, h => by
    simp only [Fields.toList, List.map_cons, List.nodup_cons, List.mem_cons] at hn h
    by_cases hk : k = k'
    · subst hk
      rcases h with h | h
      · cases h
        simp [decisionsAt, leavesAt, SpellsAt]
      · exact absurd (List.mem_map_of_mem (f := (·.1)) h) hn.1
    · rcases h with h | h
      · cases h; exact absurd rfl hk
      · have := decisionsAt_get fs p k v t hn.2 h
        simpa [decisionsAt, leavesAt, SpellsAt, hk] using this

theorem sum_ok (P : Process) {c : Nat} {fs : Fields} {p : RPath} (hw : WF (.sum c fs)) (hb : Buildable (.sum c fs))
    (h : ∀ tag : BV, tag.size = tagBits fs.toList.length → 
      ∃ rows, smtOptions P.asm ρ τ (.sum c fs) tag fs p = .ok rows ∧ OptsOk P ρ τ (.sum c fs) fs tag p fs rows) :
    ∃ r, smtForms P.asm ρ τ (.sum c fs) p = .ok r ∧ FormsOk ρ τ (.sum c fs) p r := by
  obtain ⟨o, ho, hg⟩ := P.good hw
  obtain ⟨tg, ht, hgt⟩ := hg.tag
  obtain ⟨rows, hrows, hok⟩ := h (BV.ofNat tg.width (τ p)) (by rw [BV.ofNat_size, hgt.width])
  generalize htagd : BV.ofNat tg.width (τ p) = tag at hrows hok
  have htag : tag.size = tagBits fs.toList.length := by rw [← htagd, BV.ofNat_size, hgt.width]
  have htv : tag.val = τ p % 2 ^ tagBits fs.toList.length := by rw [← htagd, BV.ofNat_val, hgt.width]
  obtain ⟨hnames, hkeyed, hmem⟩ := opts_names fs rows hok
  have hnd : (rows.map (·.1)).Nodup := by rw [hnames]; exact hw.2.1
  have hne : rows ≠ [] := by
    rintro rfl
    have := congrArg List.length hnames
    simp only [List.map_nil, List.length_nil, List.length_map] at this
    exact hw.1 (List.eq_nil_of_length_eq_zero this.symm)
  obtain ⟨e0, he0, hchain, hchoose⟩ := iteChain_spec (l := rows.map (fun r => (r.1, r.2.1.value, r.2.2))) (by simpa using hne)
  obtain ⟨row0, hrow0, rfl⟩ := List.mem_map.mp he0
  have hvm := foldr_matches (fun r : Key × FormsRes × Bool => r.2.1.varmap) rows
  have hflat : rows.flatMap (fun r => r.2.1.varmap.matches_) = (optTables rows).flatMap (·.2) := by
    simp only [optTables, List.flatMap_map]
  rw [hflat] at hvm
  refine ⟨_, by simp only [smtForms, ho, ht, htagd, hrows, hchain]; rfl, ?_⟩
  -- the match table of the result
  have hmt : (Varmap.append ⟨[], [(p, tag)], [(p, rows.map (fun r => (r.1, r.2.2)))]⟩
      (rows.foldr (fun r vm => r.2.1.varmap.append vm) ⟨[], [], []⟩)).matches_ =
      (p, rows.map (fun r => (r.1, r.2.2))) :: (optTables rows).flatMap (·.2) := by
    simp only [Varmap.append, List.singleton_append]
    rw [← hvm]; rfl
  -- looking up a decision of a form of one option
  have hlook : ∀ row ∈ rows, ∀ q ∈ row.2.1.varmap.matches_.map (·.1),
      ((p, rows.map (fun r => (r.1, r.2.2))) :: (optTables rows).flatMap (·.2)).lookup q = row.2.1.varmap.matches_.lookup q := by
    intro row hrow q hq
    have hin : (row.1, row.2.1.varmap.matches_) ∈ optTables rows := List.mem_map_of_mem (f := fun r => (r.1, r.2.1.varmap.matches_)) hrow
    have hpre := hkeyed _ hin q hq
    rw [List.lookup_cons, lookup_self_not_prefix hpre]
    refine lookup_keyed hkeyed ?_ hin hq
    simpa [optTables, Function.comp_def] using hnd
  -- which forms of one option match
  have hfilt : ∀ row ∈ rows, ∀ t r n, FormsOk ρ τ t (p ++ [row.1]) r → row.2.1.varmap = r.varmap →
      List.Forall₂ (fun f g => liftForm P.asm (.sum c fs) p row.1 tag f = .ok g) r.forms row.2.1.forms → n < 2 ^ width t →
      List.Forall₂ (fun f g => liftForm P.asm (.sum c fs) p row.1 tag f = .ok g)
        (r.forms.filter (fun f => row.2.2 && formMatches r.varmap f))
        (row.2.1.forms.filter (formMatches (Varmap.append ⟨[], [(p, tag)], [(p, rows.map (fun r => (r.1, r.2.2)))]⟩
          (rows.foldr (fun r vm => r.2.1.varmap.append vm) ⟨[], [], []⟩)))) := by
    intro row hrow t r n hr hvar hfa _
    refine filter_forall₂ hfa ?_
    intro f hf g hfg
    show preMatches _ g.pathDict = _
    rw [hmt, (lift_facts hfg).1]
    simp only [preMatches, List.all_cons]
    congr 1
    · rw [List.lookup_cons_self]
      simp only [Option.bind_some, lookup_table hnd hrow]
      cases row.2.2 <;> rfl
    · show preMatches _ f.pathDict = preMatches _ f.pathDict
      apply preMatches_congr
      intro e he
      rw [← hvar]
      exact hlook row hrow e.1 (by rw [hvar]; exact hr.dom f hf e he)
  constructor
  · obtain ⟨t, htm, _, _, r, n, h3, h4, h5, h6, h7, h8⟩ := hmem row0 hrow0
    exact ⟨_, sum_lt c htm h4 htag, h7⟩
  · intro g hg'
    obtain ⟨row, hrow, hgr⟩ := List.mem_flatMap.mp hg'
    obtain ⟨t, htm, _, _, r, n, h3, h4, h5, h6, h7, h8⟩ := hmem row hrow
    obtain ⟨f, hf, hfg⟩ := mem_right_of_forall₂ h8 g hgr
    obtain ⟨m, hm, hfv⟩ := h3.fval f hf
    have := (lift_facts hfg).2.2
    rw [hfv, fromOption_bits P hw hb htm hm htag] at this
    exact ⟨_, sum_lt c htm hm htag, (Except.ok.inj this).symm⟩
  · rw [hmt]
    intro q hq
    rw [List.map_cons, List.mem_cons] at hq
    rcases hq with rfl | hq
    · exact List.prefix_refl _
    · obtain ⟨k, hk⟩ := keyed_prefix hkeyed q hq
      exact prefix_of_step hk
  · rw [hmt]
    intro g hg' e he
    obtain ⟨row, hrow, hgr⟩ := List.mem_flatMap.mp hg'
    obtain ⟨t, htm, _, _, r, n, h3, h4, h5, h6, h7, h8⟩ := hmem row hrow
    obtain ⟨f, hf, hfg⟩ := mem_right_of_forall₂ h8 g hgr
    rw [(lift_facts hfg).1] at he
    rw [List.map_cons, List.mem_cons]
    rcases List.mem_cons.mp he with rfl | he
    · exact .inl rfl
    · right
      have := h3.dom f hf e he
      rw [← h6] at this
      obtain ⟨x, hx, hxe⟩ := List.mem_map.mp this
      rw [← hxe, ← hflat]
      exact List.mem_map_of_mem (f := Prod.fst) (List.mem_flatMap.mpr ⟨row, hrow, hx⟩)
  · intro v hv hs
    cases v with
    | sum k v =>
      simp only [Spells] at hs
      obtain ⟨hs1, hs2⟩ := hs
      obtain ⟨i, t, hi, hvt⟩ := (hasAt_iff hw.2.1 k v).1 hv
      have hkt : (k, t) ∈ fs.toList := List.mem_of_getElem? hi
      obtain ⟨hdec, hlv, hsp⟩ := decisionsAt_get (ρ := ρ) (τ := τ) fs p k v t hw.2.1 hkt
      rw [hsp] at hs2
      have hidx := optionIndex_of_get hw.2.1 hi
      have henc : encode (.sum c fs) (.sum k v) = tag.val + 2 ^ tagBits fs.toList.length * encode t v := by
        simp only [encode, htv, hs1, encodeAt_get fs k v t (by rw [hidx]; exact hi)]
      have hkr : k ∈ rows.map (·.1) := by rw [hnames]; exact List.mem_map_of_mem (f := (·.1)) hkt
      -- the row of another option does not match
      have hother : ∀ row ∈ rows, row.1 ≠ k → row.2.2 = false := by
        intro row hrow hne'
        obtain ⟨t', htm, _, h2, _⟩ := hmem row hrow
        rw [h2, decide_eq_false_iff_not, htv, hs1]
        intro he
        obtain ⟨j, hj⟩ := List.getElem?_of_mem htm
        rw [hidx, optionIndex_of_get hw.2.1 hj] at he
        subst he
        rw [hi] at hj
        cases hj
        exact hne' rfl
      have hsame : ∀ row ∈ rows, row.1 = k → row.2.2 = true := by
        intro row hrow he
        obtain ⟨t', htm, _, h2, _⟩ := hmem row hrow
        rw [h2, decide_eq_true_iff, htv, hs1, he]
      have htype : ∀ row ∈ rows, row.1 = k → OptOk P ρ τ (.sum c fs) fs tag p k t row := by
        intro row hrow he
        obtain ⟨t', htm, hrest⟩ := hmem row hrow
        rw [he] at htm hrest
        obtain ⟨j, hj⟩ := List.getElem?_of_mem htm
        have h1 := lookup_of_get hw.2.1 hj
        rw [lookup_of_get hw.2.1 hi] at h1
        cases h1
        exact hrest
      obtain ⟨rowk, hrowk, hk1⟩ := List.mem_map.mp hkr
      refine ⟨?_, ?_⟩
      · have hm0 : row0.2.2 = true := hchoose ⟨_, List.mem_map_of_mem (f := fun r => (r.1, r.2.1.value, r.2.2)) hrowk, hsame rowk hrowk hk1⟩
        have hk0 : row0.1 = k := by
          by_cases hh : row0.1 = k
          · exact hh
          · rw [hother row0 hrow0 hh] at hm0; cases hm0
        obtain ⟨_, _, r, n, h3, h4, h5, h6, h7, h8⟩ := htype row0 hrow0 hk0
        have hval := (h3.vals v hvt hs2).1
        have hwt := wfs_mem fs hw.2.2 i k t hi
        have hn : n = encode t v := by
          have hlt := (encode_spec t hwt v hvt).1
          have heq := congrArg AV.asBv (h5.symm.trans hval)
          rw [asBv_mkAV h4, asBv_mkAV hlt] at heq
          have := congrArg BV.val heq
          rwa [ofNat_val_of_lt h4, ofNat_val_of_lt hlt] at this
        rw [henc, ← hn]
        exact h7
      · obtain ⟨_, _, r, n, h3, h4, h5, h6, h7, h8⟩ := htype rowk hrowk hk1
        obtain ⟨_, f, f1, f2, f3, f4⟩ := h3.vals v hvt hs2
        have hfa := hfilt rowk hrowk t r n (by rw [hk1]; exact h3) h6 (by rw [hk1]; exact h8) h4
        rw [hsame rowk hrowk hk1, hk1] at hfa
        simp only [Bool.true_and] at hfa
        rw [show r.forms.filter (fun f => formMatches r.varmap f) = [f] from f1] at hfa
        obtain ⟨g, gs, hg', hgs, hgeq⟩ := List.forall₂_cons_left_iff.mp hfa
        cases hgs
        have hwt := wfs_mem fs hw.2.2 i k t hi
        refine ⟨g, ?_, ?_, ?_, ?_⟩
        · rw [List.filter_flatMap]
          refine flatMap_unique (key := fun r : Key × FormsRes × Bool => r.1) (k := k) hnd hkr ?_ ?_
          · intro row hrow he
            have : row = rowk := by
              by_contra hne'
              exact hne' (List.inj_on_of_nodup_map hnd hrow hrowk (he.trans hk1.symm))
            rw [this]; exact hgeq
          · intro row hrow hne'
            obtain ⟨t', htm, _, _, r', n', h3', h4', h5', h6', h7', h8'⟩ := hmem row hrow
            have := hfilt row hrow t' r' n' h3' h6' h8' h4'
            rw [hother row hrow hne'] at this
            simp only [Bool.false_and, List.filter_false] at this
            cases hh : row.2.1.forms.filter (formMatches (Varmap.append ⟨[], [(p, tag)], [(p, rows.map (fun r => (r.1, r.2.2)))]⟩
              (rows.foldr (fun r vm => r.2.1.varmap.append vm) ⟨[], [], []⟩))) with
            | nil => rfl
            | cons _ _ => rw [hh] at this; cases this
        · have := (lift_facts hg').2.2
          rw [f2, fromOption_bits P hw hb hkt (encode_spec t hwt v hvt).1 htag] at this
          rw [henc]
          exact (Except.ok.inj this).symm
        · rw [(lift_facts hg').1, f3]
          simp only [decisions, hdec]
        · rw [(lift_facts hg').2.1, f4]
          simp only [leaves, hlv]
    | _ => simp [Ty.Has] at hv

/-! ## the whole type -/

theorem leaf_ok {t : Ty} {p : RPath} {b : BV} {x : AV} (hx : x = mkAV t (ρ p % 2 ^ width t)) (hb : b = BV.ofNat (width t) (ρ p))
    (hsp : ∀ v, Spells ρ τ t p v → t.Has v → ρ p % 2 ^ width t = encode t v)
    (hl : ∀ v, t.Has v → leaves t p v = [(p, BV.ofNat (width t) (encode t v))] ∧ decisions t p v = []) :
    FormsOk ρ τ t p ⟨[⟨x, [], [(p, b)]⟩], ⟨[(p, b)], [], []⟩, x⟩ := by
  have hlt : ρ p % 2 ^ width t < 2 ^ width t := Nat.mod_lt _ (Nat.two_pow_pos _)
  refine ⟨⟨_, hlt, hx⟩, ?_, by simp, by simp, ?_⟩
  · intro f hf
    rw [List.mem_singleton] at hf
    subst hf
    exact ⟨_, hlt, hx⟩
  · intro v hv hs
    have he := hsp v hs hv
    refine ⟨by rw [← he]; exact hx, ⟨x, [], [(p, b)]⟩, by simp [formMatches], by rw [← he]; exact hx, (hl v hv).2.symm, ?_⟩
    rw [(hl v hv).1, ← he, hb]
    have : BV.ofNat (width t) (ρ p) = BV.ofNat (width t) (ρ p % 2 ^ width t) := by
      apply BV.ext <;> simp [BV.ofNat_size, BV.ofNat_val]
    simp only [this]

mutual
theorem forms_ok (P : Process) (ρ τ : RPath → Nat) : ∀ (t : Ty), WF t → Buildable t → ∀ p, ∃ r, smtForms P.asm ρ τ t p = .ok r ∧ FormsOk ρ τ t p r
  | .bv c w, _, _, p => by
    refine ⟨_, rfl, leaf_ok ?_ rfl ?_ ?_⟩
    · simp only [mkAV, width]
      congr 1
      apply BV.ext <;> simp [BV.ofNat_size, BV.ofNat_val]
    · intro v hs _; cases v <;> exact hs
    · intro v hv; cases v <;> simp_all [leaves, decisions, Ty.Has]
  | .bit c, _, _, p => by
    refine ⟨_, rfl, leaf_ok ?_ rfl ?_ ?_⟩
    · simp only [mkAV, width, BV.ofNat_val, Nat.pow_one]
      rcases Nat.mod_two_eq_zero_or_one (ρ p) with h | h <;> rw [h] <;> rfl
    · intro v hs _; cases v <;> exact hs
    · intro v hv; cases v <;> simp_all [leaves, decisions, Ty.Has]
  | .enum c ms, hw, _, p => by
    obtain ⟨o, ho, hg⟩ := P.good hw
    have hn : AV.new P.asm (.enum c ms) (.asm (.bits (BV.ofNat o.width (ρ p)))) = .ok (mkAV (.enum c ms) (ρ p % 2 ^ width (.enum c ms))) := by
      rw [new_bits P hw (by simp) (by rw [BV.ofNat_size, hg.width]), BV.ofNat_val, hg.width]
    refine ⟨_, by simp only [smtForms, ho, hn]; rfl, leaf_ok rfl (by rw [hg.width]) ?_ ?_⟩
    · intro v hs _; cases v <;> exact hs
    · intro v hv; cases v <;> simp_all [leaves, decisions, Ty.Has]
  | .prod c fs, hw, hb, p => by
    obtain ⟨rows, h1, h2⟩ := fields_ok P ρ τ fs hw.2 hb.2.2 p
    exact prod_ok P hw hb h1 h2
  | .sum c fs, hw, hb, p => by
    apply sum_ok P hw hb
    intro tag htag
    exact options_ok P ρ τ c fs tag p hw hb htag fs hw.2.2 hb.2.2 (fun _ h => h)
theorem fields_ok (P : Process) (ρ τ : RPath → Nat) : ∀ (fs : Fields), WFs fs → Buildables fs → ∀ p, ∃ rows, smtFields P.asm ρ τ fs p = .ok rows ∧ RowsOk ρ τ p fs rows
  | .nil, _, _, p => ⟨[], rfl, trivial⟩
  | .cons k t fs, hw, hb, p => by
    obtain ⟨r, h1, h2⟩ := forms_ok P ρ τ t hw.1 hb.1 (p ++ [k])
    obtain ⟨rs, h3, h4⟩ := fields_ok P ρ τ fs hw.2 hb.2 p
    exact ⟨r :: rs, by simp only [smtFields, h1, h3], h2, h4⟩
theorem options_ok (P : Process) (ρ τ : RPath → Nat) (c : Nat) (full : Fields) (tag : BV) (p : RPath) (hwf : WF (.sum c full)) (hbf : Buildable (.sum c full))
    (htag : tag.size = tagBits full.toList.length) : ∀ (fs : Fields), WFs fs → Buildables fs → (∀ kt ∈ fs.toList, kt ∈ full.toList) →
    ∃ rows, smtOptions P.asm ρ τ (.sum c full) tag fs p = .ok rows ∧ OptsOk P ρ τ (.sum c full) full tag p fs rows
  | .nil, _, _, _ => ⟨[], rfl, trivial⟩
  | .cons k t fs, hw, hb, hsub => by
    obtain ⟨r, h1, h2⟩ := forms_ok P ρ τ t hw.1 hb.1 (p ++ [k])
    obtain ⟨rs, h3, h4⟩ := options_ok P ρ τ c full tag p hwf hbf htag fs hw.2 hb.2 (fun kt h => hsub kt (by simp [Fields.toList, h]))
    obtain ⟨row, h5, h6⟩ := option_ok P hwf hbf (hsub (k, t) (by simp [Fields.toList])) htag h1 h2 h3
    exact ⟨row :: rs, h5, h6, h4⟩
end

end Peak.SF
