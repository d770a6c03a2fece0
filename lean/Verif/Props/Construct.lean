import Verif.Spec.Construct
import Verif.Props.AssembledADT
/-!
# C77: constructors of families
-/

namespace Peak.Ctor
open Peak.Spec

/-! ### Binding -/

theorem lookup_none {α : Type} {l : List (Key × α)} {k : Key} : l.lookup k = none ↔ k ∉ l.map (·.1) := by
  induction l with
  | nil => simp
  | cons x l ih =>
    obtain ⟨a, b⟩ := x
    simp only [List.lookup, List.map_cons, List.mem_cons]
    by_cases h : k = a
    · subst h; simp
    · have hb : (k == a) = false := by simpa using h
      simp only [hb, h, false_or]
      exact ih

theorem lookup_some {α : Type} {l : List (Key × α)} {k : Key} {a : α} (hn : (l.map (·.1)).Nodup) (h : (k, a) ∈ l) : l.lookup k = some a := by
  induction l with
  | nil => simp at h
  | cons x l ih =>
    obtain ⟨b, c⟩ := x
    simp only [List.map_cons, List.nodup_cons] at hn
    rcases List.mem_cons.mp h with h | h'
    · cases h; simp [List.lookup]
    · have : k ≠ b := by
        rintro rfl
        exact hn.1 (List.mem_map.mpr ⟨(k, a), h', rfl⟩)
      have hb : (k == b) = false := by simpa using this
      simp only [List.lookup, hb]
      exact ih hn.2 h'

theorem zip_fst {α : Type} {ks : List Key} {as : List α} (h : as.length = ks.length) : (ks.zip as).map (·.1) = ks := by
  induction ks generalizing as with
  | nil => rfl
  | cons k ks ih =>
    cases as with
    | nil => simp at h
    | cons a as => simp only [List.zip_cons_cons, List.map_cons, ih (by simpa using h)]

theorem bind_named {α : Type} {ks : List Key} {as : List α} {kw : List (Key × α)} (hn : ks.Nodup) (hl : as.length = ks.length) (hk : kw.Perm (ks.zip as)) :
    bind ks [] kw = .ok as := by
  induction ks generalizing as kw with
  | nil =>
    cases as with
    | nil =>
      have : kw = [] := by simpa using hk
      subst this
      rfl
    | cons a as => simp at hl
  | cons k ks ih =>
    cases as with
    | nil => simp at hl
    | cons a as =>
      have hl' : as.length = ks.length := by simpa using hl
      have hnk : (kw.map (·.1)).Nodup := by
        rw [(hk.map (·.1)).nodup_iff, zip_fst hl]
        exact hn
      have h1 : kw.lookup k = some a := lookup_some hnk (hk.mem_iff.mpr (by simp))
      have h2 : (kw.filter (fun p => p.1 != k)).Perm (ks.zip as) := by
        refine (hk.filter _).trans ?_
        rw [List.zip_cons_cons, List.filter_cons_of_neg (by simp), List.filter_eq_self.mpr]
        intro p hp
        have hm : p.1 ∈ ks := by
          have := List.mem_map_of_mem (f := (·.1)) hp
          rwa [zip_fst hl'] at this
        have : p.1 ≠ k := by
          rintro rfl
          exact (List.nodup_cons.mp hn).1 hm
        simpa using this
      simp only [bind, h1, ih (List.nodup_cons.mp hn).2 hl' h2, Except.map]

theorem bind_given {α : Type} {ks : List Key} {as pos : List α} {kw : List (Key × α)} (hn : ks.Nodup) (hl : as.length = ks.length) (h : Given ks as pos kw) :
    bind ks pos kw = .ok as := by
  obtain ⟨n, hn', rfl, hk⟩ := h
  induction n generalizing ks as with
  | zero => exact bind_named hn hl hk
  | succ n ih =>
    cases ks with
    | nil => simp at hn'
    | cons k ks =>
      cases as with
      | nil => simp at hl
      | cons a as =>
        have hl' : as.length = ks.length := by simpa using hl
        simp only [List.zip_cons_cons, List.drop_succ_cons] at hk
        have h1 : kw.lookup k = none := by
          rw [lookup_none]
          intro hm
          obtain ⟨p, hp, rfl⟩ := List.mem_map.mp hm
          have := List.mem_map_of_mem (f := (·.1)) (List.mem_of_mem_drop (hk.mem_iff.mp hp))
          rw [zip_fst hl'] at this
          exact (List.nodup_cons.mp hn).1 this
        simp only [List.take_succ_cons, bind, h1, Option.isSome_none, Bool.false_eq_true, if_false]
        rw [ih (List.nodup_cons.mp hn).2 hl' (by simpa using hn') hk]
        rfl

/-- Binding fails with a TypeError or not at all. -/
theorem bind_err {α : Type} (ks : List Key) (pos : List α) (kw : List (Key × α)) : (∃ as, bind ks pos kw = .ok as) ∨ bind ks pos kw = .error .typeError := by
  induction ks generalizing pos kw with
  | nil =>
    cases pos with
    | nil =>
      cases kw with
      | nil => exact .inl ⟨_, rfl⟩
      | cons x kw => exact .inr rfl
    | cons a as => exact .inr rfl
  | cons k ks ih =>
    cases pos with
    | nil =>
      simp only [bind]
      cases kw.lookup k with
      | none => exact .inr rfl
      | some a =>
        rcases ih [] (kw.filter (fun p => p.1 != k)) with ⟨as, e⟩ | e
        · exact .inl ⟨_, by simp only [e, Except.map]; rfl⟩
        · exact .inr (by simp only [e, Except.map])
    | cons a as =>
      simp only [bind]
      split
      · exact .inr rfl
      · rcases ih as kw with ⟨as', e⟩ | e
        · exact .inl ⟨_, by simp only [e, Except.map]; rfl⟩
        · exact .inr (by simp only [e, Except.map])

/-- A parameter that gets neither a positional argument nor a keyword. -/
theorem bind_missing {α : Type} {ks : List Key} {pos : List α} {kw : List (Key × α)} {k : Key} (hk : k ∈ ks.drop pos.length) (hl : kw.lookup k = none) :
    bind ks pos kw = .error .typeError := by
  rcases bind_err ks pos kw with ⟨as, e⟩ | e
  · exfalso
    induction ks generalizing pos kw as with
    | nil => simp at hk
    | cons k' ks ih =>
      cases pos with
      | nil =>
        simp only [bind] at e
        cases h : kw.lookup k' with
        | none => rw [h] at e; cases e
        | some a =>
          rw [h] at e
          simp only [Except.map] at e
          split at e
          · cases e
          · next bs hb =>
            simp only [List.length_nil, List.drop_zero] at hk
            rcases List.mem_cons.mp hk with rfl | hk
            · rw [hl] at h; cases h
            · refine ih (pos := []) (by simpa using hk) ?_ _ hb
              rw [lookup_none] at hl ⊢
              exact fun hm => hl ((List.filter_sublist.map _).subset hm)
      | cons a as' =>
        simp only [bind] at e
        split at e
        · cases e
        · simp only [Except.map] at e
          split at e
          · cases e
          · next bs hb => exact ih (by simpa using hk) hl _ hb
  · exact e

theorem take_none {α : Type} {k : Key} {kw : List (Key × α)} (h : k ∉ kw.map (·.1)) : take k kw = (none, kw) := by
  unfold take
  rw [lookup_none.mpr h, List.filter_eq_self.mpr]
  intro p hp
  have : p.1 ≠ k := fun e => h (e ▸ List.mem_map_of_mem (f := (·.1)) hp)
  simpa using this

theorem take_cons {α : Type} {k : Key} {a : α} {kw : List (Key × α)} (h : k ∉ kw.map (·.1)) : take k ((k, a) :: kw) = (some a, kw) := by
  have := take_none h
  unfold take at this ⊢
  rw [List.filter_cons_of_neg (by simp)]
  simp only [Prod.mk.injEq] at this
  simp [List.lookup, this.2]

/-! ### Products -/

theorem fieldArgs_length {P : Process} {fs : Fields} {vs : List Val} {as : List Arg} (h : FieldArgs P fs vs as) :
    as.length = fs.toList.length ∧ vs.length = fs.toList.length := by
  induction h with
  | nil => exact ⟨rfl, rfl⟩
  | raw _ ih => simp [Fields.toList, ih.1, ih.2]
  | asm _ _ ih => simp [Fields.toList, ih.1, ih.2]

theorem default_oneBit {d : Arg} {b : Bool} (h : OneBit d b) : default (some d) = .ok b.toNat := by
  rcases h with rfl | rfl | rfl | rfl <;> cases b <;> simp [default]

/-- C77, products: given its fields, each raw or assembled, positionally or by name in any order, the constructor of an assembling family
gives the assembled form of what the constructor of the Python family gives; `default_bv` changes nothing.
Missing: a field named `default_bv` passed by name (`C77_violated_name`); zero-width fields and the empty product (C19). -/
theorem C77_product_partial (P : Process) (N : Names) (c : Nat) (fs : Fields) (vs : List Val) (as : List Arg) (hw : WF (.prod c fs))
    (hv : (Ty.prod c fs).Has (.prod vs)) (ha : FieldArgs P fs vs as) (hne : fs ≠ .nil)
    (hpos : (∀ w ∈ fs.toList.map (fun p => width p.2), 0 < w) ∨ fs.toList.length = 1) (pos : List Arg) (kw : List (Key × Arg))
    (hg : Given (fs.toList.map (·.1)) as pos kw) (hN : N.dflt ∉ kw.map (·.1)) (pos' : List Val) (kw' : List (Key × Val))
    (hg' : Given (fs.toList.map (·.1)) vs pos' kw') :
    ∃ v x, pyProduct c fs pos' kw' = .ok v ∧ AV.new P.asm (.prod c fs) (.raw v) = .ok x ∧ product P.asm N c fs pos kw = .ok x ∧
      ∀ d b, OneBit d b → product P.asm N c fs pos ((N.dflt, d) :: kw) = .ok x := by
  obtain ⟨l1, l2⟩ := fieldArgs_length ha
  have hn : (fs.toList.map (·.1)).Nodup := hw.1
  have hb := bind_given hn (by simpa using l1) hg
  have hb' := bind_given hn (by simpa using l2) hg'
  obtain ⟨x, h1, -⟩ := C19_from_fields_product_partial P c fs vs as 0 hw hv ha hne hpos
  have h2 : ∀ d, AV.fromFields P.asm (.prod c fs) as d = .ok x := fun d => by
    obtain ⟨y, e1, e2⟩ := C19_from_fields_product_partial P c fs vs as d hw hv ha hne hpos
    rw [h1] at e1
    cases e1
    exact e2
  refine ⟨.prod vs, x, ?_, h1, ?_, fun d b hd => ?_⟩
  · simp only [pyProduct, hb', Bind.bind, Except.bind, (isinst_iff _ _).mpr hv, if_true]
  · simp only [product, take_none hN, hb, Bind.bind, Except.bind, default, h2]
  · simp only [product, take_cons hN, hb, Bind.bind, Except.bind, default_oneBit hd, h2]

theorem not_own_field (c : Nat) (k : Key) : ∀ (v : Val) (t : Ty), t.Has v → ¬ (Ty.prod c (.cons k t .nil)).Has v
  | v, t, h, h' => by
    match v with
    | .bit _ | .bits _ | .enum _ | .sum _ _ => simp [Ty.Has] at h'
    | .prod [] => simp [Ty.Has, Fields.HasAll] at h'
    | .prod (_ :: _ :: _) => simp [Ty.Has, Fields.HasAll] at h'
    | .prod [w] =>
      simp only [Ty.Has, Fields.HasAll, and_true] at h'
      match t with
      | .bit _ | .bv _ _ | .enum _ _ | .sum _ _ => simp [Ty.Has] at h
      | .prod c' .nil => simp [Ty.Has, Fields.HasAll] at h
      | .prod c' (.cons _ _ (.cons _ _ _)) => simp [Ty.Has, Fields.HasAll] at h
      | .prod c' (.cons k' t' .nil) =>
        simp only [Ty.Has, Fields.HasAll, and_true] at h
        exact not_own_field c' k' w t' h h'
  termination_by v => v

theorem init_one (P : Process) {c : Nat} {k : Key} {t : Ty} {v : Val} {a : Arg} (hw : WF (.prod c (.cons k t .nil))) (hv : t.Has v)
    (ha : a = .raw v ∨ ∃ x, AV.new P.asm t (.raw v) = .ok x ∧ a = .asm x) {o : AsmObj} (hg : Good False False (.prod c (.cons k t .nil)) o) :
    AV.init o.width o.assemble (.prod c (.cons k t .nil)) a = .error .typeError ∨
    AV.init o.width o.assemble (.prod c (.cons k t .nil)) a = .ok (mkAV (.prod c (.cons k t .nil)) (encode (.prod c (.cons k t .nil)) (.prod [v]))) := by
  have hwd : o.width = width t := by rw [hg.width]; simp [width, sumWidths]
  have hwt : WF t := hw.2.1
  have hbits : ∀ b : BV, b.size = width t → encode t v = b.val →
      AV.adt (.prod c (.cons k t .nil)) b = mkAV (.prod c (.cons k t .nil)) (encode (.prod c (.cons k t .nil)) (.prod [v])) := by
    intro b hb he
    simp only [mkAV, encode, encodeAll, he, Nat.mul_zero, Nat.add_zero, width, sumWidths, ← hb]
    congr 1
    exact BV.ext rfl (Nat.mod_eq_of_lt b.isLt).symm
  rcases ha with rfl | ⟨x, hx, rfl⟩
  · cases v with
    | bits b =>
      cases t <;> simp only [Ty.Has] at hv
      refine .inr ?_
      simp only [AV.init, hwd, width, hv, if_true]
      rw [hbits b (by simp [width, hv]) (by simp [encode])]
    | _ =>
      refine .inl ?_
      have hi : ¬ (Ty.prod c (.cons k t .nil)).isinst _ = true := fun h => not_own_field c k _ t hv ((isinst_iff _ _).mp h)
      simp only [AV.init, if_neg hi]
  · rw [new_raw P hwt hv, Except.ok.injEq] at hx
    subst hx
    have hne : t ≠ .prod c (.cons k t .nil) := fun h => by
      have := congrArg sizeOf h
      simp at this
      omega
    cases t with
    | bit _ => exact .inl rfl
    | bv c' w =>
      refine .inr ?_
      have he := (encode_spec _ hwt v hv).1
      simp only [mkAV, AV.init, hwd, width, BV.ofNat_size, if_true]
      rw [hbits (BV.ofNat w (encode (.bv c' w) v)) (by simp [width]) (by rw [BV.ofNat_val, Nat.mod_eq_of_lt (by simpa [width] using he)])]
      rfl
    | enum _ _ => exact .inl (by simp only [mkAV, AV.init, if_neg hne])
    | prod _ _ => exact .inl (by simp only [mkAV, AV.init, if_neg hne])
    | sum _ _ => exact .inl (by simp only [mkAV, AV.init, if_neg hne])

theorem bind_one {α : Type} {ks : List Key} {a : α} {as : List α} {pos : List α} {kw : List (Key × α)} (hk : ks ≠ [])
    (h : (pos = [a] ∧ kw = []) ∨ ∃ k, pos = [] ∧ kw = [(k, a)]) (hb : bind ks pos kw = .ok as) : as = [a] := by
  cases ks with
  | nil => exact absurd rfl hk
  | cons k ks =>
    have key : ∀ {ks : List Key} {as : List α}, bind ks [] [] = .ok as → as = [] := by
      intro ks as h
      cases ks with
      | nil => cases h; rfl
      | cons k ks => simp [bind, List.lookup] at h
    rcases h with ⟨rfl, rfl⟩ | ⟨k', rfl, rfl⟩
    · simp only [bind, List.lookup, Option.isSome_none, Bool.false_eq_true, if_false, Except.map] at hb
      split at hb
      · cases hb
      · next bs hbs =>
        rw [key hbs] at hb
        cases hb; rfl
    · simp only [bind, List.lookup] at hb
      by_cases e : k = k'
      · subst e
        simp only [beq_self_eq_true, bne_self_eq_false, Bool.false_eq_true, not_false_eq_true, List.filter_cons_of_neg, List.filter_nil, Except.map] at hb
        split at hb
        · cases hb
        · next bs hbs =>
          rw [key hbs] at hb
          cases hb; rfl
      · have : (k == k') = false := by simpa using e
        simp [this] at hb

theorem initCall_one {adt : Key} {o : AsmObj} {t : Ty} {pos : List Arg} {kw : List (Key × Arg)} :
    initCall adt o t pos kw = .error .typeError ∨
    ∃ a, ((pos = [a] ∧ kw = []) ∨ ∃ k, pos = [] ∧ kw = [(k, a)]) ∧ initCall adt o t pos kw = AV.init o.width o.assemble t a := by
  unfold initCall
  split
  · exact .inr ⟨_, .inl ⟨rfl, rfl⟩, rfl⟩
  · split
    · exact .inr ⟨_, .inr ⟨_, rfl, rfl⟩, rfl⟩
    · exact .inl rfl
  · exact .inl rfl

/-- C77, calling the class: an assembled product class called with the fields gives the same as its constructor, also when there is one field,
for which the call could be meant as that of a whole value, or a field is named like the parameter of `__init__`.
Missing: as `C77_product_partial`. -/
theorem C77_call_partial (P : Process) (N : Names) (adt : Key) (c : Nat) (fs : Fields) (vs : List Val) (as : List Arg) (hw : WF (.prod c fs))
    (hv : (Ty.prod c fs).Has (.prod vs)) (ha : FieldArgs P fs vs as) (hne : fs ≠ .nil)
    (hpos : (∀ w ∈ fs.toList.map (fun p => width p.2), 0 < w) ∨ fs.toList.length = 1) (pos : List Arg) (kw : List (Key × Arg))
    (hg : Given (fs.toList.map (·.1)) as pos kw) (hN : N.dflt ∉ kw.map (·.1)) :
    ∃ x, AV.new P.asm (.prod c fs) (.raw (.prod vs)) = .ok x ∧ call P.asm N adt c fs pos kw = .ok x := by
  obtain ⟨l1, l2⟩ := fieldArgs_length ha
  have hb := bind_given hw.1 (by simpa using l1) hg
  obtain ⟨x, h1, h2⟩ := C19_from_fields_product_partial P c fs vs as 0 hw hv ha hne hpos
  have hp : product P.asm N c fs pos kw = .ok x := by
    simp only [product, take_none hN, hb, Bind.bind, Except.bind, default, h2]
  obtain ⟨o, ho, hgo⟩ := P.good hw
  refine ⟨x, h1, ?_⟩
  simp only [call, ho]
  rcases initCall_one (adt := adt) (o := o) (t := .prod c fs) (pos := pos) (kw := kw) with e | ⟨a, e1, e2⟩
  · simp only [e, hp]
  · have : as = [a] := bind_one (by cases fs <;> simp [Fields.toList] at hne ⊢) e1 hb
    subst this
    cases ha with
    | raw h =>
      cases h
      simp only [Ty.Has, Fields.HasAll, and_true] at hv
      rcases init_one P hw hv (.inl rfl) hgo with e | e
      · simp only [e2, e, hp]
      · rw [e2, e, ← h1, new_raw P hw (by simpa [Ty.Has, Fields.HasAll] using hv)]
    | asm hx h =>
      cases h
      simp only [Ty.Has, Fields.HasAll, and_true] at hv
      rcases init_one P hw hv (.inr ⟨_, hx, rfl⟩) hgo with e | e
      · simp only [e2, e, hp]
      · rw [e2, e, ← h1, new_raw P hw (by simpa [Ty.Has, Fields.HasAll] using hv)]

/-- C77, tuples: the same with positional arguments.
Missing: zero-width fields and the empty tuple (C19). -/
theorem C77_tuple_partial (P : Process) (N : Names) (c : Nat) (fs : Fields) (vs : List Val) (as : List Arg) (hw : WF (.prod c fs))
    (hv : (Ty.prod c fs).Has (.prod vs)) (ha : FieldArgs P fs vs as) (hne : fs ≠ .nil)
    (hpos : (∀ w ∈ fs.toList.map (fun p => width p.2), 0 < w) ∨ fs.toList.length = 1) :
    ∃ v x, pyProduct c fs vs [] = .ok v ∧ AV.new P.asm (.prod c fs) (.raw v) = .ok x ∧ tuple P.asm N c fs as [] = .ok x := by
  obtain ⟨l1, l2⟩ := fieldArgs_length ha
  have hn : (fs.toList.map (·.1)).Nodup := hw.1
  have hb' := bind_given (as := vs) (pos := vs) (kw := []) hn (by simpa using l2)
    ⟨fs.toList.length, by simp, by rw [← l2, List.take_length], by rw [List.drop_eq_nil_of_le (by simp [List.length_zip, l2])]⟩
  obtain ⟨x, h1, h2⟩ := C19_from_fields_product_partial P c fs vs as 0 hw hv ha hne hpos
  refine ⟨.prod vs, x, ?_, h1, ?_⟩
  · simp only [pyProduct, hb', Bind.bind, Except.bind, (isinst_iff _ _).mpr hv, if_true]
  · simp [tuple, take, default, l1, h2, Bind.bind, Except.bind]

/-- C77 fails: a product with a field named `default_bv` cannot be constructed by name in an assembling family, whatever the arguments;
in the Python family it can. -/
theorem C77_violated_name (A : Ty → Except Err AsmObj) (N : Names) (c : Nat) (fs : Fields) (hn : (fs.toList.map (·.1)).Nodup) (vs : List Val)
    (hv : (Ty.prod c fs).Has (.prod vs)) (hl : vs.length = fs.toList.length) (n : Nat) (hd : N.dflt ∈ (fs.toList.map (·.1)).drop n) :
    pyProduct c fs (vs.take n) (((fs.toList.map (·.1)).zip vs).drop n) = .ok (.prod vs) ∧
    ∀ pos kw, pos.length ≤ n → product A N c fs pos kw = .error .typeError := by
  refine ⟨?_, fun pos kw hp => ?_⟩
  · have hb := bind_given (as := vs) (pos := vs.take n) (kw := ((fs.toList.map (·.1)).zip vs).drop n) hn (by simpa using hl)
      ⟨n, by
        rcases Nat.lt_or_ge (fs.toList.map (·.1)).length n with h | h
        · rw [List.drop_eq_nil_of_le (by omega)] at hd; simp at hd
        · exact h, rfl, .refl _⟩
    simp only [pyProduct, hb, Bind.bind, Except.bind, (isinst_iff _ _).mpr hv, if_true]
  · have hm : N.dflt ∈ (fs.toList.map (·.1)).drop pos.length := by
      rw [show n = pos.length + (n - pos.length) by omega, ← List.drop_drop] at hd
      exact List.mem_of_mem_drop hd
    have : bind (fs.toList.map (·.1)) pos (take N.dflt kw).2 = .error .typeError := by
      refine bind_missing hm (lookup_none.mpr ?_)
      intro h
      obtain ⟨p, hp', e⟩ := List.mem_map.mp h
      have := (List.mem_filter.mp hp').2
      simp [e] at this
    simp only [product, this, Bind.bind, Except.bind]

/-! ### Unions -/

/-- C77, tagged unions: the option by its name gives the assembled form of what the Python family gives.
Missing: options named `default_bv` or `tag_bv` (`C77_violated_option`), one-option unions and zero-width options (C19). -/
theorem C77_tagged_partial (P : Process) (N : Names) (c : Nat) (fs : Fields) (k : Key) (t : Ty) (v : Val) (a : Arg)
    (hw : WF (.sum c fs)) (hk : (k, t) ∈ fs.toList) (hv : t.Has v) (ha : a = .raw v ∨ ∃ x, AV.new P.asm t (.raw v) = .ok x ∧ a = .asm x)
    (h2 : 2 ≤ fs.toList.length) (hpos : 0 < width t) (hd : k ≠ N.dflt) (ht : k ≠ N.tag) :
    ∃ w x, pyTagged c fs [] [(k, v)] = .ok w ∧ AV.new P.asm (.sum c fs) (.raw w) = .ok x ∧ tagged P.asm N c fs [] [(k, a)] = .ok x := by
  obtain ⟨b, h1, -, -, h4⟩ := C19_from_fields_union_partial P c fs k t v a 0 hw hk hv ha h2 hpos
  obtain ⟨i, hi⟩ := List.getElem?_of_mem hk
  have hv' : (Ty.sum c fs).Has (.sum k v) := (hasAt_iff hw.2.1 k v).2 ⟨i, t, hi, hv⟩
  refine ⟨.sum k v, _, by simp only [pyTagged, (isinst_iff _ _).mpr hv', if_true], h4 rfl, ?_⟩
  have e1 : take N.tag [(k, a)] = (none, [(k, a)]) := take_none (by simpa using Ne.symm ht)
  have e2 : take N.dflt [(k, a)] = (none, [(k, a)]) := take_none (by simpa using Ne.symm hd)
  simp [tagged, e1, e2, tagArg, default, h1, Bind.bind, Except.bind]

theorem sizeOf_option {k : Key} {t : Ty} : ∀ {fs : Fields}, (k, t) ∈ fs.toList → sizeOf t < sizeOf fs
  | .nil, h => by simp [Fields.toList] at h
  | .cons k' t' fs, h => by
    simp only [Fields.toList, List.mem_cons, Prod.mk.injEq] at h
    rcases h with ⟨rfl, rfl⟩ | h
    · simp; omega
    · have := sizeOf_option h
      simp; omega

theorem width_option {k : Key} {t : Ty} : ∀ {fs : Fields}, (k, t) ∈ fs.toList → width t ≤ maxWidth fs
  | .nil, h => by simp [Fields.toList] at h
  | .cons k' t' fs, h => by
    simp only [Fields.toList, List.mem_cons, Prod.mk.injEq] at h
    rcases h with ⟨rfl, rfl⟩ | h
    · simp only [maxWidth]; omega
    · have := width_option h
      simp only [maxWidth]; omega

/-- C77, calling a tagged union class: the same as its constructor, also for an option named like the parameter of `__init__`.  The value of the option
is not a value of the union itself: values of the model do not carry their class, those of Python do.
Missing: as `C77_tagged_partial`. -/
theorem C77_call_tagged_partial (P : Process) (N : Names) (adt : Key) (c : Nat) (fs : Fields) (k : Key) (t : Ty) (v : Val) (a : Arg)
    (hw : WF (.sum c fs)) (hk : (k, t) ∈ fs.toList) (hv : t.Has v) (hc : ¬ (Ty.sum c fs).Has v) (ha : a = .raw v ∨ ∃ x, AV.new P.asm t (.raw v) = .ok x ∧ a = .asm x)
    (h2 : 2 ≤ fs.toList.length) (hpos : 0 < width t) (hd : k ≠ N.dflt) (ht : k ≠ N.tag) :
    ∃ x, AV.new P.asm (.sum c fs) (.raw (.sum k v)) = .ok x ∧ callTagged P.asm N adt c fs [] [(k, a)] = .ok x := by
  obtain ⟨w, x, h1, h3, h4⟩ := C77_tagged_partial P N c fs k t v a hw hk hv ha h2 hpos hd ht
  obtain ⟨o, ho, hg⟩ := P.good hw
  have hwv : w = .sum k v := by
    simp only [pyTagged] at h1
    split at h1
    · exact (Except.ok.inj h1).symm
    · cases h1
  subst hwv
  refine ⟨x, h3, ?_⟩
  have hwt : WF t := by
    have : ∀ {fs : Fields}, WFs fs → (k, t) ∈ fs.toList → WF t := by
      intro fs
      induction fs using Fields.rec (motive_1 := fun _ => True) with
      | nil => intro _ h; simp [Fields.toList] at h
      | cons k' t' fs _ ih =>
        intro hw h
        simp only [Fields.toList, List.mem_cons, Prod.mk.injEq] at h
        rcases h with ⟨rfl, rfl⟩ | h
        · exact hw.1
        · exact ih hw.2 h
      | _ => trivial
    exact this hw.2.2 hk
  have hlt : width t < o.width := by
    have := width_option hk
    rw [hg.width]
    have h0 : 0 < tagBits fs.toList.length := by
      unfold tagBits
      rcases Nat.eq_zero_or_pos (bitLength (fs.toList.length - 1)) with e | e
      · have := lt_two_pow_bitLength (fs.toList.length - 1)
        rw [e] at this
        omega
      · exact e
    simp only [width]
    omega
  have hi : initCall adt o (.sum c fs) [] [(k, a)] = .error .typeError := by
    simp only [initCall]
    split
    · rcases ha with rfl | ⟨y, hy, rfl⟩
      · cases v with
        | bits b =>
          cases t <;> simp only [Ty.Has] at hv
          have : ¬ b.size = o.width := by
            simp only [width] at hlt
            omega
          simp only [AV.init, if_neg this]
        | _ =>
          have hi : ¬ (Ty.sum c fs).isinst _ = true := fun h => hc ((isinst_iff _ _).mp h)
          simp only [AV.init, if_neg hi]
      · rw [new_raw P hwt hv, Except.ok.injEq] at hy
        subst hy
        have hne : t ≠ .sum c fs := fun h => by
          have := sizeOf_option hk
          rw [h] at this
          simp at this
          omega
        cases t with
        | bit _ => rfl
        | bv _ w =>
          have : ¬ w = o.width := by
            simp only [width] at hlt
            omega
          simp only [mkAV, AV.init, BV.ofNat, if_neg this]
        | _ => simp only [mkAV, AV.init, if_neg hne]
    · rfl
  simp only [callTagged, ho, hi, h4]

/-- C77, tagged unions: `default_bv` is the value of the bits that the option does not use, and of no others.
Missing: as `C77_tagged_partial`. -/
theorem C77_tagged_default_partial (P : Process) (N : Names) (c : Nat) (fs : Fields) (k : Key) (t : Ty) (v : Val) (a d : Arg) (b : Bool)
    (hw : WF (.sum c fs)) (hk : (k, t) ∈ fs.toList) (hv : t.Has v) (ha : a = .raw v ∨ ∃ x, AV.new P.asm t (.raw v) = .ok x ∧ a = .asm x)
    (h2 : 2 ≤ fs.toList.length) (hpos : 0 < width t) (hd : k ≠ N.dflt) (ht : k ≠ N.tag) (hN : N.dflt ≠ N.tag) (hb : OneBit d b) :
    ∃ w, tagged P.asm N c fs [] [(k, a), (N.dflt, d)] = .ok (.adt (.sum c fs) w) ∧ w.size = width (.sum c fs) ∧
      w.val = encode (.sum c fs) (.sum k v) +
        if b then 2 ^ (tagBits fs.toList.length + width t) * (2 ^ (maxWidth fs - width t) - 1) else 0 := by
  obtain ⟨w, h1, h3, h4, -⟩ := C19_from_fields_union_partial P c fs k t v a b.toNat hw hk hv ha h2 hpos
  refine ⟨w, ?_, h3, ?_⟩
  · have e1 : take N.tag [(k, a), (N.dflt, d)] = (none, [(k, a), (N.dflt, d)]) := take_none (by simp [Ne.symm ht, Ne.symm hN])
    have e2 : take N.dflt [(k, a), (N.dflt, d)] = (some d, [(k, a)]) := by
      have x1 : (N.dflt == k) = false := by simpa using Ne.symm hd
      simp [take, List.lookup, x1, hd]
    simp [tagged, e1, e2, tagArg, default_oneBit hb, h1, Bind.bind, Except.bind]
  · rw [h4]
    cases b <;> simp

/-- C77, tagged unions: an explicit `tag_bv` of the width of the tag is stored in place of the tag of the option.
Missing: as `C77_tagged_partial`. -/
theorem C77_tagged_tag_partial (P : Process) (N : Names) (c : Nat) (fs : Fields) (k : Key) (t : Ty) (v : Val) (g : Arg) (tag : BV)
    (hw : WF (.sum c fs)) (hk : (k, t) ∈ fs.toList) (hv : t.Has v)
    (h2 : 2 ≤ fs.toList.length) (hpos : 0 < width t) (hd : k ≠ N.dflt) (ht : k ≠ N.tag) (hN : N.dflt ≠ N.tag)
    (hg : g = .raw (.bits tag) ∨ g = .asm (.bits tag)) (htag : tag.size = tagBits fs.toList.length) :
    ∃ w, tagged P.asm N c fs [] [(k, .raw v), (N.tag, g)] = .ok (.adt (.sum c fs) w) ∧ w.size = width (.sum c fs) ∧
      w.val = tag.val + 2 ^ tag.size * encode t v := by
  obtain ⟨w, h1, h3, h4⟩ := C19_tag_override P c fs k t v tag hw hk hv h2 hpos htag
  refine ⟨w, ?_, h3, h4⟩
  have e1 : take N.tag [(k, .raw v), (N.tag, g)] = (some g, [(k, .raw v)]) := by
    have x1 : (N.tag == k) = false := by simpa using Ne.symm ht
    simp [take, List.lookup, x1, ht]
  have e2 : take N.dflt [(k, Arg.raw v)] = (none, [(k, .raw v)]) := take_none (by simpa using Ne.symm hd)
  rcases hg with rfl | rfl <;> simp [tagged, e1, e2, tagArg, default, h1, Bind.bind, Except.bind]

/-- C77, whole values: the class of a product or union called with a value, positionally or as `adt`, gives the assembled form of the value. -/
theorem C77_whole (P : Process) (N : Names) (adt : Key) (c : Nat) (fs : Fields) (v : Val) :
    (WF (.prod c fs) → (Ty.prod c fs).Has v → ∃ x, AV.new P.asm (.prod c fs) (.raw v) = .ok x ∧
      call P.asm N adt c fs [.raw v] [] = .ok x ∧ call P.asm N adt c fs [] [(adt, .raw v)] = .ok x) ∧
    (WF (.sum c fs) → (Ty.sum c fs).Has v → ∃ x, AV.new P.asm (.sum c fs) (.raw v) = .ok x ∧
      callTagged P.asm N adt c fs [.raw v] [] = .ok x ∧ callTagged P.asm N adt c fs [] [(adt, .raw v)] = .ok x) := by
  constructor
  · intro hw hv
    obtain ⟨o, ho, hg⟩ := P.good hw
    have hi : AV.init o.width o.assemble (.prod c fs) (.raw v) = .ok (mkAV (.prod c fs) (encode (.prod c fs) v)) := by
      have h1 := (isinst_iff _ _).mpr hv
      have h2 := hg.assemble hw hv
      cases v <;> simp only [Ty.Has] at hv
      simp only [AV.init, h1, if_true, h2, mkAV]
    exact ⟨_, new_raw P hw hv, by simp only [call, ho, initCall, hi], by simp only [call, ho, initCall, if_true, hi]⟩
  · intro hw hv
    obtain ⟨o, ho, hg⟩ := P.good hw
    have hi : AV.init o.width o.assemble (.sum c fs) (.raw v) = .ok (mkAV (.sum c fs) (encode (.sum c fs) v)) := by
      have h1 := (isinst_iff _ _).mpr hv
      have h2 := hg.assemble hw hv
      cases v <;> simp only [Ty.Has] at hv
      simp only [AV.init, h1, if_true, h2, mkAV]
    exact ⟨_, new_raw P hw hv, by simp only [callTagged, ho, initCall, hi], by simp only [callTagged, ho, initCall, if_true, hi]⟩

/-- C77 fails: options named `default_bv` or `tag_bv` can never be constructed by name in an assembling family. -/
theorem C77_violated_option (A : Ty → Except Err AsmObj) (N : Names) (c : Nat) (fs : Fields) (k : Key) (v : Val) (a : Arg)
    (hv : (Ty.sum c fs).Has (.sum k v)) (hk : k = N.dflt ∨ k = N.tag) :
    pyTagged c fs [] [(k, v)] = .ok (.sum k v) ∧ tagged A N c fs [] [(k, a)] = .error .typeError := by
  refine ⟨by simp only [pyTagged, (isinst_iff _ _).mpr hv, if_true], ?_⟩
  by_cases ht : k = N.tag
  · subst ht
    simp [tagged, take]
  · have hd := hk.resolve_right ht
    subst hd
    have hb : (N.dflt != N.tag) = true := by simpa using ht
    simp [tagged, take, hb]

/-- C77, sums: the class of the option and its value.
Missing: one-option unions and zero-width options (C19); the call is not that of the Python family (`C77_violated_sum`). -/
theorem C77_sum_partial (P : Process) (c : Nat) (fs : Fields) (k : Key) (t : Ty) (v : Val) (a : Arg)
    (hw : WF (.sum c fs)) (hk : (k, t) ∈ fs.toList) (hv : t.Has v) (ha : a = .raw v ∨ ∃ x, AV.new P.asm t (.raw v) = .ok x ∧ a = .asm x)
    (h2 : 2 ≤ fs.toList.length) (hpos : 0 < width t) :
    ∃ x, AV.new P.asm (.sum c fs) (.raw (.sum k v)) = .ok x ∧ sum P.asm c fs [.cls k, .val a] = .ok x := by
  obtain ⟨b, h1, -, -, h4⟩ := C19_from_fields_union_partial P c fs k t v a 0 hw hk hv ha h2 hpos
  exact ⟨_, h4 rfl, h1⟩

/-- C77 fails for sums: the constructor of the Python family takes a value of an option, that of an assembling family the option and the value, and no call
succeeds in both. -/
theorem C77_violated_sum (A : Ty → Except Err AsmObj) (c : Nat) (fs : Fields) (classOf : Val → Key) :
    (∀ v, (Ty.sum c fs).Has (.sum (classOf v) v) → pySum c fs classOf [.val (.raw v)] = .ok (.sum (classOf v) v)) ∧
    ∀ args : List SumArg, (∀ v, pySum c fs classOf args ≠ .ok v) ∨ ∀ x, sum A c fs args ≠ .ok x := by
  refine ⟨fun v hv => by simp only [pySum, (isinst_iff _ _).mpr hv, if_true], fun args => ?_⟩
  match args with
  | [] => exact .inl (by simp [pySum])
  | [.val (.raw v)] => exact .inr (by simp [sum])
  | [.val (.asm v)] => exact .inl (by simp [pySum])
  | [.cls k] => exact .inl (by simp [pySum])
  | _ :: _ :: _ => exact .inl (by simp [pySum])

/-! ### The hypotheses are met -/

/-- Two fields, the second one by name. -/
example (P : Process) : ∃ x, AV.new P.asm (.prod 0 (.cons 0 (.bv 0 3) (.cons 1 (.bit 0) .nil))) (.raw (.prod [.bits (BV.ofNat 3 5), .bit true])) = .ok x ∧
    product P.asm ⟨7, 8⟩ 0 (.cons 0 (.bv 0 3) (.cons 1 (.bit 0) .nil)) [] [(1, .raw (.bit true)), (0, .raw (.bits (BV.ofNat 3 5)))] = .ok x := by
  obtain ⟨v, x, h1, h2, h3, -⟩ := C77_product_partial P ⟨7, 8⟩ 0 (.cons 0 (.bv 0 3) (.cons 1 (.bit 0) .nil)) [.bits (BV.ofNat 3 5), .bit true]
    [.raw (.bits (BV.ofNat 3 5)), .raw (.bit true)] (by simp [WF, WFs, Fields.toList]) (by simp [Ty.Has, Fields.HasAll, BV.ofNat]) (.raw (.raw .nil)) (by simp)
    (.inl (by simp [Fields.toList, width])) [] [(1, .raw (.bit true)), (0, .raw (.bits (BV.ofNat 3 5)))] ⟨0, by simp, rfl, .swap ..⟩ (by simp)
    [.bits (BV.ofNat 3 5), .bit true] [] ⟨2, by simp [Fields.toList], rfl, .refl _⟩
  have : v = .prod [.bits (BV.ofNat 3 5), .bit true] := by
    have e : pyProduct 0 (.cons 0 (.bv 0 3) (.cons 1 (.bit 0) .nil)) [.bits (BV.ofNat 3 5), .bit true] [] = .ok (.prod [.bits (BV.ofNat 3 5), .bit true]) := by
      simp [pyProduct, bind, Fields.toList, Except.map, Bind.bind, Except.bind, Ty.isinst, Fields.isinstAll, BV.ofNat]
    rw [e] at h1
    exact (Except.ok.inj h1).symm
  subst this
  exact ⟨x, h2, h3⟩

/-- A product with a field named `default_bv`, and a union with an option of that name. -/
example : (7 : Key) ∈ ((Fields.cons 0 (.bv 0 3) (.cons 7 (.bit 0) .nil)).toList.map (·.1)).drop 1 ∧
    (Ty.prod 0 (.cons 0 (.bv 0 3) (.cons 7 (.bit 0) .nil))).Has (.prod [.bits (BV.ofNat 3 5), .bit true]) ∧
    (Ty.sum 0 (.cons 0 (.bv 0 3) (.cons 7 (.bit 0) .nil))).Has (.sum 7 (.bit true)) := by
  simp [Fields.toList, Ty.Has, Fields.HasAll, Fields.HasAt, BV.ofNat]

/-- A union of three and one bits, the option of one bit, with ones in the other bits, and with the tag of the other option. -/
example (P : Process) : (∃ w, tagged P.asm ⟨7, 8⟩ 0 (.cons 0 (.bv 0 3) (.cons 1 (.bit 0) .nil)) [] [(1, .raw (.bit true)), (7, .asm (.bit true))] =
      .ok (.adt (.sum 0 (.cons 0 (.bv 0 3) (.cons 1 (.bit 0) .nil))) w) ∧ w.val = 15) ∧
    ∃ w, tagged P.asm ⟨7, 8⟩ 0 (.cons 0 (.bv 0 3) (.cons 1 (.bit 0) .nil)) [] [(1, .raw (.bit true)), (8, .raw (.bits (BV.ofNat 1 0)))] =
      .ok (.adt (.sum 0 (.cons 0 (.bv 0 3) (.cons 1 (.bit 0) .nil))) w) ∧ w.val = 2 := by
  have hw : WF (.sum 0 (.cons 0 (.bv 0 3) (.cons 1 (.bit 0) .nil))) := by simp [WF, WFs, Fields.toList]
  constructor
  · obtain ⟨w, h1, -, h3⟩ := C77_tagged_default_partial P ⟨7, 8⟩ 0 (.cons 0 (.bv 0 3) (.cons 1 (.bit 0) .nil)) 1 (.bit 0) (.bit true) (.raw (.bit true))
      (.asm (.bit true)) true hw (by simp [Fields.toList]) (by simp [Ty.Has]) (.inl rfl) (by simp [Fields.toList]) (by simp [width]) (by decide) (by decide)
      (by decide) (.inr (.inl rfl))
    exact ⟨w, h1, h3.trans (by decide +kernel)⟩
  · obtain ⟨w, h1, -, h3⟩ := C77_tagged_tag_partial P ⟨7, 8⟩ 0 (.cons 0 (.bv 0 3) (.cons 1 (.bit 0) .nil)) 1 (.bit 0) (.bit true) (.raw (.bits (BV.ofNat 1 0)))
      (BV.ofNat 1 0) hw (by simp [Fields.toList]) (by simp [Ty.Has]) (by simp [Fields.toList]) (by simp [width]) (by decide) (by decide)
      (by decide) (.inl rfl) (by decide +kernel)
    exact ⟨w, h1, h3.trans (by decide +kernel)⟩

/-- C77: a tagged union takes no positional arguments and exactly one option, in both families; a tuple takes exactly its fields, by position; and the
Python `Sum` takes only values of one of its options. -/
theorem C77_refused (A : Ty → Except Err AsmObj) (N : Names) (c : Nat) (fs : Fields) :
    (∀ a pos kw, tagged A N c fs (a :: pos) kw = .error .typeError) ∧ (∀ v pos kw, pyTagged c fs (v :: pos) kw = .error .typeError) ∧
    tagged A N c fs [] [] = .error .typeError ∧ pyTagged c fs [] [] = .error .typeError ∧
    (∀ pos, pos.length ≠ fs.toList.length → tuple A N c fs pos [] = .error .typeError) ∧
    (∀ pos k a, k ≠ N.dflt → tuple A N c fs pos [(k, a)] = .error .typeError) ∧
    ∀ classOf v, ¬ (Ty.sum c fs).Has (.sum (classOf v) v) → pySum c fs classOf [.val (.raw v)] = .error .typeError := by
  refine ⟨fun a pos kw => ?_, fun v pos kw => ?_, ?_, rfl, fun pos h => ?_, fun pos k a h => ?_, fun classOf v h => ?_⟩
  · simp [tagged]; rfl
  · simp [pyTagged]
  · simp [tagged, take]
  · simp [tuple, take, h]; rfl
  · simp [tuple, take, h]; rfl
  · have : (Ty.sum c fs).isinst (.sum (classOf v) v) = false := by
      rw [← Bool.not_eq_true, isinst_iff]; exact h
    simp [pySum, this]

/-- A union whose options are a word and a bit has no option for a word of another width. -/
example : ¬ (Ty.sum 0 (.cons 0 (.bv 0 3) (.cons 1 (.bit 0) .nil))).Has (.sum 0 (.bits (BV.ofNat 4 1))) := by
  rw [← isinst_iff]; decide +kernel

/-- C77: whatever the Python family builds has the type of every field, and a default of any width but one bit is refused. -/
theorem C77_typed (A : Ty → Except Err AsmObj) (N : Names) (c : Nat) (fs : Fields) :
    (∀ pos kw v, pyProduct c fs pos kw = .ok v → (Ty.prod c fs).Has v) ∧ (∀ pos kw v, pyTagged c fs pos kw = .ok v → (Ty.sum c fs).Has v) ∧
    ∀ (b : BV) (d : Arg), d = .raw (.bits b) ∨ d = .asm (.bits b) → b.size ≠ 1 → ∀ pos kw, product A N c fs pos ((N.dflt, d) :: kw) = .error .typeError := by
  refine ⟨fun pos kw v h => ?_, fun pos kw v h => ?_, fun b d hd hb pos kw => ?_⟩
  · unfold pyProduct at h
    cases hb : bind (fs.toList.map (·.1)) pos kw with
    | error e => rw [hb] at h; cases h
    | ok vs =>
      rw [hb] at h
      change (if (Ty.prod c fs).isinst (.prod vs) = true then (Except.ok (Val.prod vs) : Except Err Val) else .error .typeError) = .ok v at h
      split at h
      · rename_i hi; cases h; exact (isinst_iff _ _).mp hi
      · cases h
  · unfold pyTagged at h
    split at h
    · split at h
      · rename_i hi; cases h; exact (isinst_iff _ _).mp hi
      · cases h
    · cases h
  · have hdef : default (some d) = .error .typeError := by
      rcases hd with rfl | rfl <;> simp [default, hb]
    have ht : (take N.dflt ((N.dflt, d) :: kw)).1 = some d := by simp [take]
    unfold product
    generalize take N.dflt ((N.dflt, d) :: kw) = r at ht
    obtain ⟨d', kw'⟩ := r
    simp only at ht
    subst ht
    rcases bind_err (fs.toList.map (·.1)) pos kw' with ⟨as, hbd⟩ | hbd
    · simp only [hbd, hdef]; rfl
    · simp only [hbd]; rfl

end Peak.Ctor
