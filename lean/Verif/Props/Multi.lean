import Verif.Props.Bindings
/-!
# C29: the multi-block binding enumeration
-/

namespace Peak

/-- Specification of one block's binding: one pair per input to be bound, in order; the source is Unbound (when allowed) or one of
`inputs` with the same type. -/
def IsBlockBinding {P T : Type} (inputs outputs : List (P × T)) (useUnbound : Bool) (b : List (Option P × P)) : Prop :=
  List.Forall₂ (fun e o => e.2 = o.1 ∧ ((e.1 = none ∧ useUnbound = true) ∨ ∃ i, e.1 = some i ∧ (i, o.2) ∈ inputs)) b outputs

/-- Specification of a multi-block combination: `n` block bindings; each non-constant architecture input of block `i` is unbound or
takes an IR input or an output of an earlier block, of the same type; over all blocks, every IR input is taken exactly once. -/
structure IsMulti {F T : Type} [DecidableEq F] (irIn archOut archIn : List (F × T)) (n : Nat)
    (bs : List (List (Option (MPath F) × MPath F))) : Prop where
  len : bs.length = n
  block : ∀ (i : Nat) (b : List (Option (MPath F) × MPath F)), bs[i]? = some b →
    b.map (·.2) = archIn.map (fun e => MPath.archIn i e.1) ∧
    ∀ (k : Nat) (e : Option (MPath F) × MPath F), b[k]? = some e → ∀ src, e.1 = some src →
      ∃ f t, archIn[k]? = some (f, t) ∧
        ((∃ g, src = .irIn g ∧ (g, t) ∈ irIn) ∨ ∃ j g, j < i ∧ src = .archOut j g ∧ (g, t) ∈ archOut)
  once : ∀ g t, (g, t) ∈ irIn → (bs.flatten.map (·.1)).count (some (.irIn g)) = 1

namespace Mul

theorem possible_mem {P T : Type} [DecidableEq P] [DecidableEq T] (inputs : List (P × T)) (u : Bool) (t : T) (x : Option P) :
    x ∈ ((if u then [none] else []) ++ (match (sortByT inputs).lookup t with | some ps => ps.map some | none => []) : List (Option P)) ↔
      ((x = none ∧ u = true) ∨ ∃ i, x = some i ∧ (i, t) ∈ inputs) := by
  rw [Bnd.sortByT_lookup]
  rw [List.mem_append]
  refine or_congr (by cases u <;> simp) ?_
  by_cases h : t ∈ inputs.map (·.2)
  · rw [if_pos h]
    simp only [List.mem_map]
    constructor
    · rintro ⟨a, ha, rfl⟩
      exact ⟨a, rfl, (Bnd.mem_of_type inputs t a).mp (List.mem_map.mpr ha)⟩
    · rintro ⟨i, rfl, hi⟩
      exact ⟨i, List.mem_map.mp ((Bnd.mem_of_type inputs t i).mpr hi), rfl⟩
  · rw [if_neg h]
    simp only [List.not_mem_nil, false_iff]
    rintro ⟨i, _, hi⟩
    exact h (List.mem_map.mpr ⟨_, hi, rfl⟩)

theorem possible_nodup {P T : Type} [DecidableEq P] [DecidableEq T] (inputs : List (P × T)) (u : Bool) (t : T)
    (hn : (inputs.map (·.1)).Nodup) :
    ((if u then [none] else []) ++ (match (sortByT inputs).lookup t with | some ps => ps.map some | none => []) : List (Option P)).Nodup := by
  rw [Bnd.sortByT_lookup]
  rw [List.nodup_append]
  refine ⟨by cases u <;> simp, ?_, ?_⟩
  · by_cases h : t ∈ inputs.map (·.2)
    · rw [if_pos h]
      exact ((List.Sublist.map _ List.filter_sublist).nodup hn).map (fun _ _ h => by cases h; rfl)
    · rw [if_neg h]; simp
  · intro a ha b hb
    have : a = none := by cases u <;> simp_all
    subst this
    by_cases h : t ∈ inputs.map (·.2)
    · rw [if_pos h] at hb
      obtain ⟨x, _, rfl⟩ := List.mem_map.mp hb
      simp
    · rw [if_neg h] at hb; simp at hb

end Mul

/-- C29, `create_bindings` of one block: it fails (ValueError) exactly when Unbound is not allowed and some input to be bound has no source
of its type; otherwise it yields exactly the type-correct bindings, each once. -/
theorem C29_block {P T : Type} [DecidableEq P] [DecidableEq T] (inputs outputs : List (P × T)) (u : Bool) :
    (u = false ∧ (∃ o t, (o, t) ∈ outputs ∧ ∀ i, (i, t) ∉ inputs) → createBindings2 inputs outputs u = .error .valueError) ∧
    (¬ (u = false ∧ (∃ o t, (o, t) ∈ outputs ∧ ∀ i, (i, t) ∉ inputs)) →
      ∃ bs, createBindings2 inputs outputs u = .ok bs ∧ (∀ b, b ∈ bs ↔ IsBlockBinding inputs outputs u b) ∧
        ((inputs.map (·.1)).Nodup → bs.Nodup)) := by
  have hall : ((sortByT outputs).all (fun e => ((sortByT inputs).lookup e.1).isSome)) = true ↔
      ¬ ∃ o t, (o, t) ∈ outputs ∧ ∀ i, (i, t) ∉ inputs := by
    rw [List.all_eq_true]
    constructor
    · rintro h ⟨o, t, ho, hn⟩
      obtain ⟨e, he, rfl⟩ := List.mem_map.mp ((Bnd.mem_keys_sortByT outputs t).mpr (List.mem_map.mpr ⟨_, ho, rfl⟩))
      have := h e he
      rw [Bnd.sortByT_lookup] at this
      by_cases hm : e.1 ∈ inputs.map (·.2)
      · obtain ⟨x, hx, hxe⟩ := List.mem_map.mp hm
        exact hn x.1 (by rw [← hxe]; exact hx)
      · rw [if_neg hm] at this; simp at this
    · intro h e he
      have hm : e.1 ∈ inputs.map (·.2) := by
        obtain ⟨x, hx, hxe⟩ := List.mem_map.mp (Bnd.mem_sortByT outputs e he).2
        by_cases hh : ∃ i, (i, e.1) ∈ inputs
        · obtain ⟨i, hi⟩ := hh
          exact List.mem_map.mpr ⟨_, hi, rfl⟩
        · refine absurd ⟨x.1, e.1, by rw [← hxe]; exact hx, fun i hi => hh ⟨i, hi⟩⟩ h
      rw [Bnd.sortByT_lookup, if_pos hm]; rfl
  unfold createBindings2
  simp only []
  refine ⟨?_, ?_⟩
  · rintro ⟨rfl, h⟩
    have : ((sortByT outputs).all (fun e => ((sortByT inputs).lookup e.1).isSome)) = false := by
      cases hb : ((sortByT outputs).all (fun e => ((sortByT inputs).lookup e.1).isSome)) with
      | false => rfl
      | true => exact absurd h (hall.mp hb)
    rw [this]; simp
  · intro h
    have hc : (!u && !((sortByT outputs).all (fun e => ((sortByT inputs).lookup e.1).isSome))) = false := by
      cases u with
      | true => rfl
      | false =>
        have := hall.mpr (fun hh => h ⟨rfl, hh⟩)
        rw [this]; rfl
    rw [hc]
    simp only [Bool.false_eq_true, if_false]
    rw [if_pos]
    · refine ⟨_, rfl, ?_, ?_⟩
      · intro b
        rw [List.mem_map]
        simp only [Bnd.mem_pyProduct, List.forall₂_map_right_iff]
        have hp := Mul.possible_mem inputs u
        constructor
        · rintro ⟨l, hl, rfl⟩
          unfold IsBlockBinding
          clear hall h hc
          induction hl with
          | nil => exact .nil
          | cons h1 _ ih => exact .cons ⟨rfl, (hp _ _).mp h1⟩ ih
        · intro hb
          refine ⟨b.map (·.1), ?_, ?_⟩
          · rw [List.forall₂_map_left_iff]
            exact hb.imp (fun _ _ h1 => (hp _ _).mpr h1.2)
          · clear hall h hc
            induction hb with
            | nil => rfl
            | cons h1 _ ih => simp only [List.map_cons, List.zip_cons_cons, ← h1.1, ih]
      · intro hn
        refine List.Nodup.map_on ?_ (Bnd.pyProduct_nodup _ ?_)
        · intro x hx y hy hxy
          have h1 := ((Bnd.mem_pyProduct _ _).mp hx).length_eq
          have h2 := ((Bnd.mem_pyProduct _ _).mp hy).length_eq
          simp only [List.length_map] at h1 h2
          have e1 : (x.zip (outputs.map (·.1))).map (·.1) = x := List.map_fst_zip (by simp [h1])
          have e2 : (y.zip (outputs.map (·.1))).map (·.1) = y := List.map_fst_zip (by simp [h2])
          rw [← e1, ← e2, hxy]
        · intro l hl
          obtain ⟨o, _, rfl⟩ := List.mem_map.mp hl
          exact Mul.possible_nodup inputs u o.2 hn
    · rw [List.all_eq_true]
      intro l hl
      obtain ⟨o, ho, rfl⟩ := List.mem_map.mp hl
      simp only [gt_iff_lt, decide_eq_true_eq]
      rw [List.length_pos_iff_exists_mem]
      cases u with
      | true => exact ⟨none, (Mul.possible_mem inputs true o.2 none).mpr (.inl ⟨rfl, rfl⟩)⟩
      | false =>
        by_cases hh : ∃ i, (i, o.2) ∈ inputs
        · obtain ⟨i, hi⟩ := hh
          exact ⟨some i, (Mul.possible_mem inputs false o.2 (some i)).mpr (.inr ⟨i, rfl, hi⟩)⟩
        · exact absurd ⟨rfl, o.1, o.2, ho, fun i hi => hh ⟨i, hi⟩⟩ h

namespace Mul

/-- the bindings of block `i` -/
theorem blocks_ok {F T : Type} [DecidableEq F] [DecidableEq T] (irIn archOut archIn : List (F × T)) (is : List Nat) :
    ∃ blocks, multiBlocks irIn archOut archIn is = .ok blocks ∧
      List.Forall₂ (fun b i => createBindings2 (multiInputs irIn archOut i) (multiOutputs archIn i) true = .ok b) blocks is := by
  induction is with
  | nil => exact ⟨[], rfl, .nil⟩
  | cons i is ih =>
    obtain ⟨rest, h1, h2⟩ := ih
    obtain ⟨b, hb, _⟩ := (C29_block (multiInputs irIn archOut i) (multiOutputs archIn i) true).2 (by simp)
    exact ⟨b :: rest, by simp [multiBlocks, hb, h1], .cons hb h2⟩

theorem pick_product {α : Type} (blocks : List (List α)) :
    (pyProduct (blocks.map (fun b => List.range b.length))).map (pick blocks) = pyProduct blocks := by
  induction blocks with
  | nil => rfl
  | cons b bs ih =>
    simp only [List.map_cons, pyProduct]
    rw [← ih]
    generalize pyProduct (bs.map (fun b => List.range b.length)) = R
    rw [List.map_flatMap]
    have hr : ∀ (x : Nat) (y : α), b[x]? = some y →
        ((R.map (fun xs => x :: xs)).map (pick (b :: bs))) = (R.map (pick bs)).map (fun xs => y :: xs) := by
      intro x y hxy
      rw [List.map_map, List.map_map]
      apply List.map_congr_left
      intro xs _
      simp [pick, hxy]
    have : ∀ (c : List α) (m : Nat), (∀ (x : Nat) (y : α), c[x]? = some y → b[x + m]? = some y) →
        ((List.range' m c.length).flatMap (fun x => (R.map (fun xs => x :: xs)).map (pick (b :: bs)))) =
          c.flatMap (fun y => (R.map (pick bs)).map (fun xs => y :: xs)) := by
      intro c
      induction c with
      | nil => intro m _; rfl
      | cons y c ihc =>
        intro m hm
        simp only [List.length_cons, List.range'_succ, List.flatMap_cons]
        rw [hr m y (by simpa using hm 0 y rfl), ihc (m + 1)]
        intro x z hz
        have := hm (x + 1) z hz
        rw [← this]; congr 1; omega
    rw [List.range_eq_range']
    exact this b 0 (fun x y h => h)

theorem count_flatten {α β : Type} [BEq α] (bs : List (List (α × β))) (p : α) :
    (bs.map (fun b => b.countP (fun e => e.1 == p))).sum = (bs.flatten.map (·.1)).count p := by
  induction bs with
  | nil => rfl
  | cons b bs ih =>
    simp only [List.map_cons, List.sum_cons, ih, List.flatten_cons, List.map_append, List.count_append]
    congr 1
    rw [List.count, List.countP_map]
    rfl

theorem inputs_mem {F T : Type} (irIn archOut : List (F × T)) (i : Nat) (src : MPath F) (t : T) :
    (src, t) ∈ multiInputs irIn archOut i ↔
      ((∃ g, src = .irIn g ∧ (g, t) ∈ irIn) ∨ ∃ j g, j < i ∧ src = .archOut j g ∧ (g, t) ∈ archOut) := by
  simp only [multiInputs, List.mem_append, List.mem_map, List.mem_flatMap, List.mem_range, Prod.mk.injEq]
  constructor
  · rintro (⟨e, he, rfl, rfl⟩ | ⟨j, hj, e, he, rfl, rfl⟩)
    · exact .inl ⟨e.1, rfl, he⟩
    · exact .inr ⟨j, e.1, hj, rfl, he⟩
  · rintro (⟨g, rfl, hg⟩ | ⟨j, g, hj, rfl, hg⟩)
    · exact .inl ⟨(g, t), hg, rfl, rfl⟩
    · exact .inr ⟨j, hj, (g, t), hg, rfl, rfl⟩

theorem inputs_nodup {F T : Type} (irIn archOut : List (F × T)) (i : Nat) (h1 : (irIn.map (·.1)).Nodup) (h2 : (archOut.map (·.1)).Nodup) :
    ((multiInputs irIn archOut i).map (·.1)).Nodup := by
  simp only [multiInputs, List.map_append, List.map_map, List.map_flatMap]
  rw [List.nodup_append]
  refine ⟨?_, ?_, ?_⟩
  · have := h1.map (f := MPath.irIn) (fun _ _ h => by cases h; rfl)
    simpa [Function.comp_def] using this
  · rw [List.nodup_flatMap]
    refine ⟨?_, ?_⟩
    · intro j _
      have := h2.map (f := MPath.archOut j) (fun _ _ h => by cases h; rfl)
      simpa [Function.comp_def] using this
    · refine List.nodup_range.imp ?_
      intro a b hab
      simp only [Function.onFun, List.disjoint_left, List.mem_map]
      rintro x ⟨y, _, rfl⟩ ⟨z, _, hz⟩
      simp at hz
      exact hab hz.1.symm
  · intro a ha b hb
    obtain ⟨x, _, rfl⟩ := List.mem_map.mp ha
    obtain ⟨j, _, hb⟩ := List.mem_flatMap.mp hb
    obtain ⟨y, _, rfl⟩ := List.mem_map.mp hb
    simp

theorem blockBinding_iff {F T : Type} [DecidableEq F] [DecidableEq T] (irIn archOut archIn : List (F × T)) (i : Nat)
    (b : List (Option (MPath F) × MPath F)) :
    IsBlockBinding (multiInputs irIn archOut i) (multiOutputs archIn i) true b ↔
    b.map (·.2) = archIn.map (fun e => MPath.archIn i e.1) ∧
    ∀ (k : Nat) (e : Option (MPath F) × MPath F), b[k]? = some e → ∀ src, e.1 = some src →
      ∃ f t, archIn[k]? = some (f, t) ∧
        ((∃ g, src = .irIn g ∧ (g, t) ∈ irIn) ∨ ∃ j g, j < i ∧ src = .archOut j g ∧ (g, t) ∈ archOut) := by
  unfold IsBlockBinding multiOutputs
  rw [List.forall₂_map_right_iff]
  induction archIn generalizing b with
  | nil =>
    rw [List.forall₂_nil_right_iff]
    constructor
    · rintro rfl; exact ⟨rfl, by simp⟩
    · rintro ⟨h, _⟩; simpa using h
  | cons a archIn ih =>
    cases b with
    | nil => simp
    | cons e b =>
      rw [List.forall₂_cons, ih]
      simp only [List.map_cons, List.cons.injEq]
      constructor
      · rintro ⟨⟨h1, h2⟩, h3, h4⟩
        refine ⟨⟨h1, h3⟩, ?_⟩
        intro k e' hk src hs
        cases k with
        | zero =>
          simp at hk
          subst hk
          rcases h2 with ⟨h2, _⟩ | ⟨i', h2, h5⟩
          · rw [h2] at hs; cases hs
          · rw [h2] at hs; cases hs
            exact ⟨a.1, a.2, rfl, (inputs_mem _ _ _ _ _).mp h5⟩
        | succ k => exact h4 k e' (by simpa using hk) src hs
      · rintro ⟨⟨h1, h3⟩, h4⟩
        refine ⟨⟨h1, ?_⟩, h3, fun k e' hk src hs => h4 (k + 1) e' (by simpa using hk) src hs⟩
        cases he : e.1 with
        | none => exact .inl ⟨rfl, trivial⟩
        | some src =>
          obtain ⟨f, t, hf, h⟩ := h4 0 e rfl src he
          simp at hf
          subst hf
          exact .inr ⟨src, rfl, (inputs_mem _ _ _ _ _).mpr h⟩

end Mul

/-- C29: for at least one block, the index tuples kept by the filter select exactly the legal combinations, each once; if there is none,
ValueError is raised.  (Field names of a type are distinct.) -/
theorem C29_multi {F T : Type} [DecidableEq F] [DecidableEq T] (irIn archOut archIn : List (F × T)) (n : Nat) (hn : 1 ≤ n)
    (hi : (irIn.map (·.1)).Nodup) (ho : (archOut.map (·.1)).Nodup) :
    (∀ blocks valid, multiValid irIn archOut archIn n = .ok (blocks, valid) →
      (∀ x ∈ valid, x.length = n) ∧ (valid.map (pick blocks)).Nodup ∧
      (∀ bs, bs ∈ valid.map (pick blocks) ↔ IsMulti irIn archOut archIn n bs)) ∧
    ((∃ r, multiValid irIn archOut archIn n = .ok r) ↔ ∃ bs, IsMulti irIn archOut archIn n bs) ∧
    (∀ e, multiValid irIn archOut archIn n = .error e → e = .valueError) := by
  obtain ⟨blocks, hb, hbf⟩ := Mul.blocks_ok irIn archOut archIn (List.range n)
  have hlen : blocks.length = n := by have := hbf.length_eq; simpa using this
  have hblock : ∀ (i : Nat) (b : List (List (Option (MPath F) × MPath F))), blocks[i]? = some b →
      createBindings2 (multiInputs irIn archOut i) (multiOutputs archIn i) true = .ok b := by
    intro i b hib
    rw [List.forall₂_iff_get] at hbf
    have hil : i < blocks.length := by
      rcases Nat.lt_or_ge i blocks.length with h | h
      · exact h
      · rw [List.getElem?_eq_none h] at hib; cases hib
    have := hbf.2 i hil (by simp; omega)
    simp only [List.get_eq_getElem, List.getElem_range] at this
    rw [List.getElem?_eq_getElem hil] at hib
    cases hib
    exact this
  -- the combinations selected by all index tuples
  have hvalid : ((pyProduct (blocks.map (fun b => List.range b.length))).filter
        (fun x => multiFilt (irIn.map (fun e => .irIn e.1)) (pick blocks x))).map (pick blocks) =
      (pyProduct blocks).filter (multiFilt (irIn.map (fun e => .irIn e.1))) := by
    rw [← Mul.pick_product blocks, List.filter_map]
    rfl
  have hmem : ∀ bs, bs ∈ (pyProduct blocks).filter (multiFilt (irIn.map (fun e => .irIn e.1))) ↔ IsMulti irIn archOut archIn n bs := by
    intro bs
    rw [List.mem_filter, Bnd.mem_pyProduct]
    have h1 : List.Forall₂ (fun x y => x ∈ y) bs blocks ↔
        bs.length = n ∧ ∀ (i : Nat) (b : List (Option (MPath F) × MPath F)), bs[i]? = some b →
          IsBlockBinding (multiInputs irIn archOut i) (multiOutputs archIn i) true b := by
      rw [List.forall₂_iff_get]
      constructor
      · rintro ⟨hl, h⟩
        refine ⟨hl.trans hlen, ?_⟩
        intro i b hib
        have hil : i < bs.length := by
          rcases Nat.lt_or_ge i bs.length with h' | h'
          · exact h'
          · rw [List.getElem?_eq_none h'] at hib; cases hib
        have hm := h i hil (by omega)
        rw [List.getElem?_eq_getElem hil] at hib
        cases hib
        obtain ⟨c, hc, hcm, _⟩ := (C29_block (multiInputs irIn archOut i) (multiOutputs archIn i) true).2 (by simp)
        have := hblock i (blocks[i]'(by omega)) (List.getElem?_eq_getElem _)
        rw [this] at hc
        cases hc
        exact (hcm _).mp hm
      · rintro ⟨hl, h⟩
        refine ⟨hl.trans hlen.symm, ?_⟩
        intro i hil hil'
        obtain ⟨c, hc, hcm, _⟩ := (C29_block (multiInputs irIn archOut i) (multiOutputs archIn i) true).2 (by simp)
        have := hblock i (blocks[i]'(by omega)) (List.getElem?_eq_getElem _)
        rw [this] at hc
        cases hc
        exact (hcm _).mpr (h i _ (List.getElem?_eq_getElem hil))
    rw [h1]
    have h2 : multiFilt (irIn.map (fun e => .irIn e.1)) bs = true ↔
        ∀ g t, (g, t) ∈ irIn → (bs.flatten.map (·.1)).count (some (MPath.irIn g)) = 1 := by
      simp only [multiFilt, List.all_eq_true, List.mem_map, beq_iff_eq]
      constructor
      · intro h g t hg
        rw [← Mul.count_flatten]
        exact h _ ⟨(g, t), hg, rfl⟩
      · rintro h p ⟨e, he, rfl⟩
        rw [Mul.count_flatten]
        exact h e.1 e.2 he
    rw [h2]
    constructor
    · rintro ⟨⟨a, b⟩, c⟩
      exact ⟨a, fun i x hx => (Mul.blockBinding_iff _ _ _ _ _).mp (b i x hx), c⟩
    · rintro ⟨a, b, c⟩
      exact ⟨⟨a, fun i x hx => (Mul.blockBinding_iff _ _ _ _ _).mpr (b i x hx)⟩, c⟩
  have hnd : ((pyProduct blocks).filter (multiFilt (irIn.map (fun e => .irIn e.1)))).Nodup := by
    refine (Bnd.pyProduct_nodup _ ?_).filter _
    intro l hl
    obtain ⟨i, hil, rfl⟩ := List.mem_iff_getElem.mp hl
    obtain ⟨c, hc, _, hcn⟩ := (C29_block (multiInputs irIn archOut i) (multiOutputs archIn i) true).2 (by simp)
    have := hblock i blocks[i] (List.getElem?_eq_getElem _)
    rw [this] at hc
    cases hc
    exact hcn (Mul.inputs_nodup irIn archOut i hi ho)
  have hn0 : n ≠ 0 := by omega
  unfold multiValid
  rw [hb]
  simp only [if_neg hn0]
  split
  · next h0 =>
    have h0' := List.length_eq_zero_iff.mp h0
    rw [h0'] at hvalid
    refine ⟨fun _ _ h => (by cases h), ⟨fun ⟨r, h⟩ => (by cases h), ?_⟩, fun e h => by cases h; rfl⟩
    rintro ⟨bs, hbs⟩
    have := (hmem bs).mpr hbs
    rw [← hvalid] at this
    simp at this
  · next h0 =>
    refine ⟨?_, ?_, fun e h => by cases h⟩
    · intro blocks' valid h
      cases h
      refine ⟨?_, by rw [hvalid]; exact hnd, by rw [hvalid]; exact hmem⟩
      intro x hx
      have := ((Bnd.mem_pyProduct _ _).mp (List.mem_filter.mp hx).1).length_eq
      simpa [hlen] using this
    · refine ⟨fun _ => ?_, fun _ => ⟨_, rfl⟩⟩
      obtain ⟨x, hx⟩ := List.length_pos_iff_exists_mem.mp (Nat.pos_of_ne_zero h0)
      refine ⟨pick blocks x, (hmem _).mp ?_⟩
      rw [← hvalid]
      exact List.mem_map_of_mem hx

/-- Two blocks, one architecture input and output, one IR input, all of one type: the IR input goes to either block, and the second
block's input may instead be unbound or take the first block's output. -/
example : ∃ blocks valid, multiValid [(0, 7)] [(0, 7)] [(5, 7)] 2 = .ok (blocks, valid) ∧
    valid.map (pick blocks) =
      [[[(none, .archIn 0 5)], [(some (.irIn 0), .archIn 1 5)]],
       [[(some (.irIn 0), .archIn 0 5)], [(none, .archIn 1 5)]],
       [[(some (.irIn 0), .archIn 0 5)], [(some (.archOut 0 0), .archIn 1 5)]]] :=
  ⟨_, _, rfl, rfl⟩

end Peak
