import Verif.Spec.Conv
import Mathlib.Data.List.Forall2
/-!
# C82, C83: values and port types keep their meaning when the family changes; constants of the legacy assembler (C20)
-/

namespace Peak.Conv
open Peak

/-- C82: whenever a value is a constant vector or bit of either family and class, moving it to a family succeeds, gives a plain vector or
a bit of that family, and keeps the width and the number. -/
theorem C82_value (v : HVal) (f : Fam) (hf : v.Fits) (hm : v.meaning ≠ none) :
    ∃ v', rebindValue v f = .ok v' ∧ v'.PlainOf f ∧ v'.meaning = v.meaning ∧ v'.Fits := by
  cases v with
  | pyBv s size n =>
    simp only [HVal.Fits] at hf
    cases f <;> simp [rebindValue, mkBv, HVal.PlainOf, HVal.meaning, HVal.Fits, Nat.mod_eq_of_lt hf, hf]
  | pyBit b => cases f <;> simp [rebindValue, mkBit, HVal.PlainOf, HVal.meaning, HVal.Fits]
  | smtBv s size t =>
    cases t with
    | const n =>
      simp only [HVal.Fits] at hf
      cases f <;> simp [rebindValue, mkBv, HVal.PlainOf, HVal.meaning, HVal.Fits, Nat.mod_eq_of_lt hf, hf]
    | sym i => simp [HVal.meaning] at hm
  | smtBit t =>
    cases t with
    | const n => cases f <;> simp [rebindValue, mkBit, HVal.PlainOf, HVal.meaning, HVal.Fits]
    | sym i => simp [HVal.meaning] at hm
  | aadt i => simp [HVal.meaning] at hm
  | other i => simp [HVal.meaning] at hm

example : (HVal.smtBv .signed 8 (.const 200)).Fits ∧ (HVal.smtBv .signed 8 (.const 200)).meaning ≠ none ∧
    rebindValue (.smtBv .signed 8 (.const 200)) .py = .ok (.pyBv .plain 8 200) := by
  simp [HVal.Fits, HVal.meaning, rebindValue, mkBv]

/-- C82: everything else (a symbolic vector or bit, an assembled value, another object) is refused with ValueError. -/
theorem C82_refused (v : HVal) (f : Fam) (hm : v.meaning = none) : rebindValue v f = .error .valueError := by
  cases v with
  | smtBv s size t => cases t <;> simp_all [rebindValue, HVal.meaning]
  | smtBit t => cases t <;> simp_all [rebindValue, HVal.meaning]
  | _ => simp_all [rebindValue, HVal.meaning]

example : (HVal.smtBv .plain 8 (.sym 3)).meaning = none ∧ (HVal.aadt 0).meaning = none := by simp [HVal.meaning]

/-- C82: moving a plain Python constant to the SMT family and back gives the value it started from. -/
theorem C82_round_trip (v v' v'' : HVal) (hf : v.Fits) (hp : v.PlainOf .py)
    (h : rebindValue v .smt = .ok v') (h' : rebindValue v' .py = .ok v'') : v'' = v := by
  cases v with
  | pyBv s size n =>
    simp only [HVal.Fits] at hf
    simp only [HVal.PlainOf] at hp
    obtain ⟨_, rfl⟩ := hp
    simp only [rebindValue, mkBv, Except.ok.injEq] at h
    subst h
    simp only [rebindValue, mkBv, Except.ok.injEq, Nat.mod_mod, Nat.mod_eq_of_lt hf] at h'
    exact h'.symm
  | pyBit b =>
    simp only [rebindValue, mkBit, Except.ok.injEq] at h
    subst h
    simp only [rebindValue, mkBit, Except.ok.injEq] at h'
    exact h'.symm
  | smtBv s size t => simp [HVal.PlainOf] at hp
  | smtBit t => simp [HVal.PlainOf] at hp
  | aadt i => simp [HVal.PlainOf] at hp
  | other i => simp [HVal.PlainOf] at hp

example : ∃ v' v'', (HVal.pyBv .plain 4 11).Fits ∧ (HVal.pyBv .plain 4 11).PlainOf .py ∧
    rebindValue (.pyBv .plain 4 11) .smt = .ok v' ∧ rebindValue v' .py = .ok v'' :=
  ⟨_, _, by simp [HVal.Fits], by simp [HVal.PlainOf], rfl, rfl⟩

theorem rebindElem_ok (e : Elem) (f : Fam) : (∀ f₀ s n, e = .vec f₀ s n → rebindElem e f = .vec f s n) ∧
    ((∀ f₀ s n, e ≠ .vec f₀ s n) → rebindElem e f = e) := by
  cases e <;> simp [rebindElem]

theorem rebindValue_plain (v v' : HVal) (f : Fam) (hv : rebindValue v f = .ok v') : v'.PlainOf f := by
  have h1 : ∀ s n, (mkBv f s n).PlainOf f := by intro s n; cases f <;> simp [mkBv, HVal.PlainOf]
  have h2 : ∀ b, (mkBit f b).PlainOf f := by intro b; cases f <;> simp [mkBit, HVal.PlainOf]
  cases v with
  | pyBv s size n =>
    simp only [rebindValue, Except.ok.injEq] at hv
    exact hv ▸ h1 _ _
  | pyBit b =>
    simp only [rebindValue, Except.ok.injEq] at hv
    exact hv ▸ h2 _
  | smtBv s size t =>
    cases t with
    | sym i => simp [rebindValue] at hv
    | const n =>
      simp only [rebindValue, Except.ok.injEq] at hv
      exact hv ▸ h1 _ _
  | smtBit t =>
    cases t with
    | sym i => simp [rebindValue] at hv
    | const n =>
      simp only [rebindValue, Except.ok.injEq] at hv
      exact hv ▸ h2 _
  | aadt i => simp [rebindValue] at hv
  | other i => simp [rebindValue] at hv

/-- C82: a binding that is rebound keeps its lines, in order: each line keeps its path, `Unbound` or number, and the target path. -/
theorem C82_binding (b b' : List (Lhs × List Elem)) (f : Fam) (h : rebindBinding b f = .ok b') :
    List.Forall₂ (LineOk f) b b' := by
  induction b generalizing b' with
  | nil =>
    simp only [rebindBinding, Except.ok.injEq] at h
    subst h
    exact .nil
  | cons x b ih =>
    obtain ⟨l, p⟩ := x
    simp only [rebindBinding] at h
    split at h
    · simp at h
    · next e he =>
      have hp : p = p.dropLast ++ [e] := by
        have hne : p ≠ [] := by rintro rfl; simp at he
        rw [List.getLast?_eq_some_getLast hne, Option.some.injEq] at he
        rw [← he, List.dropLast_concat_getLast hne]
      split at h
      · next v =>
        split at h
        · simp at h
        · next v' hv =>
          split at h
          · simp at h
          · next r hr =>
            simp only [Except.ok.injEq] at h
            subst h
            refine .cons ⟨⟨v', rfl, ?_, ?_, ?_⟩, _, e, _, hp, rfl, rebindElem_ok e f⟩ (ih r hr)
            · intro hn
              rw [C82_refused v f hn] at hv
              simp at hv
            · intro hf
              have hn : v.meaning ≠ none := by
                intro hn
                rw [C82_refused v f hn] at hv
                simp at hv
              obtain ⟨w, h1, _, h3, _⟩ := C82_value v f hf hn
              rw [hv, Except.ok.injEq] at h1
              rw [h1, h3]
            · exact rebindValue_plain v v' f hv
      · next hl =>
        split at h
        · simp at h
        · next r hr =>
          simp only [Except.ok.injEq] at h
          subst h
          refine .cons ⟨?_, _, e, _, hp, rfl, rebindElem_ok e f⟩ (ih r hr)
          cases l with
          | path p => rfl
          | unbound => rfl
          | val v => exact absurd rfl (hl v)

/-- C82: rebinding succeeds on every binding whose values are constants and whose target paths are not empty. -/
theorem C82_binding_total (b : List (Lhs × List Elem)) (f : Fam)
    (h : ∀ x ∈ b, x.2 ≠ [] ∧ ∀ v, x.1 = .val v → v.Fits ∧ v.meaning ≠ none) : ∃ b', rebindBinding b f = .ok b' := by
  induction b with
  | nil => exact ⟨[], rfl⟩
  | cons x b ih =>
    obtain ⟨l, p⟩ := x
    obtain ⟨r, hr⟩ := ih fun y hy => h y (List.mem_cons_of_mem _ hy)
    obtain ⟨hp, hv⟩ := h (l, p) List.mem_cons_self
    simp only [rebindBinding, List.getLast?_eq_some_getLast hp, hr]
    cases l with
    | path q => exact ⟨_, rfl⟩
    | unbound => exact ⟨_, rfl⟩
    | val v =>
      obtain ⟨v', h1, _⟩ := C82_value v f (hv v rfl).1 (hv v rfl).2
      simp only [h1]
      exact ⟨_, rfl⟩

/-- The binding of a rule with a path, a free input and a constant for an option of a union. -/
def demoBinding : List (Lhs × List Elem) :=
  [(.path [.name 0], [.name 1, .name 2]), (.unbound, [.name 3]), (.val (.smtBv .plain 8 (.const 200)), [.name 4, .vec .smt .plain 8])]

example : rebindBinding demoBinding .py = .ok
    [(.path [.name 0], [.name 1, .name 2]), (.unbound, [.name 3]), (.val (.pyBv .plain 8 200), [.name 4, .vec .py .plain 8])] := by
  simp [rebindBinding, demoBinding, rebindValue, mkBv, rebindElem]

example : ∀ x ∈ demoBinding, x.2 ≠ [] ∧ ∀ v, x.1 = .val v → v.Fits ∧ v.meaning ≠ none := by
  simp [demoBinding, HVal.Fits, HVal.meaning]

/-- C82: what a rebound binding contains is never an assembled value, so stripping assembled values from it changes nothing. -/
theorem C82_strip (b b' : List (Lhs × List Elem)) (f : Fam) (h : rebindBinding b f = .ok b') : stripAadt b' = b' := by
  have hall := C82_binding b b' f h
  clear h
  induction hall with
  | nil => rfl
  | @cons x y _ _ hx _ ih =>
    simp only [stripAadt, List.map_cons, List.cons.injEq] at ih ⊢
    refine ⟨?_, ih⟩
    obtain ⟨l, p⟩ := y
    obtain ⟨lx, px⟩ := x
    obtain ⟨h1, _⟩ := hx
    cases lx with
    | path q => simp only at h1; subst h1; rfl
    | unbound => simp only at h1; subst h1; rfl
    | val v =>
      obtain ⟨v', rfl, _, _, hp⟩ := h1
      cases v' <;> first | rfl | simp [HVal.PlainOf] at hp

/-- C82 does not hold of the class of a vector: a signed constant comes back as a plain one, even in its own family. -/
theorem C82_violated_class : ¬ ∀ v v' : HVal, v.Fits → v.meaning ≠ none → rebindValue v .smt = .ok v' → rebindValue v' .py = .ok v := by
  intro h
  have := h (.pyBv .signed 8 200) (.smtBv .plain 8 (.const 200)) (by simp [HVal.Fits]) (by simp [HVal.meaning]) (by simp [rebindValue, mkBv])
  simp [rebindValue, mkBv] at this

theorem magmafyCls_strip (t : PT) (s : Shape) (h : PT.Is t s) (hs : ∀ l, s ≠ .tuple l) :
    ∃ r, magmafyCls (strip t) = .ok r ∧ r.shape = s := by
  induction h with
  | adt i => exact ⟨_, rfl, rfl⟩
  | vec f s n => cases s <;> exact ⟨_, rfl, rfl⟩
  | bit f => exact ⟨_, rfl, rfl⟩
  | other i => exact ⟨_, rfl, rfl⟩
  | modified m t s _ _ ih => exact ih hs
  | nil => exact absurd rfl (hs _)
  | cons t s ts ss _ _ _ _ => exact absurd rfl (hs _)

/-- C83: the port type made from an annotation has the shape of the annotation: vectors keep signedness and width in whatever family they
are written, bits are bits, algebraic types become their assembled versions, modifiers disappear and tuples are treated element by
element. -/
theorem C83_ports (t : PT) (s : Shape) (h : PT.Is t s) : ∃ r, magmafy t = .ok r ∧ r.shape = s := by
  have aux : ∃ r, magmafy t = .ok r ∧ r.shape = s := by
    induction h with
    | adt i => exact ⟨.aadt i, by simp [magmafy, strip, magmafyCls], by simp [MT.shape]⟩
    | vec f s n => exact ⟨.vec s n, by cases s <;> simp [magmafy, strip, magmafyCls], by simp [MT.shape]⟩
    | bit f => exact ⟨.bit, by simp [magmafy, strip, magmafyCls], by simp [MT.shape]⟩
    | other i => exact ⟨.other i, by simp [magmafy, strip, magmafyCls], by simp [MT.shape]⟩
    | modified m t s h hs _ =>
      obtain ⟨r, h1, h2⟩ := magmafyCls_strip _ _ (PT.Is.modified m t s h hs) hs
      exact ⟨r, by rw [magmafy, h1], h2⟩
    | nil => exact ⟨.tuple [], by simp [magmafy, magmafyAll], by simp [MT.shape, MT.shapes]⟩
    | cons t s ts ss _ _ ih1 ih2 =>
      obtain ⟨r, h1, h2⟩ := ih1
      obtain ⟨rs, h3, h4⟩ := ih2
      simp only [magmafy] at h3
      split at h3
      · simp at h3
      · next l hl =>
        simp only [Except.ok.injEq] at h3
        subst h3
        refine ⟨.tuple (r :: l), by simp [magmafy, magmafyAll, h1, hl], ?_⟩
        simp only [MT.shape, Shape.tuple.injEq] at h4
        simp [MT.shape, MT.shapes, h2, h4]
  exact aux

/-- The return annotation of a PE with a signed and a constant vector, an instruction, and a nested pair. -/
example : PT.Is (.tuple [.vec 0 .signed 16, .modified 0 (.vec 1 .unsigned 8), .adt 3, .tuple [.bit 0]])
    (.tuple [.vec .signed 16, .vec .unsigned 8, .adt 3, .tuple [.bit]]) :=
  .cons _ _ _ _ (.vec _ _ _) (.cons _ _ _ _ (.modified _ _ _ (.vec _ _ _) (by simp)) (.cons _ _ _ _ (.adt _)
    (.cons _ _ _ _ (.cons _ _ _ _ (.bit _) .nil) .nil)))

/-- C20, constants: the functions generated for a constant encode and decode exactly that constant, and the width is its size. -/
theorem C20_const (c : CV) : (bvConst c).asm c = .ok (.val c) ∧ (bvConst c).dsm c = .ok (.val c) ∧
    (∀ x y, (bvConst c).asm x = .ok (.val y) → x = c ∧ y = c) ∧ (∀ x y, (bvConst c).dsm x = .ok (.val y) → x = c ∧ y = c) ∧
    (∀ s v, c = .bv s v → (bvConst c).width = s) ∧ (∀ b, c = .bit b → (bvConst c).width = 1) := by
  have key : ∀ x y : CV, (match cvNe x c with
      | .error e => Except.error e
      | .ok true => .ok (Ret.exc .valueError)
      | .ok false => .ok (.val x)) = .ok (.val y) → x = c ∧ y = c := by
    intro x y h
    cases x <;> cases c <;> simp only [cvNe] at h
    · next s v s' v' =>
      by_cases hs : s = s'
      · subst hs
        by_cases hv : v = v'
        · simp_all
        · simp [bne_iff_ne.2 hv] at h
      · simp [hs] at h
    · simp at h
    · simp at h
    · next b b' => cases b <;> cases b' <;> simp_all
  refine ⟨?_, ?_, key, key, ?_, ?_⟩
  · cases c <;> simp [bvConst, cvNe]
  · cases c <;> simp [bvConst, cvNe]
  · rintro s v rfl; rfl
  · rintro b rfl; rfl

/-- C20, constants: a value other than the constant is not refused: both functions return an exception object instead of raising it. -/
theorem C20_violated_const (c x : CV) (h : cvNe x c = .ok true) :
    (bvConst c).asm x = .ok (.exc .valueError) ∧ (bvConst c).dsm x = .ok (.exc .valueError) := by
  simp [bvConst, h]

example : cvNe (.bv 4 3) (.bv 4 5) = .ok true := by simp [cvNe]

end Peak.Conv
