import Verif.Spec.Multi
import Verif.Props.IndexVar
/-! # Lemmas for C54 -/

namespace Peak.Mu

variable {F T V : Type} [DecidableEq F]

theorem muMap_ok {α β : Type} (f : α → Except Err β) (g : α → β) : ∀ l, (∀ x ∈ l, f x = .ok (g x)) → muMap f l = .ok (l.map g)
  | [], _ => rfl
  | x :: xs, h => by
    unfold muMap
    rw [h x List.mem_cons_self]
    simp only [muMap_ok f g xs (fun y hy => h y (List.mem_cons_of_mem _ hy))]
    rfl

/-- The disjunction over an index variable. -/
theorem bindOr_spec (enc : IEnc) (var : Nat) (sel : List (List Bool)) (hn : sel ≠ []) :
    ∃ r, bindOr enc sel.length var sel = .ok r ∧
      (r = true ↔ ∃ i l, sel[i]? = some l ∧ enc.matchIndex sel.length (BV.ofNat (enc.varLen sel.length) var) (i : Nat) = .ok true ∧ ∀ b ∈ l, b = true) := by
  have hm : ∀ i : Nat, i < sel.length → ∃ m, enc.matchIndex sel.length (BV.ofNat (enc.varLen sel.length) var) i = .ok m := by
    intro i hi
    exact (C30_out_of_range enc sel.length _ i).2.mpr ⟨by omega, by omega⟩
  let g : List Bool × Nat → Bool := fun e =>
    match enc.matchIndex sel.length (BV.ofNat (enc.varLen sel.length) var) e.2 with
    | .ok m => m && e.1.all id
    | .error _ => false
  have hmap : muMap (bindCond enc sel.length var) sel.zipIdx = .ok (sel.zipIdx.map g) := by
    apply muMap_ok
    intro e he
    have hlt : e.2 < sel.length := by
      have := List.mem_zipIdx he
      omega
    obtain ⟨m, h⟩ := hm e.2 hlt
    simp only [g, bindCond, h, fAnd]
    simp
  refine ⟨(sel.zipIdx.map g).any id, ?_, ?_⟩
  · unfold bindOr
    rw [hmap]
    simp only [fOr]
    rw [if_neg]
    simp [hn]
  · simp only [List.any_eq_true, List.mem_map, id, exists_exists_and_eq_and]
    constructor
    · rintro ⟨e, he, hg⟩
      have hz := List.mem_zipIdx he
      obtain ⟨m, h⟩ := hm e.2 (by omega)
      simp only [g, h, Bool.and_eq_true, List.all_eq_true, id] at hg
      refine ⟨e.2, e.1, ?_, ?_, hg.2⟩
      · have := List.mem_zipIdx_iff_getElem?.mp he
        exact this
      · rw [h, hg.1]
    · rintro ⟨i, l, hl, h, hb⟩
      refine ⟨(l, i), List.mem_zipIdx_iff_getElem?.mpr hl, ?_⟩
      simp only [g, h, Bool.true_and, List.all_eq_true, id]
      exact hb

theorem exec_gen (arch : (F → V) → F → V) (c : F) (x : F → V) (u : Nat → F → V) : ∀ (prog : List (MBdg F × V)) (outs : List (F → V)),
    (∃ tail, execMulti arch c x u prog outs = outs ++ tail ∧ tail.length = prog.length) ∧
    ∀ (i : Nat) (p : MBdg F × V), prog[i]? = some p → (execMulti arch c x u prog outs)[outs.length + i]? =
      some (arch (blockIn c x (u (outs.length + i)) ((execMulti arch c x u prog outs).take (outs.length + i)) (outs.length + i) p.1 p.2))
  | [], outs => ⟨⟨[], by simp [execMulti], rfl⟩, by simp⟩
  | (b, v) :: rest, outs => by
    obtain ⟨⟨tail, ht, hl⟩, h2⟩ := exec_gen arch c x u rest (outs ++ [arch (blockIn c x (u outs.length) outs outs.length b v)])
    have hrun : execMulti arch c x u ((b, v) :: rest) outs =
        execMulti arch c x u rest (outs ++ [arch (blockIn c x (u outs.length) outs outs.length b v)]) := rfl
    rw [hrun]
    refine ⟨⟨_ :: tail, by rw [ht, List.append_assoc]; rfl, by simp [hl]⟩, ?_⟩
    intro i p hp
    cases i with
    | zero =>
      simp only [List.getElem?_cons_zero, Option.some.injEq] at hp
      subst hp
      rw [ht]
      simp
    | succ i =>
      have := h2 i p hp
      rw [List.length_append, List.length_singleton, Nat.add_assoc, Nat.add_comm 1 i] at this
      exact this

/-- The wires of instruction `i` only read IR inputs and earlier instructions. -/
structure Wires (irIn archOut archIn : List (F × T)) (i : Nat) (b : MBdg F) : Prop where
  targets : b.map (·.2) = archIn.map (fun e => MPath.archIn i e.1)
  src : ∀ e ∈ b, ∃ f t, (f, t) ∈ archIn ∧ e.2 = .archIn i f ∧ ∀ s, e.1 = some s →
    (∃ g, s = .irIn g ∧ (g, t) ∈ irIn) ∨ ∃ j g, j < i ∧ s = .archOut j g ∧ (g, t) ∈ archOut

theorem wires_of {irIn archOut archIn : List (F × T)} {n : Nat} {bs : List (MBdg F)} (h : IsMulti irIn archOut archIn n bs) (i : Nat) (b : MBdg F)
    (hb : bs[i]? = some b) : Wires irIn archOut archIn i b := by
  obtain ⟨h1, h2⟩ := h.block i b hb
  refine ⟨h1, ?_⟩
  intro e he
  obtain ⟨k, hk, rfl⟩ := List.mem_iff_getElem.mp he
  have hlen : b.length = archIn.length := by have := congrArg List.length h1; simpa using this
  have hk' : k < archIn.length := by omega
  have ht : (b.map (·.2))[k]'(by simpa using hk) = (archIn.map (fun e => MPath.archIn i e.1))[k]'(by simpa using hk') := by
    simp only [h1]
  simp only [List.getElem_map] at ht
  refine ⟨archIn[k].1, archIn[k].2, List.getElem_mem hk', ht, ?_⟩
  intro s hs
  obtain ⟨f, t, hft, h⟩ := h2 k b[k] (List.getElem?_eq_getElem hk) s hs
  rw [List.getElem?_eq_getElem hk'] at hft
  have hft' : archIn[k] = (f, t) := Option.some.inj hft
  rw [hft']
  exact h

theorem find_unique {α β : Type} [DecidableEq β] : ∀ (b : List (α × β)), (b.map (·.2)).Nodup → ∀ e ∈ b, b.find? (fun x => x.2 == e.2) = some e
  | [], _, e, he => by cases he
  | y :: b, hn, e, he => by
    rw [List.map_cons, List.nodup_cons] at hn
    rw [List.find?_cons]
    rcases List.mem_cons.mp he with rfl | he'
    · simp
    · have hne : ¬ y.2 = e.2 := fun h => hn.1 (h ▸ List.mem_map_of_mem (f := (·.2)) he')
      rw [beq_eq_false_iff_ne.mpr hne]
      exact find_unique b hn.2 e he'

omit [DecidableEq F] in
theorem targets_nodup {irIn archOut archIn : List (F × T)} {i : Nat} {b : MBdg F} (h : Wires irIn archOut archIn i b) (hn : (archIn.map (·.1)).Nodup) :
    (b.map (·.2)).Nodup := by
  rw [h.targets]
  have := hn.map (f := MPath.archIn i) (fun _ _ h => by cases h; rfl)
  simpa [Function.comp_def] using this

theorem blockIn_congr {irIn archOut archIn : List (F × T)} {i : Nat} {b : MBdg F} (h : Wires irIn archOut archIn i b) (c : F) (x u : F → V)
    (o o' : List (F → V)) (v : V) (ho : ∀ j, j < i → o[j]? = o'[j]?) : blockIn c x u o i b v = blockIn c x u o' i b v := by
  funext f
  unfold blockIn
  by_cases hc : f = c
  · rw [if_pos hc, if_pos hc]
  · rw [if_neg hc, if_neg hc]
    cases hf : b.find? (fun e => e.2 == .archIn i f) with
    | none => rfl
    | some e =>
      obtain ⟨s, p⟩ := e
      cases s with
      | none => rfl
      | some s =>
        obtain ⟨f', t, _, _, hs⟩ := h.src _ (List.mem_of_find?_eq_some hf)
        rcases hs s rfl with ⟨g, rfl, _⟩ | ⟨j, g, hj, rfl, _⟩
        · rfl
        · simp only [ho j hj]

/-- What the run of a legal program satisfies. -/
theorem exec_spec {irIn archOut archIn : List (F × T)} {n : Nat} (arch : (F → V) → F → V) (c : F) (x : F → V) (u : Nat → F → V)
    (prog : List (MBdg F × V)) (hw : IsMulti irIn archOut archIn n (prog.map (·.1))) :
    (execMulti arch c x u prog []).length = prog.length ∧
    ∀ (i : Nat) (p : MBdg F × V), prog[i]? = some p →
      (execMulti arch c x u prog [])[i]? = some (arch (blockIn c x (u i) (execMulti arch c x u prog []) i p.1 p.2)) := by
  obtain ⟨⟨tail, ht, hl⟩, h⟩ := exec_gen arch c x u prog []
  refine ⟨by rw [ht]; simpa using hl, ?_⟩
  intro i p hp
  have h1 := h i p hp
  simp only [List.length_nil, Nat.zero_add] at h1
  rw [h1]
  have hwi := wires_of hw i p.1 (by rw [List.getElem?_map, hp]; rfl)
  rw [blockIn_congr hwi c x (u i) _ (execMulti arch c x u prog []) p.2]
  intro j hj
  rw [List.getElem?_take, if_pos hj]

end Peak.Mu
