import Verif.Model.Bindings
import Mathlib.Data.List.Nodup
import Mathlib.Data.List.Forall2
import Mathlib.Data.List.Perm.Basic
/-!
# Lemmas about `itertools.product` and `_sort_by_t`
-/

namespace Peak.Bnd

theorem mem_pyProduct {α : Type} (ls : List (List α)) (l : List α) :
    l ∈ pyProduct ls ↔ List.Forall₂ (fun x y => x ∈ y) l ls := by
  induction ls generalizing l with
  | nil => simp [pyProduct]
  | cons a ls ih =>
    simp only [pyProduct, List.mem_flatMap, List.mem_map]
    constructor
    · rintro ⟨x, hx, xs, hxs, rfl⟩
      exact .cons hx ((ih xs).mp hxs)
    · intro h
      cases h with
      | cons h1 h2 => exact ⟨_, h1, _, (ih _).mpr h2, rfl⟩

theorem pyProduct_nodup {α : Type} (ls : List (List α)) (h : ∀ l ∈ ls, l.Nodup) : (pyProduct ls).Nodup := by
  induction ls with
  | nil => simp [pyProduct]
  | cons a ls ih =>
    have ha := h a (by simp)
    have ih := ih (fun l hl => h l (by simp [hl]))
    simp only [pyProduct]
    rw [List.nodup_flatMap]
    refine ⟨fun x _ => ih.map (fun _ _ h => by cases h; rfl), ?_⟩
    refine ha.imp ?_
    intro x y hxy
    simp only [Function.onFun, List.disjoint_left, List.mem_map]
    rintro l ⟨xs, _, rfl⟩ ⟨ys, _, hy⟩
    cases hy
    exact hxy rfl

theorem addByT_lookup {P T : Type} [DecidableEq T] (t : T) (p : P) (acc : List (T × List P)) (s : T) :
    (addByT t p acc).lookup s = if s = t then some (((acc.lookup t).getD []) ++ [p]) else acc.lookup s := by
  induction acc with
  | nil =>
    by_cases h : s = t
    · subst h; simp [addByT]
    · simp [addByT, List.lookup, h, beq_eq_false_iff_ne.mpr h]
  | cons e acc ih =>
    obtain ⟨t', ps⟩ := e
    unfold addByT
    by_cases h1 : t = t'
    · subst h1
      by_cases h2 : s = t
      · subst h2; simp
      · simp [List.lookup, h2, beq_eq_false_iff_ne.mpr h2]
    · rw [if_neg h1]
      by_cases h2 : s = t'
      · subst h2
        have : s ≠ t := fun h => h1 h.symm
        simp [this]
      · simp only [List.lookup, beq_eq_false_iff_ne.mpr h2, beq_eq_false_iff_ne.mpr h1, ih]

theorem addByT_keys {P T : Type} [DecidableEq T] (t : T) (p : P) (acc : List (T × List P)) :
    (addByT t p acc).map (·.1) = if t ∈ acc.map (·.1) then acc.map (·.1) else acc.map (·.1) ++ [t] := by
  induction acc with
  | nil => simp [addByT]
  | cons e acc ih =>
    obtain ⟨t', ps⟩ := e
    unfold addByT
    by_cases h1 : t = t'
    · subst h1; simp
    · rw [if_neg h1]
      simp only [List.map_cons, ih, List.mem_cons, h1, false_or]
      split <;> simp

theorem addByT_flat {P T : Type} [DecidableEq T] (t : T) (p : P) (acc : List (T × List P)) :
    ((addByT t p acc).flatMap (·.2)).Perm (acc.flatMap (·.2) ++ [p]) := by
  induction acc with
  | nil => simp [addByT]
  | cons e acc ih =>
    obtain ⟨t', ps⟩ := e
    unfold addByT
    by_cases h1 : t = t'
    · subst h1
      rw [if_pos rfl]
      simp only [List.flatMap_cons, List.append_assoc]
      exact List.Perm.append_left _ List.perm_append_comm
    · rw [if_neg h1]
      simp only [List.flatMap_cons, List.append_assoc]
      exact List.Perm.append_left _ ih

/-- The state of `_sort_by_t` after each prefix. -/
theorem foldl_sort {P T : Type} [DecidableEq T] (l : List (P × T)) (acc : List (T × List P)) (hk : (acc.map (·.1)).Nodup) :
    (∀ s, (l.foldl (fun a e => addByT e.2 e.1 a) acc).lookup s =
      if s ∈ acc.map (·.1) ∨ s ∈ l.map (·.2) then
        some ((acc.lookup s).getD [] ++ (l.filter (fun e => e.2 = s)).map (·.1)) else none) ∧
    ((l.foldl (fun a e => addByT e.2 e.1 a) acc).map (·.1)).Nodup ∧
    ((l.foldl (fun a e => addByT e.2 e.1 a) acc).flatMap (·.2)).Perm (acc.flatMap (·.2) ++ l.map (·.1)) := by
  induction l generalizing acc with
  | nil =>
    refine ⟨fun s => ?_, hk, by simp⟩
    simp only [List.foldl_nil, List.map_nil, List.not_mem_nil, or_false, List.filter_nil, List.append_nil]
    have : acc.lookup s = none ↔ s ∉ acc.map (·.1) := by
      clear hk
      induction acc with
      | nil => simp
      | cons e acc ih =>
        obtain ⟨k, v⟩ := e
        by_cases h : s = k
        · subst h; simp
        · simp [List.lookup, beq_eq_false_iff_ne.mpr h, h]
          simpa using ih
    split
    · next h =>
      cases hl : acc.lookup s with
      | none => exact absurd h (this.mp hl)
      | some v => simp
    · next h => exact this.mpr h
  | cons e l ih =>
    obtain ⟨p, t⟩ := e
    have hk' : ((addByT t p acc).map (·.1)).Nodup := by
      rw [addByT_keys]
      split
      · exact hk
      · next h =>
        rw [List.nodup_append]
        refine ⟨hk, by simp, ?_⟩
        intro a ha b hb
        simp at hb
        subst hb
        intro hab; subst hab; exact h ha
    obtain ⟨h1, h2, h3⟩ := ih (addByT t p acc) hk'
    simp only [List.foldl_cons]
    refine ⟨fun s => ?_, h2, ?_⟩
    · rw [h1 s, addByT_lookup, addByT_keys]
      by_cases hs : s = t
      · subst hs
        have hmem : s ∈ (if s ∈ acc.map (·.1) then acc.map (·.1) else acc.map (·.1) ++ [s]) := by
          split
          · assumption
          · simp
        simp [hmem]
      · have hmem : s ∈ (if t ∈ acc.map (·.1) then acc.map (·.1) else acc.map (·.1) ++ [t]) ↔ s ∈ acc.map (·.1) := by
          split <;> simp [hs]
        have hs' : ¬ t = s := fun h => hs h.symm
        simp only [hmem, if_neg hs, List.map_cons, List.mem_cons, hs, false_or, List.filter_cons, decide_eq_true_eq, hs', if_false]
    · refine h3.trans ?_
      refine ((addByT_flat t p acc).append_right _).trans ?_
      simp

theorem sortByT_lookup {P T : Type} [DecidableEq T] (l : List (P × T)) (s : T) :
    (sortByT l).lookup s = if s ∈ l.map (·.2) then some ((l.filter (fun e => e.2 = s)).map (·.1)) else none := by
  rw [sortByT, (foldl_sort l [] (by simp)).1 s]
  exact if_congr (by simp) (by simp) rfl

theorem sortByT_keys_nodup {P T : Type} [DecidableEq T] (l : List (P × T)) : ((sortByT l).map (·.1)).Nodup :=
  (foldl_sort l [] (by simp)).2.1

theorem sortByT_flat {P T : Type} [DecidableEq T] (l : List (P × T)) :
    ((sortByT l).flatMap (·.2)).Perm (l.map (·.1)) := by
  have := (foldl_sort l [] (by simp)).2.2
  simpa [sortByT] using this

theorem lookup_of_mem {α β : Type} [DecidableEq α] (l : List (α × β)) (h : (l.map (·.1)).Nodup) (e : α × β) (he : e ∈ l) :
    l.lookup e.1 = some e.2 := by
  induction l with
  | nil => simp at he
  | cons x l ih =>
    obtain ⟨k, v⟩ := x
    rcases List.mem_cons.mp he with rfl | he'
    · simp
    · have hne : e.1 ≠ k := by
        rintro rfl
        simp only [List.map_cons, List.nodup_cons] at h
        exact h.1 (List.mem_map_of_mem he')
      simp only [List.lookup, beq_eq_false_iff_ne.mpr hne]
      exact ih (by simp at h; simpa using h.2) he'

theorem mem_of_lookup {α β : Type} [DecidableEq α] (l : List (α × β)) (a : α) (b : β) (h : l.lookup a = some b) : (a, b) ∈ l := by
  induction l with
  | nil => simp at h
  | cons x l ih =>
    obtain ⟨k, v⟩ := x
    by_cases hk : a = k
    · subst hk; simp at h; simp [h]
    · simp only [List.lookup, beq_eq_false_iff_ne.mpr hk] at h
      exact List.mem_cons_of_mem _ (ih h)

/-- Each entry of `_sort_by_t` lists exactly the paths of its type, and that list is not empty. -/
theorem mem_sortByT {P T : Type} [DecidableEq T] (l : List (P × T)) (e : T × List P) (he : e ∈ sortByT l) :
    e.2 = (l.filter (fun x => x.2 = e.1)).map (·.1) ∧ e.1 ∈ l.map (·.2) := by
  have h := lookup_of_mem _ (sortByT_keys_nodup l) e he
  rw [sortByT_lookup] at h
  split at h
  · next hm => exact ⟨by simpa using h.symm, hm⟩
  · cases h

theorem mem_keys_sortByT {P T : Type} [DecidableEq T] (l : List (P × T)) (s : T) :
    s ∈ (sortByT l).map (·.1) ↔ s ∈ l.map (·.2) := by
  constructor
  · intro h
    obtain ⟨e, he, rfl⟩ := List.mem_map.mp h
    exact (mem_sortByT l e he).2
  · intro h
    have := sortByT_lookup l s
    rw [if_pos h] at this
    exact List.mem_map.mpr ⟨_, mem_of_lookup _ _ _ this, rfl⟩

theorem flatten_inj {α : Type} (l1 l2 : List (List α)) (hl : List.Forall₂ (fun a b => a.length = b.length) l1 l2)
    (h : l1.flatten = l2.flatten) : l1 = l2 := by
  induction hl with
  | nil => rfl
  | cons hab _ ih =>
    simp only [List.flatten_cons] at h
    obtain ⟨rfl, h2⟩ := List.append_inj h hab
    rw [ih h2]

end Peak.Bnd
