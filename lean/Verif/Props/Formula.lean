import Verif.Model.Formula
/-!
# C31: formula constructors
-/

namespace Peak

/-- Specification: what it means for a formula tree to be true under an assignment of the atoms. -/
def FItem.Holds (ρ : Nat → Bool) : FItem → Prop
  | .bit e => e.eval ρ = true
  | .all vs => ∀ v, (h : v ∈ vs) → v.Holds ρ
  | .any vs => ∃ v, ∃ h : v ∈ vs, v.Holds ρ
  | .implies p q => p.Holds ρ → q.Holds ρ
  | .other => False
termination_by f => sizeOf f
decreasing_by
  all_goals first | (have := List.sizeOf_lt_of_mem h; simp; omega) | (simp; omega)

/-- The formulas a program can build: Bit expressions, and the results of constructor calls on such formulas. -/
inductive Built : FItem → Prop
  | bit (e : BitExpr) : Built (.bit e)
  | and (vs : List FItem) (f : FItem) : (∀ v ∈ vs, Built v) → mkAnd vs = .ok f → Built f
  | or (vs : List FItem) (f : FItem) : (∀ v ∈ vs, Built v) → mkOr vs = .ok f → Built f
  | implies (p q f : FItem) : Built p → Built q → mkImplies p q = .ok f → Built f

namespace Fml

theorem fcheck_ok {vs : List FItem} {u : Unit} (h : fcheck vs = .ok u) : vs ≠ [] := by
  rintro rfl
  simp [fcheck] at h

theorem mkAnd_ok {vs : List FItem} {f : FItem} (h : mkAnd vs = .ok f) : f = .all vs ∧ vs ≠ [] := by
  unfold mkAnd at h
  split at h
  · cases h
  · next hc => cases h; exact ⟨rfl, fcheck_ok hc⟩

theorem mkOr_ok {vs : List FItem} {f : FItem} (h : mkOr vs = .ok f) : f = .any vs ∧ vs ≠ [] := by
  unfold mkOr at h
  split at h
  · cases h
  · next hc => cases h; exact ⟨rfl, fcheck_ok hc⟩

theorem mkImplies_ok {p q f : FItem} (h : mkImplies p q = .ok f) : f = .implies p q := by
  unfold mkImplies at h
  split at h
  · cases h
  · cases h; rfl

theorem toHwAll_ok (vs : List FItem) (h : ∀ v ∈ vs, ∃ e, v.toHw = .ok e) :
    ∃ es, FItem.toHwAll vs = .ok es ∧ es.length = vs.length ∧
      (∀ v ∈ vs, ∃ e ∈ es, v.toHw = .ok e) ∧ (∀ e ∈ es, ∃ v ∈ vs, v.toHw = .ok e) := by
  induction vs with
  | nil => exact ⟨[], rfl, rfl, by simp, by simp⟩
  | cons v vs ih =>
    obtain ⟨e, he⟩ := h v (by simp)
    obtain ⟨es, h1, h2, h3, h4⟩ := ih (fun w hw => h w (by simp [hw]))
    refine ⟨e :: es, by simp [FItem.toHwAll, he, h1], by simp [h2], ?_, ?_⟩
    · intro w hw
      rcases List.mem_cons.mp hw with rfl | hw
      · exact ⟨e, by simp, he⟩
      · obtain ⟨e', h5, h6⟩ := h3 w hw
        exact ⟨e', by simp [h5], h6⟩
    · intro e' he'
      rcases List.mem_cons.mp he' with rfl | he'
      · exact ⟨v, by simp, he⟩
      · obtain ⟨w, h5, h6⟩ := h4 e' he'
        exact ⟨w, by simp [h5], h6⟩

theorem foldl_and (ρ : Nat → Bool) (es : List BitExpr) (e : BitExpr) :
    (es.foldl BitExpr.and e).eval ρ = true ↔ e.eval ρ = true ∧ ∀ x ∈ es, x.eval ρ = true := by
  induction es generalizing e with
  | nil => simp
  | cons x es ih => simp [ih, BitExpr.eval, and_assoc]

theorem foldl_or (ρ : Nat → Bool) (es : List BitExpr) (e : BitExpr) :
    (es.foldl BitExpr.or e).eval ρ = true ↔ e.eval ρ = true ∨ ∃ x ∈ es, x.eval ρ = true := by
  induction es generalizing e with
  | nil => simp
  | cons x es ih => simp [ih, BitExpr.eval, or_assoc]

end Fml

/-- C31: every formula a program can build renders to a Bit expression, and for every assignment that expression evaluates to true
exactly when the formula is true. -/
theorem C31_render (f : FItem) (hf : Built f) :
    ∃ e, f.toHw = .ok e ∧ ∀ ρ, e.eval ρ = true ↔ f.Holds ρ := by
  induction hf with
  | bit e => exact ⟨e, rfl, fun ρ => by simp [FItem.Holds]⟩
  | and vs f _ hmk ih =>
    obtain ⟨rfl, hne⟩ := Fml.mkAnd_ok hmk
    obtain ⟨es, h1, h2, h3, h4⟩ := Fml.toHwAll_ok vs (fun v hv => (ih v hv).imp fun _ h => h.1)
    cases es with
    | nil => exact absurd (List.length_eq_zero_iff.mp h2.symm) hne
    | cons x es =>
      refine ⟨es.foldl .and x, by simp [FItem.toHw, h1, pyReduce], fun ρ => ?_⟩
      rw [Fml.foldl_and, FItem.Holds]
      have key : (x.eval ρ = true ∧ ∀ y ∈ es, y.eval ρ = true) ↔ ∀ y ∈ x :: es, y.eval ρ = true := by simp
      rw [key]
      constructor
      · intro h v hv
        obtain ⟨e, he, hve⟩ := h3 v hv
        obtain ⟨e', he', hev⟩ := ih v hv
        rw [hve] at he'; cases he'
        exact (hev ρ).mp (h e he)
      · intro h e he
        obtain ⟨v, hv, hve⟩ := h4 e he
        obtain ⟨e', he', hev⟩ := ih v hv
        rw [hve] at he'; cases he'
        exact (hev ρ).mpr (h v hv)
  | or vs f _ hmk ih =>
    obtain ⟨rfl, hne⟩ := Fml.mkOr_ok hmk
    obtain ⟨es, h1, h2, h3, h4⟩ := Fml.toHwAll_ok vs (fun v hv => (ih v hv).imp fun _ h => h.1)
    cases es with
    | nil => exact absurd (List.length_eq_zero_iff.mp h2.symm) hne
    | cons x es =>
      refine ⟨es.foldl .or x, by simp [FItem.toHw, h1, pyReduce], fun ρ => ?_⟩
      rw [Fml.foldl_or, FItem.Holds]
      have key : (x.eval ρ = true ∨ ∃ y ∈ es, y.eval ρ = true) ↔ ∃ y ∈ x :: es, y.eval ρ = true := by simp
      rw [key]
      constructor
      · rintro ⟨e, he, h⟩
        obtain ⟨v, hv, hve⟩ := h4 e he
        obtain ⟨e', he', hev⟩ := ih v hv
        rw [hve] at he'; cases he'
        exact ⟨v, hv, (hev ρ).mp h⟩
      · rintro ⟨v, hv, h⟩
        obtain ⟨e, he, hve⟩ := h3 v hv
        obtain ⟨e', he', hev⟩ := ih v hv
        rw [hve] at he'; cases he'
        exact ⟨e, he, (hev ρ).mpr h⟩
  | implies p q f _ _ hmk ihp ihq =>
    have := Fml.mkImplies_ok hmk
    subst this
    obtain ⟨e1, h1, h2⟩ := ihp
    obtain ⟨e2, h3, h4⟩ := ihq
    refine ⟨.or (.not e1) e2, by simp [FItem.toHw, h1, h3], fun ρ => ?_⟩
    rw [FItem.Holds]
    simp only [BitExpr.eval, Bool.or_eq_true, Bool.not_eq_true']
    rw [← h2 ρ, ← h4 ρ]
    cases e1.eval ρ <;> simp

/-- C31: what the constructors accept and reject: an empty list, or an operand that is neither a formula nor a Bit, is an AssertionError;
everything else is accepted and denotes the conjunction, disjunction or implication of the operands. -/
theorem C31_construct (vs : List FItem) (p q : FItem) :
    (mkAnd vs = .error .assertionError ↔ vs = [] ∨ FItem.other ∈ vs) ∧
    (mkOr vs = .error .assertionError ↔ vs = [] ∨ FItem.other ∈ vs) ∧
    (mkImplies p q = .error .assertionError ↔ p = .other ∨ q = .other) ∧
    (∀ f, mkAnd vs = .ok f → ∀ ρ, f.Holds ρ ↔ ∀ v ∈ vs, v.Holds ρ) ∧
    (∀ f, mkOr vs = .ok f → ∀ ρ, f.Holds ρ ↔ ∃ v ∈ vs, v.Holds ρ) ∧
    (∀ f, mkImplies p q = .ok f → ∀ ρ, f.Holds ρ ↔ (p.Holds ρ → q.Holds ρ)) := by
  have hok : ∀ v : FItem, v.ok = false ↔ v = .other := by intro v; cases v <;> simp [FItem.ok]
  have hc : ∀ vs : List FItem, (fcheck vs = .error .assertionError ↔ vs = [] ∨ FItem.other ∈ vs) ∧
      (fcheck vs = .ok () ↔ ¬ (vs = [] ∨ FItem.other ∈ vs)) := by
    intro vs
    have : (vs.length > 0 ∧ vs.all FItem.ok = true) ↔ ¬ (vs = [] ∨ FItem.other ∈ vs) := by
      rw [not_or]
      refine and_congr (by cases vs <;> simp) ?_
      rw [List.all_eq_true]
      constructor
      · intro h hm
        have := h _ hm
        simp [FItem.ok] at this
      · intro h v hv
        cases hv' : v.ok with
        | true => rfl
        | false => rw [(hok v).mp hv'] at hv; exact absurd hv h
    unfold fcheck
    by_cases h : vs.length > 0 ∧ vs.all FItem.ok = true
    · rw [if_pos h]
      have h' := this.mp h
      exact ⟨⟨fun h => by simp at h, fun h => absurd h h'⟩, ⟨fun _ => h', fun _ => rfl⟩⟩
    · rw [if_neg h]
      have h' : vs = [] ∨ FItem.other ∈ vs := Classical.not_not.mp (fun hh => h (this.mpr hh))
      exact ⟨⟨fun _ => h', fun _ => rfl⟩, ⟨fun h => by simp at h, fun hh => absurd h' hh⟩⟩
  refine ⟨?_, ?_, ?_, ?_, ?_, ?_⟩
  · rw [← (hc vs).1]
    unfold mkAnd
    cases h : fcheck vs <;> simp
  · rw [← (hc vs).1]
    unfold mkOr
    cases h : fcheck vs <;> simp
  · have := (hc [p, q]).1
    have h2 : ([p, q] = [] ∨ FItem.other ∈ [p, q]) ↔ (p = .other ∨ q = .other) := by
      simp only [List.mem_cons, List.not_mem_nil, or_false, reduceCtorEq, false_or]
      exact or_congr eq_comm eq_comm
    rw [← h2, ← this]
    unfold mkImplies
    cases h : fcheck [p, q] <;> simp
  · intro f h ρ
    obtain ⟨rfl, _⟩ := Fml.mkAnd_ok h
    rw [FItem.Holds]
  · intro f h ρ
    obtain ⟨rfl, _⟩ := Fml.mkOr_ok h
    rw [FItem.Holds]
    exact ⟨fun ⟨v, h1, h2⟩ => ⟨v, h1, h2⟩, fun ⟨v, h1, h2⟩ => ⟨v, h1, h2⟩⟩
  · intro f h ρ
    have := Fml.mkImplies_ok h
    subst this
    rw [FItem.Holds]

/-- `Implies(Or([a0, a1]), And([a2, ~a0]))` is built and rendered as expected. -/
example : Built (.implies (.any [.bit (.atom 0), .bit (.atom 1)]) (.all [.bit (.atom 2), .bit (.not (.atom 0))])) ∧
    FItem.toHw (.implies (.any [.bit (.atom 0), .bit (.atom 1)]) (.all [.bit (.atom 2), .bit (.not (.atom 0))])) =
      .ok (.or (.not (.or (.atom 0) (.atom 1))) (.and (.atom 2) (.not (.atom 0)))) := by
  refine ⟨.implies _ _ _ (.or [.bit (.atom 0), .bit (.atom 1)] _ ?_ rfl) (.and [.bit (.atom 2), .bit (.not (.atom 0))] _ ?_ rfl) rfl, rfl⟩
  · intro v hv; simp at hv; rcases hv with rfl | rfl <;> exact .bit _
  · intro v hv; simp at hv; rcases hv with rfl | rfl <;> exact .bit _

end Peak
