import Verif.Spec.Rewriter
/-!
# Lemmas for C60
-/

namespace Peak.Rw

variable {C : Comps} {Γ : Sig} {P : Nat → Bool}

theorem bind_ok {α β : Type} {x : Except Err α} {f : α → Except Err β} {b : β} (h : (x >>= f) = .ok b) : ∃ a, x = .ok a ∧ f a = .ok b := by
  cases x with
  | error e => cases h
  | ok a => exact ⟨a, rfl, h⟩

/-- Python's state is the state of the rewritten code, as far as it is defined. -/
def Rel (fr g : Frame) : Prop :=
  fr.attrs = g.attrs ∧ (∀ (x : Nat) (v : V), fr.vars[x]? = some (some v) → g.vars[x]? = some (some v)) ∧ fr.vars.length = g.vars.length

theorem Rel.refl (fr : Frame) : Rel fr fr := ⟨rfl, fun _ _ h => h, rfl⟩

theorem Rel.trans {a b c : Frame} (h1 : Rel a b) (h2 : Rel b c) : Rel a c :=
  ⟨h1.1.trans h2.1, fun x v h => h2.2.1 x v (h1.2.1 x v h), h1.2.2.trans h2.2.2⟩

theorem getVar_ok {fr : Frame} {x : Nat} {v : V} (h : fr.getVar x = .ok v) : fr.vars[x]? = some (some v) := by
  unfold Frame.getVar at h
  split at h
  · next hx => cases h; exact hx
  · cases h

theorem getAttr_ok {fr : Frame} {a : Nat} {v : V} (h : fr.getAttr a = .ok v) : fr.attrs[a]? = some v := by
  unfold Frame.getAttr at h
  split at h
  · next hx => cases h; exact hx
  · cases h

theorem Rel.getVar {fr g : Frame} (h : Rel fr g) {x : Nat} {v w : V} (h1 : fr.getVar x = .ok v) (h2 : g.getVar x = .ok w) : v = w := by
  have e1 := h.2.1 x v (getVar_ok h1)
  rw [getVar_ok h2] at e1
  cases e1; rfl

theorem Rel.setVar {fr g : Frame} (h : Rel fr g) (x : Nat) (v : V) : Rel (fr.setVar x v) (g.setVar x v) := by
  refine ⟨h.1, fun y w hy => ?_, by simpa [Frame.setVar] using h.2.2⟩
  simp only [Frame.setVar, List.getElem?_set] at hy ⊢
  by_cases hxy : x = y
  · subst hxy
    rw [if_pos rfl] at hy ⊢
    by_cases hlt : x < fr.vars.length
    · rw [if_pos hlt] at hy; rw [if_pos (h.2.2 ▸ hlt)]; exact hy
    · rw [if_neg hlt] at hy; cases hy
  · rw [if_neg hxy] at hy ⊢; exact h.2.1 y w hy

theorem Rel.setAttr {fr g : Frame} (h : Rel fr g) (a : Nat) (v : V) : Rel (fr.setAttr a v) (g.setAttr a v) :=
  ⟨by show fr.attrs.set a v = g.attrs.set a v; rw [h.1], h.2.1, h.2.2⟩

/-! ## Components are not touched by code without calls -/

theorem callComp_stateless (hP : C.Stateless P) {i : Nat} (hi : P i = true) {v r : V} {ss ss' : List V} (h : callComp C i v ss = .ok (r, ss')) : ss' = ss := by
  unfold callComp at h
  split at h
  · cases h
  · rename_i s hs
    obtain ⟨⟨q, s'⟩, h1, h⟩ := bind_ok h
    cases h
    have := hP i hi _ _ _ _ h1
    subst this
    exact List.ext_getElem? (fun j => by
      rw [List.getElem?_set]
      split
      · rename_i hij
        subst hij
        split
        · exact hs.symm
        · rename_i hlt; exact absurd (List.getElem?_eq_some_iff.mp hs).1 hlt
      · rfl)

theorem rwEval_pure (hP : C.Stateless P) : ∀ (e : Ex) {fr : Frame} {ss : List V} {v : V} {ss' : List V}, e.pure P = true → rwEval C e fr ss = .ok (v, ss') → ss' = ss := by
  intro e
  induction e with
  | var x => intro fr ss v ss' _ h; obtain ⟨a, _, h⟩ := bind_ok h; cases h; rfl
  | attr a => intro fr ss v ss' _ h; obtain ⟨a, _, h⟩ := bind_ok h; cases h; rfl
  | lit w => intro fr ss v ss' _ h; cases h; rfl
  | op1 f e ih =>
    intro fr ss v ss' hp h
    obtain ⟨⟨a, s1⟩, h1, h⟩ := bind_ok h
    obtain ⟨b, _, h⟩ := bind_ok h
    cases h; exact ih hp h1
  | not e ih =>
    intro fr ss v ss' hp h
    obtain ⟨⟨a, s1⟩, h1, h⟩ := bind_ok h
    obtain ⟨b, _, h⟩ := bind_ok h
    cases h; exact ih hp h1
  | op2 f e1 e2 ih1 ih2 =>
    intro fr ss v ss' hp h
    simp only [Ex.pure, Bool.and_eq_true] at hp
    obtain ⟨⟨a, s1⟩, h1, h⟩ := bind_ok h
    obtain ⟨⟨b, s2⟩, h2, h⟩ := bind_ok h
    obtain ⟨c, _, h⟩ := bind_ok h
    cases h
    rw [ih2 hp.2 h2, ih1 hp.1 h1]
  | and e1 e2 ih1 ih2 =>
    intro fr ss v ss' hp h
    simp only [Ex.pure, Bool.and_eq_true] at hp
    obtain ⟨⟨a, s1⟩, h1, h⟩ := bind_ok h
    obtain ⟨⟨b, s2⟩, h2, h⟩ := bind_ok h
    obtain ⟨c, _, h⟩ := bind_ok h
    cases h
    rw [ih2 hp.2 h2, ih1 hp.1 h1]
  | or e1 e2 ih1 ih2 =>
    intro fr ss v ss' hp h
    simp only [Ex.pure, Bool.and_eq_true] at hp
    obtain ⟨⟨a, s1⟩, h1, h⟩ := bind_ok h
    obtain ⟨⟨b, s2⟩, h2, h⟩ := bind_ok h
    obtain ⟨c, _, h⟩ := bind_ok h
    cases h
    rw [ih2 hp.2 h2, ih1 hp.1 h1]
  | sub i e ih =>
    intro fr ss v ss' hp h
    simp only [Ex.pure, Bool.and_eq_true] at hp
    obtain ⟨⟨a, s1⟩, h1, h⟩ := bind_ok h
    rw [callComp_stateless hP hp.1 h, ih hp.2 h1]
  | cond c t f ihc iht ihf =>
    intro fr ss v ss' hp h
    simp only [Ex.pure, Bool.and_eq_true] at hp
    obtain ⟨⟨a, s1⟩, h1, h⟩ := bind_ok h
    obtain ⟨⟨b, s2⟩, h2, h⟩ := bind_ok h
    obtain ⟨⟨d, s3⟩, h3, h⟩ := bind_ok h
    obtain ⟨q, _, h⟩ := bind_ok h
    cases h
    rw [ihf hp.2 h3, iht hp.1.2 h2, ihc hp.1.1 h1]

theorem pyEval_pure (hP : C.Stateless P) : ∀ (e : Ex) {fr : Frame} {ss : List V} {v : V} {ss' : List V}, e.pure P = true → pyEval C e fr ss = .ok (v, ss') → ss' = ss := by
  intro e
  induction e with
  | var x => intro fr ss v ss' _ h; obtain ⟨a, _, h⟩ := bind_ok h; cases h; rfl
  | attr a => intro fr ss v ss' _ h; obtain ⟨a, _, h⟩ := bind_ok h; cases h; rfl
  | lit w => intro fr ss v ss' _ h; cases h; rfl
  | op1 f e ih =>
    intro fr ss v ss' hp h
    obtain ⟨⟨a, s1⟩, h1, h⟩ := bind_ok h
    obtain ⟨b, _, h⟩ := bind_ok h
    cases h; exact ih hp h1
  | not e ih =>
    intro fr ss v ss' hp h
    obtain ⟨⟨a, s1⟩, h1, h⟩ := bind_ok h
    cases h; exact ih hp h1
  | op2 f e1 e2 ih1 ih2 =>
    intro fr ss v ss' hp h
    simp only [Ex.pure, Bool.and_eq_true] at hp
    obtain ⟨⟨a, s1⟩, h1, h⟩ := bind_ok h
    obtain ⟨⟨b, s2⟩, h2, h⟩ := bind_ok h
    obtain ⟨c, _, h⟩ := bind_ok h
    cases h
    rw [ih2 hp.2 h2, ih1 hp.1 h1]
  | and e1 e2 ih1 ih2 =>
    intro fr ss v ss' hp h
    simp only [Ex.pure, Bool.and_eq_true] at hp
    obtain ⟨⟨a, s1⟩, h1, h⟩ := bind_ok h
    dsimp only at h
    split at h
    · rw [ih2 hp.2 h, ih1 hp.1 h1]
    · cases h; exact ih1 hp.1 h1
  | or e1 e2 ih1 ih2 =>
    intro fr ss v ss' hp h
    simp only [Ex.pure, Bool.and_eq_true] at hp
    obtain ⟨⟨a, s1⟩, h1, h⟩ := bind_ok h
    dsimp only at h
    split at h
    · cases h; exact ih1 hp.1 h1
    · rw [ih2 hp.2 h, ih1 hp.1 h1]
  | sub i e ih =>
    intro fr ss v ss' hp h
    simp only [Ex.pure, Bool.and_eq_true] at hp
    obtain ⟨⟨a, s1⟩, h1, h⟩ := bind_ok h
    rw [callComp_stateless hP hp.1 h, ih hp.2 h1]
  | cond c t f ihc iht ihf =>
    intro fr ss v ss' hp h
    simp only [Ex.pure, Bool.and_eq_true] at hp
    obtain ⟨⟨a, s1⟩, h1, h⟩ := bind_ok h
    dsimp only at h
    split at h
    · rw [iht hp.1.2 h, ihc hp.1.1 h1]
    · rw [ihf hp.2 h, ihc hp.1.1 h1]

theorem Ex.pure_uncond : ∀ e : Ex, e.pure P = true → e.uncond P = true := by
  intro e
  induction e with
  | var x => exact fun _ => rfl
  | attr a => exact fun _ => rfl
  | lit w => exact fun _ => rfl
  | op1 f e ih => exact ih
  | not e ih => exact ih
  | op2 f e1 e2 ih1 ih2 =>
    intro h
    simp only [Ex.pure, Ex.uncond, Bool.and_eq_true] at h ⊢
    exact ⟨ih1 h.1, ih2 h.2⟩
  | and e1 e2 ih1 ih2 =>
    intro h
    simp only [Ex.pure, Ex.uncond, Bool.and_eq_true] at h ⊢
    exact ⟨ih1 h.1, h.2⟩
  | or e1 e2 ih1 ih2 =>
    intro h
    simp only [Ex.pure, Ex.uncond, Bool.and_eq_true] at h ⊢
    exact ⟨ih1 h.1, h.2⟩
  | sub i e ih =>
    intro h
    simp only [Ex.pure, Bool.and_eq_true] at h
    exact ih h.2
  | cond c t f ihc iht ihf =>
    intro h
    simp only [Ex.pure, Ex.uncond, Bool.and_eq_true] at h ⊢
    exact ⟨⟨ihc h.1.1, h.1.2⟩, h.2⟩

theorem St.pure_uncond : ∀ s : St, s.pure P = true → s.uncond P = true := by
  intro s
  induction s with
  | skip => exact fun _ => rfl
  | assign x e => exact e.pure_uncond
  | setAttr x e => exact e.pure_uncond
  | eval e => exact e.pure_uncond
  | assert e => exact e.pure_uncond
  | ret e => exact e.pure_uncond
  | seq s1 s2 ih1 ih2 =>
    intro h
    simp only [St.pure, St.uncond, Bool.and_eq_true, Bool.or_eq_true] at h ⊢
    exact ⟨⟨ih1 h.1, ih2 h.2⟩, .inr h.2⟩
  | ifte c t f iht ihf =>
    intro h
    simp only [St.pure, St.uncond, Bool.and_eq_true] at h ⊢
    exact ⟨⟨c.pure_uncond h.1.1, h.1.2⟩, h.2⟩

/-! ## Types -/

theorem tyOf_bit {v : V} (h : tyOf v = .bit) : ∃ b, v = .bit b := by
  cases v with
  | bit b => exact ⟨b, rfl⟩
  | bv w x => cases h
  | pair a b => cases h

theorem attr_ty {fr : Frame} (h : fr.Typed Γ) {a : Nat} {v : V} (ha : fr.attrs[a]? = some v) : Γ.attrs[a]? = some (tyOf v) := by
  rw [← h.2.2, List.getElem?_map, ha]; rfl

theorem state_ty {ss : List V} (h : StatesTyped Γ ss) {i : Nat} {a s r : Ty} {v : V} (hi : Γ.comps[i]? = some (a, s, r)) (hv : ss[i]? = some v) : tyOf v = s := by
  have e : (ss.map tyOf)[i]? = (Γ.comps.map (·.2.1))[i]? := by rw [h]
  rw [List.getElem?_map, List.getElem?_map, hi, hv] at e
  exact Option.some.inj e

theorem statesTyped_set {ss : List V} (h : StatesTyped Γ ss) {i : Nat} {v w : V} (hv : ss[i]? = some v) (hw : tyOf w = tyOf v) : StatesTyped Γ (ss.set i w) := by
  unfold StatesTyped at *
  rw [← h]
  apply List.ext_getElem?
  intro j
  simp only [List.getElem?_map, List.getElem?_set]
  by_cases hij : i = j
  · subst hij
    rw [if_pos rfl, hv]
    have hlt : i < ss.length := (List.getElem?_eq_some_iff.mp hv).1
    rw [if_pos hlt]
    exact congrArg some hw
  · rw [if_neg hij]

theorem callComp_ty (hC : C.Typed Γ) {i : Nat} {v r : V} {ss ss' : List V} {a s t : Ty} (hi : Γ.comps[i]? = some (a, s, t)) (hv : tyOf v = a)
    (hs : StatesTyped Γ ss) (h : callComp C i v ss = .ok (r, ss')) : tyOf r = t ∧ StatesTyped Γ ss' := by
  unfold callComp at h
  split at h
  · cases h
  · next st hst =>
    obtain ⟨⟨q, st'⟩, h1, h⟩ := bind_ok h
    cases h
    have hty := state_ty hs hi hst
    obtain ⟨h2, h3⟩ := hC i a s t hi v st r st' hv hty h1
    exact ⟨h2, statesTyped_set hs hst (h3.trans hty.symm)⟩

theorem pyEval_ty (hC : C.Typed Γ) : ∀ (e : Ex) {τ : Ty} {fr : Frame} {ss : List V} {v : V} {ss' : List V}, e.HasTy Γ τ → fr.Typed Γ →
    StatesTyped Γ ss → pyEval C e fr ss = .ok (v, ss') → tyOf v = τ ∧ StatesTyped Γ ss' := by
  intro e
  induction e with
  | var x =>
    intro τ fr ss v ss' ht hf hs h
    obtain ⟨a, h1, h⟩ := bind_ok h
    cases h
    have := hf.2.1 x v (getVar_ok h1)
    rw [show Γ.vars[x]? = some τ from ht] at this
    exact ⟨(Option.some.inj this).symm, hs⟩
  | attr a =>
    intro τ fr ss v ss' ht hf hs h
    obtain ⟨b, h1, h⟩ := bind_ok h
    cases h
    have := attr_ty hf (getAttr_ok h1)
    rw [show Γ.attrs[a]? = some τ from ht] at this
    exact ⟨(Option.some.inj this).symm, hs⟩
  | lit w => intro τ fr ss v ss' ht hf hs h; cases h; exact ⟨ht, hs⟩
  | op1 f e ih =>
    intro τ fr ss v ss' ht hf hs h
    obtain ⟨σ, h1, h2⟩ := ht
    obtain ⟨⟨a, s1⟩, ha, h⟩ := bind_ok h
    obtain ⟨b, hb, h⟩ := bind_ok h
    cases h
    obtain ⟨h3, h4⟩ := ih h1 hf hs ha
    exact ⟨h2 _ _ h3 hb, h4⟩
  | op2 f e1 e2 ih1 ih2 =>
    intro τ fr ss v ss' ht hf hs h
    obtain ⟨σ1, σ2, h1, h2, h3⟩ := ht
    obtain ⟨⟨a, s1⟩, ha, h⟩ := bind_ok h
    obtain ⟨⟨b, s2⟩, hb, h⟩ := bind_ok h
    obtain ⟨c, hc, h⟩ := bind_ok h
    cases h
    obtain ⟨h4, h5⟩ := ih1 h1 hf hs ha
    obtain ⟨h6, h7⟩ := ih2 h2 hf h5 hb
    exact ⟨h3 _ _ _ h4 h6 hc, h7⟩
  | sub i e ih =>
    intro τ fr ss v ss' ht hf hs h
    obtain ⟨σ, s, h1, h2⟩ := ht
    obtain ⟨⟨a, s1⟩, ha, h⟩ := bind_ok h
    obtain ⟨h3, h4⟩ := ih h1 hf hs ha
    exact callComp_ty hC h2 h3 h4 h
  | and e1 e2 ih1 ih2 =>
    intro τ fr ss v ss' ht hf hs h
    obtain ⟨rfl, h1, h2⟩ := ht
    obtain ⟨⟨a, s1⟩, ha, h⟩ := bind_ok h
    obtain ⟨h3, h4⟩ := ih1 h1 hf hs ha
    dsimp only at h
    split at h
    · exact ih2 h2 hf h4 h
    · cases h; exact ⟨h3, h4⟩
  | or e1 e2 ih1 ih2 =>
    intro τ fr ss v ss' ht hf hs h
    obtain ⟨rfl, h1, h2⟩ := ht
    obtain ⟨⟨a, s1⟩, ha, h⟩ := bind_ok h
    obtain ⟨h3, h4⟩ := ih1 h1 hf hs ha
    dsimp only at h
    split at h
    · cases h; exact ⟨h3, h4⟩
    · exact ih2 h2 hf h4 h
  | not e ih =>
    intro τ fr ss v ss' ht hf hs h
    obtain ⟨rfl, h1⟩ := ht
    obtain ⟨⟨a, s1⟩, ha, h⟩ := bind_ok h
    cases h
    exact ⟨rfl, (ih h1 hf hs ha).2⟩
  | cond c t f ihc iht ihf =>
    intro τ fr ss v ss' ht hf hs h
    obtain ⟨h1, h2, h3⟩ := ht
    obtain ⟨⟨a, s1⟩, ha, h⟩ := bind_ok h
    obtain ⟨h4, h5⟩ := ihc h1 hf hs ha
    dsimp only at h
    split at h
    · exact iht h2 hf h5 h
    · exact ihf h3 hf h5 h

theorem typed_setVar {fr : Frame} (hf : fr.Typed Γ) {x : Nat} {v : V} (h : Γ.vars[x]? = some (tyOf v)) : (fr.setVar x v).Typed Γ := by
  refine ⟨by simpa [Frame.setVar] using hf.1, fun y w hy => ?_, hf.2.2⟩
  simp only [Frame.setVar, List.getElem?_set] at hy
  by_cases hxy : x = y
  · subst hxy
    rw [if_pos rfl] at hy
    split at hy
    · cases hy; exact h
    · cases hy
  · rw [if_neg hxy] at hy; exact hf.2.1 y w hy

theorem typed_setAttr {fr : Frame} (hf : fr.Typed Γ) {a : Nat} {v : V} (h : Γ.attrs[a]? = some (tyOf v)) : (fr.setAttr a v).Typed Γ := by
  refine ⟨hf.1, hf.2.1, ?_⟩
  show (fr.attrs.set a v).map tyOf = Γ.attrs
  rw [List.map_set, hf.2.2]
  apply List.ext_getElem?
  intro j
  rw [List.getElem?_set]
  by_cases hij : a = j
  · subst hij
    rw [if_pos rfl, h]
    have : a < Γ.attrs.length := (List.getElem?_eq_some_iff.mp h).1
    rw [if_pos this]
  · rw [if_neg hij]

/-! ## Expressions -/

theorem eval_agree (hP : C.Stateless P) (hC : C.Typed Γ) : ∀ (e : Ex) {τ : Ty} {fr g : Frame} {ss : List V} {v w : V} {s1 s2 : List V}, e.HasTy Γ τ → e.uncond P = true →
    fr.Typed Γ → StatesTyped Γ ss → Rel fr g → pyEval C e fr ss = .ok (v, s1) → rwEval C e g ss = .ok (w, s2) → v = w ∧ s1 = s2 := by
  intro e
  induction e with
  | var x =>
    intro τ fr g ss v w s1 s2 ht hu hf hs hr h1 h2
    obtain ⟨a, ha, h1⟩ := bind_ok h1
    obtain ⟨b, hb, h2⟩ := bind_ok h2
    cases h1; cases h2
    exact ⟨hr.getVar ha hb, rfl⟩
  | attr a =>
    intro τ fr g ss v w s1 s2 ht hu hf hs hr h1 h2
    obtain ⟨b, hb, h1⟩ := bind_ok h1
    obtain ⟨c, hc, h2⟩ := bind_ok h2
    cases h1; cases h2
    have e1 := getAttr_ok hb
    have e2 := getAttr_ok hc
    rw [hr.1] at e1
    rw [e1] at e2
    exact ⟨Option.some.inj e2, rfl⟩
  | lit x => intro τ fr g ss v w s1 s2 ht hu hf hs hr h1 h2; cases h1; cases h2; exact ⟨rfl, rfl⟩
  | op1 f e ih =>
    intro τ fr g ss v w s1 s2 ht hu hf hs hr h1 h2
    obtain ⟨σ, ht, _⟩ := ht
    obtain ⟨⟨a, sa⟩, ha, h1⟩ := bind_ok h1
    obtain ⟨⟨b, sb⟩, hb, h2⟩ := bind_ok h2
    obtain ⟨rfl, rfl⟩ := ih ht hu hf hs hr ha hb
    obtain ⟨q, hq, h1⟩ := bind_ok h1
    obtain ⟨q', hq', h2⟩ := bind_ok h2
    cases h1; cases h2
    rw [hq] at hq'
    cases hq'
    exact ⟨rfl, rfl⟩
  | op2 f e1 e2 ih1 ih2 =>
    intro τ fr g ss v w s1 s2 ht hu hf hs hr h1 h2
    simp only [Ex.uncond, Bool.and_eq_true] at hu
    obtain ⟨σ1, σ2, ht1, ht2, _⟩ := ht
    obtain ⟨⟨a, sa⟩, ha, h1⟩ := bind_ok h1
    obtain ⟨⟨b, sb⟩, hb, h2⟩ := bind_ok h2
    obtain ⟨rfl, rfl⟩ := ih1 ht1 hu.1 hf hs hr ha hb
    obtain ⟨⟨c, sc⟩, hc, h1⟩ := bind_ok h1
    obtain ⟨⟨d, sd⟩, hd, h2⟩ := bind_ok h2
    obtain ⟨rfl, rfl⟩ := ih2 ht2 hu.2 hf (pyEval_ty hC e1 ht1 hf hs ha).2 hr hc hd
    obtain ⟨q, hq, h1⟩ := bind_ok h1
    obtain ⟨q', hq', h2⟩ := bind_ok h2
    cases h1; cases h2
    rw [hq] at hq'
    cases hq'
    exact ⟨rfl, rfl⟩
  | sub i e ih =>
    intro τ fr g ss v w s1 s2 ht hu hf hs hr h1 h2
    obtain ⟨σ, s, ht, _⟩ := ht
    obtain ⟨⟨a, sa⟩, ha, h1⟩ := bind_ok h1
    obtain ⟨⟨b, sb⟩, hb, h2⟩ := bind_ok h2
    obtain ⟨rfl, rfl⟩ := ih ht hu hf hs hr ha hb
    dsimp only at h1 h2
    rw [h1] at h2
    cases h2
    exact ⟨rfl, rfl⟩
  | and e1 e2 ih1 ih2 =>
    intro τ fr g ss v w s1 s2 ht hu hf hs hr h1 h2
    simp only [Ex.uncond, Bool.and_eq_true] at hu
    obtain ⟨_, ht1, ht2⟩ := ht
    obtain ⟨⟨a, sa⟩, ha, h1⟩ := bind_ok h1
    obtain ⟨⟨b, sb⟩, hb, h2⟩ := bind_ok h2
    obtain ⟨rfl, rfl⟩ := ih1 ht1 hu.1 hf hs hr ha hb
    obtain ⟨hta, hsa⟩ := pyEval_ty hC e1 ht1 hf hs ha
    obtain ⟨p, rfl⟩ := tyOf_bit hta
    obtain ⟨⟨d, sd⟩, hd, h3⟩ := bind_ok h2
    have hsd := rwEval_pure hP e2 hu.2 hd
    subst hsd
    obtain ⟨q, hq, h4⟩ := bind_ok h3
    cases h4
    cases p with
    | true =>
      obtain ⟨rfl, rfl⟩ := ih2 ht2 (e2.pure_uncond hu.2) hf hsa hr h1 hd
      obtain ⟨p, rfl⟩ := tyOf_bit (pyEval_ty hC e2 ht2 hf hsa h1).1
      cases hq
      exact ⟨by rw [Bool.true_and], rfl⟩
    | false =>
      cases h1
      cases d with
      | bit d => cases hq; exact ⟨rfl, rfl⟩
      | bv _ _ => cases hq
      | pair _ _ => cases hq
  | or e1 e2 ih1 ih2 =>
    intro τ fr g ss v w s1 s2 ht hu hf hs hr h1 h2
    simp only [Ex.uncond, Bool.and_eq_true] at hu
    obtain ⟨_, ht1, ht2⟩ := ht
    obtain ⟨⟨a, sa⟩, ha, h1⟩ := bind_ok h1
    obtain ⟨⟨b, sb⟩, hb, h2⟩ := bind_ok h2
    obtain ⟨rfl, rfl⟩ := ih1 ht1 hu.1 hf hs hr ha hb
    obtain ⟨hta, hsa⟩ := pyEval_ty hC e1 ht1 hf hs ha
    obtain ⟨p, rfl⟩ := tyOf_bit hta
    obtain ⟨⟨d, sd⟩, hd, h3⟩ := bind_ok h2
    have hsd := rwEval_pure hP e2 hu.2 hd
    subst hsd
    obtain ⟨q, hq, h4⟩ := bind_ok h3
    cases h4
    cases p with
    | false =>
      obtain ⟨rfl, rfl⟩ := ih2 ht2 (e2.pure_uncond hu.2) hf hsa hr h1 hd
      obtain ⟨p, rfl⟩ := tyOf_bit (pyEval_ty hC e2 ht2 hf hsa h1).1
      cases hq
      exact ⟨by rw [Bool.false_or], rfl⟩
    | true =>
      cases h1
      cases d with
      | bit d => cases hq; exact ⟨rfl, rfl⟩
      | bv _ _ => cases hq
      | pair _ _ => cases hq
  | not e ih =>
    intro τ fr g ss v w s1 s2 ht hu hf hs hr h1 h2
    obtain ⟨_, ht⟩ := ht
    obtain ⟨⟨a, sa⟩, ha, h1⟩ := bind_ok h1
    obtain ⟨⟨b, sb⟩, hb, h2⟩ := bind_ok h2
    obtain ⟨rfl, rfl⟩ := ih ht hu hf hs hr ha hb
    obtain ⟨p, rfl⟩ := tyOf_bit (pyEval_ty hC e ht hf hs ha).1
    cases h1; cases h2
    exact ⟨rfl, rfl⟩
  | cond c t f ihc iht ihf =>
    intro τ fr g ss v w s1 s2 ht hu hf hs hr h1 h2
    simp only [Ex.uncond, Bool.and_eq_true] at hu
    obtain ⟨htc, htt, htf⟩ := ht
    obtain ⟨⟨a, sa⟩, ha, h1⟩ := bind_ok h1
    obtain ⟨⟨b, sb⟩, hb, h2⟩ := bind_ok h2
    obtain ⟨rfl, rfl⟩ := ihc htc hu.1.1 hf hs hr ha hb
    obtain ⟨hta, hsa⟩ := pyEval_ty hC c htc hf hs ha
    obtain ⟨p, rfl⟩ := tyOf_bit hta
    obtain ⟨⟨d, sd⟩, hd, h3⟩ := bind_ok h2
    have hsd := rwEval_pure hP t hu.1.2 hd
    subst hsd
    obtain ⟨⟨d', sd'⟩, hd', h4⟩ := bind_ok h3
    have hsd := rwEval_pure hP f hu.2 hd'
    subst hsd
    obtain ⟨q, hq, h5⟩ := bind_ok h4
    cases h5
    unfold iteV at hq
    dsimp only at hq
    split at hq
    · cases hq
      cases p with
      | true => exact iht htt (t.pure_uncond hu.1.2) hf hsa hr h1 hd
      | false => exact ihf htf (f.pure_uncond hu.2) hf hsa hr h1 hd'
    · cases hq

/-! ## Statements -/

theorem rwExec_pure (hP : C.Stateless P) : ∀ (s : St) {fr : Frame} {ss : List V} {r : List Ret} {f : Option Frame} {ss' : List V}, s.pure P = true →
    rwExec C s fr ss = .ok (r, f, ss') → ss' = ss := by
  intro s
  induction s with
  | skip => intro fr ss r f ss' _ h; cases h; rfl
  | assign x e =>
    intro fr ss r f ss' hp h
    obtain ⟨⟨v, s1⟩, h1, h⟩ := bind_ok h
    cases h; exact rwEval_pure hP e hp h1
  | setAttr x e =>
    intro fr ss r f ss' hp h
    obtain ⟨⟨v, s1⟩, h1, h⟩ := bind_ok h
    cases h; exact rwEval_pure hP e hp h1
  | eval e =>
    intro fr ss r f ss' hp h
    obtain ⟨⟨v, s1⟩, h1, h⟩ := bind_ok h
    cases h; exact rwEval_pure hP e hp h1
  | assert e =>
    intro fr ss r f ss' hp h
    obtain ⟨⟨v, s1⟩, h1, h⟩ := bind_ok h
    dsimp only at h
    split at h
    · cases h; exact rwEval_pure hP e hp h1
    · cases h
  | ret e =>
    intro fr ss r f ss' hp h
    obtain ⟨⟨v, s1⟩, h1, h⟩ := bind_ok h
    cases h; exact rwEval_pure hP e hp h1
  | seq s1 s2 ih1 ih2 =>
    intro fr ss r f ss' hp h
    simp only [St.pure, Bool.and_eq_true] at hp
    obtain ⟨⟨r1, f1, sa⟩, h1, h⟩ := bind_ok h
    dsimp only at h
    split at h
    · cases h; exact ih1 hp.1 h1
    · obtain ⟨⟨r2, f2, sb⟩, h2, h⟩ := bind_ok h
      cases h
      rw [ih2 hp.2 h2, ih1 hp.1 h1]
  | ifte c t f iht ihf =>
    intro fr ss r f' ss' hp h
    simp only [St.pure, Bool.and_eq_true] at hp
    obtain ⟨⟨v, sa⟩, h1, h⟩ := bind_ok h
    obtain ⟨⟨rt, ft, sb⟩, h2, h⟩ := bind_ok h
    obtain ⟨⟨rf, ff, sc⟩, h3, h⟩ := bind_ok h
    obtain ⟨g, _, h⟩ := bind_ok h
    cases h
    rw [ihf hp.2 h3, iht hp.1.2 h2, rwEval_pure hP c hp.1.1 h1]

theorem pyExec_pure (hP : C.Stateless P) : ∀ (s : St) {fr : Frame} {ss : List V} {fr' : Frame} {ss' : List V} {r : Option V}, s.pure P = true →
    pyExec C s fr ss = .ok (fr', ss', r) → ss' = ss := by
  intro s
  induction s with
  | skip => intro fr ss r f ss' _ h; cases h; rfl
  | assign x e =>
    intro fr ss r f ss' hp h
    obtain ⟨⟨v, s1⟩, h1, h⟩ := bind_ok h
    cases h; exact pyEval_pure hP e hp h1
  | setAttr x e =>
    intro fr ss r f ss' hp h
    obtain ⟨⟨v, s1⟩, h1, h⟩ := bind_ok h
    cases h; exact pyEval_pure hP e hp h1
  | eval e =>
    intro fr ss r f ss' hp h
    obtain ⟨⟨v, s1⟩, h1, h⟩ := bind_ok h
    cases h; exact pyEval_pure hP e hp h1
  | assert e =>
    intro fr ss r f ss' hp h
    obtain ⟨⟨v, s1⟩, h1, h⟩ := bind_ok h
    dsimp only at h
    split at h
    · cases h; exact pyEval_pure hP e hp h1
    · cases h
  | ret e =>
    intro fr ss r f ss' hp h
    obtain ⟨⟨v, s1⟩, h1, h⟩ := bind_ok h
    cases h; exact pyEval_pure hP e hp h1
  | seq s1 s2 ih1 ih2 =>
    intro fr ss r f ss' hp h
    simp only [St.pure, Bool.and_eq_true] at hp
    obtain ⟨⟨f1, sa, r1⟩, h1, h⟩ := bind_ok h
    dsimp only at h
    split at h
    · cases h; exact ih1 hp.1 h1
    · rw [ih2 hp.2 h, ih1 hp.1 h1]
  | ifte c t f iht ihf =>
    intro fr ss r f' ss' hp h
    simp only [St.pure, Bool.and_eq_true] at hp
    obtain ⟨⟨v, sa⟩, h1, h⟩ := bind_ok h
    dsimp only at h
    split at h
    · rw [iht hp.1.2 h, pyEval_pure hP c hp.1.1 h1]
    · rw [ihf hp.2 h, pyEval_pure hP c hp.1.1 h1]

theorem pyExec_mayReturn : ∀ (s : St) {fr : Frame} {ss : List V} {fr' : Frame} {ss' : List V} {v : V}, pyExec C s fr ss = .ok (fr', ss', some v) →
    s.mayReturn = true := by
  intro s
  induction s with
  | skip => intro fr ss fr' ss' v h; cases h
  | assign x e => intro fr ss fr' ss' v h; obtain ⟨⟨v, s1⟩, h1, h⟩ := bind_ok h; cases h
  | setAttr x e => intro fr ss fr' ss' v h; obtain ⟨⟨v, s1⟩, h1, h⟩ := bind_ok h; cases h
  | eval e => intro fr ss fr' ss' v h; obtain ⟨⟨v, s1⟩, h1, h⟩ := bind_ok h; cases h
  | assert e =>
    intro fr ss fr' ss' v h
    obtain ⟨⟨v, s1⟩, h1, h⟩ := bind_ok h
    dsimp only at h
    split at h <;> cases h
  | ret e => intro fr ss fr' ss' v h; rfl
  | seq s1 s2 ih1 ih2 =>
    intro fr ss fr' ss' v h
    obtain ⟨⟨f1, sa, r1⟩, h1, h⟩ := bind_ok h
    show (s1.mayReturn || s2.mayReturn) = true
    dsimp only at h
    split at h
    · rw [ih1 h1]; rfl
    · rw [ih2 h, Bool.or_true]
  | ifte c t f iht ihf =>
    intro fr ss fr' ss' v h
    obtain ⟨⟨v, sa⟩, h1, h⟩ := bind_ok h
    show (t.mayReturn || f.mayReturn) = true
    dsimp only at h
    split at h
    · rw [iht h]; rfl
    · rw [ihf h, Bool.or_true]

theorem pyExec_ty {ρ : Ty} (hC : C.Typed Γ) : ∀ (s : St) {fr : Frame} {ss : List V} {fr' : Frame} {ss' : List V} {r : Option V}, s.Typed Γ ρ →
    fr.Typed Γ → StatesTyped Γ ss → pyExec C s fr ss = .ok (fr', ss', r) → fr'.Typed Γ ∧ StatesTyped Γ ss' := by
  intro s
  induction s with
  | skip => intro fr ss r f ss' _ hf hs h; cases h; exact ⟨hf, hs⟩
  | assign x e =>
    intro fr ss r f ss' ht hf hs h
    obtain ⟨τ, hx, ht⟩ := ht
    obtain ⟨⟨v, s1⟩, h1, h⟩ := bind_ok h
    cases h
    obtain ⟨rfl, h3⟩ := pyEval_ty hC e ht hf hs h1
    exact ⟨typed_setVar hf hx, h3⟩
  | setAttr x e =>
    intro fr ss r f ss' ht hf hs h
    obtain ⟨τ, hx, ht⟩ := ht
    obtain ⟨⟨v, s1⟩, h1, h⟩ := bind_ok h
    cases h
    obtain ⟨rfl, h3⟩ := pyEval_ty hC e ht hf hs h1
    exact ⟨typed_setAttr hf hx, h3⟩
  | eval e =>
    intro fr ss r f ss' ht hf hs h
    obtain ⟨τ, ht⟩ := ht
    obtain ⟨⟨v, s1⟩, h1, h⟩ := bind_ok h
    cases h; exact ⟨hf, (pyEval_ty hC e ht hf hs h1).2⟩
  | assert e =>
    intro fr ss r f ss' ht hf hs h
    obtain ⟨⟨v, s1⟩, h1, h⟩ := bind_ok h
    dsimp only at h
    split at h
    · cases h; exact ⟨hf, (pyEval_ty hC e ht hf hs h1).2⟩
    · cases h
  | ret e =>
    intro fr ss r f ss' ht hf hs h
    obtain ⟨⟨v, s1⟩, h1, h⟩ := bind_ok h
    cases h; exact ⟨hf, (pyEval_ty hC e ht hf hs h1).2⟩
  | seq s1 s2 ih1 ih2 =>
    intro fr ss r f ss' ht hf hs h
    obtain ⟨⟨f1, sa, r1⟩, h1, h⟩ := bind_ok h
    obtain ⟨hf1, hs1⟩ := ih1 ht.1 hf hs h1
    dsimp only at h
    split at h
    · cases h; exact ⟨hf1, hs1⟩
    · exact ih2 ht.2 hf1 hs1 h
  | ifte c t f iht ihf =>
    intro fr ss r f' ss' ht hf hs h
    obtain ⟨⟨v, sa⟩, h1, h⟩ := bind_ok h
    obtain ⟨_, hs1⟩ := pyEval_ty hC c ht.1 hf hs h1
    dsimp only at h
    split at h
    · exact iht ht.2.1 hf hs1 h
    · exact ihf ht.2.2 hf hs1 h

/-! ## Conditional expressions -/

theorem phi_bit {p : Bool} {a b c : V} (h : phi (.bit p) a b = .ok c) : c = if p then a else b := by
  unfold phi at h
  split at h
  · next hab => cases h; cases p <;> simp [hab]
  · unfold iteV at h
    dsimp only at h
    split at h
    · cases h; rfl
    · cases h

theorem phiVar_true {a : V} {b c : Option V} (h : phiVar (.bit true) (some a) b = .ok c) : c = some a := by
  cases b with
  | none => cases h; rfl
  | some b =>
    obtain ⟨v, h1, h⟩ := bind_ok h
    cases h
    exact congrArg some (phi_bit h1)

theorem phiVar_false {b : V} {a c : Option V} (h : phiVar (.bit false) a (some b) = .ok c) : c = some b := by
  cases a with
  | none => cases h; rfl
  | some a =>
    obtain ⟨v, h1, h⟩ := bind_ok h
    cases h
    exact congrArg some (phi_bit h1)

theorem zipE_ok {α : Type} {f : α → α → Except Err α} : ∀ {as bs cs : List α}, zipE f as bs = .ok cs →
    as.length = bs.length ∧ cs.length = as.length ∧ ∀ (i : Nat) (a b : α), as[i]? = some a → bs[i]? = some b → ∃ c, cs[i]? = some c ∧ f a b = .ok c := by
  intro as
  induction as with
  | nil =>
    intro bs cs h
    cases bs with
    | nil => cases h; exact ⟨rfl, rfl, fun i a b ha => by simp at ha⟩
    | cons b bs => cases h
  | cons a as ih =>
    intro bs cs h
    cases bs with
    | nil => cases h
    | cons b bs =>
      obtain ⟨c, hc, h⟩ := bind_ok h
      obtain ⟨cs, hcs, h⟩ := bind_ok h
      cases h
      obtain ⟨h1, h2, h3⟩ := ih hcs
      refine ⟨by simp [h1], by simp [h2], fun i a' b' ha hb => ?_⟩
      cases i with
      | zero =>
        simp only [List.getElem?_cons_zero, Option.some.injEq] at ha hb ⊢
        subst ha; subst hb
        exact ⟨c, rfl, hc⟩
      | succ i =>
        simp only [List.getElem?_cons_succ] at ha hb ⊢
        exact h3 i a' b' ha hb

theorem zipE_phi {p : Bool} {as bs cs : List V} (h : zipE (phi (.bit p)) as bs = .ok cs) : cs = if p then as else bs := by
  obtain ⟨h1, h2, h3⟩ := zipE_ok h
  apply List.ext_getElem?
  intro i
  by_cases hi : i < as.length
  · obtain ⟨c, hc, hf⟩ := h3 i as[i] (bs[i]'(h1 ▸ hi)) (by simp [hi]) (by simp)
    rw [hc, phi_bit hf]
    cases p
    · simp [h1 ▸ hi]
    · simp [hi]
  · rw [List.getElem?_eq_none (by omega)]
    cases p
    · exact (List.getElem?_eq_none (by simp; omega)).symm
    · exact (List.getElem?_eq_none (by simp; omega)).symm

theorem merge_true {t : Frame} {f : Option Frame} {r : Option Frame} (h : merge (.bit true) (some t) f = .ok r) : ∃ g, r = some g ∧ Rel t g := by
  cases f with
  | none => cases h; exact ⟨t, rfl, Rel.refl t⟩
  | some f =>
    obtain ⟨vs, hv, h⟩ := bind_ok h
    obtain ⟨as, ha, h⟩ := bind_ok h
    cases h
    have e := zipE_phi ha
    obtain ⟨h1, h2, h3⟩ := zipE_ok hv
    refine ⟨_, rfl, e.symm, fun x v hx => ?_, h2.symm⟩
    have hlt := (List.getElem?_eq_some_iff.mp hx).1
    obtain ⟨c, hc, hf⟩ := h3 x (some v) (f.vars[x]'(h1 ▸ hlt)) hx (by simp)
    rw [hc, phiVar_true hf]

theorem merge_false {f : Frame} {t : Option Frame} {r : Option Frame} (h : merge (.bit false) t (some f) = .ok r) : ∃ g, r = some g ∧ Rel f g := by
  cases t with
  | none => cases h; exact ⟨f, rfl, Rel.refl f⟩
  | some t =>
    obtain ⟨vs, hv, h⟩ := bind_ok h
    obtain ⟨as, ha, h⟩ := bind_ok h
    cases h
    have e := zipE_phi ha
    obtain ⟨h1, h2, h3⟩ := zipE_ok hv
    refine ⟨_, rfl, e.symm, fun x v hx => ?_, (h2.trans h1).symm⟩
    have hlt := (List.getElem?_eq_some_iff.mp hx).1
    obtain ⟨c, hc, hf⟩ := h3 x (t.vars[x]'(h1 ▸ hlt)) (some v) (by simp) hx
    rw [hc, phiVar_false hf]

/-- The conditions are met. -/
def Holds (gs : List (V × Bool)) : Prop := ∀ g ∈ gs, g.1 = .bit g.2

/-- One is not. -/
def Fails (gs : List (V × Bool)) : Prop := ∃ p : Bool, (V.bit (!p), p) ∈ gs

theorem andV_bit {a b : V} {p : Bool} (h : andV a b = .ok (.bit p)) : ∃ x y, a = .bit x ∧ b = .bit y ∧ p = (x && y) := by
  cases a with
  | bit x => cases b with
    | bit y => cases h; exact ⟨x, y, rfl, rfl, rfl⟩
    | bv _ _ => cases h
    | pair _ _ => cases h
  | bv w x => cases b with
    | bit y => cases h
    | bv w' y =>
      simp only [andV] at h
      split at h <;> cases h
    | pair _ _ => cases h
  | pair _ _ => cases b <;> cases h

theorem guard_holds {gs : List (V × Bool)} (h : Holds gs) : guardV gs = .ok (.bit true) := by
  induction gs with
  | nil => rfl
  | cons g gs ih =>
    obtain ⟨c, p⟩ := g
    have hc : c = .bit p := h (c, p) (by simp)
    subst hc
    have := ih (fun g hg => h g (by simp [hg]))
    cases p <;> simp only [guardV, this, branchV, bind, Except.bind, notV, andV] <;> rfl

theorem guard_fails {gs : List (V × Bool)} (h : Fails gs) {p : Bool} (hp : guardV gs = .ok (.bit p)) : p = false := by
  induction gs generalizing p with
  | nil => obtain ⟨q, hq⟩ := h; cases hq
  | cons g gs ih =>
    obtain ⟨c, q⟩ := g
    unfold guardV at hp
    obtain ⟨a, ha, hp⟩ := bind_ok hp
    obtain ⟨b, hb, hp⟩ := bind_ok hp
    obtain ⟨x, y, rfl, rfl, rfl⟩ := andV_bit hp
    obtain ⟨r, hr⟩ := h
    rcases List.mem_cons.mp hr with hr | hr
    · cases hr
      cases q with
      | true => cases ha; rfl
      | false => cases ha; rfl
    · rw [ih ⟨r, hr⟩ hb, Bool.and_false]

theorem iteV_ok {g a b c : V} (h : iteV g a b = .ok c) : ∃ p, g = .bit p ∧ c = if p then a else b := by
  cases g with
  | bit p =>
    unfold iteV at h
    dsimp only at h
    split at h
    · cases h; exact ⟨p, rfl, rfl⟩
    · cases h
  | bv _ _ => cases h
  | pair _ _ => cases h

/-- The first return whose conditions are met is selected. -/
theorem select_ok {post : List Ret} {r : Ret} : ∀ {pre : List Ret} {v : V} {as : List V}, (∀ q ∈ pre, Fails q.guards) → Holds r.guards →
    select (pre ++ r :: post) = .ok (v, as) → v = r.val ∧ as = r.attrs := by
  intro pre
  induction pre with
  | nil =>
    intro v as _ hh h
    cases post with
    | nil => cases h; exact ⟨rfl, rfl⟩
    | cons q qs =>
      simp only [List.nil_append, select] at h
      obtain ⟨⟨v', as'⟩, _, h⟩ := bind_ok h
      obtain ⟨g, hg, h⟩ := bind_ok h
      rw [guard_holds hh] at hg
      cases hg
      obtain ⟨w, hw, h⟩ := bind_ok h
      obtain ⟨ws, hws, h⟩ := bind_ok h
      cases h
      obtain ⟨p, hp, hv⟩ := iteV_ok hw
      cases hp
      exact ⟨hv, zipE_phi hws⟩
  | cons q qs ih =>
    intro v as hf hh h
    have : ∃ q' rest, qs ++ r :: post = q' :: rest := by
      cases qs with
      | nil => exact ⟨r, post, rfl⟩
      | cons q' qs => exact ⟨q', qs ++ r :: post, rfl⟩
    obtain ⟨q', rest, he⟩ := this
    rw [List.cons_append, he] at h
    simp only [select] at h
    rw [← he] at h
    obtain ⟨⟨v', as'⟩, hs, h⟩ := bind_ok h
    obtain ⟨e1, e2⟩ := ih (fun x hx => hf x (by simp [hx])) hh hs
    obtain ⟨g, hg, h⟩ := bind_ok h
    obtain ⟨w, hw, h⟩ := bind_ok h
    obtain ⟨ws, hws, h⟩ := bind_ok h
    cases h
    obtain ⟨p, rfl, hv⟩ := iteV_ok hw
    have hp := guard_fails (hf q (by simp)) hg
    subst hp
    exact ⟨hv.trans e1, (zipE_phi hws).trans e2⟩

/-- What the returns and the state of the rewritten code are when Python ends in the state `fr` with result `r`. -/
def Agree (fr : Frame) (r : Option V) (rets : List Ret) (g : Option Frame) : Prop :=
  match r with
  | none => (∀ q ∈ rets, Fails q.guards) ∧ ∃ h, g = some h ∧ Rel fr h
  | some v => ∃ pre q post, rets = pre ++ q :: post ∧ (∀ x ∈ pre, Fails x.guards) ∧ Holds q.guards ∧ q.val = v ∧ q.attrs = fr.attrs

theorem Fails.under {p q : Bool} {r : Ret} (h : Fails r.guards) : Fails (Ret.under (.bit p, q) r).guards := by
  obtain ⟨x, hx⟩ := h
  exact ⟨x, List.mem_cons_of_mem _ hx⟩

theorem fails_other {p : Bool} {rs : List Ret} : ∀ q ∈ rs.map (Ret.under (.bit p, !p)), Fails q.guards := by
  intro q hq
  obtain ⟨x, _, rfl⟩ := List.mem_map.mp hq
  exact ⟨!p, by rw [Bool.not_not]; exact List.mem_cons_self⟩

theorem exec_agree {ρ : Ty} (hP : C.Stateless P) (hC : C.Typed Γ) : ∀ (s : St) {fr g : Frame} {ss : List V} {fr' : Frame} {s1 : List V} {r : Option V} {rets : List Ret}
    {g' : Option Frame} {s2 : List V}, s.Typed Γ ρ → s.uncond P = true → fr.Typed Γ → StatesTyped Γ ss → Rel fr g →
    pyExec C s fr ss = .ok (fr', s1, r) → rwExec C s g ss = .ok (rets, g', s2) → Agree fr' r rets g' ∧ s1 = s2 := by
  intro s
  induction s with
  | skip =>
    intro fr g ss fr' s1 r rets g' s2 ht hu hf hs hr h1 h2
    cases h1; cases h2
    exact ⟨⟨fun q hq => (by cases hq), g, rfl, hr⟩, rfl⟩
  | assign x e =>
    intro fr g ss fr' s1 r rets g' s2 ht hu hf hs hr h1 h2
    obtain ⟨τ, _, ht⟩ := ht
    obtain ⟨⟨v, sa⟩, ha, h1⟩ := bind_ok h1
    obtain ⟨⟨w, sb⟩, hb, h2⟩ := bind_ok h2
    obtain ⟨rfl, rfl⟩ := eval_agree hP hC e ht hu hf hs hr ha hb
    cases h1; cases h2
    exact ⟨⟨fun q hq => (by cases hq), _, rfl, hr.setVar x v⟩, rfl⟩
  | setAttr x e =>
    intro fr g ss fr' s1 r rets g' s2 ht hu hf hs hr h1 h2
    obtain ⟨τ, _, ht⟩ := ht
    obtain ⟨⟨v, sa⟩, ha, h1⟩ := bind_ok h1
    obtain ⟨⟨w, sb⟩, hb, h2⟩ := bind_ok h2
    obtain ⟨rfl, rfl⟩ := eval_agree hP hC e ht hu hf hs hr ha hb
    cases h1; cases h2
    exact ⟨⟨fun q hq => (by cases hq), _, rfl, hr.setAttr x v⟩, rfl⟩
  | eval e =>
    intro fr g ss fr' s1 r rets g' s2 ht hu hf hs hr h1 h2
    obtain ⟨τ, ht⟩ := ht
    obtain ⟨⟨v, sa⟩, ha, h1⟩ := bind_ok h1
    obtain ⟨⟨w, sb⟩, hb, h2⟩ := bind_ok h2
    obtain ⟨rfl, rfl⟩ := eval_agree hP hC e ht hu hf hs hr ha hb
    cases h1; cases h2
    exact ⟨⟨fun q hq => (by cases hq), _, rfl, hr⟩, rfl⟩
  | assert e =>
    intro fr g ss fr' s1 r rets g' s2 ht hu hf hs hr h1 h2
    obtain ⟨⟨v, sa⟩, ha, h1⟩ := bind_ok h1
    obtain ⟨⟨w, sb⟩, hb, h2⟩ := bind_ok h2
    obtain ⟨rfl, rfl⟩ := eval_agree hP hC e ht hu hf hs hr ha hb
    dsimp only at h1 h2
    split at h1
    · split at h2
      · cases h1; cases h2
        exact ⟨⟨fun q hq => (by cases hq), _, rfl, hr⟩, rfl⟩
      · cases h2
    · cases h1
  | ret e =>
    intro fr g ss fr' s1 r rets g' s2 ht hu hf hs hr h1 h2
    obtain ⟨⟨v, sa⟩, ha, h1⟩ := bind_ok h1
    obtain ⟨⟨w, sb⟩, hb, h2⟩ := bind_ok h2
    obtain ⟨rfl, rfl⟩ := eval_agree hP hC e ht hu hf hs hr ha hb
    cases h1; cases h2
    exact ⟨⟨[], _, [], rfl, fun q hq => (by cases hq), fun q hq => (by cases hq), rfl, hr.1.symm⟩, rfl⟩
  | seq a b iha ihb =>
    intro fr g ss fr' s1 r rets g' s2 ht hu hf hs hr h1 h2
    simp only [St.uncond, Bool.and_eq_true, Bool.or_eq_true, Bool.not_eq_true'] at hu
    obtain ⟨⟨f1, sa, r1⟩, ha, h1⟩ := bind_ok h1
    obtain ⟨⟨q1, g1, sb⟩, hb, h2⟩ := bind_ok h2
    obtain ⟨hag, rfl⟩ := iha ht.1 hu.1.1 hf hs hr ha hb
    obtain ⟨hf1, hs1⟩ := pyExec_ty hC a ht.1 hf hs ha
    dsimp only at h1 h2
    cases r1 with
    | some v =>
      cases h1
      obtain ⟨pre, q, post, rfl, h3⟩ := hag
      have hp : b.pure P = true := by
        rcases hu.2 with h | h
        · rw [pyExec_mayReturn a ha] at h; cases h
        · exact h
      cases g1 with
      | none => cases h2; exact ⟨⟨pre, q, post, rfl, h3⟩, rfl⟩
      | some g1 =>
        obtain ⟨⟨q2, g2, sc⟩, hc, h2⟩ := bind_ok h2
        cases h2
        refine ⟨⟨pre, q, post ++ q2, by simp, h3⟩, (rwExec_pure hP b hp hc).symm⟩
    | none =>
      obtain ⟨hfail, g2, rfl, hr2⟩ := hag
      obtain ⟨⟨q2, g3, sc⟩, hc, h2⟩ := bind_ok h2
      cases h2
      obtain ⟨hag2, rfl⟩ := ihb ht.2 hu.1.2 hf1 hs1 hr2 h1 hc
      refine ⟨?_, rfl⟩
      cases r with
      | none =>
        refine ⟨fun q hq => ?_, hag2.2⟩
        rcases List.mem_append.mp hq with hq | hq
        · exact hfail q hq
        · exact hag2.1 q hq
      | some v =>
        obtain ⟨pre, q, post, rfl, h3, h4⟩ := hag2
        refine ⟨q1 ++ pre, q, post, by simp, fun x hx => ?_, h4⟩
        rcases List.mem_append.mp hx with hx | hx
        · exact hfail x hx
        · exact h3 x hx
  | ifte c t f iht ihf =>
    intro fr g ss fr' s1 r rets g' s2 ht hu hf hs hr h1 h2
    simp only [St.uncond, Bool.and_eq_true] at hu
    obtain ⟨htc, htt, htf⟩ := ht
    obtain ⟨⟨v, sa⟩, ha, h1⟩ := bind_ok h1
    obtain ⟨⟨w, sb⟩, hb, h2⟩ := bind_ok h2
    obtain ⟨rfl, rfl⟩ := eval_agree hP hC c htc hu.1.1 hf hs hr ha hb
    obtain ⟨hty, hs1⟩ := pyEval_ty hC c htc hf hs ha
    obtain ⟨p, rfl⟩ := tyOf_bit hty
    obtain ⟨⟨rt, gt, st⟩, hgt, h3⟩ := bind_ok h2
    have e1 := rwExec_pure hP t hu.1.2 hgt
    subst e1
    obtain ⟨⟨rf, gf, sf⟩, hgf, h4⟩ := bind_ok h3
    have e2 := rwExec_pure hP f hu.2 hgf
    subst e2
    obtain ⟨gm, hgm, h5⟩ := bind_ok h4
    cases h5
    cases p with
    | true =>
      have hb : pyExec C t fr _ = .ok (fr', s1, r) := h1
      obtain ⟨hag, rfl⟩ := iht htt (t.pure_uncond hu.1.2) hf hs1 hr hb hgt
      refine ⟨?_, rfl⟩
      cases r with
      | none =>
        obtain ⟨hfail, g2, rfl, hr2⟩ := hag
        obtain ⟨g3, rfl, hr3⟩ := merge_true hgm
        refine ⟨fun q hq => ?_, g3, rfl, hr2.trans hr3⟩
        rcases List.mem_append.mp hq with hq | hq
        · obtain ⟨x, hx, rfl⟩ := List.mem_map.mp hq
          exact (hfail x hx).under
        · exact fails_other (p := true) q hq
      | some v =>
        obtain ⟨pre, q, post, rfl, h6, h7, h8⟩ := hag
        refine ⟨pre.map (Ret.under (.bit true, true)), Ret.under (.bit true, true) q,
          post.map (Ret.under (.bit true, true)) ++ rf.map (Ret.under (.bit true, false)), by simp, fun x hx => ?_, ?_, h8⟩
        · obtain ⟨y, hy, rfl⟩ := List.mem_map.mp hx
          exact (h6 y hy).under
        · intro x hx
          rcases List.mem_cons.mp hx with rfl | hx
          · rfl
          · exact h7 x hx
    | false =>
      have hb : pyExec C f fr _ = .ok (fr', s1, r) := h1
      obtain ⟨hag, rfl⟩ := ihf htf (f.pure_uncond hu.2) hf hs1 hr hb hgf
      refine ⟨?_, rfl⟩
      cases r with
      | none =>
        obtain ⟨hfail, g2, rfl, hr2⟩ := hag
        obtain ⟨g3, rfl, hr3⟩ := merge_false hgm
        refine ⟨fun q hq => ?_, g3, rfl, hr2.trans hr3⟩
        rcases List.mem_append.mp hq with hq | hq
        · exact fails_other (p := false) q hq
        · obtain ⟨x, hx, rfl⟩ := List.mem_map.mp hq
          exact (hfail x hx).under
      | some v =>
        obtain ⟨pre, q, post, rfl, h6, h7, h8⟩ := hag
        refine ⟨rt.map (Ret.under (.bit false, true)) ++ pre.map (Ret.under (.bit false, false)), Ret.under (.bit false, false) q,
          post.map (Ret.under (.bit false, false)), by simp, fun x hx => ?_, ?_, h8⟩
        · rcases List.mem_append.mp hx with hx | hx
          · exact fails_other (p := false) x hx
          · obtain ⟨y, hy, rfl⟩ := List.mem_map.mp hx
            exact (h6 y hy).under
        · intro x hx
          rcases List.mem_cons.mp hx with rfl | hx
          · rfl
          · exact h7 x hx

end Peak.Rw
