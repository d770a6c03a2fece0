import Verif.Lemmas.Rewriter
/-!
# Lemmas for C60: bodies that raise nothing
-/

namespace Peak.Rw

variable {C : Comps} {Γ : Sig}

theorem ok_bind {α β : Type} {x : Except Err α} {f : α → Except Err β} {a : α} (h : x = .ok a) : (x >>= f) = f a := by
  rw [h]; rfl

/-- The variables in `D` have values. -/
def HasVars (D : Nat → Bool) (fr : Frame) : Prop := ∀ x, D x = true → ∃ v, fr.vars[x]? = some (some v)

theorem callComp_total (hC : C.Typed Γ) (hT : C.Total Γ) {i : Nat} {v : V} {ss : List V} {a s t : Ty} (hi : Γ.comps[i]? = some (a, s, t)) (hv : tyOf v = a)
    (hs : StatesTyped Γ ss) : ∃ r ss', callComp C i v ss = .ok (r, ss') ∧ tyOf r = t ∧ StatesTyped Γ ss' := by
  have hlen : ss.length = Γ.comps.length := by
    have := congrArg List.length hs
    simpa using this
  have hlt : i < ss.length := hlen ▸ (List.getElem?_eq_some_iff.mp hi).1
  have hst : ss[i]? = some ss[i] := by simp
  obtain ⟨⟨r, st⟩, h⟩ := hT i a s t hi v ss[i] hv (state_ty hs hi hst)
  have hc : callComp C i v ss = .ok (r, ss.set i st) := by
    unfold callComp
    rw [hst]
    exact ok_bind h
  exact ⟨r, _, hc, callComp_ty hC hi hv hs hc⟩

theorem andV_total {a b : V} (ha : tyOf a = .bit) (hb : tyOf b = .bit) : ∃ v, andV a b = .ok v ∧ tyOf v = .bit := by
  obtain ⟨x, rfl⟩ := tyOf_bit ha
  obtain ⟨y, rfl⟩ := tyOf_bit hb
  exact ⟨_, rfl, rfl⟩

theorem orV_total {a b : V} (ha : tyOf a = .bit) (hb : tyOf b = .bit) : ∃ v, orV a b = .ok v ∧ tyOf v = .bit := by
  obtain ⟨x, rfl⟩ := tyOf_bit ha
  obtain ⟨y, rfl⟩ := tyOf_bit hb
  exact ⟨_, rfl, rfl⟩

theorem notV_total {a : V} (ha : tyOf a = .bit) : ∃ v, notV a = .ok v ∧ tyOf v = .bit := by
  obtain ⟨x, rfl⟩ := tyOf_bit ha
  exact ⟨_, rfl, rfl⟩

theorem iteV_total {c a b : V} {τ : Ty} (hc : tyOf c = .bit) (ha : tyOf a = τ) (hb : tyOf b = τ) : ∃ v, iteV c a b = .ok v ∧ tyOf v = τ := by
  obtain ⟨p, rfl⟩ := tyOf_bit hc
  refine ⟨if p then a else b, ?_, ?_⟩
  · show (if tyOf a = tyOf b then _ else _) = _
    rw [if_pos (ha.trans hb.symm)]
  · cases p
    · exact hb
    · exact ha

theorem phi_total {c a b : V} {τ : Ty} (hc : tyOf c = .bit) (ha : tyOf a = τ) (hb : tyOf b = τ) : ∃ v, phi c a b = .ok v ∧ tyOf v = τ := by
  unfold phi
  split
  · exact ⟨a, rfl, ha⟩
  · exact iteV_total hc ha hb

theorem rwEval_total (hC : C.Typed Γ) (hT : C.Total Γ) {D : Nat → Bool} : ∀ (e : Ex) {τ : Ty} {fr : Frame} {ss : List V}, e.HasTy Γ τ → e.Total Γ D →
    fr.Typed Γ → HasVars D fr → StatesTyped Γ ss → ∃ v ss', rwEval C e fr ss = .ok (v, ss') ∧ tyOf v = τ ∧ StatesTyped Γ ss' := by
  intro e
  induction e with
  | var x =>
    intro τ fr ss ht hto hf hd hs
    obtain ⟨v, hv⟩ := hd x hto
    refine ⟨v, ss, ?_, ?_, hs⟩
    · show (fr.getVar x >>= _) = _
      exact ok_bind (by unfold Frame.getVar; rw [hv])
    · have := hf.2.1 x v hv
      rw [show Γ.vars[x]? = some τ from ht] at this
      exact (Option.some.inj this).symm
  | attr a =>
    intro τ fr ss ht hto hf hd hs
    have hm : (fr.attrs.map tyOf)[a]? = some τ := by rw [hf.2.2]; exact ht
    rw [List.getElem?_map] at hm
    cases hv : fr.attrs[a]? with
    | none => rw [hv] at hm; cases hm
    | some v =>
      rw [hv] at hm
      refine ⟨v, ss, ?_, Option.some.inj hm, hs⟩
      show (fr.getAttr a >>= _) = _
      exact ok_bind (by unfold Frame.getAttr; rw [hv])
  | lit w => intro τ fr ss ht hto hf hd hs; exact ⟨w, ss, rfl, ht, hs⟩
  | op1 f e ih =>
    intro τ fr ss ht hto hf hd hs
    obtain ⟨σ, h1, h2⟩ := ht
    obtain ⟨v, s1, hv, htv, hs1⟩ := ih h1 hto.1 hf hd hs
    obtain ⟨r, hr⟩ := hto.2 σ h1 v htv
    refine ⟨r, s1, ?_, h2 v r htv hr, hs1⟩
    exact (ok_bind hv).trans (ok_bind hr)
  | op2 f e1 e2 ih1 ih2 =>
    intro τ fr ss ht hto hf hd hs
    obtain ⟨σ1, σ2, h1, h2, h3⟩ := ht
    obtain ⟨v, s1, hv, htv, hs1⟩ := ih1 h1 hto.1 hf hd hs
    obtain ⟨w, s2, hw, htw, hs2⟩ := ih2 h2 hto.2.1 hf hd hs1
    obtain ⟨r, hr⟩ := hto.2.2 σ1 σ2 h1 h2 v w htv htw
    refine ⟨r, s2, ?_, h3 v w r htv htw hr, hs2⟩
    exact (ok_bind hv).trans ((ok_bind hw).trans (ok_bind hr))
  | sub i e ih =>
    intro τ fr ss ht hto hf hd hs
    obtain ⟨σ, s, h1, h2⟩ := ht
    obtain ⟨v, s1, hv, htv, hs1⟩ := ih h1 hto hf hd hs
    obtain ⟨r, s2, hr, htr, hs2⟩ := callComp_total hC hT h2 htv hs1
    exact ⟨r, s2, (ok_bind hv).trans hr, htr, hs2⟩
  | and e1 e2 ih1 ih2 =>
    intro τ fr ss ht hto hf hd hs
    obtain ⟨rfl, h1, h2⟩ := ht
    obtain ⟨v, s1, hv, htv, hs1⟩ := ih1 h1 hto.1 hf hd hs
    obtain ⟨w, s2, hw, htw, hs2⟩ := ih2 h2 hto.2 hf hd hs1
    obtain ⟨r, hr, htr⟩ := andV_total htv htw
    exact ⟨r, s2, (ok_bind hv).trans ((ok_bind hw).trans (ok_bind hr)), htr, hs2⟩
  | or e1 e2 ih1 ih2 =>
    intro τ fr ss ht hto hf hd hs
    obtain ⟨rfl, h1, h2⟩ := ht
    obtain ⟨v, s1, hv, htv, hs1⟩ := ih1 h1 hto.1 hf hd hs
    obtain ⟨w, s2, hw, htw, hs2⟩ := ih2 h2 hto.2 hf hd hs1
    obtain ⟨r, hr, htr⟩ := orV_total htv htw
    exact ⟨r, s2, (ok_bind hv).trans ((ok_bind hw).trans (ok_bind hr)), htr, hs2⟩
  | not e ih =>
    intro τ fr ss ht hto hf hd hs
    obtain ⟨rfl, h1⟩ := ht
    obtain ⟨v, s1, hv, htv, hs1⟩ := ih h1 hto hf hd hs
    obtain ⟨r, hr, htr⟩ := notV_total htv
    exact ⟨r, s1, (ok_bind hv).trans (ok_bind hr), htr, hs1⟩
  | cond c t f ihc iht ihf =>
    intro τ fr ss ht hto hf hd hs
    obtain ⟨h1, h2, h3⟩ := ht
    obtain ⟨u, s1, hu, htu, hs1⟩ := ihc h1 hto.1 hf hd hs
    obtain ⟨v, s2, hv, htv, hs2⟩ := iht h2 hto.2.1 hf hd hs1
    obtain ⟨w, s3, hw, htw, hs3⟩ := ihf h3 hto.2.2 hf hd hs2
    obtain ⟨r, hr, htr⟩ := iteV_total htu htv htw
    exact ⟨r, s3, (ok_bind hu).trans ((ok_bind hv).trans ((ok_bind hw).trans (ok_bind hr))), htr, hs3⟩

theorem pyEval_total (hC : C.Typed Γ) (hT : C.Total Γ) {D : Nat → Bool} : ∀ (e : Ex) {τ : Ty} {fr : Frame} {ss : List V}, e.HasTy Γ τ → e.Total Γ D →
    fr.Typed Γ → HasVars D fr → StatesTyped Γ ss → ∃ v ss', pyEval C e fr ss = .ok (v, ss') ∧ tyOf v = τ ∧ StatesTyped Γ ss' := by
  intro e
  induction e with
  | var x =>
    intro τ fr ss ht hto hf hd hs
    obtain ⟨v, hv⟩ := hd x hto
    refine ⟨v, ss, ?_, ?_, hs⟩
    · show (fr.getVar x >>= _) = _
      exact ok_bind (by unfold Frame.getVar; rw [hv])
    · have := hf.2.1 x v hv
      rw [show Γ.vars[x]? = some τ from ht] at this
      exact (Option.some.inj this).symm
  | attr a =>
    intro τ fr ss ht hto hf hd hs
    have hm : (fr.attrs.map tyOf)[a]? = some τ := by rw [hf.2.2]; exact ht
    rw [List.getElem?_map] at hm
    cases hv : fr.attrs[a]? with
    | none => rw [hv] at hm; cases hm
    | some v =>
      rw [hv] at hm
      refine ⟨v, ss, ?_, Option.some.inj hm, hs⟩
      show (fr.getAttr a >>= _) = _
      exact ok_bind (by unfold Frame.getAttr; rw [hv])
  | lit w => intro τ fr ss ht hto hf hd hs; exact ⟨w, ss, rfl, ht, hs⟩
  | op1 f e ih =>
    intro τ fr ss ht hto hf hd hs
    obtain ⟨σ, h1, h2⟩ := ht
    obtain ⟨v, s1, hv, htv, hs1⟩ := ih h1 hto.1 hf hd hs
    obtain ⟨r, hr⟩ := hto.2 σ h1 v htv
    refine ⟨r, s1, ?_, h2 v r htv hr, hs1⟩
    exact (ok_bind hv).trans (ok_bind hr)
  | op2 f e1 e2 ih1 ih2 =>
    intro τ fr ss ht hto hf hd hs
    obtain ⟨σ1, σ2, h1, h2, h3⟩ := ht
    obtain ⟨v, s1, hv, htv, hs1⟩ := ih1 h1 hto.1 hf hd hs
    obtain ⟨w, s2, hw, htw, hs2⟩ := ih2 h2 hto.2.1 hf hd hs1
    obtain ⟨r, hr⟩ := hto.2.2 σ1 σ2 h1 h2 v w htv htw
    refine ⟨r, s2, ?_, h3 v w r htv htw hr, hs2⟩
    exact (ok_bind hv).trans ((ok_bind hw).trans (ok_bind hr))
  | sub i e ih =>
    intro τ fr ss ht hto hf hd hs
    obtain ⟨σ, s, h1, h2⟩ := ht
    obtain ⟨v, s1, hv, htv, hs1⟩ := ih h1 hto hf hd hs
    obtain ⟨r, s2, hr, htr, hs2⟩ := callComp_total hC hT h2 htv hs1
    exact ⟨r, s2, (ok_bind hv).trans hr, htr, hs2⟩
  | and e1 e2 ih1 ih2 =>
    intro τ fr ss ht hto hf hd hs
    obtain ⟨rfl, h1, h2⟩ := ht
    obtain ⟨v, s1, hv, htv, hs1⟩ := ih1 h1 hto.1 hf hd hs
    obtain ⟨p, rfl⟩ := tyOf_bit htv
    cases p with
    | true =>
      obtain ⟨w, s2, hw, htw, hs2⟩ := ih2 h2 hto.2 hf hd hs1
      exact ⟨w, s2, (ok_bind hv).trans hw, htw, hs2⟩
    | false => exact ⟨.bit false, s1, ok_bind hv, rfl, hs1⟩
  | or e1 e2 ih1 ih2 =>
    intro τ fr ss ht hto hf hd hs
    obtain ⟨rfl, h1, h2⟩ := ht
    obtain ⟨v, s1, hv, htv, hs1⟩ := ih1 h1 hto.1 hf hd hs
    obtain ⟨p, rfl⟩ := tyOf_bit htv
    cases p with
    | false =>
      obtain ⟨w, s2, hw, htw, hs2⟩ := ih2 h2 hto.2 hf hd hs1
      exact ⟨w, s2, (ok_bind hv).trans hw, htw, hs2⟩
    | true => exact ⟨.bit true, s1, ok_bind hv, rfl, hs1⟩
  | not e ih =>
    intro τ fr ss ht hto hf hd hs
    obtain ⟨rfl, h1⟩ := ht
    obtain ⟨v, s1, hv, htv, hs1⟩ := ih h1 hto hf hd hs
    exact ⟨_, s1, ok_bind hv, rfl, hs1⟩
  | cond c t f ihc iht ihf =>
    intro τ fr ss ht hto hf hd hs
    obtain ⟨h1, h2, h3⟩ := ht
    obtain ⟨u, s1, hu, htu, hs1⟩ := ihc h1 hto.1 hf hd hs
    obtain ⟨p, rfl⟩ := tyOf_bit htu
    cases p with
    | true =>
      obtain ⟨v, s2, hv, htv, hs2⟩ := iht h2 hto.2.1 hf hd hs1
      exact ⟨v, s2, (ok_bind hu).trans hv, htv, hs2⟩
    | false =>
      obtain ⟨v, s2, hv, htv, hs2⟩ := ihf h3 hto.2.2 hf hd hs1
      exact ⟨v, s2, (ok_bind hu).trans hv, htv, hs2⟩

/-! ## Statements -/

theorem HasVars.setVar {D : Nat → Bool} {fr : Frame} (h : HasVars D fr) {x : Nat} (v : V) (hx : x < fr.vars.length) :
    HasVars (fun y => D y || y == x) (fr.setVar x v) := by
  intro y hy
  simp only [Frame.setVar, List.getElem?_set]
  by_cases hxy : x = y
  · subst hxy
    rw [if_pos rfl, if_pos hx]
    exact ⟨v, rfl⟩
  · rw [if_neg hxy]
    simp only [Bool.or_eq_true, beq_iff_eq] at hy
    rcases hy with hy | hy
    · exact h y hy
    · exact absurd hy.symm hxy

theorem zipE_total {α : Type} {f : α → α → Except Err α} {P : Nat → α → α → α → Prop} : ∀ {as bs : List α}, as.length = bs.length →
    (∀ (i : Nat) (a b : α), as[i]? = some a → bs[i]? = some b → ∃ c, f a b = .ok c ∧ P i a b c) →
    ∃ cs, zipE f as bs = .ok cs ∧ cs.length = as.length ∧
      ∀ (i : Nat) (a b : α), as[i]? = some a → bs[i]? = some b → ∃ c, cs[i]? = some c ∧ P i a b c := by
  intro as
  induction as generalizing P with
  | nil =>
    intro bs hl _
    cases bs with
    | nil => exact ⟨[], rfl, rfl, fun i a b ha => by simp at ha⟩
    | cons b bs => cases hl
  | cons a as ih =>
    intro bs hl h
    cases bs with
    | nil => cases hl
    | cons b bs =>
      obtain ⟨c, hc, hp⟩ := h 0 a b rfl rfl
      obtain ⟨cs, hcs, hl', hps⟩ := ih (P := fun i => P (i + 1)) (Nat.succ.inj hl) (fun i a b ha hb => h (i + 1) a b (by simpa using ha) (by simpa using hb))
      refine ⟨c :: cs, (ok_bind hc).trans (ok_bind hcs), by simp [hl'], fun i x y hx hy => ?_⟩
      cases i with
      | zero =>
        simp only [List.getElem?_cons_zero, Option.some.injEq] at hx hy
        subst hx; subst hy
        exact ⟨c, rfl, hp⟩
      | succ i =>
        simp only [List.getElem?_cons_succ] at hx hy ⊢
        exact hps i x y hx hy

theorem zipE_phi_total {c : V} (hc : tyOf c = .bit) {as bs : List V} {ts : List Ty} (ha : as.map tyOf = ts) (hb : bs.map tyOf = ts) :
    ∃ cs, zipE (phi c) as bs = .ok cs ∧ cs.map tyOf = ts := by
  have hl : as.length = bs.length := by
    have e1 := congrArg List.length ha
    have e2 := congrArg List.length hb
    simp only [List.length_map] at e1 e2
    omega
  have hty : ∀ (i : Nat) (a b : V), as[i]? = some a → bs[i]? = some b → tyOf a = tyOf b := by
    intro i a b h1 h2
    have e1 : (as.map tyOf)[i]? = (bs.map tyOf)[i]? := by rw [ha, hb]
    rw [List.getElem?_map, List.getElem?_map, h1, h2] at e1
    exact Option.some.inj e1
  obtain ⟨cs, h1, h2, h3⟩ := zipE_total (f := phi c) (P := fun _ a _ d => tyOf d = tyOf a) hl (fun i a b h1 h2 => by
    obtain ⟨d, hd, ht⟩ := phi_total hc rfl (hty i a b h1 h2).symm
    exact ⟨d, hd, ht⟩)
  refine ⟨cs, h1, ?_⟩
  rw [← ha]
  apply List.ext_getElem?
  intro i
  rw [List.getElem?_map, List.getElem?_map]
  by_cases hi : i < as.length
  · obtain ⟨d, hd, ht⟩ := h3 i as[i] (bs[i]'(hl ▸ hi)) (by simp) (by simp)
    rw [hd, List.getElem?_eq_getElem hi]
    exact congrArg some ht
  · rw [List.getElem?_eq_none (by omega), List.getElem?_eq_none (by omega)]

/-- The state after a statement, and the variables it has assigned. -/
def StateOk (Γ : Sig) : Option Frame → Option (Nat → Bool) → Prop
  | none, none => True
  | some fr, some D => fr.Typed Γ ∧ HasVars D fr
  | _, _ => False

theorem merge_total {c : V} (hc : tyOf c = .bit) {a b : Option Frame} {Da Db : Option (Nat → Bool)} (ha : StateOk Γ a Da) (hb : StateOk Γ b Db) :
    ∃ r, merge c a b = .ok r ∧ StateOk Γ r (match (generalizing := false) Da, Db with
      | none, d => d
      | d, none => d
      | some a, some b => some (fun y => a y && b y)) := by
  cases a with
  | none => cases Da with
    | none => exact ⟨b, rfl, hb⟩
    | some D => cases ha
  | some fa => cases Da with
    | none => cases ha
    | some Da => cases b with
      | none => cases Db with
        | none => exact ⟨some fa, rfl, ha⟩
        | some D => cases hb
      | some fb => cases Db with
        | none => cases hb
        | some Db =>
          obtain ⟨hta, hda⟩ := ha
          obtain ⟨htb, hdb⟩ := hb
          obtain ⟨vs, hvs, hlen, hP⟩ := zipE_total (f := phiVar c) (as := fa.vars) (bs := fb.vars)
            (P := fun i x y z => (∀ v, z = some v → Γ.vars[i]? = some (tyOf v)) ∧ (x.isSome = true → y.isSome = true → z.isSome = true))
            (hta.1.trans htb.1.symm) (fun i x y hx hy => by
              cases x with
              | none => exact ⟨y, rfl, fun v hv => by subst hv; exact htb.2.1 i v hy, fun h => by cases h⟩
              | some x => cases y with
                | none => exact ⟨some x, rfl, fun v hv => by cases hv; exact hta.2.1 i x hx, fun _ h => by cases h⟩
                | some y =>
                  have e1 := hta.2.1 i x hx
                  have e2 := htb.2.1 i y hy
                  rw [e1] at e2
                  obtain ⟨z, hz, htz⟩ := phi_total hc rfl (Option.some.inj e2).symm
                  exact ⟨some z, ok_bind hz, fun v hv => by cases hv; rw [htz]; exact e1, fun _ _ => rfl⟩)
          obtain ⟨as, has, hta'⟩ := zipE_phi_total hc hta.2.2 htb.2.2
          refine ⟨some ⟨vs, as⟩, (ok_bind hvs).trans (ok_bind has), ⟨hlen.trans hta.1, fun x v hx => ?_, hta'⟩, fun x hx => ?_⟩
          · have hlt : x < vs.length := (List.getElem?_eq_some_iff.mp hx).1
            have hla : x < fa.vars.length := hlen ▸ hlt
            have hlb : x < fb.vars.length := by rw [← hta.1.trans htb.1.symm]; exact hla
            obtain ⟨z, hz, h1, _⟩ := hP x fa.vars[x] fb.vars[x] (by simp) (by simp)
            have hx' : vs[x]? = some (some v) := hx
            rw [hz] at hx'
            exact h1 v (Option.some.inj hx')
          · simp only [Bool.and_eq_true] at hx
            obtain ⟨v, hv⟩ := hda x hx.1
            obtain ⟨w, hw⟩ := hdb x hx.2
            obtain ⟨z, hz, _, h2⟩ := hP x _ _ hv hw
            have := h2 rfl rfl
            cases z with
            | none => cases this
            | some z => exact ⟨z, hz⟩

/-- The returns have the right types and conditions that are bits. -/
def RetsOk (Γ : Sig) (ρ : Ty) (rs : List Ret) : Prop := ∀ r ∈ rs, tyOf r.val = ρ ∧ r.attrs.map tyOf = Γ.attrs ∧ ∀ g ∈ r.guards, tyOf g.1 = .bit

theorem RetsOk.under {ρ : Ty} {rs : List Ret} (h : RetsOk Γ ρ rs) {c : V} (hc : tyOf c = .bit) (p : Bool) : RetsOk Γ ρ (rs.map (Ret.under (c, p))) := by
  intro r hr
  obtain ⟨q, hq, rfl⟩ := List.mem_map.mp hr
  obtain ⟨h1, h2, h3⟩ := h q hq
  refine ⟨h1, h2, fun g hg => ?_⟩
  rcases List.mem_cons.mp hg with rfl | hg
  · exact hc
  · exact h3 g hg

theorem RetsOk.append {ρ : Ty} {rs qs : List Ret} (h1 : RetsOk Γ ρ rs) (h2 : RetsOk Γ ρ qs) : RetsOk Γ ρ (rs ++ qs) := by
  intro r hr
  rcases List.mem_append.mp hr with hr | hr
  · exact h1 r hr
  · exact h2 r hr

/-- The code returns something if every path returns. -/
theorem rwExec_total {ρ : Ty} (hC : C.Typed Γ) (hT : C.Total Γ) : ∀ (s : St) {D : Nat → Bool} {fr : Frame} {ss : List V}, s.Typed Γ ρ → s.Total Γ D →
    fr.Typed Γ → HasVars D fr → StatesTyped Γ ss → ∃ rs g ss', rwExec C s fr ss = .ok (rs, g, ss') ∧ RetsOk Γ ρ rs ∧ StateOk Γ g (s.assigned D) ∧
      StatesTyped Γ ss' ∧ (g = none → rs ≠ []) := by
  intro s
  induction s with
  | skip => intro D fr ss ht hto hf hd hs; exact ⟨[], some fr, ss, rfl, fun r hr => (by cases hr), ⟨hf, hd⟩, hs, fun h => by cases h⟩
  | assign x e =>
    intro D fr ss ht hto hf hd hs
    obtain ⟨τ, hx, ht⟩ := ht
    obtain ⟨v, s1, hv, rfl, hs1⟩ := rwEval_total hC hT e ht hto hf hd hs
    refine ⟨[], some (fr.setVar x v), s1, ok_bind hv, fun r hr => (by cases hr), ⟨typed_setVar hf hx, hd.setVar v ?_⟩, hs1, fun h => by cases h⟩
    rw [hf.1]
    exact (List.getElem?_eq_some_iff.mp hx).1
  | setAttr x e =>
    intro D fr ss ht hto hf hd hs
    obtain ⟨τ, hx, ht⟩ := ht
    obtain ⟨v, s1, hv, rfl, hs1⟩ := rwEval_total hC hT e ht hto hf hd hs
    exact ⟨[], some (fr.setAttr x v), s1, ok_bind hv, fun r hr => (by cases hr), ⟨typed_setAttr hf hx, hd⟩, hs1, fun h => by cases h⟩
  | eval e =>
    intro D fr ss ht hto hf hd hs
    obtain ⟨τ, ht⟩ := ht
    obtain ⟨v, s1, hv, _, hs1⟩ := rwEval_total hC hT e ht hto hf hd hs
    exact ⟨[], some fr, s1, ok_bind hv, fun r hr => (by cases hr), ⟨hf, hd⟩, hs1, fun h => by cases h⟩
  | assert e => intro D fr ss ht hto; cases hto
  | ret e =>
    intro D fr ss ht hto hf hd hs
    obtain ⟨v, s1, hv, htv, hs1⟩ := rwEval_total hC hT e ht hto hf hd hs
    refine ⟨_, none, s1, ok_bind hv, fun r hr => ?_, trivial, hs1, fun _ h => by cases h⟩
    rcases List.mem_cons.mp hr with rfl | hr
    · exact ⟨htv, hf.2.2, fun g hg => by cases hg⟩
    · cases hr
  | seq a b iha ihb =>
    intro D fr ss ht hto hf hd hs
    obtain ⟨hto1, hto2⟩ := hto
    obtain ⟨r1, g1, s1, h1, hr1, hg1, hs1, hn1⟩ := iha ht.1 hto1 hf hd hs
    cases hD : a.assigned D with
    | none =>
      rw [hD] at hg1
      cases g1 with
      | some g => cases hg1
      | none =>
        refine ⟨r1, none, s1, ok_bind h1, hr1, ?_, hs1, hn1⟩
        show StateOk Γ none (match a.assigned D with
          | none => none
          | some D => b.assigned D)
        rw [hD]
        trivial
    | some D' =>
      rw [hD] at hg1 hto2
      cases g1 with
      | none => cases hg1
      | some g =>
        obtain ⟨r2, g2, s2, h2, hr2, hg2, hs2, hn2⟩ := ihb ht.2 hto2 hg1.1 hg1.2 hs1
        refine ⟨r1 ++ r2, g2, s2, (ok_bind h1).trans (ok_bind h2), hr1.append hr2, ?_, hs2, fun h he => ?_⟩
        · show StateOk Γ g2 (match a.assigned D with
            | none => none
            | some D => b.assigned D)
          rw [hD]
          exact hg2
        · exact hn2 h (List.append_eq_nil_iff.mp he).2
  | ifte c t f iht ihf =>
    intro D fr ss ht hto hf hd hs
    obtain ⟨h1, h2, h3⟩ := ht
    obtain ⟨v, s1, hv, htv, hs1⟩ := rwEval_total hC hT c h1 hto.1 hf hd hs
    obtain ⟨rt, gt, s2, h4, hrt, hgt, hs2, hnt⟩ := iht h2 hto.2.1 hf hd hs1
    obtain ⟨rf, gf, s3, h5, hrf, hgf, hs3, hnf⟩ := ihf h3 hto.2.2 hf hd hs2
    obtain ⟨gm, hm, hgm⟩ := merge_total htv hgt hgf
    refine ⟨_, gm, s3, (ok_bind hv).trans ((ok_bind h4).trans ((ok_bind h5).trans (ok_bind hm))), (hrt.under htv true).append (hrf.under htv false), hgm, hs3,
      fun h he => ?_⟩
    obtain ⟨he1, he2⟩ := List.append_eq_nil_iff.mp he
    subst h
    cases gt with
    | none => exact hnt rfl (List.map_eq_nil_iff.mp he1)
    | some gt => cases gf with
      | none => exact hnf rfl (List.map_eq_nil_iff.mp he2)
      | some gf =>
        obtain ⟨vs, _, hm⟩ := bind_ok hm
        obtain ⟨as, _, hm⟩ := bind_ok hm
        cases hm

theorem guardV_total {gs : List (V × Bool)} (h : ∀ g ∈ gs, tyOf g.1 = .bit) : ∃ v, guardV gs = .ok v ∧ tyOf v = .bit := by
  induction gs with
  | nil => exact ⟨_, rfl, rfl⟩
  | cons g gs ih =>
    obtain ⟨c, p⟩ := g
    obtain ⟨w, hw, htw⟩ := ih (fun g hg => h g (by simp [hg]))
    have hc := h (c, p) (by simp)
    have hbr : ∃ a, branchV c p = .ok a ∧ tyOf a = .bit := by
      cases p with
      | true => exact ⟨c, rfl, hc⟩
      | false => exact notV_total hc
    obtain ⟨a, ha, hta⟩ := hbr
    obtain ⟨r, hr, htr⟩ := andV_total hta htw
    exact ⟨r, (ok_bind ha).trans ((ok_bind hw).trans hr), htr⟩

theorem select_total {ρ : Ty} : ∀ {rs : List Ret}, RetsOk Γ ρ rs → rs ≠ [] → ∃ v as, select rs = .ok (v, as) ∧ tyOf v = ρ ∧ as.map tyOf = Γ.attrs := by
  intro rs
  induction rs with
  | nil => exact fun _ h => absurd rfl h
  | cons r rs ih =>
    intro h _
    obtain ⟨h1, h2, h3⟩ := h r (by simp)
    cases rs with
    | nil => exact ⟨r.val, r.attrs, rfl, h1, h2⟩
    | cons q qs =>
      obtain ⟨v, as, hs, htv, hta⟩ := ih (fun x hx => h x (by simp [List.mem_cons.mp hx])) (by simp)
      obtain ⟨g, hg, htg⟩ := guardV_total h3
      obtain ⟨w, hw, htw⟩ := iteV_total htg h1 htv
      obtain ⟨bs, hbs, htb⟩ := zipE_phi_total htg h2 hta
      exact ⟨w, bs, (ok_bind hs).trans ((ok_bind hg).trans ((ok_bind hw).trans (ok_bind hbs))), htw, htb⟩

/-- Python's state after a statement that has not returned. -/
def PyStateOk (Γ : Sig) (fr : Frame) (r : Option V) (D : Option (Nat → Bool)) : Prop :=
  fr.Typed Γ ∧ (r = none → ∃ D', D = some D' ∧ HasVars D' fr)

theorem HasVars.mono {D D' : Nat → Bool} {fr : Frame} (h : HasVars D fr) (hd : ∀ y, D' y = true → D y = true) : HasVars D' fr :=
  fun x hx => h x (hd x hx)

theorem pyExec_total {ρ : Ty} (hC : C.Typed Γ) (hT : C.Total Γ) : ∀ (s : St) {D : Nat → Bool} {fr : Frame} {ss : List V}, s.Typed Γ ρ → s.Total Γ D →
    fr.Typed Γ → HasVars D fr → StatesTyped Γ ss → ∃ fr' ss' r, pyExec C s fr ss = .ok (fr', ss', r) ∧ PyStateOk Γ fr' r (s.assigned D) ∧ StatesTyped Γ ss' := by
  intro s
  induction s with
  | skip => intro D fr ss ht hto hf hd hs; exact ⟨fr, ss, none, rfl, ⟨hf, fun _ => ⟨D, rfl, hd⟩⟩, hs⟩
  | assign x e =>
    intro D fr ss ht hto hf hd hs
    obtain ⟨τ, hx, ht⟩ := ht
    obtain ⟨v, s1, hv, rfl, hs1⟩ := pyEval_total hC hT e ht hto hf hd hs
    refine ⟨fr.setVar x v, s1, none, ok_bind hv, ⟨typed_setVar hf hx, fun _ => ⟨_, rfl, hd.setVar v ?_⟩⟩, hs1⟩
    rw [hf.1]
    exact (List.getElem?_eq_some_iff.mp hx).1
  | setAttr x e =>
    intro D fr ss ht hto hf hd hs
    obtain ⟨τ, hx, ht⟩ := ht
    obtain ⟨v, s1, hv, rfl, hs1⟩ := pyEval_total hC hT e ht hto hf hd hs
    exact ⟨fr.setAttr x v, s1, none, ok_bind hv, ⟨typed_setAttr hf hx, fun _ => ⟨D, rfl, hd⟩⟩, hs1⟩
  | eval e =>
    intro D fr ss ht hto hf hd hs
    obtain ⟨τ, ht⟩ := ht
    obtain ⟨v, s1, hv, _, hs1⟩ := pyEval_total hC hT e ht hto hf hd hs
    exact ⟨fr, s1, none, ok_bind hv, ⟨hf, fun _ => ⟨D, rfl, hd⟩⟩, hs1⟩
  | assert e => intro D fr ss ht hto; cases hto
  | ret e =>
    intro D fr ss ht hto hf hd hs
    obtain ⟨v, s1, hv, htv, hs1⟩ := pyEval_total hC hT e ht hto hf hd hs
    exact ⟨fr, s1, some v, ok_bind hv, ⟨hf, fun h => by cases h⟩, hs1⟩
  | seq a b iha ihb =>
    intro D fr ss ht hto hf hd hs
    obtain ⟨hto1, hto2⟩ := hto
    obtain ⟨f1, s1, r1, h1, hg1, hs1⟩ := iha ht.1 hto1 hf hd hs
    cases r1 with
    | some v => exact ⟨f1, s1, some v, ok_bind h1, ⟨hg1.1, fun h => by cases h⟩, hs1⟩
    | none =>
      obtain ⟨D', hD, hd'⟩ := hg1.2 rfl
      rw [hD] at hto2
      obtain ⟨f2, s2, r2, h2, hg2, hs2⟩ := ihb ht.2 hto2 hg1.1 hd' hs1
      refine ⟨f2, s2, r2, (ok_bind h1).trans h2, ?_, hs2⟩
      show PyStateOk Γ f2 r2 (match a.assigned D with
        | none => none
        | some D => b.assigned D)
      rw [hD]
      exact hg2
  | ifte c t f iht ihf =>
    intro D fr ss ht hto hf hd hs
    obtain ⟨h1, h2, h3⟩ := ht
    obtain ⟨v, s1, hv, htv, hs1⟩ := pyEval_total hC hT c h1 hto.1 hf hd hs
    obtain ⟨p, rfl⟩ := tyOf_bit htv
    cases p with
    | true =>
      obtain ⟨f1, s2, r, h4, hg, hs2⟩ := iht h2 hto.2.1 hf hd hs1
      refine ⟨f1, s2, r, (ok_bind hv).trans h4, ⟨hg.1, fun h => ?_⟩, hs2⟩
      obtain ⟨D', hD, hd'⟩ := hg.2 h
      show ∃ D', (match t.assigned D, f.assigned D with
        | none, d => d
        | d, none => d
        | some a, some b => some (fun y => a y && b y)) = some D' ∧ HasVars D' f1
      rw [hD]
      cases f.assigned D with
      | none => exact ⟨D', rfl, hd'⟩
      | some D2 => exact ⟨_, rfl, hd'.mono (fun y hy => by simp only [Bool.and_eq_true] at hy; exact hy.1)⟩
    | false =>
      obtain ⟨f1, s2, r, h4, hg, hs2⟩ := ihf h3 hto.2.2 hf hd hs1
      refine ⟨f1, s2, r, (ok_bind hv).trans h4, ⟨hg.1, fun h => ?_⟩, hs2⟩
      obtain ⟨D', hD, hd'⟩ := hg.2 h
      show ∃ D', (match t.assigned D, f.assigned D with
        | none, d => d
        | d, none => d
        | some a, some b => some (fun y => a y && b y)) = some D' ∧ HasVars D' f1
      rw [hD]
      cases t.assigned D with
      | none => exact ⟨D', rfl, hd'⟩
      | some D2 => exact ⟨_, rfl, hd'.mono (fun y hy => by simp only [Bool.and_eq_true] at hy; exact hy.2)⟩

end Peak.Rw
