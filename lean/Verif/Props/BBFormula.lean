import Verif.Model.BBFormula
import Verif.Lemmas.Bindings
import Verif.Lemmas.Basic
/-!
# C35: black boxes as uninterpreted functions
-/

namespace Peak

namespace BBf

theorem bbAdd_eq {K : Type} [DecidableEq K] (k : K) (io : List BV × List BV) (m : List (K × List (List BV × List BV))) :
    bbAdd k io m = addByT k io m := by
  induction m with
  | nil => rfl
  | cons e m ih => obtain ⟨k', ios⟩ := e; simp only [bbAdd, addByT, ih]

theorem io_eq {K : Type} [DecidableEq K] (calls : List (K × List BV × List BV)) :
    calls.foldl (fun m c => bbAdd c.1 c.2 m) [] = sortByT (calls.map (fun c => (c.2, c.1))) := by
  unfold sortByT
  rw [List.foldl_map]
  simp only [bbAdd_eq]

theorem eqAll_ok {x y : List BV} {b : Bool} (hl : x.length = y.length) (h : eqAll x y = .ok b) : b = true ↔ x = y := by
  unfold eqAll at h
  split at h
  · cases h
  · next hs =>
    split at h
    · cases h
    · cases h
      have hs' : (x.zip y).any (fun p => p.1.size != p.2.size) = false := by simpa using hs
      clear hs
      rename_i hz
      clear hz
      induction x generalizing y with
      | nil => cases y with
        | nil => simp
        | cons _ _ => simp at hl
      | cons a x ih =>
        cases y with
        | nil => simp at hl
        | cons c y =>
          simp only [List.zip_cons_cons, List.any_cons, Bool.or_eq_false_iff] at hs'
          simp only [List.zip_cons_cons, List.all_cons, Bool.and_eq_true, beq_iff_eq, List.cons.injEq]
          refine (and_congr Iff.rfl (ih (by simpa using hl) hs'.2)).trans ?_
          refine and_congr_left (fun _ => ⟨fun h => BV.ext (by simpa using hs'.1) h, fun h => by rw [h]⟩)

theorem bbPair_ok {c d : List BV × List BV} {b : Bool} (h : bbPair c d = .ok b) : b = true ↔ (c.1 = d.1 → c.2 = d.2) := by
  unfold bbPair at h
  split at h
  · cases h
  · next h1 =>
    split at h
    · cases h
    · next h2 =>
      split at h
      · cases h
      · next i hi =>
        split at h
        · cases h
        · next o ho =>
          cases h
          have e1 := eqAll_ok (Classical.not_not.mp h1) hi
          have e2 := eqAll_ok (Classical.not_not.mp h2) ho
          rw [← e1, ← e2]
          cases i <;> simp

theorem bbPairs_ok {ps : List ((List BV × List BV) × (List BV × List BV))} {bs : List Bool} (h : bbPairs ps = .ok bs) :
    (bs.all id = true ↔ ∀ p ∈ ps, p.1.1 = p.2.1 → p.1.2 = p.2.2) := by
  induction ps generalizing bs with
  | nil => cases h; simp
  | cons p ps ih =>
    obtain ⟨c, d⟩ := p
    unfold bbPairs at h
    split at h
    · cases h
    · next b hb =>
      split at h
      · cases h
      · next bs' hbs =>
        cases h
        simp only [List.all_cons, id, Bool.and_eq_true, List.forall_mem_cons]
        rw [bbPair_ok hb]
        exact and_congr_right (fun _ => ih hbs)

theorem combinations2_iff {α : Type} (R : α → α → Prop) (hr : ∀ x, R x x) (hs : ∀ x y, R x y → R y x) (l : List α) :
    (∀ p ∈ combinations2 l, R p.1 p.2) ↔ ∀ x ∈ l, ∀ y ∈ l, R x y := by
  induction l with
  | nil => simp [combinations2]
  | cons a l ih =>
    simp only [combinations2, List.mem_append, List.mem_map, List.forall_mem_cons]
    constructor
    · intro h
      have h1 : ∀ y ∈ l, R a y := fun y hy => h (a, y) (.inl ⟨y, hy, rfl⟩)
      have h2 := ih.mp (fun p hp => h p (.inr hp))
      exact ⟨⟨hr a, h1⟩, fun x hx => ⟨hs _ _ (h1 x hx), h2 x hx⟩⟩
    · rintro ⟨⟨_, h1⟩, h2⟩ p (⟨y, hy, rfl⟩ | hp)
      · exact h1 y hy
      · exact ih.mpr (fun x hx => (h2 x hx).2) p hp

theorem collect_ok {P K : Type} [DecidableEq P] (inputs outputs : List (P × List BV)) (bbs : List (P × K))
    (r : List (K × List BV × List BV)) (h : bbCollect inputs outputs bbs = .ok r) :
    List.Forall₂ (fun c b => c.1 = b.2 ∧ inputs.lookup b.1 = some c.2.1 ∧ outputs.lookup b.1 = some c.2.2) r bbs := by
  induction bbs generalizing r with
  | nil => cases h; exact .nil
  | cons b bbs ih =>
    obtain ⟨p, k⟩ := b
    unfold bbCollect at h
    split at h
    · cases h
    · next i hi =>
      split at h
      · cases h
      · next o ho =>
        split at h
        · cases h
        · next r' hr =>
          cases h
          exact .cons ⟨rfl, hi, ho⟩ (ih r' hr)

theorem lookup_perm_none {A : Type} {P : Type} [DecidableEq P] (l : List (P × A)) (p : P) : (l.lookup p).isSome = true ↔ p ∈ l.map (·.1) := by
  induction l with
  | nil => simp
  | cons e l ih =>
    obtain ⟨k, v⟩ := e
    by_cases h : p = k
    · subst h; simp
    · simp only [List.lookup, beq_eq_false_iff_ne.mpr h, ih, List.map_cons, List.mem_cons, h, false_or]

end BBf

/-- A recorded black-box call: instance `path` of class `k` (in the architecture or the IR) was given `ins` and was made to
return `outs`. -/
def Called {P K : Type} [DecidableEq P] (bbs : List (P × K)) (inputs outputs : List (P × List BV)) (k : K) (ins outs : List BV) : Prop :=
  ∃ path, (path, k) ∈ bbs ∧ inputs.lookup path = some ins ∧ outputs.lookup path = some outs

/-- C35: when `update_with_bb` succeeds, the resulting formula holds exactly when: if some function per black-box class maps the inputs of
every recorded call (of the architecture and of the IR) to its outputs, then the original formula holds.  The list of
universally quantified values consists of exactly the outputs of the calls. -/
theorem C35_uninterpreted {P K : Type} [DecidableEq P] [DecidableEq K] (f : Bool)
    (archBBs : List (P × K)) (archIn archOut : List (P × List BV)) (irBBs : List (P × K)) (irIn irOut : List (P × List BV))
    (g : Bool) (fa : List BV) (h : updateWithBB f archBBs archIn archOut irBBs irIn irOut = .ok (g, fa)) :
    (g = true ↔ ((∃ F : K → List BV → List BV, ∀ k ins outs,
      (Called archBBs archIn archOut k ins outs ∨ Called irBBs irIn irOut k ins outs) → F k ins = outs) → f = true)) ∧
    (∀ b, b ∈ fa ↔ ∃ k ins outs, (Called archBBs archIn archOut k ins outs ∨ Called irBBs irIn irOut k ins outs) ∧ b ∈ outs) := by
  unfold updateWithBB at h
  split at h
  · cases h
  · split at h
    · cases h
    · split at h
      · cases h
      · next ca hca =>
        split at h
        · cases h
        · next ci hci =>
          simp only [] at h
          split at h
          · cases h
          · next conds hconds =>
            have hmem : ∀ (bbs : List (P × K)) (i o : List (P × List BV)) (r : List (K × List BV × List BV)), bbCollect i o bbs = .ok r →
                ∀ k ins outs, (k, ins, outs) ∈ r ↔ Called bbs i o k ins outs := by
              intro bbs i o r hr k ins outs
              have := BBf.collect_ok i o bbs r hr
              clear hr
              induction this with
              | nil => simp [Called]
              | @cons c b r bbs h1 _ ih =>
                obtain ⟨k', i', o'⟩ := c
                obtain ⟨p', k''⟩ := b
                obtain ⟨h2, h3, h4⟩ := h1
                simp only at h2 h3 h4
                subst h2
                rw [List.mem_cons]
                refine (or_congr Iff.rfl ih).trans ?_
                constructor
                · rintro (h | ⟨p, h5, h6, h7⟩)
                  · cases h; exact ⟨p', by simp, h3, h4⟩
                  · exact ⟨p, by simp [h5], h6, h7⟩
                · rintro ⟨p, h5, h6, h7⟩
                  rcases List.mem_cons.mp h5 with h | h
                  · cases h
                    rw [h3] at h6; rw [h4] at h7
                    cases h6; cases h7
                    exact .inl rfl
                  · exact .inr ⟨p, h, h6, h7⟩
            have hcall : ∀ k ins outs, (k, ins, outs) ∈ ca ++ ci ↔
                (Called archBBs archIn archOut k ins outs ∨ Called irBBs irIn irOut k ins outs) := by
              intro k ins outs
              rw [List.mem_append, hmem _ _ _ _ hca, hmem _ _ _ _ hci]
            simp only [← hcall]
            cases h
            refine ⟨?_, ?_⟩
            · have hc1 := BBf.bbPairs_ok hconds
              have hc2 : conds.all id = true ↔ ∀ c ∈ ca ++ ci, ∀ d ∈ ca ++ ci, c.1 = d.1 → c.2.1 = d.2.1 → c.2.2 = d.2.2 := by
                rw [hc1, BBf.io_eq]
                have hR := BBf.combinations2_iff (fun (x y : List BV × List BV) => x.1 = y.1 → x.2 = y.2) (fun _ _ => rfl)
                  (fun _ _ h h' => (h h'.symm).symm)
                constructor
                · intro hp c hc d hd hk hi
                  have hkey : c.1 ∈ (sortByT ((ca ++ ci).map (fun c => (c.2, c.1)))).map (·.1) := by
                    rw [Bnd.mem_keys_sortByT]
                    exact List.mem_map.mpr ⟨(c.2, c.1), List.mem_map.mpr ⟨c, hc, rfl⟩, rfl⟩
                  obtain ⟨e, he, hek⟩ := List.mem_map.mp hkey
                  have he2 := (Bnd.mem_sortByT _ e he).1
                  have hin : ∀ x ∈ ca ++ ci, x.1 = e.1 → x.2 ∈ e.2 := by
                    intro x hx hxe
                    rw [he2]
                    refine List.mem_map.mpr ⟨(x.2, x.1), List.mem_filter.mpr ⟨List.mem_map.mpr ⟨x, hx, rfl⟩, by simp [hxe]⟩, rfl⟩
                  exact (hR e.2).mp (fun p hp' => hp p (List.mem_flatMap.mpr ⟨e, he, hp'⟩)) c.2 (hin c hc hek.symm) d.2
                    (hin d hd (hk.symm.trans hek.symm)) hi
                · intro hp p hpm
                  obtain ⟨e, he, hpe⟩ := List.mem_flatMap.mp hpm
                  have he2 := (Bnd.mem_sortByT _ e he).1
                  have hin : ∀ x ∈ e.2, ∃ k, (k, x) ∈ ca ++ ci ∧ k = e.1 := by
                    intro x hx
                    rw [he2] at hx
                    obtain ⟨y, hy, rfl⟩ := List.mem_map.mp hx
                    obtain ⟨hy1, hy2⟩ := List.mem_filter.mp hy
                    obtain ⟨z, hz, rfl⟩ := List.mem_map.mp hy1
                    exact ⟨z.1, hz, by simpa using hy2⟩
                  refine (hR e.2).mpr ?_ p hpe
                  intro x hx y hy hxy
                  obtain ⟨k1, h1, e1⟩ := hin x hx
                  obtain ⟨k2, h2, e2⟩ := hin y hy
                  exact hp _ h1 _ h2 (e1.trans e2.symm) hxy
              have hfun : conds.all id = true ↔
                  ∃ F : K → List BV → List BV, ∀ k ins outs, (k, ins, outs) ∈ ca ++ ci → F k ins = outs := by
                rw [hc2]
                constructor
                · intro hp
                  refine ⟨fun k i => (((ca ++ ci).find? (fun c => c.1 = k ∧ c.2.1 = i)).map (·.2.2)).getD [], ?_⟩
                  intro k ins outs hm
                  cases hf : (ca ++ ci).find? (fun c => decide (c.1 = k ∧ c.2.1 = ins)) with
                  | none =>
                    have := List.find?_eq_none.mp hf _ hm
                    simp at this
                  | some c =>
                    have h1 := List.find?_some hf
                    have h2 := List.mem_of_find?_eq_some hf
                    simp at h1
                    simp only []
                    rw [hf]
                    exact hp c h2 _ hm h1.1 h1.2
                · rintro ⟨F, hF⟩ c hc d hd hk hi
                  rw [← hF _ _ _ hc, ← hF _ _ _ hd, hk, hi]
              rw [← hfun]
              split
              · cases conds.all id <;> simp
              · next h0 =>
                have : conds = [] := List.length_eq_zero_iff.mp (by omega)
                subst this
                simp
            · intro b
              rw [List.mem_flatMap]
              constructor
              · rintro ⟨⟨k, i, o⟩, h1, h2⟩; exact ⟨k, i, o, h1, h2⟩
              · rintro ⟨k, i, o, h1, h2⟩; exact ⟨(k, i, o), h1, h2⟩

/-- C35: it succeeds whenever inputs and outputs are recorded for the same instances, every instance has been recorded, and
the black boxes of a class agree on the widths of their inputs and outputs, having at least one of each. -/
theorem C35_succeeds {P K : Type} [DecidableEq P] [DecidableEq K] (f : Bool)
    (archBBs : List (P × K)) (archIn archOut : List (P × List BV)) (irBBs : List (P × K)) (irIn irOut : List (P × List BV))
    (inW outW : K → List Nat) (hin : ∀ k, inW k ≠ []) (hout : ∀ k, outW k ≠ [])
    (ha1 : ∀ p, p ∈ archIn.map (·.1) ↔ p ∈ archOut.map (·.1)) (hi1 : ∀ p, p ∈ irIn.map (·.1) ↔ p ∈ irOut.map (·.1))
    (ha : ∀ p k, (p, k) ∈ archBBs → ∃ i o, archIn.lookup p = some i ∧ archOut.lookup p = some o ∧
      i.map BV.size = inW k ∧ o.map BV.size = outW k)
    (hi : ∀ p k, (p, k) ∈ irBBs → ∃ i o, irIn.lookup p = some i ∧ irOut.lookup p = some o ∧
      i.map BV.size = inW k ∧ o.map BV.size = outW k) :
    ∃ r, updateWithBB f archBBs archIn archOut irBBs irIn irOut = .ok r := by
  have hkeys : ∀ (a b : List (P × List BV)), (∀ p, p ∈ a.map (·.1) ↔ p ∈ b.map (·.1)) → bbSameKeys a b = true := by
    intro a b hab
    simp only [bbSameKeys, Bool.and_eq_true, List.all_eq_true, BBf.lookup_perm_none]
    exact ⟨fun x hx => (hab _).mp (List.mem_map_of_mem hx), fun x hx => (hab _).mpr (List.mem_map_of_mem hx)⟩
  have hcol : ∀ (i o : List (P × List BV)) (bbs : List (P × K)),
      (∀ p k, (p, k) ∈ bbs → ∃ x y, i.lookup p = some x ∧ o.lookup p = some y ∧ x.map BV.size = inW k ∧ y.map BV.size = outW k) →
      ∃ r, bbCollect i o bbs = .ok r ∧ ∀ c ∈ r, c.2.1.map BV.size = inW c.1 ∧ c.2.2.map BV.size = outW c.1 := by
    intro i o bbs h
    induction bbs with
    | nil => exact ⟨[], rfl, by simp⟩
    | cons b bbs ih =>
      obtain ⟨p, k⟩ := b
      obtain ⟨x, y, h1, h2, h3, h4⟩ := h p k (by simp)
      obtain ⟨r, hr, hr2⟩ := ih (fun p' k' hp => h p' k' (by simp [hp]))
      refine ⟨(k, x, y) :: r, by simp [bbCollect, h1, h2, hr], ?_⟩
      intro c hc
      rcases List.mem_cons.mp hc with rfl | hc
      · exact ⟨h3, h4⟩
      · exact hr2 c hc
  obtain ⟨ca, hca, hca2⟩ := hcol archIn archOut archBBs ha
  obtain ⟨ci, hci, hci2⟩ := hcol irIn irOut irBBs hi
  have heq : ∀ (x y : List BV) (w : List Nat), w ≠ [] → x.map BV.size = w → y.map BV.size = w → ∃ b, eqAll x y = .ok b := by
    intro x y w hw hx hy
    unfold eqAll
    have hs : (x.zip y).any (fun p => p.1.size != p.2.size) = false := by
      clear hw
      induction x generalizing y w with
      | nil => simp
      | cons a x ih =>
        cases y with
        | nil => simp
        | cons c y =>
          subst hx
          simp only [List.map_cons, List.cons.injEq] at hy
          simp only [List.zip_cons_cons, List.any_cons, ih y (x.map BV.size) rfl hy.2, Bool.or_false, bne_eq_false_iff_eq]
          exact hy.1.symm
    have hl : (x.zip y).length ≠ 0 := by
      have h1 := congrArg List.length hx
      have h2 := congrArg List.length hy
      simp only [List.length_map] at h1 h2
      rw [List.length_zip, h1, h2, Nat.min_self]
      exact fun h => hw (List.length_eq_zero_iff.mp h)
    rw [hs, if_neg hl]
    exact ⟨_, rfl⟩
  have hpairs : ∀ ps : List ((List BV × List BV) × (List BV × List BV)),
      (∀ p ∈ ps, ∃ k, p.1.1.map BV.size = inW k ∧ p.1.2.map BV.size = outW k ∧ p.2.1.map BV.size = inW k ∧ p.2.2.map BV.size = outW k) →
      ∃ bs, bbPairs ps = .ok bs := by
    intro ps hps
    induction ps with
    | nil => exact ⟨[], rfl⟩
    | cons p ps ih =>
      obtain ⟨c, d⟩ := p
      obtain ⟨k, h1, h2, h3, h4⟩ := hps (c, d) (by simp)
      simp only at h1 h2 h3 h4
      obtain ⟨bs, hbs⟩ := ih (fun p hp => hps p (by simp [hp]))
      obtain ⟨i, hi'⟩ := heq c.1 d.1 _ (hin k) h1 h3
      obtain ⟨o, ho⟩ := heq c.2 d.2 _ (hout k) h2 h4
      have l1 : c.1.length = d.1.length := by
        have := congrArg List.length (h1.trans h3.symm); simpa using this
      have l2 : c.2.length = d.2.length := by
        have := congrArg List.length (h2.trans h4.symm); simpa using this
      exact ⟨(!i || o) :: bs, by simp [bbPairs, bbPair, l1, l2, hi', ho, hbs]⟩
  have hb : ∃ bs, bbPairs (((ca ++ ci).foldl (fun m c => bbAdd c.1 c.2 m) []).flatMap (fun e => combinations2 e.2)) = .ok bs := by
    apply hpairs
    intro p hp
    obtain ⟨e, he, hpe⟩ := List.mem_flatMap.mp hp
    rw [BBf.io_eq] at he
    have he2 := (Bnd.mem_sortByT _ e he).1
    have hin' : ∀ x ∈ e.2, x.1.map BV.size = inW e.1 ∧ x.2.map BV.size = outW e.1 := by
      intro x hx
      rw [he2] at hx
      obtain ⟨y, hy, rfl⟩ := List.mem_map.mp hx
      obtain ⟨hy1, hy2⟩ := List.mem_filter.mp hy
      obtain ⟨z, hz, rfl⟩ := List.mem_map.mp hy1
      simp only [decide_eq_true_eq] at hy2
      rw [← hy2]
      rcases List.mem_append.mp hz with hz | hz
      · exact hca2 z hz
      · exact hci2 z hz
    have hmem : ∀ (l : List (List BV × List BV)), ∀ q ∈ combinations2 l, q.1 ∈ l ∧ q.2 ∈ l := by
      intro l
      induction l with
      | nil => simp [combinations2]
      | cons a l ih =>
        intro q hq
        rcases List.mem_append.mp hq with hq | hq
        · obtain ⟨y, hy, rfl⟩ := List.mem_map.mp hq
          exact ⟨by simp, by simp [hy]⟩
        · exact ⟨List.mem_cons_of_mem _ (ih q hq).1, List.mem_cons_of_mem _ (ih q hq).2⟩
    obtain ⟨h1, h2⟩ := hmem e.2 p hpe
    exact ⟨e.1, (hin' _ h1).1, (hin' _ h1).2, (hin' _ h2).1, (hin' _ h2).2⟩
  obtain ⟨bs, hbs⟩ := hb
  unfold updateWithBB
  rw [hkeys archOut archIn (fun p => (ha1 p).symm), hkeys irIn irOut hi1, hca, hci]
  simp only [hbs, Bool.not_true, Bool.false_eq_true, if_false]
  exact ⟨_, rfl⟩

/-- One black box in the architecture and one in the IR, of the same class, given the same input: if they return different outputs the
formula holds vacuously; if they return the same output it is the original formula. -/
example : updateWithBB false [(0, "mul")] [(0, [BV.ofNat 8 3])] [(0, [BV.ofNat 8 4])] [(1, "mul")] [(1, [BV.ofNat 8 3])] [(1, [BV.ofNat 8 5])] =
      .ok (true, [BV.ofNat 8 4, BV.ofNat 8 5]) ∧
    updateWithBB false [(0, "mul")] [(0, [BV.ofNat 8 3])] [(0, [BV.ofNat 8 4])] [(1, "mul")] [(1, [BV.ofNat 8 3])] [(1, [BV.ofNat 8 4])] =
      .ok (false, [BV.ofNat 8 4, BV.ofNat 8 4]) := ⟨rfl, rfl⟩

end Peak
