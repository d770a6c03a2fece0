import Verif.Props.IRMapper
import Verif.Props.SimpleFormula
/-!
# C33 and C55 with constraints on inputs that are not `Const`

Such a constraint asks for a rule that is right for each of the allowed values.
-/

namespace Peak
open Peak.Spec

namespace IM
variable {B K : Type} {pb : MapPb B K}

theorem isFree_iff {p : RPath} : IsFree pb p ↔ constAt pb.archConst p = false ∧ p ∈ pb.cons.map (·.1) := by
  constructor
  · rintro ⟨g1, cs, g2⟩
    exact ⟨by rw [← Bool.not_eq_true]; exact fun h => g1 (IM.constAt_iff.mp h), List.mem_map.mpr ⟨_, g2, rfl⟩⟩
  · rintro ⟨g1, g2⟩
    obtain ⟨c, hc, rfl⟩ := List.mem_map.mp g2
    exact ⟨fun h => (by rw [IM.constAt_iff.mpr h] at g1; cases g1), c.2, hc⟩

theorem setFree_arch_free {v : RPath → Nat} {a : MAsg B} {p : RPath} (h : IsFree pb p) : (setFree (constAt pb.archConst) pb.cons v a).arch p = v p := by
  simp only [setFree]
  rw [if_pos (isFree_iff.mp h)]

theorem setFree_arch {v : RPath → Nat} {a : MAsg B} {p : RPath} (h : ¬ IsFree pb p) : (setFree (constAt pb.archConst) pb.cons v a).arch p = a.arch p := by
  simp only [setFree]
  rw [if_neg (fun h' => h (isFree_iff.mpr h'))]

/-- The entries of a rule with other values. -/
theorem entries_values {a : MAsg B} {v : RPath → Nat} : ∀ {ib : Bdg} {rib rib' : List (RSrc × RPath)}, List.Forall₂ (EntryR pb a) ib rib →
    List.Forall₂ (WithValue pb) rib rib' → (∀ e ∈ ib, ∀ q, e.1 = some q → ¬ IsFree pb e.2) →
    (∀ c p, (.const c, p) ∈ rib' → IsFree pb p → ∃ t, (p, t) ∈ leafTypes pb.arch.inT [] ∧ ConstIs c t (v p % 2 ^ width t)) →
    List.Forall₂ (EntryR pb (setFree (constAt pb.archConst) pb.cons v a)) ib rib' := by
  intro ib rib rib' h
  induction h generalizing rib' with
  | nil =>
    intro hW _ _
    cases hW
    exact .nil
  | @cons e e0 _ _ hE _ ih =>
    intro hW hb hv
    cases hW with
    | @cons _ e' _ _ h1 h2 =>
    refine .cons ?_ (ih h2 (fun x hx => hb x (List.mem_cons_of_mem _ hx)) (fun c p h => hv c p (List.mem_cons_of_mem _ h)))
    obtain ⟨g1, g2, g3⟩ := h1
    obtain ⟨k1, k2⟩ := hE
    refine ⟨g1.trans k1, ?_⟩
    rw [k1] at g2 g3
    by_cases hf : IsFree pb e.2
    · obtain ⟨c, hc, _⟩ := g2 hf
      obtain ⟨t, ht, hCI⟩ := hv c e.2 (by
        have : e' = (.const c, e.2) := Prod.ext hc (g1.trans k1)
        rw [this]
        exact List.mem_cons_self) hf
      have hn : e.1 = none := by
        cases hx : e.1 with
        | none => rfl
        | some q => exact absurd hf (hb e List.mem_cons_self q hx)
      refine .inr (.inl ⟨hn, .inr (isFree_iff.mp hf).2, c, t, hc, ht, ?_⟩)
      rw [setFree_arch_free hf]
      exact hCI
    · rw [g3 hf, setFree_arch hf]
      exact k2

/-- The index variables pick the same form and bindings for every choice of the constrained values. -/
theorem conj_free [DecidableEq B] {P : Process} {fi fa : Fn B} {inW : K → List Nat} (S : Setup P pb.ir pb.arch fi fa inW) {bs : Bdgs} (hB : BdgsOk pb bs) {a : MAsg B}
    (hsat : mapSat P.asm pb bs a) {si s : RVal} (hsi : RF.skels pb.ir.inT = [si]) {i bi bo : Nat} {l : List Bdg} {ib ob : Bdg}
    (hs : (RF.skels pb.arch.inT)[i]? = some s) (hl : bs.ins[i]? = some l) (hib : l[bi]? = some ib) (hob : bs.outs[bo]? = some ob)
    (m1 : pb.enc.matchIndex (RF.skels pb.arch.inT).length (ivar pb.enc (RF.skels pb.arch.inT).length a.fi) i = .ok true)
    (m2 : pb.enc.matchIndex bs.maxIns (ivar pb.enc bs.maxIns a.ib) bi = .ok true)
    (m3 : pb.enc.matchIndex bs.outs.length (ivar pb.enc bs.outs.length a.ob) bo = .ok true)
    {v : RPath → Nat} (hv : Choice (constAt pb.archConst) pb.cons v)
    (a' : MAsg B) (ha' : SameExists pb bs (setFree (constAt pb.archConst) pb.cons v a) a') : Conj P pb fi fa bs a' s si i bi bo ib ob := by
  have hu : ∀ p, IsFree pb p → ¬ bs.archUniv pb p := fun p hp h => h.2.1 (isFree_iff.mp hp).2
  have h0 := hsat { a' with arch := fun q => if constAt pb.archConst q = false ∧ q ∈ pb.cons.map (·.1) then a.arch q else a'.arch q } (by
    refine ⟨ha'.fi, ha'.ib, ha'.ob, ha'.ir, ha'.irTag, fun p hp => ?_, ha'.archTag, ha'.irBB, ha'.archBB⟩
    simp only
    split
    · rfl
    · next hf =>
      rw [ha'.arch p hp, setFree_arch (fun h => hf (isFree_iff.mp h))])
  obtain ⟨⟨i', bi', bo', ib', ob'⟩, ht, hm⟩ := (formula_free h0).1 v hv
  have he : setFree (constAt pb.archConst) pb.cons v
      { a' with arch := fun q => if constAt pb.archConst q = false ∧ q ∈ pb.cons.map (·.1) then a.arch q else a'.arch q } = a' := by
    have : ∀ q, (if constAt pb.archConst q = false ∧ q ∈ pb.cons.map (·.1) then v q else
        if constAt pb.archConst q = false ∧ q ∈ pb.cons.map (·.1) then a.arch q else a'.arch q) = a'.arch q := by
      intro q
      by_cases hf : IsFree pb q
      · rw [if_pos (isFree_iff.mp hf), ha'.arch q (hu q hf), setFree_arch_free hf]
      · rw [if_neg (fun h => hf (isFree_iff.mpr h)), if_neg (fun h => hf (isFree_iff.mpr h))]
    simp only [setFree, this]
  rw [he] at hm
  obtain ⟨⟨l', hl', hib'⟩, hob'⟩ := mem_triples.mp ht
  have hty : Typed pb.ir.outT pb.arch.outT ob' := by
    refine outs_typed S.ir_out.1 S.arch_out.1 ?_
    rw [← hB.outs]
    exact List.mem_of_getElem? hob'
  obtain ⟨s', hs', hC⟩ := conj_true S hB.uf hB.irBB hB.archBB hsi hty hm
  have e1 : i' = i := by have := hC.m1; rw [ha'.fi] at this; exact match_unique this m1
  have e2 : bi' = bi := by have := hC.m2; rw [ha'.ib] at this; exact match_unique this m2
  have e3 : bo' = bo := by have := hC.m3; rw [ha'.ob] at this; exact match_unique this m3
  subst e1 e2 e3
  rw [hs] at hs'; cases hs'
  rw [hl] at hl'; cases hl'
  rw [hib] at hib'; cases hib'
  rw [hob] at hob'; cases hob'
  exact hC

/-- The values that a rule gives to the constrained leaves that are not `Const`. -/
theorem values_of {rib : List (RSrc × RPath)} (hn : (rib.map (·.2)).Nodup) (hd : (pb.cons.map (·.1)).Nodup) (hne : ∀ c ∈ pb.cons, constAt pb.archConst c.1 = false → c.2 ≠ [])
    (hA : ∀ c p, (.const c, p) ∈ rib → IsFree pb p → Allowed pb p c) :
    ∃ v, Choice (constAt pb.archConst) pb.cons v ∧
      ∀ c p, (.const c, p) ∈ rib → IsFree pb p → ∃ t, (p, t) ∈ leafTypes pb.arch.inT [] ∧ ConstIs c t (v p % 2 ^ width t) := by
  have : ∀ p, ∃ n, IsFree pb p → (∀ cs, (p, cs) ∈ pb.cons → n ∈ cs) ∧
      ∀ c, (.const c, p) ∈ rib → ∃ t, (p, t) ∈ leafTypes pb.arch.inT [] ∧ ConstIs c t (n % 2 ^ width t) := by
    intro p
    by_cases hf : IsFree pb p
    · obtain ⟨cs, hcs⟩ := hf.2
      have huniq : ∀ cs', (p, cs') ∈ pb.cons → cs' = cs := fun cs' h => VF.eq_of_fst hd h hcs
      by_cases he : ∃ c, (RSrc.const c, p) ∈ rib
      · obtain ⟨c, hc⟩ := he
        obtain ⟨n, hn1, t, ht, hCI⟩ := hA c p hc hf cs hcs
        refine ⟨n, fun _ => ⟨fun cs' h => huniq cs' h ▸ hn1, fun c' hc' => ?_⟩⟩
        have := List.inj_on_of_nodup_map hn hc' hc rfl
        cases this
        exact ⟨t, ht, hCI⟩
      · obtain ⟨n, hn1⟩ := List.exists_mem_of_ne_nil _ (hne _ hcs (isFree_iff.mp hf).1)
        exact ⟨n, fun _ => ⟨fun cs' h => huniq cs' h ▸ hn1, fun c hc => absurd ⟨c, hc⟩ he⟩⟩
    · exact ⟨0, fun h => absurd h hf⟩
  choose v hv using this
  refine ⟨v, fun c hc hp => ?_, fun c p hc hp => (hv p hp).2 c hc⟩
  exact (hv c.1 (isFree_iff.mpr ⟨hp, List.mem_map.mpr ⟨c, hc, rfl⟩⟩)).1 c.2 hc

end IM

/-- C33, soundness, for the default formula and any path constraints: with a solver whose answers satisfy what it was asked, a returned rule is, with any allowed
values put into the constrained leaves that are not `Const`, a mapping that is correct for every input; and there are such values. -/
theorem C33_sound_values_partial {B K : Type} [DecidableEq B] (P : Process) (pb : MapPb B K) (fi fa : Fn B) (inW : K → List Nat)
    (S0 : Setup0 P pb.ir pb.arch fi fa inW) (hdict : (pb.cons.map (·.1)).Nodup)
    (solve : (MAsg B → Prop) → Option (MAsg B)) (hsat : ∀ φ a, solve φ = some a → φ a) (a0 : MAsg B) (rule : RRule)
    (h : mapSolve P.asm pb solve a0 = .ok (some rule)) :
    (∃ rule', WithValues pb rule rule') ∧ ∀ rule', WithValues pb rule rule' → IsMappingC P.asm pb rule' ∧ RuleCorrect pb.ir pb.arch fi fa rule' := by
  simp only [mapSolve] at h
  split at h
  · cases h
  · cases h
  · next bs hbs =>
    have S := IM.setup_of_bindings S0 hbs
    split at h
    · cases h
    · split at h
      · cases h
      · next a ha =>
        split at h
        · cases h
        · next r hr =>
          cases h
          have hB := IM.bindings_inv S.ir_in S.arch_in hbs
          have hS := hsat _ a ha
          obtain ⟨i, bi, bo, s, l, ib, ob, hs, hl, hib, hob, m1, m2, m3, rfl, hF⟩ := IM.rule_inv S.arch_in hr
          obtain ⟨si, hsi⟩ := List.length_eq_one_iff.mp (RF.skels_one _ hB.uf)
          obtain ⟨_, hx, hne⟩ := IM.formula_free (hS a (IM.SameExists.refl' bs a))
          have hsh : RHas pb.arch.inT s := IM.skels_mem_has (P := P) S.arch_in.1 S.arch_in.2 (List.mem_of_getElem? hs)
          have hl' : l = IM.formB pb s := by
            rw [hB.ins, List.getElem?_map, hs] at hl
            cases hl
            rfl
          have hBO := IM.formB_ok S.ir_in.1 S.arch_in.1 hsh (hl' ▸ List.mem_of_getElem? hib)
          have hn : (ib.map (·.2)).Nodup := hBO.paths.nodup_iff.mpr (VF.leaves_nodup S.arch_in.1 hsh)
          have hnb : ∀ q p, (some q, p) ∈ ib → p ∉ pb.cons.map (·.1) := fun q p he => (hBO.typed q p he).1
          constructor
          · obtain ⟨v, hv, _⟩ := IM.values_of (pb := pb) (rib := []) .nil hdict hne (by intro c p h; cases h)
            obtain ⟨rib', h1, _⟩ := IM.family_rule S.arch_in.1 hv hnb hF
            exact ⟨⟨rib', rule.ob⟩, rfl, h1⟩
          · intro rule' hW
            obtain ⟨ib', ob'⟩ := rule'
            obtain ⟨rfl, hW⟩ := hW
            simp only at hW
            have hsnd : ib'.map (·.2) = ib.map (·.2) := by
              rw [← IM.entries_snd _ _ hF]
              clear * - hW
              generalize rule.ib = rib at hW
              induction hW with
              | nil => rfl
              | cons h _ ih => simp only [List.map_cons, ih, h.1]
            obtain ⟨v, hv, hv2⟩ := IM.values_of (pb := pb) (rib := ib') (hsnd ▸ hn) hdict hne (by
              intro c p hm hf
              obtain ⟨j, hj⟩ := List.getElem?_of_mem hm
              obtain ⟨e, _, g1, g2, _⟩ := IM.forall₂_at hW hj
              simp only at g1 g2
              rw [← g1] at g2
              obtain ⟨c', hc', hA⟩ := g2 hf
              cases hc'
              exact hA)
            have hE := IM.entries_values hF hW (fun e he q hq hf => hnb q e.2 (hq ▸ he) (IM.isFree_iff.mp hf).2) hv2
            refine IM.core S hB (rule := ⟨ib', rule.ob⟩) hsi hs hl hib hob (IM.conj_free S hB hS hsi hs hl hib hob m1 m2 m3 hv) ?_ hE
            intro c hc
            by_cases hf : IsFree pb c.1
            · rw [IM.setFree_arch_free hf]
              obtain ⟨⟨p, t⟩, hpt, hpe⟩ := List.mem_map.mp (hB.cons c hc)
              simp only at hpe
              subst hpe
              exact ⟨v c.1, hv c hc (IM.isFree_iff.mp hf).1, by rw [IM.consEq_ok P S.arch_in.1 hpt]; simp⟩
            · rw [IM.setFree_arch hf]
              refine hx c hc ?_
              by_contra hcc
              rw [Bool.not_eq_true] at hcc
              exact hf (IM.isFree_iff.mpr ⟨hcc, List.mem_map.mpr ⟨c, hc, rfl⟩⟩)

/-- C33, completeness, for the default formula and any path constraints (each naming a leaf and some value): if there is a mapping that is correct for every input, whichever
allowed values its constrained leaves hold that are not `Const`, a rule is returned, unless such a leaf, or a `Const` leaf inside a `Const` field, holds an enum value that cannot be turned into a constant. -/
theorem C33_complete_values_partial {B K : Type} [DecidableEq B] (P : Process) (pb : MapPb B K) (fi fa : Fn B) (inW : K → List Nat)
    (S : Setup P pb.ir pb.arch fi fa inW) (hT : Total P pb.arch) (hu : UnionFree pb.ir.inT) (h0i : pb.ir.bbs = []) (h0a : pb.arch.bbs = [])
    (hcons : ∀ p cs, (p, cs) ∈ pb.cons → cs ≠ [] ∧ ∃ t, (p, t) ∈ leafTypes pb.arch.inT [])
    (hdict : (pb.cons.map (·.1)).Nodup)
    (hk : ∃ k t, (k, t) ∈ pb.arch.inT.fieldDict ∧ [k] ∈ pb.archConst)
    (solve : (MAsg B → Prop) → Option (MAsg B)) (hsat : ∀ φ a, solve φ = some a → φ a) (hcomp : ∀ φ a, φ a → ∃ a', solve φ = some a') (a0 : MAsg B)
    (rule : RRule) (hM : IsMappingC P.asm pb rule) (hC : ∀ rule', WithValues pb rule rule' → RuleCorrect pb.ir pb.arch fi fa rule') :
    (∃ r, mapSolve P.asm pb solve a0 = .ok (some r)) ∨
    (mapSolve P.asm pb solve a0 = .error .valueError ∧ ∃ vs p c ms n, RHas pb.arch.inT (.prod vs) ∧ ConstsValid P.asm pb.arch.inT pb.archConst vs ∧
      (p, Ty.enum c ms, n) ∈ rawLeaves pb.arch.inT (.prod vs) ∧ IsConst pb.archConst p ∧ isValidAV P.asm (mkAV (.enum c ms) n) = .ok false) ∨
    (mapSolve P.asm pb solve a0 = .error .valueError ∧ ∃ p c ms, IsFree pb p ∧ (p, Ty.enum c ms) ∈ leafTypes pb.arch.inT []) := by
  obtain ⟨bs, a, i, bi, bo, s, b, ob, hbind, hSat, _⟩ := IM.sat_of_family P pb fi fa inW S hT hu h0i h0a hcons hdict hk rule hM hC
  rcases IM.solve_any_free P pb fi fa inW S hT hu h0i h0a hcons hdict hk solve hsat a0 with h | ⟨_, h⟩ | h
  · exact .inl h
  · exfalso
    rcases h with h | ⟨bs', h, hn⟩
    · rw [hbind] at h
      cases h
    · rw [hbind] at h
      cases h
      obtain ⟨a', ha'⟩ := hcomp _ _ hSat
      rw [hn] at ha'
      cases ha'
  · exact .inr h

namespace SFm
variable {B K : Type} [DecidableEq B] [DecidableEq K] {pb : MapPb B K}

theorem consConds_ne {A : Ty → Except Err AsmObj} {types : List (RPath × Ty)} {isConst : RPath → Bool} {v : RPath → Nat} {const : Bool} :
    ∀ {cons : List (RPath × List Nat)} {l : List Bool}, consConds A types isConst v const cons = .ok l → ∀ c ∈ cons, isConst c.1 = const → c.2 ≠ []
  | [], _, _ => by simp
  | (p, cs) :: cons, l, h => by
    simp only [consConds] at h
    rw [List.forall_mem_cons]
    split at h
    · next hp =>
      simp only [exBind] at h
      obtain ⟨m, hm, b, hb, l', hl', _⟩ := h
      refine ⟨fun _ hn => ?_, consConds_ne hl'⟩
      simp only at hn
      subst hn
      cases hm
      cases hb
    · next hp => exact ⟨fun h' => absurd h' hp, consConds_ne h⟩

omit [DecidableEq B] [DecidableEq K] in
/-- No leaf is bound to an IR leaf by one candidate binding and left free, as a constant, by another. -/
theorem no_overlap {A : Ty → Except Err AsmObj} {bs : Bdgs} (hbs : mapBindings A pb true = .ok (some bs))
    (hov : ∀ bs, mapBindings A pb true = .ok (some bs) → ∀ l ∈ bs.ins, ∀ b ∈ l, ∀ l' ∈ bs.ins, ∀ b' ∈ l', ∀ q p, IsConst pb.archConst p →
      (some q, p) ∈ b → (none, p) ∉ b') : ∀ p, bs.overlap pb p = false := by
  intro p
  rw [← Bool.not_eq_true]
  intro ho
  obtain ⟨h1, h2⟩ := SFm.overlap_iff.mp ho
  obtain ⟨⟨i1, b1⟩, h1⟩ := List.exists_mem_of_ne_nil _ h1
  obtain ⟨⟨i2, b2⟩, h2⟩ := List.exists_mem_of_ne_nil _ h2
  obtain ⟨ib1, ⟨x, p'⟩, f1, f2, f3, f4⟩ := SFm.mem_forall.mp h1
  obtain ⟨ib2, g1, g2, g3⟩ := SFm.mem_exists.mp h2
  simp only at f3 f4
  subst f3
  rw [g3] at f4
  simp only [Bool.true_eq_false, or_false] at f4
  obtain ⟨q, rfl⟩ := Option.isSome_iff_exists.mp f4
  obtain ⟨l1, k1, k2⟩ := SFm.mem_fbs.mp f1
  obtain ⟨l2, k3, k4⟩ := SFm.mem_fbs.mp g1
  exact hov bs hbs l1 (List.mem_of_getElem? k1) ib1 (List.mem_of_getElem? k2) l2 (List.mem_of_getElem? k3) ib2 (List.mem_of_getElem? k4) q p'
    (IM.constAt_iff.mp g3) f2 g2

end SFm

/-- C55, soundness, for any path constraints, when each constrained leaf that is not `Const` occurs in some candidate binding (outputs without unions, and no `Const` leaf
that one candidate binding binds to an IR leaf and another leaves free): with a solver whose answers satisfy what it was asked, a rule returned by a search with
`simple_formula=True` is, with any allowed values put into the constrained leaves that are not `Const`, a mapping that is correct for every input, whatever the
black boxes compute; and there are such values. -/
theorem C55_sound_values_partial {B K : Type} [DecidableEq B] [DecidableEq K] (P : Process) (pb : MapPb B K) (fi fa : Fn B) (inW : K → List Nat)
    (S0 : Setup0 P pb.ir pb.arch fi fa inW) (hdict : (pb.cons.map (·.1)).Nodup)
    (hov : ∀ bs, mapBindings P.asm pb true = .ok (some bs) → ∀ l ∈ bs.ins, ∀ b ∈ l, ∀ l' ∈ bs.ins, ∀ b' ∈ l', ∀ q p, IsConst pb.archConst p →
      (some q, p) ∈ b → (none, p) ∉ b')
    (hocc : ∀ bs, mapBindings P.asm pb true = .ok (some bs) → ∀ p, IsFree pb p → ∃ l ∈ bs.ins, ∃ b ∈ l, ∃ x, (x, p) ∈ b)
    (solve : (SAsg B → Prop) → Option (SAsg B)) (hsat : ∀ φ a, solve φ = some a → φ a) (a0 : SAsg B) (rule : RRule)
    (h : simpleSolve P.asm pb solve a0 = .ok (some rule)) :
    (∃ rule', WithValues pb rule rule') ∧ ∀ rule', WithValues pb rule rule' → IsMappingC P.asm pb rule' ∧ RuleCorrect pb.ir pb.arch fi fa rule' := by
  obtain ⟨bs, a, hbs, ha, hr⟩ := SFm.solve_inv h
  have S := IM.setup_of_bindings S0 hbs
  have hB := (IM.bindings_inv' S.ir_in S.arch_in hbs).1
  have hS := hsat _ a ha
  obtain ⟨i, bi, bo, s, l, ib, ob, hs, hl, hib, hob, m1, m2, m3, rfl, hF⟩ := IM.rule_inv S.arch_in hr
  have ho := SFm.no_overlap hbs hov
  have hne : ∀ c ∈ pb.cons, constAt pb.archConst c.1 = false → c.2 ≠ [] := by
    obtain ⟨_, _, _, _, _, _, _, _, _, faC, _, _, hP, _⟩ := SFm.formula_inv S.arch_in (hS _ (SFm.SameExistsS.zero bs a))
    exact SFm.consConds_ne hP.faC_h
  have hsh : RHas pb.arch.inT s := IM.skels_mem_has (P := P) S.arch_in.1 S.arch_in.2 (List.mem_of_getElem? hs)
  have hl' : l = IM.formB pb s := by
    rw [hB.ins, List.getElem?_map, hs] at hl
    cases hl
    rfl
  have hBO := IM.formB_ok S.ir_in.1 S.arch_in.1 hsh (hl' ▸ List.mem_of_getElem? hib)
  have hn : (ib.map (·.2)).Nodup := hBO.paths.nodup_iff.mpr (VF.leaves_nodup S.arch_in.1 hsh)
  have hnb : ∀ q p, (some q, p) ∈ ib → p ∉ pb.cons.map (·.1) := fun q p he => (hBO.typed q p he).1
  constructor
  · obtain ⟨v, hv, _⟩ := IM.values_of (pb := pb) (rib := []) .nil hdict hne (by intro c p h; cases h)
    obtain ⟨rib', h1, _⟩ := IM.family_rule S.arch_in.1 hv hnb hF
    exact ⟨⟨rib', rule.ob⟩, rfl, h1⟩
  · intro rule' hW
    obtain ⟨ib', ob'⟩ := rule'
    obtain ⟨rfl, hW⟩ := hW
    simp only at hW
    have hsnd : ib'.map (·.2) = ib.map (·.2) := by
      rw [← IM.entries_snd _ _ hF]
      clear * - hW
      generalize rule.ib = rib at hW
      induction hW with
      | nil => rfl
      | cons h _ ih => simp only [List.map_cons, ih, h.1]
    obtain ⟨v, hv, hv2⟩ := IM.values_of (pb := pb) (rib := ib') (hsnd ▸ hn) hdict hne (by
      intro c p hm hf
      obtain ⟨j, hj⟩ := List.getElem?_of_mem hm
      obtain ⟨e, _, g1, g2, _⟩ := IM.forall₂_at hW hj
      simp only at g1 g2
      rw [← g1] at g2
      obtain ⟨c', hc', hA⟩ := g2 hf
      cases hc'
      exact hA)
    have hE := IM.entries_values hF hW (fun e he q hq hf => hnb q e.2 (hq ▸ he) (IM.isFree_iff.mp hf).2) hv2
    -- the universally quantified variables take the chosen values
    let av : SAsg B := { a with m := IM.setFree (constAt pb.archConst) pb.cons v a.m }
    have hsame : SameExistsS pb bs a av := by
      refine ⟨rfl, rfl, rfl, fun _ _ => rfl, rfl, fun p hp => ?_, rfl, rfl, fun _ _ => rfl⟩
      refine IM.setFree_arch (fun hf => hp ⟨?_, ho p⟩)
      obtain ⟨l1, g1, b1, g2, x, g3⟩ := hocc bs hbs p hf
      obtain ⟨i1, hi1⟩ := List.getElem?_of_mem g1
      obtain ⟨j1, hj1⟩ := List.getElem?_of_mem g2
      exact List.ne_nil_of_mem (SFm.mem_forall.mpr ⟨b1, (x, p), SFm.mem_fbs.mpr ⟨l1, hi1, hj1⟩, g3, rfl, .inr (IM.isFree_iff.mp hf).1⟩)
    have hSv : simpleSat P.asm pb bs av := by
      intro a' ha'
      refine hS a' ⟨ha'.fi.trans hsame.fi, ha'.ib.trans hsame.ib, ha'.ob.trans hsame.ob, fun q hq => (ha'.ir q hq).trans (hsame.ir q hq), ha'.irTag.trans hsame.irTag,
        fun p hp => (ha'.arch p hp).trans (hsame.arch p hp), ha'.archTag.trans hsame.archTag, ha'.archE.trans hsame.archE, fun p hp => (ha'.archA p hp).trans (hsame.archA p hp)⟩
    have hu : SFm.used pb bs av = av.m.arch := by
      funext p
      simp [SFm.used, ho p]
    refine SFm.core S hB ?_ hSv hs hl hib hob m1 m2 m3 (rib := ib') (by rw [hu]; exact hE)
    intro c hc hcp
    have hf : IsFree pb c.1 := IM.isFree_iff.mpr ⟨hcp, List.mem_map.mpr ⟨c, hc, rfl⟩⟩
    rw [show av.m.arch c.1 = v c.1 from IM.setFree_arch_free hf]
    obtain ⟨⟨p, t⟩, hpt, hpe⟩ := List.mem_map.mp (hB.cons c hc)
    simp only at hpe
    subst hpe
    exact ⟨v c.1, hv c hc hcp, by rw [IM.consEq_ok P S.arch_in.1 hpt]; simp⟩

/-- C55, completeness, for problems with flat outputs whose IR input has no unions, and any path constraints (each naming a leaf and some value): if there is a mapping
that is correct for every input whichever allowed values its constrained leaves hold that are not `Const`, and every input it allows has valid `Const` fields, then the search
with `simple_formula=True` and a complete solver does not answer that there is none: it returns a rule, or raises ValueError, which needs an enum leaf that is
`Const` or constrained. -/
theorem C55_complete_values_partial {B K : Type} [DecidableEq B] [DecidableEq K] (P : Process) (pb : MapPb B K) (fi fa : Fn B) (inW : K → List Nat)
    (S : Setup P pb.ir pb.arch fi fa inW) (hT : Total P pb.arch) (hTb : TotalBoxes pb.arch inW) (hu : UnionFree pb.ir.inT)
    (fli : Flat pb.ir.outT) (fla : Flat pb.arch.outT) (hso : leafTypes pb.ir.outT [] ≠ [])
    (hcons : ∀ p cs, (p, cs) ∈ pb.cons → cs ≠ [] ∧ ∃ t, (p, t) ∈ leafTypes pb.arch.inT [])
    (hdict : (pb.cons.map (·.1)).Nodup)
    (hk : ∃ k t, (k, t) ∈ pb.arch.inT.fieldDict ∧ [k] ∈ pb.archConst)
    (solve : (SAsg B → Prop) → Option (SAsg B)) (hsat : ∀ φ a, solve φ = some a → φ a) (hcomp : ∀ φ a, φ a → ∃ a', solve φ = some a') (a0 : SAsg B)
    (rule : RRule) (hM : IsMappingC P.asm pb rule) (hC : ∀ rule', WithValues pb rule rule' → RuleCorrect pb.ir pb.arch fi fa rule')
    (hval : ∀ ri vs, Related pb.ir.inT pb.arch.inT rule.ib ri (.prod vs) → ConstsValid P.asm pb.arch.inT pb.archConst vs) :
    (∃ r, simpleSolve P.asm pb solve a0 = .ok (some r)) ∨
    (simpleSolve P.asm pb solve a0 = .error .valueError ∧ ∃ p c ms, (p, Ty.enum c ms) ∈ leafTypes pb.arch.inT [] ∧
      (IsConst pb.archConst p ∨ IsFree pb p)) := by
  obtain ⟨bs, a, _, _, _, _, _, _, hbind, hSat, _⟩ := SFm.sat_of_family P pb fi fa inW S hT hTb hu fli fla hso hcons hdict hk rule hM hC hval
  rcases SFm.solve_any_free P pb fi fa inW S hT hTb hu fli fla hso hcons hk solve hsat a0 with h | ⟨_, h⟩ | ⟨h, p, c, ms, h1, h2, _⟩ | ⟨h, p, c, ms, h1, h2⟩
  · exact .inl h
  · exfalso
    rcases h with h | ⟨bs', h, hn⟩
    · rw [hbind] at h
      cases h
    · rw [hbind] at h
      cases h
      obtain ⟨a', ha'⟩ := hcomp _ _ hSat
      rw [hn] at ha'
      cases ha'
  · exact .inr ⟨h, p, c, ms, h1, .inl h2⟩
  · exact .inr ⟨h, p, c, ms, h2, .inr h1⟩

/-- C33, for any path constraints, where the validators of the `Const` fields reject whatever those of their enum leaves reject, and no constrained leaf that is not `Const` is an
enum: with a sound and complete solver the mapper decides whether there is a mapping that is correct whichever allowed values its constrained leaves hold that are not
`Const`. It returns such a mapping (up to the values at these leaves) or `None`; it never raises. -/
theorem C33_decides_values_partial {B K : Type} [DecidableEq B] (P : Process) (pb : MapPb B K) (fi fa : Fn B) (inW : K → List Nat)
    (S : Setup P pb.ir pb.arch fi fa inW) (hT : Total P pb.arch) (hu : UnionFree pb.ir.inT) (h0i : pb.ir.bbs = []) (h0a : pb.arch.bbs = [])
    (hcons : ∀ p cs, (p, cs) ∈ pb.cons → cs ≠ [] ∧ ∃ t, (p, t) ∈ leafTypes pb.arch.inT [])
    (hdict : (pb.cons.map (·.1)).Nodup)
    (hk : ∃ k t, (k, t) ∈ pb.arch.inT.fieldDict ∧ [k] ∈ pb.archConst)
    (hleaf : LeavesChecked P pb) (hen : ∀ p c ms, IsFree pb p → (p, Ty.enum c ms) ∉ leafTypes pb.arch.inT [])
    (solve : (MAsg B → Prop) → Option (MAsg B)) (hsat : ∀ φ a, solve φ = some a → φ a) (hcomp : ∀ φ a, φ a → ∃ a', solve φ = some a') (a0 : MAsg B) :
    (∃ r, mapSolve P.asm pb solve a0 = .ok (some r) ∧ (∃ r', WithValues pb r r') ∧ ∀ r', WithValues pb r r' → IsMappingC P.asm pb r' ∧ RuleCorrect pb.ir pb.arch fi fa r') ∨
    (mapSolve P.asm pb solve a0 = .ok none ∧ ¬ ∃ r, IsMappingC P.asm pb r ∧ ∀ r', WithValues pb r r' → RuleCorrect pb.ir pb.arch fi fa r') := by
  rcases IM.solve_any_free P pb fi fa inW S hT hu h0i h0a hcons hdict hk solve hsat a0 with ⟨r, h⟩ | ⟨h, _⟩ | ⟨_, vs, p, c, ms, n, h1, h2, h3, h4, h5⟩ | ⟨_, p, c, ms, h1, h2⟩
  · exact .inl ⟨r, h, C33_sound_values_partial P pb fi fa inW (VF.setup0 S) hdict solve hsat a0 r h⟩
  · refine .inr ⟨h, ?_⟩
    rintro ⟨r, hM, hC⟩
    rcases C33_complete_values_partial P pb fi fa inW S hT hu h0i h0a hcons hdict hk solve hsat hcomp a0 r hM hC with ⟨r', h'⟩ | ⟨h', _⟩ | ⟨h', _⟩ <;>
      rw [h] at h' <;> cases h'
  · rw [hleaf vs p c ms n h1 h2 h3 h4] at h5
    cases h5
  · exact absurd h2 (hen p c ms h1)

/-- The mapper goes on only if some form has a binding. -/
theorem IM.bindings_some {B K : Type} {A : Ty → Except Err AsmObj} {pb : MapPb B K} {bs : Bdgs} {simple : Bool} (h : mapBindings A pb simple = .ok (some bs)) :
    ∃ l ∈ bs.ins, l ≠ [] := by
  simp only [mapBindings] at h
  split at h
  · cases h
  split at h
  · cases h
  split at h
  · split at h
    · cases h
    split at h
    · cases h
    split at h
    · cases h
    split at h
    · cases h
    split at h
    · split at h
      · cases h
      split at h
      · cases h
      · next hne =>
        split at h
        · cases h
        split at h
        · cases h
          rw [List.all_eq_true] at hne
          push Not at hne
          obtain ⟨l, hl, h'⟩ := hne
          exact ⟨l, hl, by rintro rfl; exact h' rfl⟩
        · cases h
    · cases h
  · cases h

/-- C55: the same with `simple_formula=True`, where nothing is `Const` in the IR, and each constrained leaf that is not `Const` is in every form of the input. -/
theorem C55_decides_values_partial {B K : Type} [DecidableEq B] [DecidableEq K] (P : Process) (pb : MapPb B K) (fi fa : Fn B) (inW : K → List Nat)
    (S : Setup P pb.ir pb.arch fi fa inW) (hT : Total P pb.arch) (hTb : TotalBoxes pb.arch inW) (hu : UnionFree pb.ir.inT)
    (fli : Flat pb.ir.outT) (fla : Flat pb.arch.outT) (hso : leafTypes pb.ir.outT [] ≠ [])
    (hcons : ∀ p cs, (p, cs) ∈ pb.cons → cs ≠ [] ∧ ∃ t, (p, t) ∈ leafTypes pb.arch.inT [])
    (hdict : (pb.cons.map (·.1)).Nodup)
    (hk : ∃ k t, (k, t) ∈ pb.arch.inT.fieldDict ∧ [k] ∈ pb.archConst)
    (hir : ∀ q, ¬ IsConst pb.irConst q)
    (hleaf : LeavesChecked P pb) (hen : ∀ p c ms, IsFree pb p → (p, Ty.enum c ms) ∉ leafTypes pb.arch.inT [])
    (hall : ∀ r p, RHas pb.arch.inT r → IsFree pb p → p ∈ (rawLeaves pb.arch.inT r).map (·.1))
    (solve : (SAsg B → Prop) → Option (SAsg B)) (hsat : ∀ φ a, solve φ = some a → φ a) (hcomp : ∀ φ a, φ a → ∃ a', solve φ = some a') (a0 : SAsg B) :
    (∃ r, simpleSolve P.asm pb solve a0 = .ok (some r) ∧ (∃ r', WithValues pb r r') ∧ ∀ r', WithValues pb r r' → IsMappingC P.asm pb r' ∧ RuleCorrect pb.ir pb.arch fi fa r') ∨
    (simpleSolve P.asm pb solve a0 = .ok none ∧ ¬ ∃ r, IsMappingC P.asm pb r ∧ ∀ r', WithValues pb r r' → RuleCorrect pb.ir pb.arch fi fa r') := by
  have hform : ∀ bs, mapBindings P.asm pb true = .ok (some bs) → ∀ l ∈ bs.ins, ∃ s, RHas pb.arch.inT s ∧ ∀ b ∈ l, IM.BOk pb s b := by
    intro bs hbs l hl
    have hB := (IM.bindings_inv' S.ir_in S.arch_in hbs).1
    rw [hB.ins] at hl
    obtain ⟨s, hs, rfl⟩ := List.mem_map.mp hl
    have hsh := IM.skels_mem_has (P := P) S.arch_in.1 S.arch_in.2 hs
    exact ⟨s, hsh, fun b hb => IM.formB_ok S.ir_in.1 S.arch_in.1 hsh hb⟩
  rcases SFm.solve_any_free P pb fi fa inW S hT hTb hu fli fla hso hcons hk solve hsat a0 with ⟨r, h⟩ | ⟨h, _⟩ | ⟨_, p, c, ms, _, h4, h5⟩ | ⟨_, p, c, ms, h1, h2⟩
  · refine .inl ⟨r, h, C55_sound_values_partial P pb fi fa inW (VF.setup0 S) hdict ?_ ?_ solve hsat a0 r h⟩
    · intro bs hbs l hl b hb l' hl' b' hb' q p hp hm _
      obtain ⟨s, _, hBO⟩ := hform bs hbs l hl
      have := ((hBO b hb).typed q p hm).2.1
      rw [IM.constAt_iff.mpr hp] at this
      exact hir q (IM.constAt_iff.mp this)
    · intro bs hbs p hp
      obtain ⟨l, hl, hne⟩ := IM.bindings_some hbs
      obtain ⟨b, hb⟩ := List.exists_mem_of_ne_nil _ hne
      obtain ⟨s, hs, hBO⟩ := hform bs hbs l hl
      obtain ⟨e, he, hp'⟩ := List.mem_map.mp ((hBO b hb).paths.symm.subset (hall s p hs hp))
      exact ⟨l, hl, b, hb, e.1, by rw [← hp']; exact he⟩
  · refine .inr ⟨h, ?_⟩
    rintro ⟨r, hM, hC⟩
    rcases C55_complete_values_partial P pb fi fa inW S hT hTb hu fli fla hso hcons hdict hk solve hsat hcomp a0 r hM hC
      (SFm.consts_valid P pb fi fa inW S hir r hM) with ⟨r', h'⟩ | ⟨h', _⟩ <;> rw [h] at h' <;> cases h'
  · rcases h5 with ⟨q, hq, _⟩ | ⟨vs, n, h1, h2, h3, h5⟩
    · exact absurd hq (hir q)
    · rw [hleaf vs p c ms n h1 h2 h3 h4] at h5
      cases h5
  · exact absurd h2 (hen p c ms h1)

end Peak
