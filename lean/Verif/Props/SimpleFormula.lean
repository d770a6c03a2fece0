import Verif.Lemmas.SimpleFormula2
/-!
# C55: rules found with `simple_formula=True`, black boxes included
-/

namespace Peak
open Peak.Spec

namespace SFm
variable {B K : Type} [DecidableEq B] [DecidableEq K] {P : Process} {pb : MapPb B K} {fi fa : Fn B} {inW : K → List Nat}

/-- The values the formula uses for the constants. -/
def used (pb : MapPb B K) (bs : Bdgs) (a : SAsg B) (p : RPath) : Nat := if bs.overlap pb p then a.archE p else a.m.arch p

omit [DecidableEq B] [DecidableEq K] in
theorem SameExistsS.zero (bs : Bdgs) (a : SAsg B) :
    SameExistsS pb bs a { a with m := { a.m with irBB := fun _ _ => 0, archBB := fun _ _ => 0 } } :=
  ⟨rfl, rfl, rfl, fun _ _ => rfl, rfl, fun _ _ => rfl, rfl, rfl, fun _ _ => rfl⟩

omit [DecidableEq B] [DecidableEq K] in
/-- A leaf that is not `Const` keeps its variable. -/
theorem sub_free {bs : Bdgs} {p : RPath} (hp : constAt pb.archConst p = false) : bs.overlap pb p = false ∧ ∀ (nf : Nat) (a : SAsg B), subArch pb bs nf a p = a.m.arch p := by
  have ho : bs.overlap pb p = false := by
    rw [← Bool.not_eq_true]
    intro ho
    obtain ⟨⟨i, b⟩, h⟩ := List.exists_mem_of_ne_nil _ (overlap_iff.mp ho).2
    obtain ⟨_, _, _, h3⟩ := mem_exists.mp h
    rw [hp] at h3
    cases h3
  refine ⟨ho, fun nf a => ?_⟩
  simp only [subArch, ho, Bool.false_eq_true, if_false]

open Classical in
/-- A rule whose constants are those the formula uses. -/
theorem core (S : Setup P pb.ir pb.arch fi fa inW) {bs : Bdgs} (hB : IM.BdgsOk0 pb bs) {a : SAsg B}
    (hfv : ∀ c ∈ pb.cons, constAt pb.archConst c.1 = false → ∃ n ∈ c.2, consEq P.asm (leafTypes pb.arch.inT []) c.1 (a.m.arch c.1) n = .ok true)
    (hS : simpleSat P.asm pb bs a) {i bi bo : Nat} {s : RVal} {l : List Bdg} {ib ob : Bdg}
    (hs : (RF.skels pb.arch.inT)[i]? = some s) (hl : bs.ins[i]? = some l) (hib : l[bi]? = some ib) (hob : bs.outs[bo]? = some ob)
    (m1 : pb.enc.matchIndex (RF.skels pb.arch.inT).length (ivar pb.enc (RF.skels pb.arch.inT).length a.m.fi) i = .ok true)
    (m2 : pb.enc.matchIndex bs.maxIns (ivar pb.enc bs.maxIns a.m.ib) bi = .ok true)
    (m3 : pb.enc.matchIndex bs.outs.length (ivar pb.enc bs.outs.length a.m.ob) bo = .ok true)
    {rib : List (RSrc × RPath)} (hF : List.Forall₂ (IM.EntryR pb { a.m with arch := used pb bs a }) ib rib) :
    IsMappingC P.asm pb ⟨rib, ob⟩ ∧ RuleCorrect pb.ir pb.arch fi fa ⟨rib, ob⟩ := by
  obtain ⟨si, hsi⟩ := List.length_eq_one_iff.mp (RF.skels_one _ hB.uf)
  have hsh : RHas pb.arch.inT s := IM.skels_mem_has (P := P) S.arch_in.1 S.arch_in.2 (List.mem_of_getElem? hs)
  have hsih : RHas pb.ir.inT si := IM.skels_mem_has (P := P) S.ir_in.1 S.ir_in.2 (by rw [hsi]; exact List.mem_singleton.mpr rfl)
  have hl' : l = IM.formB pb s := by
    rw [hB.ins, List.getElem?_map, hs] at hl
    cases hl
    rfl
  have hbm : ib ∈ IM.formB pb s := hl' ▸ List.mem_of_getElem? hib
  have hBO := IM.formB_ok S.ir_in.1 S.arch_in.1 hsh hbm
  have hn : (ib.map (·.2)).Nodup := hBO.paths.nodup_iff.mpr (VF.leaves_nodup S.arch_in.1 hsh)
  have hsel : Sel pb bs (RF.skels pb.arch.inT).length a.m i bi ib := ⟨by rw [hB.ins, List.length_map], mem_fbs.mpr ⟨l, hl, hib⟩, m1, m2, hn⟩
  obtain ⟨htags, hcon, hvalid⟩ := tags_of S (hS _ (SameExistsS.zero bs a)) hs m1
  have hused : ∀ p, (none, p) ∈ ib → subArch pb bs (RF.skels pb.arch.inT).length a p = used pb bs a p := by
    intro p hp
    cases hcp : constAt pb.archConst p with
    | true => exact hsel.sub_const hp hcp
    | false =>
      rw [(sub_free hcp).2]
      simp only [used, (sub_free (pb := pb) (bs := bs) hcp).1, Bool.false_eq_true, if_false]
  have hcon : ∀ c ∈ pb.cons, ∃ n ∈ c.2, consEq P.asm (leafTypes pb.arch.inT []) c.1 (subArch pb bs (RF.skels pb.arch.inT).length a c.1) n = .ok true := by
    intro c hc
    cases hcp : constAt pb.archConst c.1 with
    | true => exact hcon c hc hcp
    | false =>
      rw [(sub_free hcp).2]
      exact hfv c hc hcp
  have hmem : ∀ e' ∈ rib, ∃ e ∈ ib, IM.EntryR pb { a.m with arch := used pb bs a } e e' := by
    intro e' he'
    obtain ⟨j, hj⟩ := List.getElem?_of_mem he'
    obtain ⟨e, he, hE⟩ := IM.forall₂_at hF hj
    exact ⟨e, List.mem_of_getElem? he, hE⟩
  have hmem' : ∀ e ∈ ib, ∃ e' ∈ rib, IM.EntryR pb { a.m with arch := used pb bs a } e e' := by
    intro e he
    obtain ⟨j, hj⟩ := List.getElem?_of_mem he
    obtain ⟨e', he', hE⟩ := IM.forall₂_at' hF hj
    exact ⟨e', List.mem_of_getElem? he', hE⟩
  refine ⟨⟨?_, ?_, ?_, ?_, ?_⟩, ?_⟩
  · -- some input
    let v := subArch pb bs (RF.skels pb.arch.inT).length a
    let ρi : RPath → Nat := fun q => match ib.find? (fun e => e.1 == some q) with | some e => v e.2 | none => 0
    have hρ : ∀ q p, (some q, p) ∈ ib → v p = ρi q := by
      intro q p he
      have hnd : (ib.filterMap (·.1)).Nodup := hBO.once.nodup_iff.mpr (VF.types_nodup _ S.ir_in.1)
      have : ∀ (L : Bdg), (L.filterMap (·.1)).Nodup → (some q, p) ∈ L → L.find? (fun e => e.1 == some q) = some (some q, p) := by
        intro L
        induction L with
        | nil => intro _ h; cases h
        | cons x L ih =>
          intro hnd hx
          rcases List.mem_cons.mp hx with rfl | hx
          · rw [List.find?_cons_of_pos (by simp)]
          · rw [List.find?_cons_of_neg]
            · refine ih ?_ hx
              rw [List.filterMap_cons] at hnd
              split at hnd
              · exact hnd
              · exact (List.nodup_cons.mp hnd).2
            · intro hq
              rw [beq_iff_eq] at hq
              rw [List.filterMap_cons, hq] at hnd
              exact (List.nodup_cons.mp hnd).1 (List.mem_filterMap.mpr ⟨_, hx, rfl⟩)
      simp only [ρi, this ib hnd he]
    have hR := IM.related_of S.ir_in.1 S.arch_in.1 hB.uf hsh hsih hBO hF (ρi := ρi) (ρa := v) hρ (fun p hp _ => hused p hp)
    obtain ⟨vs, hvs⟩ : ∃ vs, VF.fill pb.arch.inT s v = .prod vs := by
      obtain ⟨_, fs, _, _, hT, _⟩ := S.arch_fn
      have := hR.arch
      rw [hT] at this ⊢
      cases hr : VF.fill (Ty.prod _ fs) s v with
      | leaf _ => rw [hr] at this; simp [RHas] at this
      | sum _ _ => rw [hr] at this; simp [RHas] at this
      | prod vs => exact ⟨vs, rfl⟩
    exact ⟨_, vs, hvs ▸ hR, hvalid vs hvs⟩
  · have := List.mem_of_getElem? hob
    rw [hB.outs] at this
    exact C28_sound _ _ (VF.types_nodup _ S.arch_out.1) (VF.types_nodup _ S.ir_out.1) _ this
  · intro q p hm
    obtain ⟨⟨x, p'⟩, he, hE1, hE⟩ := hmem _ hm
    simp only at hE1 hE
    subst hE1
    rcases hE with ⟨q', rfl, hq⟩ | ⟨_, _, c, t, hq, _⟩ | ⟨_, _, _, hq⟩
    · cases hq
      obtain ⟨g1, g2, t, g3, g4⟩ := hBO.typed q p he
      refine ⟨fun cs hcs => g1 (List.mem_map.mpr ⟨_, hcs, rfl⟩), ?_, t, g3, g4⟩
      rw [← IM.constAt_iff, ← IM.constAt_iff, g2]
    · cases hq
    · cases hq
  · intro c p hm
    obtain ⟨⟨x, p'⟩, he, hE1, hE⟩ := hmem _ hm
    simp only at hE1 hE
    subst hE1
    rcases hE with ⟨q', _, hq⟩ | ⟨rfl, hcc, c', t, hq, ht, hCI⟩ | ⟨_, _, _, hq⟩
    · cases hq
    · cases hq
      refine ⟨?_, fun cs hcs => ?_⟩
      · rcases hcc with h | h
        · exact .inl (IM.constAt_iff.mp h)
        · obtain ⟨y, hy, rfl⟩ := List.mem_map.mp h
          exact .inr ⟨y.2, hy⟩
      obtain ⟨n, hn1, hn2⟩ := hcon _ hcs
      rw [IM.consEq_ok P S.arch_in.1 ht, hused p he] at hn2
      simp only [Except.ok.injEq, beq_iff_eq] at hn2
      exact ⟨n, hn1, t, ht, hn2 ▸ hCI⟩
    · cases hq
  · intro p hm
    obtain ⟨⟨x, p'⟩, he, hE1, hE⟩ := hmem _ hm
    simp only at hE1 hE
    subst hE1
    rcases hE with ⟨q', _, hq⟩ | ⟨_, _, c', t, hq, _⟩ | ⟨_, g1, g2, _⟩
    · cases hq
    · cases hq
    · refine ⟨fun hcc => ?_, fun cs hcs => g2 (List.mem_map.mpr ⟨_, hcs, rfl⟩)⟩
      rw [IM.constAt_iff.mpr hcc] at g1
      cases g1
  · -- correctness
    intro ri ra hR F ρi ρa hFi hFa
    let vi : RPath → Nat := fun q => (((rawLeaves pb.ir.inT ri).lookup q).map (·.2)).getD 0
    let va : RPath → Nat := fun p => (((rawLeaves pb.arch.inT ra).lookup p).map (·.2)).getD 0
    let a' : SAsg B :=
      { m := { a.m with
          ir := fun q => if bs.irUniv q then vi q else a.m.ir q
          arch := fun p => if (bs.forallFbs pb p ≠ [] ∧ bs.overlap pb p = false) ∧ p ∉ pb.cons.map (·.1) then va p else a.m.arch p
          irBB := ρi
          archBB := ρa }
        archE := a.archE
        archA := fun p => if bs.overlap pb p = false then a.archA p else va p }
    have hsame : SameExistsS pb bs a a' :=
      ⟨rfl, rfl, rfl, fun q hq => by simp only [a', if_neg hq], rfl, fun p hp => by simp only [a', if_neg (fun h => hp (And.left h))], rfl, rfl, fun p hp => by simp only [a', if_pos hp]⟩
    have hsel' : Sel pb bs (RF.skels pb.arch.inT).length a'.m i bi ib := ⟨hsel.len, hsel.mem, m1, m2, hn⟩
    have hlm := List.mem_of_getElem? hl
    have hibm := List.mem_of_getElem? hib
    have hirv : ∀ q p, (some q, p) ∈ ib → a'.m.ir q = vi q := by
      intro q p he
      simp only [a']
      rw [if_pos ⟨l, hlm, ib, hibm, p, he⟩]
    have hother : ∀ x p, (x, p) ∈ ib → x.isSome = true ∨ constAt pb.archConst p = false → p ∉ pb.cons.map (·.1) →
        subArch pb bs (RF.skels pb.arch.inT).length a' p = va p := by
      intro x p he hx hpc
      obtain ⟨h1, h2⟩ := hsel'.sub_other (a := a') he hx
      rw [h1]
      by_cases ho : bs.overlap pb p = true
      · rw [if_pos ho]
        simp only [a', ho, Bool.true_eq_false, if_false]
      · rw [if_neg ho]
        rw [Bool.not_eq_true] at ho
        simp only [a']
        rw [if_pos ⟨⟨h2, ho⟩, hpc⟩]
    have hcst : ∀ p, (none, p) ∈ ib → constAt pb.archConst p = true ∨ p ∈ pb.cons.map (·.1) →
        subArch pb bs (RF.skels pb.arch.inT).length a' p = used pb bs a p := by
      intro p he hcp
      cases hcp2 : constAt pb.archConst p with
      | false =>
        rw [hcp2] at hcp
        have hpc : p ∈ pb.cons.map (·.1) := by
          rcases hcp with h | h
          · cases h
          · exact h
        rw [(sub_free hcp2).2]
        simp only [used, (sub_free (pb := pb) (bs := bs) hcp2).1, Bool.false_eq_true, if_false, a']
        rw [if_neg (fun h => h.2 hpc)]
      | true =>
      clear hcp
      have hcp := hcp2
      rw [hsel'.sub_const (a := a') he hcp]
      simp only [used]
      by_cases ho : bs.overlap pb p = true
      · rw [if_pos ho, if_pos ho]
      · rw [if_neg ho, if_neg ho]
        simp only [a']
        rw [if_neg]
        rintro ⟨⟨h1, h2⟩, _⟩
        refine ho (overlap_iff.mpr ⟨h1, ?_⟩)
        intro h3
        have : (i, bi) ∈ bs.existsFbs pb p := mem_exists.mpr ⟨ib, hsel.mem, he, hcp⟩
        rw [h3] at this
        cases this
    -- the IR input
    have e1 : VF.fill pb.ir.inT si a'.m.ir = ri := by
      rw [← RF.shape_eq pb.ir.inT ri si S.ir_in.1 S.ir_in.2 hR.ir hsih]
      · refine RF.fill_self _ _ _ hR.ir ?_
        intro q u n hq
        have hqm : q ∈ irSources rib := hR.ir_paths.symm.subset (List.mem_map.mpr ⟨_, hq, rfl⟩)
        obtain ⟨p, hp⟩ := VF.mem_irSources.mp hqm
        obtain ⟨⟨x, p'⟩, he, hE1, hE⟩ := hmem _ hp
        simp only at hE1 hE
        subst hE1
        rcases hE with ⟨q', rfl, hq'⟩ | ⟨_, _, c', t, hq', _⟩ | ⟨_, _, _, hq'⟩
        · cases hq'
          rw [hirv q p he]
          simp only [vi]
          rw [IM.leaf_vals S.ir_in.1 hR.ir hq]
          exact Nat.mod_eq_of_lt (VF.leaf_bound _ _ hR.ir _ hq)
        · cases hq'
        · cases hq'
      · intro q hq
        obtain ⟨l0, hl0, rfl⟩ := List.mem_map.mp hq
        have := VF.mem_types hR.ir (p := l0.1) (u := l0.2.1) (n := l0.2.2) hl0
        rw [← VF.leaves_types_unionFree _ _ hB.uf hsih] at this
        obtain ⟨l1, hl1, he1⟩ := List.mem_map.mp this
        refine List.mem_map.mpr ⟨l1, hl1, ?_⟩
        simp only [Prod.mk.injEq] at he1
        exact he1.1
    -- the architecture input
    have hsnd : rib.map (·.2) = ib.map (·.2) := IM.entries_snd _ _ hF
    have hleaf : ∀ x p, (x, p) ∈ ib → ∀ u n, (p, u, n) ∈ rawLeaves pb.arch.inT ra → subArch pb bs (RF.skels pb.arch.inT).length a' p % 2 ^ width u = n ∧
        ∀ q, x = some q → subArch pb bs (RF.skels pb.arch.inT).length a' p = a'.m.ir q := by
      intro x p he u n hp
      have hnu := VF.leaf_bound _ _ hR.arch _ hp
      have hvap : va p = n := by
        simp only [va]
        rw [IM.leaf_vals S.arch_in.1 hR.arch hp]
      obtain ⟨e', he', hE1, hE⟩ := hmem' _ he
      obtain ⟨t', n', g1, g2⟩ := hR.entries e' he'
      rw [hE1] at g1
      have := VF.eq_of_fst (VF.leaves_nodup S.arch_in.1 hR.arch) g1 hp
      cases this
      rcases hE with ⟨q, hq1, hq2⟩ | ⟨hq1, hcc, c, t, hq2, ht, hCI⟩ | ⟨hq1, hq3, hq4, hq2⟩
      · simp only at hq1
        subst hq1
        rw [hq2] at g2
        obtain ⟨u', g3, g4⟩ := g2
        rw [hother _ p he (.inl rfl) (hBO.typed q p he).1, hvap]
        refine ⟨Nat.mod_eq_of_lt hnu, fun q' hq' => ?_⟩
        cases hq'
        rw [hirv q p he]
        simp only [vi]
        rw [IM.leaf_vals S.ir_in.1 hR.ir g3]
      · simp only at hq1 hcc ht
        subst hq1
        refine ⟨?_, fun q' hq' => by cases hq'⟩
        rw [hq2] at g2
        have htu := VF.eq_of_fst (VF.types_nodup _ S.arch_in.1) ht (VF.mem_types hR.arch hp)
        subst htu
        rw [hcst p he hcc]
        cases c with
        | bits b =>
          have hv1 : b.val = n := g2.2.2
          have hv2 : b.val = used pb bs a p % 2 ^ width t := hCI.2.2
          rw [← hv2, hv1]
        | bit b =>
          have hv1 : b.toNat = n := g2.2
          have hv2 : b.toNat = used pb bs a p % 2 ^ width t := hCI.2
          rw [← hv2, hv1]
      · simp only at hq1 hq3 hq4
        subst hq1
        rw [hother _ p he (.inr hq3) hq4, hvap]
        exact ⟨Nat.mod_eq_of_lt hnu, fun q' hq' => by cases hq'⟩
    have e2 : VF.fill pb.arch.inT s (subArch pb bs (RF.skels pb.arch.inT).length a') = ra := by
      rw [← RF.shape_eq pb.arch.inT ra s S.arch_in.1 S.arch_in.2 hR.arch hsh]
      · refine RF.fill_self _ _ _ hR.arch ?_
        intro p u n hp
        have hpm : p ∈ ib.map (·.2) := by
          rw [← hsnd]
          exact hR.arch_paths.symm.subset (List.mem_map.mpr ⟨_, hp, rfl⟩)
        obtain ⟨⟨x, p'⟩, he, rfl⟩ := List.mem_map.mp hpm
        exact (hleaf x _ he u n hp).1
      · intro p hp
        have := hR.arch_paths.symm.subset hp
        rw [hsnd] at this
        exact hBO.paths.subset this
    have := outs_of S hB (by
      intro c hc hcp
      rw [(sub_free hcp).2]
      simp only [a']
      rw [if_neg (fun h => h.2 (List.mem_map.mpr ⟨c, hc, rfl⟩))]
      exact hfv c hc hcp) (hS a' hsame) hs hsi hob hsel' m3 hBO htags (by
      intro q p he
      have hpm := hR.arch_paths.subset (show p ∈ rib.map (·.2) by rw [hsnd]; exact List.mem_map.mpr ⟨_, he, rfl⟩)
      obtain ⟨⟨p', u, n⟩, hp, rfl⟩ := List.mem_map.mp hpm
      exact (hleaf _ _ he u n hp).2 q rfl) F (by rw [e1]; exact hFi) (by rw [e2]; exact hFa)
    rw [e1, e2] at this
    exact this

/-- As `core`, when all constrained leaves are `Const`. -/
theorem core_const (S : Setup P pb.ir pb.arch fi fa inW) (hc : ∀ c ∈ pb.cons, constAt pb.archConst c.1 = true) {bs : Bdgs} (hB : IM.BdgsOk0 pb bs) {a : SAsg B}
    (hS : simpleSat P.asm pb bs a) {i bi bo : Nat} {s : RVal} {l : List Bdg} {ib ob : Bdg}
    (hs : (RF.skels pb.arch.inT)[i]? = some s) (hl : bs.ins[i]? = some l) (hib : l[bi]? = some ib) (hob : bs.outs[bo]? = some ob)
    (m1 : pb.enc.matchIndex (RF.skels pb.arch.inT).length (ivar pb.enc (RF.skels pb.arch.inT).length a.m.fi) i = .ok true)
    (m2 : pb.enc.matchIndex bs.maxIns (ivar pb.enc bs.maxIns a.m.ib) bi = .ok true)
    (m3 : pb.enc.matchIndex bs.outs.length (ivar pb.enc bs.outs.length a.m.ob) bo = .ok true)
    {rib : List (RSrc × RPath)} (hF : List.Forall₂ (IM.EntryR pb { a.m with arch := used pb bs a }) ib rib) :
    IsMapping P.asm pb ⟨rib, ob⟩ ∧ RuleCorrect pb.ir pb.arch fi fa ⟨rib, ob⟩ := by
  obtain ⟨h1, h2⟩ := core S hB (fun c h h' => by rw [hc c h] at h'; cases h') hS hs hl hib hob m1 m2 m3 hF
  exact ⟨IM.mapping_of_c (fun p cs h => IM.constAt_iff.mp (hc _ h)) h1, h2⟩

theorem solve_inv {A : Ty → Except Err AsmObj} {solve : (SAsg B → Prop) → Option (SAsg B)} {a0 : SAsg B} {rule : RRule}
    (h : simpleSolve A pb solve a0 = .ok (some rule)) :
    ∃ bs a, mapBindings A pb true = .ok (some bs) ∧ solve (simpleSat A pb bs) = some a ∧ rrFromSolver A pb bs a.m = .ok rule := by
  simp only [simpleSolve] at h
  split at h
  · cases h
  · cases h
  · next bs hbs =>
    split at h
    · cases h
    · split at h
      · cases h
      · next a ha =>
        split at h
        · cases h
        · next r hr =>
          cases h
          exact ⟨bs, a, hbs, ha, hr⟩

omit [DecidableEq B] [DecidableEq K] in
/-- The entry for a leaf with another constant. -/
theorem entry_change {m : MAsg B} {e : Option RPath × RPath} {e' : RSrc × RPath} (h : IM.EntryR pb m e e') (w : RPath → Nat) (hwf : WF pb.arch.inT) :
    ∃ e'', IM.EntryR pb { m with arch := w } e e'' ∧ e''.2 = e'.2 ∧ (e''.1 = e'.1 ∨ ∃ c c', e'.1 = .const c ∧ e''.1 = .const c') := by
  obtain ⟨h1, h2⟩ := h
  rcases h2 with ⟨q, g1, g2⟩ | ⟨g1, g2, c, t, g3, g4, g5⟩ | ⟨g1, g2, g3, g4⟩
  · exact ⟨e', ⟨h1, .inl ⟨q, g1, g2⟩⟩, rfl, .inl rfl⟩
  · obtain ⟨hl, _⟩ := VF.types_leaf _ hwf _ g4
    have : ∃ c', ConstIs c' t (w e.2 % 2 ^ width t) := by
      rcases hl with ⟨k, n, hk⟩ | ⟨k, hk⟩ | ⟨k, ms, hk⟩ <;> simp only at hk
      · exact ⟨.bits (BV.ofNat (width t) (w e.2)), by simp [hk], by simp, by simp [BV.ofNat_val]⟩
      · refine ⟨.bit (w e.2 % 2 == 1), ⟨k, hk⟩, ?_⟩
        rw [hk]
        simp only [width]
        rcases Nat.mod_two_eq_zero_or_one (w e.2) with hn | hn <;> simp [hn]
      · exact ⟨.bits (BV.ofNat (width t) (w e.2)), by simp [hk], by simp, by simp [BV.ofNat_val]⟩
    obtain ⟨c', hc'⟩ := this
    exact ⟨(.const c', e'.2), ⟨h1, .inr (.inl ⟨g1, g2, c', t, rfl, g4, hc'⟩)⟩, rfl, .inr ⟨c, c', g3, rfl⟩⟩
  · exact ⟨e', ⟨h1, .inr (.inr ⟨g1, g2, g3, g4⟩)⟩, rfl, .inl rfl⟩

end SFm

/-- C55, soundness up to constants, for problems whose constrained inputs are all `Const` and outputs without unions: with a solver whose answers satisfy what it was
asked, a rule returned by a search with `simple_formula=True` becomes, by changing at most some of its constants, a mapping that is correct for
every input and whatever the black boxes compute. -/
theorem C55_sound_up_to_constants_partial {B K : Type} [DecidableEq B] [DecidableEq K] (P : Process) (pb : MapPb B K) (fi fa : Fn B) (inW : K → List Nat)
    (S0 : Setup0 P pb.ir pb.arch fi fa inW) (hcons : ∀ p cs, (p, cs) ∈ pb.cons → IsConst pb.archConst p)
    (solve : (SAsg B → Prop) → Option (SAsg B)) (hsat : ∀ φ a, solve φ = some a → φ a) (a0 : SAsg B) (rule : RRule)
    (h : simpleSolve P.asm pb solve a0 = .ok (some rule)) :
    ∃ rule', rule'.ob = rule.ob ∧ List.Forall₂ SameButConst rule.ib rule'.ib ∧ IsMapping P.asm pb rule' ∧ RuleCorrect pb.ir pb.arch fi fa rule' := by
  have hc : ∀ c ∈ pb.cons, constAt pb.archConst c.1 = true := fun c hc => IM.constAt_iff.mpr (hcons c.1 c.2 hc)
  obtain ⟨bs, a, hbs, ha, hr⟩ := SFm.solve_inv h
  have S := IM.setup_of_bindings S0 hbs
  have hB := (IM.bindings_inv' S.ir_in S.arch_in hbs).1
  obtain ⟨i, bi, bo, s, l, ib, ob, hs, hl, hib, hob, m1, m2, m3, rfl, hF⟩ := IM.rule_inv S.arch_in hr
  have : ∃ rib, List.Forall₂ SameButConst rule.ib rib ∧ List.Forall₂ (IM.EntryR pb { a.m with arch := SFm.used pb bs a }) ib rib := by
    clear * - hF S
    generalize rule.ib = rib0 at hF
    induction hF with
    | nil => exact ⟨[], .nil, .nil⟩
    | cons h _ ih =>
      obtain ⟨rib, h1, h2⟩ := ih
      obtain ⟨e'', g1, g2, g3⟩ := SFm.entry_change h (SFm.used pb bs a) S.arch_in.1
      exact ⟨e'' :: rib, .cons ⟨g2, g3⟩ h1, .cons g1 h2⟩
  obtain ⟨rib, h1, h2⟩ := this
  exact ⟨⟨rib, rule.ob⟩, rfl, h1, SFm.core_const S hc hB (hsat _ a ha) hs hl hib hob m1 m2 m3 h2⟩

/-- C55, soundness, for problems whose constrained inputs are all `Const`, outputs without unions, and no `Const` architecture leaf that one candidate binding
binds to an IR leaf and another leaves free: with a solver whose answers satisfy what it was asked, a rule returned by a search with `simple_formula=True` is a mapping and is
correct for every input, whatever the black boxes compute. -/
theorem C55_sound_no_overlap_partial {B K : Type} [DecidableEq B] [DecidableEq K] (P : Process) (pb : MapPb B K) (fi fa : Fn B) (inW : K → List Nat)
    (S0 : Setup0 P pb.ir pb.arch fi fa inW) (hcons : ∀ p cs, (p, cs) ∈ pb.cons → IsConst pb.archConst p)
    (hov : ∀ bs, mapBindings P.asm pb true = .ok (some bs) → ∀ l ∈ bs.ins, ∀ b ∈ l, ∀ l' ∈ bs.ins, ∀ b' ∈ l', ∀ q p, IsConst pb.archConst p →
      (some q, p) ∈ b → (none, p) ∉ b')
    (solve : (SAsg B → Prop) → Option (SAsg B)) (hsat : ∀ φ a, solve φ = some a → φ a) (a0 : SAsg B) (rule : RRule)
    (h : simpleSolve P.asm pb solve a0 = .ok (some rule)) :
    IsMapping P.asm pb rule ∧ RuleCorrect pb.ir pb.arch fi fa rule := by
  have hc : ∀ c ∈ pb.cons, constAt pb.archConst c.1 = true := fun c hc => IM.constAt_iff.mpr (hcons c.1 c.2 hc)
  obtain ⟨bs, a, hbs, ha, hr⟩ := SFm.solve_inv h
  have S := IM.setup_of_bindings S0 hbs
  have hB := (IM.bindings_inv' S.ir_in S.arch_in hbs).1
  obtain ⟨i, bi, bo, s, l, ib, ob, hs, hl, hib, hob, m1, m2, m3, rfl, hF⟩ := IM.rule_inv S.arch_in hr
  have ho : ∀ p, bs.overlap pb p = false := by
    intro p
    rw [← Bool.not_eq_true]
    intro ho
    obtain ⟨h1, h2⟩ := SFm.overlap_iff.mp ho
    obtain ⟨⟨i1, b1⟩, h1⟩ := List.exists_mem_of_ne_nil _ h1
    obtain ⟨⟨i2, b2⟩, h2⟩ := List.exists_mem_of_ne_nil _ h2
    obtain ⟨ib1, ⟨x, p'⟩, f1, f2, f3, f4⟩ := SFm.mem_forall.mp h1
    obtain ⟨ib2, g1, g2, g3⟩ := SFm.mem_exists.mp h2
    simp only at f3 f4
    subst f3
    rw [g3] at f4
    simp only [Bool.true_eq_false, or_false] at f4
    obtain ⟨q, rfl⟩ := Option.isSome_iff_exists.mp f4
    obtain ⟨l1, k1, k2⟩ := SFm.mem_fbs.mp f1
    obtain ⟨l2, k3, k4⟩ := SFm.mem_fbs.mp g1
    exact hov bs hbs l1 (List.mem_of_getElem? k1) ib1 (List.mem_of_getElem? k2) l2 (List.mem_of_getElem? k3) ib2 (List.mem_of_getElem? k4) q p'
      (IM.constAt_iff.mp g3) f2 g2
  have hu : SFm.used pb bs a = a.m.arch := by
    funext p
    simp [SFm.used, ho p]
  have := SFm.core_const S hc hB (hsat _ a ha) hs hl hib hob m1 m2 m3 (rib := rule.ib) (by rw [hu]; exact hF)
  exact this

/-- C55, soundness, when the IR has no `Const` input. -/
theorem C55_sound_partial {B K : Type} [DecidableEq B] [DecidableEq K] (P : Process) (pb : MapPb B K) (fi fa : Fn B) (inW : K → List Nat)
    (S0 : Setup0 P pb.ir pb.arch fi fa inW) (hcons : ∀ p cs, (p, cs) ∈ pb.cons → IsConst pb.archConst p) (hir : ∀ q, ¬ IsConst pb.irConst q)
    (solve : (SAsg B → Prop) → Option (SAsg B)) (hsat : ∀ φ a, solve φ = some a → φ a) (a0 : SAsg B) (rule : RRule)
    (h : simpleSolve P.asm pb solve a0 = .ok (some rule)) :
    IsMapping P.asm pb rule ∧ RuleCorrect pb.ir pb.arch fi fa rule := by
  refine C55_sound_no_overlap_partial P pb fi fa inW S0 hcons ?_ solve hsat a0 rule h
  intro bs hbs l hl b hb l' hl' b' hb' q p hp hm
  exfalso
  have S := IM.setup_of_bindings S0 hbs
  have hB := (IM.bindings_inv' S.ir_in S.arch_in hbs).1
  rw [hB.ins] at hl
  obtain ⟨s, hs, rfl⟩ := List.mem_map.mp hl
  have hBO := IM.formB_ok S.ir_in.1 S.arch_in.1 (IM.skels_mem_has (P := P) S.arch_in.1 S.arch_in.2 hs) hb
  obtain ⟨_, h2, _⟩ := hBO.typed q p hm
  rw [IM.constAt_iff.mpr hp, IM.constAt_iff] at h2
  exact hir q h2

namespace SFm
variable {B K : Type} [DecidableEq B] [DecidableEq K] {P : Process} {pb : MapPb B K} {bs : Bdgs} {fi fa : Fn B} {inW : K → List Nat}

theorem find_bound {ib : Bdg} (hnd : (ib.filterMap (·.1)).Nodup) {q p : RPath} (he : (some q, p) ∈ ib) :
    ib.find? (fun e => e.1 == some q) = some (some q, p) := by
  induction ib with
  | nil => cases he
  | cons x L ih =>
    rcases List.mem_cons.mp he with rfl | hx
    · rw [List.find?_cons_of_pos (by simp)]
    · rw [List.find?_cons_of_neg]
      · refine ih ?_ hx
        rw [List.filterMap_cons] at hnd
        split at hnd
        · exact hnd
        · exact (List.nodup_cons.mp hnd).2
      · intro hq
        rw [beq_iff_eq] at hq
        rw [List.filterMap_cons, hq] at hnd
        exact (List.nodup_cons.mp hnd).1 (List.mem_filterMap.mpr ⟨_, hx, rfl⟩)

/-- The IR values that an architecture input gives under a binding. -/
def pull (ib : Bdg) (v : RPath → Nat) (q : RPath) : Nat := match ib.find? (fun e => e.1 == some q) with | some e => v e.2 | none => 0

theorem pull_eq {ib : Bdg} (hnd : (ib.filterMap (·.1)).Nodup) (v : RPath → Nat) {q p : RPath} (he : (some q, p) ∈ ib) : v p = pull ib v q := by
  simp only [pull, find_bound hnd he]

/-- A constrained leaf keeps its variable. -/
theorem sub_constrained (S : Setup P pb.ir pb.arch fi fa inW) (hB : IM.BdgsOk0 pb bs) (nf : Nat) (a : SAsg B) {p : RPath} (hp : p ∈ pb.cons.map (·.1))
    (hc : constAt pb.archConst p = true) : subArch pb bs nf a p = a.m.arch p ∧ bs.forallFbs pb p = [] := by
  have hn : bs.forallFbs pb p = [] := by
    rw [List.eq_nil_iff_forall_not_mem]
    rintro ⟨i, bi⟩ h
    obtain ⟨ib, ⟨x, p'⟩, h1, h2, h3, h4⟩ := mem_forall.mp h
    simp only at h3 h4
    subst h3
    rw [hc] at h4
    simp only [Bool.true_eq_false, or_false] at h4
    obtain ⟨q, rfl⟩ := Option.isSome_iff_exists.mp h4
    obtain ⟨l, k1, k2⟩ := mem_fbs.mp h1
    rw [hB.ins, List.getElem?_map, Option.map_eq_some_iff] at k1
    obtain ⟨s, hs, rfl⟩ := k1
    have hBO := IM.formB_ok S.ir_in.1 S.arch_in.1 (IM.skels_mem_has (P := P) S.arch_in.1 S.arch_in.2 (List.mem_of_getElem? hs)) (List.mem_of_getElem? k2)
    exact (hBO.typed q p' h2).1 hp
  refine ⟨?_, hn⟩
  simp only [subArch]
  rw [if_neg]
  intro ho
  exact (overlap_iff.mp ho).1 hn

/-- The formula holds for an assignment that describes a correct rule. -/
theorem holds_of (R : Ready P pb bs fi fa inW) {i bi bo : Nat} {s : RVal} {ib ob : Bdg} (hs : (RF.skels pb.arch.inT)[i]? = some s) (hob : bs.outs[bo]? = some ob)
    (a : SAsg B) (hsel : Sel pb bs (RF.skels pb.arch.inT).length a.m i bi ib) (hBO : IM.BOk pb s ib)
    (m3 : pb.enc.matchIndex bs.outs.length (ivar pb.enc bs.outs.length a.m.ob) bo = .ok true) (htags : RF.tagsOk a.m.archTag pb.arch.inT [] s = true)
    (hcon : ∀ c ∈ pb.cons, constAt pb.archConst c.1 = true → ∃ n ∈ c.2, consEq P.asm (leafTypes pb.arch.inT []) c.1 (a.m.arch c.1) n = .ok true)
    (hvalid : ∀ vs, VF.fill pb.arch.inT s (subArch pb bs (RF.skels pb.arch.inT).length a) = .prod vs → ConstsValid P.asm pb.arch.inT pb.archConst vs)
    (houts : (∀ c ∈ pb.cons, constAt pb.archConst c.1 = false → ∃ n ∈ c.2, consEq P.asm (leafTypes pb.arch.inT []) c.1 (a.m.arch c.1) n = .ok true) →
      ∀ ri, RHas pb.ir.inT ri → (∀ q p, (some q, p) ∈ ib → ∀ t n, (q, t, n) ∈ rawLeaves pb.ir.inT ri → subArch pb bs (RF.skels pb.arch.inT).length a p % 2 ^ width t = n) →
      ∀ F : K → List BV → List BV, BoxesCompute F pb.ir.bbs (fi ri (pb.ir.bbOuts a.m.irBB)).2 (pb.ir.bbOuts a.m.irBB) →
      BoxesCompute F pb.arch.bbs (fa (VF.fill pb.arch.inT s (subArch pb bs (RF.skels pb.arch.inT).length a)) (pb.arch.bbOuts a.m.archBB)).2 (pb.arch.bbOuts a.m.archBB) →
      OutputsAgree pb.ir.outT pb.arch.outT ob (fi ri (pb.ir.bbOuts a.m.irBB)).1
        (fa (VF.fill pb.arch.inT s (subArch pb bs (RF.skels pb.arch.inT).length a)) (pb.arch.bbOuts a.m.archBB)).1) :
    simpleFormula P.asm pb bs a = .ok true := by
  have S := R.S
  obtain ⟨si, hsi⟩ := List.length_eq_one_iff.mp (RF.skels_one _ R.hB.uf)
  have hsh : RHas pb.arch.inT s := IM.skels_mem_has (P := P) S.arch_in.1 S.arch_in.2 (List.mem_of_getElem? hs)
  have hsih : RHas pb.ir.inT si := IM.skels_mem_has (P := P) S.ir_in.1 S.ir_in.2 (by rw [hsi]; exact List.mem_singleton.mpr rfl)
  obtain ⟨x, ares, ires, da, di, archOut, irOut, valid, forms, exC, faC, fbs, obs, hP, hx, hH⟩ := formula_any R a
  rw [hx, hH]
  have hsc : ∀ c ∈ pb.cons, subArch pb bs (RF.skels pb.arch.inT).length a c.1 = a.m.arch c.1 := by
    intro c hc
    cases hcp : constAt pb.archConst c.1 with
    | true => exact (sub_constrained S R.hB (RF.skels pb.arch.inT).length a (List.mem_map.mpr ⟨c, hc, rfl⟩) hcp).1
    | false => exact (sub_free hcp).2 _ _
  generalize hv : subArch pb bs (RF.skels pb.arch.inT).length a = v at *
  have value : ∀ {T : Ty} {ρ τ : RPath → Nat} {r : FormsRes} {j : Nat} {s : RVal}, WF T ∧ Buildable T → smtForms P.asm ρ τ T [] = .ok r → (RF.skels T)[j]? = some s →
      RF.tagsOk τ T [] s = true → r.value = mkAV T (rawCode T (VF.fill T s ρ)) := by
    intro T ρ τ r j s hw hr hs ht
    obtain ⟨f, hf, hF⟩ := IM.forall₂_at (RF.raw_ok P _ _ _ hw.1 hw.2 _ _ hr) hs
    obtain ⟨g1, g2⟩ := hF.val ht
    exact g2.trans g1
  have va := value S.arch_in hP.ares_h hs htags
  have vi := value S.ir_in hP.ires_h (j := 0) (s := si) (by rw [hsi]; rfl) (RF.tags_unionFree _ _ _ _ R.hB.uf)
  obtain ⟨d, co, fo, ws, a1, a2, a3, a4, a5, a6, a7⟩ := run_ok P S.arch_fn S.arch_in.1 S.arch_out (pb.arch.bbOuts a.m.archBB) (VF.fill_spec _ s v hsh).1
  obtain ⟨d', co', fo', ws', b1, b2, b3, b4, b5, b6, _⟩ := run_ok P S.ir_fn S.ir_in.1 S.ir_out (pb.ir.bbOuts a.m.irBB) (VF.fill_spec _ si a.m.ir hsih).1
  have hda := hP.da_h
  rw [va, a4] at hda
  cases hda
  have hdi := hP.di_h
  rw [vi, b4] at hdi
  cases hdi
  have hao := hP.archOut_h
  rw [a5] at hao
  cases hao
  have hio := hP.irOut_h
  rw [b5] at hio
  cases hio
  have hlen := forms_length S.arch_in.1 S.arch_in.2 hP.ares_h
  rintro ⟨F, hFa, hFi⟩
  rw [a6] at hFa
  rw [b6] at hFi
  refine ⟨?_, ?_, ?_, ?_, ?_, ?_⟩
  · -- valid constants
    obtain ⟨vs, hvs⟩ : ∃ vs, VF.fill pb.arch.inT s v = .prod vs := by
      obtain ⟨_, fs, _, _, hT, _⟩ := S.arch_fn
      have := (VF.fill_spec _ s v hsh).1
      rw [hT] at this ⊢
      cases hr : VF.fill (Ty.prod _ fs) s v with
      | leaf _ => rw [hr] at this; simp [RHas] at this
      | sum _ _ => rw [hr] at this; simp [RHas] at this
      | prod vs => exact ⟨vs, rfl⟩
    have hval := hvalid vs hvs
    have hin := S.arch_in.1
    have hr := (VF.fill_spec _ s v hsh).1
    obtain ⟨c, fs, _, _, hT, _⟩ := S.arch_fn
    have hvh := hP.valid_h
    have h4 := a4
    rw [hvs] at hr h4
    rw [hT] at hin hr h4 hvh hval
    rw [VF.dict_ok P hin hr] at h4
    cases h4
    obtain ⟨valid', v1, v2, _⟩ := IM.valid_ok P (cs := pb.archConst) hin hr
    rw [v1] at hvh
    cases hvh
    exact List.all_eq_true.mp (v2.mpr hval)
  · -- the form
    obtain ⟨f, hf, hF⟩ := IM.forall₂_at (RF.raw_ok P _ _ _ S.arch_in.1 S.arch_in.2 _ _ hP.ares_h) hs
    obtain ⟨j, hj⟩ : ∃ j, ares.forms.zipIdx[j]? = some (f, i) := List.getElem?_of_mem (List.mem_zipIdx_iff_getElem?.mpr hf)
    obtain ⟨y, hy, hyc⟩ := IM.forall₂_at' (RF.exMap_forall₂ hP.forms_h) hj
    rw [hlen] at hyc
    simp only [formCond, hsel.m1, bind, Except.bind, Bool.true_and] at hyc
    have := Except.ok.inj hyc
    rw [hF.sel, htags] at this
    rw [this]
    exact List.mem_of_getElem? hy
  · obtain ⟨j, hj⟩ : ∃ j, bs.outs.zipIdx[j]? = some (ob, bo) := List.getElem?_of_mem (List.mem_zipIdx_iff_getElem?.mpr hob)
    obtain ⟨y, hy, hyc⟩ := IM.forall₂_at' (RF.exMap_forall₂ hP.obs_h) hj
    simp only [obCond, m3, exBind] at hyc
    obtain ⟨_, hm, _, _, _, _, hr⟩ := hyc
    cases hm
    cases hr
    exact List.mem_map.mpr ⟨_, List.mem_of_getElem? hy, rfl⟩
  · obtain ⟨l, hl, hl2⟩ := consConds_any (A := P.asm) (types := leafTypes pb.arch.inT []) (isConst := constAt pb.archConst) (v := v) true (cons := pb.cons) (by
      intro c hcm
      refine ⟨R.hc c hcm, fun n _ => ?_⟩
      obtain ⟨⟨p, t⟩, hpt, hpe⟩ := List.mem_map.mp (R.hB.cons c hcm)
      simp only at hpe
      subst hpe
      exact ⟨_, IM.consEq_ok P S.arch_in.1 hpt _ _⟩)
    have := hP.exC_h
    rw [hl] at this
    cases this
    refine hl2 (fun c hc hcp => ?_)
    rw [hsc c hc]
    exact hcon c hc hcp
  · obtain ⟨j, hj⟩ := List.getElem?_of_mem hsel.mem
    obtain ⟨y, hy, hyc⟩ := IM.forall₂_at' (RF.exMap_forall₂ hP.fbs_h) hj
    rw [hlen] at hyc
    simp only [fbCond, hsel.match_ok hsel.mem, exBind] at hyc
    obtain ⟨_, hm, _, _, hr⟩ := hyc
    have hm := (Except.ok.inj hm).symm
    simp only [and_self, decide_true] at hm
    subst hm
    cases hr
    exact List.mem_map.mpr ⟨_, List.mem_of_getElem? hy, rfl⟩
  · intro hfa himp
    obtain ⟨y, hy, hyt⟩ := List.mem_map.mp himp
    obtain ⟨⟨i', bi', ib'⟩, hm, hyc⟩ := IM.exMap_mem' hP.fbs_h y hy
    rw [hlen] at hyc
    simp only [fbCond, hsel.match_ok hm, exBind] at hyc
    obtain ⟨_, hm1, eqs, heqs, hr⟩ := hyc
    cases hm1
    cases hr
    simp only [Bool.and_eq_true, decide_eq_true_eq] at hyt
    obtain ⟨⟨rfl, rfl⟩, hall⟩ := hyt
    have hibe : ib' = ib := by
      obtain ⟨l, k1, k2⟩ := mem_fbs.mp hm
      obtain ⟨l', k3, k4⟩ := mem_fbs.mp hsel.mem
      rw [k1] at k3; cases k3
      rw [k2] at k4; cases k4
      rfl
    subst hibe
    have hagree := houts (fun c hc hcp => by
      have := consConds_true hP.faC_h hfa c hc hcp
      rw [hsc c hc] at this
      exact this) (VF.fill pb.ir.inT si a.m.ir) (VF.fill_spec _ si a.m.ir hsih).1 (by
      intro q p he t n hq
      obtain ⟨_, _, u, hqu, hpu⟩ := hBO.typed q p he
      have htu := VF.eq_of_fst (VF.types_nodup _ S.ir_in.1) (VF.mem_types (VF.fill_spec _ si a.m.ir hsih).1 hq) hqu
      subst htu
      obtain ⟨cs, hcs, hcs2⟩ := bindEqs_any (cons := pb.cons.map (·.1)) (al := ares.varmap.leaves) (il := ires.varmap.leaves) (b := ib') (by
        intro x p he
        obtain ⟨l0, hl0, hle⟩ := List.mem_map.mp (hBO.paths.subset (List.mem_map.mpr ⟨_, he, rfl⟩))
        have hty := VF.mem_types hsh (p := l0.1) (u := l0.2.1) (n := l0.2.2) hl0
        simp only at hle
        rw [hle] at hty
        refine ⟨_, varmap_lookup P S.arch_in.1 hP.ares_h hty, ?_⟩
        rintro q rfl
        obtain ⟨g1, _, t, g3, g4⟩ := hBO.typed q p he
        refine ⟨g1, _, varmap_lookup P S.ir_in.1 hP.ires_h g3, ?_⟩
        have htt := VF.eq_of_fst (VF.types_nodup _ S.arch_in.1) hty g4
        simp only [BV.ofNat_size]
        rw [htt])
      rw [heqs] at hcs
      cases hcs
      have hbv := hcs2 (List.all_eq_true.mp hall) q p _ _ he (varmap_lookup P S.arch_in.1 hP.ares_h hpu) (varmap_lookup P S.ir_in.1 hP.ires_h hqu)
      have hbv := congrArg BV.val hbv
      simp only [BV.ofNat_val] at hbv
      rw [hbv]
      rw [(VF.fill_spec _ si a.m.ir hsih).2] at hq
      obtain ⟨l0, _, hl0⟩ := List.mem_map.mp hq
      simp only [VF.refl, Prod.mk.injEq] at hl0
      obtain ⟨e1, e2, e3⟩ := hl0
      rw [← e1, ← e2, ← e3]) F hFi hFa
    intro b hb
    obtain ⟨z, hz, rfl⟩ := List.mem_map.mp hb
    obtain ⟨⟨ob', bo'⟩, hobm, hzc⟩ := IM.exMap_mem' hP.obs_h z hz
    rw [List.mem_zipIdx_iff_getElem?] at hobm
    simp only [obCond, exBind] at hzc
    obtain ⟨m, hm', eqs', heqs', c, hcc, hr⟩ := hzc
    cases hr
    simp only
    cases m with
    | false => rfl
    | true =>
      have := IM.match_unique hm' m3
      subst this
      simp only at hobm
      rw [hob] at hobm
      cases hobm
      obtain ⟨ht, q, p, hqp⟩ := R.out_typed (List.mem_of_getElem? hob)
      have S1 := S.ir_out.1
      have S2 := S.arch_out.1
      have f1 := R.fli
      have f2 := R.fla
      rw [a2, b2] at hagree
      rw [b1] at b3 S1 f1 ht hagree
      rw [a1] at a3 S2 f2 ht hagree
      obtain ⟨eqs2, e1, e2, e3⟩ := fieldEqs_any P S1 S2 f1 f2 b3 a3 ht
      rw [e1] at heqs'
      cases heqs'
      rw [and_of_all (fun h => e3 h q p hqp) (e2 hagree)] at hcc
      cases hcc
      rfl

end SFm

/-- What a search returns: a rule, `None` for want of bindings or of a solution, or a ValueError because of an enum leaf. -/
theorem SFm.solve_any_free {B K : Type} [DecidableEq B] [DecidableEq K] (P : Process) (pb : MapPb B K) (fi fa : Fn B) (inW : K → List Nat)
    (S : Setup P pb.ir pb.arch fi fa inW) (hT : Total P pb.arch) (hTb : TotalBoxes pb.arch inW) (hu : UnionFree pb.ir.inT)
    (fli : Flat pb.ir.outT) (fla : Flat pb.arch.outT) (hso : leafTypes pb.ir.outT [] ≠ [])
    (hcons : ∀ p cs, (p, cs) ∈ pb.cons → cs ≠ [] ∧ ∃ t, (p, t) ∈ leafTypes pb.arch.inT [])
    (hk : ∃ k t, (k, t) ∈ pb.arch.inT.fieldDict ∧ [k] ∈ pb.archConst)
    (solve : (SAsg B → Prop) → Option (SAsg B)) (hsat : ∀ φ a, solve φ = some a → φ a) (a0 : SAsg B) :
    (∃ r, simpleSolve P.asm pb solve a0 = .ok (some r)) ∨
    (simpleSolve P.asm pb solve a0 = .ok none ∧
      (mapBindings P.asm pb true = .ok none ∨ ∃ bs, mapBindings P.asm pb true = .ok (some bs) ∧ solve (simpleSat P.asm pb bs) = none)) ∨
    (simpleSolve P.asm pb solve a0 = .error .valueError ∧ ∃ p c ms, (p, Ty.enum c ms) ∈ leafTypes pb.arch.inT [] ∧ IsConst pb.archConst p ∧
      ((∃ q, IsConst pb.irConst q ∧ (q, Ty.enum c ms) ∈ leafTypes pb.ir.inT []) ∨
        ∃ vs n, RHas pb.arch.inT (.prod vs) ∧ ConstsValid P.asm pb.arch.inT pb.archConst vs ∧ (p, Ty.enum c ms, n) ∈ rawLeaves pb.arch.inT (.prod vs) ∧
          isValidAV P.asm (mkAV (.enum c ms) n) = .ok false)) ∨
    (simpleSolve P.asm pb solve a0 = .error .valueError ∧ ∃ p c ms, IsFree pb p ∧ (p, Ty.enum c ms) ∈ leafTypes pb.arch.inT []) := by
  have hc : ∀ c ∈ pb.cons, c.2 ≠ [] := fun c h => (hcons c.1 c.2 h).1
  have hcl : ∀ c ∈ pb.cons, c.1 ∈ (leafTypes pb.arch.inT []).map (·.1) := by
    intro c h
    obtain ⟨t, ht⟩ := (hcons c.1 c.2 h).2
    exact List.mem_map.mpr ⟨_, ht, rfl⟩
  by_cases hin : ∃ s ∈ RF.skels pb.arch.inT, IM.formB pb s ≠ []
  swap
  · have hb := IM.bindings_none' S hT hu true (fun h => by cases h) hcl (.inl (fun s hs => by
      by_contra h
      exact hin ⟨s, hs, h⟩))
    exact .inr (.inl ⟨by simp only [simpleSolve, hb], .inl hb⟩)
  by_cases hout : createBindings (leafTypes pb.arch.outT []) (leafTypes pb.ir.outT []) = []
  · have hb := IM.bindings_none' S hT hu true (fun h => by cases h) hcl (.inr hout)
    exact .inr (.inl ⟨by simp only [simpleSolve, hb], .inl hb⟩)
  let bs : Bdgs := ⟨(RF.skels pb.arch.inT).map (IM.formB pb), createBindings (leafTypes pb.arch.outT []) (leafTypes pb.ir.outT [])⟩
  have hB : IM.BdgsOk0 pb bs := ⟨hu, rfl, rfl, hcl⟩
  have hbind : mapBindings P.asm pb true = .ok (some bs) := by
    refine IM.bindings_any' S hT hu true (fun h => by cases h) hcl ?_ hin hout
    obtain ⟨c, fs, _, _, hTy, _⟩ := S.arch_fn
    obtain ⟨k, t, hkt, hkc⟩ := hk
    rw [hTy] at hkt
    exact ⟨c, fs, k, hTy, List.mem_map.mpr ⟨_, hkt, rfl⟩, hkc⟩
  have hfb : bs.fbs ≠ [] := by
    obtain ⟨s, hs, hf⟩ := hin
    obtain ⟨i, hi⟩ := List.getElem?_of_mem hs
    obtain ⟨b, hb⟩ := List.exists_mem_of_ne_nil _ hf
    obtain ⟨bi, hbi⟩ := List.getElem?_of_mem hb
    have hins : bs.ins[i]? = some (IM.formB pb s) := by simp only [bs, List.getElem?_map, hi, Option.map_some]
    have : (i, bi, b) ∈ bs.fbs := SFm.mem_fbs.mpr ⟨_, hins, hbi⟩
    exact List.ne_nil_of_mem this
  have R : SFm.Ready P pb bs fi fa inW := ⟨S, hT, hTb, hB, hc, fli, fla, hso, hk, hfb, hout⟩
  obtain ⟨x0, _, _, _, _, _, _, _, _, _, _, _, _, _, hx0, _⟩ := SFm.formula_any R a0
  cases ha' : solve (simpleSat P.asm pb bs) with
  | none => exact .inr (.inl ⟨by simp only [simpleSolve, hbind, hx0, ha'], .inr ⟨bs, hbind, ha'⟩⟩)
  | some a' =>
  have hS' := hsat _ _ ha'
  -- the answer of the solver
  obtain ⟨ares, ires, da, di, archOut, irOut, valid, forms, exC, faC, fbs, obs, hP, hH⟩ := SFm.formula_inv S.arch_in (hS' _ (SFm.SameExistsS.zero bs a'))
  have hz := hH ⟨_, SFm.zero_boxes pb.arch S.arch_boxes.1 _, by
    have := SFm.zero_boxes pb.ir S.ir_boxes.1 (pb.ir.run di (pb.ir.bbOuts (fun _ _ => 0))).2
    rw [S.same_classes] at this
    exact this⟩
  obtain ⟨y, hy, hyt⟩ := List.mem_map.mp hz.fbs_h
  obtain ⟨⟨i', bi', ib'⟩, hm, hyc⟩ := IM.exMap_mem' hP.fbs_h y hy
  rw [SFm.forms_length S.arch_in.1 S.arch_in.2 hP.ares_h] at hyc
  simp only [fbCond, matchFB, SFm.exBind] at hyc
  obtain ⟨mm, ⟨x1, hx1, x2, hx2, hmm⟩, _, _, hr⟩ := hyc
  cases hmm
  cases hr
  simp only [Bool.and_eq_true] at hyt
  obtain ⟨rfl, rfl⟩ := hyt
  obtain ⟨l', hl', hib'⟩ := SFm.mem_fbs.mp hm
  obtain ⟨z, hzm, hzt⟩ := List.mem_map.mp hz.obs_h
  obtain ⟨⟨ob', bo'⟩, hobm', hzc⟩ := IM.exMap_mem' hP.obs_h z hzm
  rw [List.mem_zipIdx_iff_getElem?] at hobm'
  simp only [obCond, SFm.exBind] at hzc
  obtain ⟨x3, hx3, _, _, _, _, hr⟩ := hzc
  cases hr
  simp only at hzt
  subst hzt
  obtain ⟨s', hs', hl2⟩ : ∃ s', (RF.skels pb.arch.inT)[i']? = some s' ∧ l' = IM.formB pb s' := by
    simp only [bs, List.getElem?_map, Option.map_eq_some_iff] at hl'
    obtain ⟨s', h1, h2⟩ := hl'
    exact ⟨s', h1, h2.symm⟩
  have hsh' : RHas pb.arch.inT s' := IM.skels_mem_has (P := P) S.arch_in.1 S.arch_in.2 (List.mem_of_getElem? hs')
  have hBO2 := IM.formB_ok S.ir_in.1 S.arch_in.1 hsh' (hl2 ▸ List.mem_of_getElem? hib')
  have hsel' : SFm.Sel pb bs (RF.skels pb.arch.inT).length a'.m i' bi' ib' :=
    ⟨by simp [bs], hm, hx1, hx2, hBO2.paths.nodup_iff.mpr (VF.leaves_nodup S.arch_in.1 hsh')⟩
  rcases IM.rule_any0 S hB (a := a'.m) hs' hl' hib' hobm' hx1 hx2 hx3 with ⟨r, hr⟩ | ⟨hr, p, c, ms, q1, q2, q3, q4⟩
  · left
    refine ⟨r, ?_⟩
    simp only [simpleSolve, hbind, hx0, ha', hr]
  · right
    right
    have herr : simpleSolve P.asm pb solve a0 = .error .valueError := by simp only [simpleSolve, hbind, hx0, ha', hr]
    by_cases hpc : IsConst pb.archConst p
    swap
    · right
      rcases q2 with h | h
      · exact absurd h hpc
      · obtain ⟨y, hy, rfl⟩ := List.mem_map.mp h
        exact ⟨herr, _, c, ms, ⟨hpc, y.2, hy⟩, q1⟩
    left
    refine ⟨herr, p, c, ms, q1, hpc, ?_⟩
    by_cases ho : bs.overlap pb p = true
    · left
      obtain ⟨h1, _⟩ := SFm.overlap_iff.mp ho
      obtain ⟨⟨i1, b1⟩, h1⟩ := List.exists_mem_of_ne_nil _ h1
      obtain ⟨ib1, ⟨x, p'⟩, f1, f2, f3, f4⟩ := SFm.mem_forall.mp h1
      simp only at f3 f4
      subst f3
      rw [IM.constAt_iff.mpr hpc] at f4
      simp only [Bool.true_eq_false, or_false] at f4
      obtain ⟨q, rfl⟩ := Option.isSome_iff_exists.mp f4
      obtain ⟨l1, k1, k2⟩ := SFm.mem_fbs.mp f1
      simp only [bs, List.getElem?_map, Option.map_eq_some_iff] at k1
      obtain ⟨s1, hs1, rfl⟩ := k1
      have hBO1 := IM.formB_ok S.ir_in.1 S.arch_in.1 (IM.skels_mem_has (P := P) S.arch_in.1 S.arch_in.2 (List.mem_of_getElem? hs1)) (List.mem_of_getElem? k2)
      obtain ⟨_, g2, t, g3, g4⟩ := hBO1.typed q p' f2
      have := VF.eq_of_fst (VF.types_nodup _ S.arch_in.1) q1 g4
      refine ⟨q, ?_, this ▸ g3⟩
      rw [← IM.constAt_iff, g2]
      exact IM.constAt_iff.mpr hpc
    · right
      obtain ⟨_, _, hvalid⟩ := SFm.tags_of S (hS' _ (SFm.SameExistsS.zero bs a')) hs' hx1
      have hsub : subArch pb bs (RF.skels pb.arch.inT).length a' p = a'.m.arch p := by
        rw [hsel'.sub_const q3 (IM.constAt_iff.mpr hpc), if_neg ho]
      obtain ⟨⟨p', u, m⟩, hl0, hle⟩ := List.mem_map.mp (hBO2.paths.subset (List.mem_map.mpr ⟨_, q3, rfl⟩))
      simp only at hle
      subst hle
      have hu' := VF.eq_of_fst (VF.types_nodup _ S.arch_in.1) (VF.mem_types hsh' hl0) q1
      subst hu'
      obtain ⟨f1, f2⟩ := VF.fill_spec pb.arch.inT s' (subArch pb bs (RF.skels pb.arch.inT).length a') hsh'
      obtain ⟨ws, hws⟩ : ∃ ws, VF.fill pb.arch.inT s' (subArch pb bs (RF.skels pb.arch.inT).length a') = .prod ws := by
        obtain ⟨ci, fs, _, _, hTy, _⟩ := S.arch_fn
        rw [hTy] at hsh' ⊢
        cases s' with
        | leaf _ => simp [RHas] at hsh'
        | sum _ _ => simp [RHas] at hsh'
        | prod ss => exact ⟨_, by simp only [VF.fill]; rfl⟩
      refine ⟨ws, _, hws ▸ f1, hvalid ws hws, ?_, q4⟩
      rw [← hws, f2, ← hsub]
      exact List.mem_map.mpr ⟨_, hl0, rfl⟩

/-- What a search returns: a rule, `None` for want of bindings or of a solution, or a ValueError because the solver chose a `Const` leaf that its own assembler rejects. -/
theorem SFm.solve_any {B K : Type} [DecidableEq B] [DecidableEq K] (P : Process) (pb : MapPb B K) (fi fa : Fn B) (inW : K → List Nat)
    (S : Setup P pb.ir pb.arch fi fa inW) (hT : Total P pb.arch) (hTb : TotalBoxes pb.arch inW) (hu : UnionFree pb.ir.inT)
    (fli : Flat pb.ir.outT) (fla : Flat pb.arch.outT) (hso : leafTypes pb.ir.outT [] ≠ [])
    (hcons : ∀ p cs, (p, cs) ∈ pb.cons → IsConst pb.archConst p ∧ cs ≠ [] ∧ ∃ t, (p, t) ∈ leafTypes pb.arch.inT [])
    (hk : ∃ k t, (k, t) ∈ pb.arch.inT.fieldDict ∧ [k] ∈ pb.archConst)
    (solve : (SAsg B → Prop) → Option (SAsg B)) (hsat : ∀ φ a, solve φ = some a → φ a) (a0 : SAsg B) :
    (∃ r, simpleSolve P.asm pb solve a0 = .ok (some r)) ∨
    (simpleSolve P.asm pb solve a0 = .ok none ∧
      (mapBindings P.asm pb true = .ok none ∨ ∃ bs, mapBindings P.asm pb true = .ok (some bs) ∧ solve (simpleSat P.asm pb bs) = none)) ∨
    (simpleSolve P.asm pb solve a0 = .error .valueError ∧ ∃ p c ms, (p, Ty.enum c ms) ∈ leafTypes pb.arch.inT [] ∧ IsConst pb.archConst p ∧
      ((∃ q, IsConst pb.irConst q ∧ (q, Ty.enum c ms) ∈ leafTypes pb.ir.inT []) ∨
        ∃ vs n, RHas pb.arch.inT (.prod vs) ∧ ConstsValid P.asm pb.arch.inT pb.archConst vs ∧ (p, Ty.enum c ms, n) ∈ rawLeaves pb.arch.inT (.prod vs) ∧
          isValidAV P.asm (mkAV (.enum c ms) n) = .ok false)) := by
  rcases SFm.solve_any_free P pb fi fa inW S hT hTb hu fli fla hso (fun p cs h => (hcons p cs h).2) hk solve hsat a0 with h | h | h | ⟨_, p, c, ms, hf, _⟩
  · exact .inl h
  · exact .inr (.inl h)
  · exact .inr (.inr h)
  · obtain ⟨hn, cs, hcs⟩ := hf
    exact absurd (hcons p cs hcs).1 hn

/-- The entry of a rule with another value for a constrained leaf that is not `Const`. -/
theorem SFm.entry_value {B K : Type} {pb : MapPb B K} {m : MAsg B} {e : Option RPath × RPath} {e' : RSrc × RPath} (h : IM.EntryR pb m e e') (w : RPath → Nat) (hwf : WF pb.arch.inT)
    (hw : ∀ p, ¬ IsFree pb p → w p = m.arch p) (hb : ∀ q, e.1 = some q → ¬ IsFree pb e.2) :
    ∃ e'', IM.EntryR pb { m with arch := w } e e'' ∧ e''.2 = e'.2 ∧ (¬ IsFree pb e'.2 → e''.1 = e'.1) ∧
      (IsFree pb e'.2 → ∃ c t, e''.1 = .const c ∧ (e'.2, t) ∈ leafTypes pb.arch.inT [] ∧ ConstIs c t (w e'.2 % 2 ^ width t)) := by
  by_cases hf : IsFree pb e.2
  · obtain ⟨e'', g1, g2, _⟩ := SFm.entry_change h w hwf
    have h1 := h.1
    refine ⟨e'', g1, g2, fun hn => absurd hf (h1 ▸ hn), fun _ => ?_⟩
    obtain ⟨k1, k2⟩ := g1
    rcases k2 with ⟨q, f1, _⟩ | ⟨_, _, c, t, f3, f4, f5⟩ | ⟨_, _, f3, _⟩
    · exact absurd hf (hb q f1)
    · rw [h1]
      exact ⟨c, t, f3, f4, f5⟩
    · obtain ⟨_, cs, hcs⟩ := hf
      exact absurd (List.mem_map.mpr ⟨_, hcs, rfl⟩) f3
  · obtain ⟨h1, h2⟩ := h
    refine ⟨e', ⟨h1, ?_⟩, rfl, fun _ => rfl, fun h' => absurd (h1 ▸ h') hf⟩
    rw [show ({ m with arch := w } : MAsg B).arch e.2 = m.arch e.2 from hw _ hf]
    exact h2

open Classical in
/-- A mapping that is correct whichever allowed values its constrained leaves hold that are not `Const` gives an assignment that satisfies the formula and selects it. -/
theorem SFm.sat_of_family {B K : Type} [DecidableEq B] [DecidableEq K] (P : Process) (pb : MapPb B K) (fi fa : Fn B) (inW : K → List Nat)
    (S : Setup P pb.ir pb.arch fi fa inW) (hT : Total P pb.arch) (hTb : TotalBoxes pb.arch inW) (hu : UnionFree pb.ir.inT)
    (fli : Flat pb.ir.outT) (fla : Flat pb.arch.outT) (hso : leafTypes pb.ir.outT [] ≠ [])
    (hcons : ∀ p cs, (p, cs) ∈ pb.cons → cs ≠ [] ∧ ∃ t, (p, t) ∈ leafTypes pb.arch.inT [])
    (hdict : (pb.cons.map (·.1)).Nodup)
    (hk : ∃ k t, (k, t) ∈ pb.arch.inT.fieldDict ∧ [k] ∈ pb.archConst)
    (rule : RRule) (hM : IsMappingC P.asm pb rule) (hC : ∀ rule', WithValues pb rule rule' → RuleCorrect pb.ir pb.arch fi fa rule')
    (hval : ∀ ri vs, Related pb.ir.inT pb.arch.inT rule.ib ri (.prod vs) → ConstsValid P.asm pb.arch.inT pb.archConst vs) :
    ∃ (bs : Bdgs) (a : SAsg B) (i bi bo : Nat) (s : RVal) (b ob : Bdg),
      mapBindings P.asm pb true = .ok (some bs) ∧ simpleSat P.asm pb bs a ∧ (RF.skels pb.arch.inT)[i]? = some s ∧ bs.ins[i]? = some (IM.formB pb s) ∧
      (IM.formB pb s)[bi]? = some b ∧ bs.outs[bo]? = some ob ∧
      pb.enc.matchIndex (RF.skels pb.arch.inT).length (ivar pb.enc (RF.skels pb.arch.inT).length a.m.fi) i = .ok true ∧
      pb.enc.matchIndex bs.maxIns (ivar pb.enc bs.maxIns a.m.ib) bi = .ok true ∧
      pb.enc.matchIndex bs.outs.length (ivar pb.enc bs.outs.length a.m.ob) bo = .ok true ∧
      b.Perm (rule.ib.map IM.optOf) ∧ ob.Perm rule.ob ∧ List.Forall₂ (IM.EntryR pb a.m) (rule.ib.map IM.optOf) rule.ib := by
  obtain ⟨ri, vs, hR, hV⟩ := hM.input
  have hc : ∀ c ∈ pb.cons, c.2 ≠ [] := fun c h => (hcons c.1 c.2 h).1
  have hcl : ∀ c ∈ pb.cons, c.1 ∈ (leafTypes pb.arch.inT []).map (·.1) := by
    intro c h
    obtain ⟨t, ht⟩ := (hcons c.1 c.2 h).2
    exact List.mem_map.mpr ⟨_, ht, rfl⟩
  obtain ⟨si, hsi⟩ := List.length_eq_one_iff.mp (RF.skels_one _ hu)
  have hsih : RHas pb.ir.inT si := IM.skels_mem_has (P := P) S.ir_in.1 S.ir_in.2 (by rw [hsi]; exact List.mem_singleton.mpr rfl)
  -- the form
  obtain ⟨s, hsm, hsh, hsl⟩ := RF.skel_of _ _ hR.arch
  have hsp : (rawLeaves pb.arch.inT s).map (·.1) = (rawLeaves pb.arch.inT (.prod vs)).map (·.1) := by
    have := congrArg (List.map Prod.fst) hsl
    simpa [List.map_map, Function.comp_def] using this
  obtain ⟨i, hi⟩ := List.getElem?_of_mem hsm
  -- the bindings
  obtain ⟨b, hbm, hbp⟩ := IM.binding_of S.ir_in.1 S.arch_in.1 hu hM hR hsh hsp
  obtain ⟨bi, hbi⟩ := List.getElem?_of_mem hbm
  obtain ⟨fo, ho1, ho2⟩ := hM.outs
  obtain ⟨ob, hobm, hobr⟩ := C28_complete _ _ (VF.types_nodup _ S.arch_out.1) (VF.types_nodup _ S.ir_out.1) fo ho2
  obtain ⟨bo, hbo⟩ := List.getElem?_of_mem hobm
  have hobp : ob.Perm rule.ob := IM.rep_perm hobr.2 ho1.2 (hobr.1.trans ho1.1.symm)
  let bs : Bdgs := ⟨(RF.skels pb.arch.inT).map (IM.formB pb), createBindings (leafTypes pb.arch.outT []) (leafTypes pb.ir.outT [])⟩
  have hB : IM.BdgsOk0 pb bs := ⟨hu, rfl, rfl, hcl⟩
  have hbind : mapBindings P.asm pb true = .ok (some bs) := by
    refine IM.bindings_any' S hT hu true (fun h => by cases h) hcl ?_ ⟨s, hsm, List.ne_nil_of_mem hbm⟩ (List.ne_nil_of_mem hobm)
    obtain ⟨c, fs, _, _, hTy, _⟩ := S.arch_fn
    obtain ⟨k, t, hkt, hkc⟩ := hk
    rw [hTy] at hkt
    exact ⟨c, fs, k, hTy, List.mem_map.mpr ⟨_, hkt, rfl⟩, hkc⟩
  have hins : bs.ins[i]? = some (IM.formB pb s) := by simp only [bs, List.getElem?_map, hi, Option.map_some]
  have hfb : (i, bi, b) ∈ bs.fbs := SFm.mem_fbs.mpr ⟨_, hins, hbi⟩
  have R : SFm.Ready P pb bs fi fa inW := ⟨S, hT, hTb, hB, hc, fli, fla, hso, hk, List.ne_nil_of_mem hfb, List.ne_nil_of_mem hobm⟩
  have hBO := IM.formB_ok S.ir_in.1 S.arch_in.1 hsh hbm
  have hn : (b.map (·.2)).Nodup := hBO.paths.nodup_iff.mpr (VF.leaves_nodup S.arch_in.1 hsh)
  have hnd : (b.filterMap (·.1)).Nodup := hBO.once.nodup_iff.mpr (VF.types_nodup _ S.ir_in.1)
  have hBO' := IM.BOk.of_perm hBO hbp
  -- the assignment
  obtain ⟨τ, hτ⟩ := RF.exists_tags S.arch_in.1 hsh
  obtain ⟨v1, u1, _, w1, _⟩ := C30_reachable pb.enc (RF.skels pb.arch.inT).length i (List.getElem?_eq_some_iff.mp hi).1
  obtain ⟨v2, u2, _, w2, _⟩ := C30_reachable pb.enc bs.maxIns bi (IM.triple_lt hins hbi)
  obtain ⟨v3, u3, _, w3, _⟩ := C30_reachable pb.enc bs.outs.length bo (List.getElem?_eq_some_iff.mp hbo).1
  have iv : ∀ (n : Nat) (v : BV), v.size = pb.enc.varLen n → ivar pb.enc n v.val = v := by
    intro n v hv
    simp only [ivar]
    apply BV.ext
    · rw [BV.ofNat_size, hv]
    · rw [BV.ofNat_val, ← hv]; exact Nat.mod_eq_of_lt v.isLt
  let w : RPath → Nat := fun p => match (rawLeaves pb.arch.inT (.prod vs)).lookup p with
      | some (_, n) => n
      | none => ((pb.cons.lookup p).bind List.head?).getD 0
  let a : SAsg B := {
    m := { fi := v1.val, ib := v2.val, ob := v3.val, ir := fun _ => 0, irTag := fun _ => 0, arch := w
           archTag := τ, irBB := fun _ _ => 0, archBB := fun _ _ => 0 }
    archE := w, archA := fun _ => 0 }
  have hav : ∀ p u n, (p, u, n) ∈ rawLeaves pb.arch.inT (.prod vs) → w p = n := by
    intro p u n h
    simp only [w, VF.lookup_of_mem' (VF.leaves_nodup S.arch_in.1 hR.arch) h]
  have hEnt : List.Forall₂ (IM.EntryR pb a.m) (rule.ib.map IM.optOf) rule.ib := by
    rw [List.forall₂_map_left_iff, List.forall₂_same]
    rintro ⟨x, p⟩ he
    refine ⟨rfl, ?_⟩
    cases x with
    | path q => exact .inl ⟨q, rfl, rfl⟩
    | const c =>
      refine .inr (.inl ⟨rfl, (hM.const c p he).1.imp IM.constAt_iff.mpr (fun ⟨cs, hcs⟩ => List.mem_map.mpr ⟨_, hcs, rfl⟩), c, ?_⟩)
      obtain ⟨t, n, h1, h2⟩ := hR.entries _ he
      refine ⟨t, rfl, VF.mem_types hR.arch h1, ?_⟩
      simp only [IM.optOf, a]
      rw [hav p t n h1, Nat.mod_eq_of_lt (VF.leaf_bound _ _ hR.arch _ h1)]
      exact h2
    | unbound =>
      obtain ⟨h1, h2⟩ := hM.unbound p he
      refine .inr (.inr ⟨rfl, ?_, ?_, rfl⟩)
      · rw [← Bool.not_eq_true]
        exact fun h => h1 (IM.constAt_iff.mp h)
      · intro h
        obtain ⟨y, hy, hye⟩ := List.mem_map.mp h
        simp only [IM.optOf] at hye
        rw [← hye] at h2
        exact h2 y.2 hy
  -- the formula holds
  have hSat : simpleSat P.asm pb bs a := by
    intro a' ha'
    have hsel : SFm.Sel pb bs (RF.skels pb.arch.inT).length a'.m i bi b := by
      refine ⟨by simp [bs], hfb, ?_, ?_, hn⟩
      · rw [ha'.fi, show a.m.fi = v1.val from rfl, iv _ _ u1]; exact w1
      · rw [ha'.ib, show a.m.ib = v2.val from rfl, iv _ _ u2]; exact w2
    have hw : ∀ p, (none, p) ∈ b → constAt pb.archConst p = true → subArch pb bs (RF.skels pb.arch.inT).length a' p = w p := by
      intro p hp hcp
      rw [hsel.sub_const hp hcp]
      split
      · rw [ha'.archE]
      · next ho =>
        rw [ha'.arch p]
        rintro ⟨h1, _⟩
        refine ho (SFm.overlap_iff.mpr ⟨h1, ?_⟩)
        exact List.ne_nil_of_mem (SFm.mem_exists.mpr ⟨b, hfb, hp, hcp⟩)
    have hnf : ∀ q p, (some q, p) ∈ b → ¬ IsFree pb p := by
      rintro q p he ⟨_, cs, hcs⟩
      exact (hBO.typed q p he).1 (List.mem_map.mpr ⟨_, hcs, rfl⟩)
    have hcf : ∀ p, ¬ IsFree pb p → constAt pb.archConst p = true ∨ p ∈ pb.cons.map (·.1) → constAt pb.archConst p = true := by
      rintro p hf (h | h)
      · exact h
      · obtain ⟨y, hy, rfl⟩ := List.mem_map.mp h
        by_contra hcc
        exact hf ⟨fun h => hcc (IM.constAt_iff.mpr h), y.2, hy⟩
    refine SFm.holds_of R hi hbo a' hsel hBO ?_ (by rw [ha'.archTag]; exact hτ) ?_ ?_ ?_
    · rw [ha'.ob, show a.m.ob = v3.val from rfl, iv _ _ u3]; exact w3
    · intro c hcm hcp
      obtain ⟨t, ht⟩ := (hcons c.1 c.2 hcm).2
      have hne := (SFm.sub_constrained S hB (RF.skels pb.arch.inT).length a' (List.mem_map.mpr ⟨c, hcm, rfl⟩) hcp).2
      rw [ha'.arch c.1 (fun h => h.1 hne), show a.m.arch = w from rfl]
      by_cases hp : c.1 ∈ (rawLeaves pb.arch.inT (.prod vs)).map (·.1)
      · obtain ⟨e, he, hee⟩ := List.mem_map.mp (hR.arch_paths.symm.subset hp)
        obtain ⟨x, p⟩ := e
        simp only at hee
        subst hee
        cases x with
        | path q => exact absurd hcm ((hM.bound q c.1 he).1 c.2)
        | unbound => exact absurd hcm ((hM.unbound c.1 he).2 c.2)
        | const cc =>
          obtain ⟨n, hn1, t', ht', hCI⟩ := (hM.const cc c.1 he).2 c.2 hcm
          refine ⟨n, hn1, ?_⟩
          rw [IM.consEq_ok P S.arch_in.1 ht']
          obtain ⟨t'', m, h1, h2⟩ := hR.entries _ he
          have htt := VF.eq_of_fst (VF.types_nodup _ S.arch_in.1) (VF.mem_types hR.arch h1) ht'
          subst htt
          rw [hav _ _ _ h1]
          have hm := VF.leaf_bound _ _ hR.arch _ h1
          simp only at h2 hm
          rw [Nat.mod_eq_of_lt hm]
          have : m = n % 2 ^ width t'' := by
            cases cc with
            | bits v =>
              have e1 : v.val = m := h2.2.2
              have e2 : v.val = n % 2 ^ width t'' := hCI.2.2
              rw [← e1, e2]
            | bit v =>
              have e1 : v.toNat = m := h2.2
              have e2 : v.toNat = n % 2 ^ width t'' := hCI.2
              rw [← e1, e2]
          rw [this]
          simp
      · obtain ⟨n, rest, hcr⟩ := List.exists_cons_of_ne_nil (hc c hcm)
        refine ⟨n, by rw [hcr]; exact List.mem_cons_self, ?_⟩
        have hlk : (rawLeaves pb.arch.inT (.prod vs)).lookup c.1 = none := by
          rw [List.lookup_eq_none_iff]
          intro e he
          rw [bne_iff_ne]
          intro h
          exact hp (List.mem_map.mpr ⟨e, he, h.symm⟩)
        have hv : w c.1 = n := by
          simp only [w, hlk]
          rw [VF.lookup_of_mem' hdict (show (c.1, c.2) ∈ pb.cons from hcm), hcr]
          rfl
        rw [IM.consEq_ok P S.arch_in.1 ht, hv]
        simp
    · intro ws hws
      let ρ : RPath → Nat := fun p => if IsFree pb p then w p else subArch pb bs (RF.skels pb.arch.inT).length a' p
      have hρ : Related pb.ir.inT pb.arch.inT rule.ib (VF.fill pb.ir.inT si (SFm.pull b ρ)) (VF.fill pb.arch.inT s ρ) := by
        refine IM.related_of S.ir_in.1 S.arch_in.1 hu hsh hsih hBO' hEnt (fun q p h => SFm.pull_eq hnd _ (hbp.symm.subset h)) ?_
        intro p h hcc
        by_cases hf : IsFree pb p
        · simp only [ρ, if_pos hf]
          rfl
        · simp only [ρ, if_neg hf]
          exact hw p (hbp.symm.subset h) (hcf p hf hcc)
      obtain ⟨ws', hws'⟩ : ∃ ws', VF.fill pb.arch.inT s ρ = .prod ws' := by
        obtain ⟨ci, fs, _, _, hTy, _⟩ := S.arch_fn
        rw [hTy] at hsh ⊢
        cases s with
        | leaf _ => simp [RHas] at hsh
        | sum _ _ => simp [RHas] at hsh
        | prod ss => exact ⟨_, by simp only [VF.fill]; rfl⟩
      intro c fs hTy k x hx hkc
      refine hval _ ws' (hws' ▸ hρ) c fs hTy k x ?_ hkc
      rw [hTy] at hws hws' hsh
      obtain ⟨ss, rfl⟩ : ∃ ss, s = .prod ss := by
        cases s with
        | leaf _ => simp [RHas] at hsh
        | sum _ _ => simp [RHas] at hsh
        | prod ss => exact ⟨ss, rfl⟩
      simp only [VF.fill, RVal.prod.injEq] at hws hws'
      rw [← hws] at hx
      rw [← hws']
      refine IM.dict_congr fs ss _ _ pb.archConst k x hkc ?_ hx
      intro p hp
      simp only [ρ]
      rw [if_neg (fun hf => hf.1 (IM.constAt_iff.mp hp)), hTy]
    · intro hfa ri' hri' hbits F hFi hFa
      let w' : RPath → Nat := fun p => if IsFree pb p then a'.m.arch p else w p
      obtain ⟨rib', hW, hE⟩ : ∃ rib', List.Forall₂ (WithValue pb) rule.ib rib' ∧ List.Forall₂ (IM.EntryR pb { a.m with arch := w' }) (rule.ib.map IM.optOf) rib' := by
        have hnf' : ∀ e ∈ rule.ib.map IM.optOf, ∀ q, e.1 = some q → ¬ IsFree pb e.2 := by
          intro e he q hq
          refine hnf q e.2 (hbp.symm.subset ?_)
          rw [← hq]
          exact he
        clear * - hEnt hfa hnf' S hcons
        generalize rule.ib.map IM.optOf = ib0 at hEnt hnf'
        generalize rule.ib = rib0 at hEnt
        induction hEnt with
        | nil => exact ⟨[], .nil, .nil⟩
        | @cons e e' _ _ h _ ih =>
          obtain ⟨rib', g1, g2⟩ := ih (fun x hx => hnf' x (List.mem_cons_of_mem _ hx))
          obtain ⟨e'', f1, f2, f3, f4⟩ := SFm.entry_value h w' S.arch_in.1 (fun p hp => by simp only [w', if_neg hp]; rfl) (hnf' e List.mem_cons_self)
          refine ⟨e'' :: rib', .cons ⟨f2, fun hf => ?_, f3⟩ g1, .cons f1 g2⟩
          obtain ⟨c, t, k1, k2, k3⟩ := f4 hf
          refine ⟨c, k1, fun cs hcs => ?_⟩
          obtain ⟨n, n1, n2⟩ := hfa _ hcs (by
            rw [← Bool.not_eq_true]
            exact fun hcc => hf.1 (IM.constAt_iff.mp hcc))
          rw [IM.consEq_ok P S.arch_in.1 k2] at n2
          simp only [Except.ok.injEq, beq_iff_eq] at n2
          refine ⟨n, n1, t, k2, ?_⟩
          rw [← n2]
          simp only [w', if_pos hf] at k3
          exact k3
      have hRel : Related pb.ir.inT pb.arch.inT rib' (VF.fill pb.ir.inT si (SFm.pull b (subArch pb bs (RF.skels pb.arch.inT).length a')))
          (VF.fill pb.arch.inT s (subArch pb bs (RF.skels pb.arch.inT).length a')) := by
        refine IM.related_of S.ir_in.1 S.arch_in.1 hu hsh hsih hBO' hE (fun q p h => SFm.pull_eq hnd _ (hbp.symm.subset h)) ?_
        intro p h hcc
        by_cases hf : IsFree pb p
        · simp only [w', if_pos hf]
          refine (SFm.sub_free ?_).2 _ _
          rw [← Bool.not_eq_true]
          exact fun hcc => hf.1 (IM.constAt_iff.mp hcc)
        · simp only [w', if_neg hf]
          exact hw p (hbp.symm.subset h) (hcf p hf hcc)
      have hfill : VF.fill pb.ir.inT si (SFm.pull b (subArch pb bs (RF.skels pb.arch.inT).length a')) = ri' := by
        rw [← RF.shape_eq pb.ir.inT ri' si S.ir_in.1 S.ir_in.2 hri' hsih]
        · refine RF.fill_self _ _ _ hri' ?_
          intro q u n hq
          have hqt := VF.mem_types hri' hq
          have : q ∈ b.filterMap (·.1) := hBO.once.symm.subset (List.mem_map.mpr ⟨_, hqt, rfl⟩)
          obtain ⟨⟨x, p⟩, he, hx⟩ := List.mem_filterMap.mp this
          simp only at hx
          subst hx
          rw [← SFm.pull_eq hnd _ he]
          exact hbits q p he u n hq
        · intro q hq
          obtain ⟨l0, hl0, rfl⟩ := List.mem_map.mp hq
          have := VF.mem_types hri' (p := l0.1) (u := l0.2.1) (n := l0.2.2) hl0
          rw [← VF.leaves_types_unionFree _ _ hu hsih] at this
          obtain ⟨l1, hl1, he1⟩ := List.mem_map.mp this
          refine List.mem_map.mpr ⟨l1, hl1, ?_⟩
          simp only [Prod.mk.injEq] at he1
          exact he1.1
      have := hC ⟨rib', rule.ob⟩ ⟨rfl, hW⟩ _ _ hRel F a'.m.irBB a'.m.archBB (by rw [hfill]; exact hFi) hFa
      rw [hfill] at this
      intro q p h
      exact this q p (hobp.subset h)
  refine ⟨bs, a, i, bi, bo, s, b, ob, hbind, hSat, hi, hins, hbi, hbo, ?_, ?_, ?_, hbp, hobp, hEnt⟩
  · rw [show a.m.fi = v1.val from rfl, iv _ _ u1]; exact w1
  · rw [show a.m.ib = v2.val from rfl, iv _ _ u2]; exact w2
  · rw [show a.m.ob = v3.val from rfl, iv _ _ u3]; exact w3

/-- A correct mapping gives an assignment that satisfies the formula and selects it. -/
theorem SFm.sat_of_mapping {B K : Type} [DecidableEq B] [DecidableEq K] (P : Process) (pb : MapPb B K) (fi fa : Fn B) (inW : K → List Nat)
    (S : Setup P pb.ir pb.arch fi fa inW) (hT : Total P pb.arch) (hTb : TotalBoxes pb.arch inW) (hu : UnionFree pb.ir.inT)
    (fli : Flat pb.ir.outT) (fla : Flat pb.arch.outT) (hso : leafTypes pb.ir.outT [] ≠ [])
    (hcons : ∀ p cs, (p, cs) ∈ pb.cons → IsConst pb.archConst p ∧ cs ≠ [] ∧ ∃ t, (p, t) ∈ leafTypes pb.arch.inT [])
    (hdict : (pb.cons.map (·.1)).Nodup)
    (hk : ∃ k t, (k, t) ∈ pb.arch.inT.fieldDict ∧ [k] ∈ pb.archConst)
    (rule : RRule) (hM : IsMapping P.asm pb rule) (hC : RuleCorrect pb.ir pb.arch fi fa rule)
    (hval : ∀ ri vs, Related pb.ir.inT pb.arch.inT rule.ib ri (.prod vs) → ConstsValid P.asm pb.arch.inT pb.archConst vs) :
    ∃ (bs : Bdgs) (a : SAsg B) (i bi bo : Nat) (s : RVal) (b ob : Bdg),
      mapBindings P.asm pb true = .ok (some bs) ∧ simpleSat P.asm pb bs a ∧ (RF.skels pb.arch.inT)[i]? = some s ∧ bs.ins[i]? = some (IM.formB pb s) ∧
      (IM.formB pb s)[bi]? = some b ∧ bs.outs[bo]? = some ob ∧
      pb.enc.matchIndex (RF.skels pb.arch.inT).length (ivar pb.enc (RF.skels pb.arch.inT).length a.m.fi) i = .ok true ∧
      pb.enc.matchIndex bs.maxIns (ivar pb.enc bs.maxIns a.m.ib) bi = .ok true ∧
      pb.enc.matchIndex bs.outs.length (ivar pb.enc bs.outs.length a.m.ob) bo = .ok true ∧
      b.Perm (rule.ib.map IM.optOf) ∧ ob.Perm rule.ob ∧ List.Forall₂ (IM.EntryR pb a.m) (rule.ib.map IM.optOf) rule.ib := by
  refine SFm.sat_of_family P pb fi fa inW S hT hTb hu fli fla hso (fun p cs h => (hcons p cs h).2) hdict hk rule (IM.mapping_to_c hM) ?_ hval
  intro rule' h
  rw [IM.withValues_const (fun p cs h => (hcons p cs h).1) h]
  exact hC

/-- C55, completeness, for problems with flat outputs whose IR input has no unions: if a correct mapping exists, and every input it allows has valid
`Const` fields, then the search with `simple_formula=True` and a complete solver does not answer that there is none: it returns a rule, or raises ValueError,
which needs an enum leaf that is `Const`. The architecture is assumed to return outputs for any bits. -/
theorem C55_complete_partial {B K : Type} [DecidableEq B] [DecidableEq K] (P : Process) (pb : MapPb B K) (fi fa : Fn B) (inW : K → List Nat)
    (S : Setup P pb.ir pb.arch fi fa inW) (hT : Total P pb.arch) (hTb : TotalBoxes pb.arch inW) (hu : UnionFree pb.ir.inT)
    (fli : Flat pb.ir.outT) (fla : Flat pb.arch.outT) (hso : leafTypes pb.ir.outT [] ≠ [])
    (hcons : ∀ p cs, (p, cs) ∈ pb.cons → IsConst pb.archConst p ∧ cs ≠ [] ∧ ∃ t, (p, t) ∈ leafTypes pb.arch.inT [])
    (hdict : (pb.cons.map (·.1)).Nodup)
    (hk : ∃ k t, (k, t) ∈ pb.arch.inT.fieldDict ∧ [k] ∈ pb.archConst)
    (solve : (SAsg B → Prop) → Option (SAsg B)) (hsat : ∀ φ a, solve φ = some a → φ a) (hcomp : ∀ φ a, φ a → ∃ a', solve φ = some a') (a0 : SAsg B)
    (rule : RRule) (hM : IsMapping P.asm pb rule) (hC : RuleCorrect pb.ir pb.arch fi fa rule)
    (hval : ∀ ri vs, Related pb.ir.inT pb.arch.inT rule.ib ri (.prod vs) → ConstsValid P.asm pb.arch.inT pb.archConst vs) :
    (∃ r, simpleSolve P.asm pb solve a0 = .ok (some r)) ∨
    (simpleSolve P.asm pb solve a0 = .error .valueError ∧ ∃ p c ms, (p, Ty.enum c ms) ∈ leafTypes pb.arch.inT [] ∧ IsConst pb.archConst p ∧
      ((¬ ∃ k, p = [k] ∧ [k] ∈ pb.archConst ∧ (k, Ty.enum c ms) ∈ pb.arch.inT.fieldDict) ∨
        ∃ q, IsConst pb.irConst q ∧ (q, Ty.enum c ms) ∈ leafTypes pb.ir.inT [])) := by
  obtain ⟨bs, a, _, _, _, _, _, _, hbind, hSat, _⟩ := SFm.sat_of_mapping P pb fi fa inW S hT hTb hu fli fla hso hcons hdict hk rule hM hC hval
  rcases SFm.solve_any P pb fi fa inW S hT hTb hu fli fla hso hcons hk solve hsat a0 with h | ⟨_, h⟩ | ⟨h, p, c, ms, h1, h2, h3⟩
  · exact .inl h
  · exfalso
    rcases h with h | ⟨bs', h, hn⟩
    · rw [hbind] at h
      cases h
    · rw [hbind] at h
      cases h
      obtain ⟨a', ha'⟩ := hcomp _ _ hSat
      rw [hn] at ha'
      cases ha'
  · refine .inr ⟨h, p, c, ms, h1, h2, ?_⟩
    rcases h3 with h3 | ⟨vs, n, g1, g2, g3, g4⟩
    · exact .inr h3
    · exact .inl (IM.not_field P pb fi fa inW S g1 g2 g3 g4)

theorem SFm.dict_keys : ∀ (fs : Fields) (vs : List RVal) (k : Key) (x : AV), (k, x) ∈ inputDict fs vs → k ∈ fs.toList.map (·.1)
  | .nil, _, _, _, h => by simp [inputDict] at h
  | .cons .., [], _, _, h => by simp [inputDict] at h
  | .cons k' t fs, v :: vs, k, x, h => by
    simp only [inputDict, List.mem_cons, Prod.mk.injEq] at h
    simp only [Fields.toList, List.map_cons, List.mem_cons]
    rcases h with ⟨rfl, _⟩ | h
    · exact .inl rfl
    · exact .inr (SFm.dict_keys fs vs k x h)

theorem SFm.leaf_keys : ∀ (fs : Fields) (vs : List RVal) (k : Key) (q : RPath) (r : Ty × Nat), (k :: q, r) ∈ rawLeavesAll fs vs → k ∈ fs.toList.map (·.1)
  | .nil, _, _, _, _, h => by simp [rawLeavesAll] at h
  | .cons .., [], _, _, _, h => by simp [rawLeavesAll] at h
  | .cons k' t fs, v :: vs, k, q, r, h => by
    simp only [rawLeavesAll, List.mem_append, List.mem_map, Prod.mk.injEq, List.cons.injEq] at h
    simp only [Fields.toList, List.map_cons, List.mem_cons]
    rcases h with ⟨_, _, ⟨rfl, _⟩, _⟩ | h
    · exact .inl rfl
    · exact .inr (SFm.leaf_keys fs vs k q r h)

/-- The value of a field, as an argument and in the leaves. -/
theorem SFm.field_at : ∀ (fs : Fields) (vs : List RVal), RHasAll fs vs → (fs.toList.map (·.1)).Nodup → ∀ k t, (k, t) ∈ fs.toList →
    ∃ v, RHas t v ∧ (∀ x, (k, x) ∈ inputDict fs vs ↔ x = mkAV t (rawCode t v)) ∧ ∀ q r, (k :: q, r) ∈ rawLeavesAll fs vs ↔ (q, r) ∈ rawLeaves t v
  | .nil, _, _, _, _, _, h => by simp [Fields.toList] at h
  | .cons .., [], h, _, _, _, _ => by simp [RHasAll] at h
  | .cons k' t' fs, v :: vs, hv, hn, k, t, h => by
    simp only [Fields.toList, List.map_cons, List.nodup_cons] at hn
    simp only [Fields.toList, List.mem_cons, Prod.mk.injEq] at h
    rcases h with ⟨rfl, rfl⟩ | h
    · refine ⟨v, hv.1, fun x => ?_, fun q r => ?_⟩
      · simp only [inputDict, List.mem_cons, Prod.mk.injEq, true_and]
        exact ⟨fun h => h.elim id (fun h => absurd (SFm.dict_keys fs vs _ _ h) hn.1), .inl⟩
      · simp only [rawLeavesAll, List.mem_append, List.mem_map, Prod.mk.injEq, List.cons.injEq, true_and]
        constructor
        · rintro (⟨l, hl, rfl, rfl⟩ | h)
          · exact hl
          · exact absurd (SFm.leaf_keys fs vs _ _ _ h) hn.1
        · exact fun h => .inl ⟨_, h, rfl, rfl⟩
    · have hne : k ≠ k' := by
        rintro rfl
        exact hn.1 (List.mem_map.mpr ⟨_, h, rfl⟩)
      obtain ⟨w, h1, h2, h3⟩ := SFm.field_at fs vs hv.2 hn.2 k t h
      refine ⟨w, h1, fun x => ?_, fun q r => ?_⟩
      · rw [← h2]
        simp [inputDict, hne]
      · rw [← h3]
        simp [rawLeavesAll, hne.symm]

theorem SFm.wf_field : ∀ (fs : Fields), WFs fs → Buildables fs → ∀ k t, (k, t) ∈ fs.toList → WF t ∧ Buildable t
  | .nil, _, _, _, _, h => by simp [Fields.toList] at h
  | .cons k' t' fs, hw, hb, k, t, h => by
    simp only [Fields.toList, List.mem_cons, Prod.mk.injEq] at h
    rcases h with ⟨rfl, rfl⟩ | h
    · exact ⟨hw.1, hb.1⟩
    · exact SFm.wf_field fs hw.2 hb.2 k t h

/-- When nothing in the IR is `Const`, the inputs a mapping allows have the same values in the fields that are. -/
theorem SFm.consts_valid {B K : Type} [DecidableEq B] (P : Process) (pb : MapPb B K) (fi fa : Fn B) (inW : K → List Nat)
    (S : Setup P pb.ir pb.arch fi fa inW) (hir : ∀ q, ¬ IsConst pb.irConst q) (rule : RRule) (hM : IsMappingC P.asm pb rule)
    (ri : RVal) (vs : List RVal) (hR : Related pb.ir.inT pb.arch.inT rule.ib ri (.prod vs)) : ConstsValid P.asm pb.arch.inT pb.archConst vs := by
  obtain ⟨ri0, vs0, hR0, hV⟩ := hM.input
  intro c fs hTy k x hx hk
  have hwf := S.arch_in.1
  have hbl := S.arch_in.2
  have ha := hR.arch
  have ha0 := hR0.arch
  have hent : ∀ p u n, IsConst pb.archConst p → (p, u, n) ∈ rawLeaves pb.arch.inT (.prod vs) → (p, u, n) ∈ rawLeaves pb.arch.inT (.prod vs0) := by
    intro p u n hp hm
    obtain ⟨⟨s, p'⟩, he, hpe⟩ := List.mem_map.mp (hR.arch_paths.symm.subset (List.mem_map.mpr ⟨_, hm, rfl⟩))
    simp only at hpe
    subst hpe
    cases s with
    | path q => exact absurd ((hM.bound q p' he).2.1.mpr hp) (hir q)
    | unbound => exact absurd hp (hM.unbound p' he).1
    | const cc =>
      obtain ⟨t1, n1, m1, e1⟩ := hR.entries _ he
      obtain ⟨t2, n2, m2, e2⟩ := hR0.entries _ he
      have h12 := VF.eq_of_fst (VF.leaves_nodup hwf ha) m1 hm
      simp only [Prod.mk.injEq] at h12
      obtain ⟨rfl, rfl⟩ := h12
      have h3 := VF.eq_of_fst (VF.types_nodup _ hwf) (VF.mem_types ha hm) (VF.mem_types ha0 m2)
      subst h3
      have : n1 = n2 := by
        cases cc with
        | bits b => exact e1.2.2.symm.trans e2.2.2
        | bit b => exact e1.2.symm.trans e2.2
      rw [this]
      exact m2
  rw [hTy] at ha ha0 hwf hbl hent
  obtain ⟨⟨k', t⟩, hkt, hke⟩ := List.mem_map.mp (SFm.dict_keys fs vs k x hx)
  simp only at hke
  subst hke
  obtain ⟨v, v1, v2, v3⟩ := SFm.field_at fs vs ha hwf.1 k' t hkt
  obtain ⟨v0, w1, w2, w3⟩ := SFm.field_at fs vs0 ha0 hwf.1 k' t hkt
  have hval := hV c fs hTy k' _ ((w2 _).mpr rfl) hk
  obtain ⟨hwt, hbt⟩ := SFm.wf_field fs hwf.2 hbl.2.2 k' t hkt
  have hsub : ∀ q u n, (q, u, n) ∈ rawLeaves t v → (q, u, n) ∈ rawLeaves t v0 := by
    intro q u n h
    exact (w3 q (u, n)).mp (hent (k' :: q) u n ⟨[k'], hk, ⟨q, rfl⟩⟩ ((v3 q (u, n)).mpr h))
  have heq : v = v0 := by
    have hsh := RF.shape_eq t v v0 hwt hbt v1 w1 (by
      intro p hp
      obtain ⟨⟨p', u, n⟩, hl, rfl⟩ := List.mem_map.mp hp
      exact List.mem_map.mpr ⟨_, hsub _ _ _ hl, rfl⟩) (fun p => (((rawLeaves t v0).lookup p).map (·.2)).getD 0)
    rw [RF.fill_self t v _ v1, RF.fill_self t v0 _ w1] at hsh
    · exact hsh
    · intro p u n h
      rw [VF.lookup_of_mem' (VF.leaves_nodup hwt w1) h]
      exact Nat.mod_eq_of_lt (VF.leaf_bound _ _ w1 _ h)
    · intro p u n h
      rw [VF.lookup_of_mem' (VF.leaves_nodup hwt w1) (hsub _ _ _ h)]
      exact Nat.mod_eq_of_lt (VF.leaf_bound _ _ v1 _ h)
  rw [(v2 x).mp hx, heq]
  exact hval

/-- C55, completeness without the ValueError of `C55_complete_partial`, where nothing is `Const` in the IR and the validators of the `Const` fields reject whatever those of
their enum leaves reject: a search with `simple_formula=True` and a sound and complete solver decides whether a correct mapping exists. The validators may accept too
much. -/
theorem C55_decides_checked_partial {B K : Type} [DecidableEq B] [DecidableEq K] (P : Process) (pb : MapPb B K) (fi fa : Fn B) (inW : K → List Nat)
    (S : Setup P pb.ir pb.arch fi fa inW) (hT : Total P pb.arch) (hTb : TotalBoxes pb.arch inW) (hu : UnionFree pb.ir.inT)
    (fli : Flat pb.ir.outT) (fla : Flat pb.arch.outT) (hso : leafTypes pb.ir.outT [] ≠ [])
    (hcons : ∀ p cs, (p, cs) ∈ pb.cons → IsConst pb.archConst p ∧ cs ≠ [] ∧ ∃ t, (p, t) ∈ leafTypes pb.arch.inT [])
    (hdict : (pb.cons.map (·.1)).Nodup)
    (hk : ∃ k t, (k, t) ∈ pb.arch.inT.fieldDict ∧ [k] ∈ pb.archConst)
    (hir : ∀ q, ¬ IsConst pb.irConst q)
    (hleaf : LeavesChecked P pb)
    (solve : (SAsg B → Prop) → Option (SAsg B)) (hsat : ∀ φ a, solve φ = some a → φ a) (hcomp : ∀ φ a, φ a → ∃ a', solve φ = some a') (a0 : SAsg B) :
    (∃ r, simpleSolve P.asm pb solve a0 = .ok (some r) ∧ IsMapping P.asm pb r ∧ RuleCorrect pb.ir pb.arch fi fa r) ∨
    (simpleSolve P.asm pb solve a0 = .ok none ∧ ¬ ∃ r, IsMapping P.asm pb r ∧ RuleCorrect pb.ir pb.arch fi fa r) := by
  rcases SFm.solve_any P pb fi fa inW S hT hTb hu fli fla hso hcons hk solve hsat a0 with ⟨r, h⟩ | ⟨h, _⟩ | ⟨_, p, c, ms, _, h4, h5⟩
  · exact .inl ⟨r, h, C55_sound_partial P pb fi fa inW (VF.setup0 S) (fun p cs h => (hcons p cs h).1) hir solve hsat a0 r h⟩
  · refine .inr ⟨h, ?_⟩
    rintro ⟨r, hM, hC⟩
    rcases C55_complete_partial P pb fi fa inW S hT hTb hu fli fla hso hcons hdict hk solve hsat hcomp a0 r hM hC
      (SFm.consts_valid P pb fi fa inW S hir r (IM.mapping_to_c hM)) with ⟨r', h'⟩ | ⟨h', _⟩ <;> rw [h] at h' <;> cases h'
  · rcases h5 with ⟨q, hq, _⟩ | ⟨vs, n, h1, h2, h3, h5⟩
    · exact absurd hq (hir q)
    · rw [hleaf vs p c ms n h1 h2 h3 h4] at h5
      cases h5

open Classical in
/-- C55: every correct mapping may be the one that is found, with black boxes too. For each of them there is a sound and complete solver with which the search with
`simple_formula=True` returns it, up to the order of the bindings. -/
theorem C55_any_mapping_partial {B K : Type} [DecidableEq B] [DecidableEq K] (P : Process) (pb : MapPb B K) (fi fa : Fn B) (inW : K → List Nat)
    (S : Setup P pb.ir pb.arch fi fa inW) (hT : Total P pb.arch) (hTb : TotalBoxes pb.arch inW) (hu : UnionFree pb.ir.inT)
    (fli : Flat pb.ir.outT) (fla : Flat pb.arch.outT) (hso : leafTypes pb.ir.outT [] ≠ [])
    (hcons : ∀ p cs, (p, cs) ∈ pb.cons → IsConst pb.archConst p ∧ cs ≠ [] ∧ ∃ t, (p, t) ∈ leafTypes pb.arch.inT [])
    (hdict : (pb.cons.map (·.1)).Nodup)
    (hk : ∃ k t, (k, t) ∈ pb.arch.inT.fieldDict ∧ [k] ∈ pb.archConst)
    (hir : ∀ q, ¬ IsConst pb.irConst q)
    (hleaf : LeavesChecked P pb)
    (rule : RRule) (hM : IsMapping P.asm pb rule) (hC : RuleCorrect pb.ir pb.arch fi fa rule) :
    ∃ solve : (SAsg B → Prop) → Option (SAsg B), (∀ φ a, solve φ = some a → φ a) ∧ (∀ φ a, φ a → ∃ a', solve φ = some a') ∧
      ∀ a0, ∃ r, simpleSolve P.asm pb solve a0 = .ok (some r) ∧ r.ib.Perm rule.ib ∧ r.ob.Perm rule.ob := by
  obtain ⟨bs, a, i, bi, bo, s, b, ob, hbind, hSat, hs, hl, hb, ho, m1, m2, m3, hbp, hobp, hE⟩ :=
    SFm.sat_of_mapping P pb fi fa inW S hT hTb hu fli fla hso hcons hdict hk rule hM hC (SFm.consts_valid P pb fi fa inW S hir rule (IM.mapping_to_c hM))
  let solve : (SAsg B → Prop) → Option (SAsg B) := fun φ => if φ a then some a else if h : ∃ a', φ a' then some (choose h) else none
  have hsat : ∀ φ a, solve φ = some a → φ a := by
    intro φ a' h
    simp only [solve] at h
    split at h
    · next h' => cases h; exact h'
    · split at h
      · next h' => cases h; exact choose_spec h'
      · cases h
  have hcomp : ∀ φ a, φ a → ∃ a', solve φ = some a' := by
    intro φ a' h
    simp only [solve]
    split
    · exact ⟨_, rfl⟩
    · rw [dif_pos ⟨a', h⟩]
      exact ⟨_, rfl⟩
  have hsol : solve (simpleSat P.asm pb bs) = some a := if_pos hSat
  refine ⟨solve, hsat, hcomp, fun a0 => ?_⟩
  rcases SFm.solve_any P pb fi fa inW S hT hTb hu fli fla hso hcons hk solve hsat a0 with ⟨r, h⟩ | ⟨_, h⟩ | ⟨_, p, c, ms, _, h4, h5⟩
  · refine ⟨r, h, ?_⟩
    obtain ⟨bs', a', hbs', ha', hr⟩ := SFm.solve_inv h
    rw [hbind] at hbs'
    cases hbs'
    rw [hsol] at ha'
    cases ha'
    obtain ⟨i', bi', bo', s', l', ib', ob', hs', hl', hib', hob', k1, k2, k3, rfl, hF⟩ := IM.rule_inv S.arch_in hr
    have uniq : ∀ (n : Nat) (v : Nat) (x y : Nat), pb.enc.matchIndex n (ivar pb.enc n v) x = .ok true → pb.enc.matchIndex n (ivar pb.enc n v) y = .ok true → x = y := by
      intro n v x y hx hy
      have dx := (C30_decode pb.enc n _ (IM.ivar_size _ _ _) x).1.mpr ⟨IM.match_lt hx, hx⟩
      have dy := (C30_decode pb.enc n _ (IM.ivar_size _ _ _) y).1.mpr ⟨IM.match_lt hy, hy⟩
      rw [dx] at dy
      cases dy
      rfl
    have e1 := uniq _ _ _ _ m1 k1
    have e2 := uniq _ _ _ _ m2 k2
    have e3 := uniq _ _ _ _ m3 k3
    subst e1 e2 e3
    rw [hl] at hl'
    cases hl'
    rw [hb] at hib'
    cases hib'
    rw [ho] at hob'
    cases hob'
    refine ⟨?_, hobp⟩
    obtain ⟨l, g1, g2⟩ := List.perm_comp_forall₂ hbp hE
    rw [List.right_unique_forall₂' (IM.entry_unique S.arch_in.1 a.m) hF g1]
    exact g2
  · exfalso
    rcases h with h | ⟨bs', h, hn⟩
    · rw [hbind] at h
      cases h
    · rw [hbind] at h
      cases h
      rw [hsol] at hn
      cases hn
  · rcases h5 with ⟨q, hq, _⟩ | ⟨vs, n, h1, h2, h3, h5⟩
    · exact absurd hq (hir q)
    · rw [hleaf vs p c ms n h1 h2 h3 h4] at h5
      cases h5

/-- C55, completeness without the ValueError of `C55_complete_partial`, where only fields are wrapped in `Const`, none in the IR, and the validators concerned are exact
(C05): a search with `simple_formula=True` and a sound and complete solver decides whether a correct mapping exists. It returns a correct mapping if there is one, and
`None` if there is none; it never raises. -/
theorem C55_decides_partial {B K : Type} [DecidableEq B] [DecidableEq K] (P : Process) (pb : MapPb B K) (fi fa : Fn B) (inW : K → List Nat)
    (S : Setup P pb.ir pb.arch fi fa inW) (hT : Total P pb.arch) (hTb : TotalBoxes pb.arch inW) (hu : UnionFree pb.ir.inT)
    (fli : Flat pb.ir.outT) (fla : Flat pb.arch.outT) (hso : leafTypes pb.ir.outT [] ≠ [])
    (hcons : ∀ p cs, (p, cs) ∈ pb.cons → IsConst pb.archConst p ∧ cs ≠ [] ∧ ∃ t, (p, t) ∈ leafTypes pb.arch.inT [])
    (hdict : (pb.cons.map (·.1)).Nodup)
    (hk : ∃ k t, (k, t) ∈ pb.arch.inT.fieldDict ∧ [k] ∈ pb.archConst)
    (hir : ∀ q, ¬ IsConst pb.irConst q)
    (hfield : ∀ c ∈ pb.archConst, ∃ k, c = [k])
    (htf : ∀ k t, (k, t) ∈ pb.arch.inT.fieldDict → [k] ∈ pb.archConst → Trusted P t)
    (htl : ∀ p c ms, (p, Ty.enum c ms) ∈ leafTypes pb.arch.inT [] → Trusted P (.enum c ms))
    (solve : (SAsg B → Prop) → Option (SAsg B)) (hsat : ∀ φ a, solve φ = some a → φ a) (hcomp : ∀ φ a, φ a → ∃ a', solve φ = some a') (a0 : SAsg B) :
    (∃ r, simpleSolve P.asm pb solve a0 = .ok (some r) ∧ IsMapping P.asm pb r ∧ RuleCorrect pb.ir pb.arch fi fa r) ∨
    (simpleSolve P.asm pb solve a0 = .ok none ∧ ¬ ∃ r, IsMapping P.asm pb r ∧ RuleCorrect pb.ir pb.arch fi fa r) := by
  exact C55_decides_checked_partial P pb fi fa inW S hT hTb hu fli fla hso hcons hdict hk hir
    (fun _ _ _ _ _ h1 h2 h3 h4 => IM.no_valueError P pb fi fa inW S hfield htf htl h1 h2 h3 h4) solve hsat hcomp a0

end Peak
