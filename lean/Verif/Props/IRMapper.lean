import Verif.Lemmas.ConstLeaves
import Verif.Props.Verify
/-!
# C33: what the IR mapper returns is a correct rule, and it finds one when there is one
-/

namespace Peak
open Peak.Spec

namespace IM

variable {B K : Type} [DecidableEq B] {P : Process} {pb : MapPb B K} {fi fa : Fn B} {inW : K → List Nat}

theorem SameExists.refl' (bs : Bdgs) (a : MAsg B) : SameExists pb bs a a :=
  ⟨rfl, rfl, rfl, fun _ _ => rfl, rfl, fun _ _ => rfl, rfl, rfl, rfl⟩

/-- The solver's index variables pick the same forms and bindings under every change of the universal variables. -/
theorem conj_stable (S : Setup P pb.ir pb.arch fi fa inW) (hc : ∀ c ∈ pb.cons, constAt pb.archConst c.1 = true) {bs : Bdgs} (hB : BdgsOk pb bs) {a : MAsg B}
    (hsat : mapSat P.asm pb bs a) {si s : RVal} (hsi : RF.skels pb.ir.inT = [si]) {i bi bo : Nat} {l : List Bdg} {ib ob : Bdg}
    (hs : (RF.skels pb.arch.inT)[i]? = some s) (hl : bs.ins[i]? = some l) (hib : l[bi]? = some ib) (hob : bs.outs[bo]? = some ob)
    (m1 : pb.enc.matchIndex (RF.skels pb.arch.inT).length (ivar pb.enc (RF.skels pb.arch.inT).length a.fi) i = .ok true)
    (m2 : pb.enc.matchIndex bs.maxIns (ivar pb.enc bs.maxIns a.ib) bi = .ok true)
    (m3 : pb.enc.matchIndex bs.outs.length (ivar pb.enc bs.outs.length a.ob) bo = .ok true)
    (a' : MAsg B) (ha' : SameExists pb bs a a') : Conj P pb fi fa bs a' s si i bi bo ib ob := by
  obtain ⟨⟨⟨i', bi', bo', ib', ob'⟩, ht, hm⟩, _⟩ := formula_true hc (hsat a' ha')
  obtain ⟨⟨l', hl', hib'⟩, hob'⟩ := mem_triples.mp ht
  have hty : Typed pb.ir.outT pb.arch.outT ob' := by
    refine outs_typed S.ir_out.1 S.arch_out.1 ?_
    rw [← hB.outs]
    exact List.mem_of_getElem? hob'
  obtain ⟨s', hs', hC⟩ := conj_true S hB.uf hB.irBB hB.archBB hsi hty hm
  have e1 : i' = i := by have := hC.m1; rw [ha'.fi] at this; exact match_unique this m1
  have e2 : bi' = bi := by have := hC.m2; rw [ha'.ib] at this; exact match_unique this m2
  have e3 : bo' = bo := by have := hC.m3; rw [ha'.ob] at this; exact match_unique this m3
  subst e1 e2 e3
  rw [hs] at hs'; cases hs'
  rw [hl] at hl'; cases hl'
  rw [hib] at hib'; cases hib'
  rw [hob] at hob'; cases hob'
  exact hC

theorem entries_snd {a : MAsg B} : ∀ (ib : Bdg) (rib : List (RSrc × RPath)), List.Forall₂ (EntryR pb a) ib rib → rib.map (·.2) = ib.map (·.2) := by
  intro ib rib h
  induction h with
  | nil => rfl
  | cons h _ ih => simp only [List.map_cons, ih, h.1]

theorem leaf_vals {t : Ty} {r : RVal} (hw : WF t) (hr : RHas t r) {p : RPath} {u : Ty} {n : Nat} (h : (p, u, n) ∈ rawLeaves t r) :
    (((rawLeaves t r).lookup p).map (·.2)).getD 0 = n := by
  rw [VF.lookup_of_mem' (VF.leaves_nodup hw hr) h]
  rfl

end IM

open Classical in
/-- An assignment under which one choice of form and bindings is right for all values of the universal variables gives a correct mapping. -/
theorem IM.core {B K : Type} [DecidableEq B] {P : Process} {pb : MapPb B K} {fi fa : Fn B} {inW : K → List Nat}
    (S : Setup P pb.ir pb.arch fi fa inW) {bs : Bdgs} (hB : IM.BdgsOk pb bs) {a : MAsg B}
    {si s : RVal} (hsi : RF.skels pb.ir.inT = [si]) {i bi bo : Nat} {l : List Bdg} {ib : Bdg} {rule : RRule}
    (hs : (RF.skels pb.arch.inT)[i]? = some s) (hl : bs.ins[i]? = some l) (hib : l[bi]? = some ib) (hob : bs.outs[bo]? = some rule.ob)
    (hst : ∀ a', SameExists pb bs a a' → IM.Conj P pb fi fa bs a' s si i bi bo ib rule.ob)
    (hx : ∀ c ∈ pb.cons, ∃ n ∈ c.2, consEq P.asm (leafTypes pb.arch.inT []) c.1 (a.arch c.1) n = .ok true)
    (hF : List.Forall₂ (IM.EntryR pb a) ib rule.ib) :
    IsMappingC P.asm pb rule ∧ RuleCorrect pb.ir pb.arch fi fa rule := by
  have hsh : RHas pb.arch.inT s := IM.skels_mem_has (P := P) S.arch_in.1 S.arch_in.2 (List.mem_of_getElem? hs)
  have hsih : RHas pb.ir.inT si := IM.skels_mem_has (P := P) S.ir_in.1 S.ir_in.2 (by rw [hsi]; exact List.mem_singleton.mpr rfl)
  have hl' : l = IM.formB pb s := by
    rw [hB.ins, List.getElem?_map, hs] at hl
    cases hl
    rfl
  have hbm : ib ∈ IM.formB pb s := hl' ▸ List.mem_of_getElem? hib
  have hBO := IM.formB_ok S.ir_in.1 S.arch_in.1 hsh hbm
  have hn : (ib.map (·.2)).Nodup := hBO.paths.nodup_iff.mpr (VF.leaves_nodup S.arch_in.1 hsh)
  have hmem : ∀ e' ∈ rule.ib, ∃ e ∈ ib, IM.EntryR pb a e e' := by
    intro e' he'
    obtain ⟨j, hj⟩ := List.getElem?_of_mem he'
    obtain ⟨e, he, hE⟩ := IM.forall₂_at hF hj
    exact ⟨e, List.mem_of_getElem? he, hE⟩
  have hmem' : ∀ e ∈ ib, ∃ e' ∈ rule.ib, IM.EntryR pb a e e' := by
    intro e he
    obtain ⟨j, hj⟩ := List.getElem?_of_mem he
    obtain ⟨e', he', hE⟩ := IM.forall₂_at' hF hj
    exact ⟨e', List.mem_of_getElem? he', hE⟩
  have hC0 := hst a (IM.SameExists.refl' bs a)
  refine ⟨⟨?_, ?_, ?_, ?_, ?_⟩, ?_⟩
  · -- some input
    let ρi : RPath → Nat := fun q => match ib.find? (fun e => e.1 == some q) with | some e => a.arch e.2 | none => 0
    have hρ : ∀ q p, (some q, p) ∈ ib → a.arch p = ρi q := by
      intro q p he
      have hnd : (ib.filterMap (·.1)).Nodup := hBO.once.nodup_iff.mpr (VF.types_nodup _ S.ir_in.1)
      have : ∀ (L : Bdg), (L.filterMap (·.1)).Nodup → (some q, p) ∈ L → L.find? (fun e => e.1 == some q) = some (some q, p) := by
        intro L
        induction L with
        | nil => intro _ h; cases h
        | cons x L ih =>
          intro hnd hx
          rcases List.mem_cons.mp hx with rfl | hx
          · rw [List.find?_cons_of_pos (by simp)]
          · rw [List.find?_cons_of_neg]
            · refine ih ?_ hx
              rw [List.filterMap_cons] at hnd
              split at hnd
              · exact hnd
              · exact (List.nodup_cons.mp hnd).2
            · intro hq
              rw [beq_iff_eq] at hq
              rw [List.filterMap_cons, hq] at hnd
              exact (List.nodup_cons.mp hnd).1 (List.mem_filterMap.mpr ⟨_, hx, rfl⟩)
      simp only [ρi, this ib hnd he]
    have hR := IM.related_of S.ir_in.1 S.arch_in.1 hB.uf hsh hsih hBO hF (ρi := ρi) (ρa := a.arch) hρ (fun _ _ _ => rfl)
    obtain ⟨vs, hvs⟩ : ∃ vs, VF.fill pb.arch.inT s a.arch = .prod vs := by
      obtain ⟨_, fs, _, _, hT, _⟩ := S.arch_fn
      have := hR.arch
      rw [hT] at this ⊢
      cases hr : VF.fill (Ty.prod _ fs) s a.arch with
      | leaf _ => rw [hr] at this; simp [RHas] at this
      | sum _ _ => rw [hr] at this; simp [RHas] at this
      | prod vs => exact ⟨vs, rfl⟩
    exact ⟨_, vs, hvs ▸ hR, hC0.valid vs hvs⟩
  · have := List.mem_of_getElem? hob
    rw [hB.outs] at this
    exact C28_sound _ _ (VF.types_nodup _ S.arch_out.1) (VF.types_nodup _ S.ir_out.1) _ this
  · intro q p hm
    obtain ⟨⟨x, p'⟩, he, hE1, hE⟩ := hmem _ hm
    simp only at hE1 hE
    subst hE1
    rcases hE with ⟨q', rfl, hq⟩ | ⟨_, _, c, t, hq, _⟩ | ⟨_, _, _, hq⟩
    · cases hq
      obtain ⟨g1, g2, t, g3, g4⟩ := hBO.typed q p he
      refine ⟨fun cs hcs => g1 (List.mem_map.mpr ⟨_, hcs, rfl⟩), ?_, t, g3, g4⟩
      rw [← IM.constAt_iff, ← IM.constAt_iff, g2]
    · cases hq
    · cases hq
  · intro c p hm
    obtain ⟨⟨x, p'⟩, he, hE1, hE⟩ := hmem _ hm
    simp only at hE1 hE
    subst hE1
    rcases hE with ⟨q', _, hq⟩ | ⟨_, hcc, c', t, hq, ht, hCI⟩ | ⟨_, _, _, hq⟩
    · cases hq
    · cases hq
      refine ⟨?_, fun cs hcs => ?_⟩
      · rcases hcc with h | h
        · exact .inl (IM.constAt_iff.mp h)
        · obtain ⟨y, hy, rfl⟩ := List.mem_map.mp h
          exact .inr ⟨y.2, hy⟩
      obtain ⟨n, hn1, hn2⟩ := hx _ hcs
      rw [IM.consEq_ok P S.arch_in.1 ht] at hn2
      simp only [Except.ok.injEq, beq_iff_eq] at hn2
      exact ⟨n, hn1, t, ht, hn2 ▸ hCI⟩
    · cases hq
  · intro p hm
    obtain ⟨⟨x, p'⟩, he, hE1, hE⟩ := hmem _ hm
    simp only at hE1 hE
    subst hE1
    rcases hE with ⟨q', _, hq⟩ | ⟨_, _, c', t, hq, _⟩ | ⟨_, g1, g2, _⟩
    · cases hq
    · cases hq
    · refine ⟨fun hcc => ?_, fun cs hcs => g2 (List.mem_map.mpr ⟨_, hcs, rfl⟩)⟩
      rw [IM.constAt_iff.mpr hcc] at g1
      cases g1
  · -- correctness
    intro ri ra hR F ρi ρa _ _
    have hbi : pb.ir.bbOuts ρi = [] := by simp [PeakObj.bbOuts, hB.irBB]
    have hba : pb.arch.bbOuts ρa = [] := by simp [PeakObj.bbOuts, hB.archBB]
    rw [hbi, hba]
    let vi : RPath → Nat := fun q => (((rawLeaves pb.ir.inT ri).lookup q).map (·.2)).getD 0
    let va : RPath → Nat := fun p => (((rawLeaves pb.arch.inT ra).lookup p).map (·.2)).getD 0
    let a' : MAsg B := { a with
      ir := fun q => if bs.irUniv q then vi q else a.ir q
      arch := fun p => if bs.archUniv pb p then va p else a.arch p }
    have hsame : SameExists pb bs a a' :=
      ⟨rfl, rfl, rfl, fun q hq => by simp only [a', if_neg hq], rfl, fun p hp => by simp only [a', if_neg hp], rfl, rfl, rfl⟩
    have hC := hst a' hsame
    have hlm := List.mem_of_getElem? hl
    have hibm := List.mem_of_getElem? hib
    have hirv : ∀ q p, (some q, p) ∈ ib → a'.ir q = vi q := by
      intro q p he
      simp only [a']
      rw [if_pos ⟨l, hlm, ib, hibm, p, he⟩]
    -- the IR input
    have e1 : VF.fill pb.ir.inT si a'.ir = ri := by
      rw [← RF.shape_eq pb.ir.inT ri si S.ir_in.1 S.ir_in.2 hR.ir hsih]
      · refine RF.fill_self _ _ _ hR.ir ?_
        intro q u n hq
        have hqm : q ∈ irSources rule.ib := hR.ir_paths.symm.subset (List.mem_map.mpr ⟨_, hq, rfl⟩)
        obtain ⟨p, hp⟩ := VF.mem_irSources.mp hqm
        obtain ⟨⟨x, p'⟩, he, hE1, hE⟩ := hmem _ hp
        simp only at hE1 hE
        subst hE1
        rcases hE with ⟨q', rfl, hq'⟩ | ⟨_, _, c', t, hq', _⟩ | ⟨_, _, _, hq'⟩
        · cases hq'
          rw [hirv q p he]
          simp only [vi]
          rw [IM.leaf_vals S.ir_in.1 hR.ir hq]
          exact Nat.mod_eq_of_lt (VF.leaf_bound _ _ hR.ir _ hq)
        · cases hq'
        · cases hq'
      · intro q hq
        obtain ⟨l0, hl0, rfl⟩ := List.mem_map.mp hq
        have := VF.mem_types hR.ir (p := l0.1) (u := l0.2.1) (n := l0.2.2) hl0
        rw [← VF.leaves_types_unionFree _ _ hB.uf hsih] at this
        obtain ⟨l1, hl1, he1⟩ := List.mem_map.mp this
        refine List.mem_map.mpr ⟨l1, hl1, ?_⟩
        simp only [Prod.mk.injEq] at he1
        exact he1.1
    -- the architecture input
    have hsnd : rule.ib.map (·.2) = ib.map (·.2) := IM.entries_snd _ _ hF
    have e2 : VF.fill pb.arch.inT s (substArch ib a').arch = ra := by
      rw [← RF.shape_eq pb.arch.inT ra s S.arch_in.1 S.arch_in.2 hR.arch hsh]
      · refine RF.fill_self _ _ _ hR.arch ?_
        intro p u n hp
        have hpm : p ∈ ib.map (·.2) := by
          rw [← hsnd]
          exact hR.arch_paths.symm.subset (List.mem_map.mpr ⟨_, hp, rfl⟩)
        obtain ⟨e, he, rfl⟩ := List.mem_map.mp hpm
        have hnu := VF.leaf_bound _ _ hR.arch _ hp
        rw [IM.substArch_eq hn he]
        obtain ⟨e', he', hE1, hE⟩ := hmem' e he
        obtain ⟨t', n', g1, g2⟩ := hR.entries e' he'
        rw [hE1] at g1
        have := VF.eq_of_fst (VF.leaves_nodup S.arch_in.1 hR.arch) g1 hp
        cases this
        obtain ⟨x, p⟩ := e
        rcases hE with ⟨q, hq1, hq2⟩ | ⟨hq1, hcc, c, t, hq2, ht, hCI⟩ | ⟨hq1, hq3, hq4, hq2⟩
        · simp only at hq1
          subst hq1
          rw [hq2] at g2
          obtain ⟨u', g3, g4⟩ := g2
          simp only
          rw [hirv q p he]
          simp only [vi]
          rw [IM.leaf_vals S.ir_in.1 hR.ir g3]
          exact Nat.mod_eq_of_lt hnu
        · simp only at hq1 hcc ht
          subst hq1
          rw [hq2] at g2
          have htu := VF.eq_of_fst (VF.types_nodup _ S.arch_in.1) ht (VF.mem_types hR.arch hp)
          subst htu
          simp only
          have hne : ¬ bs.archUniv pb p := by
            rintro ⟨h1, h2, _⟩
            rcases hcc with h | h
            · rw [h] at h1; cases h1
            · exact h2 h
          simp only [a', if_neg hne]
          -- one constant, one number
          cases c with
          | bits b =>
            have hv1 : b.val = n := g2.2.2
            have hv2 : b.val = a.arch p % 2 ^ width t := hCI.2.2
            rw [← hv2, hv1]
          | bit b =>
            have hv1 : b.toNat = n := g2.2
            have hv2 : b.toNat = a.arch p % 2 ^ width t := hCI.2
            rw [← hv2, hv1]
        · simp only at hq1 hq3 hq4
          subst hq1
          simp only
          have hun : bs.archUniv pb p := ⟨hq3, hq4, l, hlm, ib, hibm, he⟩
          simp only [a', if_pos hun, va]
          rw [IM.leaf_vals S.arch_in.1 hR.arch hp]
          exact Nat.mod_eq_of_lt hnu
      · intro p hp
        have := hR.arch_paths.symm.subset hp
        rw [hsnd] at this
        exact hBO.paths.subset this
    have := hC.outs
    rw [e1, e2] at this
    exact this

/-- Without such leaves both notions of mapping are one. -/
theorem IM.mapping_of_c {B K : Type} {A : Ty → Except Err AsmObj} {pb : MapPb B K} (hcons : ∀ p cs, (p, cs) ∈ pb.cons → IsConst pb.archConst p) {rule : RRule}
    (h : IsMappingC A pb rule) : IsMapping A pb rule :=
  ⟨h.input, h.outs, h.bound, fun c p hp => ⟨(h.const c p hp).1.elim id (fun ⟨cs, hcs⟩ => hcons p cs hcs), (h.const c p hp).2⟩, h.unbound⟩

theorem IM.mapping_to_c {B K : Type} {A : Ty → Except Err AsmObj} {pb : MapPb B K} {rule : RRule} (h : IsMapping A pb rule) : IsMappingC A pb rule :=
  ⟨h.input, h.outs, h.bound, fun c p hp => ⟨.inl (h.const c p hp).1, (h.const c p hp).2⟩, h.unbound⟩

/-- C33, soundness, for the default formula (`simple_formula=False`), and problems whose constrained inputs are all `Const`: with a solver
whose answers satisfy what it was asked, a returned rule is a mapping and is correct: for every IR input and every architecture input it
relates, all bound outputs are equal.  Enum leaves range over all bit patterns. -/
theorem C33_sound_partial {B K : Type} [DecidableEq B] (P : Process) (pb : MapPb B K) (fi fa : Fn B) (inW : K → List Nat)
    (S0 : Setup0 P pb.ir pb.arch fi fa inW) (hcons : ∀ p cs, (p, cs) ∈ pb.cons → IsConst pb.archConst p)
    (solve : (MAsg B → Prop) → Option (MAsg B)) (hsat : ∀ φ a, solve φ = some a → φ a) (a0 : MAsg B) (rule : RRule)
    (h : mapSolve P.asm pb solve a0 = .ok (some rule)) :
    IsMapping P.asm pb rule ∧ RuleCorrect pb.ir pb.arch fi fa rule := by
  have hc : ∀ c ∈ pb.cons, constAt pb.archConst c.1 = true := fun c hc => IM.constAt_iff.mpr (hcons c.1 c.2 hc)
  simp only [mapSolve] at h
  split at h
  · cases h
  · cases h
  · next bs hbs =>
    have S := IM.setup_of_bindings S0 hbs
    split at h
    · cases h
    · split at h
      · cases h
      · next a ha =>
        split at h
        · cases h
        · next r hr =>
          cases h
          have hB := IM.bindings_inv S.ir_in S.arch_in hbs
          have hS := hsat _ a ha
          obtain ⟨i, bi, bo, s, l, ib, ob, hs, hl, hib, hob, m1, m2, m3, rfl, hF⟩ := IM.rule_inv S.arch_in hr
          obtain ⟨si, hsi⟩ := List.length_eq_one_iff.mp (RF.skels_one _ hB.uf)
          have hst := IM.conj_stable S hc hB hS hsi hs hl hib hob m1 m2 m3
          obtain ⟨h1, h2⟩ := IM.core S hB hsi hs hl hib hob hst (IM.formula_true hc (hS a (IM.SameExists.refl' bs a))).2 hF
          exact ⟨IM.mapping_of_c hcons h1, h2⟩

namespace IM

section
variable {B K : Type} {pb : MapPb B K}

theorem dict_congr : ∀ (fs : Fields) (vs : List RVal) (ρ ρ' : RPath → Nat) (cs : List RPath) (k : Key) (x : AV), [k] ∈ cs →
    (∀ p, constAt cs p = true → ρ p = ρ' p) → (k, x) ∈ inputDict fs (VF.fillAll fs vs ρ) → (k, x) ∈ inputDict fs (VF.fillAll fs vs ρ')
  | .nil, _, _, _, _, _, _, _, _, h => by simp [VF.fillAll, inputDict] at h
  | .cons _ _ _, [], _, _, _, _, _, _, _, h => by simp [VF.fillAll, inputDict] at h
  | .cons k' t fs, v :: vs, ρ, ρ', cs, k, x, hk, he, h => by
    simp only [VF.fillAll, inputDict, List.mem_cons, Prod.mk.injEq] at h ⊢
    rcases h with ⟨rfl, hx⟩ | h
    · left
      refine ⟨rfl, ?_⟩
      rw [hx]
      have : (fun p => ρ (k :: p)) = (fun p => ρ' (k :: p)) := by
        funext p
        refine he _ (constAt_iff.mpr ⟨[k], hk, ?_⟩)
        simp
      rw [this]
    · right
      exact dict_congr fs vs ρ ρ' cs k x hk he h

/-- The binding of a rule. -/
def optOf (e : RSrc × RPath) : Option RPath × RPath := (match e.1 with | .path q => some q | _ => none, e.2)

theorem optOf_path {e : RSrc × RPath} {q p : RPath} : optOf e = (some q, p) ↔ e = (.path q, p) := by
  obtain ⟨x, p'⟩ := e
  cases x <;> simp [optOf]

theorem sources_map (ib : List (RSrc × RPath)) : (ib.map optOf).filterMap (·.1) = irSources ib := by
  rw [List.filterMap_map]
  rfl

theorem rep_eq {P' : Type} {b : List (Option P' × P')} {f : P' → Option P'} (h : ∀ e ∈ b, e.1 = f e.2) : b = (b.map (·.2)).map (fun p => (f p, p)) := by
  rw [List.map_map]
  conv => lhs; rw [← List.map_id b]
  apply List.map_congr_left
  intro e he
  simp only [id, Function.comp_apply, ← h e he]

theorem rep_perm {P' : Type} {b b' : List (Option P' × P')} {f : P' → Option P'} (h : ∀ e ∈ b, e.1 = f e.2) (h' : ∀ e ∈ b', e.1 = f e.2)
    (hp : (b.map (·.2)).Perm (b'.map (·.2))) : b.Perm b' := by
  rw [rep_eq h, rep_eq h']
  exact hp.map _

theorem nodup_filterMap_inj {α β : Type} {f : α → Option β} : ∀ {l : List α}, (l.filterMap f).Nodup → ∀ {x y : α} {b : β}, x ∈ l → y ∈ l → f x = some b → f y = some b → x = y
  | [], _, _, _, _, h, _, _, _ => by cases h
  | z :: l, hn, x, y, b, hx, hy, fx, fy => by
    have hl : (l.filterMap f).Nodup := by
      rw [List.filterMap_cons] at hn
      split at hn
      · exact hn
      · exact (List.nodup_cons.mp hn).2
    rcases List.mem_cons.mp hx with rfl | hx' <;> rcases List.mem_cons.mp hy with rfl | hy'
    · rfl
    · rw [List.filterMap_cons, fx] at hn
      exact absurd (List.mem_filterMap.mpr ⟨y, hy', fy⟩) (List.nodup_cons.mp hn).1
    · rw [List.filterMap_cons, fy] at hn
      exact absurd (List.mem_filterMap.mpr ⟨x, hx', fx⟩) (List.nodup_cons.mp hn).1
    · exact nodup_filterMap_inj hl hx' hy' fx fy

theorem BOk.of_perm {s : RVal} {b b' : Bdg} (h : BOk pb s b) (hp : b.Perm b') : BOk pb s b' :=
  ⟨(hp.symm.map _).trans h.paths, fun q p hm => h.typed q p (hp.symm.subset hm), (hp.symm.filterMap _).trans h.once⟩

/-- The binding a rule comes from is among those of its form. -/
theorem binding_of (hwi : WF pb.ir.inT) (hwa : WF pb.arch.inT) (hu : UnionFree pb.ir.inT) {A : Ty → Except Err AsmObj} {rule : RRule}
    (hM : IsMappingC A pb rule) {ri ra : RVal} (hR : Related pb.ir.inT pb.arch.inT rule.ib ri ra) {s : RVal} (hs : RHas pb.arch.inT s)
    (hsp : (rawLeaves pb.arch.inT s).map (·.1) = (rawLeaves pb.arch.inT ra).map (·.1)) :
    ∃ b ∈ formB pb s, b.Perm (rule.ib.map optOf) := by
  obtain ⟨hn, hm⟩ := filter_paths (pb := pb) hwa hs
  have hni : ((typedLeaves pb.irConst pb.ir.inT).map (·.1)).Nodup := by rw [typed_names]; exact VF.types_nodup _ hwi
  have hin : (rule.ib.map (·.2)).Nodup := hR.arch_paths.nodup_iff.mpr (VF.leaves_nodup hwa hR.arch)
  have hsn : (irSources rule.ib).Nodup := hR.ir_paths.nodup_iff.mpr (VF.leaves_nodup hwi hR.ir)
  let f : RPath → Option RPath := fun p => match rule.ib.find? (fun e => e.2 == p) with | some e => (optOf e).1 | none => none
  have hf : ∀ e ∈ rule.ib, f e.2 = (optOf e).1 := by
    intro e he
    have : ∀ (l : List (RSrc × RPath)), (l.map (·.2)).Nodup → e ∈ l → l.find? (fun e' => e'.2 == e.2) = some e := by
      intro l
      induction l with
      | nil => intro _ h; cases h
      | cons x l ih =>
        intro hn he
        rw [List.map_cons, List.nodup_cons] at hn
        rcases List.mem_cons.mp he with rfl | he
        · rw [List.find?_cons_of_pos (by simp)]
        · rw [List.find?_cons_of_neg, ih hn.2 he]
          intro hq
          rw [beq_iff_eq] at hq
          exact hn.1 (hq ▸ List.mem_map.mpr ⟨e, he, rfl⟩)
    simp only [f, this _ hin he]
  have hfi : ∀ p q, p ∈ (rawLeaves pb.arch.inT s).map (·.1) → f p = some q → (.path q, p) ∈ rule.ib := by
    intro p q hp hfp
    rw [hsp] at hp
    obtain ⟨e, he, rfl⟩ := List.mem_map.mp (hR.arch_paths.symm.subset hp)
    rw [hf e he] at hfp
    have : optOf e = (some q, e.2) := by rw [← hfp]; rfl
    rw [optOf_path] at this
    rw [← this]
    exact he
  have hA : IsAssignment ((typedLeaves pb.archConst pb.arch.inT).filter (fun l => ((rawLeaves pb.arch.inT s).map (·.1)).contains l.1))
      (typedLeaves pb.irConst pb.ir.inT) f := by
    refine ⟨?_, ?_⟩
    · intro p T q hp hfp
      obtain ⟨h1, h2⟩ := List.mem_filter.mp hp
      rw [List.contains_iff_mem] at h2
      obtain ⟨t1, t2⟩ := typed_mem h1
      obtain ⟨_, g2, t, g3, g4⟩ := hM.bound q p (hfi p q h2 hfp)
      have := VF.eq_of_fst (VF.types_nodup _ hwa) t2 g4
      have hc : constAt pb.irConst q = constAt pb.archConst p := by
        rw [Bool.eq_iff_iff, constAt_iff, constAt_iff]; exact g2
      have e : T = (constAt pb.irConst q, t) := by rw [hc, ← t1, ← this]
      rw [e]
      exact typed_of g3
    · intro q T hq
      obtain ⟨_, t2⟩ := typed_mem hq
      have hqm : q ∈ irSources rule.ib := by
        refine hR.ir_paths.symm.subset ?_
        have : (q, T.2) ∈ (rawLeaves pb.ir.inT ri).map (fun l => (l.1, l.2.1)) := by rw [VF.leaves_types_unionFree _ _ hu hR.ir]; exact t2
        obtain ⟨l, hl, he⟩ := List.mem_map.mp this
        simp only [Prod.mk.injEq] at he
        exact List.mem_map.mpr ⟨l, hl, he.1⟩
      obtain ⟨p, hp⟩ := VF.mem_irSources.mp hqm
      have hpm : p ∈ (rawLeaves pb.arch.inT s).map (·.1) := by
        rw [hsp]; exact hR.arch_paths.subset (List.mem_map.mpr ⟨_, hp, rfl⟩)
      refine ⟨p, (hm p).mpr hpm, hf _ hp, ?_⟩
      intro p' hp' hfp'
      have h2 := hfi p' q ((hm p').mp hp') hfp'
      have := nodup_filterMap_inj hsn (x := (.path q, p')) (y := (.path q, p)) (b := q) h2 hp rfl rfl
      cases this
      rfl
  obtain ⟨b, hb, hRep⟩ := C28_complete _ _ hn hni f hA
  have hbp : (b.map (·.2)).Perm ((rawLeaves pb.arch.inT s).map (·.1)) := by
    refine hRep.1.trans ?_
    rw [List.perm_ext_iff_of_nodup hn (VF.leaves_nodup hwa hs)]
    exact hm
  refine ⟨b, List.mem_filter.mpr ⟨hb, ?_⟩, ?_⟩
  · simp only [constraintFilter, List.all_eq_true]
    intro e he
    by_cases hc : e.2 ∈ pb.cons.map (·.1)
    · cases hs1 : e.1 with
      | none => simp
      | some q =>
        have h1 := hRep.2 e he
        rw [hs1] at h1
        have h2 := hfi e.2 q (hbp.subset (List.mem_map.mpr ⟨e, he, rfl⟩)) h1.symm
        obtain ⟨y, hy, hye⟩ := List.mem_map.mp hc
        exact absurd hy (by
          have := (hM.bound q e.2 h2).1 y.2
          rw [← hye] at this
          exact this)
    · simp [hc]
  · refine rep_perm hRep.2 (f := f) ?_ ?_
    · intro e he
      obtain ⟨e', he', rfl⟩ := List.mem_map.mp he
      rw [show (optOf e').2 = e'.2 from rfl, hf e' he']
    · refine hbp.trans ?_
      rw [hsp, List.map_map]
      exact hR.arch_paths.symm

end

end IM

theorem IM.choice_exists {isConst : RPath → Bool} {cons : List (RPath × List Nat)} (hc : ∀ c ∈ cons, c.2 ≠ []) (hd : (cons.map (·.1)).Nodup) :
    ∃ v, IM.Choice isConst cons v := by
  refine ⟨fun p => ((cons.lookup p).bind List.head?).getD 0, fun c h _ => ?_⟩
  obtain ⟨n, rest, hcr⟩ := List.exists_cons_of_ne_nil (hc c h)
  simp only [VF.lookup_of_mem' hd (show (c.1, c.2) ∈ cons from h), hcr]
  exact List.mem_cons_self

/-- What `mapSolve` may return. If the rule cannot be built, the solver chose an input with valid `Const` fields, and a `Const` leaf of it
that its own assembler rejects, or a constrained leaf that is not `Const` holds an enum. -/
theorem IM.solve_any_free {B K : Type} [DecidableEq B] (P : Process) (pb : MapPb B K) (fi fa : Fn B) (inW : K → List Nat)
    (S : Setup P pb.ir pb.arch fi fa inW) (hT : Total P pb.arch) (hu : UnionFree pb.ir.inT) (h0i : pb.ir.bbs = []) (h0a : pb.arch.bbs = [])
    (hcons : ∀ p cs, (p, cs) ∈ pb.cons → cs ≠ [] ∧ ∃ t, (p, t) ∈ leafTypes pb.arch.inT [])
    (hdict : (pb.cons.map (·.1)).Nodup)
    (hk : ∃ k t, (k, t) ∈ pb.arch.inT.fieldDict ∧ [k] ∈ pb.archConst)
    (solve : (MAsg B → Prop) → Option (MAsg B)) (hsat : ∀ φ a, solve φ = some a → φ a) (a0 : MAsg B) :
    (∃ r, mapSolve P.asm pb solve a0 = .ok (some r)) ∨
    (mapSolve P.asm pb solve a0 = .ok none ∧ (mapBindings P.asm pb = .ok none ∨ ∃ bs, mapBindings P.asm pb = .ok (some bs) ∧ solve (mapSat P.asm pb bs) = none)) ∨
    (mapSolve P.asm pb solve a0 = .error .valueError ∧ ∃ vs p c ms n, RHas pb.arch.inT (.prod vs) ∧ ConstsValid P.asm pb.arch.inT pb.archConst vs ∧
      (p, Ty.enum c ms, n) ∈ rawLeaves pb.arch.inT (.prod vs) ∧ IsConst pb.archConst p ∧ isValidAV P.asm (mkAV (.enum c ms) n) = .ok false) ∨
    (mapSolve P.asm pb solve a0 = .error .valueError ∧ ∃ p c ms, IsFree pb p ∧ (p, Ty.enum c ms) ∈ leafTypes pb.arch.inT []) := by
  have hc : ∀ c ∈ pb.cons, c.2 ≠ [] := fun c h => (hcons c.1 c.2 h).1
  obtain ⟨v, hv⟩ := IM.choice_exists (isConst := constAt pb.archConst) hc hdict
  have hcl : ∀ c ∈ pb.cons, c.1 ∈ (leafTypes pb.arch.inT []).map (·.1) := by
    intro c h
    obtain ⟨t, ht⟩ := (hcons c.1 c.2 h).2
    exact List.mem_map.mpr ⟨_, ht, rfl⟩
  obtain ⟨si, hsi⟩ := List.length_eq_one_iff.mp (RF.skels_one _ hu)
  by_cases hin : ∃ s ∈ RF.skels pb.arch.inT, IM.formB pb s ≠ []
  swap
  · have hb := IM.bindings_none S hT hu h0i h0a hcl (.inl (fun s hs => by
      by_contra h
      exact hin ⟨s, hs, h⟩))
    exact .inr (.inl ⟨by simp only [mapSolve, hb], .inl hb⟩)
  by_cases hout : createBindings (leafTypes pb.arch.outT []) (leafTypes pb.ir.outT []) = []
  · have hb := IM.bindings_none S hT hu h0i h0a hcl (.inr hout)
    exact .inr (.inl ⟨by simp only [mapSolve, hb], .inl hb⟩)
  let bs : Bdgs := ⟨(RF.skels pb.arch.inT).map (IM.formB pb), createBindings (leafTypes pb.arch.outT []) (leafTypes pb.ir.outT [])⟩
  have hB : IM.BdgsOk pb bs := ⟨⟨hu, rfl, rfl, hcl⟩, h0i, h0a⟩
  have hbind : mapBindings P.asm pb = .ok (some bs) := by
    refine IM.bindings_any S hT hu h0i h0a hcl ?_ hin hout
    obtain ⟨c, fs, _, _, hTy, _⟩ := S.arch_fn
    obtain ⟨k, t, hkt, hkc⟩ := hk
    rw [hTy] at hkt
    exact ⟨c, fs, k, hTy, List.mem_map.mpr ⟨_, hkt, rfl⟩, hkc⟩
  have hne : mapTriples bs ≠ [] := by
    obtain ⟨s, hs, hf⟩ := hin
    obtain ⟨i, hi⟩ := List.getElem?_of_mem hs
    obtain ⟨b, hb⟩ := List.exists_mem_of_ne_nil _ hf
    obtain ⟨bi, hbi⟩ := List.getElem?_of_mem hb
    obtain ⟨ob, hob⟩ := List.exists_mem_of_ne_nil _ hout
    obtain ⟨bo, hbo⟩ := List.getElem?_of_mem hob
    have : (i, bi, bo, b, ob) ∈ mapTriples bs :=
      IM.mem_triples.mpr ⟨⟨_, (by simp only [bs, List.getElem?_map, hi, Option.map_some]), hbi⟩, hbo⟩
    exact List.ne_nil_of_mem this
  obtain ⟨x0, hx0, _⟩ := IM.formula_free_any S hT hB hsi hc hdict hne a0
  cases ha' : solve (mapSat P.asm pb bs) with
  | none => exact .inr (.inl ⟨by simp only [mapSolve, hbind, hx0, ha'], .inr ⟨bs, hbind, ha'⟩⟩)
  | some a' =>
  have hS' := hsat _ _ ha'
  obtain ⟨⟨i', bi', bo', ib', ob'⟩, ht, hm⟩ := (IM.formula_free (hS' a' (IM.SameExists.refl' bs a'))).1 v hv
  obtain ⟨⟨l', hl', hib'⟩, hob'⟩ := IM.mem_triples.mp ht
  obtain ⟨s', hs', hC'⟩ := IM.conj_true S hu h0i h0a hsi (IM.outs_typed S.ir_out.1 S.arch_out.1 (List.mem_of_getElem? hob')) hm
  rcases IM.rule_any0 S hB.toBdgsOk0 hs' hl' hib' hob' (a := a') hC'.m1 hC'.m2 hC'.m3 with ⟨r, hr⟩ | ⟨hr, p, c, ms, q1, q2, q3, q4⟩
  · left
    refine ⟨r, ?_⟩
    simp only [mapSolve, hbind, hx0, ha', hr]
  · right
    right
    by_cases hpf : IsFree pb p
    · refine .inr ⟨?_, p, c, ms, hpf, q1⟩
      simp only [mapSolve, hbind, hx0, ha', hr]
    left
    have hpc : IsConst pb.archConst p := by
      rcases q2 with h | h
      · exact h
      · obtain ⟨y, hy, rfl⟩ := List.mem_map.mp h
        by_contra hn
        exact hpf ⟨hn, y.2, hy⟩
    have hap : (IM.setFree (constAt pb.archConst) pb.cons v a').arch p = a'.arch p := by
      simp only [IM.setFree, IM.constAt_iff.mpr hpc, Bool.true_eq_false, false_and, if_false]
    rw [← hap] at q4
    have hsh' : RHas pb.arch.inT s' := IM.skels_mem_has (P := P) S.arch_in.1 S.arch_in.2 (List.mem_of_getElem? hs')
    have hBO2 := IM.formB_ok S.ir_in.1 S.arch_in.1 hsh' (show ib' ∈ IM.formB pb s' by
      have hl2 := hl'
      simp only [bs, List.getElem?_map, hs', Option.map_some, Option.some.injEq] at hl2
      rw [hl2]
      exact List.mem_of_getElem? hib')
    obtain ⟨⟨p', u, m⟩, hl0, hle⟩ := List.mem_map.mp (hBO2.paths.subset (List.mem_map.mpr ⟨_, q3, rfl⟩))
    simp only at hle
    subst hle
    have hu' := VF.eq_of_fst (VF.types_nodup _ S.arch_in.1) (VF.mem_types hsh' hl0) q1
    subst hu'
    obtain ⟨f1, f2⟩ := VF.fill_spec pb.arch.inT s' (IM.setFree (constAt pb.archConst) pb.cons v a').arch hsh'
    obtain ⟨ws, hws⟩ : ∃ ws, VF.fill pb.arch.inT s' (IM.setFree (constAt pb.archConst) pb.cons v a').arch = .prod ws := by
      obtain ⟨ci, fs, _, _, hTy, _⟩ := S.arch_fn
      rw [hTy] at hsh' ⊢
      cases s' with
      | leaf _ => simp [RHas] at hsh'
      | sum _ _ => simp [RHas] at hsh'
      | prod ss => exact ⟨_, by simp only [VF.fill]; rfl⟩
    refine ⟨?_, ws, p', c, ms, _, hws ▸ f1, hC'.valid ws hws, ?_, hpc, q4⟩
    · simp only [mapSolve, hbind, hx0, ha', hr]
    · rw [← hws, f2]
      exact List.mem_map.mpr ⟨_, hl0, rfl⟩

/-- What `mapSolve` may return. If the rule cannot be built, the solver chose an input with valid `Const` fields, and a `Const` leaf of it
that its own assembler rejects. -/
theorem IM.solve_any {B K : Type} [DecidableEq B] (P : Process) (pb : MapPb B K) (fi fa : Fn B) (inW : K → List Nat)
    (S : Setup P pb.ir pb.arch fi fa inW) (hT : Total P pb.arch) (hu : UnionFree pb.ir.inT) (h0i : pb.ir.bbs = []) (h0a : pb.arch.bbs = [])
    (hcons : ∀ p cs, (p, cs) ∈ pb.cons → IsConst pb.archConst p ∧ cs ≠ [] ∧ ∃ t, (p, t) ∈ leafTypes pb.arch.inT [])
    (hdict : (pb.cons.map (·.1)).Nodup) (hk : ∃ k t, (k, t) ∈ pb.arch.inT.fieldDict ∧ [k] ∈ pb.archConst)
    (solve : (MAsg B → Prop) → Option (MAsg B)) (hsat : ∀ φ a, solve φ = some a → φ a) (a0 : MAsg B) :
    (∃ r, mapSolve P.asm pb solve a0 = .ok (some r)) ∨
    (mapSolve P.asm pb solve a0 = .ok none ∧ (mapBindings P.asm pb = .ok none ∨ ∃ bs, mapBindings P.asm pb = .ok (some bs) ∧ solve (mapSat P.asm pb bs) = none)) ∨
    (mapSolve P.asm pb solve a0 = .error .valueError ∧ ∃ vs p c ms n, RHas pb.arch.inT (.prod vs) ∧ ConstsValid P.asm pb.arch.inT pb.archConst vs ∧
      (p, Ty.enum c ms, n) ∈ rawLeaves pb.arch.inT (.prod vs) ∧ IsConst pb.archConst p ∧ isValidAV P.asm (mkAV (.enum c ms) n) = .ok false) := by
  rcases IM.solve_any_free P pb fi fa inW S hT hu h0i h0a (fun p cs h => (hcons p cs h).2) hdict hk solve hsat a0 with h | h | h | ⟨_, p, _, _, ⟨h1, cs, h2⟩, _⟩
  · exact .inl h
  · exact .inr (.inl h)
  · exact .inr (.inr h)
  · exact absurd (hcons p cs h2).1 h1

/-- Values for the constrained leaves that are not `Const`, in the entries of a rule. -/
theorem IM.family_rule {B K : Type} {pb : MapPb B K} {a : MAsg B} {v : RPath → Nat} (hw : WF pb.arch.inT)
    (hv : IM.Choice (constAt pb.archConst) pb.cons v) :
    ∀ {ib : Bdg} {rib : List (RSrc × RPath)}, (∀ q p, (some q, p) ∈ ib → p ∉ pb.cons.map (·.1)) → List.Forall₂ (IM.EntryR pb a) ib rib →
      ∃ rib', List.Forall₂ (WithValue pb) rib rib' ∧ List.Forall₂ (IM.EntryR pb (IM.setFree (constAt pb.archConst) pb.cons v a)) ib rib' := by
  intro ib rib hnb h
  induction h with
  | nil => exact ⟨[], .nil, .nil⟩
  | @cons e e' _ _ h _ ih =>
    obtain ⟨rib', h1, h2⟩ := ih (fun q p h => hnb q p (List.mem_cons_of_mem _ h))
    suffices ∃ e'', WithValue pb e' e'' ∧ IM.EntryR pb (IM.setFree (constAt pb.archConst) pb.cons v a) e e'' by
      obtain ⟨e'', g1, g2⟩ := this
      exact ⟨e'' :: rib', .cons g1 h1, .cons g2 h2⟩
    obtain ⟨hp, h⟩ := h
    have hfr : ∀ p, IsFree pb p ↔ constAt pb.archConst p = false ∧ p ∈ pb.cons.map (·.1) := by
      intro p
      constructor
      · rintro ⟨g1, cs, g2⟩
        exact ⟨by rw [← Bool.not_eq_true]; exact fun h => g1 (IM.constAt_iff.mp h), List.mem_map.mpr ⟨_, g2, rfl⟩⟩
      · rintro ⟨g1, g2⟩
        obtain ⟨c, hc, rfl⟩ := List.mem_map.mp g2
        exact ⟨fun h => (by rw [IM.constAt_iff.mpr h] at g1; cases g1), c.2, hc⟩
    by_cases hf : IsFree pb e.2
    · obtain ⟨f1, f2⟩ := (hfr _).mp hf
      rcases h with ⟨q, g1, g2⟩ | ⟨g1, _, c, t, g2, g3, g4⟩ | ⟨_, _, g1, _⟩
      · exact absurd f2 (hnb q e.2 (by rw [← g1]; exact List.mem_cons_self))
      · obtain ⟨hl, _⟩ := VF.types_leaf _ hw _ g3
        have : ∃ c', ConstIs c' t (v e.2 % 2 ^ width t) := by
          rcases hl with ⟨k, n, hk⟩ | ⟨k, hk⟩ | ⟨k, ms, hk⟩ <;> simp only at hk
          · exact ⟨.bits (BV.ofNat (width t) (v e.2)), by simp [hk], by simp, by simp [BV.ofNat_val]⟩
          · refine ⟨.bit (v e.2 % 2 == 1), ⟨k, hk⟩, ?_⟩
            rw [hk]
            simp only [width]
            rcases Nat.mod_two_eq_zero_or_one (v e.2) with hn | hn <;> simp [hn]
          · exact ⟨.bits (BV.ofNat (width t) (v e.2)), by simp [hk], by simp, by simp [BV.ofNat_val]⟩
        obtain ⟨c', hc'⟩ := this
        refine ⟨(.const c', e'.2), ⟨rfl, fun _ => ⟨c', rfl, ?_⟩, fun h => absurd (hp ▸ hf) h⟩, hp, .inr (.inl ⟨g1, .inr f2, c', t, rfl, g3, ?_⟩)⟩
        · intro cs hcs
          rw [hp] at hcs ⊢
          exact ⟨v e.2, hv _ hcs f1, t, g3, hc'⟩
        · simp only [IM.setFree]
          rw [if_pos ⟨f1, f2⟩]
          exact hc'
      · exact absurd f2 g1
    · have hf' : ¬ (constAt pb.archConst e.2 = false ∧ e.2 ∈ pb.cons.map (·.1)) := fun h => hf ((hfr _).mpr h)
      refine ⟨e', ⟨rfl, fun h => absurd (hp ▸ h) hf, fun _ => rfl⟩, hp, ?_⟩
      simp only [IM.setFree, if_neg hf']
      exact h

theorem IM.withValues_const {B K : Type} {pb : MapPb B K} (hcons : ∀ p cs, (p, cs) ∈ pb.cons → IsConst pb.archConst p) {rule rule' : RRule}
    (h : WithValues pb rule rule') : rule' = rule := by
  obtain ⟨ib, ob⟩ := rule
  obtain ⟨ib', ob'⟩ := rule'
  obtain ⟨rfl, h2⟩ := h
  congr 1
  simp only at h2
  induction h2 with
  | nil => rfl
  | @cons e e' _ _ h _ ih =>
    rw [ih]
    congr 1
    exact Prod.ext (h.2.2 (fun ⟨g1, cs, g2⟩ => g1 (hcons _ cs g2))) h.1

/-- A mapping that is correct for all values of the constrained leaves that are not `Const` is a solution of the formula. -/
theorem IM.sat_of_family {B K : Type} [DecidableEq B] (P : Process) (pb : MapPb B K) (fi fa : Fn B) (inW : K → List Nat)
    (S : Setup P pb.ir pb.arch fi fa inW) (hT : Total P pb.arch) (hu : UnionFree pb.ir.inT) (h0i : pb.ir.bbs = []) (h0a : pb.arch.bbs = [])
    (hcons : ∀ p cs, (p, cs) ∈ pb.cons → cs ≠ [] ∧ ∃ t, (p, t) ∈ leafTypes pb.arch.inT [])
    (hdict : (pb.cons.map (·.1)).Nodup)
    (hk : ∃ k t, (k, t) ∈ pb.arch.inT.fieldDict ∧ [k] ∈ pb.archConst)
    (rule : RRule) (hM : IsMappingC P.asm pb rule) (hC : ∀ rule', WithValues pb rule rule' → RuleCorrect pb.ir pb.arch fi fa rule') :
    ∃ (bs : Bdgs) (a : MAsg B) (i bi bo : Nat) (s : RVal) (b ob : Bdg), mapBindings P.asm pb = .ok (some bs) ∧ mapSat P.asm pb bs a ∧
      (RF.skels pb.arch.inT)[i]? = some s ∧ bs.ins[i]? = some (IM.formB pb s) ∧ (IM.formB pb s)[bi]? = some b ∧ bs.outs[bo]? = some ob ∧
      pb.enc.matchIndex (RF.skels pb.arch.inT).length (ivar pb.enc (RF.skels pb.arch.inT).length a.fi) i = .ok true ∧
      pb.enc.matchIndex bs.maxIns (ivar pb.enc bs.maxIns a.ib) bi = .ok true ∧
      pb.enc.matchIndex bs.outs.length (ivar pb.enc bs.outs.length a.ob) bo = .ok true ∧
      b.Perm (rule.ib.map IM.optOf) ∧ ob.Perm rule.ob ∧ List.Forall₂ (IM.EntryR pb a) (rule.ib.map IM.optOf) rule.ib := by
  obtain ⟨ri, vs, hR, hV⟩ := hM.input
  have hc : ∀ c ∈ pb.cons, c.2 ≠ [] := fun c h => (hcons c.1 c.2 h).1
  have hcl : ∀ c ∈ pb.cons, c.1 ∈ (leafTypes pb.arch.inT []).map (·.1) := by
    intro c h
    obtain ⟨t, ht⟩ := (hcons c.1 c.2 h).2
    exact List.mem_map.mpr ⟨_, ht, rfl⟩
  obtain ⟨si, hsi⟩ := List.length_eq_one_iff.mp (RF.skels_one _ hu)
  have hsih : RHas pb.ir.inT si := IM.skels_mem_has (P := P) S.ir_in.1 S.ir_in.2 (by rw [hsi]; exact List.mem_singleton.mpr rfl)
  -- the form
  obtain ⟨s, hsm, hsh, hsl⟩ := RF.skel_of _ _ hR.arch
  have hsp : (rawLeaves pb.arch.inT s).map (·.1) = (rawLeaves pb.arch.inT (.prod vs)).map (·.1) := by
    have := congrArg (List.map Prod.fst) hsl
    simpa [List.map_map, Function.comp_def] using this
  obtain ⟨i, hi⟩ := List.getElem?_of_mem hsm
  -- the bindings
  obtain ⟨b, hbm, hbp⟩ := IM.binding_of S.ir_in.1 S.arch_in.1 hu hM hR hsh hsp
  obtain ⟨bi, hbi⟩ := List.getElem?_of_mem hbm
  obtain ⟨fo, ho1, ho2⟩ := hM.outs
  obtain ⟨ob, hobm, hobr⟩ := C28_complete _ _ (VF.types_nodup _ S.arch_out.1) (VF.types_nodup _ S.ir_out.1) fo ho2
  obtain ⟨bo, hbo⟩ := List.getElem?_of_mem hobm
  have hobp : ob.Perm rule.ob := IM.rep_perm hobr.2 ho1.2 (hobr.1.trans ho1.1.symm)
  let bs : Bdgs := ⟨(RF.skels pb.arch.inT).map (IM.formB pb), createBindings (leafTypes pb.arch.outT []) (leafTypes pb.ir.outT [])⟩
  have hB : IM.BdgsOk pb bs := ⟨⟨hu, rfl, rfl, hcl⟩, h0i, h0a⟩
  have hbind : mapBindings P.asm pb = .ok (some bs) := by
    refine IM.bindings_any S hT hu h0i h0a hcl ?_ ⟨s, hsm, List.ne_nil_of_mem hbm⟩ (List.ne_nil_of_mem hobm)
    obtain ⟨c, fs, _, _, hTy, _⟩ := S.arch_fn
    obtain ⟨k, t, hkt, hkc⟩ := hk
    rw [hTy] at hkt
    exact ⟨c, fs, k, hTy, List.mem_map.mpr ⟨_, hkt, rfl⟩, hkc⟩
  have hins : bs.ins[i]? = some (IM.formB pb s) := by simp only [bs, List.getElem?_map, hi, Option.map_some]
  have htr : (i, bi, bo, b, ob) ∈ mapTriples bs := IM.mem_triples.mpr ⟨⟨_, hins, hbi⟩, hbo⟩
  have hBO := IM.formB_ok S.ir_in.1 S.arch_in.1 hsh hbm
  have hn : (b.map (·.2)).Nodup := hBO.paths.nodup_iff.mpr (VF.leaves_nodup S.arch_in.1 hsh)
  have hBO' := IM.BOk.of_perm hBO hbp
  -- the assignment
  obtain ⟨τ, hτ⟩ := RF.exists_tags S.arch_in.1 hsh
  obtain ⟨v1, u1, _, w1, _⟩ := C30_reachable pb.enc (RF.skels pb.arch.inT).length i (List.getElem?_eq_some_iff.mp hi).1
  obtain ⟨v2, u2, _, w2, _⟩ := C30_reachable pb.enc bs.maxIns bi (IM.triple_lt hins hbi)
  obtain ⟨v3, u3, _, w3, _⟩ := C30_reachable pb.enc bs.outs.length bo (List.getElem?_eq_some_iff.mp hbo).1
  have iv : ∀ (n : Nat) (v : BV), v.size = pb.enc.varLen n → ivar pb.enc n v.val = v := by
    intro n v hv
    simp only [ivar]
    apply BV.ext
    · rw [BV.ofNat_size, hv]
    · rw [BV.ofNat_val, ← hv]; exact Nat.mod_eq_of_lt v.isLt
  let a : MAsg B := {
    fi := v1.val, ib := v2.val, ob := v3.val, ir := fun _ => 0, irTag := fun _ => 0
    arch := fun p => match (rawLeaves pb.arch.inT (.prod vs)).lookup p with
      | some (_, n) => n
      | none => ((pb.cons.lookup p).bind List.head?).getD 0
    archTag := τ, irBB := fun _ _ => 0, archBB := fun _ _ => 0 }
  have hav : ∀ p u n, (p, u, n) ∈ rawLeaves pb.arch.inT (.prod vs) → a.arch p = n := by
    intro p u n h
    simp only [a, VF.lookup_of_mem' (VF.leaves_nodup S.arch_in.1 hR.arch) h]
  have hfill : VF.fill pb.arch.inT s a.arch = .prod vs := by
    rw [← RF.shape_eq pb.arch.inT (.prod vs) s S.arch_in.1 S.arch_in.2 hR.arch hsh (by rw [hsp]; exact fun _ h => h)]
    refine RF.fill_self _ _ _ hR.arch ?_
    intro p u n h
    rw [hav p u n h]
    exact Nat.mod_eq_of_lt (VF.leaf_bound _ _ hR.arch _ h)
  have hEnt : List.Forall₂ (IM.EntryR pb a) (rule.ib.map IM.optOf) rule.ib := by
    rw [List.forall₂_map_left_iff, List.forall₂_same]
    rintro ⟨x, p⟩ he
    refine ⟨rfl, ?_⟩
    cases x with
    | path q => exact .inl ⟨q, rfl, rfl⟩
    | const c =>
      refine .inr (.inl ⟨rfl, (hM.const c p he).1.imp IM.constAt_iff.mpr (fun ⟨cs, hcs⟩ => List.mem_map.mpr ⟨_, hcs, rfl⟩), c, ?_⟩)
      obtain ⟨t, n, h1, h2⟩ := hR.entries _ he
      refine ⟨t, rfl, VF.mem_types hR.arch h1, ?_⟩
      simp only [IM.optOf]
      rw [hav p t n h1, Nat.mod_eq_of_lt (VF.leaf_bound _ _ hR.arch _ h1)]
      exact h2
    | unbound =>
      obtain ⟨h1, h2⟩ := hM.unbound p he
      refine .inr (.inr ⟨rfl, ?_, ?_, rfl⟩)
      · rw [← Bool.not_eq_true]
        exact fun h => h1 (IM.constAt_iff.mp h)
      · intro h
        obtain ⟨y, hy, hye⟩ := List.mem_map.mp h
        simp only [IM.optOf] at hye
        rw [← hye] at h2
        exact h2 y.2 hy
  have hConj : ∀ v, IM.Choice (constAt pb.archConst) pb.cons v → ∀ a', SameExists pb bs (IM.setFree (constAt pb.archConst) pb.cons v a) a' →
      IM.Conj P pb fi fa bs a' s si i bi bo b ob := by
    intro v hv a' ha'
    have hcst' : ∀ p, constAt pb.archConst p = true ∨ p ∈ pb.cons.map (·.1) → a'.arch p = (IM.setFree (constAt pb.archConst) pb.cons v a).arch p := by
      intro p hp
      refine ha'.arch p ?_
      rintro ⟨h1, h2, _⟩
      rcases hp with hp | hp
      · rw [hp] at h1
        cases h1
      · exact h2 hp
    have hcst : ∀ p, constAt pb.archConst p = true → a'.arch p = a.arch p := by
      intro p hp
      rw [hcst' p (.inl hp)]
      simp only [IM.setFree, hp, Bool.true_eq_false, false_and, if_false]
    obtain ⟨rib, hW, hE⟩ := IM.family_rule S.arch_in.1 hv (ib := rule.ib.map IM.optOf) (by
      intro q p h hm
      obtain ⟨⟨x, p'⟩, he, hxe⟩ := List.mem_map.mp h
      obtain ⟨y, hy, rfl⟩ := List.mem_map.mp hm
      cases x with
      | path q' =>
        cases hxe
        exact (hM.bound _ _ he).1 _ hy
      | const c => cases hxe
      | unbound => cases hxe) hEnt
    refine ⟨?_, ?_, ?_, ?_, ?_, ?_⟩
    · rw [ha'.fi, show (IM.setFree (constAt pb.archConst) pb.cons v a).fi = v1.val from rfl, iv _ _ u1]; exact w1
    · rw [ha'.ib, show (IM.setFree (constAt pb.archConst) pb.cons v a).ib = v2.val from rfl, iv _ _ u2]; exact w2
    · rw [ha'.ob, show (IM.setFree (constAt pb.archConst) pb.cons v a).ob = v3.val from rfl, iv _ _ u3]; exact w3
    · rw [ha'.archTag]; exact hτ
    · intro ws hws c fs hTy k x hx hkc
      refine hV c fs hTy k x ?_ hkc
      rw [hTy] at hws hfill hsh
      obtain ⟨ss, rfl⟩ : ∃ ss, s = .prod ss := by
        cases s with
        | leaf _ => simp [RHas] at hsh
        | sum _ _ => simp [RHas] at hsh
        | prod ss => exact ⟨ss, rfl⟩
      simp only [VF.fill, RVal.prod.injEq] at hws hfill
      rw [← hws] at hx
      rw [← hfill]
      exact IM.dict_congr fs ss _ _ pb.archConst k x hkc hcst hx
    · have hRel := IM.related_of S.ir_in.1 S.arch_in.1 hu hsh hsih hBO' hE (ρi := a'.ir) (ρa := (substArch b a').arch)
        (by
          intro q p h
          exact IM.substArch_eq hn (hbp.symm.subset h) a')
        (by
          intro p h hcc
          rw [IM.substArch_eq hn (hbp.symm.subset h) a']
          exact hcst' p hcc)
      have hOA := hC ⟨rib, rule.ob⟩ ⟨rfl, hW⟩ _ _ hRel (fun _ _ => []) (fun _ _ => 0) (fun _ _ => 0) (by intro b k i o h; rw [h0i] at h; cases h) (by intro b k i o h; rw [h0a] at h; cases h)
      rw [show pb.ir.bbOuts (fun _ _ => 0) = [] by simp [PeakObj.bbOuts, h0i], show pb.arch.bbOuts (fun _ _ => 0) = [] by simp [PeakObj.bbOuts, h0a]] at hOA
      intro q p h
      exact hOA q p (hobp.subset h)
  -- the formula holds
  have hSat : mapSat P.asm pb bs a := by
    intro a' ha'
    obtain ⟨x, hx, hx2⟩ := IM.formula_free_any S hT hB hsi hc hdict (List.ne_nil_of_mem htr) a'
    rw [hx, hx2 ?_ ?_]
    · intro v hv
      refine ⟨_, htr, ?_⟩
      have hsame : SameExists pb bs (IM.setFree (constAt pb.archConst) pb.cons v a) (IM.setFree (constAt pb.archConst) pb.cons v a') := by
        refine ⟨ha'.fi, ha'.ib, ha'.ob, ha'.ir, ha'.irTag, fun p hp => ?_, ha'.archTag, ha'.irBB, ha'.archBB⟩
        simp only [IM.setFree]
        split
        · rfl
        · exact ha'.arch p hp
      generalize IM.setFree (constAt pb.archConst) pb.cons v a' = a' at hsame
      obtain ⟨am, h1, _⟩ := IM.mapper_any P hT S.arch_in S.arch_out pb.archConst a'.arch a'.archTag a'.archBB
      obtain ⟨am', h2, _⟩ := IM.mapper_any P hT S.arch_in S.arch_out pb.archConst (substArch b a').arch (substArch b a').archTag (substArch b a').archBB
      obtain ⟨im, h3⟩ := IM.mapper_one P S.ir_fn S.ir_in S.ir_out hu pb.irConst a'.ir a'.irTag a'.irBB
      have hCj := hConj v hv a' hsame
      obtain ⟨y, hy, hy2⟩ := IM.conj_sem S hu h0i h0a h1 h2 h3 hi hsi (IM.triple_lt hins hbi) (List.getElem?_eq_some_iff.mp hbo).1
        (IM.outs_typed S.ir_out.1 S.arch_out.1 hobm) hCj.tags
      rw [hy, hy2.mpr hCj]
    · intro c hcm hcC
      obtain ⟨t, ht⟩ := (hcons c.1 c.2 hcm).2
      have hne : ¬ bs.archUniv pb c.1 := by
        rintro ⟨h1, _⟩
        rw [hcC] at h1
        cases h1
      rw [ha'.arch _ hne]
      by_cases hp : c.1 ∈ (rawLeaves pb.arch.inT (.prod vs)).map (·.1)
      · obtain ⟨e, he, hee⟩ := List.mem_map.mp (hR.arch_paths.symm.subset hp)
        obtain ⟨x, p⟩ := e
        simp only at hee
        subst hee
        cases x with
        | path q => exact absurd hcm ((hM.bound q c.1 he).1 c.2)
        | unbound => exact absurd hcm ((hM.unbound c.1 he).2 c.2)
        | const cc =>
          obtain ⟨n, hn1, t', ht', hCI⟩ := (hM.const cc c.1 he).2 c.2 hcm
          refine ⟨n, hn1, ?_⟩
          rw [IM.consEq_ok P S.arch_in.1 ht']
          obtain ⟨t'', m, h1, h2⟩ := hR.entries _ he
          have htt := VF.eq_of_fst (VF.types_nodup _ S.arch_in.1) (VF.mem_types hR.arch h1) ht'
          subst htt
          rw [hav _ _ _ h1]
          have hm := VF.leaf_bound _ _ hR.arch _ h1
          simp only at h2 hm
          rw [Nat.mod_eq_of_lt hm]
          have : m = n % 2 ^ width t'' := by
            cases cc with
            | bits v =>
              have e1 : v.val = m := h2.2.2
              have e2 : v.val = n % 2 ^ width t'' := hCI.2.2
              rw [← e1, e2]
            | bit v =>
              have e1 : v.toNat = m := h2.2
              have e2 : v.toNat = n % 2 ^ width t'' := hCI.2
              rw [← e1, e2]
          rw [this]
          simp
      · obtain ⟨n, rest, hcr⟩ := List.exists_cons_of_ne_nil (hc c hcm)
        refine ⟨n, by rw [hcr]; exact List.mem_cons_self, ?_⟩
        have hlk : (rawLeaves pb.arch.inT (.prod vs)).lookup c.1 = none := by
          rw [List.lookup_eq_none_iff]
          intro e he
          rw [bne_iff_ne]
          intro h
          exact hp (List.mem_map.mpr ⟨e, he, h.symm⟩)
        have hv : a.arch c.1 = n := by
          simp only [a, hlk]
          rw [VF.lookup_of_mem' hdict (show (c.1, c.2) ∈ pb.cons from hcm), hcr]
          rfl
        rw [IM.consEq_ok P S.arch_in.1 ht, hv]
        simp
  refine ⟨bs, a, i, bi, bo, s, b, ob, hbind, hSat, hi, hins, hbi, hbo, ?_, ?_, ?_, hbp, hobp, hEnt⟩
  · rw [show a.fi = v1.val from rfl, iv _ _ u1]; exact w1
  · rw [show a.ib = v2.val from rfl, iv _ _ u2]; exact w2
  · rw [show a.ob = v3.val from rfl, iv _ _ u3]; exact w3

/-- A correct mapping is a solution of the formula. -/
theorem IM.sat_of_mapping {B K : Type} [DecidableEq B] (P : Process) (pb : MapPb B K) (fi fa : Fn B) (inW : K → List Nat)
    (S : Setup P pb.ir pb.arch fi fa inW) (hT : Total P pb.arch) (hu : UnionFree pb.ir.inT) (h0i : pb.ir.bbs = []) (h0a : pb.arch.bbs = [])
    (hcons : ∀ p cs, (p, cs) ∈ pb.cons → IsConst pb.archConst p ∧ cs ≠ [] ∧ ∃ t, (p, t) ∈ leafTypes pb.arch.inT [])
    (hdict : (pb.cons.map (·.1)).Nodup)
    (hk : ∃ k t, (k, t) ∈ pb.arch.inT.fieldDict ∧ [k] ∈ pb.archConst)
    (rule : RRule) (hM : IsMapping P.asm pb rule) (hC : RuleCorrect pb.ir pb.arch fi fa rule) :
    ∃ (bs : Bdgs) (a : MAsg B) (i bi bo : Nat) (s : RVal) (b ob : Bdg), mapBindings P.asm pb = .ok (some bs) ∧ mapSat P.asm pb bs a ∧
      (RF.skels pb.arch.inT)[i]? = some s ∧ bs.ins[i]? = some (IM.formB pb s) ∧ (IM.formB pb s)[bi]? = some b ∧ bs.outs[bo]? = some ob ∧
      pb.enc.matchIndex (RF.skels pb.arch.inT).length (ivar pb.enc (RF.skels pb.arch.inT).length a.fi) i = .ok true ∧
      pb.enc.matchIndex bs.maxIns (ivar pb.enc bs.maxIns a.ib) bi = .ok true ∧
      pb.enc.matchIndex bs.outs.length (ivar pb.enc bs.outs.length a.ob) bo = .ok true ∧
      b.Perm (rule.ib.map IM.optOf) ∧ ob.Perm rule.ob ∧ List.Forall₂ (IM.EntryR pb a) (rule.ib.map IM.optOf) rule.ib := by
  refine IM.sat_of_family P pb fi fa inW S hT hu h0i h0a (fun p cs h => (hcons p cs h).2) hdict hk rule (IM.mapping_to_c hM) ?_
  intro rule' h
  rw [IM.withValues_const (fun p cs h => (hcons p cs h).1) h]
  exact hC

/-- Completeness, with what is known when the rule cannot be built: the solver chose an input with valid `Const` fields, and a `Const` leaf of it
that its own assembler rejects. -/
theorem IM.complete_general {B K : Type} [DecidableEq B] (P : Process) (pb : MapPb B K) (fi fa : Fn B) (inW : K → List Nat)
    (S : Setup P pb.ir pb.arch fi fa inW) (hT : Total P pb.arch) (hu : UnionFree pb.ir.inT) (h0i : pb.ir.bbs = []) (h0a : pb.arch.bbs = [])
    (hcons : ∀ p cs, (p, cs) ∈ pb.cons → IsConst pb.archConst p ∧ cs ≠ [] ∧ ∃ t, (p, t) ∈ leafTypes pb.arch.inT [])
    (hdict : (pb.cons.map (·.1)).Nodup)
    (hk : ∃ k t, (k, t) ∈ pb.arch.inT.fieldDict ∧ [k] ∈ pb.archConst)
    (solve : (MAsg B → Prop) → Option (MAsg B)) (hsat : ∀ φ a, solve φ = some a → φ a) (hcomp : ∀ φ a, φ a → ∃ a', solve φ = some a') (a0 : MAsg B)
    (rule : RRule) (hM : IsMapping P.asm pb rule) (hC : RuleCorrect pb.ir pb.arch fi fa rule) :
    (∃ r, mapSolve P.asm pb solve a0 = .ok (some r)) ∨
    (mapSolve P.asm pb solve a0 = .error .valueError ∧ ∃ vs p c ms n, RHas pb.arch.inT (.prod vs) ∧ ConstsValid P.asm pb.arch.inT pb.archConst vs ∧
      (p, Ty.enum c ms, n) ∈ rawLeaves pb.arch.inT (.prod vs) ∧ IsConst pb.archConst p ∧ isValidAV P.asm (mkAV (.enum c ms) n) = .ok false) := by
  obtain ⟨bs, a, i, bi, bo, s, b, ob, hbind, hSat, _⟩ := IM.sat_of_mapping P pb fi fa inW S hT hu h0i h0a hcons hdict hk rule hM hC
  rcases IM.solve_any P pb fi fa inW S hT hu h0i h0a hcons hdict hk solve hsat a0 with h | ⟨_, h⟩ | h
  · exact .inl h
  · exfalso
    rcases h with h | ⟨bs', h, hn⟩
    · rw [hbind] at h
      cases h
    · rw [hbind] at h
      cases h
      obtain ⟨a', ha'⟩ := hcomp _ _ hSat
      rw [hn] at ha'
      cases ha'
  · exact .inr h

/-- A leaf that its own assembler rejects is no whole `Const` field of an input whose `Const` fields are valid. -/
theorem IM.not_field {B K : Type} [DecidableEq B] (P : Process) (pb : MapPb B K) (fi fa : Fn B) (inW : K → List Nat)
    (S : Setup P pb.ir pb.arch fi fa inW) {vs : List RVal} {p : RPath} {c : Nat} {ms : List EVal} {n : Nat} (h1 : RHas pb.arch.inT (.prod vs))
    (h2 : ConstsValid P.asm pb.arch.inT pb.archConst vs) (h3 : (p, Ty.enum c ms, n) ∈ rawLeaves pb.arch.inT (.prod vs))
    (h5 : isValidAV P.asm (mkAV (.enum c ms) n) = .ok false) :
    ¬ ∃ k, p = [k] ∧ [k] ∈ pb.archConst ∧ (k, Ty.enum c ms) ∈ pb.arch.inT.fieldDict := by
  rintro ⟨k, rfl, hk2, hk3⟩
  obtain ⟨ci, fs, _, _, hTy, _⟩ := S.arch_fn
  rw [hTy] at h1 h3 hk3
  obtain ⟨k', t, r, q, e1, e2, e3, e4, e5⟩ := IM.leaf_input fs vs h1 _ h3
  simp only [List.cons.injEq] at e1
  obtain ⟨rfl, rfl⟩ := e1
  have hwf := S.arch_in.1
  rw [hTy] at hwf
  have : t = Ty.enum c ms := by
    have := List.inj_on_of_nodup_map hwf.1 e2 hk3 rfl
    simpa using this
  subst this
  have hv := h2 ci fs hTy k _ e4 hk2
  cases r with
  | prod _ => simp [RHas] at e3
  | sum _ _ => simp [RHas] at e3
  | leaf m =>
    simp only [rawLeaves, List.mem_singleton, Prod.mk.injEq, true_and] at e5
    subst e5
    simp only [rawCode] at hv
    rw [hv] at h5
    cases h5

/-- C33, completeness, for the default formula and problems without black boxes whose IR input has no unions: if a correct mapping exists,
the mapper with a complete solver returns one (or raises ValueError, which needs an enum leaf within a `Const` field). The architecture is
assumed to return outputs for any bits. `ArchMapper` needs a field wrapped in `Const`, and constraints with values on `Const` leaves. -/
theorem C33_complete_partial {B K : Type} [DecidableEq B] (P : Process) (pb : MapPb B K) (fi fa : Fn B) (inW : K → List Nat)
    (S : Setup P pb.ir pb.arch fi fa inW) (hT : Total P pb.arch) (hu : UnionFree pb.ir.inT) (h0i : pb.ir.bbs = []) (h0a : pb.arch.bbs = [])
    (hcons : ∀ p cs, (p, cs) ∈ pb.cons → IsConst pb.archConst p ∧ cs ≠ [] ∧ ∃ t, (p, t) ∈ leafTypes pb.arch.inT [])
    (hdict : (pb.cons.map (·.1)).Nodup)
    (hk : ∃ k t, (k, t) ∈ pb.arch.inT.fieldDict ∧ [k] ∈ pb.archConst)
    (solve : (MAsg B → Prop) → Option (MAsg B)) (hsat : ∀ φ a, solve φ = some a → φ a) (hcomp : ∀ φ a, φ a → ∃ a', solve φ = some a') (a0 : MAsg B)
    (rule : RRule) (hM : IsMapping P.asm pb rule) (hC : RuleCorrect pb.ir pb.arch fi fa rule) :
    (∃ r, mapSolve P.asm pb solve a0 = .ok (some r)) ∨
    (mapSolve P.asm pb solve a0 = .error .valueError ∧ ∃ p c ms, (p, Ty.enum c ms) ∈ leafTypes pb.arch.inT [] ∧ IsConst pb.archConst p ∧
      ¬ ∃ k, p = [k] ∧ [k] ∈ pb.archConst ∧ (k, Ty.enum c ms) ∈ pb.arch.inT.fieldDict) := by
  rcases IM.complete_general P pb fi fa inW S hT hu h0i h0a hcons hdict hk solve hsat hcomp a0 rule hM hC with h | ⟨h, vs, p, c, ms, n, h1, h2, h3, h4, h5⟩
  · exact .inl h
  · refine .inr ⟨h, p, c, ms, VF.mem_types h1 h3, h4, ?_⟩
    exact IM.not_field P pb fi fa inW S h1 h2 h3 h5

/-- The assembler of `t` rejects exactly the bits that spell no value: it, and every assembler built before it in the process, is for a type of the
kind of C05. -/
def Trusted (P : Process) (t : Ty) : Prop := ∀ t' ∈ t :: P.hist t, WF t' ∧ Checkable t'

theorem Trusted.valid_iff {P : Process} {t : Ty} (h : Trusted P t) (n : Nat) (hn : n < 2 ^ width t) :
    isValidAV P.asm (mkAV t n) = .ok true ↔ ∃ v, Reads t n v := by
  obtain ⟨o, ho, hv⟩ := C05_is_valid_exact_partial (P.hist t) t (fun t' ht => (h t' ht).1) (fun t' ht => (h t' ht).2)
  have hg := build_any (P.hist t) t (h t (by simp)).1 (build_of_after ho)
  have key : isValidAV P.asm (.adt t (BV.ofNat (width t) n)) = .ok true ↔ ∃ v, Reads t n v := by
    have := (hv (BV.ofNat (width t) n) (by rw [BV.ofNat_size, hg.width])).1
    rw [BV.ofNat_val, Nat.mod_eq_of_lt hn] at this
    simp only [isValidAV, Process.asm, ho, Except.ok.injEq]
    exact this
  cases t with
  | bv c w => exact ⟨fun _ => ⟨.bits (BV.ofNat w n), rfl⟩, fun _ => rfl⟩
  | bit c =>
    refine ⟨fun _ => ⟨.bit (n % 2 == 1), ?_⟩, fun _ => rfl⟩
    simp only [Reads]
    rcases Nat.mod_two_eq_zero_or_one n with h0 | h0 <;> simp [h0]
  | enum c ms => exact key
  | prod c fs => exact key
  | sum c fs => exact key

/-- With exact validators the rule can be built whatever the solver chose. -/
theorem IM.no_valueError {B K : Type} [DecidableEq B] (P : Process) (pb : MapPb B K) (fi fa : Fn B) (inW : K → List Nat)
    (S : Setup P pb.ir pb.arch fi fa inW)
    (hfield : ∀ c ∈ pb.archConst, ∃ k, c = [k])
    (htf : ∀ k t, (k, t) ∈ pb.arch.inT.fieldDict → [k] ∈ pb.archConst → Trusted P t)
    (htl : ∀ p c ms, (p, Ty.enum c ms) ∈ leafTypes pb.arch.inT [] → Trusted P (.enum c ms))
    {vs : List RVal} {p : RPath} {c : Nat} {ms : List EVal} {n : Nat} (h1 : RHas pb.arch.inT (.prod vs)) (h2 : ConstsValid P.asm pb.arch.inT pb.archConst vs)
    (h3 : (p, Ty.enum c ms, n) ∈ rawLeaves pb.arch.inT (.prod vs)) (h4 : IsConst pb.archConst p) :
    isValidAV P.asm (mkAV (.enum c ms) n) = .ok true := by
  obtain ⟨ci, fs, _, _, hTy, _⟩ := S.arch_fn
  have hl := VF.mem_types h1 h3
  have hb := VF.leaf_bound _ _ h1 _ h3
  have h1' := h1
  have h3' := h3
  rw [hTy] at h1' h3'
  obtain ⟨k, t, r, q, e1, e2, e3, e4, e5⟩ := IM.leaf_input fs vs h1' _ h3'
  simp only at e1
  obtain ⟨cc, hcc, hpre⟩ := h4
  obtain ⟨k', rfl⟩ := hfield cc hcc
  have hkk : k' = k := by
    rw [e1] at hpre
    simpa using (List.cons_prefix_cons.mp hpre).1
  subst hkk
  have ht : Trusted P t := htf k' t (by rw [hTy]; exact e2) hcc
  have hwt := (ht t (by simp)).1
  obtain ⟨v, hv⟩ := (ht.valid_iff _ (SB.code_lt t r hwt e3)).mp (h2 ci fs hTy k' _ e4 hcc)
  obtain ⟨v', hv'⟩ := IM.reads_leaf t r v hwt e3 hv _ e5
  exact ((htl p c ms hl).valid_iff n hb).mpr ⟨v', hv'⟩

/-- A `Const` input whose fields pass `is_valid` has only enum leaves that pass it. -/
def LeavesChecked {B K : Type} (P : Process) (pb : MapPb B K) : Prop :=
  ∀ vs p c ms n, RHas pb.arch.inT (.prod vs) → ConstsValid P.asm pb.arch.inT pb.archConst vs → (p, Ty.enum c ms, n) ∈ rawLeaves pb.arch.inT (.prod vs) →
    IsConst pb.archConst p → isValidAV P.asm (mkAV (.enum c ms) n) = .ok true

/-- C33, completeness without the ValueError of `C33_complete_partial`, where the validators of the `Const` fields reject whatever those of their enum leaves reject:
the mapper with a sound and complete solver decides whether a correct mapping exists. It returns a correct mapping if there is one, and `None` if there is none; it
never raises. The validators may accept too much. -/
theorem C33_decides_checked_partial {B K : Type} [DecidableEq B] (P : Process) (pb : MapPb B K) (fi fa : Fn B) (inW : K → List Nat)
    (S : Setup P pb.ir pb.arch fi fa inW) (hT : Total P pb.arch) (hu : UnionFree pb.ir.inT) (h0i : pb.ir.bbs = []) (h0a : pb.arch.bbs = [])
    (hcons : ∀ p cs, (p, cs) ∈ pb.cons → IsConst pb.archConst p ∧ cs ≠ [] ∧ ∃ t, (p, t) ∈ leafTypes pb.arch.inT [])
    (hdict : (pb.cons.map (·.1)).Nodup)
    (hk : ∃ k t, (k, t) ∈ pb.arch.inT.fieldDict ∧ [k] ∈ pb.archConst)
    (hleaf : LeavesChecked P pb)
    (solve : (MAsg B → Prop) → Option (MAsg B)) (hsat : ∀ φ a, solve φ = some a → φ a) (hcomp : ∀ φ a, φ a → ∃ a', solve φ = some a') (a0 : MAsg B) :
    (∃ r, mapSolve P.asm pb solve a0 = .ok (some r) ∧ IsMapping P.asm pb r ∧ RuleCorrect pb.ir pb.arch fi fa r) ∨
    (mapSolve P.asm pb solve a0 = .ok none ∧ ¬ ∃ r, IsMapping P.asm pb r ∧ RuleCorrect pb.ir pb.arch fi fa r) := by
  rcases IM.solve_any P pb fi fa inW S hT hu h0i h0a hcons hdict hk solve hsat a0 with ⟨r, h⟩ | ⟨h, _⟩ | ⟨_, vs, p, c, ms, n, h1, h2, h3, h4, h5⟩
  · exact .inl ⟨r, h, C33_sound_partial P pb fi fa inW (VF.setup0 S) (fun p cs h => (hcons p cs h).1) solve hsat a0 r h⟩
  · refine .inr ⟨h, ?_⟩
    rintro ⟨r, hM, hC⟩
    rcases IM.complete_general P pb fi fa inW S hT hu h0i h0a hcons hdict hk solve hsat hcomp a0 r hM hC with ⟨r', h'⟩ | ⟨h', _⟩ <;>
      rw [h] at h' <;> cases h'
  · rw [hleaf vs p c ms n h1 h2 h3 h4] at h5
    cases h5

/-- An entry of the solver's binding becomes one entry of the rule. -/
theorem IM.entry_unique {B K : Type} {pb : MapPb B K} (hw : WF pb.arch.inT) (a : MAsg B) : Relator.RightUnique (IM.EntryR pb a) := by
  rintro ⟨x, p⟩ ⟨y, p1⟩ ⟨z, p2⟩ ⟨h1, h2⟩ ⟨h3, h4⟩
  simp only at h1 h2 h3 h4
  subst h1 h3
  rcases h2 with ⟨q, e1, e2⟩ | ⟨e1, e2, c, t, e3, e4, e5⟩ | ⟨e1, e2, e3, e4⟩ <;>
    rcases h4 with ⟨q', f1, f2⟩ | ⟨f1, f2, c', t', f3, f4, f5⟩ | ⟨f1, f2, f3, f4⟩
  · rw [e1] at f1; cases f1; rw [e2, f2]
  · rw [e1] at f1; cases f1
  · rw [e1] at f1; cases f1
  · rw [e1] at f1; cases f1
  · have := VF.eq_of_fst (VF.types_nodup _ hw) e4 f4
    subst this
    rw [e3, f3]
    cases c with
    | bits b =>
      cases c' with
      | bits b' =>
        obtain ⟨_, g1, g2⟩ := e5
        obtain ⟨_, g3, g4⟩ := f5
        rw [BV.ext (g1.trans g3.symm) (g2.trans g4.symm)]
      | bit b' =>
        obtain ⟨x, hx⟩ := f5.1
        exact absurd hx (e5.1 x)
    | bit b =>
      cases c' with
      | bits b' =>
        obtain ⟨x, hx⟩ := e5.1
        exact absurd hx (f5.1 x)
      | bit b' =>
        have : b.toNat = b'.toNat := e5.2.trans f5.2.symm
        cases b <;> cases b' <;> first | rfl | cases this
  · rcases e2 with e2 | e2
    · rw [e2] at f2; cases f2
    · exact absurd e2 f3
  · rw [e1] at f1; cases f1
  · rcases f2 with f2 | f2
    · rw [f2] at e2; cases e2
    · exact absurd f2 e3
  · rw [e4, f4]

open Classical in
/-- C33: every correct mapping may be the one that is found. For each of them there is a sound and complete solver with which the mapper returns it, up to the order of
the bindings. -/
theorem C33_any_mapping_partial {B K : Type} [DecidableEq B] (P : Process) (pb : MapPb B K) (fi fa : Fn B) (inW : K → List Nat)
    (S : Setup P pb.ir pb.arch fi fa inW) (hT : Total P pb.arch) (hu : UnionFree pb.ir.inT) (h0i : pb.ir.bbs = []) (h0a : pb.arch.bbs = [])
    (hcons : ∀ p cs, (p, cs) ∈ pb.cons → IsConst pb.archConst p ∧ cs ≠ [] ∧ ∃ t, (p, t) ∈ leafTypes pb.arch.inT [])
    (hdict : (pb.cons.map (·.1)).Nodup)
    (hk : ∃ k t, (k, t) ∈ pb.arch.inT.fieldDict ∧ [k] ∈ pb.archConst)
    (hleaf : LeavesChecked P pb)
    (rule : RRule) (hM : IsMapping P.asm pb rule) (hC : RuleCorrect pb.ir pb.arch fi fa rule) :
    ∃ solve : (MAsg B → Prop) → Option (MAsg B), (∀ φ a, solve φ = some a → φ a) ∧ (∀ φ a, φ a → ∃ a', solve φ = some a') ∧
      ∀ a0, ∃ r, mapSolve P.asm pb solve a0 = .ok (some r) ∧ r.ib.Perm rule.ib ∧ r.ob.Perm rule.ob := by
  obtain ⟨bs, a, i, bi, bo, s, b, ob, hbind, hSat, hs, hl, hb, ho, m1, m2, m3, hbp, hobp, hE⟩ :=
    IM.sat_of_mapping P pb fi fa inW S hT hu h0i h0a hcons hdict hk rule hM hC
  let solve : (MAsg B → Prop) → Option (MAsg B) := fun φ => if φ a then some a else if h : ∃ a', φ a' then some (choose h) else none
  have hsat : ∀ φ a, solve φ = some a → φ a := by
    intro φ a' h
    simp only [solve] at h
    split at h
    · next h' => cases h; exact h'
    · split at h
      · next h' => cases h; exact choose_spec h'
      · cases h
  have hcomp : ∀ φ a, φ a → ∃ a', solve φ = some a' := by
    intro φ a' h
    simp only [solve]
    split
    · exact ⟨_, rfl⟩
    · rw [dif_pos ⟨a', h⟩]
      exact ⟨_, rfl⟩
  have hsol : solve (mapSat P.asm pb bs) = some a := if_pos hSat
  refine ⟨solve, hsat, hcomp, fun a0 => ?_⟩
  rcases IM.solve_any P pb fi fa inW S hT hu h0i h0a hcons hdict hk solve hsat a0 with ⟨r, h⟩ | ⟨_, h⟩ | ⟨_, vs, p, c, ms, n, h1, h2, h3, h4, h5⟩
  · refine ⟨r, h, ?_⟩
    simp only [mapSolve, hbind] at h
    split at h
    · cases h
    · rw [hsol] at h
      simp only at h
      split at h
      · cases h
      · next r' hr =>
        cases h
        obtain ⟨i', bi', bo', s', l', ib', ob', hs', hl', hib', hob', k1, k2, k3, rfl, hF⟩ := IM.rule_inv S.arch_in hr
        have uniq : ∀ (n : Nat) (v : Nat) (x y : Nat), pb.enc.matchIndex n (ivar pb.enc n v) x = .ok true → pb.enc.matchIndex n (ivar pb.enc n v) y = .ok true → x = y := by
          intro n v x y hx hy
          have dx := (C30_decode pb.enc n _ (IM.ivar_size _ _ _) x).1.mpr ⟨IM.match_lt hx, hx⟩
          have dy := (C30_decode pb.enc n _ (IM.ivar_size _ _ _) y).1.mpr ⟨IM.match_lt hy, hy⟩
          rw [dx] at dy
          cases dy
          rfl
        have e1 := uniq _ _ _ _ m1 k1
        have e2 := uniq _ _ _ _ m2 k2
        have e3 := uniq _ _ _ _ m3 k3
        subst e1 e2 e3
        rw [hl] at hl'
        cases hl'
        rw [hb] at hib'
        cases hib'
        rw [ho] at hob'
        cases hob'
        refine ⟨?_, hobp⟩
        obtain ⟨l, g1, g2⟩ := List.perm_comp_forall₂ hbp hE
        rw [List.right_unique_forall₂' (IM.entry_unique S.arch_in.1 a) hF g1]
        exact g2
  · exfalso
    rcases h with h | ⟨bs', h, hn⟩
    · rw [hbind] at h
      cases h
    · rw [hbind] at h
      cases h
      rw [hsol] at hn
      cases hn
  · rw [hleaf vs p c ms n h1 h2 h3 h4] at h5
    cases h5

/-- C33, completeness without the ValueError of `C33_complete_partial`, where only fields are wrapped in `Const` and the validators concerned are exact
(C05): the mapper with a sound and complete solver decides whether a correct mapping exists. It returns a correct mapping if there is one, and `None` if
there is none; it never raises. -/
theorem C33_decides_partial {B K : Type} [DecidableEq B] (P : Process) (pb : MapPb B K) (fi fa : Fn B) (inW : K → List Nat)
    (S : Setup P pb.ir pb.arch fi fa inW) (hT : Total P pb.arch) (hu : UnionFree pb.ir.inT) (h0i : pb.ir.bbs = []) (h0a : pb.arch.bbs = [])
    (hcons : ∀ p cs, (p, cs) ∈ pb.cons → IsConst pb.archConst p ∧ cs ≠ [] ∧ ∃ t, (p, t) ∈ leafTypes pb.arch.inT [])
    (hdict : (pb.cons.map (·.1)).Nodup)
    (hk : ∃ k t, (k, t) ∈ pb.arch.inT.fieldDict ∧ [k] ∈ pb.archConst)
    (hfield : ∀ c ∈ pb.archConst, ∃ k, c = [k])
    (htf : ∀ k t, (k, t) ∈ pb.arch.inT.fieldDict → [k] ∈ pb.archConst → Trusted P t)
    (htl : ∀ p c ms, (p, Ty.enum c ms) ∈ leafTypes pb.arch.inT [] → Trusted P (.enum c ms))
    (solve : (MAsg B → Prop) → Option (MAsg B)) (hsat : ∀ φ a, solve φ = some a → φ a) (hcomp : ∀ φ a, φ a → ∃ a', solve φ = some a') (a0 : MAsg B) :
    (∃ r, mapSolve P.asm pb solve a0 = .ok (some r) ∧ IsMapping P.asm pb r ∧ RuleCorrect pb.ir pb.arch fi fa r) ∨
    (mapSolve P.asm pb solve a0 = .ok none ∧ ¬ ∃ r, IsMapping P.asm pb r ∧ RuleCorrect pb.ir pb.arch fi fa r) := by
  exact C33_decides_checked_partial P pb fi fa inW S hT hu h0i h0a hcons hdict hk
    (fun _ _ _ _ _ h1 h2 h3 h4 => IM.no_valueError P pb fi fa inW S hfield htf htl h1 h2 h3 h4) solve hsat hcomp a0

/-! ## the rule of `Props/Verify` is found -/

/-- Map `a + 3` to `x + y`, where `y` is `Const`. -/
def vPb (g : Nat → Nat) (cons : List (RPath × List Nat)) : MapPb Nat Nat where
  ir := vIr g
  arch := vArch
  irConst := []
  archConst := [[6]]
  cons := cons
  enc := .binary

theorem vTotal (P : Process) : Total P vArch := by
  refine ⟨2, vIn2, 1, vOut, rfl, rfl, ?_⟩
  intro d bb h
  match d, h with
  | [(_, x), (_, y)], ⟨_, ⟨n, hn, hx⟩, _, ⟨m, hm, hy⟩, _⟩ =>
    subst hx hy
    simp only [width] at hn hm
    refine ⟨[.leaf ((n + m) % 256)], ⟨Nat.mod_lt _ (by decide), trivial⟩, ?_, trivial⟩
    simp only [AV.new, AV.plain, mkAV, rawCode, BV.ofNat_val]
    rw [Nat.mod_eq_of_lt hn, Nat.mod_eq_of_lt hm, VF.ofNat_mod (w := 8)]

theorem vMapping (P : Process) : IsMapping P.asm (vPb (· + 3) [([6], [3, 5])]) vRule := by
  refine ⟨?_, ?_, ?_, ?_, ?_⟩
  · refine ⟨_, _, vRelated (· + 3), ?_⟩
    intro c fs hT k x hx _
    cases hT
    simp only [inputDict, vIn2, List.mem_cons, List.not_mem_nil, or_false, Prod.mk.injEq] at hx
    rcases hx with ⟨_, rfl⟩ | ⟨_, rfl⟩ <;> rfl
  · refine ⟨fun _ => some [1], ⟨?_, ?_⟩, ⟨?_, ?_⟩⟩
    · simp [vPb, vArch, vOut, leafTypes, leafTypesF, vRule]
    · simp [vRule]
    · simp [vPb, vArch, vIr, vOut, leafTypes, leafTypesF]
    · simp [vPb, vArch, vIr, vOut, leafTypes, leafTypesF]
  · intro q p h
    simp only [vRule, List.mem_cons, List.not_mem_nil, or_false, Prod.mk.injEq, RSrc.path.injEq, reduceCtorEq, false_and] at h
    obtain ⟨rfl, rfl⟩ := h
    refine ⟨by simp [vPb], by simp [vPb, IsConst], .bv 0 8, ?_, ?_⟩
    · simp [vPb, vIr, vIn1, leafTypes, leafTypesF]
    · simp [vPb, vArch, vIn2, leafTypes, leafTypesF]
  · intro c p h
    simp only [vRule, List.mem_cons, List.not_mem_nil, or_false, Prod.mk.injEq, RSrc.const.injEq, reduceCtorEq, false_and, false_or] at h
    obtain ⟨rfl, rfl⟩ := h
    refine ⟨⟨[6], by simp [vPb], by simp⟩, fun cs hcs => ?_⟩
    simp only [vPb, List.mem_singleton, Prod.mk.injEq, true_and] at hcs
    subst hcs
    exact ⟨3, by simp, .bv 0 8, by simp [vPb, vArch, vIn2, leafTypes, leafTypesF], by simp, rfl, rfl⟩
  · intro p h
    simp [vRule] at h

open Classical in
/-- The hypotheses of both theorems hold for `a + 3` as `x + y` with `y` one of 3 and 5, and any complete solver: a rule is returned, and it
is a correct mapping. -/
example (P : Process) (solve : (MAsg Nat → Prop) → Option (MAsg Nat)) (hsat : ∀ φ a, solve φ = some a → φ a) (hcomp : ∀ φ a, φ a → ∃ a', solve φ = some a')
    (a0 : MAsg Nat) : ∃ r, mapSolve P.asm (vPb (· + 3) [([6], [3, 5])]) solve a0 = .ok (some r) ∧ IsMapping P.asm (vPb (· + 3) [([6], [3, 5])]) r ∧
      RuleCorrect (vIr (· + 3)) vArch (vIrFn (· + 3)) vArchFn r := by
  have hcons : ∀ p cs, (p, cs) ∈ (vPb (· + 3) [([6], [3, 5])]).cons → IsConst (vPb (· + 3) [([6], [3, 5])]).archConst p ∧ cs ≠ [] ∧
      ∃ t, (p, t) ∈ leafTypes (vPb (· + 3) [([6], [3, 5])]).arch.inT [] := by
    intro p cs h
    simp only [vPb, List.mem_singleton, Prod.mk.injEq] at h
    obtain ⟨rfl, rfl⟩ := h
    exact ⟨⟨[6], by simp [vPb], by simp⟩, by simp, .bv 0 8, by simp [vPb, vArch, vIn2, leafTypes, leafTypesF]⟩
  rcases C33_complete_partial P (vPb (· + 3) [([6], [3, 5])]) (vIrFn (· + 3)) vArchFn (fun _ => [1]) (vSetup P (· + 3)) (vTotal P)
    (by simp [vPb, vIr, vIn1, UnionFree, UnionFrees]) rfl rfl hcons (by simp [vPb]) ⟨6, .bv 0 8, by simp [vPb, vArch, vIn2, Ty.fieldDict, Fields.toList], by simp [vPb]⟩
    solve hsat hcomp a0 vRule (vMapping P) vCorrect.1 with ⟨r, hr⟩ | ⟨_, p, c, ms, h, _⟩
  · exact ⟨r, hr, C33_sound_partial P (vPb (· + 3) [([6], [3, 5])]) (vIrFn (· + 3)) vArchFn (fun _ => [1]) (VF.setup0 (vSetup P (· + 3))) (fun p cs h => (hcons p cs h).1) solve hsat a0 r hr⟩
  · simp [vPb, vArch, vIn2, leafTypes, leafTypesF] at h

open Classical in
/-- The hypotheses of `C33_decides_partial` hold for `g(a)` as `x + y` with `y` a constant, whatever `g` is, in a process that has built no assembler before. -/
example (g : Nat → Nat) (solve : (MAsg Nat → Prop) → Option (MAsg Nat)) (hsat : ∀ φ a, solve φ = some a → φ a) (hcomp : ∀ φ a, φ a → ∃ a', solve φ = some a')
    (a0 : MAsg Nat) :
    (∃ r, mapSolve (Process.asm ⟨fun _ => []⟩) (vPb g []) solve a0 = .ok (some r) ∧ IsMapping (Process.asm ⟨fun _ => []⟩) (vPb g []) r ∧
      RuleCorrect (vIr g) vArch (vIrFn g) vArchFn r) ∨
    (mapSolve (Process.asm ⟨fun _ => []⟩) (vPb g []) solve a0 = .ok none ∧ ¬ ∃ r, IsMapping (Process.asm ⟨fun _ => []⟩) (vPb g []) r ∧
      RuleCorrect (vIr g) vArch (vIrFn g) vArchFn r) := by
  refine C33_decides_partial ⟨fun _ => []⟩ (vPb g []) (vIrFn g) vArchFn (fun _ => [1]) (vSetup _ g) (vTotal _)
    (by simp [vPb, vIr, vIn1, UnionFree, UnionFrees]) rfl rfl (by simp [vPb]) (by simp [vPb])
    ⟨6, .bv 0 8, by simp [vPb, vArch, vIn2, Ty.fieldDict, Fields.toList], by simp [vPb]⟩ (by simp [vPb]) ?_ ?_ solve hsat hcomp a0
  · intro k t h _ t' ht'
    simp only [List.mem_singleton] at ht'
    subst ht'
    simp [vPb, vArch, vIn2, Ty.fieldDict, Fields.toList] at h
    rcases h with ⟨_, rfl⟩ | ⟨_, rfl⟩ <;> exact ⟨by simp [WF], trivial⟩
  · intro p c ms h
    simp [vPb, vArch, vIn2, leafTypes, leafTypesF] at h

/-- There are complete solvers. -/
example : ∃ solve : (MAsg Nat → Prop) → Option (MAsg Nat), (∀ φ a, solve φ = some a → φ a) ∧ ∀ φ a, φ a → ∃ a', solve φ = some a' := by
  classical
  refine ⟨fun φ => if h : ∃ a, φ a then some h.choose else none, ?_, ?_⟩
  · intro φ a h
    simp only at h
    split at h
    · next hx => cases h; exact hx.choose_spec
    · cases h
  · intro φ a h
    have hx : ∃ a, φ a := ⟨a, h⟩
    exact ⟨hx.choose, by simp only [dif_pos hx]⟩


/-! ## violations -/

/-- `x` is `Const`, `y` is not but is constrained to be 3. -/
def wPb : MapPb Nat Nat where
  ir := vIr (· + 3)
  arch := vArch
  irConst := [[0]]
  archConst := [[5]]
  cons := [([6], [3])]
  enc := .binary

def wIb : Bdg := [(some [0], [5]), (none, [6])]
def wOb : Bdg := [(some [1], [1])]
def wBs : Bdgs := ⟨[[wIb]], [wOb]⟩

theorem wBs_eq : (⟨(RF.skels wPb.arch.inT).map (IM.formB wPb), createBindings (leafTypes wPb.arch.outT []) (leafTypes wPb.ir.outT [])⟩ : Bdgs) = wBs := by
  rfl

def wAsg : MAsg Nat where
  fi := 0
  ib := 0
  ob := 0
  ir := fun _ => 0
  irTag := fun _ => 0
  arch := fun p => if p = [6] then 9 else 0
  archTag := fun _ => 0
  irBB := fun _ _ => 0
  archBB := fun _ _ => 0

theorem wB : IM.BdgsOk wPb wBs := by
  rw [← wBs_eq]
  refine ⟨⟨by simp [wPb, vIr, vIn1, UnionFree, UnionFrees], rfl, rfl, ?_⟩, rfl, rfl⟩
  intro c hc
  simp only [wPb, List.mem_singleton] at hc
  subst hc
  simp [wPb, vArch, vIn2, leafTypes, leafTypesF]

theorem wValid (P : Process) (vs : List RVal) : ConstsValid P.asm wPb.arch.inT wPb.archConst vs := by
  intro c fs hT k x hx _
  cases hT
  match vs, hx with
  | [], hx => simp [vIn2, inputDict] at hx
  | [v], hx =>
    simp only [inputDict, vIn2, List.mem_cons, List.not_mem_nil, or_false, Prod.mk.injEq] at hx
    rcases hx with ⟨_, rfl⟩; rfl
  | v :: w :: vs, hx =>
    simp only [inputDict, vIn2, List.mem_cons, List.not_mem_nil, or_false, Prod.mk.injEq] at hx
    rcases hx with ⟨_, rfl⟩ | ⟨_, rfl⟩ <;> rfl

/-- The outputs agree when `y` is 3. -/
theorem wOuts (a : MAsg Nat) (h : a.arch [6] = 3) : OutputsAgree wPb.ir.outT wPb.arch.outT wOb
    (vIrFn (· + 3) (VF.fill wPb.ir.inT (.prod [.leaf 0]) a.ir) []).1 (vArchFn (VF.fill wPb.arch.inT (.prod [.leaf 0, .leaf 0]) (substArch wIb a).arch) []).1 := by
  intro q p hq
  simp only [wOb, List.mem_singleton, Prod.mk.injEq, Option.some.injEq] at hq
  obtain ⟨rfl, rfl⟩ := hq
  have e5 : (substArch wIb a).arch [5] = a.ir [0] := rfl
  have e6 : (substArch wIb a).arch [6] = 3 := h
  refine ⟨.bv 0 8, .bv 0 8, (a.ir [0] % 256 + 3) % 256, ?_, ?_⟩
  · simp [wPb, vIr, vIn1, vOut, VF.fill, VF.fillAll, vIrFn, rawLeaves, rawLeavesAll, width]
  · simp [wPb, vArch, vIn2, vOut, VF.fill, VF.fillAll, vArchFn, rawLeaves, rawLeavesAll, width, e5, e6]

theorem wConj (P : Process) (a : MAsg Nat) (h1 : a.fi = 0) (h2 : a.ib = 0) (h3 : a.ob = 0) :
    (a.arch [6] = 3 → mapConj P.asm wPb wBs a (0, 0, 0, wIb, wOb) = .ok true) ∧
    (OutputsAgree wPb.ir.outT wPb.arch.outT wOb
    (vIrFn (· + 3) (VF.fill wPb.ir.inT (.prod [.leaf 0]) a.ir) []).1 (vArchFn (VF.fill wPb.arch.inT (.prod [.leaf 0, .leaf 0]) (substArch wIb a).arch) []).1 →
    IM.Conj P wPb (vIrFn (· + 3)) vArchFn wBs a (.prod [.leaf 0, .leaf 0]) (.prod [.leaf 0]) 0 0 0 wIb wOb) := by
  have S : Setup P wPb.ir wPb.arch (vIrFn (· + 3)) vArchFn (fun _ => [1]) := vSetup P (· + 3)
  have hC : OutputsAgree wPb.ir.outT wPb.arch.outT wOb
    (vIrFn (· + 3) (VF.fill wPb.ir.inT (.prod [.leaf 0]) a.ir) []).1 (vArchFn (VF.fill wPb.arch.inT (.prod [.leaf 0, .leaf 0]) (substArch wIb a).arch) []).1 →
    IM.Conj P wPb (vIrFn (· + 3)) vArchFn wBs a (.prod [.leaf 0, .leaf 0]) (.prod [.leaf 0]) 0 0 0 wIb wOb := by
    intro ho
    refine ⟨?_, ?_, ?_, RF.tags_unionFree _ _ _ _ (by simp [wPb, vArch, vIn2, UnionFree, UnionFrees]), fun vs _ => wValid P vs, ho⟩
    · rw [h1]; rfl
    · rw [h2]; rfl
    · rw [h3]; rfl
  refine ⟨fun h6 => ?_, hC⟩
  obtain ⟨am, g1, _⟩ := IM.mapper_any P (vTotal P) S.arch_in S.arch_out wPb.archConst a.arch a.archTag a.archBB
  obtain ⟨am', g2, _⟩ := IM.mapper_any P (vTotal P) S.arch_in S.arch_out wPb.archConst (substArch wIb a).arch (substArch wIb a).archTag (substArch wIb a).archBB
  obtain ⟨im, g3⟩ := IM.mapper_one P S.ir_fn S.ir_in S.ir_out wB.uf wPb.irConst a.ir a.irTag a.irBB
  have hc := hC (wOuts a h6)
  obtain ⟨y, hy, hy2⟩ := IM.conj_sem S wB.uf rfl rfl g1 g2 g3 (bs := wBs) (i := 0) (bi := 0) (bo := 0) (ib := wIb) (ob := wOb)
    (s := .prod [.leaf 0, .leaf 0]) (si := .prod [.leaf 0]) rfl rfl (by decide) (by decide)
    (IM.outs_typed S.ir_out.1 S.arch_out.1 (ob := wOb) (by
      have := wB.outs
      rw [← this]
      exact List.mem_cons_self)) hc.tags
  rw [hy, hy2.mpr hc]

theorem wSat (P : Process) : mapSat P.asm wPb wBs wAsg := by
  intro a' ha'
  have hF : mapFormula0 P.asm wPb wBs (setArch a' [6] 3) = .ok true := by
    simp only [mapFormula0, show mapTriples wBs = [(0, 0, 0, wIb, wOb)] from rfl, exMap]
    rw [(wConj P (setArch a' [6] 3) ha'.fi ha'.ib ha'.ob).1 (by simp [setArch])]
    rfl
  have h1 : constAt wPb.archConst [6] = false := rfl
  simp only [mapFormula, show wPb.cons = [([6], [3])] from rfl, forallCons, h1, Bool.false_eq_true, if_false, exMap, hF, existsCons]
  rfl

/-- The code violates C33 for constraints on a path that is not `Const`: `y` is constrained to 3, the formula holds with 3 for `y`, but the
rule is made with the value the solver happens to give to the replaced variable, here 9.  It is not correct. -/
theorem C33_violated_constraint (P : Process) : ∃ (pb : MapPb Nat Nat) (fi fa : Fn Nat) (solve : (MAsg Nat → Prop) → Option (MAsg Nat)) (rule : RRule),
    Setup P pb.ir pb.arch fi fa (fun _ => [1]) ∧ (∀ φ a, solve φ = some a → φ a) ∧ (∀ a0, mapSolve P.asm pb solve a0 = .ok (some rule)) ∧
    pb.cons = [([6], [3])] ∧ (.const (.bits (BV.ofNat 8 9)), [6]) ∈ rule.ib ∧ ¬ RuleCorrect pb.ir pb.arch fi fa rule := by
  classical
  have S : Setup P wPb.ir wPb.arch (vIrFn (· + 3)) vArchFn (fun _ => [1]) := vSetup P (· + 3)
  have hbind : mapBindings P.asm wPb = .ok (some wBs) := by
    rw [← wBs_eq]
    refine IM.bindings_any S (vTotal P) wB.uf rfl rfl wB.cons ⟨2, vIn2, 5, rfl, by simp [vIn2, Fields.toList], by simp [wPb]⟩ ?_ ?_
    · exact ⟨.prod [.leaf 0, .leaf 0], by simp [show RF.skels wPb.arch.inT = [.prod [.leaf 0, .leaf 0]] from rfl],
        by rw [show IM.formB wPb (.prod [.leaf 0, .leaf 0]) = [wIb] from rfl]; simp⟩
    · rw [show createBindings (leafTypes wPb.arch.outT []) (leafTypes wPb.ir.outT []) = [wOb] from rfl]; simp
  let solve : (MAsg Nat → Prop) → Option (MAsg Nat) := fun φ => if φ wAsg then some wAsg else none
  have hsat : ∀ φ a, solve φ = some a → φ a := by
    intro φ a h
    simp only [solve] at h
    split at h
    · next hx => cases h; exact hx
    · cases h
  have hformula : ∀ a0, ∃ b, mapFormula P.asm wPb wBs a0 = .ok b := by
    intro a0
    obtain ⟨y, hy⟩ := IM.conj_any S wB.uf rfl (vTotal P) wBs (setArch a0 [6] 3) (i := 0) (bi := 0) (bo := 0) (ib := wIb) (ob := wOb)
      (si := .prod [.leaf 0]) rfl (by decide) (by decide) (by decide)
      (IM.outs_typed S.ir_out.1 S.arch_out.1 (ob := wOb) (by rw [← wB.outs]; exact List.mem_cons_self))
    have hF : mapFormula0 P.asm wPb wBs (setArch a0 [6] 3) = .ok ([y].any id) := by
      simp only [mapFormula0, show mapTriples wBs = [(0, 0, 0, wIb, wOb)] from rfl, exMap, hy]
      rfl
    have h1 : constAt wPb.archConst [6] = false := rfl
    simp only [mapFormula, show wPb.cons = [([6], [3])] from rfl, forallCons, h1, Bool.false_eq_true, if_false, exMap, hF, existsCons]
    exact ⟨_, rfl⟩
  have hrr : rrFromSolver P.asm wPb wBs wAsg = .ok ⟨[(.path [0], [5]), (.const (.bits (BV.ofNat 8 9)), [6])], wOb⟩ := by
    rcases IM.rule_any S wB (a := wAsg) (l := [wIb]) (ib := wIb) (ob := wOb) (s := .prod [.leaf 0, .leaf 0]) (i := 0) (bi := 0) (bo := 0)
      rfl rfl rfl rfl rfl rfl rfl (fun vs _ => wValid P vs) with ⟨r, hr⟩ | ⟨_, p, c, ms, h, _⟩
    · obtain ⟨i, bi, bo, s, l, ib, ob, hs, hl, hib, hob, _, _, _, hro, hF⟩ := IM.rule_inv S.arch_in hr
      have hi : i = 0 := by
        have := (List.getElem?_eq_some_iff.mp hl).1
        simp only [wBs, List.length_cons, List.length_nil] at this
        omega
      subst hi
      cases hl
      have hbi : bi = 0 := by
        have := (List.getElem?_eq_some_iff.mp hib).1
        simp only [List.length_cons, List.length_nil] at this
        omega
      subst hbi
      cases hib
      have hbo : bo = 0 := by
        have := (List.getElem?_eq_some_iff.mp hob).1
        simp only [wBs, List.length_cons, List.length_nil] at this
        omega
      subst hbo
      cases hob
      obtain ⟨rib, rob⟩ := r
      simp only [wIb] at hF hro
      subst hro
      cases hF with
      | cons h1 hF =>
        cases hF with
        | cons h2 hF =>
          cases hF
          rename_i e1 e2
          obtain ⟨x1, p1⟩ := e1
          obtain ⟨x2, p2⟩ := e2
          obtain ⟨g1, g2⟩ := h1
          obtain ⟨k1, k2⟩ := h2
          simp only at g1 k1
          subst g1 k1
          simp only [Option.some.injEq, reduceCtorEq, false_and, or_false, exists_eq_left', false_or, exists_false, true_and] at g2 k2
          subst g2
          rcases k2 with ⟨_, c, t, rfl, ht, hc⟩ | ⟨_, k2, _⟩
          · have htt : t = .bv 0 8 := by simpa [wPb, vArch, vIn2, leafTypes, leafTypesF] using ht
            subst htt
            cases c with
            | bit b => obtain ⟨⟨x, hx⟩, _⟩ := hc; cases hx
            | bits b =>
              obtain ⟨_, hs, hv⟩ := hc
              have : b = BV.ofNat 8 9 := BV.ext hs hv
              rw [hr, this]
          · simp [wPb] at k2
    · simp [wPb, vArch, vIn2, leafTypes, leafTypesF] at h
  refine ⟨wPb, vIrFn (· + 3), vArchFn, solve, ⟨[(.path [0], [5]), (.const (.bits (BV.ofNat 8 9)), [6])], wOb⟩, S, hsat, fun a0 => ?_, rfl,
    List.mem_cons_of_mem _ List.mem_cons_self, ?_⟩
  · obtain ⟨b, hb⟩ := hformula a0
    simp only [mapSolve, hbind, hb, solve, if_pos (wSat P), hrr]
  · intro h
    have hR : Related wPb.ir.inT wPb.arch.inT [(.path [0], [5]), (.const (.bits (BV.ofNat 8 9)), [6])] (.prod [.leaf 0]) (.prod [.leaf 0, .leaf 9]) := by
      refine ⟨by simp [wPb, vIr, vIn1, RHas, RHasAll, width], by simp [wPb, vArch, vIn2, RHas, RHasAll, width], ?_, ?_, ?_⟩
      · simp [wPb, vArch, vIn2, rawLeaves, rawLeavesAll]
      · simp [wPb, vIr, vIn1, rawLeaves, rawLeavesAll, irSources]
      · intro e he
        simp only [List.mem_cons, List.not_mem_nil, or_false] at he
        rcases he with rfl | rfl
        · exact ⟨.bv 0 8, 0, by simp [wPb, vArch, vIn2, rawLeaves, rawLeavesAll], .bv 0 8, by simp [wPb, vIr, vIn1, rawLeaves, rawLeavesAll], rfl⟩
        · exact ⟨.bv 0 8, 9, by simp [wPb, vArch, vIn2, rawLeaves, rawLeavesAll], by simp, rfl, rfl⟩
    obtain ⟨t, u, n, h1, h2⟩ := h _ _ hR (fun _ _ => []) (fun _ _ => 0) (fun _ _ => 0) (by intro b k i o hb; simp [wPb, vIr] at hb) (by intro b k i o hb; simp [wPb, vArch] at hb)
      [1] [1] (by simp [wOb])
    simp only [wPb, vIr, vArch, vOut, vIrFn, vArchFn, rawLeaves, rawLeavesAll, List.map_cons, List.map_nil, List.append_nil, List.mem_singleton, Prod.mk.injEq] at h1 h2
    omega

/-- The code violates C33's completeness for architectures without a `Const` field: to map a function to itself, `IRMapper` raises an
AssertionError (mapper.py:533) whatever the solver, although the identity is a correct rule. -/
theorem C33_violated_no_const (P : Process) (g : Nat → Nat) (solve : (MAsg Nat → Prop) → Option (MAsg Nat)) (a0 : MAsg Nat) :
    mapSolve P.asm ⟨vIr g, vIr g, [], [], [], .binary⟩ solve a0 = .error .assertionError ∧
    RuleCorrect (vIr g) (vIr g) (vIrFn g) (vIrFn g) ⟨[(.path [0], [0])], [(some [1], [1])]⟩ ∧
    IsMapping P.asm (⟨vIr g, vIr g, [], [], [], .binary⟩ : MapPb Nat Nat) ⟨[(.path [0], [0])], [(some [1], [1])]⟩ := by
  have S : Setup P (vIr g) vArch (vIrFn g) vArchFn (fun _ => [1]) := vSetup P g
  refine ⟨?_, ?_, ?_⟩
  · obtain ⟨m, hm⟩ := IM.mapper_one P S.ir_fn S.ir_in S.ir_out (by simp [vIr, vIn1, UnionFree, UnionFrees]) [] (fun _ => 0) (fun _ => 0) (fun _ _ => 0)
    have hlen := (RF.raw_ok P _ _ _ S.ir_in.1 S.ir_in.2 _ _ (IM.mapper_inv hm).1).length_eq
    have hfb := IM.formBindings_ok (pb := (⟨vIr g, vIr g, [], [], [], .binary⟩ : MapPb Nat Nat)) S.ir_in.1 S.ir_in.2 (IM.mapper_inv hm).1
    have hb : mapBindings P.asm (⟨vIr g, vIr g, [], [], [], .binary⟩ : MapPb Nat Nat) = .error .assertionError := by
      simp only [mapBindings, hm]
      have hn := IM.nOut_one hm S.ir_out.2.2
      rw [if_neg (by omega), if_pos (by simp), if_neg (by rw [hlen, show (RF.skels (vIr g).inT).length = 1 from rfl]; decide), if_neg (by omega),
        if_neg (by simp [vIr])]
      rw [if_pos (by
        rw [RF.varmap_leaves P _ _ _ _ _ (IM.mapper_inv hm).1]
        exact VF.samePaths_of (fun _ => Iff.rfl))]
      rw [hfb]
      simp only
      rw [show (RF.skels (vIr g).inT).map (IM.formB (⟨vIr g, vIr g, [], [], [], .binary⟩ : MapPb Nat Nat)) = [[[(some [0], [0])]]] from rfl,
        show createBindings (leafTypes (vIr g).outT []) (leafTypes (vIr g).outT []) = [[(some [1], [1])]] from rfl]
      rw [if_neg (by decide), if_neg (by decide), if_neg]
      rw [List.all_eq_true]
      intro h
      obtain ⟨f, hf⟩ : ∃ f, m.res.forms[0]? = some f := by
        have : 0 < m.res.forms.length := by rw [hlen, show (RF.skels (vIr g).inT).length = 1 from rfl]; decide
        exact ⟨_, List.getElem?_eq_getElem this⟩
      obtain ⟨row, hrow, hr⟩ := IM.forall₂_at' (IM.mapper_inv hm).2 hf
      have := h row (List.mem_of_getElem? hrow)
      simp only [mapRow] at hr
      split at hr
      · cases hr
      · simp only [List.contains_nil, List.filter_false, exMap] at hr
        split at hr
        · cases hr
        · cases hr
          simp at this
    simp only [mapSolve, hb]
  · intro ri ra hR F ρi ρa _ _ q p hq
    have h1 := hR.ir
    have h2 := hR.arch
    have leaf8 : ∀ r, RHas (.bv 0 8) r → ∃ n, r = .leaf n := by
      intro r h
      cases r <;> simp [RHas] at h
      exact ⟨_, rfl⟩
    cases ri with
    | leaf _ => simp [vIr, RHas] at h1
    | sum _ _ => simp [vIr, RHas] at h1
    | prod vs =>
      cases ra with
      | leaf _ => simp [vIr, RHas] at h2
      | sum _ _ => simp [vIr, RHas] at h2
      | prod ws =>
        simp only [vIr, vIn1, RHas] at h1 h2
        match vs, h1, ws, h2 with
        | [v], h1, [w], h2 =>
          obtain ⟨n, rfl⟩ := leaf8 v h1.1
          obtain ⟨m, rfl⟩ := leaf8 w h2.1
          obtain ⟨t, n', g1, u, g2, _⟩ := hR.entries (.path [0], [0]) (by simp)
          have c1 : n' = m := by simp [vIr, vIn1, rawLeaves, rawLeavesAll] at g1; exact g1.2
          have c2 : n' = n := by simp [vIr, vIn1, rawLeaves, rawLeavesAll] at g2; exact g2.2
          subst c1 c2
          simp only [List.mem_singleton, Prod.mk.injEq, Option.some.injEq] at hq
          obtain ⟨rfl, rfl⟩ := hq
          exact ⟨.bv 0 8, .bv 0 8, g n' % 256, by simp [vIr, vOut, vIrFn, rawLeaves, rawLeavesAll], by simp [vIr, vOut, vIrFn, rawLeaves, rawLeavesAll]⟩
  · refine ⟨?_, ?_, ?_, ?_, ?_⟩
    · refine ⟨.prod [.leaf 0], [.leaf 0], ⟨?_, ?_, ?_, ?_, ?_⟩, by intro c fs _ k x _ h; simp at h⟩
      · simp [vIr, vIn1, RHas, RHasAll, width]
      · simp [vIr, vIn1, RHas, RHasAll, width]
      · simp [vIr, vIn1, rawLeaves, rawLeavesAll]
      · simp [vIr, vIn1, rawLeaves, rawLeavesAll, irSources]
      · intro e he
        simp only [List.mem_singleton] at he
        subst he
        exact ⟨.bv 0 8, 0, by simp [vIr, vIn1, rawLeaves, rawLeavesAll], .bv 0 8, by simp [vIr, vIn1, rawLeaves, rawLeavesAll], rfl⟩
    · refine ⟨fun _ => some [1], ⟨?_, ?_⟩, ⟨?_, ?_⟩⟩
      · simp [vIr, vOut, leafTypes, leafTypesF]
      · simp
      · simp [vIr, vOut, leafTypes, leafTypesF]
      · simp [vIr, vOut, leafTypes, leafTypesF]
    · intro q p h
      simp only [List.mem_singleton, Prod.mk.injEq, RSrc.path.injEq] at h
      obtain ⟨rfl, rfl⟩ := h
      exact ⟨by simp, by simp [IsConst], .bv 0 8, by simp [vIr, vIn1, leafTypes, leafTypesF], by simp [vIr, vIn1, leafTypes, leafTypesF]⟩
    · intro c p h; simp at h
    · intro p h; simp at h

end Peak
