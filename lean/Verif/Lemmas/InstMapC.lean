import Verif.Lemmas.InstMap
import Verif.Props.FreeCons
/-!
# Mapping with constraints on data inputs: rules and choices of an instruction and a wiring
-/

namespace Peak
open Peak.Spec

namespace InM
variable {B K : Type} [DecidableEq B] {P : Process} {pb : MapPb B K} {fi fa : Fn B} {inW : K → List Nat} {k0 : Key} {instT : Ty} {iin iout din dout : Fields}

theorem lookup_key {α : Type} : ∀ {Z : List (Key × α)} {k : Key} {a : α}, (Z.map (·.1)).Nodup → (k, a) ∈ Z → Z.lookup k = some a
  | [], _, _, _, h => by simp at h
  | (k', a') :: Z, k, a, hn, h => by
    simp only [List.map_cons, List.nodup_cons] at hn
    rcases List.mem_cons.mp h with h' | h'
    · cases h'
      exact List.lookup_cons_self
    · have : k ≠ k' := fun e => hn.1 (e ▸ List.mem_map_of_mem (f := (·.1)) h')
      rw [List.lookup_cons, beq_false_of_ne this]
      exact lookup_key hn.2 h'

/-- The constant for a data input. -/
def valAt (din : Fields) (z : Key → Nat) : RPath → RConst
  | [k] => match din.toList.lookup k with
    | some t => cst t (z k % 2 ^ width t)
    | none => .bit false
  | _ => .bit false

theorem valAt_eq {z : Key → Nat} {k : Key} {t : Ty} (hn : (din.toList.map (·.1)).Nodup) (h : (k, t) ∈ din.toList) : valAt din z [k] = cst t (z k % 2 ^ width t) := by
  simp only [valAt, lookup_key hn h]

omit [DecidableEq B] in
/-- The constrained leaves that are not `Const` are data inputs. -/
theorem free_data (hs : DataConsProblem pb k0 instT iin iout din dout) (hn : k0 ∉ din.toList.map (·.1)) {p : RPath} :
    IsFree pb p ↔ ∃ k t, p = [k] ∧ (k, t) ∈ din.toList ∧ ∃ cs, ([k], cs) ∈ pb.cons := by
  constructor
  · rintro ⟨h1, cs, h2⟩
    rcases (hs.cons p cs h2).2 with ⟨q, t, rfl, _⟩ | ⟨k, t, rfl, h, _⟩
    · exact absurd (by rw [hs.arch_const, const_iff]; exact ⟨q, rfl⟩) h1
    · exact ⟨k, t, rfl, h, cs, h2⟩
  · rintro ⟨k, t, rfl, h, cs, h2⟩
    refine ⟨fun h' => ?_, cs, h2⟩
    rw [hs.arch_const, const_iff] at h'
    obtain ⟨q, h'⟩ := h'
    cases h'
    exact hn (List.mem_map_of_mem (f := (·.1)) h)

omit [DecidableEq B] in
theorem data_leaf (hs : DataConsProblem pb k0 instT iin iout din dout) {k : Key} {t : Ty} (h : (k, t) ∈ din.toList) : ([k], t) ∈ leafTypes pb.arch.inT [] := by
  obtain ⟨ca, aIn⟩ := hs.arch_in
  rw [aIn]
  simp only [leafTypes]
  rw [VF.typesF_cons, flat_types hs.din_flat]
  exact List.mem_append.mpr (.inr (List.mem_map.mpr ⟨_, h, rfl⟩))

omit [DecidableEq B] in
theorem val_allowed (hs : DataConsProblem pb k0 instT iin iout din dout) {z : Key → Nat} (hz : AllowedData pb.cons din z) {k : Key} {t : Ty} (h : (k, t) ∈ din.toList) :
    Allowed pb [k] (cst t (z k % 2 ^ width t)) := by
  intro cs hcs
  obtain ⟨m, hm, e⟩ := hz k t h cs hcs
  refine ⟨m, hm, t, data_leaf hs h, ?_⟩
  rw [← e]
  exact cst_ok (Nat.mod_lt _ (Nat.two_pow_pos _))

omit [DecidableEq B] in
theorem allowed_exists (hs : DataConsProblem pb k0 instT iin iout din dout) : ∃ z, AllowedData pb.cons din z := by
  have : ∀ k, ∃ n, ∀ cs, ([k], cs) ∈ pb.cons → n ∈ cs := by
    intro k
    by_cases h : ∃ cs, ([k], cs) ∈ pb.cons
    · obtain ⟨cs, hcs⟩ := h
      obtain ⟨n, hn⟩ := List.exists_mem_of_ne_nil _ (hs.cons _ _ hcs).1
      exact ⟨n, fun cs' h => VF.eq_of_fst hs.cons_once hcs h ▸ hn⟩
    · exact ⟨0, fun cs hcs => absurd ⟨cs, hcs⟩ h⟩
  choose z hz using this
  exact ⟨z, fun k t _ cs hcs => ⟨z k, hz k cs hcs, rfl⟩⟩

open Classical in
/-- The entry of a rule, with the value `z` says if it is a constrained data input. -/
noncomputable def setVal (pb : MapPb B K) (din : Fields) (z : Key → Nat) (e : RSrc × RPath) : RSrc × RPath := if IsFree pb e.2 then (.const (valAt din z e.2), e.2) else e

/-- A rule of the mapper is a choice of an instruction and of a wiring. -/
theorem choice_of_rule_values (S : Setup P pb.ir pb.arch fi fa inW) (hs : DataConsProblem pb k0 instT iin iout din dout) {r1 r : RRule} (hr : WithValues pb r1 r)
    (hall : ∀ r', WithValues pb r1 r' → IsMappingC P.asm pb r' ∧ RuleCorrect pb.ir pb.arch fi fa r') : CanComputeValues P.asm pb fi fa k0 instT iin iout din dout := by
  have hM := (hall r hr).1
  obtain ⟨ri, vs, hrel, hval⟩ := hM.input
  obtain ⟨ci, eIn⟩ := hs.ir_in
  obtain ⟨co, eOut⟩ := hs.ir_out
  obtain ⟨ca, aIn⟩ := hs.arch_in
  obtain ⟨cb, aOut⟩ := hs.arch_out
  have nIn : (iin.toList.map (·.1)).Nodup := by have := S.ir_in.1; rw [eIn] at this; exact this.1
  have nOut : (iout.toList.map (·.1)).Nodup := by have := S.ir_out.1; rw [eOut] at this; exact this.1
  have nA : k0 ∉ din.toList.map (·.1) ∧ (din.toList.map (·.1)).Nodup := by
    have := S.arch_in.1; rw [aIn] at this; simpa [Fields.toList] using this.1
  have nAo : (dout.toList.map (·.1)).Nodup := by have := S.arch_out.1; rw [aOut] at this; exact this.1
  have harch := hrel.arch
  rw [aIn] at harch
  match vs, hrel, hval, harch with
  | inst :: ys0, hrel, hval, harch =>
  have hi : RHas instT inst := harch.1
  -- paths
  have key : ∀ y, rawLeaves pb.arch.inT (.prod (inst :: rowOf din y)) =
      (rawLeaves instT inst).map (fun l => (k0 :: l.1, l.2)) ++ din.toList.map (fun kt => ([kt.1], kt.2, y kt.1 % 2 ^ width kt.2)) := by
    intro y
    rw [aIn]
    simp only [rawLeaves, rawLeavesAll, row_leaves hs.din_flat]
  have e0 := row_of_has hs.din_flat nA.2 harch.2
  have hpaths : ∀ y, (r.ib.map (·.2)).Perm ((rawLeaves pb.arch.inT (.prod (inst :: rowOf din y))).map (·.1)) := by
    intro y
    have := hrel.arch_paths
    rw [e0, key] at this
    rw [key]
    simpa [List.map_append, List.map_map, Function.comp_def] using this
  have keyi : ∀ x, rawLeaves pb.ir.inT (.prod (rowOf iin x)) = iin.toList.map (fun kt => ([kt.1], kt.2, x kt.1 % 2 ^ width kt.2)) := by
    intro x
    rw [eIn]
    simp only [rawLeaves, row_leaves hs.iin_flat]
  have hri : ∃ x0, ri = .prod (rowOf iin x0) := by
    have := hrel.ir
    rw [eIn] at this
    cases ri with
    | leaf _ => simp [RHas] at this
    | sum _ _ => simp [RHas] at this
    | prod us => exact ⟨_, congrArg RVal.prod (row_of_has hs.iin_flat nIn this)⟩
  obtain ⟨x0, rfl⟩ := hri
  have hirp : ∀ x, (irSources r.ib).Perm ((rawLeaves pb.ir.inT (.prod (rowOf iin x))).map (·.1)) := by
    intro x
    have := hrel.ir_paths
    rw [keyi] at this
    rw [keyi]
    simpa [List.map_map, Function.comp_def] using this
  have hnd : (r.ib.map (·.2)).Nodup := by
    rw [hrel.arch_paths.nodup_iff]
    exact VF.leaves_nodup S.arch_in.1 hrel.arch
  have huniq : ∀ e e', e ∈ r.ib → e' ∈ r.ib → e.2 = e'.2 → e = e' := fun e e' h h' => List.inj_on_of_nodup_map hnd h h'
  have hsrc : (irSources r.ib).Nodup := by
    rw [hrel.ir_paths.nodup_iff]
    exact VF.leaves_nodup S.ir_in.1 hrel.ir
  have honce : ∀ q p p', (RSrc.path q, p) ∈ r.ib → (RSrc.path q, p') ∈ r.ib → p = p' := by
    intro q p p' h h'
    by_contra hne
    unfold irSources List.Nodup at hsrc
    rw [List.pairwise_filterMap] at hsrc
    have : Std.Symm (fun (a a' : RSrc × RPath) => ∀ b, (match a.1 with | .path q => some q | _ => none) = some b →
        ∀ b', (match a'.1 with | .path q => some q | _ => none) = some b' → b ≠ b') :=
      ⟨fun _ _ hab b hb b' hb' => (hab b' hb' b hb).symm⟩
    exact hsrc.forall h h' (by simpa using hne) q rfl q rfl rfl
  have hpath : ∀ p ∈ r.ib.map (·.2), (∃ l ∈ rawLeaves instT inst, p = k0 :: l.1) ∨ ∃ k t, (k, t) ∈ din.toList ∧ p = [k] := by
    intro p hp
    have := (hpaths (fun _ => 0)).subset hp
    rw [key] at this
    simp only [List.map_append, List.map_map, List.mem_append, List.mem_map, Function.comp_def] at this
    rcases this with ⟨l, h1, h2⟩ | ⟨kt, h1, h2⟩
    · exact .inl ⟨l, h1, h2.symm⟩
    · exact .inr ⟨kt.1, kt.2, h1, h2.symm⟩
  have hbound : ∀ q p, (RSrc.path q, p) ∈ r.ib → ∃ q' k t, q = [q'] ∧ p = [k] ∧ (q', t) ∈ iin.toList ∧ (k, t) ∈ din.toList := by
    intro q p h
    obtain ⟨_, hc, t, h1, h2⟩ := hM.bound q p h
    have hnc : ¬ IsConst pb.archConst p := by
      intro h'
      obtain ⟨c, hc, _⟩ := hc.mpr h'
      rw [hs.ir_const] at hc
      cases hc
    rw [eIn] at h1
    simp only [leafTypes, flat_types hs.iin_flat, List.mem_map, Prod.mk.injEq] at h1
    obtain ⟨⟨q', t'⟩, g1, rfl, rfl⟩ := h1
    rw [hs.arch_const, const_iff] at hnc
    rw [aIn] at h2
    simp only [leafTypes] at h2
    rw [VF.typesF_cons] at h2
    rcases List.mem_append.mp h2 with h2 | h2
    · obtain ⟨l, _, hl⟩ := List.mem_map.mp h2
      exact absurd ⟨l.1, (congrArg Prod.fst hl).symm⟩ hnc
    · rw [flat_types hs.din_flat] at h2
      obtain ⟨⟨k, t''⟩, g2, hl⟩ := List.mem_map.mp h2
      simp only [Prod.mk.injEq] at hl
      obtain ⟨rfl, rfl⟩ := hl
      exact ⟨q', k, t'', rfl, rfl, g1, g2⟩
  -- the wiring
  let src : Key → Option Key := fun k => (r.ib.find? (fun e => e.2 == [k])).bind (fun e => match e.1 with | .path [q] => some q | _ => none)
  have src_iff : ∀ k q, src k = some q ↔ (RSrc.path [q], [k]) ∈ r.ib := by
    intro k q
    constructor
    · intro h
      obtain ⟨⟨s, p⟩, h1, h2⟩ := Option.bind_eq_some_iff.mp h
      have h3 := List.find?_some h1
      have h4 := List.mem_of_find?_eq_some h1
      simp only [beq_iff_eq] at h3
      subst h3
      simp only at h2
      split at h2
      · cases h2
        exact h4
      · cases h2
    · intro h
      cases hf : r.ib.find? (fun e => e.2 == [k]) with
      | none =>
        have := List.find?_eq_none.mp hf _ h
        simp at this
      | some e =>
        have h3 := List.find?_some hf
        have h4 := List.mem_of_find?_eq_some hf
        simp only [beq_iff_eq] at h3
        have := huniq _ _ h4 h h3
        subst this
        simp only [src, hf, Option.bind_some]
  have src_none : ∀ k ∈ din.toList.map (·.1), ∀ cs, ([k], cs) ∈ pb.cons → src k = none := by
    intro k _ cs hcs
    cases hq : src k with
    | none => rfl
    | some q => exact absurd hcs ((hM.bound _ _ ((src_iff k q).mp hq)).1 cs)
  have hfree := fun {p} => free_data hs nA.1 (p := p)
  obtain ⟨f, hR, hf⟩ := hM.outs
  rw [aOut, eOut] at hf
  rw [aOut] at hR
  simp only [leafTypes, flat_types hs.dout_flat, flat_types hs.iout_flat] at hf hR
  let out : Key → Option Key := fun k => (f [k]).bind (fun p => match p with | [q] => some q | _ => none)
  have out_iff : ∀ k q, out k = some q ↔ f [k] = some [q] := by
    intro k q
    constructor
    · intro h
      obtain ⟨p, h1, h2⟩ := Option.bind_eq_some_iff.mp h
      split at h2
      · cases h2; exact h1
      · cases h2
    · intro h
      simp only [out, h, Option.bind_some]
  refine ⟨inst, src, out, hi, ?_, ?_, ⟨?_, ?_⟩, src_none, ⟨?_, ?_⟩, ?_⟩
  · refine hval ca _ aIn k0 _ (by simp [inputDict]) (by rw [hs.arch_const]; simp)
  · intro p t n hp cs hcs
    have hmem : (k0 :: p, t, n) ∈ rawLeaves pb.arch.inT (.prod (inst :: ys0)) := by
      rw [e0, key]
      exact List.mem_append.mpr (.inl (List.mem_map.mpr ⟨_, hp, rfl⟩))
    obtain ⟨⟨s, _⟩, he, rfl⟩ := List.mem_map.mp (hrel.arch_paths.symm.subset (List.mem_map_of_mem (f := (·.1)) hmem))
    have hct : IsConst pb.archConst (k0 :: p) := by rw [hs.arch_const, const_iff]; exact ⟨p, rfl⟩
    cases s with
    | path q => exact absurd hcs ((hM.bound q _ he).1 cs)
    | unbound => exact absurd hct (hM.unbound _ he).1
    | const c =>
      obtain ⟨m, hm, t', ht', h1⟩ := (hM.const c _ he).2 cs hcs
      obtain ⟨t'', n', hn', h2⟩ := hrel.entries _ he
      have e : (t'', n') = (t, n) := VF.eq_of_fst (VF.leaves_nodup S.arch_in.1 hrel.arch) hn' hmem
      obtain ⟨rfl, rfl⟩ := Prod.mk.inj e
      have : t' = t'' := VF.eq_of_fst (VF.types_nodup _ S.arch_in.1) ht' (VF.mem_types hrel.arch hmem)
      subst this
      exact ⟨m, hm, const_inj h2 h1⟩
  · intro k t q hk hq
    obtain ⟨q', k', t', h1, h2, h3, h4⟩ := hbound _ _ ((src_iff k q).mp hq)
    cases h1; cases h2
    have : t = t' := congrArg Prod.snd (List.inj_on_of_nodup_map nA.2 hk h4 rfl)
    rw [this]; exact h3
  · intro q t hq
    have : [q] ∈ irSources r.ib := (hirp (fun _ => 0)).symm.subset (by rw [keyi]; exact List.mem_map.mpr ⟨_, List.mem_map.mpr ⟨_, hq, rfl⟩, rfl⟩)
    obtain ⟨⟨s, p⟩, h1, h2⟩ := List.mem_filterMap.mp this
    cases s with
    | unbound => cases h2
    | const _ => cases h2
    | path q' =>
      cases h2
      obtain ⟨q'', k, t', e1, rfl, h3, h4⟩ := hbound _ _ h1
      refine ⟨k, List.mem_map_of_mem (f := (·.1)) h4, (src_iff k q).mpr h1, ?_⟩
      intro k' _ hk'
      have := honce _ _ _ ((src_iff k' q).mp hk') h1
      simpa using this
  · intro k t q hk hq
    have := hf.typed [k] t [q] (List.mem_map.mpr ⟨_, hk, rfl⟩) ((out_iff k q).mp hq)
    obtain ⟨⟨q', t'⟩, h1, h2⟩ := List.mem_map.mp this
    simp only [Prod.mk.injEq, List.cons.injEq, and_true] at h2
    obtain ⟨rfl, rfl⟩ := h2
    exact h1
  · intro q t hq
    obtain ⟨p, h1, h2, h3⟩ := hf.once [q] t (List.mem_map.mpr ⟨_, hq, rfl⟩)
    simp only [List.map_map, List.mem_map, Function.comp_def] at h1
    obtain ⟨kt, h4, rfl⟩ := h1
    refine ⟨kt.1, List.mem_map_of_mem (f := (·.1)) h4, (out_iff _ _).mpr h2, ?_⟩
    intro k' hk' hq'
    obtain ⟨kt', h5, rfl⟩ := List.mem_map.mp hk'
    have := h3 [kt'.1] (by simp only [List.map_map, List.mem_map, Function.comp_def]; exact ⟨kt', h5, rfl⟩) ((out_iff _ _).mp hq')
    simpa using this
  · intro x z F ρi ρa hz hbi hba k hk q hq
    obtain ⟨⟨k, t⟩, hkt, rfl⟩ := List.mem_map.mp hk
    simp only at hq ⊢
    have hW : WithValues pb r1 ⟨r.ib.map (setVal pb din z), r.ob⟩ := by
      refine ⟨hr.1, ?_⟩
      rw [List.forall₂_map_right_iff]
      refine hr.2.imp ?_
      intro e e' ⟨h1, h2, h3⟩
      by_cases hf' : IsFree pb e.2
      · obtain ⟨k', t', hp, hk', cs, hcs⟩ := hfree.mp hf'
        have hf2 : IsFree pb e'.2 := h1 ▸ hf'
        simp only [setVal, if_pos hf2]
        refine ⟨h1, fun _ => ⟨_, rfl, ?_⟩, fun h => absurd hf' h⟩
        rw [h1, hp, valAt_eq nA.2 hk']
        exact val_allowed hs hz hk'
      · rw [show setVal pb din z e' = e' from if_neg (h1 ▸ hf')]
        exact ⟨h1, h2, h3⟩
    obtain ⟨hMz, hC⟩ := hall _ hW
    have hpz : (r.ib.map (setVal pb din z)).map (·.2) = r.ib.map (·.2) := by
      rw [List.map_map]
      apply List.map_congr_left
      intro e _
      simp only [Function.comp_apply, setVal]
      split <;> rfl
    have hsz : irSources (r.ib.map (setVal pb din z)) = irSources r.ib := by
      simp only [irSources, List.filterMap_map]
      apply List.filterMap_congr
      rintro ⟨s, p⟩ he
      simp only [Function.comp_apply]
      by_cases hf' : IsFree pb p
      · rw [show setVal pb din z (s, p) = (.const (valAt din z p), p) from if_pos hf']
        obtain ⟨_, cs, hcs⟩ := hf'
        cases s with
        | path q => exact absurd hcs ((hM.bound _ _ he).1 cs)
        | const _ => rfl
        | unbound => rfl
      · rw [show setVal pb din z (s, p) = (s, p) from if_neg hf']
    have hrel' : Related pb.ir.inT pb.arch.inT (r.ib.map (setVal pb din z)) (.prod (rowOf iin x)) (.prod (inst :: rowOf din (wired src x z))) := by
      refine ⟨?_, ?_, by rw [hpz]; exact hpaths _, by rw [hsz]; exact hirp _, ?_⟩
      · rw [eIn]; exact row_has hs.iin_flat x
      · rw [aIn]; exact ⟨hi, row_has hs.din_flat _⟩
      · intro e' he'
        obtain ⟨⟨s, p⟩, he, rfl⟩ := List.mem_map.mp he'
        by_cases hf' : IsFree pb p
        · obtain ⟨k', t', rfl, hk', cs, hcs⟩ := hfree.mp hf'
          simp only [setVal, if_pos hf', valAt_eq nA.2 hk']
          refine ⟨t', z k' % 2 ^ width t', ?_, cst_ok (Nat.mod_lt _ (Nat.two_pow_pos _))⟩
          rw [key]
          refine List.mem_append.mpr (.inr (List.mem_map.mpr ⟨_, hk', ?_⟩))
          simp only [wired, src_none k' (List.mem_map_of_mem (f := (·.1)) hk') cs hcs]
        rw [show setVal pb din z (s, p) = (s, p) from if_neg hf']
        rcases hpath p (List.mem_map.mpr ⟨_, he, rfl⟩) with ⟨l, hl, rfl⟩ | ⟨k', t', hk', rfl⟩
        · obtain ⟨t1, n, hm, hc⟩ := hrel.entries _ he
          refine ⟨t1, n, ?_, ?_⟩
          · rw [key]
            rw [e0, key] at hm
            rcases List.mem_append.mp hm with hm | hm
            · exact List.mem_append.mpr (.inl hm)
            · obtain ⟨kt, h1, h2⟩ := List.mem_map.mp hm
              simp only [Prod.mk.injEq, List.cons.injEq] at h2
              exact absurd (List.mem_map_of_mem (f := (·.1)) h1) (by rw [h2.1.1]; exact nA.1)
          · cases s with
            | const cc => exact hc
            | unbound => trivial
            | path q' =>
              obtain ⟨_, k', t', _, h2, _, h4⟩ := hbound _ _ he
              simp only [List.cons.injEq] at h2
              exact absurd (List.mem_map_of_mem (f := (·.1)) h4) (by simp only; rw [← h2.1]; exact nA.1)
        · refine ⟨t', wired src x z k' % 2 ^ width t', ?_, ?_⟩
          · rw [key]
            exact List.mem_append.mpr (.inr (List.mem_map.mpr ⟨_, hk', rfl⟩))
          · cases s with
            | unbound => trivial
            | const cc =>
              have := (hM.const cc _ he).1.resolve_right (fun ⟨cs, hcs⟩ => hf' (hfree.mpr ⟨k', t', rfl, hk', cs, hcs⟩))
              rw [hs.arch_const, const_iff] at this
              obtain ⟨_, h⟩ := this
              simp only [List.cons.injEq] at h
              exact absurd (List.mem_map_of_mem (f := (·.1)) hk') (by simp only; rw [h.1]; exact nA.1)
            | path q' =>
              obtain ⟨q'', k'', t'', rfl, h2, h3, h4⟩ := hbound _ _ he
              cases h2
              have ht : t' = t'' := congrArg Prod.snd (List.inj_on_of_nodup_map nA.2 hk' h4 rfl)
              subst ht
              refine ⟨t', ?_, ?_⟩
              · rw [keyi]
                refine List.mem_map.mpr ⟨_, h3, ?_⟩
                simp only [wired, (src_iff k' q'').mpr he]
              · have := hs.din_flat _ _ hk'
                cases t' with
                | bv _ _ => rfl
                | bit _ => trivial
                | enum _ _ => rfl
                | prod _ _ => exact this.elim
                | sum _ _ => exact this.elim
    have hob : (some [q], [k]) ∈ r.ob := by
      obtain ⟨e, h1, h2⟩ := List.mem_map.mp (hR.1.symm.subset (List.mem_map.mpr ⟨_, List.mem_map.mpr ⟨_, hkt, rfl⟩, rfl⟩))
      have h3 := hR.2 e h1
      simp only at h2
      rw [h2, (out_iff k q).mp hq] at h3
      have : e = (some [q], [k]) := Prod.ext h3 h2
      rw [← this]; exact h1
    obtain ⟨t1, u1, n, g1, g2⟩ := hC _ _ hrel' F ρi ρa hbi hba _ _ hob
    obtain ⟨_, _, _, _, hi1, hi2, hi3⟩ := S.ir_fn
    obtain ⟨_, _, _, _, ha1, ha2, ha3⟩ := S.arch_fn
    obtain ⟨wi, ew1, ew2, _⟩ := hi3 (rowOf iin x) (pb.ir.bbOuts ρi) hrel'.ir
    obtain ⟨wa, ew3, ew4, _⟩ := ha3 (inst :: rowOf din (wired src x z)) (pb.arch.bbOuts ρa) hrel'.arch
    rw [ew1] at g1 ⊢
    rw [ew3] at g2 ⊢
    rw [eOut] at g1 ew2
    rw [aOut] at g2 ew4
    rw [← ((bits_prod hs.iout_flat nOut _ ew2).mp g1).2, ← ((bits_prod hs.dout_flat nAo _ ew4).mp g2).2]

open Classical in
/-- Where the rule takes a data input from. -/
noncomputable def rsrcC (pb : MapPb B K) (din : Fields) (z : Key → Nat) (src : Key → Option Key) (k : Key) : RSrc :=
  if IsFree pb [k] then .const (valAt din z [k]) else rsrc (src k)

omit [DecidableEq B] in
theorem rsrcC_pos {z : Key → Nat} {src : Key → Option Key} {k : Key} (h : IsFree pb [k]) : rsrcC pb din z src k = .const (valAt din z [k]) := if_pos h

omit [DecidableEq B] in
theorem rsrcC_neg {z : Key → Nat} {src : Key → Option Key} {k : Key} (h : ¬ IsFree pb [k]) : rsrcC pb din z src k = rsrc (src k) := if_neg h

/-- The rule of an instruction, a wiring and values for the constrained data inputs. -/
noncomputable def mkRuleC (pb : MapPb B K) (k0 : Key) (instT : Ty) (din dout : Fields) (inst : RVal) (src out : Key → Option Key) (z : Key → Nat) : RRule :=
  ⟨(rawLeaves instT inst).map (fun l => (.const (cst l.2.1 l.2.2), k0 :: l.1)) ++ din.toList.map (fun kt => (rsrcC pb din z src kt.1, [kt.1])),
    dout.toList.map (fun kt => ((out kt.1).map ([·]), [kt.1]))⟩

omit [DecidableEq B] in
theorem sources_eqC {inst : RVal} {src out : Key → Option Key} {z : Key → Nat} (h : ∀ k t, (k, t) ∈ din.toList → IsFree pb [k] → src k = none) :
    irSources (mkRuleC pb k0 instT din dout inst src out z).ib = din.toList.filterMap (fun kt => (src kt.1).map ([·])) := by
  simp only [irSources, mkRuleC, List.filterMap_append, List.filterMap_map, Function.comp_def]
  rw [List.filterMap_eq_nil_iff.mpr (by simp)]
  simp only [List.nil_append]
  apply List.filterMap_congr
  intro kt hkt
  simp only [rsrcC]
  by_cases hf : IsFree pb [kt.1]
  · rw [if_pos hf, h kt.1 kt.2 hkt hf]
    rfl
  · rw [if_neg hf]
    cases src kt.1 <;> rfl

/-- An instruction and a wiring are a rule of the mapper. -/
theorem rule_of_choice_values (S : Setup P pb.ir pb.arch fi fa inW) (hs : DataConsProblem pb k0 instT iin iout din dout) {inst : RVal} {src out : Key → Option Key}
    (hi : RHas instT inst) (hval : isValidAV P.asm (mkAV instT (rawCode instT inst)) = .ok true) (hob : Obeys pb.cons k0 instT inst)
    (hc : ComputesForValues pb.cons pb.ir pb.arch fi fa iin iout din dout inst src out) :
    ∃ r, IsMappingC P.asm pb r ∧ ∀ r', WithValues pb r r' → RuleCorrect pb.ir pb.arch fi fa r' := by
  obtain ⟨z0, hz0⟩ := allowed_exists hs
  refine ⟨mkRuleC pb k0 instT din dout inst src out z0, ?_⟩
  obtain ⟨ci, eIn⟩ := hs.ir_in
  obtain ⟨co, eOut⟩ := hs.ir_out
  obtain ⟨ca, aIn⟩ := hs.arch_in
  obtain ⟨cb, aOut⟩ := hs.arch_out
  obtain ⟨hS, hSn, hO, hfn⟩ := hc
  have nIn : (iin.toList.map (·.1)).Nodup := by have := S.ir_in.1; rw [eIn] at this; exact this.1
  have nOut : (iout.toList.map (·.1)).Nodup := by have := S.ir_out.1; rw [eOut] at this; exact this.1
  have nA : k0 ∉ din.toList.map (·.1) ∧ (din.toList.map (·.1)).Nodup := by
    have := S.arch_in.1; rw [aIn] at this; simpa [Fields.toList] using this.1
  have nAo : (dout.toList.map (·.1)).Nodup := by have := S.arch_out.1; rw [aOut] at this; exact this.1
  have hwt : WF instT := by have := S.arch_in.1; rw [aIn] at this; exact this.2.1
  have hbt : Buildable instT := by have := S.arch_in.2; rw [aIn] at this; exact this.2.2.1
  have key : ∀ i y, rawLeaves pb.arch.inT (.prod (i :: rowOf din y)) =
      (rawLeaves instT i).map (fun l => (k0 :: l.1, l.2)) ++ din.toList.map (fun kt => ([kt.1], kt.2, y kt.1 % 2 ^ width kt.2)) := by
    intro i y
    rw [aIn]
    simp only [rawLeaves, rawLeavesAll, row_leaves hs.din_flat]
  have keyi : ∀ x, rawLeaves pb.ir.inT (.prod (rowOf iin x)) = iin.toList.map (fun kt => ([kt.1], kt.2, x kt.1 % 2 ^ width kt.2)) := by
    intro x
    rw [eIn]
    simp only [rawLeaves, row_leaves hs.iin_flat]
  have hfree := fun {p} => free_data hs nA.1 (p := p)
  have hfn' : ∀ k t, (k, t) ∈ din.toList → IsFree pb [k] → src k = none := by
    intro k t hk ⟨_, cs, hcs⟩
    exact hSn k (List.mem_map_of_mem (f := (·.1)) hk) cs hcs
  have hrel : Related pb.ir.inT pb.arch.inT (mkRuleC pb k0 instT din dout inst src out z0).ib (.prod (rowOf iin (fun _ => 0)))
      (.prod (inst :: rowOf din (wired src (fun _ => 0) z0))) := by
    refine ⟨?_, ?_, ?_, ?_, ?_⟩
    · rw [eIn]; exact row_has hs.iin_flat _
    · rw [aIn]; exact ⟨hi, row_has hs.din_flat _⟩
    · rw [key]
      simp only [mkRuleC, List.map_append, List.map_map, Function.comp_def]
      exact List.Perm.refl _
    · rw [sources_eqC hfn', keyi, List.map_map]
      simp only [Function.comp_def]
      rw [List.perm_ext_iff_of_nodup]
      · intro p
        simp only [List.mem_filterMap, List.mem_map, Option.map_eq_some_iff]
        constructor
        · rintro ⟨⟨k, t⟩, hk, q, hq, rfl⟩
          exact ⟨(q, t), hS.typed k t q hk hq, rfl⟩
        · rintro ⟨⟨q, t⟩, hq, rfl⟩
          obtain ⟨k, hk, h2, _⟩ := hS.once q t hq
          obtain ⟨kt, h3, rfl⟩ := List.mem_map.mp hk
          exact ⟨kt, h3, q, h2, rfl⟩
      · unfold List.Nodup
        rw [List.pairwise_filterMap]
        have := nA.2
        unfold List.Nodup at this
        rw [List.pairwise_map] at this
        refine this.imp_of_mem ?_
        intro a a' ha ha' hne b hb b' hb' e
        subst e
        rw [Option.map_eq_some_iff] at hb hb'
        obtain ⟨q, hq, rfl⟩ := hb
        obtain ⟨q', hq', e⟩ := hb'
        simp only [List.cons.injEq, and_true] at e
        subst e
        obtain ⟨k, hk, h2, h3⟩ := hS.once _ _ (hS.typed _ _ _ ha hq)
        exact hne ((h3 _ (List.mem_map_of_mem (f := (·.1)) ha) hq).trans (h3 _ (List.mem_map_of_mem (f := (·.1)) ha') hq').symm)
      · have : (iin.toList.map (fun x => [x.1])) = (iin.toList.map (·.1)).map (fun k => [k]) := by rw [List.map_map]; rfl
        rw [this]
        exact nIn.map (fun a b h => by simpa using h)
    · intro e he
      rcases List.mem_append.mp he with he | he
      · obtain ⟨⟨p, t, n⟩, hl, rfl⟩ := List.mem_map.mp he
        refine ⟨t, n, ?_, cst_ok (leaves_lt hwt hi hl)⟩
        rw [key]
        exact List.mem_append.mpr (.inl (List.mem_map.mpr ⟨_, hl, rfl⟩))
      · obtain ⟨⟨k, t⟩, hk, rfl⟩ := List.mem_map.mp he
        refine ⟨t, wired src (fun _ => 0) z0 k % 2 ^ width t, ?_, ?_⟩
        · rw [key]
          exact List.mem_append.mpr (.inr (List.mem_map.mpr ⟨_, hk, rfl⟩))
        · simp only [rsrcC]
          by_cases hf : IsFree pb [k]
          · rw [if_pos hf, valAt_eq nA.2 hk]
            simp only [wired, hfn' k t hk hf]
            exact cst_ok (Nat.mod_lt _ (Nat.two_pow_pos _))
          rw [if_neg hf]
          cases hq : src k with
          | none => trivial
          | some q =>
            refine ⟨t, ?_, same_leaf (flat_mem hs.din_flat hk)⟩
            rw [keyi]
            refine List.mem_map.mpr ⟨(q, t), hS.typed k t q hk hq, ?_⟩
            simp only [wired, hq]
  have hnc : ∀ k t, (k, t) ∈ din.toList → ¬ IsConst pb.archConst [k] := by
    intro k t hk h
    rw [hs.arch_const, const_iff] at h
    obtain ⟨_, h⟩ := h
    simp only [List.cons.injEq] at h
    exact nA.1 (h.1 ▸ List.mem_map_of_mem (f := (·.1)) hk)
  have hnf : ∀ k t, (k, t) ∈ din.toList → ¬ IsFree pb [k] → ∀ cs, ([k], cs) ∉ pb.cons :=
    fun k t hk hf cs h => hf (hfree.mpr ⟨k, t, rfl, hk, cs, h⟩)
  refine ⟨⟨⟨_, _, hrel, ?_⟩, ?_, ?_, ?_, ?_⟩, ?_⟩
  · intro c fs e k x hx hk
    rw [aIn] at e
    cases e
    rw [hs.arch_const] at hk
    simp only [List.mem_singleton, List.cons.injEq, and_true] at hk
    subst hk
    simp only [inputDict, List.mem_cons, Prod.mk.injEq, true_and] at hx
    rcases hx with rfl | hx
    · exact hval
    · have : ∀ (fs : Fields) vs, (k, x) ∈ inputDict fs vs → k ∈ fs.toList.map (·.1) := by
        intro fs vs
        induction vs generalizing fs with
        | nil => cases fs <;> simp [inputDict]
        | cons v vs ih =>
          cases fs with
          | nil => simp [inputDict]
          | cons k' t' fs =>
            simp only [inputDict, List.mem_cons, Prod.mk.injEq, Fields.toList, List.map_cons]
            rintro (⟨h, _⟩ | h)
            · exact .inl h
            · exact .inr (ih _ h)
      exact absurd (this _ _ hx) nA.1
  · refine ⟨fun p => match p with | [k] => (out k).map ([·]) | _ => none, ⟨?_, ?_⟩, ⟨?_, ?_⟩⟩
    · rw [aOut]
      simp only [leafTypes, flat_types hs.dout_flat, mkRuleC, List.map_map, Function.comp_def]
      exact List.Perm.refl _
    · intro e he
      obtain ⟨kt, hk, rfl⟩ := List.mem_map.mp he
      rfl
    · intro p t i hp hi
      rw [aOut] at hp
      simp only [leafTypes, flat_types hs.dout_flat, List.mem_map, Prod.mk.injEq] at hp
      obtain ⟨⟨k, t'⟩, hk, rfl, rfl⟩ := hp
      simp only [Option.map_eq_some_iff] at hi
      obtain ⟨q, hq, rfl⟩ := hi
      rw [eOut]
      simp only [leafTypes, flat_types hs.iout_flat, List.mem_map]
      exact ⟨(q, t'), hO.typed k t' q hk hq, rfl⟩
    · intro i t hi
      rw [eOut] at hi
      simp only [leafTypes, flat_types hs.iout_flat, List.mem_map, Prod.mk.injEq] at hi
      obtain ⟨⟨q, t'⟩, hq, rfl, rfl⟩ := hi
      obtain ⟨k, hk, h2, h3⟩ := hO.once q t' hq
      rw [aOut]
      simp only [leafTypes, flat_types hs.dout_flat, List.map_map, Function.comp_def]
      obtain ⟨kt, h4, rfl⟩ := List.mem_map.mp hk
      refine ⟨[kt.1], List.mem_map.mpr ⟨kt, h4, rfl⟩, by simp [h2], ?_⟩
      intro a ha haq
      obtain ⟨kt', h5, rfl⟩ := List.mem_map.mp ha
      simp only [Option.map_eq_some_iff, List.cons.injEq, and_true, exists_eq_right] at haq
      rw [h3 _ (List.mem_map_of_mem (f := (·.1)) h5) haq]
  · intro q p h
    rcases List.mem_append.mp h with h | h
    · obtain ⟨l, _, h⟩ := List.mem_map.mp h
      simp at h
    · obtain ⟨⟨k, t⟩, hk, h⟩ := List.mem_map.mp h
      simp only [Prod.mk.injEq] at h
      obtain ⟨h1, rfl⟩ := h
      by_cases hf : IsFree pb [k]
      · simp only [rsrcC, if_pos hf] at h1
        cases h1
      simp only [rsrcC, if_neg hf] at h1
      refine ⟨hnf k t hk hf, ?_⟩
      cases hq : src k with
      | none => rw [hq] at h1; cases h1
      | some q' =>
        rw [hq] at h1
        cases h1
        refine ⟨⟨(fun ⟨c, hc, _⟩ => by rw [hs.ir_const] at hc; cases hc), fun h => absurd h (hnc k t hk)⟩, t, ?_, ?_⟩
        · rw [eIn]
          simp only [leafTypes, flat_types hs.iin_flat]
          exact List.mem_map.mpr ⟨_, hS.typed k t q' hk hq, rfl⟩
        · rw [aIn]
          simp only [leafTypes]
          rw [VF.typesF_cons, flat_types hs.din_flat]
          exact List.mem_append.mpr (.inr (List.mem_map.mpr ⟨_, hk, rfl⟩))
  · intro c p h
    rcases List.mem_append.mp h with h | h
    · obtain ⟨⟨p', t, n⟩, hl, h⟩ := List.mem_map.mp h
      simp only [Prod.mk.injEq, RSrc.const.injEq] at h
      obtain ⟨rfl, rfl⟩ := h
      refine ⟨.inl (by rw [hs.arch_const, const_iff]; exact ⟨_, rfl⟩), fun cs hcs => ?_⟩
      obtain ⟨m, hm, e⟩ := hob _ _ _ hl cs hcs
      refine ⟨m, hm, t, ?_, ?_⟩
      · refine VF.mem_types hrel.arch (n := n) ?_
        rw [key]
        exact List.mem_append.mpr (.inl (List.mem_map.mpr ⟨_, hl, rfl⟩))
      · rw [← e]
        exact cst_ok (leaves_lt hwt hi hl)
    · obtain ⟨⟨k, t⟩, hk, h⟩ := List.mem_map.mp h
      simp only [Prod.mk.injEq] at h
      obtain ⟨hx, rfl⟩ := h
      by_cases hf : IsFree pb [k]
      · have h := (rsrcC_pos hf).symm.trans hx
        simp only [RSrc.const.injEq] at h
        subst h
        rw [valAt_eq nA.2 hk]
        exact ⟨.inr hf.2, val_allowed hs hz0 hk⟩
      · have h := (rsrcC_neg hf).symm.trans hx
        cases hq : src k <;> simp [hq, rsrc] at h
  · intro p h
    rcases List.mem_append.mp h with h | h
    · obtain ⟨l, _, h⟩ := List.mem_map.mp h
      simp at h
    · obtain ⟨⟨k, t⟩, hk, h⟩ := List.mem_map.mp h
      simp only [Prod.mk.injEq] at h
      obtain ⟨hx, rfl⟩ := h
      by_cases hf : IsFree pb [k]
      · have h := (rsrcC_pos hf).symm.trans hx
        cases h
      · exact ⟨hnc k t hk, hnf k t hk hf⟩
  · intro r' hW ri ra h F ρi ρa hbi hba q p hq
    rw [hW.1] at hq
    have hmem : ∀ e ∈ (mkRuleC pb k0 instT din dout inst src out z0).ib, ∃ e' ∈ r'.ib, WithValue pb e e' := by
      intro e he
      obtain ⟨i, hi'⟩ := List.getElem?_of_mem he
      obtain ⟨e', he', hw⟩ := IM.forall₂_at' hW.2 hi'
      exact ⟨e', List.mem_of_getElem? he', hw⟩
    have hinstE : ∀ p u n, (p, u, n) ∈ rawLeaves instT inst → (.const (cst u n), k0 :: p) ∈ r'.ib := by
      intro p u n hp
      obtain ⟨⟨s, p'⟩, he', h1, _, h3⟩ := hmem (.const (cst u n), k0 :: p) (List.mem_append.mpr (.inl (List.mem_map.mpr ⟨_, hp, rfl⟩)))
      have := h3 (fun hf => hf.1 (by rw [hs.arch_const, const_iff]; exact ⟨p, rfl⟩))
      simp only at h1 this
      subst h1 this
      exact he'
    have hdataE : ∀ k t, (k, t) ∈ din.toList → ¬ IsFree pb [k] → (rsrc (src k), [k]) ∈ r'.ib := by
      intro k t hk hf
      obtain ⟨⟨s, p'⟩, he', h1, _, h3⟩ := hmem (rsrcC pb din z0 src k, [k]) (List.mem_append.mpr (.inr (List.mem_map.mpr ⟨_, hk, rfl⟩)))
      have := h3 hf
      simp only [rsrcC, if_neg hf] at h1 this
      subst h1 this
      exact he'
    have hdataC : ∀ k t, (k, t) ∈ din.toList → IsFree pb [k] → ∃ c, (.const c, [k]) ∈ r'.ib ∧ Allowed pb [k] c := by
      intro k t hk hf
      obtain ⟨⟨s, p'⟩, he', h1, h2, _⟩ := hmem (rsrcC pb din z0 src k, [k]) (List.mem_append.mpr (.inr (List.mem_map.mpr ⟨_, hk, rfl⟩)))
      obtain ⟨c, hc, hA⟩ := h2 hf
      simp only at h1 hc
      subst h1 hc
      exact ⟨c, he', hA⟩
    have hir := h.ir
    have har := h.arch
    rw [eIn] at hir
    rw [aIn] at har
    match ri, ra, h, hir, har with
    | .prod us, .prod (inst' :: ys), h, hir, har =>
    have e1 := row_of_has hs.iin_flat nIn hir
    have e2 := row_of_has hs.din_flat nA.2 har.2
    have hkey := key inst' (fieldBits din ys)
    rw [← e2] at hkey
    have hinst : inst' = inst := by
      have hleaf : ∀ p u n, (p, u, n) ∈ rawLeaves instT inst → (p, u, n) ∈ rawLeaves instT inst' := by
        intro p u n hp
        obtain ⟨t, m, hm, hcc⟩ := h.entries _ (hinstE p u n hp)
        rw [hkey] at hm
        rcases List.mem_append.mp hm with hm | hm
        · obtain ⟨⟨p', t', m'⟩, hl, hm⟩ := List.mem_map.mp hm
          simp only [Prod.mk.injEq, List.cons.injEq, true_and] at hm
          obtain ⟨rfl, rfl, rfl⟩ := hm
          have : u = t' := VF.eq_of_fst (VF.types_nodup instT hwt) (VF.mem_types hi hp) (VF.mem_types har.1 hl)
          subst this
          rw [← cst_is (leaves_lt hwt hi hp) hcc]
          exact hl
        · obtain ⟨kt, hk, hm⟩ := List.mem_map.mp hm
          simp only [Prod.mk.injEq, List.cons.injEq] at hm
          exact absurd (List.mem_map_of_mem (f := (·.1)) hk) (by rw [hm.1.1]; exact nA.1)
      let ρ : RPath → Nat := fun p => (((rawLeaves instT inst').lookup p).map (·.2)).getD 0
      have hρ : ∀ p u n, (p, u, n) ∈ rawLeaves instT inst' → ρ p % 2 ^ width u = n := by
        intro p u n hp
        have := VF.lookup_of_mem' (VF.leaves_nodup hwt har.1) hp
        simp only [ρ, this, Option.map_some, Option.getD_some]
        exact Nat.mod_eq_of_lt (leaves_lt hwt har.1 hp)
      rw [← RF.fill_self instT inst' ρ har.1 hρ, ← RF.fill_self instT inst ρ hi (fun p u n hp => hρ p u n (hleaf p u n hp))]
      refine (RF.shape_eq instT inst inst' hwt hbt hi har.1 ?_ ρ).symm
      intro p hp
      obtain ⟨⟨_, u, n⟩, hl, rfl⟩ := List.mem_map.mp hp
      exact List.mem_map.mpr ⟨_, hleaf _ _ _ hl, rfl⟩
    subst hinst
    have e3 : ys = rowOf din (wired src (fieldBits iin us) (fieldBits din ys)) := by
      refine e2.trans (row_congr ?_)
      intro k t hk
      unfold wired
      cases hsk : src k with
      | none => rfl
      | some q' =>
        simp only
        obtain ⟨t', n, hm, hu⟩ := h.entries _ (hdataE k t hk (fun hf => by rw [hfn' k t hk hf] at hsk; cases hsk))
        rw [hsk] at hu
        obtain ⟨u, hu1, hu2⟩ := hu
        rw [hkey] at hm
        rcases List.mem_append.mp hm with hm | hm
        · obtain ⟨l, hl, hm⟩ := List.mem_map.mp hm
          simp only [Prod.mk.injEq, List.cons.injEq] at hm
          exact absurd (List.mem_map_of_mem (f := (·.1)) hk) (by simp only; rw [← hm.1.1]; exact nA.1)
        · obtain ⟨⟨k', t''⟩, hk', hm⟩ := List.mem_map.mp hm
          simp only [Prod.mk.injEq, List.cons.injEq, and_true] at hm
          obtain ⟨rfl, rfl, rfl⟩ := hm
          have : t = t'' := congrArg Prod.snd (List.inj_on_of_nodup_map nA.2 hk hk' rfl)
          subst this
          have hq' := hS.typed k' t q' hk hsk
          rw [e1, keyi] at hu1
          obtain ⟨⟨q'', u'⟩, hq'', hm⟩ := List.mem_map.mp hu1
          simp only [Prod.mk.injEq, List.cons.injEq, and_true] at hm
          obtain ⟨rfl, rfl, hm⟩ := hm
          have : t = u' := congrArg Prod.snd (List.inj_on_of_nodup_map nIn hq' hq'' rfl)
          subst this
          exact hm.symm
    obtain ⟨⟨k, t⟩, hk, he⟩ := List.mem_map.mp hq
    simp only [Prod.mk.injEq, Option.map_eq_some_iff] at he
    obtain ⟨⟨q', hq', rfl⟩, rfl⟩ := he
    rw [e1] at hbi
    rw [e3] at hba
    have hzy : AllowedData pb.cons din (fieldBits din ys) := by
      intro k t hk cs hcs
      obtain ⟨c, hc, hA⟩ := hdataC k t hk (hfree.mpr ⟨k, t, rfl, hk, cs, hcs⟩)
      obtain ⟨t', n, hm, hu⟩ := h.entries _ hc
      obtain ⟨m, hm1, t'', ht'', hCI⟩ := hA cs hcs
      rw [hkey] at hm
      rcases List.mem_append.mp hm with hm | hm
      · obtain ⟨l, hl, hm⟩ := List.mem_map.mp hm
        simp only [Prod.mk.injEq, List.cons.injEq] at hm
        exact absurd (List.mem_map_of_mem (f := (·.1)) hk) (by simp only; rw [← hm.1.1]; exact nA.1)
      · obtain ⟨⟨k', u⟩, hk', hm⟩ := List.mem_map.mp hm
        simp only [Prod.mk.injEq, List.cons.injEq, and_true] at hm
        obtain ⟨rfl, rfl, rfl⟩ := hm
        have : t = u := congrArg Prod.snd (List.inj_on_of_nodup_map nA.2 hk hk' rfl)
        subst this
        have : t'' = t := VF.eq_of_fst (VF.types_nodup _ S.arch_in.1) ht'' (data_leaf hs hk)
        subst this
        exact ⟨m, hm1, const_inj hu hCI⟩
    have hfn' := hfn (fieldBits iin us) (fieldBits din ys) F ρi ρa hzy hbi hba k (List.mem_map_of_mem (f := (·.1)) hk) q' hq'
    rw [← e1, ← e3] at hfn'
    obtain ⟨_, _, _, _, hi1, hi2, hi3⟩ := S.ir_fn
    obtain ⟨_, _, _, _, ha1, ha2, ha3⟩ := S.arch_fn
    obtain ⟨wi, ew1, ew2, _⟩ := hi3 us (pb.ir.bbOuts ρi) h.ir
    obtain ⟨wa, ew3, ew4, _⟩ := ha3 (inst' :: ys) (pb.arch.bbOuts ρa) h.arch
    rw [ew1, ew3] at hfn'
    refine ⟨t, t, prodBits iout (.prod wi) q', ?_, ?_⟩
    · rw [ew1]
      rw [eOut] at ew2 ⊢
      exact (bits_prod hs.iout_flat nOut _ ew2).mpr ⟨hO.typed k t q' hk hq', rfl⟩
    · rw [ew3]
      rw [aOut] at ew4 ⊢
      exact (bits_prod hs.dout_flat nAo _ ew4).mpr ⟨hk, hfn'.symm⟩

end InM
end Peak
