import Verif.Lemmas.InstMap
/-!
# Mapping an IR instruction with `Const` inputs: rules and choices of an instruction and a wiring
-/

namespace Peak
open Peak.Spec

namespace InM
variable {B K : Type} [DecidableEq B] {P : Process} {pb : MapPb B K} {fi fa : Fn B} {inW : K → List Nat} {k0 : Key} {instT : Ty} {iin iout din dout : Fields}

omit [DecidableEq B] in
theorem ir_const_iff (hs : ConstProblem pb k0 instT iin iout din dout) {q : Key} : IsConst pb.irConst [q] ↔ [q] ∈ pb.irConst := by
  constructor
  · rintro ⟨c, hc, h⟩
    obtain ⟨q', rfl⟩ := hs.ir_const c hc
    have : [q'] = [q] := by
      obtain ⟨t, ht⟩ := h
      simp only [List.cons_append, List.nil_append, List.cons.injEq] at ht
      rw [ht.1]
    rw [← this]
    exact hc
  · intro h
    exact ⟨[q], h, List.prefix_refl _⟩

/-- The instruction with the constants in their places exists. -/
theorem holds_exists (hw : WF instT) {inst : RVal} (hi : RHas instT inst) (src : RPath → Option Key) (x : Key → Nat) : ∃ inst', Holds k0 instT src x inst inst' := by
  let ρ : RPath → Nat := fun p => match src (k0 :: p) with
    | some q => x q
    | none => (((rawLeaves instT inst).lookup p).map (·.2)).getD 0
  refine ⟨VF.fill instT inst ρ, (VF.fill_spec instT inst ρ hi).1, ?_⟩
  rw [(VF.fill_spec instT inst ρ hi).2]
  apply List.map_congr_left
  rintro ⟨p, t, n⟩ hp
  simp only [VF.refl, ρ, Prod.mk.injEq, true_and]
  cases hq : src (k0 :: p) with
  | some q => rfl
  | none =>
    simp only [VF.lookup_of_mem' (VF.leaves_nodup hw hi) hp, Option.map_some, Option.getD_some]
    exact Nat.mod_eq_of_lt (leaves_lt hw hi hp)

/-- A rule of the mapper is a choice of an instruction and of a wiring, the one that the rule has. -/
theorem choice_of_rule_src (S : Setup P pb.ir pb.arch fi fa inW) (hs : ConstProblem pb k0 instT iin iout din dout) {r : RRule} (hM : IsMapping P.asm pb r)
    (hC : RuleCorrect pb.ir pb.arch fi fa r) :
    ∃ inst src out, RHas instT inst ∧ isValidAV P.asm (mkAV instT (rawCode instT inst)) = .ok true ∧ Obeys pb.cons k0 instT inst ∧
      ComputesConsts pb fi fa k0 instT iin iout din dout inst src out ∧ (∀ k q, src k = some q ↔ (RSrc.path [q], k) ∈ r.ib) ∧
      (r.ib.map (·.2)).Perm (inputPaths k0 instT din inst) ∧ (∀ k ∈ dout.toList.map (·.1), ∀ q, out k = some q → (some [q], [k]) ∈ r.ob) ∧
      ∃ ri ys, Related pb.ir.inT pb.arch.inT r.ib ri (.prod (inst :: ys)) := by
  obtain ⟨ri, vs, hrel, hval⟩ := hM.input
  obtain ⟨ci, eIn⟩ := hs.ir_in
  obtain ⟨co, eOut⟩ := hs.ir_out
  obtain ⟨ca, aIn⟩ := hs.arch_in
  obtain ⟨cb, aOut⟩ := hs.arch_out
  have nIn : (iin.toList.map (·.1)).Nodup := by have := S.ir_in.1; rw [eIn] at this; exact this.1
  have nOut : (iout.toList.map (·.1)).Nodup := by have := S.ir_out.1; rw [eOut] at this; exact this.1
  have nA : k0 ∉ din.toList.map (·.1) ∧ (din.toList.map (·.1)).Nodup := by
    have := S.arch_in.1; rw [aIn] at this; simpa [Fields.toList] using this.1
  have nAo : (dout.toList.map (·.1)).Nodup := by have := S.arch_out.1; rw [aOut] at this; exact this.1
  have harch := hrel.arch
  rw [aIn] at harch
  match vs, hrel, hval, harch with
  | inst :: ys0, hrel, hval, harch =>
  have hi : RHas instT inst := harch.1
  -- paths
  have keyI : ∀ i y, rawLeaves pb.arch.inT (.prod (i :: rowOf din y)) =
      (rawLeaves instT i).map (fun l => (k0 :: l.1, l.2)) ++ din.toList.map (fun kt => ([kt.1], kt.2, y kt.1 % 2 ^ width kt.2)) := by
    intro i y
    rw [aIn]
    simp only [rawLeaves, rawLeavesAll, row_leaves hs.din_flat]
  have key := keyI inst
  have e0 := row_of_has hs.din_flat nA.2 harch.2
  have hpaths : ∀ y, (r.ib.map (·.2)).Perm ((rawLeaves pb.arch.inT (.prod (inst :: rowOf din y))).map (·.1)) := by
    intro y
    have := hrel.arch_paths
    rw [e0, key] at this
    rw [key]
    simpa [List.map_append, List.map_map, Function.comp_def] using this
  have keyi : ∀ x, rawLeaves pb.ir.inT (.prod (rowOf iin x)) = iin.toList.map (fun kt => ([kt.1], kt.2, x kt.1 % 2 ^ width kt.2)) := by
    intro x
    rw [eIn]
    simp only [rawLeaves, row_leaves hs.iin_flat]
  have hri : ∃ x0, ri = .prod (rowOf iin x0) := by
    have := hrel.ir
    rw [eIn] at this
    cases ri with
    | leaf _ => simp [RHas] at this
    | sum _ _ => simp [RHas] at this
    | prod us => exact ⟨_, congrArg RVal.prod (row_of_has hs.iin_flat nIn this)⟩
  obtain ⟨x0, rfl⟩ := hri
  have hirp : ∀ x, (irSources r.ib).Perm ((rawLeaves pb.ir.inT (.prod (rowOf iin x))).map (·.1)) := by
    intro x
    have := hrel.ir_paths
    rw [keyi] at this
    rw [keyi]
    simpa [List.map_map, Function.comp_def] using this
  have hnd : (r.ib.map (·.2)).Nodup := by
    rw [hrel.arch_paths.nodup_iff]
    exact VF.leaves_nodup S.arch_in.1 hrel.arch
  have huniq : ∀ e e', e ∈ r.ib → e' ∈ r.ib → e.2 = e'.2 → e = e' := fun e e' h h' => List.inj_on_of_nodup_map hnd h h'
  have hsrc : (irSources r.ib).Nodup := by
    rw [hrel.ir_paths.nodup_iff]
    exact VF.leaves_nodup S.ir_in.1 hrel.ir
  have honce : ∀ q p p', (RSrc.path q, p) ∈ r.ib → (RSrc.path q, p') ∈ r.ib → p = p' := by
    intro q p p' h h'
    by_contra hne
    unfold irSources List.Nodup at hsrc
    rw [List.pairwise_filterMap] at hsrc
    have : Std.Symm (fun (a a' : RSrc × RPath) => ∀ b, (match a.1 with | .path q => some q | _ => none) = some b →
        ∀ b', (match a'.1 with | .path q => some q | _ => none) = some b' → b ≠ b') :=
      ⟨fun _ _ hab b hb b' hb' => (hab b' hb' b hb).symm⟩
    exact hsrc.forall h h' (by simpa using hne) q rfl q rfl rfl
  have hpath : ∀ p ∈ r.ib.map (·.2), (∃ l ∈ rawLeaves instT inst, p = k0 :: l.1) ∨ ∃ k t, (k, t) ∈ din.toList ∧ p = [k] := by
    intro p hp
    have := (hpaths (fun _ => 0)).subset hp
    rw [key] at this
    simp only [List.map_append, List.map_map, List.mem_append, List.mem_map, Function.comp_def] at this
    rcases this with ⟨l, h1, h2⟩ | ⟨kt, h1, h2⟩
    · exact .inl ⟨l, h1, h2.symm⟩
    · exact .inr ⟨kt.1, kt.2, h1, h2.symm⟩
  have hbound : ∀ q p, (RSrc.path q, p) ∈ r.ib → ∃ q' t, q = [q'] ∧ (q', t) ∈ iin.toList ∧ (p, t) ∈ leafTypes pb.arch.inT [] ∧ ([q'] ∈ pb.irConst ↔ IsConst pb.archConst p) ∧
      ∀ cs, (p, cs) ∉ pb.cons := by
    intro q p h
    obtain ⟨hn, hc, t, h1, h2⟩ := hM.bound q p h
    rw [eIn] at h1
    simp only [leafTypes, flat_types hs.iin_flat, List.mem_map, Prod.mk.injEq] at h1
    obtain ⟨⟨q', t'⟩, g1, rfl, rfl⟩ := h1
    rw [ir_const_iff hs] at hc
    exact ⟨q', t', rfl, g1, h2, hc, hn⟩
  have hdt : ∀ k t, (k, t) ∈ din.toList → ([k], t) ∈ leafTypes pb.arch.inT [] := by
    intro k t hk
    rw [aIn]
    simp only [leafTypes]
    rw [VF.typesF_cons, flat_types hs.din_flat]
    exact List.mem_append.mpr (.inr (List.mem_map.mpr ⟨_, hk, rfl⟩))
  have hnc : ∀ k t, (k, t) ∈ din.toList → ¬ IsConst pb.archConst [k] := by
    intro k t hk h
    rw [hs.arch_const, const_iff] at h
    obtain ⟨_, h⟩ := h
    simp only [List.cons.injEq] at h
    exact nA.1 (h.1 ▸ List.mem_map_of_mem (f := (·.1)) hk)
  have hic : ∀ p, IsConst pb.archConst (k0 :: p) := fun p => by rw [hs.arch_const, const_iff]; exact ⟨p, rfl⟩
  have hit : ∀ p t n, (p, t, n) ∈ rawLeaves instT inst → (k0 :: p, t) ∈ leafTypes pb.arch.inT [] := by
    intro p t n hp
    refine VF.mem_types hrel.arch (n := n) ?_
    rw [e0, key]
    exact List.mem_append.mpr (.inl (List.mem_map.mpr ⟨_, hp, rfl⟩))
  -- the wiring
  let src : RPath → Option Key := fun k => (r.ib.find? (fun e => e.2 == k)).bind (fun e => match e.1 with | .path [q] => some q | _ => none)
  have src_iff : ∀ k q, src k = some q ↔ (RSrc.path [q], k) ∈ r.ib := by
    intro k q
    constructor
    · intro h
      obtain ⟨⟨s, p⟩, h1, h2⟩ := Option.bind_eq_some_iff.mp h
      have h3 := List.find?_some h1
      have h4 := List.mem_of_find?_eq_some h1
      simp only [beq_iff_eq] at h3
      subst h3
      simp only at h2
      split at h2
      · cases h2
        exact h4
      · cases h2
    · intro h
      cases hf : r.ib.find? (fun e => e.2 == k) with
      | none =>
        have := List.find?_eq_none.mp hf _ h
        simp at this
      | some e =>
        have h3 := List.find?_some hf
        have h4 := List.mem_of_find?_eq_some hf
        simp only [beq_iff_eq] at h3
        have := huniq _ _ h4 h h3
        subst this
        simp only [src, hf, Option.bind_some]
  obtain ⟨f, hR, hf⟩ := hM.outs
  rw [aOut, eOut] at hf
  rw [aOut] at hR
  simp only [leafTypes, flat_types hs.dout_flat, flat_types hs.iout_flat] at hf hR
  let out : Key → Option Key := fun k => (f [k]).bind (fun p => match p with | [q] => some q | _ => none)
  have out_iff : ∀ k q, out k = some q ↔ f [k] = some [q] := by
    intro k q
    constructor
    · intro h
      obtain ⟨p, h1, h2⟩ := Option.bind_eq_some_iff.mp h
      split at h2
      · cases h2; exact h1
      · cases h2
    · intro h
      simp only [out, h, Option.bind_some]
  have hperm : (r.ib.map (·.2)).Perm (inputPaths k0 instT din inst) := by
    refine (hpaths (fun _ => 0)).trans (List.Perm.of_eq ?_)
    rw [key]
    simp only [inputPaths, List.map_append, List.map_map, Function.comp_def]
  refine ⟨inst, src, out, hi, ?_, ?_, ⟨⟨?_, ?_, ?_⟩, ⟨?_, ?_⟩, ?_⟩, src_iff, hperm, ?_, _, ys0, hrel⟩
  · refine hval ca _ aIn k0 _ (by simp [inputDict]) (by rw [hs.arch_const]; simp)
  · intro p t n hp cs hcs
    have hmem : (k0 :: p, t, n) ∈ rawLeaves pb.arch.inT (.prod (inst :: ys0)) := by
      rw [e0, key]
      exact List.mem_append.mpr (.inl (List.mem_map.mpr ⟨_, hp, rfl⟩))
    obtain ⟨⟨s, _⟩, he, rfl⟩ := List.mem_map.mp (hrel.arch_paths.symm.subset (List.mem_map_of_mem (f := (·.1)) hmem))
    have hct : IsConst pb.archConst (k0 :: p) := by rw [hs.arch_const, const_iff]; exact ⟨p, rfl⟩
    cases s with
    | path q => exact absurd hcs ((hM.bound q _ he).1 cs)
    | unbound => exact absurd hct (hM.unbound _ he).1
    | const c =>
      obtain ⟨m, hm, t', ht', h1⟩ := (hM.const c _ he).2 cs hcs
      obtain ⟨t'', n', hn', h2⟩ := hrel.entries _ he
      have e : (t'', n') = (t, n) := VF.eq_of_fst (VF.leaves_nodup S.arch_in.1 hrel.arch) hn' hmem
      obtain ⟨rfl, rfl⟩ := Prod.mk.inj e
      have : t' = t'' := VF.eq_of_fst (VF.types_nodup _ S.arch_in.1) ht' (VF.mem_types hrel.arch hmem)
      subst this
      exact ⟨m, hm, const_inj h2 h1⟩
  · intro p t n q hp hq
    obtain ⟨q', t', h1, h3, h4, h5, h6⟩ := hbound _ _ ((src_iff _ q).mp hq)
    cases h1
    have : t = t' := VF.eq_of_fst (VF.types_nodup _ S.arch_in.1) (hit p t n hp) h4
    rw [this]
    exact ⟨h3, h5.mpr (hic p), h6⟩
  · intro k t q hk hq
    obtain ⟨q', t', h1, h3, h4, h5, h6⟩ := hbound _ _ ((src_iff _ q).mp hq)
    cases h1
    have : t = t' := VF.eq_of_fst (VF.types_nodup _ S.arch_in.1) (hdt k t hk) h4
    rw [this]
    exact ⟨h3, fun h => hnc k t hk (h5.mp h)⟩
  · intro q t hq
    have : [q] ∈ irSources r.ib := (hirp (fun _ => 0)).symm.subset (by rw [keyi]; exact List.mem_map.mpr ⟨_, List.mem_map.mpr ⟨_, hq, rfl⟩, rfl⟩)
    obtain ⟨⟨s, p⟩, h1, h2⟩ := List.mem_filterMap.mp this
    cases s with
    | unbound => cases h2
    | const _ => cases h2
    | path q' =>
      cases h2
      refine ⟨p, ?_, (src_iff p q).mpr h1, ?_⟩
      · rcases hpath p (List.mem_map_of_mem (f := (·.2)) h1) with ⟨l, hl, rfl⟩ | ⟨k, t, hk, rfl⟩
        · exact List.mem_append.mpr (.inl (List.mem_map.mpr ⟨l, hl, rfl⟩))
        · exact List.mem_append.mpr (.inr (List.mem_map.mpr ⟨_, hk, rfl⟩))
      · intro p' _ hp'
        exact honce _ _ _ ((src_iff p' q).mp hp') h1
  · intro k t q hk hq
    have := hf.typed [k] t [q] (List.mem_map.mpr ⟨_, hk, rfl⟩) ((out_iff k q).mp hq)
    obtain ⟨⟨q', t'⟩, h1, h2⟩ := List.mem_map.mp this
    simp only [Prod.mk.injEq, List.cons.injEq, and_true] at h2
    obtain ⟨rfl, rfl⟩ := h2
    exact h1
  · intro q t hq
    obtain ⟨p, h1, h2, h3⟩ := hf.once [q] t (List.mem_map.mpr ⟨_, hq, rfl⟩)
    simp only [List.map_map, List.mem_map, Function.comp_def] at h1
    obtain ⟨kt, h4, rfl⟩ := h1
    refine ⟨kt.1, List.mem_map_of_mem (f := (·.1)) h4, (out_iff _ _).mpr h2, ?_⟩
    intro k' hk' hq'
    obtain ⟨kt', h5, rfl⟩ := List.mem_map.mp hk'
    have := h3 [kt'.1] (by simp only [List.map_map, List.mem_map, Function.comp_def]; exact ⟨kt', h5, rfl⟩) ((out_iff _ _).mp hq')
    simpa using this
  · intro x z inst' F ρi ρa hin hbi hba k hk q hq
    obtain ⟨⟨k, t⟩, hkt, rfl⟩ := List.mem_map.mp hk
    simp only at hq ⊢
    have hrel' : Related pb.ir.inT pb.arch.inT r.ib (.prod (rowOf iin x)) (.prod (inst' :: rowOf din (wired (fun k => src [k]) x z))) := by
      refine ⟨?_, ?_, ?_, hirp _, ?_⟩
      · rw [eIn]; exact row_has hs.iin_flat x
      · rw [aIn]; exact ⟨hin.1, row_has hs.din_flat _⟩
      · refine (hpaths (wired (fun k => src [k]) x z)).trans (List.Perm.of_eq ?_)
        rw [keyI, keyI, hin.2]
        simp only [List.map_append, List.map_map, Function.comp_def]
      · rintro ⟨s, p⟩ he
        rcases hpath p (List.mem_map.mpr ⟨_, he, rfl⟩) with ⟨⟨p, t1, n⟩, hl, rfl⟩ | ⟨k', t', hk', rfl⟩
        · refine ⟨t1, (match src (k0 :: p) with | some q => x q % 2 ^ width t1 | none => n), ?_, ?_⟩
          · rw [keyI, hin.2]
            exact List.mem_append.mpr (.inl (List.mem_map.mpr ⟨_, List.mem_map.mpr ⟨_, hl, rfl⟩, rfl⟩))
          · have hnone : (∀ q, s ≠ .path q) → src (k0 :: p) = none := by
              intro h
              cases hsp : src (k0 :: p) with
              | none => rfl
              | some q' => exact absurd (congrArg Prod.fst (huniq _ _ he ((src_iff _ _).mp hsp) rfl)) (h _)
            cases s with
            | const cc =>
              rw [hnone (by simp)]
              obtain ⟨t2, n2, hm, hc⟩ := hrel.entries _ he
              have hmem : (k0 :: p, t1, n) ∈ rawLeaves pb.arch.inT (.prod (inst :: ys0)) := by
                rw [e0, key]
                exact List.mem_append.mpr (.inl (List.mem_map.mpr ⟨_, hl, rfl⟩))
              have e : (t2, n2) = (t1, n) := VF.eq_of_fst (VF.leaves_nodup S.arch_in.1 hrel.arch) hm hmem
              obtain ⟨rfl, rfl⟩ := Prod.mk.inj e
              exact hc
            | unbound => trivial
            | path q' =>
              obtain ⟨q'', t'', rfl, h3, h4, _⟩ := hbound _ _ he
              have ht : t1 = t'' := VF.eq_of_fst (VF.types_nodup _ S.arch_in.1) (hit p t1 n hl) h4
              subst ht
              rw [(src_iff _ q'').mpr he]
              refine ⟨t1, ?_, same_leaf (flat_mem hs.iin_flat h3)⟩
              rw [keyi]
              exact List.mem_map.mpr ⟨_, h3, rfl⟩
        · refine ⟨t', wired (fun k => src [k]) x z k' % 2 ^ width t', ?_, ?_⟩
          · rw [keyI]
            exact List.mem_append.mpr (.inr (List.mem_map.mpr ⟨_, hk', rfl⟩))
          · cases s with
            | unbound => trivial
            | const cc => exact absurd (hM.const cc _ he).1 (hnc k' t' hk')
            | path q' =>
              obtain ⟨q'', t'', rfl, h3, h4, _⟩ := hbound _ _ he
              have ht : t' = t'' := VF.eq_of_fst (VF.types_nodup _ S.arch_in.1) (hdt k' t' hk') h4
              subst ht
              refine ⟨t', ?_, same_leaf (flat_mem hs.iin_flat h3)⟩
              rw [keyi]
              refine List.mem_map.mpr ⟨_, h3, ?_⟩
              simp only [wired, (src_iff [k'] q'').mpr he]
    have hob : (some [q], [k]) ∈ r.ob := by
      obtain ⟨e, h1, h2⟩ := List.mem_map.mp (hR.1.symm.subset (List.mem_map.mpr ⟨_, List.mem_map.mpr ⟨_, hkt, rfl⟩, rfl⟩))
      have h3 := hR.2 e h1
      simp only at h2
      rw [h2, (out_iff k q).mp hq] at h3
      have : e = (some [q], [k]) := Prod.ext h3 h2
      rw [← this]; exact h1
    obtain ⟨t1, u1, n, g1, g2⟩ := hC _ _ hrel' F ρi ρa hbi hba _ _ hob
    obtain ⟨_, _, _, _, hi1, hi2, hi3⟩ := S.ir_fn
    obtain ⟨_, _, _, _, ha1, ha2, ha3⟩ := S.arch_fn
    obtain ⟨wi, ew1, ew2, _⟩ := hi3 (rowOf iin x) (pb.ir.bbOuts ρi) hrel'.ir
    obtain ⟨wa, ew3, ew4, _⟩ := ha3 (inst' :: rowOf din (wired (fun k => src [k]) x z)) (pb.arch.bbOuts ρa) hrel'.arch
    rw [ew1] at g1 ⊢
    rw [ew3] at g2 ⊢
    rw [eOut] at g1 ew2
    rw [aOut] at g2 ew4
    rw [← ((bits_prod hs.iout_flat nOut _ ew2).mp g1).2, ← ((bits_prod hs.dout_flat nAo _ ew4).mp g2).2]
  · intro k hk q hq
    obtain ⟨⟨k', t⟩, hkt, rfl⟩ := List.mem_map.mp hk
    obtain ⟨e, h1, h2⟩ := List.mem_map.mp (hR.1.symm.subset (List.mem_map.mpr ⟨_, List.mem_map.mpr ⟨_, hkt, rfl⟩, rfl⟩))
    have h3 := hR.2 e h1
    simp only at h2
    rw [h2, (out_iff k' q).mp hq] at h3
    have : e = (some [q], [k']) := Prod.ext h3 h2
    rw [← this]; exact h1

/-- A rule of the mapper is a choice of an instruction and of a wiring. -/
theorem choice_of_rule_consts (S : Setup P pb.ir pb.arch fi fa inW) (hs : ConstProblem pb k0 instT iin iout din dout) {r : RRule} (hM : IsMapping P.asm pb r)
    (hC : RuleCorrect pb.ir pb.arch fi fa r) : CanComputeConsts P.asm pb fi fa k0 instT iin iout din dout := by
  obtain ⟨inst, src, out, h1, h2, h3, h4, _⟩ := choice_of_rule_src S hs hM hC
  exact ⟨inst, src, out, h1, h2, h3, h4⟩

/-- Where the rule takes a leaf of the instruction from. -/
def rleaf : Option Key → Ty → Nat → RSrc
  | some q, _, _ => .path [q]
  | none, t, n => .const (cst t n)

/-- The rule of an instruction and a wiring. -/
def mkRuleK (k0 : Key) (instT : Ty) (din dout : Fields) (inst : RVal) (src : RPath → Option Key) (out : Key → Option Key) : RRule :=
  ⟨(rawLeaves instT inst).map (fun l => (rleaf (src (k0 :: l.1)) l.2.1 l.2.2, k0 :: l.1)) ++ din.toList.map (fun kt => (rsrc (src [kt.1]), [kt.1])),
    dout.toList.map (fun kt => ((out kt.1).map ([·]), [kt.1]))⟩

theorem sources_eqK {inst : RVal} {src : RPath → Option Key} {out : Key → Option Key} : irSources (mkRuleK k0 instT din dout inst src out).ib =
    (inputPaths k0 instT din inst).filterMap (fun p => (src p).map ([·])) := by
  simp only [irSources, mkRuleK, inputPaths, List.filterMap_append, List.filterMap_map, Function.comp_def]
  congr 1
  · apply List.filterMap_congr
    intro l _
    cases src (k0 :: l.1) <;> rfl
  · apply List.filterMap_congr
    intro kt _
    cases src [kt.1] <;> rfl

/-- An instruction and a wiring are a rule of the mapper. -/
theorem rule_of_choice_consts (S : Setup P pb.ir pb.arch fi fa inW) (hs : ConstProblem pb k0 instT iin iout din dout) {inst : RVal} {src : RPath → Option Key} {out : Key → Option Key}
    (hi : RHas instT inst) (hval : isValidAV P.asm (mkAV instT (rawCode instT inst)) = .ok true) (hob : Obeys pb.cons k0 instT inst)
    (hc : ComputesConsts pb fi fa k0 instT iin iout din dout inst src out) :
    IsMapping P.asm pb (mkRuleK k0 instT din dout inst src out) ∧ RuleCorrect pb.ir pb.arch fi fa (mkRuleK k0 instT din dout inst src out) ∧
      ∀ ri vs, Related pb.ir.inT pb.arch.inT (mkRuleK k0 instT din dout inst src out).ib ri (.prod vs) →
        (∀ x inst', Holds k0 instT src x inst inst' → isValidAV P.asm (mkAV instT (rawCode instT inst')) = .ok true) → ConstsValid P.asm pb.arch.inT pb.archConst vs := by
  obtain ⟨ci, eIn⟩ := hs.ir_in
  obtain ⟨co, eOut⟩ := hs.ir_out
  obtain ⟨ca, aIn⟩ := hs.arch_in
  obtain ⟨cb, aOut⟩ := hs.arch_out
  obtain ⟨hS, hO, hfn⟩ := hc
  have nIn : (iin.toList.map (·.1)).Nodup := by have := S.ir_in.1; rw [eIn] at this; exact this.1
  have nOut : (iout.toList.map (·.1)).Nodup := by have := S.ir_out.1; rw [eOut] at this; exact this.1
  have nA : k0 ∉ din.toList.map (·.1) ∧ (din.toList.map (·.1)).Nodup := by
    have := S.arch_in.1; rw [aIn] at this; simpa [Fields.toList] using this.1
  have nAo : (dout.toList.map (·.1)).Nodup := by have := S.arch_out.1; rw [aOut] at this; exact this.1
  have hwt : WF instT := by have := S.arch_in.1; rw [aIn] at this; exact this.2.1
  have hbt : Buildable instT := by have := S.arch_in.2; rw [aIn] at this; exact this.2.2.1
  have key : ∀ i y, rawLeaves pb.arch.inT (.prod (i :: rowOf din y)) =
      (rawLeaves instT i).map (fun l => (k0 :: l.1, l.2)) ++ din.toList.map (fun kt => ([kt.1], kt.2, y kt.1 % 2 ^ width kt.2)) := by
    intro i y
    rw [aIn]
    simp only [rawLeaves, rawLeavesAll, row_leaves hs.din_flat]
  have keyi : ∀ x, rawLeaves pb.ir.inT (.prod (rowOf iin x)) = iin.toList.map (fun kt => ([kt.1], kt.2, x kt.1 % 2 ^ width kt.2)) := by
    intro x
    rw [eIn]
    simp only [rawLeaves, row_leaves hs.iin_flat]
  have nP : (inputPaths k0 instT din inst).Nodup := by
    have := VF.leaves_nodup S.arch_in.1 (r := .prod (inst :: rowOf din (fun _ => 0))) (by rw [aIn]; exact ⟨hi, row_has hs.din_flat _⟩)
    rw [key] at this
    simpa only [inputPaths, List.map_append, List.map_map, Function.comp_def] using this
  have htyped : ∀ p ∈ inputPaths k0 instT din inst, ∀ q, src p = some q → ∃ t, (q, t) ∈ iin.toList := by
    intro p hp q hq
    rcases List.mem_append.mp hp with hp | hp
    · obtain ⟨⟨p', t, n⟩, hl, rfl⟩ := List.mem_map.mp hp
      exact ⟨t, (hS.inst_leaf p' t n q hl hq).1⟩
    · obtain ⟨⟨k, t⟩, hk, rfl⟩ := List.mem_map.mp hp
      exact ⟨t, (hS.data k t q hk hq).1⟩
  let x0 : Key → Nat := fun q => ((rawLeaves instT inst).find? (fun l => src (k0 :: l.1) == some q)).elim 0 (·.2.2)
  have hx0 : ∀ p t n q, (p, t, n) ∈ rawLeaves instT inst → src (k0 :: p) = some q → x0 q = n := by
    intro p t n q hl hq
    simp only [x0]
    cases hf : (rawLeaves instT inst).find? (fun l => src (k0 :: l.1) == some q) with
    | none =>
      have := List.find?_eq_none.mp hf _ hl
      simp [hq] at this
    | some l =>
      have h3 := List.find?_some hf
      have h4 := List.mem_of_find?_eq_some hf
      simp only [beq_iff_eq] at h3
      obtain ⟨_, _, _, hu⟩ := hS.once q t (hS.inst_leaf p t n q hl hq).1
      have e1 := hu (k0 :: p) (List.mem_append.mpr (.inl (List.mem_map.mpr ⟨_, hl, rfl⟩))) hq
      have e2 := hu (k0 :: l.1) (List.mem_append.mpr (.inl (List.mem_map.mpr ⟨_, h4, rfl⟩))) h3
      have e3 : l.1 = p := by
        have := e2.trans e1.symm
        simpa using this
      obtain ⟨l1, l2⟩ := l
      simp only at e3
      subst e3
      have := VF.eq_of_fst (VF.leaves_nodup hwt hi) h4 hl
      rw [this]
      rfl
  have hrel : Related pb.ir.inT pb.arch.inT (mkRuleK k0 instT din dout inst src out).ib (.prod (rowOf iin x0))
      (.prod (inst :: rowOf din (wired (fun k => src [k]) x0 (fun _ => 0)))) := by
    refine ⟨?_, ?_, ?_, ?_, ?_⟩
    · rw [eIn]; exact row_has hs.iin_flat _
    · rw [aIn]; exact ⟨hi, row_has hs.din_flat _⟩
    · rw [key]
      simp only [mkRuleK, List.map_append, List.map_map, Function.comp_def]
      exact List.Perm.refl _
    · rw [sources_eqK, keyi, List.map_map]
      simp only [Function.comp_def]
      rw [List.perm_ext_iff_of_nodup]
      · intro p
        simp only [List.mem_filterMap, List.mem_map, Option.map_eq_some_iff]
        constructor
        · rintro ⟨p', hp, q, hq, rfl⟩
          obtain ⟨t, ht⟩ := htyped p' hp q hq
          exact ⟨(q, t), ht, rfl⟩
        · rintro ⟨⟨q, t⟩, hq, rfl⟩
          obtain ⟨p', hp, h2, _⟩ := hS.once q t hq
          exact ⟨p', hp, q, h2, rfl⟩
      · unfold List.Nodup
        rw [List.pairwise_filterMap]
        refine List.Pairwise.imp_of_mem ?_ nP
        intro a a' ha ha' hne b hb b' hb' e
        subst e
        rw [Option.map_eq_some_iff] at hb hb'
        obtain ⟨q, hq, rfl⟩ := hb
        obtain ⟨q', hq', e⟩ := hb'
        simp only [List.cons.injEq, and_true] at e
        subst e
        obtain ⟨t, ht⟩ := htyped a ha _ hq
        obtain ⟨k, hk, h2, h3⟩ := hS.once _ _ ht
        exact hne ((h3 _ ha hq).trans (h3 _ ha' hq').symm)
      · have : (iin.toList.map (fun x => [x.1])) = (iin.toList.map (·.1)).map (fun k => [k]) := by rw [List.map_map]; rfl
        rw [this]
        exact nIn.map (fun a b h => by simpa using h)
    · intro e he
      rcases List.mem_append.mp he with he | he
      · obtain ⟨⟨p, t, n⟩, hl, rfl⟩ := List.mem_map.mp he
        refine ⟨t, n, ?_, ?_⟩
        · rw [key]
          exact List.mem_append.mpr (.inl (List.mem_map.mpr ⟨_, hl, rfl⟩))
        · simp only
          cases hq : src (k0 :: p) with
          | none => exact cst_ok (leaves_lt hwt hi hl)
          | some q =>
            have hm := (hS.inst_leaf p t n q hl hq).1
            refine ⟨t, ?_, same_leaf (flat_mem hs.iin_flat hm)⟩
            rw [keyi]
            refine List.mem_map.mpr ⟨(q, t), hm, ?_⟩
            simp only [hx0 p t n q hl hq, Nat.mod_eq_of_lt (leaves_lt hwt hi hl)]
      · obtain ⟨⟨k, t⟩, hk, rfl⟩ := List.mem_map.mp he
        refine ⟨t, wired (fun k => src [k]) x0 (fun _ => 0) k % 2 ^ width t, ?_, ?_⟩
        · rw [key]
          exact List.mem_append.mpr (.inr (List.mem_map.mpr ⟨_, hk, rfl⟩))
        · simp only
          cases hq : src [k] with
          | none => trivial
          | some q =>
            refine ⟨t, ?_, same_leaf (flat_mem hs.din_flat hk)⟩
            rw [keyi]
            refine List.mem_map.mpr ⟨(q, t), (hS.data k t q hk hq).1, ?_⟩
            simp only [wired, hq]
  have hnc : ∀ k t, (k, t) ∈ din.toList → ¬ IsConst pb.archConst [k] := by
    intro k t hk h
    rw [hs.arch_const, const_iff] at h
    obtain ⟨_, h⟩ := h
    simp only [List.cons.injEq] at h
    exact nA.1 (h.1 ▸ List.mem_map_of_mem (f := (·.1)) hk)
  have hic : ∀ p, IsConst pb.archConst (k0 :: p) := fun p => by rw [hs.arch_const, const_iff]; exact ⟨p, rfl⟩
  have hnf : ∀ k t, (k, t) ∈ din.toList → ∀ cs, ([k], cs) ∉ pb.cons := by
    intro k t hk cs h
    obtain ⟨_, q, _, h, _⟩ := hs.cons _ _ h
    simp only [List.cons.injEq] at h
    exact nA.1 (h.1 ▸ List.mem_map_of_mem (f := (·.1)) hk)
  have hmatch : ∀ us inst' ys, Related pb.ir.inT pb.arch.inT (mkRuleK k0 instT din dout inst src out).ib (.prod us) (.prod (inst' :: ys)) → Holds k0 instT src (fieldBits iin us) inst inst' := by
    intro us inst' ys h
    have hir := h.ir
    have har := h.arch
    rw [eIn] at hir
    rw [aIn] at har
    have e1 := row_of_has hs.iin_flat nIn hir
    have e2 := row_of_has hs.din_flat nA.2 har.2
    have hkey := key inst' (fieldBits din ys)
    rw [← e2] at hkey
    have hleaf : ∀ p u n, (p, u, n) ∈ rawLeaves instT inst → ∃ m, (p, u, m) ∈ rawLeaves instT inst' ∧ m = match src (k0 :: p) with
        | some q => fieldBits iin us q % 2 ^ width u
        | none => n := by
      intro p u n hp
      obtain ⟨t, m, hm, hcc⟩ := h.entries (rleaf (src (k0 :: p)) u n, k0 :: p) (List.mem_append.mpr (.inl (List.mem_map.mpr ⟨_, hp, rfl⟩)))
      rw [hkey] at hm
      rcases List.mem_append.mp hm with hm | hm
      · obtain ⟨⟨p', t', m'⟩, hl, hm⟩ := List.mem_map.mp hm
        simp only [Prod.mk.injEq, List.cons.injEq, true_and] at hm
        obtain ⟨rfl, rfl, rfl⟩ := hm
        have : u = t' := VF.eq_of_fst (VF.types_nodup instT hwt) (VF.mem_types hi hp) (VF.mem_types har.1 hl)
        subst this
        refine ⟨m', hl, ?_⟩
        simp only at hcc
        cases hq : src (k0 :: p') with
        | none =>
          rw [hq] at hcc
          exact cst_is (leaves_lt hwt hi hp) hcc
        | some q' =>
          rw [hq] at hcc
          obtain ⟨u', hu1, _⟩ := hcc
          have hq' := (hS.inst_leaf p' u n q' hp hq).1
          rw [e1, keyi] at hu1
          obtain ⟨⟨q'', u''⟩, hq'', hm⟩ := List.mem_map.mp hu1
          simp only [Prod.mk.injEq, List.cons.injEq, and_true] at hm
          obtain ⟨rfl, rfl, hm⟩ := hm
          have : u = u'' := congrArg Prod.snd (List.inj_on_of_nodup_map nIn hq' hq'' rfl)
          subst this
          exact hm.symm
      · obtain ⟨kt, hk, hm⟩ := List.mem_map.mp hm
        simp only [Prod.mk.injEq, List.cons.injEq] at hm
        exact absurd (List.mem_map_of_mem (f := (·.1)) hk) (by rw [hm.1.1]; exact nA.1)
    refine ⟨har.1, ?_⟩
    let ρ : RPath → Nat := fun p => (((rawLeaves instT inst').lookup p).map (·.2)).getD 0
    have hρ : ∀ p u n, (p, u, n) ∈ rawLeaves instT inst' → ρ p = n := by
      intro p u n hp
      have := VF.lookup_of_mem' (VF.leaves_nodup hwt har.1) hp
      simp only [ρ, this, Option.map_some, Option.getD_some]
    have hρ' : ∀ p u n, (p, u, n) ∈ rawLeaves instT inst' → ρ p % 2 ^ width u = n := by
      intro p u n hp
      rw [hρ p u n hp]
      exact Nat.mod_eq_of_lt (leaves_lt hwt har.1 hp)
    have e : VF.fill instT inst ρ = inst' := by
      rw [RF.shape_eq instT inst inst' hwt hbt hi har.1 ?_ ρ, RF.fill_self instT inst' ρ har.1 hρ']
      intro p hp
      obtain ⟨⟨_, u, n⟩, hl, rfl⟩ := List.mem_map.mp hp
      obtain ⟨m, hm, _⟩ := hleaf _ _ _ hl
      exact List.mem_map.mpr ⟨_, hm, rfl⟩
    have := (VF.fill_spec instT inst ρ hi).2
    rw [e] at this
    rw [this]
    apply List.map_congr_left
    rintro ⟨p, u, n⟩ hl
    obtain ⟨m, hm, e⟩ := hleaf p u n hl
    simp only [VF.refl]
    rw [hρ' p u m hm]
    exact congrArg (fun m => (p, u, m)) (e.trans (by cases src (k0 :: p) <;> rfl))
  have hfields : ∀ inst' ys, isValidAV P.asm (mkAV instT (rawCode instT inst')) = .ok true → ConstsValid P.asm pb.arch.inT pb.archConst (inst' :: ys) := by
    intro inst' ys hval c fs e k x hx hk
    rw [aIn] at e
    cases e
    rw [hs.arch_const] at hk
    simp only [List.mem_singleton, List.cons.injEq, and_true] at hk
    subst hk
    simp only [inputDict, List.mem_cons, Prod.mk.injEq, true_and] at hx
    rcases hx with rfl | hx
    · exact hval
    · have : ∀ (fs : Fields) vs, (k, x) ∈ inputDict fs vs → k ∈ fs.toList.map (·.1) := by
        intro fs vs
        induction vs generalizing fs with
        | nil => cases fs <;> simp [inputDict]
        | cons v vs ih =>
          cases fs with
          | nil => simp [inputDict]
          | cons k' t' fs =>
            simp only [inputDict, List.mem_cons, Prod.mk.injEq, Fields.toList, List.map_cons]
            rintro (⟨h, _⟩ | h)
            · exact .inl h
            · exact .inr (ih _ h)
      exact absurd (this _ _ hx) nA.1
  refine ⟨⟨⟨_, _, hrel, hfields _ _ hval⟩, ?_, ?_, ?_, ?_⟩, ?_, ?_⟩
  · refine ⟨fun p => match p with | [k] => (out k).map ([·]) | _ => none, ⟨?_, ?_⟩, ⟨?_, ?_⟩⟩
    · rw [aOut]
      simp only [leafTypes, flat_types hs.dout_flat, mkRuleK, List.map_map, Function.comp_def]
      exact List.Perm.refl _
    · intro e he
      obtain ⟨kt, hk, rfl⟩ := List.mem_map.mp he
      rfl
    · intro p t i hp hi
      rw [aOut] at hp
      simp only [leafTypes, flat_types hs.dout_flat, List.mem_map, Prod.mk.injEq] at hp
      obtain ⟨⟨k, t'⟩, hk, rfl, rfl⟩ := hp
      simp only [Option.map_eq_some_iff] at hi
      obtain ⟨q, hq, rfl⟩ := hi
      rw [eOut]
      simp only [leafTypes, flat_types hs.iout_flat, List.mem_map]
      exact ⟨(q, t'), hO.typed k t' q hk hq, rfl⟩
    · intro i t hi
      rw [eOut] at hi
      simp only [leafTypes, flat_types hs.iout_flat, List.mem_map, Prod.mk.injEq] at hi
      obtain ⟨⟨q, t'⟩, hq, rfl, rfl⟩ := hi
      obtain ⟨k, hk, h2, h3⟩ := hO.once q t' hq
      rw [aOut]
      simp only [leafTypes, flat_types hs.dout_flat, List.map_map, Function.comp_def]
      obtain ⟨kt, h4, rfl⟩ := List.mem_map.mp hk
      refine ⟨[kt.1], List.mem_map.mpr ⟨kt, h4, rfl⟩, by simp [h2], ?_⟩
      intro a ha haq
      obtain ⟨kt', h5, rfl⟩ := List.mem_map.mp ha
      simp only [Option.map_eq_some_iff, List.cons.injEq, and_true, exists_eq_right] at haq
      rw [h3 _ (List.mem_map_of_mem (f := (·.1)) h5) haq]
  · intro q p h
    rcases List.mem_append.mp h with h | h
    · obtain ⟨⟨p', t, n⟩, hl, h⟩ := List.mem_map.mp h
      simp only [Prod.mk.injEq] at h
      obtain ⟨h1, rfl⟩ := h
      cases hq : src (k0 :: p') with
      | none => rw [hq] at h1; cases h1
      | some q' =>
        rw [hq] at h1
        cases h1
        obtain ⟨g1, g2, g3⟩ := hS.inst_leaf p' t n q' hl hq
        refine ⟨g3, ⟨fun _ => hic p', fun _ => (ir_const_iff hs).mpr g2⟩, t, ?_, ?_⟩
        · rw [eIn]
          simp only [leafTypes, flat_types hs.iin_flat]
          exact List.mem_map.mpr ⟨_, g1, rfl⟩
        · refine VF.mem_types hrel.arch (n := n) ?_
          rw [key]
          exact List.mem_append.mpr (.inl (List.mem_map.mpr ⟨_, hl, rfl⟩))
    · obtain ⟨⟨k, t⟩, hk, h⟩ := List.mem_map.mp h
      simp only [Prod.mk.injEq] at h
      obtain ⟨h1, rfl⟩ := h
      refine ⟨hnf k t hk, ?_⟩
      cases hq : src [k] with
      | none => rw [hq] at h1; cases h1
      | some q' =>
        rw [hq] at h1
        cases h1
        obtain ⟨g1, g2⟩ := hS.data k t q' hk hq
        refine ⟨⟨(fun h => absurd ((ir_const_iff hs).mp h) g2), fun h => absurd h (hnc k t hk)⟩, t, ?_, ?_⟩
        · rw [eIn]
          simp only [leafTypes, flat_types hs.iin_flat]
          exact List.mem_map.mpr ⟨_, g1, rfl⟩
        · rw [aIn]
          simp only [leafTypes]
          rw [VF.typesF_cons, flat_types hs.din_flat]
          exact List.mem_append.mpr (.inr (List.mem_map.mpr ⟨_, hk, rfl⟩))
  · intro c p h
    rcases List.mem_append.mp h with h | h
    · obtain ⟨⟨p', t, n⟩, hl, h⟩ := List.mem_map.mp h
      simp only [Prod.mk.injEq] at h
      obtain ⟨h1, rfl⟩ := h
      cases hq : src (k0 :: p') with
      | some q => rw [hq] at h1; cases h1
      | none =>
        rw [hq] at h1
        cases h1
        refine ⟨hic p', fun cs hcs => ?_⟩
        obtain ⟨m, hm, e⟩ := hob _ _ _ hl cs hcs
        refine ⟨m, hm, t, ?_, ?_⟩
        · refine VF.mem_types hrel.arch (n := n) ?_
          rw [key]
          exact List.mem_append.mpr (.inl (List.mem_map.mpr ⟨_, hl, rfl⟩))
        · rw [← e]
          exact cst_ok (leaves_lt hwt hi hl)
    · obtain ⟨⟨k, t⟩, hk, h⟩ := List.mem_map.mp h
      cases hq : src [k] <;> simp [hq, rsrc] at h
  · intro p h
    rcases List.mem_append.mp h with h | h
    · obtain ⟨l, _, h⟩ := List.mem_map.mp h
      cases hq : src (k0 :: l.1) <;> simp [hq, rleaf] at h
    · obtain ⟨⟨k, t⟩, hk, h⟩ := List.mem_map.mp h
      have := congrArg Prod.snd h
      simp only at this
      rw [← this]
      exact ⟨hnc k t hk, hnf k t hk⟩
  · intro ri ra h F ρi ρa hbi hba q p hq
    have hir := h.ir
    have har := h.arch
    rw [eIn] at hir
    rw [aIn] at har
    match ri, ra, h, hir, har with
    | .prod us, .prod (inst' :: ys), h, hir, har =>
    have e1 := row_of_has hs.iin_flat nIn hir
    have e2 := row_of_has hs.din_flat nA.2 har.2
    have hkey := key inst' (fieldBits din ys)
    rw [← e2] at hkey
    have hin := hmatch us inst' ys h
    have e3 : ys = rowOf din (wired (fun k => src [k]) (fieldBits iin us) (fieldBits din ys)) := by
      refine e2.trans (row_congr ?_)
      intro k t hk
      cases hsk : src [k] with
      | none => simp only [wired, hsk]
      | some q' =>
        simp only [wired, hsk]
        obtain ⟨t', n, hm, hu⟩ := h.entries (rsrc (src [k]), [k]) (List.mem_append.mpr (.inr (List.mem_map.mpr ⟨_, hk, rfl⟩)))
        rw [hsk] at hu
        obtain ⟨u, hu1, hu2⟩ := hu
        rw [hkey] at hm
        rcases List.mem_append.mp hm with hm | hm
        · obtain ⟨l, hl, hm⟩ := List.mem_map.mp hm
          simp only [Prod.mk.injEq, List.cons.injEq] at hm
          exact absurd (List.mem_map_of_mem (f := (·.1)) hk) (by simp only; rw [← hm.1.1]; exact nA.1)
        · obtain ⟨⟨k', t''⟩, hk', hm⟩ := List.mem_map.mp hm
          simp only [Prod.mk.injEq, List.cons.injEq, and_true] at hm
          obtain ⟨rfl, rfl, rfl⟩ := hm
          have : t = t'' := congrArg Prod.snd (List.inj_on_of_nodup_map nA.2 hk hk' rfl)
          subst this
          have hq' := (hS.data k' t q' hk hsk).1
          rw [e1, keyi] at hu1
          obtain ⟨⟨q'', u'⟩, hq'', hm⟩ := List.mem_map.mp hu1
          simp only [Prod.mk.injEq, List.cons.injEq, and_true] at hm
          obtain ⟨rfl, rfl, hm⟩ := hm
          have : t = u' := congrArg Prod.snd (List.inj_on_of_nodup_map nIn hq' hq'' rfl)
          subst this
          exact hm.symm
    obtain ⟨⟨k, t⟩, hk, he⟩ := List.mem_map.mp hq
    simp only [Prod.mk.injEq, Option.map_eq_some_iff] at he
    obtain ⟨⟨q', hq', rfl⟩, rfl⟩ := he
    rw [e1] at hbi
    rw [e3] at hba
    have hfn' := hfn (fieldBits iin us) (fieldBits din ys) inst' F ρi ρa hin hbi hba k (List.mem_map_of_mem (f := (·.1)) hk) q' hq'
    rw [← e1, ← e3] at hfn'
    obtain ⟨_, _, _, _, hi1, hi2, hi3⟩ := S.ir_fn
    obtain ⟨_, _, _, _, ha1, ha2, ha3⟩ := S.arch_fn
    obtain ⟨wi, ew1, ew2, _⟩ := hi3 us (pb.ir.bbOuts ρi) h.ir
    obtain ⟨wa, ew3, ew4, _⟩ := ha3 (inst' :: ys) (pb.arch.bbOuts ρa) h.arch
    rw [ew1, ew3] at hfn'
    refine ⟨t, t, prodBits iout (.prod wi) q', ?_, ?_⟩
    · rw [ew1]
      rw [eOut] at ew2 ⊢
      exact (bits_prod hs.iout_flat nOut _ ew2).mpr ⟨hO.typed k t q' hk hq', rfl⟩
    · rw [ew3]
      rw [aOut] at ew4 ⊢
      exact (bits_prod hs.dout_flat nAo _ ew4).mpr ⟨hk, hfn'.symm⟩

  · intro ri vs h hv
    have hir := h.ir
    have har := h.arch
    rw [eIn] at hir
    rw [aIn] at har
    match ri, vs, h, hir, har with
    | .prod us, inst' :: ys, h, hir, har => exact hfields _ _ (hv _ _ (hmatch us inst' ys h))

theorem mapping_iff_consts (S : Setup P pb.ir pb.arch fi fa inW) (hs : ConstProblem pb k0 instT iin iout din dout) :
    (∃ r, IsMapping P.asm pb r ∧ RuleCorrect pb.ir pb.arch fi fa r) ↔ CanComputeConsts P.asm pb fi fa k0 instT iin iout din dout := by
  constructor
  · rintro ⟨r, hM, hC⟩
    exact choice_of_rule_consts S hs hM hC
  · rintro ⟨inst, src, out, h1, h2, h3, h4⟩
    obtain ⟨g1, g2, _⟩ := rule_of_choice_consts S hs h1 h2 h3 h4
    exact ⟨_, g1, g2⟩

end InM
end Peak
