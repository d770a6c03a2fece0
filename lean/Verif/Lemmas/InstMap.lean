import Verif.Spec.InstMap
import Verif.Lemmas.Shapes
import Verif.Props.SimpleFormula
import Verif.Props.SimplifyBinding
import Mathlib.Data.List.Pairwise
/-!
# Mappings and instructions

For architectures with one `Const` input and flat data, the mappings are the choices of an instruction and of a wiring.
-/

namespace Peak.InM
open Peak Peak.Spec

theorem leaves_lt {t : Ty} (hw : WF t) {r : RVal} (hr : RHas t r) {p : RPath} {u : Ty} {n : Nat} (h : (p, u, n) ∈ rawLeaves t r) : n < 2 ^ width u := by
  rw [← VF.bitsAt_raw t r hw hr p u n h]
  exact VF.bitsAt_lt t hw _ (SB.code_lt t r hw hr) p u (VF.mem_types hr h)

theorem flat_cons {k : Key} {t : Ty} {fs : Fields} (h : FlatFields (.cons k t fs)) : VF.IsLeaf t ∧ FlatFields fs := by
  refine ⟨?_, fun k' t' h' => h k' t' (by simp [Fields.toList, h'])⟩
  have := h k t (by simp [Fields.toList])
  cases t with
  | bv c w => exact .inl ⟨c, w, rfl⟩
  | bit c => exact .inr (.inl ⟨c, rfl⟩)
  | enum c ms => exact .inr (.inr ⟨c, ms, rfl⟩)
  | prod _ _ => exact this.elim
  | sum _ _ => exact this.elim

theorem leaf_leaves {t : Ty} (h : VF.IsLeaf t) (n : Nat) : rawLeaves t (.leaf n) = [([], t, n)] := by
  rcases h with ⟨c, w, rfl⟩ | ⟨c, rfl⟩ | ⟨c, ms, rfl⟩ <;> rfl

theorem leaf_has {t : Ty} (h : VF.IsLeaf t) {r : RVal} : RHas t r ↔ ∃ n, r = .leaf n ∧ n < 2 ^ width t := by
  constructor
  · intro hr
    rcases h with ⟨c, w, rfl⟩ | ⟨c, rfl⟩ | ⟨c, ms, rfl⟩ <;> cases r <;> simp only [RHas] at hr <;> exact ⟨_, rfl, hr⟩
  · rintro ⟨n, rfl, hn⟩
    rcases h with ⟨c, w, rfl⟩ | ⟨c, rfl⟩ | ⟨c, ms, rfl⟩ <;> exact hn

theorem leaf_types {t : Ty} (h : VF.IsLeaf t) (p : RPath) : leafTypes t p = [(p, t)] := by
  rcases h with ⟨c, w, rfl⟩ | ⟨c, rfl⟩ | ⟨c, ms, rfl⟩ <;> simp [leafTypes]

theorem flat_types : ∀ {fs : Fields}, FlatFields fs → leafTypesF fs [] = fs.toList.map (fun kt => ([kt.1], kt.2))
  | .nil, _ => rfl
  | .cons k t fs, h => by
    obtain ⟨h1, h2⟩ := flat_cons h
    simp only [leafTypesF, Fields.toList, List.map_cons, List.nil_append, leaf_types h1, flat_types h2, List.singleton_append]

theorem row_has : ∀ {fs : Fields}, FlatFields fs → ∀ x, RHasAll fs (rowOf fs x)
  | .nil, _, _ => trivial
  | .cons _ _ _, h, x => ⟨(leaf_has (flat_cons h).1).mpr ⟨_, rfl, Nat.mod_lt _ (Nat.two_pow_pos _)⟩, row_has (flat_cons h).2 x⟩

theorem row_leaves : ∀ {fs : Fields}, FlatFields fs → ∀ x, rawLeavesAll fs (rowOf fs x) = fs.toList.map (fun kt => ([kt.1], kt.2, x kt.1 % 2 ^ width kt.2))
  | .nil, _, _ => rfl
  | .cons k t fs, h, x => by
    obtain ⟨h1, h2⟩ := flat_cons h
    simp only [rowOf, rawLeavesAll, leaf_leaves h1, List.map_cons, List.map_nil, List.singleton_append, Fields.toList, row_leaves h2]

theorem row_congr : ∀ {fs : Fields} {x y : Key → Nat}, (∀ k t, (k, t) ∈ fs.toList → x k % 2 ^ width t = y k % 2 ^ width t) → rowOf fs x = rowOf fs y
  | .nil, _, _, _ => rfl
  | .cons k t fs, x, y, h => by
    simp only [rowOf]
    rw [h k t (by simp [Fields.toList]), row_congr (fun k' t' h' => h k' t' (by simp [Fields.toList, h']))]

/-- Values of flat fields are rows. -/
theorem row_of_has : ∀ {fs : Fields} {vs : List RVal}, FlatFields fs → (fs.toList.map (·.1)).Nodup → RHasAll fs vs → vs = rowOf fs (fieldBits fs vs)
  | .nil, [], _, _, _ => rfl
  | .nil, _ :: _, _, _, h => by simp [RHasAll] at h
  | .cons .., [], _, _, h => by simp [RHasAll] at h
  | .cons k t fs, v :: vs, hf, hn, h => by
    obtain ⟨h1, h2⟩ := flat_cons hf
    obtain ⟨n, rfl, hlt⟩ := (leaf_has h1).mp h.1
    simp only [Fields.toList, List.map_cons, List.nodup_cons] at hn
    have ih := row_of_has h2 hn.2 h.2
    simp only [rowOf, fieldBits, if_true, Nat.mod_eq_of_lt hlt]
    rw [row_congr (fs := fs) (y := fieldBits fs vs), ← ih]
    intro k' t' h'
    have : k' ≠ k := fun e => hn.1 (e ▸ List.mem_map_of_mem (f := (·.1)) h')
    simp only [if_neg this]

theorem bits_row : ∀ {fs : Fields} {x : Key → Nat} {k : Key} {t : Ty}, (fs.toList.map (·.1)).Nodup → (k, t) ∈ fs.toList → fieldBits fs (rowOf fs x) k = x k % 2 ^ width t
  | .nil, _, _, _, _, h => by simp [Fields.toList] at h
  | .cons k' t' fs, x, k, t, hn, h => by
    simp only [Fields.toList, List.map_cons, List.nodup_cons, List.mem_cons, Prod.mk.injEq] at hn h
    simp only [rowOf, fieldBits]
    rcases h with ⟨rfl, rfl⟩ | h
    · rw [if_pos rfl]
    · have : k ≠ k' := fun e => hn.1 (e ▸ List.mem_map_of_mem (f := (·.1)) h)
      rw [if_neg this, bits_row hn.2 h]

/-- The leaves of flat fields. -/
theorem bits_leaf {fs : Fields} {vs : List RVal} (hf : FlatFields fs) (hn : (fs.toList.map (·.1)).Nodup) (h : RHasAll fs vs) {k : Key} {t : Ty} {n : Nat} :
    ([k], t, n) ∈ rawLeavesAll fs vs ↔ (k, t) ∈ fs.toList ∧ n = fieldBits fs vs k := by
  have e := row_of_has hf hn h
  constructor
  · intro hm
    rw [e, row_leaves hf] at hm
    obtain ⟨⟨k', t'⟩, h1, h2⟩ := List.mem_map.mp hm
    simp only [Prod.mk.injEq, List.cons.injEq, and_true] at h2
    obtain ⟨rfl, rfl, rfl⟩ := h2
    refine ⟨h1, ?_⟩
    conv_rhs => rw [e]
    rw [bits_row hn h1]
  · rintro ⟨hk, rfl⟩
    rw [e, row_leaves hf]
    refine List.mem_map.mpr ⟨(k, t), hk, ?_⟩
    simp only [Prod.mk.injEq, true_and]
    rw [bits_row hn hk]

theorem const_iff {k0 : Key} {p : RPath} : IsConst [[k0]] p ↔ ∃ q, p = k0 :: q := by
  constructor
  · rintro ⟨c, hc, q, rfl⟩
    simp only [List.mem_singleton] at hc
    subst hc
    exact ⟨q, rfl⟩
  · rintro ⟨q, rfl⟩
    exact ⟨[k0], by simp, q, rfl⟩

variable {B K : Type} [DecidableEq B] {P : Process} {pb : MapPb B K} {fi fa : Fn B} {inW : K → List Nat} {k0 : Key} {instT : Ty} {iin iout din dout : Fields}

omit [DecidableEq B] in
theorem outs_nil {o : PeakObj B K} (h : o.bbs = []) (ρ : B → Nat → Nat) : o.bbOuts ρ = [] := by
  simp [PeakObj.bbOuts, h]

theorem bits_prod {fs : Fields} {vs : List RVal} (hf : FlatFields fs) (hn : (fs.toList.map (·.1)).Nodup) (c : Nat) (h : RHas (.prod c fs) (.prod vs)) {k : Key} {t : Ty} {n : Nat} :
    ([k], t, n) ∈ rawLeaves (.prod c fs) (.prod vs) ↔ (k, t) ∈ fs.toList ∧ n = prodBits fs (.prod vs) k :=
  bits_leaf hf hn h

omit [DecidableEq B] in
theorem to_boxes (hs : InstProblem pb k0 instT iin iout din dout) : BoxProblem pb k0 instT iin iout din dout :=
  ⟨hs.ir_in, hs.ir_out, hs.arch_in, hs.arch_out, hs.iin_flat, hs.iout_flat, hs.din_flat, hs.dout_flat, hs.ir_const, hs.arch_const, hs.cons⟩

omit [DecidableEq B] in
theorem to_cons (hs : BoxProblem pb k0 instT iin iout din dout) : ConsProblem pb k0 instT iin iout din dout :=
  ⟨hs.ir_in, hs.ir_out, hs.arch_in, hs.arch_out, hs.iin_flat, hs.iout_flat, hs.din_flat, hs.dout_flat, hs.ir_const, hs.arch_const, by simp [hs.cons], by simp [hs.cons]⟩

/-- Without constraints there is nothing to obey. -/
theorem cons_nil (hs : BoxProblem pb k0 instT iin iout din dout) :
    CanComputeCons P.asm pb fi fa k0 instT iin iout din dout ↔ CanComputeBoxes P.asm pb.ir pb.arch fi fa instT iin iout din dout := by
  simp [CanComputeCons, CanComputeBoxes, Obeys, hs.cons]

theorem const_inj {c : RConst} {t : Ty} {n m : Nat} (h1 : ConstIs c t n) (h2 : ConstIs c t m) : n = m := by
  cases c with
  | bits b => exact h1.2.2.symm.trans h2.2.2
  | bit b => exact h1.2.symm.trans h2.2

/-- Without black boxes nothing is said about them. -/
theorem boxes_nil (hs : InstProblem pb k0 instT iin iout din dout) {inst : RVal} {src out : Key → Option Key} :
    ComputesWithBoxes pb.ir pb.arch fi fa iin iout din dout inst src out ↔ ComputesWith fi fa iin iout din dout inst src out := by
  have e1 := outs_nil hs.ir_bbs
  have e2 := outs_nil hs.arch_bbs
  refine and_congr Iff.rfl (and_congr Iff.rfl ⟨fun h x z => ?_, fun h x z F ρi ρa _ _ => ?_⟩)
  · have := h x z (fun _ _ => []) (fun _ _ => 0) (fun _ _ => 0) (by simp [BoxesCompute, hs.ir_bbs]) (by simp [BoxesCompute, hs.arch_bbs])
    rw [e1, e2] at this
    exact this
  · rw [e1, e2]
    exact h x z

/-- A rule of the mapper is a choice of an instruction and of a wiring. -/
theorem choice_of_rule_cons (S : Setup P pb.ir pb.arch fi fa inW) (hs : ConsProblem pb k0 instT iin iout din dout) {r : RRule} (hM : IsMapping P.asm pb r)
    (hC : RuleCorrect pb.ir pb.arch fi fa r) : CanComputeCons P.asm pb fi fa k0 instT iin iout din dout := by
  obtain ⟨ri, vs, hrel, hval⟩ := hM.input
  obtain ⟨ci, eIn⟩ := hs.ir_in
  obtain ⟨co, eOut⟩ := hs.ir_out
  obtain ⟨ca, aIn⟩ := hs.arch_in
  obtain ⟨cb, aOut⟩ := hs.arch_out
  have nIn : (iin.toList.map (·.1)).Nodup := by have := S.ir_in.1; rw [eIn] at this; exact this.1
  have nOut : (iout.toList.map (·.1)).Nodup := by have := S.ir_out.1; rw [eOut] at this; exact this.1
  have nA : k0 ∉ din.toList.map (·.1) ∧ (din.toList.map (·.1)).Nodup := by
    have := S.arch_in.1; rw [aIn] at this; simpa [Fields.toList] using this.1
  have nAo : (dout.toList.map (·.1)).Nodup := by have := S.arch_out.1; rw [aOut] at this; exact this.1
  have harch := hrel.arch
  rw [aIn] at harch
  match vs, hrel, hval, harch with
  | inst :: ys0, hrel, hval, harch =>
  have hi : RHas instT inst := harch.1
  -- paths
  have key : ∀ y, rawLeaves pb.arch.inT (.prod (inst :: rowOf din y)) =
      (rawLeaves instT inst).map (fun l => (k0 :: l.1, l.2)) ++ din.toList.map (fun kt => ([kt.1], kt.2, y kt.1 % 2 ^ width kt.2)) := by
    intro y
    rw [aIn]
    simp only [rawLeaves, rawLeavesAll, row_leaves hs.din_flat]
  have e0 := row_of_has hs.din_flat nA.2 harch.2
  have hpaths : ∀ y, (r.ib.map (·.2)).Perm ((rawLeaves pb.arch.inT (.prod (inst :: rowOf din y))).map (·.1)) := by
    intro y
    have := hrel.arch_paths
    rw [e0, key] at this
    rw [key]
    simpa [List.map_append, List.map_map, Function.comp_def] using this
  have keyi : ∀ x, rawLeaves pb.ir.inT (.prod (rowOf iin x)) = iin.toList.map (fun kt => ([kt.1], kt.2, x kt.1 % 2 ^ width kt.2)) := by
    intro x
    rw [eIn]
    simp only [rawLeaves, row_leaves hs.iin_flat]
  have hri : ∃ x0, ri = .prod (rowOf iin x0) := by
    have := hrel.ir
    rw [eIn] at this
    cases ri with
    | leaf _ => simp [RHas] at this
    | sum _ _ => simp [RHas] at this
    | prod us => exact ⟨_, congrArg RVal.prod (row_of_has hs.iin_flat nIn this)⟩
  obtain ⟨x0, rfl⟩ := hri
  have hirp : ∀ x, (irSources r.ib).Perm ((rawLeaves pb.ir.inT (.prod (rowOf iin x))).map (·.1)) := by
    intro x
    have := hrel.ir_paths
    rw [keyi] at this
    rw [keyi]
    simpa [List.map_map, Function.comp_def] using this
  have hnd : (r.ib.map (·.2)).Nodup := by
    rw [hrel.arch_paths.nodup_iff]
    exact VF.leaves_nodup S.arch_in.1 hrel.arch
  have huniq : ∀ e e', e ∈ r.ib → e' ∈ r.ib → e.2 = e'.2 → e = e' := fun e e' h h' => List.inj_on_of_nodup_map hnd h h'
  have hsrc : (irSources r.ib).Nodup := by
    rw [hrel.ir_paths.nodup_iff]
    exact VF.leaves_nodup S.ir_in.1 hrel.ir
  have honce : ∀ q p p', (RSrc.path q, p) ∈ r.ib → (RSrc.path q, p') ∈ r.ib → p = p' := by
    intro q p p' h h'
    by_contra hne
    unfold irSources List.Nodup at hsrc
    rw [List.pairwise_filterMap] at hsrc
    have : Std.Symm (fun (a a' : RSrc × RPath) => ∀ b, (match a.1 with | .path q => some q | _ => none) = some b →
        ∀ b', (match a'.1 with | .path q => some q | _ => none) = some b' → b ≠ b') :=
      ⟨fun _ _ hab b hb b' hb' => (hab b' hb' b hb).symm⟩
    exact hsrc.forall h h' (by simpa using hne) q rfl q rfl rfl
  have hpath : ∀ p ∈ r.ib.map (·.2), (∃ l ∈ rawLeaves instT inst, p = k0 :: l.1) ∨ ∃ k t, (k, t) ∈ din.toList ∧ p = [k] := by
    intro p hp
    have := (hpaths (fun _ => 0)).subset hp
    rw [key] at this
    simp only [List.map_append, List.map_map, List.mem_append, List.mem_map, Function.comp_def] at this
    rcases this with ⟨l, h1, h2⟩ | ⟨kt, h1, h2⟩
    · exact .inl ⟨l, h1, h2.symm⟩
    · exact .inr ⟨kt.1, kt.2, h1, h2.symm⟩
  have hbound : ∀ q p, (RSrc.path q, p) ∈ r.ib → ∃ q' k t, q = [q'] ∧ p = [k] ∧ (q', t) ∈ iin.toList ∧ (k, t) ∈ din.toList := by
    intro q p h
    obtain ⟨_, hc, t, h1, h2⟩ := hM.bound q p h
    have hnc : ¬ IsConst pb.archConst p := by
      intro h'
      obtain ⟨c, hc, _⟩ := hc.mpr h'
      rw [hs.ir_const] at hc
      cases hc
    rw [eIn] at h1
    simp only [leafTypes, flat_types hs.iin_flat, List.mem_map, Prod.mk.injEq] at h1
    obtain ⟨⟨q', t'⟩, g1, rfl, rfl⟩ := h1
    rw [hs.arch_const, const_iff] at hnc
    rw [aIn] at h2
    simp only [leafTypes] at h2
    rw [VF.typesF_cons] at h2
    rcases List.mem_append.mp h2 with h2 | h2
    · obtain ⟨l, _, hl⟩ := List.mem_map.mp h2
      exact absurd ⟨l.1, (congrArg Prod.fst hl).symm⟩ hnc
    · rw [flat_types hs.din_flat] at h2
      obtain ⟨⟨k, t''⟩, g2, hl⟩ := List.mem_map.mp h2
      simp only [Prod.mk.injEq] at hl
      obtain ⟨rfl, rfl⟩ := hl
      exact ⟨q', k, t'', rfl, rfl, g1, g2⟩
  -- the wiring
  let src : Key → Option Key := fun k => (r.ib.find? (fun e => e.2 == [k])).bind (fun e => match e.1 with | .path [q] => some q | _ => none)
  have src_iff : ∀ k q, src k = some q ↔ (RSrc.path [q], [k]) ∈ r.ib := by
    intro k q
    constructor
    · intro h
      obtain ⟨⟨s, p⟩, h1, h2⟩ := Option.bind_eq_some_iff.mp h
      have h3 := List.find?_some h1
      have h4 := List.mem_of_find?_eq_some h1
      simp only [beq_iff_eq] at h3
      subst h3
      simp only at h2
      split at h2
      · cases h2
        exact h4
      · cases h2
    · intro h
      cases hf : r.ib.find? (fun e => e.2 == [k]) with
      | none =>
        have := List.find?_eq_none.mp hf _ h
        simp at this
      | some e =>
        have h3 := List.find?_some hf
        have h4 := List.mem_of_find?_eq_some hf
        simp only [beq_iff_eq] at h3
        have := huniq _ _ h4 h h3
        subst this
        simp only [src, hf, Option.bind_some]
  obtain ⟨f, hR, hf⟩ := hM.outs
  rw [aOut, eOut] at hf
  rw [aOut] at hR
  simp only [leafTypes, flat_types hs.dout_flat, flat_types hs.iout_flat] at hf hR
  let out : Key → Option Key := fun k => (f [k]).bind (fun p => match p with | [q] => some q | _ => none)
  have out_iff : ∀ k q, out k = some q ↔ f [k] = some [q] := by
    intro k q
    constructor
    · intro h
      obtain ⟨p, h1, h2⟩ := Option.bind_eq_some_iff.mp h
      split at h2
      · cases h2; exact h1
      · cases h2
    · intro h
      simp only [out, h, Option.bind_some]
  refine ⟨inst, src, out, hi, ?_, ?_, ⟨?_, ?_⟩, ⟨?_, ?_⟩, ?_⟩
  · refine hval ca _ aIn k0 _ (by simp [inputDict]) (by rw [hs.arch_const]; simp)
  · intro p t n hp cs hcs
    have hmem : (k0 :: p, t, n) ∈ rawLeaves pb.arch.inT (.prod (inst :: ys0)) := by
      rw [e0, key]
      exact List.mem_append.mpr (.inl (List.mem_map.mpr ⟨_, hp, rfl⟩))
    obtain ⟨⟨s, _⟩, he, rfl⟩ := List.mem_map.mp (hrel.arch_paths.symm.subset (List.mem_map_of_mem (f := (·.1)) hmem))
    have hct : IsConst pb.archConst (k0 :: p) := by rw [hs.arch_const, const_iff]; exact ⟨p, rfl⟩
    cases s with
    | path q => exact absurd hcs ((hM.bound q _ he).1 cs)
    | unbound => exact absurd hct (hM.unbound _ he).1
    | const c =>
      obtain ⟨m, hm, t', ht', h1⟩ := (hM.const c _ he).2 cs hcs
      obtain ⟨t'', n', hn', h2⟩ := hrel.entries _ he
      have e : (t'', n') = (t, n) := VF.eq_of_fst (VF.leaves_nodup S.arch_in.1 hrel.arch) hn' hmem
      obtain ⟨rfl, rfl⟩ := Prod.mk.inj e
      have : t' = t'' := VF.eq_of_fst (VF.types_nodup _ S.arch_in.1) ht' (VF.mem_types hrel.arch hmem)
      subst this
      exact ⟨m, hm, const_inj h2 h1⟩
  · intro k t q hk hq
    obtain ⟨q', k', t', h1, h2, h3, h4⟩ := hbound _ _ ((src_iff k q).mp hq)
    cases h1; cases h2
    have : t = t' := congrArg Prod.snd (List.inj_on_of_nodup_map nA.2 hk h4 rfl)
    rw [this]; exact h3
  · intro q t hq
    have : [q] ∈ irSources r.ib := (hirp (fun _ => 0)).symm.subset (by rw [keyi]; exact List.mem_map.mpr ⟨_, List.mem_map.mpr ⟨_, hq, rfl⟩, rfl⟩)
    obtain ⟨⟨s, p⟩, h1, h2⟩ := List.mem_filterMap.mp this
    cases s with
    | unbound => cases h2
    | const _ => cases h2
    | path q' =>
      cases h2
      obtain ⟨q'', k, t', e1, rfl, h3, h4⟩ := hbound _ _ h1
      refine ⟨k, List.mem_map_of_mem (f := (·.1)) h4, (src_iff k q).mpr h1, ?_⟩
      intro k' _ hk'
      have := honce _ _ _ ((src_iff k' q).mp hk') h1
      simpa using this
  · intro k t q hk hq
    have := hf.typed [k] t [q] (List.mem_map.mpr ⟨_, hk, rfl⟩) ((out_iff k q).mp hq)
    obtain ⟨⟨q', t'⟩, h1, h2⟩ := List.mem_map.mp this
    simp only [Prod.mk.injEq, List.cons.injEq, and_true] at h2
    obtain ⟨rfl, rfl⟩ := h2
    exact h1
  · intro q t hq
    obtain ⟨p, h1, h2, h3⟩ := hf.once [q] t (List.mem_map.mpr ⟨_, hq, rfl⟩)
    simp only [List.map_map, List.mem_map, Function.comp_def] at h1
    obtain ⟨kt, h4, rfl⟩ := h1
    refine ⟨kt.1, List.mem_map_of_mem (f := (·.1)) h4, (out_iff _ _).mpr h2, ?_⟩
    intro k' hk' hq'
    obtain ⟨kt', h5, rfl⟩ := List.mem_map.mp hk'
    have := h3 [kt'.1] (by simp only [List.map_map, List.mem_map, Function.comp_def]; exact ⟨kt', h5, rfl⟩) ((out_iff _ _).mp hq')
    simpa using this
  · intro x z F ρi ρa hbi hba k hk q hq
    obtain ⟨⟨k, t⟩, hkt, rfl⟩ := List.mem_map.mp hk
    simp only at hq ⊢
    have hrel' : Related pb.ir.inT pb.arch.inT r.ib (.prod (rowOf iin x)) (.prod (inst :: rowOf din (wired src x z))) := by
      refine ⟨?_, ?_, hpaths _, hirp _, ?_⟩
      · rw [eIn]; exact row_has hs.iin_flat x
      · rw [aIn]; exact ⟨hi, row_has hs.din_flat _⟩
      · rintro ⟨s, p⟩ he
        rcases hpath p (List.mem_map.mpr ⟨_, he, rfl⟩) with ⟨l, hl, rfl⟩ | ⟨k', t', hk', rfl⟩
        · obtain ⟨t1, n, hm, hc⟩ := hrel.entries _ he
          refine ⟨t1, n, ?_, ?_⟩
          · rw [key]
            rw [e0, key] at hm
            rcases List.mem_append.mp hm with hm | hm
            · exact List.mem_append.mpr (.inl hm)
            · obtain ⟨kt, h1, h2⟩ := List.mem_map.mp hm
              simp only [Prod.mk.injEq, List.cons.injEq] at h2
              exact absurd (List.mem_map_of_mem (f := (·.1)) h1) (by rw [h2.1.1]; exact nA.1)
          · cases s with
            | const cc => exact hc
            | unbound => trivial
            | path q' =>
              obtain ⟨_, k', t', _, h2, _, h4⟩ := hbound _ _ he
              simp only [List.cons.injEq] at h2
              exact absurd (List.mem_map_of_mem (f := (·.1)) h4) (by simp only; rw [← h2.1]; exact nA.1)
        · refine ⟨t', wired src x z k' % 2 ^ width t', ?_, ?_⟩
          · rw [key]
            exact List.mem_append.mpr (.inr (List.mem_map.mpr ⟨_, hk', rfl⟩))
          · cases s with
            | unbound => trivial
            | const cc =>
              have := (hM.const cc _ he).1
              rw [hs.arch_const, const_iff] at this
              obtain ⟨_, h⟩ := this
              simp only [List.cons.injEq] at h
              exact absurd (List.mem_map_of_mem (f := (·.1)) hk') (by simp only; rw [h.1]; exact nA.1)
            | path q' =>
              obtain ⟨q'', k'', t'', rfl, h2, h3, h4⟩ := hbound _ _ he
              cases h2
              have ht : t' = t'' := congrArg Prod.snd (List.inj_on_of_nodup_map nA.2 hk' h4 rfl)
              subst ht
              refine ⟨t', ?_, ?_⟩
              · rw [keyi]
                refine List.mem_map.mpr ⟨_, h3, ?_⟩
                simp only [wired, (src_iff k' q'').mpr he]
              · have := hs.din_flat _ _ hk'
                cases t' with
                | bv _ _ => rfl
                | bit _ => trivial
                | enum _ _ => rfl
                | prod _ _ => exact this.elim
                | sum _ _ => exact this.elim
    have hob : (some [q], [k]) ∈ r.ob := by
      obtain ⟨e, h1, h2⟩ := List.mem_map.mp (hR.1.symm.subset (List.mem_map.mpr ⟨_, List.mem_map.mpr ⟨_, hkt, rfl⟩, rfl⟩))
      have h3 := hR.2 e h1
      simp only at h2
      rw [h2, (out_iff k q).mp hq] at h3
      have : e = (some [q], [k]) := Prod.ext h3 h2
      rw [← this]; exact h1
    obtain ⟨t1, u1, n, g1, g2⟩ := hC _ _ hrel' F ρi ρa hbi hba _ _ hob
    obtain ⟨_, _, _, _, hi1, hi2, hi3⟩ := S.ir_fn
    obtain ⟨_, _, _, _, ha1, ha2, ha3⟩ := S.arch_fn
    obtain ⟨wi, ew1, ew2, _⟩ := hi3 (rowOf iin x) (pb.ir.bbOuts ρi) hrel'.ir
    obtain ⟨wa, ew3, ew4, _⟩ := ha3 (inst :: rowOf din (wired src x z)) (pb.arch.bbOuts ρa) hrel'.arch
    rw [ew1] at g1 ⊢
    rw [ew3] at g2 ⊢
    rw [eOut] at g1 ew2
    rw [aOut] at g2 ew4
    rw [← ((bits_prod hs.iout_flat nOut _ ew2).mp g1).2, ← ((bits_prod hs.dout_flat nAo _ ew4).mp g2).2]

/-- The constant a rule gives for `n` in a leaf of type `t`. -/
def cst : Ty → Nat → RConst
  | .bit _, n => .bit (n != 0)
  | t, n => .bits (BV.ofNat (width t) n)

theorem cst_is {t : Ty} {n : Nat} (h : n < 2 ^ width t) {m : Nat} (ht : ConstIs (cst t n) t m) : m = n := by
  cases t with
  | bit c =>
    obtain ⟨_, h2⟩ := ht
    simp only [width, Nat.pow_one] at h
    rw [← h2]
    have : n = 0 ∨ n = 1 := by omega
    rcases this with rfl | rfl <;> rfl
  | _ =>
    obtain ⟨_, _, h3⟩ := ht
    rw [← h3]
    exact Nat.mod_eq_of_lt h

theorem cst_ok {t : Ty} {n : Nat} (h : n < 2 ^ width t) : ConstIs (cst t n) t n := by
  cases t with
  | bit c =>
    refine ⟨⟨c, rfl⟩, ?_⟩
    simp only [width, Nat.pow_one] at h
    have : n = 0 ∨ n = 1 := by omega
    rcases this with rfl | rfl <;> rfl
  | _ => exact ⟨by simp, rfl, Nat.mod_eq_of_lt h⟩

/-- Where the rule takes a data input from. -/
def rsrc : Option Key → RSrc
  | some q => .path [q]
  | none => .unbound

/-- The rule of an instruction and a wiring. -/
def mkRule (k0 : Key) (instT : Ty) (din dout : Fields) (inst : RVal) (src out : Key → Option Key) : RRule :=
  ⟨(rawLeaves instT inst).map (fun l => (.const (cst l.2.1 l.2.2), k0 :: l.1)) ++ din.toList.map (fun kt => (rsrc (src kt.1), [kt.1])),
    dout.toList.map (fun kt => ((out kt.1).map ([·]), [kt.1]))⟩

theorem sources_eq {inst : RVal} {src out : Key → Option Key} : irSources (mkRule k0 instT din dout inst src out).ib =
    din.toList.filterMap (fun kt => (src kt.1).map ([·])) := by
  simp only [irSources, mkRule, List.filterMap_append, List.filterMap_map, Function.comp_def]
  rw [List.filterMap_eq_nil_iff.mpr (by simp)]
  simp only [List.nil_append]
  apply List.filterMap_congr
  intro kt _
  cases src kt.1 <;> rfl

theorem same_leaf {t : Ty} (h : VF.IsLeaf t) : SameKind t t := by
  rcases h with ⟨c, w, rfl⟩ | ⟨c, rfl⟩ | ⟨c, ms, rfl⟩
  · rfl
  · trivial
  · rfl

theorem flat_mem {fs : Fields} (h : FlatFields fs) {k : Key} {t : Ty} (hk : (k, t) ∈ fs.toList) : VF.IsLeaf t := by
  have := h k t hk
  cases t with
  | bv c w => exact .inl ⟨c, w, rfl⟩
  | bit c => exact .inr (.inl ⟨c, rfl⟩)
  | enum c ms => exact .inr (.inr ⟨c, ms, rfl⟩)
  | prod _ _ => exact this.elim
  | sum _ _ => exact this.elim

/-- An instruction and a wiring are a rule of the mapper. -/
theorem rule_of_choice_cons (S : Setup P pb.ir pb.arch fi fa inW) (hs : ConsProblem pb k0 instT iin iout din dout) {inst : RVal} {src out : Key → Option Key}
    (hi : RHas instT inst) (hval : isValidAV P.asm (mkAV instT (rawCode instT inst)) = .ok true) (hob : Obeys pb.cons k0 instT inst) (hc : ComputesWithBoxes pb.ir pb.arch fi fa iin iout din dout inst src out) :
    IsMapping P.asm pb (mkRule k0 instT din dout inst src out) ∧ RuleCorrect pb.ir pb.arch fi fa (mkRule k0 instT din dout inst src out) := by
  obtain ⟨ci, eIn⟩ := hs.ir_in
  obtain ⟨co, eOut⟩ := hs.ir_out
  obtain ⟨ca, aIn⟩ := hs.arch_in
  obtain ⟨cb, aOut⟩ := hs.arch_out
  obtain ⟨hS, hO, hfn⟩ := hc
  have nIn : (iin.toList.map (·.1)).Nodup := by have := S.ir_in.1; rw [eIn] at this; exact this.1
  have nOut : (iout.toList.map (·.1)).Nodup := by have := S.ir_out.1; rw [eOut] at this; exact this.1
  have nA : k0 ∉ din.toList.map (·.1) ∧ (din.toList.map (·.1)).Nodup := by
    have := S.arch_in.1; rw [aIn] at this; simpa [Fields.toList] using this.1
  have nAo : (dout.toList.map (·.1)).Nodup := by have := S.arch_out.1; rw [aOut] at this; exact this.1
  have hwt : WF instT := by have := S.arch_in.1; rw [aIn] at this; exact this.2.1
  have hbt : Buildable instT := by have := S.arch_in.2; rw [aIn] at this; exact this.2.2.1
  have key : ∀ i y, rawLeaves pb.arch.inT (.prod (i :: rowOf din y)) =
      (rawLeaves instT i).map (fun l => (k0 :: l.1, l.2)) ++ din.toList.map (fun kt => ([kt.1], kt.2, y kt.1 % 2 ^ width kt.2)) := by
    intro i y
    rw [aIn]
    simp only [rawLeaves, rawLeavesAll, row_leaves hs.din_flat]
  have keyi : ∀ x, rawLeaves pb.ir.inT (.prod (rowOf iin x)) = iin.toList.map (fun kt => ([kt.1], kt.2, x kt.1 % 2 ^ width kt.2)) := by
    intro x
    rw [eIn]
    simp only [rawLeaves, row_leaves hs.iin_flat]
  have hrel : Related pb.ir.inT pb.arch.inT (mkRule k0 instT din dout inst src out).ib (.prod (rowOf iin (fun _ => 0)))
      (.prod (inst :: rowOf din (wired src (fun _ => 0) (fun _ => 0)))) := by
    refine ⟨?_, ?_, ?_, ?_, ?_⟩
    · rw [eIn]; exact row_has hs.iin_flat _
    · rw [aIn]; exact ⟨hi, row_has hs.din_flat _⟩
    · rw [key]
      simp only [mkRule, List.map_append, List.map_map, Function.comp_def]
      exact List.Perm.refl _
    · rw [sources_eq, keyi, List.map_map]
      simp only [Function.comp_def]
      rw [List.perm_ext_iff_of_nodup]
      · intro p
        simp only [List.mem_filterMap, List.mem_map, Option.map_eq_some_iff]
        constructor
        · rintro ⟨⟨k, t⟩, hk, q, hq, rfl⟩
          exact ⟨(q, t), hS.typed k t q hk hq, rfl⟩
        · rintro ⟨⟨q, t⟩, hq, rfl⟩
          obtain ⟨k, hk, h2, _⟩ := hS.once q t hq
          obtain ⟨kt, h3, rfl⟩ := List.mem_map.mp hk
          exact ⟨kt, h3, q, h2, rfl⟩
      · unfold List.Nodup
        rw [List.pairwise_filterMap]
        have := nA.2
        unfold List.Nodup at this
        rw [List.pairwise_map] at this
        refine this.imp_of_mem ?_
        intro a a' ha ha' hne b hb b' hb' e
        subst e
        rw [Option.map_eq_some_iff] at hb hb'
        obtain ⟨q, hq, rfl⟩ := hb
        obtain ⟨q', hq', e⟩ := hb'
        simp only [List.cons.injEq, and_true] at e
        subst e
        obtain ⟨k, hk, h2, h3⟩ := hS.once _ _ (hS.typed _ _ _ ha hq)
        exact hne ((h3 _ (List.mem_map_of_mem (f := (·.1)) ha) hq).trans (h3 _ (List.mem_map_of_mem (f := (·.1)) ha') hq').symm)
      · have : (iin.toList.map (fun x => [x.1])) = (iin.toList.map (·.1)).map (fun k => [k]) := by rw [List.map_map]; rfl
        rw [this]
        exact nIn.map (fun a b h => by simpa using h)
    · intro e he
      rcases List.mem_append.mp he with he | he
      · obtain ⟨⟨p, t, n⟩, hl, rfl⟩ := List.mem_map.mp he
        refine ⟨t, n, ?_, cst_ok (leaves_lt hwt hi hl)⟩
        rw [key]
        exact List.mem_append.mpr (.inl (List.mem_map.mpr ⟨_, hl, rfl⟩))
      · obtain ⟨⟨k, t⟩, hk, rfl⟩ := List.mem_map.mp he
        refine ⟨t, wired src (fun _ => 0) (fun _ => 0) k % 2 ^ width t, ?_, ?_⟩
        · rw [key]
          exact List.mem_append.mpr (.inr (List.mem_map.mpr ⟨_, hk, rfl⟩))
        · simp only
          cases hq : src k with
          | none => trivial
          | some q =>
            refine ⟨t, ?_, same_leaf (flat_mem hs.din_flat hk)⟩
            rw [keyi]
            refine List.mem_map.mpr ⟨(q, t), hS.typed k t q hk hq, ?_⟩
            simp only [wired, hq]
  have hnc : ∀ k t, (k, t) ∈ din.toList → ¬ IsConst pb.archConst [k] := by
    intro k t hk h
    rw [hs.arch_const, const_iff] at h
    obtain ⟨_, h⟩ := h
    simp only [List.cons.injEq] at h
    exact nA.1 (h.1 ▸ List.mem_map_of_mem (f := (·.1)) hk)
  have hnf : ∀ k t, (k, t) ∈ din.toList → ∀ cs, ([k], cs) ∉ pb.cons := by
    intro k t hk cs h
    obtain ⟨_, q, _, h, _⟩ := hs.cons _ _ h
    simp only [List.cons.injEq] at h
    exact nA.1 (h.1 ▸ List.mem_map_of_mem (f := (·.1)) hk)
  refine ⟨⟨⟨_, _, hrel, ?_⟩, ?_, ?_, ?_, ?_⟩, ?_⟩
  · intro c fs e k x hx hk
    rw [aIn] at e
    cases e
    rw [hs.arch_const] at hk
    simp only [List.mem_singleton, List.cons.injEq, and_true] at hk
    subst hk
    simp only [inputDict, List.mem_cons, Prod.mk.injEq, true_and] at hx
    rcases hx with rfl | hx
    · exact hval
    · have : ∀ (fs : Fields) vs, (k, x) ∈ inputDict fs vs → k ∈ fs.toList.map (·.1) := by
        intro fs vs
        induction vs generalizing fs with
        | nil => cases fs <;> simp [inputDict]
        | cons v vs ih =>
          cases fs with
          | nil => simp [inputDict]
          | cons k' t' fs =>
            simp only [inputDict, List.mem_cons, Prod.mk.injEq, Fields.toList, List.map_cons]
            rintro (⟨h, _⟩ | h)
            · exact .inl h
            · exact .inr (ih _ h)
      exact absurd (this _ _ hx) nA.1
  · refine ⟨fun p => match p with | [k] => (out k).map ([·]) | _ => none, ⟨?_, ?_⟩, ⟨?_, ?_⟩⟩
    · rw [aOut]
      simp only [leafTypes, flat_types hs.dout_flat, mkRule, List.map_map, Function.comp_def]
      exact List.Perm.refl _
    · intro e he
      obtain ⟨kt, hk, rfl⟩ := List.mem_map.mp he
      rfl
    · intro p t i hp hi
      rw [aOut] at hp
      simp only [leafTypes, flat_types hs.dout_flat, List.mem_map, Prod.mk.injEq] at hp
      obtain ⟨⟨k, t'⟩, hk, rfl, rfl⟩ := hp
      simp only [Option.map_eq_some_iff] at hi
      obtain ⟨q, hq, rfl⟩ := hi
      rw [eOut]
      simp only [leafTypes, flat_types hs.iout_flat, List.mem_map]
      exact ⟨(q, t'), hO.typed k t' q hk hq, rfl⟩
    · intro i t hi
      rw [eOut] at hi
      simp only [leafTypes, flat_types hs.iout_flat, List.mem_map, Prod.mk.injEq] at hi
      obtain ⟨⟨q, t'⟩, hq, rfl, rfl⟩ := hi
      obtain ⟨k, hk, h2, h3⟩ := hO.once q t' hq
      rw [aOut]
      simp only [leafTypes, flat_types hs.dout_flat, List.map_map, Function.comp_def]
      obtain ⟨kt, h4, rfl⟩ := List.mem_map.mp hk
      refine ⟨[kt.1], List.mem_map.mpr ⟨kt, h4, rfl⟩, by simp [h2], ?_⟩
      intro a ha haq
      obtain ⟨kt', h5, rfl⟩ := List.mem_map.mp ha
      simp only [Option.map_eq_some_iff, List.cons.injEq, and_true, exists_eq_right] at haq
      rw [h3 _ (List.mem_map_of_mem (f := (·.1)) h5) haq]
  · intro q p h
    rcases List.mem_append.mp h with h | h
    · obtain ⟨l, _, h⟩ := List.mem_map.mp h
      cases h
    · obtain ⟨⟨k, t⟩, hk, h⟩ := List.mem_map.mp h
      simp only [Prod.mk.injEq] at h
      obtain ⟨h1, rfl⟩ := h
      refine ⟨hnf k t hk, ?_⟩
      cases hq : src k with
      | none => rw [hq] at h1; cases h1
      | some q' =>
        rw [hq] at h1
        cases h1
        refine ⟨⟨(fun ⟨c, hc, _⟩ => by rw [hs.ir_const] at hc; cases hc), fun h => absurd h (hnc k t hk)⟩, t, ?_, ?_⟩
        · rw [eIn]
          simp only [leafTypes, flat_types hs.iin_flat]
          exact List.mem_map.mpr ⟨_, hS.typed k t q' hk hq, rfl⟩
        · rw [aIn]
          simp only [leafTypes]
          rw [VF.typesF_cons, flat_types hs.din_flat]
          exact List.mem_append.mpr (.inr (List.mem_map.mpr ⟨_, hk, rfl⟩))
  · intro c p h
    rw [hs.arch_const, const_iff]
    rcases List.mem_append.mp h with h | h
    · obtain ⟨⟨p', t, n⟩, hl, h⟩ := List.mem_map.mp h
      simp only [Prod.mk.injEq, RSrc.const.injEq] at h
      obtain ⟨rfl, rfl⟩ := h
      refine ⟨⟨_, rfl⟩, fun cs hcs => ?_⟩
      obtain ⟨m, hm, e⟩ := hob _ _ _ hl cs hcs
      refine ⟨m, hm, t, ?_, ?_⟩
      · refine VF.mem_types hrel.arch (n := n) ?_
        rw [key]
        exact List.mem_append.mpr (.inl (List.mem_map.mpr ⟨_, hl, rfl⟩))
      · rw [← e]
        exact cst_ok (leaves_lt hwt hi hl)
    · obtain ⟨⟨k, t⟩, hk, h⟩ := List.mem_map.mp h
      cases hq : src k <;> simp [hq, rsrc] at h
  · intro p h
    rcases List.mem_append.mp h with h | h
    · obtain ⟨l, _, h⟩ := List.mem_map.mp h
      cases h
    · obtain ⟨⟨k, t⟩, hk, h⟩ := List.mem_map.mp h
      have := congrArg Prod.snd h
      simp only at this
      rw [← this]
      exact ⟨hnc k t hk, hnf k t hk⟩
  · intro ri ra h F ρi ρa hbi hba q p hq
    have hir := h.ir
    have har := h.arch
    rw [eIn] at hir
    rw [aIn] at har
    match ri, ra, h, hir, har with
    | .prod us, .prod (inst' :: ys), h, hir, har =>
    have e1 := row_of_has hs.iin_flat nIn hir
    have e2 := row_of_has hs.din_flat nA.2 har.2
    have hkey := key inst' (fieldBits din ys)
    rw [← e2] at hkey
    have hinst : inst' = inst := by
      have hleaf : ∀ p u n, (p, u, n) ∈ rawLeaves instT inst → (p, u, n) ∈ rawLeaves instT inst' := by
        intro p u n hp
        obtain ⟨t, m, hm, hcc⟩ := h.entries (.const (cst u n), k0 :: p) (List.mem_append.mpr (.inl (List.mem_map.mpr ⟨_, hp, rfl⟩)))
        rw [hkey] at hm
        rcases List.mem_append.mp hm with hm | hm
        · obtain ⟨⟨p', t', m'⟩, hl, hm⟩ := List.mem_map.mp hm
          simp only [Prod.mk.injEq, List.cons.injEq, true_and] at hm
          obtain ⟨rfl, rfl, rfl⟩ := hm
          have : u = t' := VF.eq_of_fst (VF.types_nodup instT hwt) (VF.mem_types hi hp) (VF.mem_types har.1 hl)
          subst this
          rw [← cst_is (leaves_lt hwt hi hp) hcc]
          exact hl
        · obtain ⟨kt, hk, hm⟩ := List.mem_map.mp hm
          simp only [Prod.mk.injEq, List.cons.injEq] at hm
          exact absurd (List.mem_map_of_mem (f := (·.1)) hk) (by rw [hm.1.1]; exact nA.1)
      let ρ : RPath → Nat := fun p => (((rawLeaves instT inst').lookup p).map (·.2)).getD 0
      have hρ : ∀ p u n, (p, u, n) ∈ rawLeaves instT inst' → ρ p % 2 ^ width u = n := by
        intro p u n hp
        have := VF.lookup_of_mem' (VF.leaves_nodup hwt har.1) hp
        simp only [ρ, this, Option.map_some, Option.getD_some]
        exact Nat.mod_eq_of_lt (leaves_lt hwt har.1 hp)
      rw [← RF.fill_self instT inst' ρ har.1 hρ, ← RF.fill_self instT inst ρ hi (fun p u n hp => hρ p u n (hleaf p u n hp))]
      refine (RF.shape_eq instT inst inst' hwt hbt hi har.1 ?_ ρ).symm
      intro p hp
      obtain ⟨⟨_, u, n⟩, hl, rfl⟩ := List.mem_map.mp hp
      exact List.mem_map.mpr ⟨_, hleaf _ _ _ hl, rfl⟩
    subst hinst
    have e3 : ys = rowOf din (wired src (fieldBits iin us) (fieldBits din ys)) := by
      refine e2.trans (row_congr ?_)
      intro k t hk
      unfold wired
      cases hsk : src k with
      | none => rfl
      | some q' =>
        simp only
        obtain ⟨t', n, hm, hu⟩ := h.entries (rsrc (src k), [k]) (List.mem_append.mpr (.inr (List.mem_map.mpr ⟨_, hk, rfl⟩)))
        rw [hsk] at hu
        obtain ⟨u, hu1, hu2⟩ := hu
        rw [hkey] at hm
        rcases List.mem_append.mp hm with hm | hm
        · obtain ⟨l, hl, hm⟩ := List.mem_map.mp hm
          simp only [Prod.mk.injEq, List.cons.injEq] at hm
          exact absurd (List.mem_map_of_mem (f := (·.1)) hk) (by simp only; rw [← hm.1.1]; exact nA.1)
        · obtain ⟨⟨k', t''⟩, hk', hm⟩ := List.mem_map.mp hm
          simp only [Prod.mk.injEq, List.cons.injEq, and_true] at hm
          obtain ⟨rfl, rfl, rfl⟩ := hm
          have : t = t'' := congrArg Prod.snd (List.inj_on_of_nodup_map nA.2 hk hk' rfl)
          subst this
          have hq' := hS.typed k' t q' hk hsk
          rw [e1, keyi] at hu1
          obtain ⟨⟨q'', u'⟩, hq'', hm⟩ := List.mem_map.mp hu1
          simp only [Prod.mk.injEq, List.cons.injEq, and_true] at hm
          obtain ⟨rfl, rfl, hm⟩ := hm
          have : t = u' := congrArg Prod.snd (List.inj_on_of_nodup_map nIn hq' hq'' rfl)
          subst this
          exact hm.symm
    obtain ⟨⟨k, t⟩, hk, he⟩ := List.mem_map.mp hq
    simp only [Prod.mk.injEq, Option.map_eq_some_iff] at he
    obtain ⟨⟨q', hq', rfl⟩, rfl⟩ := he
    rw [e1] at hbi
    rw [e3] at hba
    have hfn' := hfn (fieldBits iin us) (fieldBits din ys) F ρi ρa hbi hba k (List.mem_map_of_mem (f := (·.1)) hk) q' hq'
    rw [← e1, ← e3] at hfn'
    obtain ⟨_, _, _, _, hi1, hi2, hi3⟩ := S.ir_fn
    obtain ⟨_, _, _, _, ha1, ha2, ha3⟩ := S.arch_fn
    obtain ⟨wi, ew1, ew2, _⟩ := hi3 us (pb.ir.bbOuts ρi) h.ir
    obtain ⟨wa, ew3, ew4, _⟩ := ha3 (inst' :: ys) (pb.arch.bbOuts ρa) h.arch
    rw [ew1, ew3] at hfn'
    refine ⟨t, t, prodBits iout (.prod wi) q', ?_, ?_⟩
    · rw [ew1]
      rw [eOut] at ew2 ⊢
      exact (bits_prod hs.iout_flat nOut _ ew2).mpr ⟨hO.typed k t q' hk hq', rfl⟩
    · rw [ew3]
      rw [aOut] at ew4 ⊢
      exact (bits_prod hs.dout_flat nAo _ ew4).mpr ⟨hk, hfn'.symm⟩

theorem choice_of_rule_boxes (S : Setup P pb.ir pb.arch fi fa inW) (hs : BoxProblem pb k0 instT iin iout din dout) {r : RRule} (hM : IsMapping P.asm pb r)
    (hC : RuleCorrect pb.ir pb.arch fi fa r) : CanComputeBoxes P.asm pb.ir pb.arch fi fa instT iin iout din dout :=
  (cons_nil hs).mp (choice_of_rule_cons S (to_cons hs) hM hC)

theorem rule_of_choice_boxes (S : Setup P pb.ir pb.arch fi fa inW) (hs : BoxProblem pb k0 instT iin iout din dout) {inst : RVal} {src out : Key → Option Key}
    (hi : RHas instT inst) (hval : isValidAV P.asm (mkAV instT (rawCode instT inst)) = .ok true) (hc : ComputesWithBoxes pb.ir pb.arch fi fa iin iout din dout inst src out) :
    IsMapping P.asm pb (mkRule k0 instT din dout inst src out) ∧ RuleCorrect pb.ir pb.arch fi fa (mkRule k0 instT din dout inst src out) :=
  rule_of_choice_cons S (to_cons hs) hi hval (by simp [Obeys, hs.cons]) hc

/-- With constraints: there is a correct mapping if and only if some bits that meet them make the architecture compute the IR instruction. -/
theorem mapping_iff_cons (S : Setup P pb.ir pb.arch fi fa inW) (hs : ConsProblem pb k0 instT iin iout din dout) :
    (∃ r, IsMapping P.asm pb r ∧ RuleCorrect pb.ir pb.arch fi fa r) ↔ CanComputeCons P.asm pb fi fa k0 instT iin iout din dout := by
  constructor
  · rintro ⟨r, hM, hC⟩
    exact choice_of_rule_cons S hs hM hC
  · rintro ⟨inst, src, out, hi, hval, hob, hc⟩
    exact ⟨_, rule_of_choice_cons S hs hi hval hob hc⟩

theorem choice_of_rule (S : Setup P pb.ir pb.arch fi fa inW) (hs : InstProblem pb k0 instT iin iout din dout) {r : RRule} (hM : IsMapping P.asm pb r)
    (hC : RuleCorrect pb.ir pb.arch fi fa r) : CanComputeRaw P.asm fi fa instT iin iout din dout := by
  obtain ⟨inst, src, out, h1, h2, h3⟩ := choice_of_rule_boxes S (to_boxes hs) hM hC
  exact ⟨inst, src, out, h1, h2, (boxes_nil hs).mp h3⟩

theorem rule_of_choice (S : Setup P pb.ir pb.arch fi fa inW) (hs : InstProblem pb k0 instT iin iout din dout) {inst : RVal} {src out : Key → Option Key}
    (hi : RHas instT inst) (hval : isValidAV P.asm (mkAV instT (rawCode instT inst)) = .ok true) (hc : ComputesWith fi fa iin iout din dout inst src out) :
    IsMapping P.asm pb (mkRule k0 instT din dout inst src out) ∧ RuleCorrect pb.ir pb.arch fi fa (mkRule k0 instT din dout inst src out) :=
  rule_of_choice_boxes S (to_boxes hs) hi hval ((boxes_nil hs).mpr hc)

/-- With black boxes: there is a correct mapping if and only if some bits make the architecture compute the IR instruction. -/
theorem mapping_iff_boxes (S : Setup P pb.ir pb.arch fi fa inW) (hs : BoxProblem pb k0 instT iin iout din dout) :
    (∃ r, IsMapping P.asm pb r ∧ RuleCorrect pb.ir pb.arch fi fa r) ↔ CanComputeBoxes P.asm pb.ir pb.arch fi fa instT iin iout din dout := by
  constructor
  · rintro ⟨r, hM, hC⟩
    exact choice_of_rule_boxes S hs hM hC
  · rintro ⟨inst, src, out, hi, hval, hc⟩
    exact ⟨_, rule_of_choice_boxes S hs hi hval hc⟩

/-- There is a correct mapping if and only if some instruction makes the architecture compute the IR instruction. -/
theorem mapping_iff (S : Setup P pb.ir pb.arch fi fa inW) (hs : InstProblem pb k0 instT iin iout din dout) :
    (∃ r, IsMapping P.asm pb r ∧ RuleCorrect pb.ir pb.arch fi fa r) ↔ CanComputeRaw P.asm fi fa instT iin iout din dout := by
  constructor
  · rintro ⟨r, hM, hC⟩
    exact choice_of_rule S hs hM hC
  · rintro ⟨inst, src, out, hi, hval, hc⟩
    exact ⟨_, rule_of_choice S hs hi hval hc⟩

mutual
/-- Bits that spell a value are the bits of that value. -/
theorem raw_of_reads : ∀ (t : Ty) (r : RVal) (v : Val), WF t → RHas t r → Reads t (rawCode t r) v → rawOf t v = r
  | .bv _ w, .leaf n, v, _, h, hr => by
    cases v with
    | bits b =>
      simp only [Reads, rawCode] at hr
      subst hr
      simp only [rawOf, encode, BV.ofNat_val]
      rw [Nat.mod_eq_of_lt (show n < 2 ^ w from h)]
    | _ => simp [Reads] at hr
  | .bit _, .leaf n, v, _, h, hr => by
    cases v with
    | bit b =>
      simp only [Reads, rawCode] at hr
      simp only [RHas, width, Nat.pow_one] at h
      simp only [rawOf, encode, hr, Nat.mod_eq_of_lt h]
    | _ => simp [Reads] at hr
  | .enum _ ms, .leaf n, v, _, h, hr => by
    cases v with
    | enum e =>
      simp only [Reads, rawCode] at hr
      simp only [rawOf, encode, hr, Option.getD_some]
      rw [Nat.mod_eq_of_lt (show n < 2 ^ enumWidth ms from h)]
    | _ => simp [Reads] at hr
  | .prod _ fs, .prod vs, v, hw, h, hr => by
    cases v with
    | prod ws =>
      simp only [rawOf]
      rw [raw_of_readsAll fs vs ws hw.2 h hr]
    | _ => simp [Reads] at hr
  | .sum _ fs, .sum k r, v, hw, h, hr => by
    cases v with
    | sum k' w =>
      simp only [Reads, rawCode] at hr
      have hi := lt_tagBits (VF.index_lt fs k r h)
      rw [Nat.add_mul_mod_self_left, Nat.mod_eq_of_lt hi, Nat.add_mul_div_left _ _ (Nat.two_pow_pos _), Nat.div_eq_of_lt hi, Nat.zero_add] at hr
      obtain ⟨rfl, h2⟩ := raw_of_readsAt fs k r k' w hw.2.2 hw.2.1 h hr
      simp only [rawOf, h2]
    | _ => simp [Reads] at hr
  | .bv _ _, .prod _, _, _, h, _ => by simp [RHas] at h
  | .bv _ _, .sum _ _, _, _, h, _ => by simp [RHas] at h
  | .bit _, .prod _, _, _, h, _ => by simp [RHas] at h
  | .bit _, .sum _ _, _, _, h, _ => by simp [RHas] at h
  | .enum _ _, .prod _, _, _, h, _ => by simp [RHas] at h
  | .enum _ _, .sum _ _, _, _, h, _ => by simp [RHas] at h
  | .prod _ _, .leaf _, _, _, h, _ => by simp [RHas] at h
  | .prod _ _, .sum _ _, _, _, h, _ => by simp [RHas] at h
  | .sum _ _, .leaf _, _, _, h, _ => by simp [RHas] at h
  | .sum _ _, .prod _, _, _, h, _ => by simp [RHas] at h
theorem raw_of_readsAll : ∀ (fs : Fields) (vs : List RVal) (ws : List Val), WFs fs → RHasAll fs vs → ReadsAll fs (rawCodeAll fs vs) ws → rawOfAll fs ws = vs
  | .nil, [], _, _, _, _ => by simp [rawOfAll]
  | .nil, _ :: _, _, _, h, _ => by simp [RHasAll] at h
  | .cons .., [], _, _, h, _ => by simp [RHasAll] at h
  | .cons _ t fs, r :: vs, [], _, _, hr => by simp [ReadsAll] at hr
  | .cons k t fs, r :: vs, w :: ws, hw, h, hr => by
    simp only [ReadsAll, rawCodeAll] at hr
    have hc := SB.code_lt t r hw.1 h.1
    have h1 := (reads_mod t _ (width t) w (Nat.le_refl _)).mpr hr.1
    have h2 := hr.2
    rw [Nat.add_mul_mod_self_left, Nat.mod_eq_of_lt hc] at h1
    rw [Nat.add_mul_div_left _ _ (Nat.two_pow_pos _), Nat.div_eq_of_lt hc, Nat.zero_add] at h2
    simp only [rawOfAll]
    rw [raw_of_reads t r w hw.1 h.1 h1, raw_of_readsAll fs vs ws hw.2 h.2 h2]
theorem raw_of_readsAt : ∀ (fs : Fields) (k : Key) (r : RVal) (k' : Key) (w : Val), WFs fs → (fs.toList.map (·.1)).Nodup → RHasAt fs k r →
    ReadsAt fs (optionIndex fs k) k' (rawCodeAt fs k r) w → k' = k ∧ rawOfAt fs k w = r
  | .nil, _, _, _, _, _, _, h, _ => by simp [RHasAt] at h
  | .cons k0 t fs, k, r, k', w, hw, hn, h, hr => by
    simp only [Fields.toList, List.map_cons, List.nodup_cons] at hn
    simp only [RHasAt, optionIndex, rawCodeAt] at h hr
    by_cases hk : k = k0
    · simp only [if_pos hk, ReadsAt] at h hr
      simp only [rawOfAt, if_pos hk]
      exact ⟨hr.1.trans hk.symm, raw_of_reads t r w hw.1 h hr.2⟩
    · simp only [if_neg hk, ReadsAt] at h hr
      simp only [rawOfAt, if_neg hk]
      exact raw_of_readsAt fs k r k' w hw.2 hn.2 h hr
end

/-- Valid bits are the bits of a value. -/
theorem can_iff (hT : Trusted P instT) : CanComputeRaw P.asm fi fa instT iin iout din dout ↔ CanCompute fi fa instT iin iout din dout := by
  have hw := (hT instT (by simp)).1
  constructor
  · rintro ⟨inst, src, out, hi, hval, hc⟩
    obtain ⟨v, hv⟩ := (hT.valid_iff _ (SB.code_lt _ _ hw hi)).mp hval
    refine ⟨v, src, out, reads_has _ _ _ hv, ?_⟩
    rw [raw_of_reads _ _ _ hw hi hv]
    exact hc
  · rintro ⟨v, src, out, hv, hc⟩
    obtain ⟨h1, h2⟩ := C38_rawOf instT v hw hv
    obtain ⟨h3, h4⟩ := encode_spec _ hw _ hv
    exact ⟨_, src, out, h1, by rw [h2]; exact (hT.valid_iff _ h3).mpr ⟨_, h4⟩, hc⟩

end Peak.InM
