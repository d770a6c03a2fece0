import Verif.Spec.IRMapper
import Verif.Lemmas.ValueForms2
import Verif.Props.IndexVar
import Verif.Props.RewriteRule
/-!
# Lemmas for C33
-/

namespace Peak.IM
open Peak Peak.Spec

theorem constAt_iff {cs : List RPath} {p : RPath} : constAt cs p = true ↔ IsConst cs p := by
  simp [constAt, IsConst, List.any_eq_true, List.isPrefixOf_iff_prefix]

theorem mapper_inv {B K : Type} {A : Ty → Except Err AsmObj} {obj : PeakObj B K} {cs : List RPath} {ρ τ : RPath → Nat} {β : B → Nat → Nat} {m : SMap}
    (h : smtMapper A obj cs ρ τ β = .ok m) :
    smtForms A ρ τ obj.inT [] = .ok m.res ∧ List.Forall₂ (fun f row => mapRow A obj cs (obj.bbOuts β) f = .ok row) m.res.forms m.rows :=
  ⟨(ValF.mapper_inv h).1, (ValF.mapper_inv h).2.1⟩

theorem isValid_ok (P : Process) {t : Ty} (hw : WF t) (n : Nat) : ∃ b, isValidAV P.asm (mkAV t n) = .ok b := by
  obtain ⟨o, ho, _⟩ := P.good hw
  cases t <;> simp only [mkAV, isValidAV, ho] <;> exact ⟨_, rfl⟩

theorem dict_nodup {fs : Fields} {vs : List RVal} {c : Nat} (hw : WF (.prod c fs)) (hr : RHasAll fs vs) : ((inputDict fs vs).map (·.1)).Nodup := by
  rw [VF.inputDict_eq, List.map_map]
  have := SB.zipF_names fs vs hr
  simp only [Function.comp_def]
  rw [this]
  exact hw.1

theorem dict_names {fs : Fields} {vs : List RVal} (hr : RHasAll fs vs) : (inputDict fs vs).map (·.1) = fs.toList.map (·.1) := by
  rw [VF.inputDict_eq, List.map_map]
  exact SB.zipF_names fs vs hr

/-- The validity conditions of the `Const` fields. -/
theorem valid_ok (P : Process) {c : Nat} {fs : Fields} {vs : List RVal} {cs : List RPath} (hw : WF (.prod c fs)) (hr : RHas (.prod c fs) (.prod vs)) :
    ∃ valid, exMap (validField P.asm (inputDict fs vs)) (((Ty.prod c fs).fieldDict.map (·.1)).filter (fun k => cs.contains [k])) = .ok valid ∧
      (valid.all id = true ↔ ConstsValid P.asm (.prod c fs) cs vs) ∧ (valid = [] ↔ ∀ k ∈ fs.toList.map (·.1), [k] ∉ cs) := by
  have hn := dict_nodup hw hr
  have hv : ∀ k ∈ (((Ty.prod c fs).fieldDict.map (·.1)).filter (fun k => cs.contains [k])), ∃ x b, (k, x) ∈ inputDict fs vs ∧
      isValidAV P.asm x = .ok b ∧ validField P.asm (inputDict fs vs) k = .ok b := by
    intro k hk
    have hk' : k ∈ (inputDict fs vs).map (·.1) := by rw [dict_names hr]; exact (List.mem_filter.mp hk).1
    obtain ⟨⟨k', x⟩, hx, rfl⟩ := List.mem_map.mp hk'
    have hx' := hx
    rw [VF.inputDict_eq] at hx'
    obtain ⟨z, hz, he⟩ := List.mem_map.mp hx'
    simp only [Prod.mk.injEq] at he
    obtain ⟨i, hi⟩ := List.getElem?_of_mem (SB.zipF_mem fs vs hr z hz).1
    obtain ⟨b, hb⟩ := isValid_ok P (wfs_mem fs hw.2 i _ _ hi) (rawCode z.2.1 z.2.2)
    rw [he.2] at hb
    exact ⟨x, b, hx, hb, by simp only [validField, SB.lookup_of_mem hn hx, hb]⟩
  obtain ⟨valid, h1, h2⟩ := SF.exMap_ok (fun k hk => ⟨_, (hv k hk).choose_spec.choose_spec.2.2⟩)
  refine ⟨valid, h1, ?_, ?_⟩
  · constructor
    · intro hall c' fs' he k x hx hk
      cases he
      have hkm : k ∈ (((Ty.prod c fs).fieldDict.map (·.1)).filter (fun k => cs.contains [k])) := by
        rw [List.mem_filter]
        refine ⟨?_, by simpa using hk⟩
        rw [show (Ty.prod c fs).fieldDict.map (·.1) = fs.toList.map (·.1) from rfl, ← dict_names hr]
        exact List.mem_map.mpr ⟨_, hx, rfl⟩
      obtain ⟨i, hi⟩ := List.getElem?_of_mem hkm
      obtain ⟨b, hb⟩ : ∃ b, valid[i]? = some b := by
        have := h2.length_eq
        obtain ⟨hlt, _⟩ := List.getElem?_eq_some_iff.mp hi
        exact ⟨_, List.getElem?_eq_getElem (this ▸ hlt)⟩
      have hbt : b = true := by
        have := List.all_eq_true.mp hall b (List.mem_of_getElem? hb)
        simpa using this
      have hf := (List.forall₂_iff_get.mp h2).2 i (List.getElem?_eq_some_iff.mp hi).1 (List.getElem?_eq_some_iff.mp hb).1
      simp only [List.get_eq_getElem] at hf
      rw [(List.getElem?_eq_some_iff.mp hi).2, (List.getElem?_eq_some_iff.mp hb).2, hbt] at hf
      simp only [validField, SB.lookup_of_mem hn hx] at hf
      exact hf
    · intro hC
      rw [List.all_eq_true]
      intro b hb
      obtain ⟨i, hi⟩ := List.getElem?_of_mem hb
      obtain ⟨hlt, hbi⟩ := List.getElem?_eq_some_iff.mp hi
      have hlt' := hlt
      rw [← h2.length_eq] at hlt'
      have hf := (List.forall₂_iff_get.mp h2).2 i hlt' hlt
      simp only [List.get_eq_getElem] at hf
      rw [hbi] at hf
      have hmem := List.getElem_mem hlt'
      obtain ⟨x, b', g1, g2, g3⟩ := hv _ hmem
      rw [g3] at hf
      have hk := (List.mem_filter.mp hmem).2
      rw [List.contains_iff_mem] at hk
      rw [hC c fs rfl _ x g1 hk] at g2
      cases g2; cases hf; rfl
  · have hlen := h2.length_eq
    constructor
    · intro hnil k hk hks
      rw [hnil] at hlen
      have : k ∈ ((Ty.prod c fs).fieldDict.map (·.1)).filter (fun k => cs.contains [k]) := List.mem_filter.mpr ⟨hk, by simpa using hks⟩
      rw [List.eq_nil_of_length_eq_zero hlen] at this
      cases this
    · intro h
      have : ((Ty.prod c fs).fieldDict.map (·.1)).filter (fun k => cs.contains [k]) = [] := by
        rw [List.filter_eq_nil_iff]
        intro k hk hks
        exact h k hk (by simpa using hks)
      rw [this] at hlen
      exact List.eq_nil_of_length_eq_zero hlen.symm

/-- What a form whose value is that of a raw input gives. -/
theorem row_sem (P : Process) {B K : Type} {obj : PeakObj B K} {fn : Fn B} (hc : Computes P obj fn) (hin : WF obj.inT)
    (hout : WF obj.outT ∧ Buildable obj.outT ∧ UnionFree obj.outT) {cs : List RPath} {bb : List (B × List BV)} {r : RVal} (hr : RHas obj.inT r)
    {f : SForm} (hv : f.value = mkAV obj.inT (rawCode obj.inT r)) :
    ∃ row vs, r = .prod vs ∧ mapRow P.asm obj cs bb f = .ok row ∧
      row.outs = (rawLeaves obj.outT (fn r bb).1).map (fun l => (l.1, plainAV l.2.1 l.2.2)) ∧ RHas obj.outT (fn r bb).1 ∧
      (row.valid.all id = true ↔ ConstsValid P.asm obj.inT cs vs) := by
  obtain ⟨ci, fi, co, fo, h1, h2, h3⟩ := hc
  obtain ⟨vs, rfl⟩ : ∃ vs, r = .prod vs := by
    rw [h1] at hr
    cases r with
    | leaf _ => simp [RHas] at hr
    | sum _ _ => simp [RHas] at hr
    | prod vs => exact ⟨vs, rfl⟩
  obtain ⟨ws, g1, g2, g3, g4⟩ := h3 vs bb hr
  rw [h1] at hin hr hv
  rw [h2] at hout g2
  obtain ⟨valid, v1, v2, _⟩ := valid_ok P (cs := cs) hin hr
  obtain ⟨res, o, p1, p2, p3⟩ := VF.parse_ok P (tu := obj.tagged) hout.1 hout.2.1 hout.2.2 g2 g3
  refine ⟨⟨valid, (rawLeaves (.prod co fo) (.prod ws)).map (fun l => (l.1, plainAV l.2.1 l.2.2)), 1⟩, vs, rfl, ?_, ?_, ?_, ?_⟩
  · simp only [mapRow, h1, hv, VF.dict_ok P hin hr]
    rw [v1]
    simp only [h2, p1, p2, List.head?_cons, Option.map_some, Option.getD_some, p3, List.length_cons, List.length_nil]
  · rw [h2, g1]
  · rw [h2, g1]; exact g2
  · rw [h1]; exact v2

theorem forall₂_at {α β : Type} {R : α → β → Prop} {l : List α} {m : List β} (h : List.Forall₂ R l m) {i : Nat} {b : β} (hb : m[i]? = some b) :
    ∃ a, l[i]? = some a ∧ R a b := by
  obtain ⟨hlt, hbi⟩ := List.getElem?_eq_some_iff.mp hb
  have hlt' := hlt
  rw [← h.length_eq] at hlt'
  have hf := (List.forall₂_iff_get.mp h).2 i hlt' hlt
  simp only [List.get_eq_getElem] at hf
  rw [hbi] at hf
  exact ⟨_, List.getElem?_eq_getElem hlt', hf⟩

theorem forall₂_at' {α β : Type} {R : α → β → Prop} {l : List α} {m : List β} (h : List.Forall₂ R l m) {i : Nat} {a : α} (ha : l[i]? = some a) :
    ∃ b, m[i]? = some b ∧ R a b := forall₂_at h.flip ha

/-- The form with shape `s`, whose tags are set, and its row. -/
theorem mapper_row (P : Process) {B K : Type} {obj : PeakObj B K} {fn : Fn B} (hc : Computes P obj fn) (hin : WF obj.inT ∧ Buildable obj.inT)
    (hout : WF obj.outT ∧ Buildable obj.outT ∧ UnionFree obj.outT) {cs : List RPath} {ρ τ : RPath → Nat} {β : B → Nat → Nat} (h0 : obj.bbs = []) {m : SMap}
    (h : smtMapper P.asm obj cs ρ τ β = .ok m) {i : Nat} {s : RVal} (hs : (RF.skels obj.inT)[i]? = some s) (ht : RF.tagsOk τ obj.inT [] s = true) :
    ∃ f row, m.res.forms[i]? = some f ∧ m.rows[i]? = some row ∧ formMatches m.res.varmap f = true ∧
      row.outs = (rawLeaves obj.outT (fn (VF.fill obj.inT s ρ) []).1).map (fun l => (l.1, plainAV l.2.1 l.2.2)) ∧
      RHas obj.outT (fn (VF.fill obj.inT s ρ) []).1 ∧
      (row.valid.all id = true ↔ ∀ vs, VF.fill obj.inT s ρ = .prod vs → ConstsValid P.asm obj.inT cs vs) := by
  obtain ⟨h1, h2⟩ := mapper_inv h
  have hraw := RF.raw_ok P ρ τ obj.inT hin.1 hin.2 [] m.res h1
  obtain ⟨f, hf, hF⟩ := forall₂_at hraw hs
  obtain ⟨row, hrow, hR⟩ := forall₂_at' h2 hf
  have hb : RF.below ρ [] = ρ := by funext q; rfl
  have hval := (hF.val ht).1
  rw [hb] at hval
  have hbb : obj.bbOuts β = [] := by simp [PeakObj.bbOuts, h0]
  rw [hbb] at hR
  obtain ⟨row', vs, g1, g2, g3, g4, g5⟩ := row_sem P hc hin.1 hout (cs := cs) (bb := []) (VF.fill_spec _ s ρ hF.has).1 hval
  rw [hR] at g2
  cases g2
  refine ⟨f, row, hf, hrow, by rw [hF.sel, ht], g3, g4, ?_⟩
  rw [g5]
  constructor
  · intro hv vs' he
    rw [g1] at he
    cases he
    exact hv
  · intro hv
    exact hv vs g1

/-- What is wanted of the conjunction for the form with shape `s`, the input binding `ib` and the output binding `ob`. -/
structure Conj {B K : Type} (P : Process) (pb : MapPb B K) (fi fa : Fn B) (bs : Bdgs) (a : MAsg B) (s si : RVal) (i bi bo : Nat) (ib ob : Bdg) : Prop where
  m1 : pb.enc.matchIndex (RF.skels pb.arch.inT).length (ivar pb.enc (RF.skels pb.arch.inT).length a.fi) i = .ok true
  m2 : pb.enc.matchIndex bs.maxIns (ivar pb.enc bs.maxIns a.ib) bi = .ok true
  m3 : pb.enc.matchIndex bs.outs.length (ivar pb.enc bs.outs.length a.ob) bo = .ok true
  tags : RF.tagsOk a.archTag pb.arch.inT [] s = true
  valid : ∀ vs, VF.fill pb.arch.inT s a.arch = .prod vs → ConstsValid P.asm pb.arch.inT pb.archConst vs
  outs : OutputsAgree pb.ir.outT pb.arch.outT ob (fi (VF.fill pb.ir.inT si a.ir) []).1 (fa (VF.fill pb.arch.inT s (substArch ib a).arch) []).1

/-- The leaves of the output binding are of one kind. -/
def Typed (irO archO : Ty) (ob : Bdg) : Prop :=
  ∀ q p, (some q, p) ∈ ob → ∃ t u, (q, t) ∈ leafTypes irO [] ∧ (p, u) ∈ leafTypes archO [] ∧ SameKind t u

theorem match_ok (e : IEnc) (n : Nat) (v : BV) {i : Nat} (h : i < n) : ∃ b, e.matchIndex n v i = .ok b := by
  simp only [IEnc.matchIndex]
  rw [if_pos ⟨by omega, by omega⟩]
  exact ⟨_, rfl⟩

theorem match_lt {e : IEnc} {n : Nat} {v : BV} {i : Nat} {b : Bool} (h : e.matchIndex n v i = .ok b) : i < n := by
  simp only [IEnc.matchIndex] at h
  split at h
  · omega
  · cases h

section
variable {B K : Type} [DecidableEq B] {P : Process} {pb : MapPb B K} {fi fa : Fn B} {inW : K → List Nat}

theorem conj_sem (S : Setup P pb.ir pb.arch fi fa inW) (hu : UnionFree pb.ir.inT) (h0i : pb.ir.bbs = []) (h0a : pb.arch.bbs = []) {bs : Bdgs} {a : MAsg B}
    {am am' im : SMap} {ib ob : Bdg}
    (h1 : smtMapper P.asm pb.arch pb.archConst a.arch a.archTag a.archBB = .ok am)
    (h2 : smtMapper P.asm pb.arch pb.archConst (substArch ib a).arch (substArch ib a).archTag (substArch ib a).archBB = .ok am')
    (h3 : smtMapper P.asm pb.ir pb.irConst a.ir a.irTag a.irBB = .ok im) {s si : RVal} {i bi bo : Nat}
    (hs : (RF.skels pb.arch.inT)[i]? = some s) (hsi : RF.skels pb.ir.inT = [si]) (hbi : bi < bs.maxIns) (hbo : bo < bs.outs.length)
    (hob : Typed pb.ir.outT pb.arch.outT ob) (ht : RF.tagsOk a.archTag pb.arch.inT [] s = true) :
    ∃ b, mapConj P.asm pb bs a (i, bi, bo, ib, ob) = .ok b ∧ (b = true ↔ Conj P pb fi fa bs a s si i bi bo ib ob) := by
  obtain ⟨f, row, f1, f2, f3, f4, f5, f6⟩ := mapper_row P S.arch_fn S.arch_in S.arch_out h0a h1 hs ht
  obtain ⟨f', row', f1', f2', f3', f4', f5', f6'⟩ := mapper_row P S.arch_fn S.arch_in S.arch_out h0a h2 hs ht
  have hsi0 : (RF.skels pb.ir.inT)[0]? = some si := by rw [hsi]; rfl
  obtain ⟨g, irow, g1, g2, g3, g4, g5, g6⟩ := mapper_row P S.ir_fn S.ir_in S.ir_out h0i h3 hsi0 (RF.tags_unionFree _ _ _ _ hu)
  have hlen : am.res.forms.length = (RF.skels pb.arch.inT).length :=
    (RF.raw_ok P _ _ _ S.arch_in.1 S.arch_in.2 _ _ (mapper_inv h1).1).length_eq
  obtain ⟨hil, _⟩ := List.getElem?_eq_some_iff.mp hs
  obtain ⟨b1, e1⟩ := match_ok pb.enc _ (ivar pb.enc (RF.skels pb.arch.inT).length a.fi) hil
  obtain ⟨b2, e2⟩ := match_ok pb.enc _ (ivar pb.enc bs.maxIns a.ib) hbi
  obtain ⟨b3, e3⟩ := match_ok pb.enc _ (ivar pb.enc bs.outs.length a.ob) hbo
  obtain ⟨eqs, e4, _, e5⟩ := VF.outputEqs_raw S.ir_out.1 S.arch_out.1 S.ir_out.2.2 S.arch_out.2.2 g5 f5' hob
  rw [← g4, ← f4'] at e4
  refine ⟨b1 && row.valid.all id && formMatches am.res.varmap f && b2 && b3 && eqs.all id,
    by simp only [mapConj, h1, h2, h3, f1, f2, f2', g2, hlen, e1, e2, e3, e4], ?_⟩
  simp only [Bool.and_eq_true, f3, f6, e5]
  constructor
  · rintro ⟨⟨⟨⟨⟨rfl, hv⟩, _⟩, rfl⟩, rfl⟩, ho⟩
    exact ⟨e1, e2, e3, ht, hv, ho⟩
  · intro h
    have c1 := h.m1; rw [e1] at c1; cases c1
    have c2 := h.m2; rw [e2] at c2; cases c2
    have c3 := h.m3; rw [e3] at c3; cases c3
    exact ⟨⟨⟨⟨⟨rfl, h.valid⟩, trivial⟩, rfl⟩, rfl⟩, h.outs⟩

theorem conj_inv {A : Ty → Except Err AsmObj} {bs : Bdgs} {a : MAsg B} {i bi bo : Nat} {ib ob : Bdg} (h : mapConj A pb bs a (i, bi, bo, ib, ob) = .ok true) :
    ∃ am am' im f, smtMapper A pb.arch pb.archConst a.arch a.archTag a.archBB = .ok am ∧
      smtMapper A pb.arch pb.archConst (substArch ib a).arch (substArch ib a).archTag (substArch ib a).archBB = .ok am' ∧
      smtMapper A pb.ir pb.irConst a.ir a.irTag a.irBB = .ok im ∧ am.res.forms[i]? = some f ∧ formMatches am.res.varmap f = true ∧
      bi < bs.maxIns ∧ bo < bs.outs.length := by
  simp only [mapConj] at h
  split at h
  · next am am' im h1 h2 h3 =>
    split at h
    · next f row row' irow g1 g2 g3 g4 =>
      split at h
      · next m1 m2 m3 eqs k1 k2 k3 k4 =>
        simp only [Except.ok.injEq, Bool.and_eq_true] at h
        exact ⟨am, am', im, f, h1, h2, h3, g1, h.1.1.1.2, match_lt k2, match_lt k3⟩
      all_goals cases h
    · cases h
  all_goals cases h

/-- A conjunction that holds. -/
theorem conj_true (S : Setup P pb.ir pb.arch fi fa inW) (hu : UnionFree pb.ir.inT) (h0i : pb.ir.bbs = []) (h0a : pb.arch.bbs = []) {bs : Bdgs} {a : MAsg B}
    {ib ob : Bdg} {si : RVal} {i bi bo : Nat} (hsi : RF.skels pb.ir.inT = [si]) (hob : Typed pb.ir.outT pb.arch.outT ob)
    (h : mapConj P.asm pb bs a (i, bi, bo, ib, ob) = .ok true) :
    ∃ s, (RF.skels pb.arch.inT)[i]? = some s ∧ Conj P pb fi fa bs a s si i bi bo ib ob := by
  obtain ⟨am, am', im, f, h1, h2, h3, hf, hm, hbi, hbo⟩ := conj_inv h
  have hraw := RF.raw_ok P _ _ _ S.arch_in.1 S.arch_in.2 _ _ (mapper_inv h1).1
  obtain ⟨s, hs, hF⟩ := forall₂_at' hraw hf
  have ht : RF.tagsOk a.archTag pb.arch.inT [] s = true := by rw [← hF.sel]; exact hm
  obtain ⟨b, hb, hb2⟩ := conj_sem S hu h0i h0a h1 h2 h3 hs hsi hbi hbo hob ht
  rw [hb] at h
  cases h
  exact ⟨s, hs, hb2.mp rfl⟩

end

/-! ## the bindings -/

/-- The bindings of a form of shape `s`. -/
def formB {B K : Type} (pb : MapPb B K) (s : RVal) : List Bdg :=
  (createBindings ((typedLeaves pb.archConst pb.arch.inT).filter (fun l => ((rawLeaves pb.arch.inT s).map (·.1)).contains l.1))
    (typedLeaves pb.irConst pb.ir.inT)).filter (constraintFilter pb.cons)

theorem typed_names (cs : List RPath) (t : Ty) : (typedLeaves cs t).map (·.1) = (leafTypes t []).map (·.1) := by
  simp [typedLeaves, List.map_map, Function.comp_def]

theorem typed_mem {cs : List RPath} {t : Ty} {p : RPath} {T : Bool × Ty} (h : (p, T) ∈ typedLeaves cs t) : T.1 = constAt cs p ∧ (p, T.2) ∈ leafTypes t [] := by
  simp only [typedLeaves, List.mem_map] at h
  obtain ⟨l, hl, he⟩ := h
  cases he
  exact ⟨rfl, hl⟩

theorem typed_of {cs : List RPath} {t : Ty} {p : RPath} {u : Ty} (h : (p, u) ∈ leafTypes t []) : (p, (constAt cs p, u)) ∈ typedLeaves cs t :=
  List.mem_map.mpr ⟨_, h, rfl⟩

theorem skel_paths {t : Ty} {s : RVal} (hs : RHas t s) (ρ : RPath → Nat) : (rawLeaves t (VF.fill t s ρ)).map (·.1) = (rawLeaves t s).map (·.1) := by
  rw [(VF.fill_spec t s ρ hs).2, List.map_map]
  rfl

theorem forms_paths {ρ τ : RPath → Nat} {t : Ty} {r : FormsRes} {f : SForm} {s : RVal} (h : RF.FormIs ρ τ t [] r f s) :
    f.leaves.map (·.1) = (rawLeaves t s).map (·.1) := by
  rw [h.leaves, List.map_map, ← skel_paths h.has (RF.below ρ [])]
  apply List.map_congr_left
  intro l _
  rfl

theorem skels_mem_has {P : Process} {t : Ty} (hw : WF t) (hb : Buildable t) {s : RVal} (hs : s ∈ RF.skels t) : RHas t s := by
  obtain ⟨r, hr, _⟩ := SF.forms_ok P (fun _ => 0) (fun _ => 0) t hw hb []
  obtain ⟨i, hi⟩ := List.getElem?_of_mem hs
  obtain ⟨f, _, hF⟩ := forall₂_at (RF.raw_ok P _ _ t hw hb [] r hr) hi
  exact hF.has

/-- The forms' bindings are those of the shapes. -/
theorem formBindings_ok {B K : Type} {P : Process} {pb : MapPb B K} (hw : WF pb.arch.inT) (hb : Buildable pb.arch.inT) {ρ τ : RPath → Nat} {r : FormsRes}
    (h : smtForms P.asm ρ τ pb.arch.inT [] = .ok r) : exMap (formBindings pb) r.forms = .ok ((RF.skels pb.arch.inT).map (formB pb)) := by
  have hraw := RF.raw_ok P ρ τ _ hw hb [] r h
  have key : ∀ L M, List.Forall₂ (RF.FormIs ρ τ pb.arch.inT [] r) L M → exMap (formBindings pb) L = .ok (M.map (formB pb)) := ?_
  · exact key _ _ hraw
  clear hraw
  intro L M hraw
  induction hraw with
  | nil => rfl
  | @cons f s l m hF _ ih =>
    have hp := forms_paths hF
    have : formBindings pb f = .ok (formB pb s) := by
      simp only [formBindings, formB, hp]
      rw [if_pos]
      rw [List.all_eq_true]
      intro p hp'
      rw [List.contains_iff_mem, typed_names]
      obtain ⟨l, hl, rfl⟩ := List.mem_map.mp hp'
      have := VF.mem_types hF.has (p := l.1) (u := l.2.1) (n := l.2.2) hl
      exact List.mem_map.mpr ⟨_, this, rfl⟩
    simp only [exMap, this, ih, List.map_cons]

structure BdgsOk0 {B K : Type} (pb : MapPb B K) (bs : Bdgs) : Prop where
  uf : UnionFree pb.ir.inT
  ins : bs.ins = (RF.skels pb.arch.inT).map (formB pb)
  outs : bs.outs = createBindings (leafTypes pb.arch.outT []) (leafTypes pb.ir.outT [])
  cons : ∀ c ∈ pb.cons, c.1 ∈ (leafTypes pb.arch.inT []).map (·.1)

structure BdgsOk {B K : Type} (pb : MapPb B K) (bs : Bdgs) : Prop extends BdgsOk0 pb bs where
  irBB : pb.ir.bbs = []
  archBB : pb.arch.bbs = []

theorem bindings_inv' {B K : Type} {P : Process} {pb : MapPb B K} (hi : WF pb.ir.inT ∧ Buildable pb.ir.inT) (ha : WF pb.arch.inT ∧ Buildable pb.arch.inT) {bs : Bdgs}
    {simple : Bool} (h : mapBindings P.asm pb simple = .ok (some bs)) :
    BdgsOk0 pb bs ∧ (simple = false → pb.ir.bbs = [] ∧ pb.arch.bbs = []) := by
  simp only [mapBindings] at h
  split at h
  · cases h
  · next am ham =>
    split at h
    · cases h
    split at h
    · next hc =>
      split at h
      · cases h
      · next im him =>
        split at h
        · cases h
        · next hlen =>
          split at h
          · cases h
          split at h
          · cases h
          · next hbb =>
            split at h
            · split at h
              · cases h
              · next ins hins =>
                split at h
                · cases h
                · split at h
                  · cases h
                  · split at h
                    · cases h
                      rw [formBindings_ok ha.1 ha.2 (mapper_inv ham).1] at hins
                      cases hins
                      refine ⟨⟨?_, rfl, rfl, ?_⟩, ?_⟩
                      · refine RF.unionFree_of_one _ hi.1 hi.2 ?_
                        rw [← (RF.raw_ok P _ _ _ hi.1 hi.2 _ _ (mapper_inv him).1).length_eq]
                        omega
                      · intro c hcm
                        have := List.all_eq_true.mp hc c hcm
                        simpa using this
                      · intro hs
                        rw [not_and_or, not_or, Decidable.not_not, Decidable.not_not] at hbb
                        exact hbb.resolve_left (fun h => h hs)
                    · cases h
            · cases h
    · cases h

/-- The mapper refuses outputs with unions. -/
theorem bindings_outs {B K : Type} {P : Process} {pb : MapPb B K} (hi : WF pb.ir.outT ∧ Buildable pb.ir.outT) (ha : WF pb.arch.outT ∧ Buildable pb.arch.outT)
    {bs : Option Bdgs} {simple : Bool} (h : mapBindings P.asm pb simple = .ok bs) : UnionFree pb.ir.outT ∧ UnionFree pb.arch.outT := by
  simp only [mapBindings] at h
  split at h
  · cases h
  · next am ham =>
    split at h
    · cases h
    · next hn =>
      split at h
      · split at h
        · cases h
        · next im him =>
          split at h
          · cases h
          · split at h
            · cases h
            · next hn' =>
              exact ⟨RF.unionFree_of_one _ hi.1 hi.2 (by rw [← (ValF.mapper_inv him).2.2]; omega),
                RF.unionFree_of_one _ ha.1 ha.2 (by rw [← (ValF.mapper_inv ham).2.2]; omega)⟩
      · cases h

theorem setup_of_bindings {B K : Type} [DecidableEq B] {P : Process} {pb : MapPb B K} {fi fa : Fn B} {inW : K → List Nat} (S : Setup0 P pb.ir pb.arch fi fa inW)
    {bs : Option Bdgs} {simple : Bool} (h : mapBindings P.asm pb simple = .ok bs) : Setup P pb.ir pb.arch fi fa inW := by
  obtain ⟨h1, h2⟩ := bindings_outs S.ir_out S.arch_out h
  exact ⟨S.ir_fn, S.arch_fn, S.ir_in, S.arch_in, ⟨S.ir_out.1, S.ir_out.2, h1⟩, ⟨S.arch_out.1, S.arch_out.2, h2⟩, S.ir_boxes, S.arch_boxes, S.same_classes⟩

theorem bindings_inv {B K : Type} {P : Process} {pb : MapPb B K} (hi : WF pb.ir.inT ∧ Buildable pb.ir.inT) (ha : WF pb.arch.inT ∧ Buildable pb.arch.inT) {bs : Bdgs}
    (h : mapBindings P.asm pb = .ok (some bs)) : BdgsOk pb bs := by
  obtain ⟨h1, h2⟩ := bindings_inv' hi ha h
  exact { toBdgsOk0 := h1, irBB := (h2 rfl).1, archBB := (h2 rfl).2 }

/-- What a binding of the form of shape `s` says. -/
structure BOk {B K : Type} (pb : MapPb B K) (s : RVal) (b : Bdg) : Prop where
  paths : (b.map (·.2)).Perm ((rawLeaves pb.arch.inT s).map (·.1))
  typed : ∀ q p, (some q, p) ∈ b → p ∉ pb.cons.map (·.1) ∧ constAt pb.irConst q = constAt pb.archConst p ∧
    ∃ t, (q, t) ∈ leafTypes pb.ir.inT [] ∧ (p, t) ∈ leafTypes pb.arch.inT []
  once : (b.filterMap (·.1)).Perm ((leafTypes pb.ir.inT []).map (·.1))

theorem filter_paths {B K : Type} {pb : MapPb B K} (ha : WF pb.arch.inT) {s : RVal} (hs : RHas pb.arch.inT s) :
    (((typedLeaves pb.archConst pb.arch.inT).filter (fun l => ((rawLeaves pb.arch.inT s).map (·.1)).contains l.1)).map (·.1)).Nodup ∧
    ∀ p, p ∈ (((typedLeaves pb.archConst pb.arch.inT).filter (fun l => ((rawLeaves pb.arch.inT s).map (·.1)).contains l.1)).map (·.1)) ↔
      p ∈ (rawLeaves pb.arch.inT s).map (·.1) := by
  constructor
  · have : ((typedLeaves pb.archConst pb.arch.inT).map (·.1)).Nodup := by rw [typed_names]; exact VF.types_nodup _ ha
    exact (List.filter_sublist.map _).nodup this
  · intro p
    constructor
    · intro h
      obtain ⟨l, hl, rfl⟩ := List.mem_map.mp h
      have := (List.mem_filter.mp hl).2
      simpa only [List.contains_iff_mem] using this
    · intro h
      obtain ⟨l, hl, rfl⟩ := List.mem_map.mp h
      have h1 := VF.mem_types hs (p := l.1) (u := l.2.1) (n := l.2.2) hl
      exact List.mem_map.mpr ⟨_, List.mem_filter.mpr ⟨typed_of h1, by simpa only [List.contains_iff_mem] using h⟩, rfl⟩

theorem once_perm {P T : Type} [DecidableEq P] {arch ir : List (P × T)} {b : List (Option P × P)} {f : P → Option P} (ha : (arch.map (·.1)).Nodup)
    (hi : (ir.map (·.1)).Nodup) (hR : Represents arch b f) (hf : IsAssignment arch ir f) : (b.filterMap (·.1)).Perm (ir.map (·.1)) := by
  have hn : (b.map (·.2)).Nodup := hR.1.nodup_iff.mpr ha
  have htyped : ∀ e ∈ b, ∀ i, e.1 = some i → i ∈ ir.map (·.1) := by
    intro e he i hei
    have hm : e.2 ∈ arch.map (·.1) := hR.1.subset (List.mem_map.mpr ⟨e, he, rfl⟩)
    obtain ⟨⟨a, t⟩, hat, hae⟩ := List.mem_map.mp hm
    have := hf.typed a t i hat (by simp only at hae; rw [hae, ← hR.2 e he, hei])
    exact List.mem_map.mpr ⟨_, this, rfl⟩
  rw [List.perm_ext_iff_of_nodup _ hi]
  · intro i
    rw [List.mem_filterMap]
    constructor
    · rintro ⟨e, he, hei⟩
      exact htyped e he i hei
    · intro h
      obtain ⟨⟨i', t⟩, hit, rfl⟩ := List.mem_map.mp h
      obtain ⟨a, ha1, ha2, _⟩ := hf.once i' t hit
      have := hR.1.symm.subset ha1
      obtain ⟨e, he, rfl⟩ := List.mem_map.mp this
      exact ⟨e, he, by rw [hR.2 e he, ha2]⟩
  · -- no IR path twice
    have hpw : b.Pairwise (fun e e' => e.2 ≠ e'.2) := by
      have := hn
      rw [List.Nodup, List.pairwise_map] at this
      exact this
    have hpw' : b.Pairwise (fun e e' => ∀ i, e.1 = some i → ∀ i', e'.1 = some i' → i ≠ i') := by
      refine hpw.imp_of_mem ?_
      intro e e' he he' hne i hei i' hei' hii
      subst hii
      obtain ⟨⟨i', t⟩, hit, hii⟩ := List.mem_map.mp (htyped e he i hei)
      simp only at hii
      subst hii
      obtain ⟨a, _, _, h3⟩ := hf.once i' t hit
      have e1 := h3 e.2 (hR.1.subset (List.mem_map.mpr ⟨e, he, rfl⟩)) (by rw [← hR.2 e he, hei])
      have e2 := h3 e'.2 (hR.1.subset (List.mem_map.mpr ⟨e', he', rfl⟩)) (by rw [← hR.2 e' he', hei'])
      exact hne (e1.trans e2.symm)
    exact List.Pairwise.filterMap _ (fun e e' h i hi i' hi' => h i hi i' hi') hpw'

theorem formB_ok {B K : Type} {pb : MapPb B K} (hwi : WF pb.ir.inT) (hwa : WF pb.arch.inT) {s : RVal} (hs : RHas pb.arch.inT s) {b : Bdg} (hb : b ∈ formB pb s) :
    BOk pb s b := by
  obtain ⟨hb1, hb2⟩ := List.mem_filter.mp hb
  obtain ⟨hn, hm⟩ := filter_paths (pb := pb) hwa hs
  have hni : ((typedLeaves pb.irConst pb.ir.inT).map (·.1)).Nodup := by rw [typed_names]; exact VF.types_nodup _ hwi
  obtain ⟨f, hR, hf⟩ := C28_sound _ _ hn hni b hb1
  refine ⟨?_, ?_, ?_⟩
  · refine hR.1.trans ?_
    rw [List.perm_ext_iff_of_nodup hn (VF.leaves_nodup hwa hs)]
    exact hm
  · intro q p he
    have hc := List.all_eq_true.mp hb2 _ he
    simp only [Option.isSome_some, Bool.and_true, Bool.not_eq_true'] at hc
    have hp : p ∈ ((typedLeaves pb.archConst pb.arch.inT).filter (fun l => ((rawLeaves pb.arch.inT s).map (·.1)).contains l.1)).map (·.1) :=
      hR.1.subset (List.mem_map.mpr ⟨_, he, rfl⟩)
    obtain ⟨⟨p', T⟩, hpT, rfl⟩ := List.mem_map.mp hp
    have hq := hf.typed p' T q hpT (hR.2 _ he).symm
    obtain ⟨c1, c2⟩ := typed_mem (List.mem_filter.mp hpT).1
    obtain ⟨d1, d2⟩ := typed_mem hq
    refine ⟨fun hin => ?_, by rw [← c1, ← d1], T.2, d2, c2⟩
    rw [← List.contains_iff_mem] at hin
    rw [hin] at hc
    cases hc
  · rw [← typed_names pb.irConst]
    exact once_perm hn hni hR hf

theorem outs_typed {irO archO : Ty} (hwi : WF irO) (hwa : WF archO) {ob : Bdg} (h : ob ∈ createBindings (leafTypes archO []) (leafTypes irO [])) : Typed irO archO ob := by
  obtain ⟨f, hR, hf⟩ := C28_sound _ _ (VF.types_nodup _ hwa) (VF.types_nodup _ hwi) ob h
  intro q p he
  have hp := hR.1.subset (List.mem_map.mpr ⟨_, he, rfl⟩)
  obtain ⟨⟨p', t⟩, hpt, rfl⟩ := List.mem_map.mp hp
  exact ⟨t, t, hf.typed p' t q hpt (hR.2 _ he).symm, hpt, VF.sameKind_refl (VF.types_leaf _ hwa _ hpt).1⟩

theorem mem_triples {bs : Bdgs} {i bi bo : Nat} {ib ob : Bdg} :
    (i, bi, bo, ib, ob) ∈ mapTriples bs ↔ (∃ l, bs.ins[i]? = some l ∧ l[bi]? = some ib) ∧ bs.outs[bo]? = some ob := by
  simp only [mapTriples, List.mem_flatMap, List.mem_map, Prod.mk.injEq, Prod.exists, List.mem_zipIdx_iff_getElem?]
  constructor
  · rintro ⟨l, i', h1, b, bi', h2, o, bo', h3, rfl, rfl, rfl, rfl, rfl⟩
    exact ⟨⟨l, h1, h2⟩, h3⟩
  · rintro ⟨⟨l, h1, h2⟩, h3⟩
    exact ⟨l, i, h1, ib, bi, h2, ob, bo, h3, rfl, rfl, rfl, rfl, rfl⟩

theorem triple_lt {bs : Bdgs} {i bi : Nat} {l : List Bdg} {ib : Bdg} (h1 : bs.ins[i]? = some l) (h2 : l[bi]? = some ib) : bi < bs.maxIns := by
  obtain ⟨h3, _⟩ := List.getElem?_eq_some_iff.mp h2
  have : ∀ (L : List (List Bdg)), l ∈ L → l.length ≤ L.foldr (fun l m => max l.length m) 0 := by
    intro L
    induction L with
    | nil => intro h; cases h
    | cons x L ih =>
      intro h
      simp only [List.foldr_cons]
      rcases List.mem_cons.mp h with rfl | h
      · exact Nat.le_max_left _ _
      · exact Nat.le_trans (ih h) (Nat.le_max_right _ _)
  have := this _ (List.mem_of_getElem? h1)
  simp only [Bdgs.maxIns]
  omega

/-! ## the rule -/

/-- What an entry of the solver's binding becomes. -/
def EntryR {B K : Type} (pb : MapPb B K) (a : MAsg B) (e : Option RPath × RPath) (e' : RSrc × RPath) : Prop :=
  e'.2 = e.2 ∧
    ((∃ q, e.1 = some q ∧ e'.1 = .path q) ∨
     (e.1 = none ∧ (constAt pb.archConst e.2 = true ∨ e.2 ∈ pb.cons.map (·.1)) ∧
       ∃ c t, e'.1 = .const c ∧ (e.2, t) ∈ leafTypes pb.arch.inT [] ∧ ConstIs c t (a.arch e.2 % 2 ^ width t)) ∨
     (e.1 = none ∧ constAt pb.archConst e.2 = false ∧ e.2 ∉ pb.cons.map (·.1) ∧ e'.1 = .unbound))

def argOf : Ty → Nat → RArg
  | .bit c, n => .bit ((BV.ofNat (width (.bit c)) n).val == 1)
  | t, n => .bits (BV.ofNat (width t) n)

theorem const_leaf (P : Process) {t : Ty} (hl : VF.IsLeaf t) (hw : WF t) {n : Nat} {x : RArg} {c : RConst}
    (hx : x = argOf t n) (h : rrConst P.asm t x = .ok c) :
    ConstIs c t (n % 2 ^ width t) := by
  rcases hl with ⟨k, w, rfl⟩ | ⟨k, rfl⟩ | ⟨k, ms, rfl⟩
  · simp only [argOf] at hx
    subst hx
    simp only [rrConst, rrWrap, new_bits P hw (by simp) (BV.ofNat_size _ _), mkAV] at h
    cases h
    exact ⟨by simp, by simp [width], by simp [width]⟩
  · simp only [argOf] at hx
    subst hx
    simp only [rrConst, rrWrap, AV.new, AV.plain] at h
    cases h
    refine ⟨⟨k, rfl⟩, ?_⟩
    simp only [width, BV.ofNat_val]
    rcases Nat.mod_two_eq_zero_or_one n with hn | hn <;> simp [hn]
  · simp only [argOf] at hx
    subst hx
    simp only [rrConst, rrWrap, new_bits P hw (by simp) (BV.ofNat_size _ _), mkAV] at h
    split at h
    · cases h
    · split at h
      · cases h
        exact ⟨by simp, by simp, by simp [BV.ofNat_val]⟩
      · cases h

theorem entries_forall₂ {A : Ty → Except Err AsmObj} {types : RPath → Option Ty} : ∀ {l : List (RArg × RPath)} {l' : List (RSrc × RPath)}, rrEntries A types l = .ok l' →
    List.Forall₂ (fun e e' => rrEntry A types e = .ok e') l l'
  | [], l', h => by cases h; exact .nil
  | e :: l, l', h => by
    simp only [rrEntries] at h
    split at h
    · cases h
    · next e' he =>
      split at h
      · cases h
      · next es hes => cases h; exact .cons he (entries_forall₂ hes)

theorem forall₂_comp {α β γ : Type} {R : α → β → Prop} {S : β → γ → Prop} {T : α → γ → Prop} (hT : ∀ a b c, R a b → S b c → T a c) :
    ∀ {l : List α} {m : List β} {n : List γ}, List.Forall₂ R l m → List.Forall₂ S m n → List.Forall₂ T l n
  | _, _, _, .nil, .nil => .nil
  | _, _, _, .cons h1 h2, .cons h3 h4 => .cons (hT _ _ _ h1 h3) (forall₂_comp hT h2 h4)

theorem ivar_size (e : IEnc) (n v : Nat) : (ivar e n v).size = e.varLen n := BV.ofNat_size _ _

theorem rule_inv {B K : Type} {P : Process} {pb : MapPb B K} (ha : WF pb.arch.inT ∧ Buildable pb.arch.inT) {bs : Bdgs} {a : MAsg B} {rule : RRule}
    (h : rrFromSolver P.asm pb bs a = .ok rule) :
    ∃ (i bi bo : Nat) (s : RVal) (l : List Bdg) (ib ob : Bdg), (RF.skels pb.arch.inT)[i]? = some s ∧ bs.ins[i]? = some l ∧ l[bi]? = some ib ∧ bs.outs[bo]? = some ob ∧
      pb.enc.matchIndex (RF.skels pb.arch.inT).length (ivar pb.enc (RF.skels pb.arch.inT).length a.fi) i = .ok true ∧
      pb.enc.matchIndex bs.maxIns (ivar pb.enc bs.maxIns a.ib) bi = .ok true ∧
      pb.enc.matchIndex bs.outs.length (ivar pb.enc bs.outs.length a.ob) bo = .ok true ∧
      rule.ob = ob ∧ List.Forall₂ (EntryR pb a) ib rule.ib := by
  simp only [rrFromSolver] at h
  split at h
  · cases h
  · next res hres =>
    have hraw := RF.raw_ok P _ _ _ ha.1 ha.2 _ _ hres
    have hlen : res.forms.length = (RF.skels pb.arch.inT).length := hraw.length_eq
    rw [hlen] at h
    split at h
    · next i bi bo h1 h2 h3 =>
      split at h
      · next f ib ob g1 g2 g3 =>
        split at h
        · cases h
        · next args hargs =>
          obtain ⟨s, hs, hF⟩ := forall₂_at' hraw g1
          cases hl : bs.ins[i]? with
          | none => rw [hl] at g2; cases g2
          | some l =>
            rw [hl] at g2
            simp only [Option.bind_some] at g2
            simp only [mkRule] at h
            split at h
            · cases h
            · next ib' hib' =>
              cases h
              refine ⟨i, bi, bo, s, l, ib, ob, hs, hl, g2, g3, ((C30_decode _ _ _ (ivar_size _ _ _) i).1.mp h1).2,
                ((C30_decode _ _ _ (ivar_size _ _ _) bi).1.mp h2).2, ((C30_decode _ _ _ (ivar_size _ _ _) bo).1.mp h3).2, rfl, ?_⟩
              refine forall₂_comp ?_ (RF.exMap_forall₂ hargs) (entries_forall₂ hib')
              intro e x e' he he'
              simp only [solvedEntry] at he
              split at he
              · next q hq =>
                cases he
                simp only [rrEntry] at he'
                cases he'
                exact ⟨rfl, .inl ⟨q, hq, rfl⟩⟩
              · next hq =>
                split at he
                · next hc =>
                  simp only [Bool.or_eq_true, List.contains_iff_mem] at hc
                  split at he
                  · cases he
                  · next y hy =>
                    cases he
                    simp only [solvedLeaf] at hy
                    split at hy
                    · cases hy
                    · next b hb =>
                      have hmem : (e.2, b) ∈ f.leaves := by
                        have : ∀ (Z : List (RPath × BV)), Z.lookup e.2 = some b → (e.2, b) ∈ Z := by
                          intro Z
                          induction Z with
                          | nil => intro h; cases h
                          | cons z Z ih =>
                            intro h
                            rw [List.lookup_cons] at h
                            split at h
                            · next hz =>
                              cases h
                              rw [beq_iff_eq] at hz
                              rw [hz]
                              exact List.mem_cons_self
                            · exact List.mem_cons_of_mem _ (ih h)
                        exact this _ hb
                      rw [hF.leaves, (VF.fill_spec _ _ _ hF.has).2, List.map_map] at hmem
                      obtain ⟨l0, hl0, he0⟩ := List.mem_map.mp hmem
                      have hty := VF.mem_types hF.has (p := l0.1) (u := l0.2.1) (n := l0.2.2) hl0
                      simp only [Function.comp_apply, RF.leafOf, VF.refl, RF.below, List.nil_append, Prod.mk.injEq] at he0
                      obtain ⟨he1, he2⟩ := he0
                      rw [he1] at hty he2
                      rw [VF.ofNat_mod] at he2
                      have hlk := VF.lookup_of_mem' (VF.types_nodup _ ha.1) hty
                      obtain ⟨hleaf, hwl⟩ := VF.types_leaf _ ha.1 _ hty
                      rw [hlk] at hy
                      have hy' : y = argOf l0.2.1 (a.arch e.2) := by
                        rcases hleaf with ⟨k, w, hk⟩ | ⟨k, hk⟩ | ⟨k, ms, hk⟩ <;> simp only at hk <;> rw [hk] at hy he2 ⊢ <;> simp only [argOf] at hy ⊢ <;>
                          cases hy <;> rw [he2]
                      have hne : (∀ p, y ≠ .path p) ∧ y ≠ .unbound := by
                        rw [hy']
                        cases l0.2.1 <;> simp [argOf]
                      obtain ⟨s1, s2⟩ := RR.entry_spec P he'
                      refine ⟨s1, .inr (.inl ⟨hq, hc, ?_⟩)⟩
                      cases hsrc : e'.1 with
                      | path p => rw [hsrc] at s2; exact absurd s2 (hne.1 p)
                      | unbound => rw [hsrc] at s2; exact absurd s2.1 hne.2
                      | const c =>
                        rw [hsrc] at s2
                        obtain ⟨t, t1, t2, _⟩ := s2
                        simp only [hlk, Option.some.injEq] at t1
                        subst t1
                        exact ⟨c, l0.2.1, rfl, hty, const_leaf P hleaf hwl hy' t2⟩
                · next hc =>
                  simp only [Bool.or_eq_true, List.contains_iff_mem, not_or, Bool.not_eq_true] at hc
                  cases he
                  simp only [rrEntry] at he'
                  split at he'
                  · cases he'
                    exact ⟨rfl, .inr (.inr ⟨hq, hc.1, hc.2, rfl⟩)⟩
                  · cases he'
      · cases h
    all_goals cases h

/-! ## the formula -/

theorem exMap_mem' {α β : Type} {f : α → Except Err β} {l : List α} {l' : List β} (h : exMap f l = .ok l') (b : β) (hb : b ∈ l') : ∃ a ∈ l, f a = .ok b := by
  obtain ⟨i, hi⟩ := List.getElem?_of_mem hb
  obtain ⟨a, ha, h'⟩ := forall₂_at (RF.exMap_forall₂ h) hi
  exact ⟨a, List.mem_of_getElem? ha, h'⟩

theorem forallCons_const {B : Type} {isConst : RPath → Bool} : ∀ {cons : List (RPath × List Nat)}, (∀ c ∈ cons, isConst c.1 = true) →
    ∀ (F : MAsg B → Except Err Bool), forallCons isConst cons F = F
  | [], _, F => rfl
  | (p, cs) :: cons, h, F => by
    simp only [forallCons]
    rw [if_pos (h _ List.mem_cons_self)]
    exact forallCons_const (fun c hc => h c (List.mem_cons_of_mem _ hc)) F

theorem existsCons_true {A : Ty → Except Err AsmObj} {types : List (RPath × Ty)} {isConst : RPath → Bool} {v : RPath → Nat} :
    ∀ {cons : List (RPath × List Nat)} {f : Bool}, (∀ c ∈ cons, isConst c.1 = true) → existsCons A types isConst v cons f = .ok true →
      f = true ∧ ∀ c ∈ cons, ∃ n ∈ c.2, consEq A types c.1 (v c.1) n = .ok true
  | [], f, _, h => by cases h; exact ⟨rfl, by simp⟩
  | (p, cs) :: cons, f, hc, h => by
    simp only [existsCons] at h
    rw [if_pos (hc _ List.mem_cons_self)] at h
    split at h
    · cases h
    · next l hl =>
      split at h
      · cases h
      · next b hb =>
        obtain ⟨h1, h2⟩ := existsCons_true (fun c h => hc c (List.mem_cons_of_mem _ h)) h
        simp only [Bool.and_eq_true] at h1
        refine ⟨h1.1, ?_⟩
        rw [List.forall_mem_cons]
        refine ⟨?_, h2⟩
        simp only [orReduce] at hb
        split at hb
        · cases hb
        · simp only [Except.ok.injEq] at hb
          rw [h1.2, List.any_eq_true] at hb
          obtain ⟨b', hb1, hb2⟩ := hb
          obtain ⟨n, hn, hn2⟩ := exMap_mem' hl b' hb1
          simp only [id] at hb2
          rw [hb2] at hn2
          exact ⟨n, hn, hn2⟩

theorem formula_true {B K : Type} {A : Ty → Except Err AsmObj} {pb : MapPb B K} {bs : Bdgs} {a : MAsg B} (hc : ∀ c ∈ pb.cons, constAt pb.archConst c.1 = true)
    (h : mapFormula A pb bs a = .ok true) :
    (∃ t ∈ mapTriples bs, mapConj A pb bs a t = .ok true) ∧
    ∀ c ∈ pb.cons, ∃ n ∈ c.2, consEq A (leafTypes pb.arch.inT []) c.1 (a.arch c.1) n = .ok true := by
  simp only [mapFormula, forallCons_const hc] at h
  split at h
  · cases h
  · next f hf =>
    obtain ⟨h1, h2⟩ := existsCons_true hc h
    refine ⟨?_, h2⟩
    subst h1
    simp only [mapFormula0] at hf
    split at hf
    · cases hf
    · next l hl =>
      simp only [orReduce] at hf
      split at hf
      · cases hf
      · simp only [Except.ok.injEq, List.any_eq_true] at hf
        obtain ⟨b', hb1, hb2⟩ := hf
        obtain ⟨t, ht, ht2⟩ := exMap_mem' hl b' hb1
        simp only [id] at hb2
        rw [hb2] at ht2
        exact ⟨t, ht, ht2⟩

theorem consEq_ok (P : Process) {T : Ty} (hw : WF T) {p : RPath} {t : Ty} (hp : (p, t) ∈ leafTypes T []) (v c : Nat) :
    consEq P.asm (leafTypes T []) p v c = .ok (v % 2 ^ width t == c % 2 ^ width t) := by
  obtain ⟨hl, hwt⟩ := VF.types_leaf _ hw _ hp
  simp only [consEq, VF.lookup_of_mem' (VF.types_nodup _ hw) hp, VF.freeVar_ok P hl hwt]
  rw [← VF.plainAV_mod t v, ← VF.plainAV_mod t c]
  exact VF.leafEq_ok (VF.sameKind_refl hl) hl hl (Nat.mod_lt _ (Nat.two_pow_pos _)) (Nat.mod_lt _ (Nat.two_pow_pos _))

theorem match_unique {e : IEnc} {n v i j : Nat} (hi : e.matchIndex n (ivar e n v) i = .ok true) (hj : e.matchIndex n (ivar e n v) j = .ok true) : i = j := by
  have h1 := (C30_decode e n (ivar e n v) (ivar_size _ _ _) i).1.mpr ⟨match_lt hi, hi⟩
  have h2 := (C30_decode e n (ivar e n v) (ivar_size _ _ _) j).1.mpr ⟨match_lt hj, hj⟩
  rw [h1] at h2
  cases h2
  rfl

theorem substArch_eq {B : Type} {ib : Bdg} (hn : (ib.map (·.2)).Nodup) {e : Option RPath × RPath} (he : e ∈ ib) (a : MAsg B) :
    (substArch ib a).arch e.2 = match e.1 with | some q => a.ir q | none => a.arch e.2 := by
  have hf : ib.find? (fun e' => e'.2 == e.2) = some e := by
    have : ∀ (l : Bdg), (l.map (·.2)).Nodup → e ∈ l → l.find? (fun e' => e'.2 == e.2) = some e := by
      intro l
      induction l with
      | nil => intro _ h; cases h
      | cons x l ih =>
        intro hn he
        simp only [List.map_cons, List.nodup_cons] at hn
        rcases List.mem_cons.mp he with rfl | he
        · rw [List.find?_cons_of_pos (by simp)]
        · rw [List.find?_cons_of_neg, ih hn.2 he]
          intro hx
          rw [beq_iff_eq] at hx
          exact hn.1 (hx ▸ List.mem_map.mpr ⟨e, he, rfl⟩)
    exact this ib hn he
  obtain ⟨x, p⟩ := e
  simp only [substArch, hf]
  cases x <;> rfl

/-- Inputs that the rule allows, from values of the leaves. -/
theorem related_of {B K : Type} {pb : MapPb B K} (hwi : WF pb.ir.inT) (hwa : WF pb.arch.inT) (hu : UnionFree pb.ir.inT) {s si : RVal} (hs : RHas pb.arch.inT s)
    (hsi : RHas pb.ir.inT si) {ib : Bdg} (hb : BOk pb s ib) {a : MAsg B} {rib : List (RSrc × RPath)} (hib : List.Forall₂ (EntryR pb a) ib rib)
    {ρi ρa : RPath → Nat} (h1 : ∀ q p, (some q, p) ∈ ib → ρa p = ρi q)
    (h2 : ∀ p, (none, p) ∈ ib → constAt pb.archConst p = true ∨ p ∈ pb.cons.map (·.1) → ρa p = a.arch p) :
    Related pb.ir.inT pb.arch.inT rib (VF.fill pb.ir.inT si ρi) (VF.fill pb.arch.inT s ρa) := by
  obtain ⟨i1, i2⟩ := VF.fill_spec pb.ir.inT si ρi hsi
  obtain ⟨a1, a2⟩ := VF.fill_spec pb.arch.inT s ρa hs
  have hsnd : rib.map (·.2) = ib.map (·.2) := by
    clear * - hib
    induction hib with
    | nil => rfl
    | cons h _ ih => simp only [List.map_cons, ih, h.1]
  have hsrc : irSources rib = ib.filterMap (·.1) := by
    clear * - hib
    induction hib with
    | nil => rfl
    | @cons e e' l m h _ ih =>
      have hc : irSources (e' :: m) = (match e'.1 with | .path q => q :: irSources m | _ => irSources m) := by
        simp only [irSources, List.filterMap_cons]
        cases e'.1 <;> rfl
      rw [hc, List.filterMap_cons]
      rcases h.2 with ⟨q, g1, g2⟩ | ⟨g1, _, c, t, g2, _⟩ | ⟨g1, _, _, g2⟩ <;> simp only [g1, g2, ih]
  refine ⟨i1, a1, ?_, ?_, ?_⟩
  · rw [hsnd, skel_paths hs]; exact hb.paths
  · rw [hsrc]
    have : (rawLeaves pb.ir.inT (VF.fill pb.ir.inT si ρi)).map (·.1) = (leafTypes pb.ir.inT []).map (·.1) := by
      rw [← VF.leaves_types_unionFree _ _ hu i1, List.map_map]; rfl
    rw [this]
    exact hb.once
  · have hmem : ∀ e' ∈ rib, ∃ e ∈ ib, EntryR pb a e e' := by
      clear * - hib
      induction hib with
      | nil => intro e' h; cases h
      | @cons e e' l m h _ ih =>
        intro x hx
        rcases List.mem_cons.mp hx with rfl | hx
        · exact ⟨e, List.mem_cons_self, h⟩
        · obtain ⟨y, hy, hr⟩ := ih x hx
          exact ⟨y, List.mem_cons_of_mem _ hy, hr⟩
    intro e' he'
    obtain ⟨e, he, hE⟩ := hmem e' he'
    have hp : e.2 ∈ (rawLeaves pb.arch.inT s).map (·.1) := hb.paths.subset (List.mem_map.mpr ⟨e, he, rfl⟩)
    obtain ⟨⟨p, t, n⟩, hl, hpe⟩ := List.mem_map.mp hp
    simp only at hpe
    subst hpe
    have hty := VF.mem_types hs hl
    refine ⟨t, ρa e.2 % 2 ^ width t, ?_, ?_⟩
    · rw [a2, hE.1]
      exact List.mem_map.mpr ⟨_, hl, rfl⟩
    · obtain ⟨x, p⟩ := e
      obtain ⟨x', p'⟩ := e'
      obtain ⟨hE1, hE2⟩ := hE
      simp only at hE1 hE2 hl hty he ⊢
      rcases hE2 with ⟨q, rfl, rfl⟩ | ⟨rfl, hc, c, t', rfl, ht', hC⟩ | ⟨rfl, _, _, rfl⟩
      · obtain ⟨_, _, t', hq, hpt⟩ := hb.typed q p he
        have := VF.eq_of_fst (VF.types_nodup _ hwa) hty hpt
        subst this
        rw [← VF.leaves_types_unionFree _ _ hu hsi] at hq
        obtain ⟨l0, hl0, he0⟩ := List.mem_map.mp hq
        simp only [Prod.mk.injEq] at he0
        obtain ⟨e1, e2⟩ := he0
        refine ⟨t, ?_, VF.sameKind_refl (VF.types_leaf _ hwa _ hpt).1⟩
        rw [i2, h1 q p he]
        refine List.mem_map.mpr ⟨l0, hl0, ?_⟩
        simp only [VF.refl, e1, e2]
      · have := VF.eq_of_fst (VF.types_nodup _ hwa) hty ht'
        subst this
        rw [h2 p he hc]
        exact hC
      · trivial

end Peak.IM
