import Verif.Lemmas.IRMapper
/-!
# Lemmas for the completeness of the IR mapper (C33): the formula is built without an exception, and a correct rule satisfies it
-/

namespace Peak.IM
open Peak Peak.Spec

/-! ## forms with any bits -/

theorem zip_lookup : ∀ (fs : Fields) (vs : List RVal), RHasAll fs vs → ∀ k t, fs.toList.lookup k = some t → ∃ v, (SB.zipF fs vs).lookup k = some (t, v)
  | .nil, [], _, k, t, h => by cases h
  | .nil, _ :: _, h, _, _, _ => by simp [RHasAll] at h
  | .cons _ _ _, [], h, _, _, _ => by simp [RHasAll] at h
  | .cons k' t' fs, v :: vs, hr, k, t, h => by
    simp only [Fields.toList, SB.zipF, List.lookup_cons] at h ⊢
    split at h
    · cases h; exact ⟨v, rfl⟩
    · exact zip_lookup fs vs hr.2 k t h

theorem get_any (P : Process) {c : Nat} {fs : Fields} (hw : WF (.prod c fs)) (hb : Buildable (.prod c fs)) {n : Nat} {k : Key} {t : Ty}
    (h : fs.toList.lookup k = some t) : ∃ m, m < 2 ^ width t ∧ (mkAV (.prod c fs) n).get P.asm k = .ok (mkAV t m) := by
  have hpos := RF.skels_pos _ hw
  obtain ⟨s, hs⟩ : ∃ s, s ∈ RF.skels (.prod c fs) := List.exists_mem_of_length_pos (by omega)
  have hr := skels_mem_has (P := P) hw hb hs
  obtain ⟨vs, rfl⟩ : ∃ vs, s = .prod vs := by
    cases s with
    | leaf _ => simp [RHas] at hr
    | sum _ _ => simp [RHas] at hr
    | prod vs => exact ⟨vs, rfl⟩
  obtain ⟨v, hv⟩ := zip_lookup fs vs hr k t h
  obtain ⟨h1, h2, h3, off, h4, h5, h6⟩ := VF.codeAll_field fs hw.2 0 vs k t v hr hv
  obtain ⟨o, ho, hg⟩ := P.good hw
  refine ⟨(BV.ofNat (width (.prod c fs)) n).val / 2 ^ off % 2 ^ width t, Nat.mod_lt _ (Nat.two_pow_pos _), ?_⟩
  rw [show mkAV (.prod c fs) n = .adt (.prod c fs) (BV.ofNat (width (.prod c fs)) n) from rfl]
  simp only [AV.get, ho]
  rw [sub_spec P hg h2 rfl h1 (by simpa [layoutOf] using h4) (by simpa [width] using h5), ← mkAV_mod]

theorem dict_any_aux (x : AV) (A : Ty → Except Err AsmObj) : ∀ (fs : Fields), (∀ k t, (k, t) ∈ fs.toList → ∃ m, m < 2 ^ width t ∧ x.get A k = .ok (mkAV t m)) →
    ∃ d, exMap (fun k =>
      match x.get A k with
      | .error e => .error e
      | .ok y => .ok (k, y)) (fs.toList.map (·.1)) = .ok d ∧ IsArgs fs d
  | .nil, _ => ⟨[], rfl, trivial⟩
  | .cons k t fs, h => by
    obtain ⟨m, hm, hx⟩ := h k t (by simp [Fields.toList])
    obtain ⟨d, hd, hda⟩ := dict_any_aux x A fs (fun k' t' h' => h k' t' (by simp [Fields.toList, h']))
    refine ⟨(k, mkAV t m) :: d, ?_, rfl, ⟨m, hm, rfl⟩, hda⟩
    simp only [Fields.toList, List.map_cons, exMap, hx, hd]

theorem dict_any (P : Process) {c : Nat} {fs : Fields} (hw : WF (.prod c fs)) (hb : Buildable (.prod c fs)) (n : Nat) :
    ∃ d, productToDict P.asm (.prod c fs) (mkAV (.prod c fs) n) = .ok d ∧ IsArgs fs d :=
  dict_any_aux _ _ fs (fun _ _ h => get_any P hw hb (SB.lookup_of_mem hw.1 h))

theorem args_lookup : ∀ (fs : Fields) (d : List (Key × AV)), IsArgs fs d → ∀ k ∈ fs.toList.map (·.1), ∃ t m, (k, t) ∈ fs.toList ∧ d.lookup k = some (mkAV t m)
  | .nil, d, _, k, h => by cases h
  | .cons k' t fs, [], h, _, _ => by simp [IsArgs] at h
  | .cons k' t fs, (k'', x) :: d, h, k, hk => by
    obtain ⟨rfl, ⟨n, _, rfl⟩, h3⟩ := h
    simp only [Fields.toList, List.map_cons, List.mem_cons] at hk
    by_cases hkk : k = k''
    · subst hkk
      exact ⟨t, n, by simp [Fields.toList], by simp⟩
    · obtain ⟨t', m, h4, h5⟩ := args_lookup fs d h3 k (hk.resolve_left hkk)
      refine ⟨t', m, by simp [Fields.toList, h4], ?_⟩
      rw [List.lookup_cons, beq_eq_false_iff_ne.mpr hkk]
      exact h5

theorem valid_any (P : Process) {c : Nat} {fs : Fields} {cs : List RPath} (hw : WF (.prod c fs)) {d : List (Key × AV)} (hd : IsArgs fs d) :
    ∃ valid, exMap (validField P.asm d) (((Ty.prod c fs).fieldDict.map (·.1)).filter (fun k => cs.contains [k])) = .ok valid ∧
      (valid = [] → ∀ k ∈ fs.toList.map (·.1), [k] ∉ cs) := by
  obtain ⟨valid, h1, h2⟩ := SF.exMap_ok (f := validField P.asm d) (l := ((Ty.prod c fs).fieldDict.map (·.1)).filter (fun k => cs.contains [k])) (by
    intro k hk
    obtain ⟨t, m, h1, h2⟩ := args_lookup fs d hd k (List.mem_filter.mp hk).1
    obtain ⟨b, hb⟩ := isValid_ok P ((by obtain ⟨i, hi⟩ := List.getElem?_of_mem h1; exact wfs_mem fs hw.2 i k t hi)) m
    exact ⟨b, by simp only [validField, h2, hb]⟩)
  refine ⟨valid, h1, ?_⟩
  intro hnil k hk hks
  have hlen := h2.length_eq
  rw [hnil] at hlen
  have : k ∈ ((Ty.prod c fs).fieldDict.map (·.1)).filter (fun k => cs.contains [k]) := List.mem_filter.mpr ⟨hk, by simpa using hks⟩
  rw [List.eq_nil_of_length_eq_zero hlen] at this
  cases this

theorem forms_ne (P : Process) {t : Ty} (hin : WF t ∧ Buildable t) {ρ τ : RPath → Nat} {r : FormsRes} (h : smtForms P.asm ρ τ t [] = .ok r) : r.forms ≠ [] := by
  have h1 := (RF.raw_ok P ρ τ t hin.1 hin.2 [] r h).length_eq
  have h2 := RF.skels_pos _ hin.1
  intro h3
  rw [h3] at h1
  simp only [List.length_nil] at h1
  omega

theorem nOut_one {B K : Type} {A : Ty → Except Err AsmObj} {obj : PeakObj B K} {cs : List RPath} {ρ τ : RPath → Nat} {β : B → Nat → Nat} {m : SMap}
    (h : smtMapper A obj cs ρ τ β = .ok m) (hu : UnionFree obj.outT) : m.nOut = 1 := by
  rw [(ValF.mapper_inv h).2.2, RF.skels_one _ hu]

/-- Every form has a row. -/
theorem row_any (P : Process) {B K : Type} {obj : PeakObj B K} (hT : Total P obj) (hin : WF obj.inT ∧ Buildable obj.inT)
    (hout : WF obj.outT ∧ Buildable obj.outT ∧ UnionFree obj.outT) (cs : List RPath) (bb : List (B × List BV))
    {f : SForm} (hv : ∃ n, n < 2 ^ width obj.inT ∧ f.value = mkAV obj.inT n) :
    ∃ row o, mapRow P.asm obj cs bb f = .ok row ∧ RHas obj.outT o ∧ row.outs = (rawLeaves obj.outT o).map (fun l => (l.1, plainAV l.2.1 l.2.2)) ∧
      (row.valid = [] → ∀ c fs, obj.inT = .prod c fs → ∀ k ∈ fs.toList.map (·.1), [k] ∉ cs) := by
  obtain ⟨ci, fi, co, fo, h1, h2, h3⟩ := hT
  obtain ⟨n, hn, hv⟩ := hv
  rw [h1] at hin hv
  obtain ⟨d, d1, d2⟩ := dict_any P hin.1 hin.2 n
  obtain ⟨ws, g1, g2⟩ := h3 d bb d2
  obtain ⟨valid, v1, v2⟩ := valid_any P (cs := cs) hin.1 d2
  rw [h2] at hout g1
  obtain ⟨res, o, p1, p2, p3⟩ := VF.parse_ok P (tu := obj.tagged) hout.1 hout.2.1 hout.2.2 g1 g2
  refine ⟨⟨valid, (rawLeaves (.prod co fo) (.prod ws)).map (fun l => (l.1, plainAV l.2.1 l.2.2)), 1⟩, .prod ws, ?_, by rw [h2]; exact g1, by rw [h2], ?_⟩
  · simp only [mapRow, h1, hv, d1]
    rw [v1]
    simp only [h2, p1, p2, List.head?_cons, Option.map_some, Option.getD_some, p3, List.length_cons, List.length_nil]
  · intro hnil c fs hcf
    rw [h1] at hcf
    cases hcf
    exact v2 hnil

theorem mapper_any (P : Process) {B K : Type} {obj : PeakObj B K} (hT : Total P obj) (hin : WF obj.inT ∧ Buildable obj.inT)
    (hout : WF obj.outT ∧ Buildable obj.outT ∧ UnionFree obj.outT) (cs : List RPath) (ρ τ : RPath → Nat) (β : B → Nat → Nat) :
    ∃ m, smtMapper P.asm obj cs ρ τ β = .ok m ∧ ∀ row ∈ m.rows, ∃ o, RHas obj.outT o ∧ row.outs = (rawLeaves obj.outT o).map (fun l => (l.1, plainAV l.2.1 l.2.2)) ∧
      (row.valid = [] → ∀ c fs, obj.inT = .prod c fs → ∀ k ∈ fs.toList.map (·.1), [k] ∉ cs) := by
  obtain ⟨r, h1, h2⟩ := SF.forms_ok P ρ τ obj.inT hin.1 hin.2 []
  obtain ⟨rows, h3, h4⟩ := SF.exMap_ok (f := mapRow P.asm obj cs (obj.bbOuts β)) (l := r.forms) (by
    intro f hf
    obtain ⟨row, _, hrow, _⟩ := row_any P hT hin hout cs (obj.bbOuts β) (h2.fval f hf)
    exact ⟨row, hrow⟩)
  refine ⟨_, ValF.mapper_of_rows h1 h3 (forms_ne P hin h1), ?_⟩
  intro row hrow
  obtain ⟨f, hf, hfr⟩ := exMap_mem' h3 row hrow
  obtain ⟨row', o, g1, g2, g3, g4⟩ := row_any P hT hin hout cs (obj.bbOuts β) (h2.fval f hf)
  rw [hfr] at g1
  cases g1
  exact ⟨o, g2, g3, g4⟩

/-- The IR has one form, and needs no `Total`. -/
theorem mapper_one (P : Process) {B K : Type} {obj : PeakObj B K} {fn : Fn B} (hc : Computes P obj fn) (hin : WF obj.inT ∧ Buildable obj.inT)
    (hout : WF obj.outT ∧ Buildable obj.outT ∧ UnionFree obj.outT) (hu : UnionFree obj.inT) (cs : List RPath) (ρ τ : RPath → Nat) (β : B → Nat → Nat) :
    ∃ m, smtMapper P.asm obj cs ρ τ β = .ok m := by
  obtain ⟨r, h1, h2⟩ := SF.forms_ok P ρ τ obj.inT hin.1 hin.2 []
  have hraw := RF.raw_ok P ρ τ obj.inT hin.1 hin.2 [] r h1
  obtain ⟨rows, h3, h4⟩ := SF.exMap_ok (f := mapRow P.asm obj cs (obj.bbOuts β)) (l := r.forms) (by
    intro f hf
    obtain ⟨i, hi⟩ := List.getElem?_of_mem hf
    obtain ⟨s, hs, hF⟩ := forall₂_at' hraw hi
    obtain ⟨row, _, _, hrow, _⟩ := row_sem P hc hin.1 hout (cs := cs) (bb := obj.bbOuts β) (VF.fill_spec _ _ _ hF.has).1 (hF.val (RF.tags_unionFree _ _ _ _ hu)).1
    exact ⟨row, hrow⟩)
  exact ⟨_, ValF.mapper_of_rows h1 h3 (forms_ne P hin h1)⟩

section
variable {B K : Type} [DecidableEq B] {P : Process} {pb : MapPb B K} {fi fa : Fn B} {inW : K → List Nat}

/-- Every conjunction of the formula is built. -/
theorem conj_any (S : Setup P pb.ir pb.arch fi fa inW) (hu : UnionFree pb.ir.inT) (h0i : pb.ir.bbs = []) (hT : Total P pb.arch) (bs : Bdgs) (a : MAsg B)
    {ib ob : Bdg} {si : RVal} {i bi bo : Nat} (hsi : RF.skels pb.ir.inT = [si]) (hi : i < (RF.skels pb.arch.inT).length) (hbi : bi < bs.maxIns) (hbo : bo < bs.outs.length)
    (hob : Typed pb.ir.outT pb.arch.outT ob) : ∃ b, mapConj P.asm pb bs a (i, bi, bo, ib, ob) = .ok b := by
  obtain ⟨am, h1, r1⟩ := mapper_any P hT S.arch_in S.arch_out pb.archConst a.arch a.archTag a.archBB
  obtain ⟨am', h2, r2⟩ := mapper_any P hT S.arch_in S.arch_out pb.archConst (substArch ib a).arch (substArch ib a).archTag (substArch ib a).archBB
  obtain ⟨im, h3⟩ := mapper_one P S.ir_fn S.ir_in S.ir_out hu pb.irConst a.ir a.irTag a.irBB
  have hsi0 : (RF.skels pb.ir.inT)[0]? = some si := by rw [hsi]; rfl
  obtain ⟨g, irow, g1, g2, g3, g4, g5, g6⟩ := mapper_row P S.ir_fn S.ir_in S.ir_out h0i h3 hsi0 (RF.tags_unionFree _ _ _ _ hu)
  have hlen : am.res.forms.length = (RF.skels pb.arch.inT).length := (RF.raw_ok P _ _ _ S.arch_in.1 S.arch_in.2 _ _ (mapper_inv h1).1).length_eq
  have hlen' : am'.res.forms.length = (RF.skels pb.arch.inT).length := (RF.raw_ok P _ _ _ S.arch_in.1 S.arch_in.2 _ _ (mapper_inv h2).1).length_eq
  have hf := List.getElem?_eq_getElem (l := am.res.forms) (i := i) (by omega)
  obtain ⟨row, hrow, _⟩ := forall₂_at' (mapper_inv h1).2 hf
  have hf' := List.getElem?_eq_getElem (l := am'.res.forms) (i := i) (by omega)
  obtain ⟨row', hrow', _⟩ := forall₂_at' (mapper_inv h2).2 hf'
  obtain ⟨o, o1, o2, _⟩ := r2 row' (List.mem_of_getElem? hrow')
  obtain ⟨b1, e1⟩ := match_ok pb.enc _ (ivar pb.enc (RF.skels pb.arch.inT).length a.fi) hi
  obtain ⟨b2, e2⟩ := match_ok pb.enc _ (ivar pb.enc bs.maxIns a.ib) hbi
  obtain ⟨b3, e3⟩ := match_ok pb.enc _ (ivar pb.enc bs.outs.length a.ob) hbo
  obtain ⟨eqs, e4, _, _⟩ := VF.outputEqs_raw S.ir_out.1 S.arch_out.1 S.ir_out.2.2 S.arch_out.2.2 g5 o1 hob
  rw [← g4, ← o2] at e4
  exact ⟨b1 && row.valid.all id && formMatches am.res.varmap am.res.forms[i] && b2 && b3 && eqs.all id,
    by simp only [mapConj, h1, h2, h3, hf, hrow, hrow', g2, hlen, e1, e2, e3, e4]⟩

/-- `v` gives allowed values to the constrained leaves that are not `Const`. -/
def Choice (isConst : RPath → Bool) (cons : List (RPath × List Nat)) (v : RPath → Nat) : Prop := ∀ c ∈ cons, isConst c.1 = false → v c.1 ∈ c.2

/-- `a` with the values `v` in the constrained leaves that are not `Const`. -/
def setFree {B : Type} (isConst : RPath → Bool) (cons : List (RPath × List Nat)) (v : RPath → Nat) (a : MAsg B) : MAsg B :=
  { a with arch := fun q => if isConst q = false ∧ q ∈ cons.map (·.1) then v q else a.arch q }

theorem setFree_cons {B : Type} {isConst : RPath → Bool} {p : RPath} {cs : List Nat} {cons : List (RPath × List Nat)} (hp : isConst p = false) (v : RPath → Nat)
    (a : MAsg B) : setArch (setFree isConst cons v a) p (v p) = setFree isConst ((p, cs) :: cons) v a := by
  simp only [setArch, setFree, MAsg.mk.injEq, true_and, and_true]
  funext q
  by_cases hq : q = p
  · subst hq
    rw [if_pos rfl, if_pos ⟨hp, List.mem_cons_self⟩]
  · rw [if_neg hq]
    refine if_congr ?_ rfl rfl
    rw [List.map_cons, List.mem_cons]
    exact ⟨fun h => ⟨h.1, .inr h.2⟩, fun h => ⟨h.1, h.2.resolve_left hq⟩⟩

theorem setFree_const {B : Type} {isConst : RPath → Bool} {p : RPath} {cs : List Nat} {cons : List (RPath × List Nat)} (hp : isConst p = true) (v : RPath → Nat)
    (a : MAsg B) : setFree isConst ((p, cs) :: cons) v a = setFree isConst cons v a := by
  simp only [setFree, MAsg.mk.injEq, true_and, and_true]
  funext q
  refine if_congr ?_ rfl rfl
  rw [List.map_cons, List.mem_cons]
  exact ⟨fun h => ⟨h.1, h.2.resolve_left (fun h' => absurd h.1 (by rw [h', hp]; simp))⟩, fun h => ⟨h.1, .inr h.2⟩⟩

/-- The loop over the constraints of leaves that are not `Const` asks for every choice of values. -/
theorem forallCons_true {B : Type} {isConst : RPath → Bool} : ∀ {cons : List (RPath × List Nat)} {F : MAsg B → Except Err Bool} {a : MAsg B},
    forallCons isConst cons F a = .ok true → ∀ v, Choice isConst cons v → F (setFree isConst cons v a) = .ok true
  | [], F, a, h, v, _ => by
    have : setFree isConst [] v a = a := by simp [setFree]
    rw [this]
    exact h
  | (p, cs) :: cons, F, a, h, v, hv => by
    have hv' : Choice isConst cons v := fun c hc => hv c (List.mem_cons_of_mem _ hc)
    simp only [forallCons] at h
    split at h
    · next hp =>
      rw [setFree_const hp]
      exact forallCons_true h v hv'
    · next hp =>
      rw [Bool.not_eq_true] at hp
      have := forallCons_true h v hv'
      split at this
      · cases this
      · next l hl =>
        simp only [andReduce] at this
        split at this
        · cases this
        · simp only [Except.ok.injEq, List.all_eq_true] at this
          obtain ⟨i, hi⟩ := List.getElem?_of_mem (hv _ List.mem_cons_self hp)
          obtain ⟨x, hx, hx2⟩ := forall₂_at' (RF.exMap_forall₂ hl) hi
          have hx3 := this x (List.mem_of_getElem? hx)
          simp only [id] at hx3
          rw [hx3] at hx2
          rw [← setFree_cons hp]
          exact hx2

/-- A loop that ends visited only constraints with some value, and asked the formula somewhere. -/
theorem forallCons_ne {B : Type} {isConst : RPath → Bool} : ∀ {cons : List (RPath × List Nat)} {F : MAsg B → Except Err Bool} {a : MAsg B} {b : Bool},
    forallCons isConst cons F a = .ok b → (∃ a' b', F a' = .ok b') ∧ ∀ c ∈ cons, isConst c.1 = false → c.2 ≠ []
  | [], F, a, b, h => ⟨⟨a, b, h⟩, by simp⟩
  | (p, cs) :: cons, F, a, b, h => by
    simp only [forallCons] at h
    split at h
    · next hp =>
      obtain ⟨h1, h2⟩ := forallCons_ne h
      refine ⟨h1, ?_⟩
      rw [List.forall_mem_cons]
      exact ⟨fun h => absurd (hp.symm.trans h) (by simp), h2⟩
    · obtain ⟨⟨a', b', h1⟩, h2⟩ := forallCons_ne h
      split at h1
      · cases h1
      · next l hl =>
        have hF := RF.exMap_forall₂ hl
        simp only [andReduce] at h1
        split at h1
        · cases h1
        · next hne =>
          rw [List.forall_mem_cons]
          cases hF with
          | nil => exact absurd rfl hne
          | cons g _ => exact ⟨⟨_, _, g⟩, ⟨fun _ => by simp, h2⟩⟩

/-- The loop ends, and asks for nothing but the choices. -/
theorem forallCons_any {B : Type} {isConst : RPath → Bool} : ∀ {cons : List (RPath × List Nat)} (_ : ∀ c ∈ cons, c.2 ≠ []) (_ : (cons.map (·.1)).Nodup)
    (F : MAsg B → Except Err Bool) (_ : ∀ a, ∃ b, F a = .ok b) (a : MAsg B),
    ∃ b, forallCons isConst cons F a = .ok b ∧ ((∀ v, Choice isConst cons v → F (setFree isConst cons v a) = .ok true) → b = true)
  | [], _, _, F, hF, a => by
    obtain ⟨b, hb⟩ := hF a
    refine ⟨b, hb, fun h => ?_⟩
    have := h (fun _ => 0) (by intro c hc; cases hc)
    rw [show setFree isConst [] (fun _ => 0) a = a by simp [setFree], hb] at this
    cases this
    rfl
  | (p, cs) :: cons, hne, hd, F, hF, a => by
    rw [List.map_cons, List.nodup_cons] at hd
    simp only [forallCons]
    split
    · next hp =>
      obtain ⟨b, hb, hb2⟩ := forallCons_any (isConst := isConst) (fun c hc => hne c (List.mem_cons_of_mem _ hc)) hd.2 F hF a
      refine ⟨b, hb, fun h => hb2 fun v hv => ?_⟩
      rw [← setFree_const (cs := cs) hp]
      refine h v ?_
      rw [Choice, List.forall_mem_cons]
      exact ⟨fun h => absurd (hp.symm.trans h) (by simp), hv⟩
    · next hp =>
      rw [Bool.not_eq_true] at hp
      have hcs : cs ≠ [] := hne _ List.mem_cons_self
      have key : ∀ a, ∃ l, exMap (fun c => F (setArch a p c)) cs = .ok l ∧ l ≠ [] ∧ List.Forall₂ (fun c b => F (setArch a p c) = .ok b) cs l := by
        intro a
        obtain ⟨l, hl, hFl⟩ := SF.exMap_ok (f := fun c => F (setArch a p c)) (l := cs) (fun c _ => hF _)
        refine ⟨l, hl, fun h => ?_, hFl⟩
        rw [h] at hFl
        cases cs with
        | nil => exact hcs rfl
        | cons _ _ => cases hFl
      obtain ⟨b, hb, hb2⟩ := forallCons_any (isConst := isConst) (fun c hc => hne c (List.mem_cons_of_mem _ hc)) hd.2
        (fun a => match exMap (fun c => F (setArch a p c)) cs with | .error e => .error e | .ok l => andReduce l)
        (by
          intro a
          obtain ⟨l, hl, hl2, _⟩ := key a
          exact ⟨l.all id, by simp only [hl, andReduce, if_neg hl2]⟩) a
      refine ⟨b, hb, fun h => hb2 fun v hv => ?_⟩
      obtain ⟨l, hl, hl2, hl3⟩ := key (setFree isConst cons v a)
      simp only [hl, andReduce, if_neg hl2, Except.ok.injEq, List.all_eq_true]
      intro x hx
      obtain ⟨i, hi⟩ := List.getElem?_of_mem hx
      obtain ⟨c, hc, hc2⟩ := forall₂_at hl3 hi
      have hv' : Choice isConst ((p, cs) :: cons) (fun q => if q = p then c else v q) := by
        rw [Choice, List.forall_mem_cons]
        refine ⟨fun _ => by simpa using List.mem_of_getElem? hc, fun d hd' hd2 => ?_⟩
        have : d.1 ≠ p := fun h => hd.1 (h ▸ List.mem_map.mpr ⟨d, hd', rfl⟩)
        simp only [if_neg this]
        exact hv d hd' hd2
      have h3 := h _ hv'
      rw [← setFree_cons hp] at h3
      have e : setFree isConst cons (fun q => if q = p then c else v q) a = setFree isConst cons v a := by
        simp only [setFree, MAsg.mk.injEq, true_and, and_true]
        funext q
        by_cases hq : q = p
        · subst hq
          rw [if_neg (fun h => hd.1 h.2), if_neg (fun h => hd.1 h.2)]
        · simp [hq]
      rw [e] at h3
      simp only [if_true] at h3
      rw [hc2] at h3
      cases h3
      rfl

theorem formula0_true {B K : Type} {A : Ty → Except Err AsmObj} {pb : MapPb B K} {bs : Bdgs} {a : MAsg B} (h : mapFormula0 A pb bs a = .ok true) :
    ∃ t ∈ mapTriples bs, mapConj A pb bs a t = .ok true := by
  simp only [mapFormula0] at h
  split at h
  · cases h
  · next l hl =>
    simp only [orReduce] at h
    split at h
    · cases h
    · simp only [Except.ok.injEq, List.any_eq_true] at h
      obtain ⟨b', hb1, hb2⟩ := h
      obtain ⟨t, ht, ht2⟩ := exMap_mem' hl b' hb1
      simp only [id] at hb2
      rw [hb2] at ht2
      exact ⟨t, ht, ht2⟩

theorem existsCons_inv {A : Ty → Except Err AsmObj} {types : List (RPath × Ty)} {isConst : RPath → Bool} {v : RPath → Nat} :
    ∀ {cons : List (RPath × List Nat)} {f : Bool}, existsCons A types isConst v cons f = .ok true →
      f = true ∧ ∀ c ∈ cons, isConst c.1 = true → ∃ n ∈ c.2, consEq A types c.1 (v c.1) n = .ok true
  | [], f, h => by cases h; exact ⟨rfl, by simp⟩
  | (p, cs) :: cons, f, h => by
    simp only [existsCons] at h
    rw [List.forall_mem_cons]
    split at h
    · split at h
      · cases h
      · next l hl =>
        split at h
        · cases h
        · next b hb =>
          obtain ⟨h1, h2⟩ := existsCons_inv h
          simp only [Bool.and_eq_true] at h1
          refine ⟨h1.1, fun _ => ?_, h2⟩
          simp only [orReduce] at hb
          split at hb
          · cases hb
          · simp only [Except.ok.injEq] at hb
            rw [h1.2, List.any_eq_true] at hb
            obtain ⟨b', hb1, hb2⟩ := hb
            obtain ⟨n, hn, hn2⟩ := exMap_mem' hl b' hb1
            simp only [id] at hb2
            rw [hb2] at hn2
            exact ⟨n, hn, hn2⟩
    · next hp =>
      obtain ⟨h1, h2⟩ := existsCons_inv h
      exact ⟨h1, fun h => absurd h hp, h2⟩

/-- What a true formula says, for any constraints. -/
theorem formula_free {B K : Type} {A : Ty → Except Err AsmObj} {pb : MapPb B K} {bs : Bdgs} {a : MAsg B} (h : mapFormula A pb bs a = .ok true) :
    (∀ v, Choice (constAt pb.archConst) pb.cons v → ∃ t ∈ mapTriples bs, mapConj A pb bs (setFree (constAt pb.archConst) pb.cons v a) t = .ok true) ∧
    (∀ c ∈ pb.cons, constAt pb.archConst c.1 = true → ∃ n ∈ c.2, consEq A (leafTypes pb.arch.inT []) c.1 (a.arch c.1) n = .ok true) ∧
    ∀ c ∈ pb.cons, constAt pb.archConst c.1 = false → c.2 ≠ [] := by
  simp only [mapFormula] at h
  split at h
  · cases h
  · next f hf =>
    obtain ⟨h1, h2⟩ := existsCons_inv h
    subst h1
    exact ⟨fun v hv => formula0_true (forallCons_true hf v hv), h2, (forallCons_ne hf).2⟩

theorem existsCons_any {A : Ty → Except Err AsmObj} {types : List (RPath × Ty)} {isConst : RPath → Bool} {v : RPath → Nat} :
    ∀ {cons : List (RPath × List Nat)} (f : Bool), (∀ c ∈ cons, c.2 ≠ [] ∧ ∀ n ∈ c.2, ∃ b, consEq A types c.1 (v c.1) n = .ok b) →
      ∃ b, existsCons A types isConst v cons f = .ok b ∧
        (f = true → (∀ c ∈ cons, isConst c.1 = true → ∃ n ∈ c.2, consEq A types c.1 (v c.1) n = .ok true) → b = true)
  | [], f, _ => ⟨f, rfl, fun h _ => h⟩
  | (p, cs) :: cons, f, hc => by
    obtain ⟨h1, h2⟩ := hc _ List.mem_cons_self
    simp only at h1 h2
    simp only [existsCons]
    split
    · next hp =>
      obtain ⟨l, hl, hF⟩ := SF.exMap_ok h2
      rw [hl]
      have hne : l ≠ [] := by
        intro h
        rw [h] at hF
        cases cs with
        | nil => exact h1 rfl
        | cons _ _ => cases hF
      simp only [orReduce, if_neg hne]
      obtain ⟨b, hb, hb2⟩ := existsCons_any (isConst := isConst) (cons := cons) (f && l.any id) (fun c h => hc c (List.mem_cons_of_mem _ h))
      refine ⟨b, hb, fun hf hall => hb2 ?_ (fun c h => hall c (List.mem_cons_of_mem _ h))⟩
      rw [hf, Bool.true_and, List.any_eq_true]
      obtain ⟨n, hn, hn2⟩ := hall _ List.mem_cons_self hp
      obtain ⟨i, hi⟩ := List.getElem?_of_mem hn
      obtain ⟨x, hx, hx2⟩ := forall₂_at' hF hi
      rw [hn2] at hx2
      cases hx2
      exact ⟨true, List.mem_of_getElem? hx, rfl⟩
    · obtain ⟨b, hb, hb2⟩ := existsCons_any (isConst := isConst) (cons := cons) f (fun c h => hc c (List.mem_cons_of_mem _ h))
      exact ⟨b, hb, fun hf hall => hb2 hf (fun c h => hall c (List.mem_cons_of_mem _ h))⟩

/-- `formula` before the constraints is built, and holds if one conjunction does. -/
theorem formula0_any (S : Setup P pb.ir pb.arch fi fa inW) (hT : Total P pb.arch) {bs : Bdgs} (hB : BdgsOk pb bs) {si : RVal} (hsi : RF.skels pb.ir.inT = [si])
    (hne : mapTriples bs ≠ []) (a : MAsg B) :
    ∃ b, mapFormula0 P.asm pb bs a = .ok b ∧ ((∃ t ∈ mapTriples bs, mapConj P.asm pb bs a t = .ok true) → b = true) := by
  obtain ⟨l, hl, hF⟩ := SF.exMap_ok (f := mapConj P.asm pb bs a) (l := mapTriples bs) (by
    rintro ⟨i, bi, bo, ib, ob⟩ ht
    obtain ⟨⟨m, hm, hb⟩, ho⟩ := mem_triples.mp ht
    refine conj_any S hB.uf hB.irBB hT bs a hsi ?_ (triple_lt hm hb) (List.getElem?_eq_some_iff.mp ho).1 ?_
    · have := (List.getElem?_eq_some_iff.mp hm).1
      rw [hB.ins, List.length_map] at this
      exact this
    · refine outs_typed S.ir_out.1 S.arch_out.1 ?_
      rw [← hB.outs]
      exact List.mem_of_getElem? ho)
  have hlne : l ≠ [] := by
    intro h
    rw [h] at hF
    cases ht : mapTriples bs with
    | nil => exact hne ht
    | cons _ _ => rw [ht] at hF; cases hF
  refine ⟨l.any id, by simp only [mapFormula0, hl, orReduce, if_neg hlne], fun ⟨t, ht, hct⟩ => ?_⟩
  rw [List.any_eq_true]
  obtain ⟨i, hi⟩ := List.getElem?_of_mem ht
  obtain ⟨x, hx, hx2⟩ := forall₂_at' hF hi
  rw [hct] at hx2
  cases hx2
  exact ⟨true, List.mem_of_getElem? hx, rfl⟩

/-- The formula is built, and holds if, for every choice of the allowed values of the constrained leaves that are not `Const`, one conjunction does, and the
constraints of the `Const` leaves do. -/
theorem formula_free_any (S : Setup P pb.ir pb.arch fi fa inW) (hT : Total P pb.arch) {bs : Bdgs} (hB : BdgsOk pb bs) {si : RVal} (hsi : RF.skels pb.ir.inT = [si])
    (hc : ∀ c ∈ pb.cons, c.2 ≠ []) (hd : (pb.cons.map (·.1)).Nodup) (hne : mapTriples bs ≠ []) (a : MAsg B) :
    ∃ b, mapFormula P.asm pb bs a = .ok b ∧
      ((∀ v, Choice (constAt pb.archConst) pb.cons v → ∃ t ∈ mapTriples bs, mapConj P.asm pb bs (setFree (constAt pb.archConst) pb.cons v a) t = .ok true) →
        (∀ c ∈ pb.cons, constAt pb.archConst c.1 = true → ∃ n ∈ c.2, consEq P.asm (leafTypes pb.arch.inT []) c.1 (a.arch c.1) n = .ok true) → b = true) := by
  obtain ⟨f, hf, hf2⟩ := forallCons_any (isConst := constAt pb.archConst) (cons := pb.cons) hc hd (mapFormula0 P.asm pb bs)
    (fun a => (formula0_any S hT hB hsi hne a).imp fun _ h => h.1) a
  obtain ⟨b, hb, hb2⟩ := existsCons_any (A := P.asm) (types := leafTypes pb.arch.inT []) (isConst := constAt pb.archConst) (v := a.arch) (cons := pb.cons) f (by
    intro c hcm
    refine ⟨hc c hcm, fun n _ => ?_⟩
    obtain ⟨⟨p, t⟩, hpt, hpe⟩ := List.mem_map.mp (hB.cons c hcm)
    simp only at hpe
    subst hpe
    exact ⟨_, consEq_ok P S.arch_in.1 hpt _ _⟩)
  refine ⟨b, by simp only [mapFormula, hf, hb], fun h1 h2 => hb2 (hf2 fun v hv => ?_) h2⟩
  obtain ⟨x, hx, hx2⟩ := formula0_any S hT hB hsi hne (setFree (constAt pb.archConst) pb.cons v a)
  rw [hx, hx2 (h1 v hv)]

/-- The formula is built, and holds if one conjunction and the constraints do. -/
theorem formula_any (S : Setup P pb.ir pb.arch fi fa inW) (hT : Total P pb.arch) {bs : Bdgs} (hB : BdgsOk pb bs) {si : RVal} (hsi : RF.skels pb.ir.inT = [si])
    (hc : ∀ c ∈ pb.cons, constAt pb.archConst c.1 = true ∧ c.2 ≠ []) (hne : mapTriples bs ≠ []) (a : MAsg B) :
    ∃ b, mapFormula P.asm pb bs a = .ok b ∧
      ((∃ t ∈ mapTriples bs, mapConj P.asm pb bs a t = .ok true) →
        (∀ c ∈ pb.cons, ∃ n ∈ c.2, consEq P.asm (leafTypes pb.arch.inT []) c.1 (a.arch c.1) n = .ok true) → b = true) := by
  obtain ⟨f, hf, hf2⟩ := formula0_any S hT hB hsi hne a
  obtain ⟨b, hb, hb2⟩ := existsCons_any (A := P.asm) (types := leafTypes pb.arch.inT []) (isConst := constAt pb.archConst) (v := a.arch) (cons := pb.cons) f (by
    intro c hcm
    refine ⟨(hc c hcm).2, fun n _ => ?_⟩
    obtain ⟨⟨p, t⟩, hpt, hpe⟩ := List.mem_map.mp (hB.cons c hcm)
    simp only at hpe
    subst hpe
    exact ⟨_, consEq_ok P S.arch_in.1 hpt _ _⟩)
  exact ⟨b, by simp only [mapFormula, forallCons_const (fun c h => (hc c h).1), hf, hb], fun h1 h2 => hb2 (hf2 h1) (fun c h _ => h2 c h)⟩

/-- The bindings are enumerated. -/
theorem bindings_any' (S : Setup P pb.ir pb.arch fi fa inW) (hT : Total P pb.arch) (hu : UnionFree pb.ir.inT) (simple : Bool)
    (h0 : simple = false → pb.ir.bbs = [] ∧ pb.arch.bbs = []) (hc : ∀ c ∈ pb.cons, c.1 ∈ (leafTypes pb.arch.inT []).map (·.1)) (hk : ∃ c fs k, pb.arch.inT = .prod c fs ∧ k ∈ fs.toList.map (·.1) ∧ [k] ∈ pb.archConst)
    (hin : ∃ s ∈ RF.skels pb.arch.inT, formB pb s ≠ []) (hout : createBindings (leafTypes pb.arch.outT []) (leafTypes pb.ir.outT []) ≠ []) :
    mapBindings P.asm pb simple = .ok (some ⟨(RF.skels pb.arch.inT).map (formB pb), createBindings (leafTypes pb.arch.outT []) (leafTypes pb.ir.outT [])⟩) := by
  obtain ⟨am, h1, r1⟩ := mapper_any P hT S.arch_in S.arch_out pb.archConst (fun _ => 0) (fun _ => 0) (fun _ _ => 0)
  obtain ⟨im, h3⟩ := mapper_one P S.ir_fn S.ir_in S.ir_out hu pb.irConst (fun _ => 0) (fun _ => 0) (fun _ _ => 0)
  have hlen := (RF.raw_ok P _ _ _ S.ir_in.1 S.ir_in.2 _ _ (mapper_inv h3).1).length_eq
  rw [RF.skels_one _ hu] at hlen
  have hn1 := nOut_one h1 S.arch_out.2.2
  have hn3 := nOut_one h3 S.ir_out.2.2
  simp only [mapBindings, h1, h3]
  rw [if_neg (by omega), if_pos (by
    rw [List.all_eq_true]
    intro c hcm
    rw [List.contains_iff_mem]
    exact hc c hcm)]
  rw [if_neg (by omega), if_neg (by omega), if_neg (by
    rintro ⟨hs, hb⟩
    rcases hb with hb | hb
    · exact hb (h0 hs).1
    · exact hb (h0 hs).2)]
  rw [if_pos (by
    rw [RF.varmap_leaves P _ _ _ _ _ (mapper_inv h3).1]
    exact VF.samePaths_of (fun _ => Iff.rfl))]
  rw [formBindings_ok S.arch_in.1 S.arch_in.2 (mapper_inv h1).1]
  simp only
  rw [if_neg (by
    rw [List.all_eq_true]
    intro h
    obtain ⟨s, hs, hne⟩ := hin
    have := h _ (List.mem_map.mpr ⟨s, hs, rfl⟩)
    exact hne (List.isEmpty_iff.mp this))]
  rw [if_neg (by simpa using hout)]
  rw [if_pos]
  rw [List.all_eq_true]
  intro row hrow
  obtain ⟨o, _, _, h⟩ := r1 row hrow
  obtain ⟨c, fs, k, e1, e2, e3⟩ := hk
  cases hv : row.valid with
  | nil => exact absurd e3 (h hv c fs e1 k e2)
  | cons _ _ => rfl

/-- Without bindings there is an early out. -/
theorem bindings_none' (S : Setup P pb.ir pb.arch fi fa inW) (hT : Total P pb.arch) (hu : UnionFree pb.ir.inT) (simple : Bool)
    (h0 : simple = false → pb.ir.bbs = [] ∧ pb.arch.bbs = []) (hc : ∀ c ∈ pb.cons, c.1 ∈ (leafTypes pb.arch.inT []).map (·.1))
    (hno : (∀ s ∈ RF.skels pb.arch.inT, formB pb s = []) ∨ createBindings (leafTypes pb.arch.outT []) (leafTypes pb.ir.outT []) = []) :
    mapBindings P.asm pb simple = .ok none := by
  obtain ⟨am, h1, r1⟩ := mapper_any P hT S.arch_in S.arch_out pb.archConst (fun _ => 0) (fun _ => 0) (fun _ _ => 0)
  obtain ⟨im, h3⟩ := mapper_one P S.ir_fn S.ir_in S.ir_out hu pb.irConst (fun _ => 0) (fun _ => 0) (fun _ _ => 0)
  have hlen := (RF.raw_ok P _ _ _ S.ir_in.1 S.ir_in.2 _ _ (mapper_inv h3).1).length_eq
  rw [RF.skels_one _ hu] at hlen
  have hn1 := nOut_one h1 S.arch_out.2.2
  have hn3 := nOut_one h3 S.ir_out.2.2
  simp only [mapBindings, h1, h3]
  rw [if_neg (by omega), if_pos (by
    rw [List.all_eq_true]
    intro c hcm
    rw [List.contains_iff_mem]
    exact hc c hcm)]
  rw [if_neg (by omega), if_neg (by omega), if_neg (by
    rintro ⟨hs, hb⟩
    rcases hb with hb | hb
    · exact hb (h0 hs).1
    · exact hb (h0 hs).2)]
  rw [if_pos (by
    rw [RF.varmap_leaves P _ _ _ _ _ (mapper_inv h3).1]
    exact VF.samePaths_of (fun _ => Iff.rfl))]
  rw [formBindings_ok S.arch_in.1 S.arch_in.2 (mapper_inv h1).1]
  simp only
  split
  · rfl
  · next hne =>
    rcases hno with h | h
    · refine absurd ?_ hne
      rw [List.all_eq_true]
      intro l hl
      obtain ⟨s, hs, rfl⟩ := List.mem_map.mp hl
      rw [h s hs]
      rfl
    · rw [if_pos (by rw [h]; rfl)]

theorem bindings_none (S : Setup P pb.ir pb.arch fi fa inW) (hT : Total P pb.arch) (hu : UnionFree pb.ir.inT) (h0i : pb.ir.bbs = []) (h0a : pb.arch.bbs = [])
    (hc : ∀ c ∈ pb.cons, c.1 ∈ (leafTypes pb.arch.inT []).map (·.1))
    (hno : (∀ s ∈ RF.skels pb.arch.inT, formB pb s = []) ∨ createBindings (leafTypes pb.arch.outT []) (leafTypes pb.ir.outT []) = []) :
    mapBindings P.asm pb = .ok none := bindings_none' S hT hu false (fun _ => ⟨h0i, h0a⟩) hc hno

theorem bindings_any (S : Setup P pb.ir pb.arch fi fa inW) (hT : Total P pb.arch) (hu : UnionFree pb.ir.inT) (h0i : pb.ir.bbs = []) (h0a : pb.arch.bbs = [])
    (hc : ∀ c ∈ pb.cons, c.1 ∈ (leafTypes pb.arch.inT []).map (·.1)) (hk : ∃ c fs k, pb.arch.inT = .prod c fs ∧ k ∈ fs.toList.map (·.1) ∧ [k] ∈ pb.archConst)
    (hin : ∃ s ∈ RF.skels pb.arch.inT, formB pb s ≠ []) (hout : createBindings (leafTypes pb.arch.outT []) (leafTypes pb.ir.outT []) ≠ []) :
    mapBindings P.asm pb = .ok (some ⟨(RF.skels pb.arch.inT).map (formB pb), createBindings (leafTypes pb.arch.outT []) (leafTypes pb.ir.outT [])⟩) :=
  bindings_any' S hT hu false (fun _ => ⟨h0i, h0a⟩) hc hk hin hout

theorem leaf_field : ∀ (fs : Fields) (vs : List RVal) (ρ : RPath → Nat) (k : Key) (c : Nat) (ms : List EVal), RHasAll fs vs → (k, Ty.enum c ms) ∈ fs.toList →
    (k, mkAV (.enum c ms) (ρ [k] % 2 ^ width (.enum c ms))) ∈ inputDict fs (VF.fillAll fs vs ρ)
  | .nil, _, _, _, _, _, _, h => by cases h
  | .cons _ _ _, [], _, _, _, _, h, _ => by simp [RHasAll] at h
  | .cons k' t fs, v :: vs, ρ, k, c, ms, hr, h => by
    simp only [VF.fillAll, inputDict, List.mem_cons]
    simp only [Fields.toList, List.mem_cons, Prod.mk.injEq] at h
    rcases h with ⟨rfl, rfl⟩ | h
    · left
      have := hr.1
      cases v with
      | leaf n => simp [VF.fill, rawCode]
      | prod _ => simp [RHas] at this
      | sum _ _ => simp [RHas] at this
    · right
      exact leaf_field fs vs ρ k c ms hr.2 h

/-- A constant of the rule: `rrConst` raises for invalid enum codes only. -/
theorem const_any (P : Process) {t : Ty} (hl : VF.IsLeaf t) (hw : WF t) (n : Nat) :
    (∃ c, rrConst P.asm t (argOf t n) = .ok c) ∨ (rrConst P.asm t (argOf t n) = .error .valueError ∧
      ∃ c ms, t = .enum c ms ∧ isValidAV P.asm (mkAV t (n % 2 ^ width t)) = .ok false) := by
  rcases hl with ⟨k, w, rfl⟩ | ⟨k, rfl⟩ | ⟨k, ms, rfl⟩
  · left
    simp only [argOf, rrConst, rrWrap, new_bits P hw (by simp) (BV.ofNat_size _ _), mkAV]
    exact ⟨_, rfl⟩
  · left
    simp only [argOf, rrConst, rrWrap, AV.new]
    exact ⟨_, rfl⟩
  · obtain ⟨o, ho, hg⟩ := P.good hw
    simp only [argOf, rrConst, rrWrap, new_bits P hw (by simp) (BV.ofNat_size _ _), mkAV, isValidAV, ho]
    rw [VF.ofNat_mod, BV.ofNat_val, VF.ofNat_mod]
    by_cases hv : o.isValid (BV.ofNat (width (.enum k ms)) n) = true
    · left; rw [if_pos hv]; exact ⟨_, rfl⟩
    · right; rw [if_neg hv]; exact ⟨rfl, k, ms, rfl, by rw [Bool.not_eq_true] at hv; rw [hv]⟩

theorem entries_any {A : Ty → Except Err AsmObj} {types : RPath → Option Ty} {Q : Prop} : ∀ (l : List (RArg × RPath)),
    (∀ e ∈ l, (∃ e', rrEntry A types e = .ok e') ∨ (rrEntry A types e = .error .valueError ∧ Q)) →
    (∃ l', rrEntries A types l = .ok l') ∨ (rrEntries A types l = .error .valueError ∧ Q)
  | [], _ => .inl ⟨[], rfl⟩
  | e :: l, h => by
    rcases h e List.mem_cons_self with ⟨e', he⟩ | ⟨he, hq⟩
    · rcases entries_any l (fun e h' => h e (List.mem_cons_of_mem _ h')) with ⟨l', hl⟩ | ⟨hl, hq⟩
      · left; simp only [rrEntries, he, hl]; exact ⟨_, rfl⟩
      · right; simp only [rrEntries, he, hl]; exact ⟨trivial, hq⟩
    · right; simp only [rrEntries, he]; exact ⟨trivial, hq⟩

/-- The constructor of the rule raises only if an enum leaf that is `Const` or constrained has an invalid code. -/
theorem rule_any0 (S : Setup P pb.ir pb.arch fi fa inW) {bs : Bdgs} (hB : BdgsOk0 pb bs)
    {a : MAsg B} {s : RVal} {i bi bo : Nat} {l : List Bdg} {ib ob : Bdg}
    (hs : (RF.skels pb.arch.inT)[i]? = some s) (hl : bs.ins[i]? = some l) (hib : l[bi]? = some ib) (hob : bs.outs[bo]? = some ob)
    (hm1 : pb.enc.matchIndex (RF.skels pb.arch.inT).length (ivar pb.enc (RF.skels pb.arch.inT).length a.fi) i = .ok true)
    (hm2 : pb.enc.matchIndex bs.maxIns (ivar pb.enc bs.maxIns a.ib) bi = .ok true)
    (hm3 : pb.enc.matchIndex bs.outs.length (ivar pb.enc bs.outs.length a.ob) bo = .ok true) :
    (∃ r, rrFromSolver P.asm pb bs a = .ok r) ∨
      (rrFromSolver P.asm pb bs a = .error .valueError ∧ ∃ p c ms, (p, Ty.enum c ms) ∈ leafTypes pb.arch.inT [] ∧
        (IsConst pb.archConst p ∨ p ∈ pb.cons.map (·.1)) ∧ (none, p) ∈ ib ∧ isValidAV P.asm (mkAV (.enum c ms) (a.arch p % 2 ^ width (.enum c ms))) = .ok false) := by
  obtain ⟨res, hres, _⟩ := SF.forms_ok P a.arch a.archTag pb.arch.inT S.arch_in.1 S.arch_in.2 []
  have hraw := RF.raw_ok P _ _ _ S.arch_in.1 S.arch_in.2 _ _ hres
  have hlen : res.forms.length = (RF.skels pb.arch.inT).length := hraw.length_eq
  obtain ⟨f, hf, hF⟩ := forall₂_at hraw hs
  have hsh := hF.has
  have hl' : l = formB pb s := by
    rw [hB.ins, List.getElem?_map, hs] at hl
    cases hl
    rfl
  have hBO := formB_ok S.ir_in.1 S.arch_in.1 hsh (hl' ▸ List.mem_of_getElem? hib)
  have d1 := (C30_decode pb.enc _ _ (ivar_size _ _ _) i).1.mpr ⟨match_lt hm1, hm1⟩
  have d2 := (C30_decode pb.enc _ _ (ivar_size _ _ _) bi).1.mpr ⟨match_lt hm2, hm2⟩
  have d3 := (C30_decode pb.enc _ _ (ivar_size _ _ _) bo).1.mpr ⟨match_lt hm3, hm3⟩
  -- the leaf of an entry
  have hleaf : ∀ e ∈ ib, ∃ t, (e.2, t) ∈ leafTypes pb.arch.inT [] ∧ solvedLeaf (leafTypes pb.arch.inT []) f e.2 = .ok (argOf t (a.arch e.2)) := by
    intro e he
    have hp := hBO.paths.subset (List.mem_map.mpr ⟨e, he, rfl⟩)
    obtain ⟨l0, hl0, hle⟩ := List.mem_map.mp hp
    have hty := VF.mem_types hsh (p := l0.1) (u := l0.2.1) (n := l0.2.2) hl0
    rw [hle] at hty
    refine ⟨l0.2.1, hty, ?_⟩
    have hn : (f.leaves.map (·.1)).Nodup := by rw [forms_paths hF]; exact VF.leaves_nodup S.arch_in.1 hsh
    have hm : (e.2, BV.ofNat (width l0.2.1) (a.arch e.2)) ∈ f.leaves := by
      rw [hF.leaves, (VF.fill_spec _ _ _ hsh).2, List.map_map]
      refine List.mem_map.mpr ⟨l0, hl0, ?_⟩
      simp only [Function.comp_apply, RF.leafOf, VF.refl, RF.below, List.nil_append, Prod.mk.injEq, hle, true_and]
      rw [VF.ofNat_mod]
    simp only [solvedLeaf, VF.lookup_of_mem' hn hm, VF.lookup_of_mem' (VF.types_nodup _ S.arch_in.1) hty]
    rcases (VF.types_leaf _ S.arch_in.1 _ hty).1 with ⟨k, w, hk⟩ | ⟨k, hk⟩ | ⟨k, ms, hk⟩ <;> simp only at hk <;> rw [hk] <;> rfl
  obtain ⟨args, hargs, hAF⟩ := SF.exMap_ok (f := solvedEntry pb f) (l := ib) (by
    intro e he
    obtain ⟨t, _, ht⟩ := hleaf e he
    simp only [solvedEntry]
    split
    · exact ⟨_, rfl⟩
    · split
      · rw [ht]; exact ⟨_, rfl⟩
      · exact ⟨_, rfl⟩)
  have hE := entries_any (A := P.asm) (types := fun p => (leafTypes pb.arch.inT []).lookup p)
    (Q := ∃ p c ms, (p, Ty.enum c ms) ∈ leafTypes pb.arch.inT [] ∧
        (IsConst pb.archConst p ∨ p ∈ pb.cons.map (·.1)) ∧ (none, p) ∈ ib ∧ isValidAV P.asm (mkAV (.enum c ms) (a.arch p % 2 ^ width (.enum c ms))) = .ok false) args (by
    intro x hx
    obtain ⟨j, hj⟩ := List.getElem?_of_mem hx
    obtain ⟨e, he, hxe⟩ := forall₂_at hAF hj
    have he := List.mem_of_getElem? he
    obtain ⟨t, hty, ht⟩ := hleaf e he
    have hlk := VF.lookup_of_mem' (VF.types_nodup _ S.arch_in.1) hty
    obtain ⟨hlf, hwt⟩ := VF.types_leaf _ S.arch_in.1 _ hty
    simp only [solvedEntry] at hxe
    split at hxe
    · cases hxe
      exact .inl ⟨_, rfl⟩
    · next hnone =>
      split at hxe
      · next hcc =>
        rw [ht] at hxe
        cases hxe
        have hcA : IsConst pb.archConst e.2 ∨ e.2 ∈ pb.cons.map (·.1) := by
          simpa only [Bool.or_eq_true, List.contains_iff_mem, constAt_iff] using hcc
        have hre : rrEntry P.asm (fun p => (leafTypes pb.arch.inT []).lookup p) (argOf t (a.arch e.2), e.2) =
            match rrConst P.asm t (argOf t (a.arch e.2)) with
            | .error err => .error err
            | .ok c => .ok (.const c, e.2) := by
          simp only [rrEntry]
          rcases hlf with ⟨k, w, hk⟩ | ⟨k, hk⟩ | ⟨k, ms, hk⟩ <;> simp only at hk <;> subst hk <;> simp only [argOf, hlk] <;> rfl
        rw [hre]
        rcases const_any P hlf hwt (a.arch e.2) with ⟨c, hc⟩ | ⟨hc, c, ms, htc, hval⟩
        · left; rw [hc]; exact ⟨_, rfl⟩
        · right
          rw [hc]
          simp only at htc
          subst htc
          exact ⟨rfl, e.2, c, ms, hty, hcA, by
            obtain ⟨x, p⟩ := e
            simp only at hnone
            rw [← hnone]
            exact he, hval⟩
      · cases hxe
        left
        simp only [rrEntry, hlk]
        exact ⟨_, rfl⟩)
  simp only [rrFromSolver, hres, hlen, d1, d2, d3, hf, hl, Option.bind_some, hib, hob, hargs, mkRule]
  rcases hE with ⟨l', hl'⟩ | ⟨hl', hq⟩
  · left; rw [hl']; exact ⟨_, rfl⟩
  · right; rw [hl']; exact ⟨rfl, hq⟩

/-- The constructor of the rule raises only if an enum leaf that is `Const`, and is not itself a field wrapped in `Const`, has an invalid code. -/
theorem rule_any (S : Setup P pb.ir pb.arch fi fa inW) {bs : Bdgs} (hB : BdgsOk pb bs)
    {a : MAsg B} {s : RVal} {i bi bo : Nat} {l : List Bdg} {ib ob : Bdg}
    (hs : (RF.skels pb.arch.inT)[i]? = some s) (hl : bs.ins[i]? = some l) (hib : l[bi]? = some ib) (hob : bs.outs[bo]? = some ob)
    (hm1 : pb.enc.matchIndex (RF.skels pb.arch.inT).length (ivar pb.enc (RF.skels pb.arch.inT).length a.fi) i = .ok true)
    (hm2 : pb.enc.matchIndex bs.maxIns (ivar pb.enc bs.maxIns a.ib) bi = .ok true)
    (hm3 : pb.enc.matchIndex bs.outs.length (ivar pb.enc bs.outs.length a.ob) bo = .ok true)
    (hvalid : ∀ vs, VF.fill pb.arch.inT s a.arch = .prod vs → ConstsValid P.asm pb.arch.inT pb.archConst vs) :
    (∃ r, rrFromSolver P.asm pb bs a = .ok r) ∨
      (rrFromSolver P.asm pb bs a = .error .valueError ∧ ∃ p c ms, (p, Ty.enum c ms) ∈ leafTypes pb.arch.inT [] ∧
        (IsConst pb.archConst p ∨ p ∈ pb.cons.map (·.1)) ∧ ¬ ∃ k, p = [k] ∧ [k] ∈ pb.archConst ∧ (k, Ty.enum c ms) ∈ pb.arch.inT.fieldDict) := by
  rcases rule_any0 S hB.toBdgsOk0 hs hl hib hob hm1 hm2 hm3 with h | ⟨h, p, c, ms, hty, hcA, _, hval⟩
  · exact .inl h
  · refine .inr ⟨h, p, c, ms, hty, hcA, ?_⟩
    have hsh : RHas pb.arch.inT s := skels_mem_has (P := P) S.arch_in.1 S.arch_in.2 (List.mem_of_getElem? hs)
    rintro ⟨k, hk1, hk2, hk3⟩
    obtain ⟨ci, fs, _, _, hT, _⟩ := S.arch_fn
    rw [hT] at hsh hk3
    obtain ⟨vs, rfl⟩ : ∃ vs, s = .prod vs := by
      cases s with
      | leaf _ => simp [RHas] at hsh
      | sum _ _ => simp [RHas] at hsh
      | prod vs => exact ⟨vs, rfl⟩
    have hv := hvalid (VF.fillAll fs vs a.arch) (by rw [hT]; simp only [VF.fill]) ci fs hT k _ (leaf_field fs vs a.arch k c ms hsh hk3) hk2
    rw [hk1] at hval
    rw [hval] at hv
    cases hv

end

end Peak.IM
