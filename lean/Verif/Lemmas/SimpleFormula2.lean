import Verif.Lemmas.SimpleFormula
import Verif.Spec.SimpleFormula
/-!
# Lemmas for C55: the simple formula is built without an exception
-/

namespace Peak.SFm
open Peak Peak.Spec

theorem and_any {l : List Bool} (hn : l ≠ []) : fcAnd l = .ok (l.all id) := by simp only [fcAnd, if_neg hn]
theorem or_any {l : List Bool} (hn : l ≠ []) : fcOr l = .ok (l.any id) := by simp only [fcOr, if_neg hn]

theorem bindEqs_any {cons : List RPath} {al il : List (RPath × BV)} : ∀ {b : Bdg},
    (∀ x p, (x, p) ∈ b → ∃ v, al.lookup p = some v ∧ ∀ q, x = some q → p ∉ cons ∧ ∃ w, il.lookup q = some w ∧ v.size = w.size) →
    ∃ cs, sBindEqs cons al il b = .ok cs ∧
      ((∀ c ∈ cs, c = true) → ∀ q p v w, (some q, p) ∈ b → al.lookup p = some v → il.lookup q = some w → v = w)
  | [], _ => ⟨[], rfl, fun _ q p v w h => by cases h⟩
  | (x, p) :: b, h => by
    obtain ⟨v, hv, hx⟩ := h x p List.mem_cons_self
    obtain ⟨cs, h1, h2⟩ := bindEqs_any (b := b) (fun x p hm => h x p (List.mem_cons_of_mem _ hm))
    cases x with
    | none =>
      refine ⟨cs, by simp only [sBindEqs, hv]; exact h1, ?_⟩
      intro ha q p' v' w' hm
      rcases List.mem_cons.mp hm with hm | hm
      · cases hm
      · exact h2 ha q p' v' w' hm
    | some q =>
      obtain ⟨hc, w, hw, hs⟩ := hx q rfl
      refine ⟨(v.val == w.val) :: cs, ?_, ?_⟩
      · simp only [sBindEqs, hv]
        rw [if_neg (by simpa using hc)]
        simp only [hw, leafEq, hs, if_true, h1, bind, Except.bind]
      · intro ha q' p' v' w' hm hv' hw'
        rcases List.mem_cons.mp hm with hm | hm
        · cases hm
          rw [hv] at hv'; cases hv'
          rw [hw] at hw'; cases hw'
          have := ha _ List.mem_cons_self
          rw [beq_iff_eq] at this
          exact BV.ext hs this
        · exact h2 (fun c hc => ha c (List.mem_cons_of_mem _ hc)) q' p' v' w' hm hv' hw'

/-- The equalities of flat outputs. -/
theorem fieldEqs_any (P : Process) {ci ca : Nat} {fi fa : Fields} {wi wa : List RVal} (hwi : WF (.prod ci fi)) (hwa : WF (.prod ca fa))
    (fli : Flat (.prod ci fi)) (fla : Flat (.prod ca fa))
    (hi : RHas (.prod ci fi) (.prod wi)) (ha : RHas (.prod ca fa) (.prod wa)) : ∀ {ob : Bdg},
    (∀ q p, (some q, p) ∈ ob → ∃ t, (q, t) ∈ leafTypes (.prod ci fi) [] ∧ (p, t) ∈ leafTypes (.prod ca fa) []) →
    ∃ eqs, fieldEqs P.asm ((inputDict fi wi).map (fun e => ([e.1], e.2))) ((inputDict fa wa).map (fun e => ([e.1], e.2))) ob = .ok eqs ∧
      (OutputsAgree (.prod ci fi) (.prod ca fa) ob (.prod wi) (.prod wa) → ∀ b ∈ eqs, b = true) ∧ (eqs = [] → ∀ q p, (some q, p) ∉ ob)
  | [], _ => ⟨[], rfl, by simp, by simp⟩
  | (none, p') :: ob, hty => by
    obtain ⟨eqs, h1, h2, h3⟩ := fieldEqs_any P hwi hwa fli fla hi ha (ob := ob) (fun q p hm => hty q p (List.mem_cons_of_mem _ hm))
    refine ⟨eqs, h1, fun h => h2 (fun q p hm => h q p (List.mem_cons_of_mem _ hm)), fun he q p hm => ?_⟩
    rcases List.mem_cons.mp hm with hm | hm
    · cases hm
    · exact h3 he q p hm
  | (some q', p') :: ob, hty => by
    obtain ⟨eqs, h1, h2, h3⟩ := fieldEqs_any P hwi hwa fli fla hi ha (ob := ob) (fun q p hm => hty q p (List.mem_cons_of_mem _ hm))
    obtain ⟨t, t1, t2⟩ := hty q' p' List.mem_cons_self
    obtain ⟨k, rfl⟩ := fli _ _ t1
    obtain ⟨k', rfl⟩ := fla _ _ t2
    obtain ⟨l1, w1, n, n1, n2, n3⟩ := out_field hwi hi t1
    obtain ⟨l2, w2, m, m1, m2, m3⟩ := out_field hwa ha t2
    refine ⟨(n == m) :: eqs, ?_, ?_, fun he => by cases he⟩
    · simp only [fieldEqs, n3, m3, fieldEq_ok P l1 w1 n1 m1, h1, bind, Except.bind]
    · intro h b hb
      rcases List.mem_cons.mp hb with rfl | hb
      · obtain ⟨t', u', n', g1, g2⟩ := h [k] [k'] List.mem_cons_self
        have e1 := VF.eq_of_fst (VF.leaves_nodup hwi hi) g1 n2
        have e2 := VF.eq_of_fst (VF.leaves_nodup hwa ha) g2 m2
        simp only [Prod.mk.injEq] at e1 e2
        rw [beq_iff_eq, ← e1.2, ← e2.2]
      · exact h2 (fun q p hm => h q p (List.mem_cons_of_mem _ hm)) b hb

theorem consConds_any {A : Ty → Except Err AsmObj} {types : List (RPath × Ty)} {isConst : RPath → Bool} {v : RPath → Nat} (const : Bool) :
    ∀ {cons : List (RPath × List Nat)}, (∀ c ∈ cons, c.2 ≠ [] ∧ ∀ n ∈ c.2, ∃ b, consEq A types c.1 (v c.1) n = .ok b) →
      ∃ l, consConds A types isConst v const cons = .ok l ∧
        ((∀ c ∈ cons, isConst c.1 = const → ∃ n ∈ c.2, consEq A types c.1 (v c.1) n = .ok true) → ∀ b ∈ l, b = true)
  | [], _ => ⟨[], rfl, fun _ b h => by cases h⟩
  | (p, cs) :: cons, h => by
    obtain ⟨l, h1, h2⟩ := consConds_any (isConst := isConst) const (cons := cons) (fun c hc => h c (List.mem_cons_of_mem _ hc))
    simp only [consConds]
    by_cases hp : isConst p = const
    · rw [if_pos hp]
      obtain ⟨g1, g2⟩ := h (p, cs) List.mem_cons_self
      obtain ⟨m, hm, hF⟩ := SF.exMap_ok g2
      have hne : m ≠ [] := by
        intro hn
        rw [hn] at hF
        cases hcs : cs with
        | nil => exact g1 hcs
        | cons _ _ => simp only [hcs] at hF; cases hF
      simp only at hm
      refine ⟨m.any id :: l, by simp only [hm, or_any hne, h1, bind, Except.bind], ?_⟩
      intro hall b hb
      rcases List.mem_cons.mp hb with rfl | hb
      · obtain ⟨n, hn, hnt⟩ := hall (p, cs) List.mem_cons_self hp
        obtain ⟨j, hj⟩ := List.getElem?_of_mem hn
        obtain ⟨x, hx, hxe⟩ := IM.forall₂_at' hF hj
        simp only at hnt hxe
        rw [hnt] at hxe
        cases hxe
        rw [List.any_eq_true]
        exact ⟨true, List.mem_of_getElem? hx, rfl⟩
      · exact h2 (fun c hc => hall c (List.mem_cons_of_mem _ hc)) b hb
    · rw [if_neg hp]
      exact ⟨l, h1, fun hall => h2 (fun c hc => hall c (List.mem_cons_of_mem _ hc))⟩

theorem run_any (P : Process) {B K : Type} {obj : PeakObj B K} (hT : Total P obj) (hin : WF obj.inT ∧ Buildable obj.inT)
    (hout : WF obj.outT ∧ Buildable obj.outT ∧ UnionFree obj.outT) (bb : List (B × List BV)) (n : Nat) :
    ∃ d ci fi co fo ws, obj.inT = .prod ci fi ∧ obj.outT = .prod co fo ∧ RHas obj.outT (.prod ws) ∧ productToDict P.asm obj.inT (mkAV obj.inT n) = .ok d ∧ IsArgs fi d ∧
      simpleRun P.asm obj d bb = .ok ((inputDict fo ws).map (fun e => ([e.1], e.2))) := by
  obtain ⟨ci, fi, co, fo, h1, h2, h3⟩ := hT
  rw [h1] at hin
  obtain ⟨d, d1, d2⟩ := IM.dict_any P hin.1 hin.2 n
  obtain ⟨ws, g1, g2⟩ := h3 d bb d2
  refine ⟨d, ci, fi, co, fo, ws, h1, h2, g1, by rw [h1]; exact d1, d2, ?_⟩
  rw [h2] at hout g1
  simp only [simpleRun, h2]
  rw [VF.fromFields_raw P hout.1 hout.2.1 g1 g2]
  simp only [bind, Except.bind, VF.dict_ok P hout.1 g1]

section
variable {B K : Type} [DecidableEq B] [DecidableEq K] {pb : MapPb B K} {bs : Bdgs} {P : Process} {fi fa : Fn B} {inW : K → List Nat}

omit [DecidableEq K] in
theorem outs_lookup (obj : PeakObj B K) (hn : (obj.bbs.map (·.1)).Nodup) (β : B → Nat → Nat) {b : B} {k : K} (h : (b, k) ∈ obj.bbs) :
    ∃ o, (obj.bbOuts β).lookup b = some o ∧ o.map BV.size = obj.bbOutW k := by
  have := VF.lookup_map_nodup (fun b : B × K => (obj.bbOutW b.2).mapIdx (fun i w => BV.ofNat w (β b.1 i))) hn h
  refine ⟨_, this, ?_⟩
  apply List.ext_getElem
  · simp
  · intro i h1 h2; simp

/-- The conditions under which the formula is built. -/
structure Ready (P : Process) (pb : MapPb B K) (bs : Bdgs) (fi fa : Fn B) (inW : K → List Nat) : Prop where
  S : Setup P pb.ir pb.arch fi fa inW
  hT : Total P pb.arch
  hTb : TotalBoxes pb.arch inW
  hB : IM.BdgsOk0 pb bs
  hc : ∀ c ∈ pb.cons, c.2 ≠ []
  fli : Flat pb.ir.outT
  fla : Flat pb.arch.outT
  some_out : leafTypes pb.ir.outT [] ≠ []
  hk : ∃ k t, (k, t) ∈ pb.arch.inT.fieldDict ∧ [k] ∈ pb.archConst
  ins : bs.fbs ≠ []
  outs : bs.outs ≠ []

omit [DecidableEq K] in
theorem Ready.out_typed (R : Ready P pb bs fi fa inW) {ob : Bdg} (h : ob ∈ bs.outs) :
    (∀ q p, (some q, p) ∈ ob → ∃ t, (q, t) ∈ leafTypes pb.ir.outT [] ∧ (p, t) ∈ leafTypes pb.arch.outT []) ∧ ∃ q p, (some q, p) ∈ ob := by
  rw [R.hB.outs] at h
  obtain ⟨f, hR, hf⟩ := C28_sound _ _ (VF.types_nodup _ R.S.arch_out.1) (VF.types_nodup _ R.S.ir_out.1) ob h
  constructor
  · intro q p he
    have hp := hR.1.subset (List.mem_map.mpr ⟨_, he, rfl⟩)
    obtain ⟨⟨p', t⟩, hpt, rfl⟩ := List.mem_map.mp hp
    exact ⟨t, hf.typed p' t q hpt (hR.2 _ he).symm, hpt⟩
  · obtain ⟨⟨q, t⟩, hq⟩ := List.exists_mem_of_ne_nil _ R.some_out
    obtain ⟨p, hp, hfp, _⟩ := hf.once q t hq
    obtain ⟨⟨x, p'⟩, he, rfl⟩ := List.mem_map.mp (hR.1.symm.subset hp)
    have := hR.2 _ he
    simp only at this
    exact ⟨q, p', by rw [← hfp, ← this]; exact he⟩

theorem exMap_ne {α β : Type} {f : α → Except Err β} {l : List α} {m : List β} (h : exMap f l = .ok m) (hl : l ≠ []) : m ≠ [] := by
  have := (RF.exMap_forall₂ h).length_eq
  intro hm
  rw [hm] at this
  exact hl (List.eq_nil_of_length_eq_zero this)

theorem formula_any (R : Ready P pb bs fi fa inW) (a : SAsg B) :
    ∃ x ares ires da di archOut irOut valid forms exC faC fbs obs,
      Parts P.asm pb bs a (subArch pb bs (RF.skels pb.arch.inT).length a) ares ires da di archOut irOut valid forms exC faC fbs obs ∧
      simpleFormula P.asm pb bs a = .ok x ∧
      (((∃ F : K → List BV → List BV, BoxesCompute F pb.arch.bbs (pb.arch.run da (pb.arch.bbOuts a.m.archBB)).2 (pb.arch.bbOuts a.m.archBB) ∧
        BoxesCompute F pb.ir.bbs (pb.ir.run di (pb.ir.bbOuts a.m.irBB)).2 (pb.ir.bbOuts a.m.irBB)) → Holds valid forms exC faC fbs obs) → x = true) := by
  have S := R.S
  obtain ⟨si, hsi⟩ := List.length_eq_one_iff.mp (RF.skels_one _ R.hB.uf)
  have hsih : RHas pb.ir.inT si := IM.skels_mem_has (P := P) S.ir_in.1 S.ir_in.2 (by rw [hsi]; exact List.mem_singleton.mpr rfl)
  obtain ⟨res, hres, _⟩ := SF.forms_ok P a.m.arch a.m.archTag pb.arch.inT S.arch_in.1 S.arch_in.2 []
  have hlen0 := forms_length S.arch_in.1 S.arch_in.2 hres
  obtain ⟨ares, hares, hav⟩ := SF.forms_ok P (subArch pb bs (RF.skels pb.arch.inT).length a) a.m.archTag pb.arch.inT S.arch_in.1 S.arch_in.2 []
  have hlen := forms_length S.arch_in.1 S.arch_in.2 hares
  obtain ⟨ires, hires, _⟩ := SF.forms_ok P a.m.ir a.m.irTag pb.ir.inT S.ir_in.1 S.ir_in.2 []
  obtain ⟨n, _, hn⟩ := hav.val
  obtain ⟨da, cai, fai, cao, fao, wa, a1, a2, a3, a4, a5, a6⟩ := run_any P R.hT S.arch_in S.arch_out (pb.arch.bbOuts a.m.archBB) n
  rw [← hn] at a4
  have vi : ires.value = mkAV pb.ir.inT (rawCode pb.ir.inT (VF.fill pb.ir.inT si a.m.ir)) := by
    obtain ⟨f, hf, hF⟩ := IM.forall₂_at (RF.raw_ok P _ _ _ S.ir_in.1 S.ir_in.2 _ _ hires) (i := 0) (b := si) (by rw [hsi]; rfl)
    obtain ⟨g1, g2⟩ := hF.val (RF.tags_unionFree _ _ _ _ R.hB.uf)
    exact g2.trans g1
  obtain ⟨di, cio, fio, wi, b1, b2, b3, b4, b5, b6, _⟩ := run_ok P S.ir_fn S.ir_in.1 S.ir_out (pb.ir.bbOuts a.m.irBB) (VF.fill_spec _ si a.m.ir hsih).1
  rw [← vi] at b4
  have hvalid : ∃ valid, exMap (validField P.asm da) ((pb.arch.inT.fieldDict.map (·.1)).filter (fun k => pb.archConst.contains [k])) = .ok valid ∧ valid ≠ [] := by
    have hin := S.arch_in.1
    obtain ⟨k, t, hk1, hk2⟩ := R.hk
    rw [a1] at hin hk1 ⊢
    obtain ⟨valid, v1, v2⟩ := IM.valid_any P (cs := pb.archConst) hin a5
    exact ⟨valid, v1, fun hv => v2 hv k (List.mem_map.mpr ⟨_, hk1, rfl⟩) hk2⟩
  obtain ⟨valid, hvalid, hvne⟩ := hvalid
  obtain ⟨forms, hforms, _⟩ := SF.exMap_ok (f := formCond pb ares.forms.length a.m ares.varmap) (l := ares.forms.zipIdx) (by
    rintro ⟨f, i⟩ hf
    rw [List.mem_zipIdx_iff_getElem?] at hf
    obtain ⟨x, hx⟩ := IM.match_ok pb.enc ares.forms.length (ivar pb.enc ares.forms.length a.m.fi) (List.getElem?_eq_some_iff.mp hf).1
    exact ⟨x && formMatches ares.varmap f, by simp only [formCond, hx, bind, Except.bind]⟩)
  have hfne : forms ≠ [] := by
    refine exMap_ne hforms ?_
    intro h
    have := congrArg List.length h
    simp only [List.length_zipIdx, List.length_nil, hlen] at this
    have := RF.skels_pos _ S.arch_in.1
    omega
  obtain ⟨fbs, hfbs, _⟩ := SF.exMap_ok (f := fbCond pb bs ares.forms.length a.m ares.varmap.leaves ires.varmap.leaves) (l := bs.fbs) (by
    rintro ⟨i, bi, ib⟩ hm
    obtain ⟨l, h1, h2⟩ := mem_fbs.mp hm
    have hi : i < ares.forms.length := by
      have := (List.getElem?_eq_some_iff.mp h1).1
      rw [R.hB.ins, List.length_map] at this
      rw [hlen]
      exact this
    obtain ⟨x, hx⟩ := IM.match_ok pb.enc ares.forms.length (ivar pb.enc ares.forms.length a.m.fi) hi
    obtain ⟨y, hy⟩ := IM.match_ok pb.enc bs.maxIns (ivar pb.enc bs.maxIns a.m.ib) (IM.triple_lt h1 h2)
    have hib : ∃ s, RHas pb.arch.inT s ∧ ib ∈ IM.formB pb s := by
      rw [R.hB.ins, List.getElem?_map, Option.map_eq_some_iff] at h1
      obtain ⟨s, hs, rfl⟩ := h1
      exact ⟨s, IM.skels_mem_has (P := P) S.arch_in.1 S.arch_in.2 (List.mem_of_getElem? hs), List.mem_of_getElem? h2⟩
    obtain ⟨s, hsh, hib⟩ := hib
    have hBO := IM.formB_ok S.ir_in.1 S.arch_in.1 hsh hib
    obtain ⟨cs, hcs, _⟩ := bindEqs_any (cons := pb.cons.map (·.1)) (al := ares.varmap.leaves) (il := ires.varmap.leaves) (b := ib) (by
      intro x p he
      obtain ⟨l0, hl0, hle⟩ := List.mem_map.mp (hBO.paths.subset (List.mem_map.mpr ⟨_, he, rfl⟩))
      have hty := VF.mem_types hsh (p := l0.1) (u := l0.2.1) (n := l0.2.2) hl0
      simp only at hle
      rw [hle] at hty
      refine ⟨_, varmap_lookup P S.arch_in.1 hares hty, ?_⟩
      rintro q rfl
      obtain ⟨g1, _, t, g3, g4⟩ := hBO.typed q p he
      refine ⟨g1, _, varmap_lookup P S.ir_in.1 hires g3, ?_⟩
      have htt := VF.eq_of_fst (VF.types_nodup _ S.arch_in.1) hty g4
      simp only [BV.ofNat_size]
      rw [htt])
    exact ⟨(x && y, x && y && cs.all id), by simp only [fbCond, matchFB, hx, hy, hcs, bind, Except.bind]⟩)
  have hbne := exMap_ne hfbs R.ins
  obtain ⟨obs, hobs, _⟩ := SF.exMap_ok (f := obCond P.asm pb bs a.m ((inputDict fio wi).map (fun e => ([e.1], e.2))) ((inputDict fao wa).map (fun e => ([e.1], e.2)))) (l := bs.outs.zipIdx) (by
    rintro ⟨ob, bo⟩ hm
    rw [List.mem_zipIdx_iff_getElem?] at hm
    obtain ⟨x, hx⟩ := IM.match_ok pb.enc bs.outs.length (ivar pb.enc bs.outs.length a.m.ob) (List.getElem?_eq_some_iff.mp hm).1
    obtain ⟨ht, q, p, hqp⟩ := R.out_typed (List.mem_of_getElem? hm)
    have S1 := S.ir_out.1
    have S2 := S.arch_out.1
    have f1 := R.fli
    have f2 := R.fla
    rw [b1] at b3 S1 f1 ht
    rw [a2] at a3 S2 f2 ht
    obtain ⟨eqs, e1, _, e3⟩ := fieldEqs_any P S1 S2 f1 f2 b3 a3 ht
    simp only at e1
    have hne : eqs ≠ [] := fun h => e3 h q p hqp
    exact ⟨(x, !x || eqs.all id), by simp only [obCond, hx, e1, and_any hne, bind, Except.bind]⟩)
  have hone := exMap_ne hobs (by
    intro h
    have := congrArg List.length h
    simp only [List.length_zipIdx, List.length_nil] at this
    exact R.outs (List.eq_nil_of_length_eq_zero this))
  have hcons : ∀ c ∈ pb.cons, c.2 ≠ [] ∧ ∀ n ∈ c.2, ∃ b, consEq P.asm (leafTypes pb.arch.inT []) c.1 (subArch pb bs (RF.skels pb.arch.inT).length a c.1) n = .ok b := by
    intro c hcm
    refine ⟨R.hc c hcm, fun n _ => ?_⟩
    obtain ⟨⟨p, t⟩, hpt, hpe⟩ := List.mem_map.mp (R.hB.cons c hcm)
    simp only at hpe
    subst hpe
    exact ⟨_, IM.consEq_ok P S.arch_in.1 hpt _ _⟩
  obtain ⟨exC, hexC, _⟩ := consConds_any (isConst := constAt pb.archConst) true hcons
  obtain ⟨faC, hfaC, _⟩ := consConds_any (isConst := constAt pb.archConst) false hcons
  have hin2 : ∀ (obj : PeakObj B K) (β : B → Nat → Nat), (obj.bbOuts β).map (·.1) = obj.bbs.map (·.1) := by
    intro obj β
    simp [PeakObj.bbOuts, List.map_map, Function.comp_def]
  obtain ⟨t1, t2⟩ := R.hTb cai fai a1 da (pb.arch.bbOuts a.m.archBB) a5
  obtain ⟨t3, t4⟩ := S.ir_boxes.2.2.2 _ (pb.ir.bbOuts a.m.irBB) (VF.fill_spec _ si a.m.ir hsih).1
  rw [← b6] at t3 t4
  let pre := ([valid.all id, forms.any id, (obs.map (·.1)).any id] ++ exC ++ [(fbs.map (·.1)).any id]).all id
  let f := pre && (!((faC ++ [(fbs.map (·.2)).any id]).all id) || (obs.map (·.2)).all id)
  obtain ⟨⟨g, fal⟩, hg⟩ := C35_succeeds f pb.arch.bbs (pb.arch.run da (pb.arch.bbOuts a.m.archBB)).2 (pb.arch.bbOuts a.m.archBB)
    pb.ir.bbs (pb.ir.run di (pb.ir.bbOuts a.m.irBB)).2 (pb.ir.bbOuts a.m.irBB) inW pb.arch.bbOutW S.arch_boxes.2.1 S.arch_boxes.2.2.1
    (by intro p; rw [t1, hin2]) (by intro p; rw [t3, hin2])
    (by
      intro p k hpk
      obtain ⟨i, i1, i2⟩ := t2 p k hpk
      obtain ⟨o, o1, o2⟩ := outs_lookup pb.arch S.arch_boxes.1 a.m.archBB hpk
      exact ⟨i, o, i1, o1, i2, o2⟩)
    (by
      intro p k hpk
      obtain ⟨i, i1, i2⟩ := t4 p k hpk
      obtain ⟨o, o1, o2⟩ := outs_lookup pb.ir S.ir_boxes.1 a.m.irBB hpk
      exact ⟨i, o, i1, o1, i2, by rw [o2, S.same_classes]⟩)
  refine ⟨g, ares, ires, da, di, _, _, valid, forms, exC, faC, fbs, obs, ⟨hares, hires, a4, b4, hvalid, hforms, hfbs, a6, b5, hobs, hexC, hfaC⟩, ?_, ?_⟩
  · rw [hlen, ← hlen0] at hforms hfbs
    rw [← hlen0] at hares hexC hfaC
    have m1 : fbs.map (·.1) ≠ [] := by simpa using hbne
    have m2 : fbs.map (·.2) ≠ [] := by simpa using hbne
    have m3 : obs.map (·.1) ≠ [] := by simpa using hone
    have m4 : obs.map (·.2) ≠ [] := by simpa using hone
    simp only [simpleFormula, hres, hares, hires, a4, b4, hvalid, hforms, hfbs, a6, b5, hobs, hexC, hfaC, and_any hvne, or_any hfne, or_any m1, or_any m2, or_any m3, and_any m4,
      bind, Except.bind]
    rw [and_any (by simp), and_any (by simp)]
    simp only
    rw [show pb.arch.bbOuts a.m.archBB = pb.arch.bbOuts a.m.archBB from rfl, hg]
  · intro hH
    refine (C35_uninterpreted _ _ _ _ _ _ _ _ _ hg).1.mpr ?_
    rintro ⟨F, hF⟩
    have hz := hH ⟨F, (VF.called_iff F _ _ _).mp (fun k i o h => hF k i o (.inl h)), (VF.called_iff F _ _ _).mp (fun k i o h => hF k i o (.inr h))⟩
    have p1 : pre = true := by
      simp only [pre, List.all_eq_true]
      intro b hb
      simp only [List.mem_append, List.mem_cons, List.not_mem_nil, or_false] at hb
      rcases hb with ((rfl | rfl | rfl) | hb) | rfl
      · simp only [id]; rw [List.all_eq_true]; exact hz.valid_h
      · simp only [id]; rw [List.any_eq_true]; exact ⟨_, hz.forms_h, rfl⟩
      · simp only [id]; rw [List.any_eq_true]; exact ⟨_, hz.obs_h, rfl⟩
      · exact hz.exC_h b hb
      · simp only [id]; rw [List.any_eq_true]; exact ⟨_, hz.fbs_h, rfl⟩
    simp only [f, p1, Bool.true_and, Bool.or_eq_true, Bool.not_eq_true']
    cases hall : (faC ++ [(fbs.map (·.2)).any id]).all id with
    | false => exact .inl rfl
    | true =>
      right
      rw [List.all_eq_true] at hall ⊢
      have hi : true ∈ fbs.map (·.2) := by
        have := hall _ (List.mem_append_right _ List.mem_cons_self)
        simp only [id] at this
        rw [List.any_eq_true] at this
        obtain ⟨x, hx, hxt⟩ := this
        exact hxt ▸ hx
      exact hz.impl_h (fun b hb => hall b (List.mem_append_left _ hb)) hi

end

end Peak.SFm
