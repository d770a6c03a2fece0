import Verif.Model.SimpleFormula
import Verif.Props.IRMapper
import Verif.Props.BBFormula
/-!
# Lemmas for C55: the simple formula
-/

namespace Peak.SFm
open Peak Peak.Spec

theorem exBind {α β : Type} {x : Except Err α} {f : α → Except Err β} {y : β} : (x >>= f) = .ok y ↔ ∃ a, x = .ok a ∧ f a = .ok y := by
  cases x with
  | error e => simp [bind, Except.bind]
  | ok a => simp [bind, Except.bind]

theorem and_true {l : List Bool} (h : fcAnd l = .ok true) : l.all id = true := by
  simp only [fcAnd] at h
  split at h
  · cases h
  · exact Except.ok.inj h

theorem or_true {l : List Bool} (h : fcOr l = .ok true) : true ∈ l := by
  simp only [fcOr] at h
  split at h
  · cases h
  · have := Except.ok.inj h
    rw [List.any_eq_true] at this
    obtain ⟨x, hx, hx'⟩ := this
    simp only [id] at hx'
    exact hx' ▸ hx

theorem or_of_mem {l : List Bool} (h : true ∈ l) : fcOr l = .ok true := by
  simp only [fcOr]
  rw [if_neg (fun hn => by rw [hn] at h; cases h)]
  congr 1
  rw [List.any_eq_true]
  exact ⟨true, h, rfl⟩

theorem or_of_not_mem {l : List Bool} (hn : l ≠ []) (h : true ∉ l) : fcOr l = .ok false := by
  simp only [fcOr]
  rw [if_neg hn]
  congr 1
  rw [List.any_eq_false]
  intro x hx hx'
  simp only [id] at hx'
  exact h (hx' ▸ hx)

theorem and_of_all {l : List Bool} (hn : l ≠ []) (h : ∀ b ∈ l, b = true) : fcAnd l = .ok true := by
  simp only [fcAnd]
  rw [if_neg hn]
  congr 1
  rw [List.all_eq_true]
  exact h

/-! ## the leaf variables -/

mutual
/-- The leaf variables have the values of the assignment. -/
theorem varmap_vals (P : Process) (ρ τ : RPath → Nat) : ∀ (t : Ty) (p : RPath) (r : FormsRes), WF t → smtForms P.asm ρ τ t p = .ok r →
    r.varmap.leaves = (leafTypes t p).map (fun l => (l.1, BV.ofNat (width l.2) (ρ l.1)))
  | .bv _ _, p, r, _, h => by cases h; rfl
  | .bit _, p, r, _, h => by cases h; rfl
  | .enum _ _, p, r, hw, h => by
    obtain ⟨o, ho, hg⟩ := P.good hw
    simp only [smtForms, ho, hg.width] at h
    split at h
    · cases h
    · cases h; rfl
  | .prod _ fs, p, r, hw, h => by
    simp only [smtForms] at h
    split at h
    · cases h
    · next rows hrows =>
      split at h
      · cases h
      · split at h
        · cases h
        · cases h
          simp only [leafTypes]
          exact varmap_valsF P ρ τ fs p rows hw.2 hrows
  | .sum _ fs, p, r, hw, h => by
    simp only [smtForms] at h
    split at h
    · cases h
    · split at h
      · cases h
      · split at h
        · cases h
        · next rows hrows =>
          split at h
          · cases h
          · cases h
            simp only [leafTypes, Varmap.append, List.nil_append]
            exact varmap_valsO P ρ τ _ _ fs p rows hw.2.2 hrows
theorem varmap_valsF (P : Process) (ρ τ : RPath → Nat) : ∀ (fs : Fields) (p : RPath) (rows : List FormsRes), WFs fs → smtFields P.asm ρ τ fs p = .ok rows →
    (rows.foldr (fun (r : FormsRes) (vm : Varmap) => r.varmap.append vm) (⟨[], [], []⟩ : Varmap)).leaves =
      (leafTypesF fs p).map (fun l => (l.1, BV.ofNat (width l.2) (ρ l.1)))
  | .nil, p, rows, _, h => by cases h; rfl
  | .cons k t fs, p, rows, hw, h => by
    simp only [smtFields] at h
    split at h
    · cases h
    · next r hr =>
      split at h
      · cases h
      · next rs hrs =>
        cases h
        simp only [List.foldr_cons, show ∀ a b : Varmap, (a.append b).leaves = a.leaves ++ b.leaves from fun _ _ => rfl, leafTypesF, List.map_append, varmap_vals P ρ τ t _ r hw.1 hr, varmap_valsF P ρ τ fs p rs hw.2 hrs]
theorem varmap_valsO (P : Process) (ρ τ : RPath → Nat) (u : Ty) (tag : BV) : ∀ (fs : Fields) (p : RPath) (rows : List (Key × FormsRes × Bool)), WFs fs →
    smtOptions P.asm ρ τ u tag fs p = .ok rows →
    (rows.foldr (fun (r : Key × FormsRes × Bool) (vm : Varmap) => r.2.1.varmap.append vm) (⟨[], [], []⟩ : Varmap)).leaves =
      (leafTypesF fs p).map (fun l => (l.1, BV.ofNat (width l.2) (ρ l.1)))
  | .nil, p, rows, _, h => by cases h; rfl
  | .cons k t fs, p, rows, hw, h => by
    simp only [smtOptions] at h
    split at h
    · cases h
    · next r hr =>
      split at h
      · cases h
      · split at h
        · cases h
        · split at h
          · cases h
          · split at h
            · cases h
            · next rs hrs =>
              cases h
              simp only [List.foldr_cons, show ∀ a b : Varmap, (a.append b).leaves = a.leaves ++ b.leaves from fun _ _ => rfl, leafTypesF, List.map_append, varmap_vals P ρ τ t _ r hw.1 hr, varmap_valsO P ρ τ u tag fs p rs hw.2 hrs]
end

theorem varmap_lookup (P : Process) {ρ τ : RPath → Nat} {t : Ty} {r : FormsRes} (hw : WF t) (h : smtForms P.asm ρ τ t [] = .ok r) {p : RPath} {u : Ty}
    (hp : (p, u) ∈ leafTypes t []) : r.varmap.leaves.lookup p = some (BV.ofNat (width u) (ρ p)) := by
  rw [varmap_vals P ρ τ t [] r hw h]
  refine VF.lookup_of_mem' ?_ (List.mem_map.mpr ⟨_, hp, rfl⟩)
  rw [List.map_map]
  exact VF.types_nodup t hw

/-! ## forms and bindings -/

theorem mem_fbs {bs : Bdgs} {i bi : Nat} {ib : Bdg} : (i, bi, ib) ∈ bs.fbs ↔ ∃ l, bs.ins[i]? = some l ∧ l[bi]? = some ib := by
  simp only [Bdgs.fbs, List.mem_flatMap, List.mem_map, Prod.mk.injEq, Prod.exists, List.mem_zipIdx_iff_getElem?]
  constructor
  · rintro ⟨l, i', h1, b, bi', h2, rfl, rfl, rfl⟩
    exact ⟨l, h1, h2⟩
  · rintro ⟨l, h1, h2⟩
    exact ⟨l, i, h1, ib, bi, h2, rfl, rfl, rfl⟩

section
variable {B K : Type} {pb : MapPb B K} {bs : Bdgs}

theorem mem_forall {p : RPath} {i bi : Nat} : (i, bi) ∈ bs.forallFbs pb p ↔
    ∃ ib e, (i, bi, ib) ∈ bs.fbs ∧ e ∈ ib ∧ e.2 = p ∧ (e.1.isSome = true ∨ constAt pb.archConst p = false) := by
  simp only [Bdgs.forallFbs, List.mem_flatMap, List.mem_map, List.mem_filter, Bool.and_eq_true, Bool.or_eq_true, beq_iff_eq, Bool.not_eq_true']
  constructor
  · rintro ⟨⟨i', bi', ib⟩, h1, e, ⟨h2, rfl, h3⟩, h4⟩
    cases h4
    exact ⟨ib, e, h1, h2, rfl, h3⟩
  · rintro ⟨ib, e, h1, h2, rfl, h3⟩
    exact ⟨_, h1, e, ⟨h2, rfl, h3⟩, rfl⟩

theorem mem_exists {p : RPath} {i bi : Nat} : (i, bi) ∈ bs.existsFbs pb p ↔
    ∃ ib, (i, bi, ib) ∈ bs.fbs ∧ (none, p) ∈ ib ∧ constAt pb.archConst p = true := by
  simp only [Bdgs.existsFbs, List.mem_flatMap, List.mem_map, List.mem_filter, Bool.and_eq_true, beq_iff_eq]
  constructor
  · rintro ⟨⟨i', bi', ib⟩, h1, ⟨x, p'⟩, ⟨h2, h3, h4, h5⟩, h6⟩
    cases h6
    simp only at h3 h4 h5
    subst h3
    cases x with
    | some q => simp at h4
    | none => exact ⟨ib, h1, h2, h5⟩
  · rintro ⟨ib, h1, h2, h3⟩
    exact ⟨_, h1, _, ⟨h2, rfl, rfl, h3⟩, rfl⟩

/-- The values of the form and binding variables. -/
structure Sel {B K : Type} (pb : MapPb B K) (bs : Bdgs) (nf : Nat) (a : MAsg B) (i bi : Nat) (ib : Bdg) : Prop where
  len : bs.ins.length = nf
  mem : (i, bi, ib) ∈ bs.fbs
  m1 : pb.enc.matchIndex nf (ivar pb.enc nf a.fi) i = .ok true
  m2 : pb.enc.matchIndex bs.maxIns (ivar pb.enc bs.maxIns a.ib) bi = .ok true
  paths : (ib.map (·.2)).Nodup

variable {nf : Nat} {a : MAsg B} {i bi : Nat} {ib : Bdg}

theorem Sel.match_ok (h : Sel pb bs nf a i bi ib) {i' bi' : Nat} {ib' : Bdg} (hm : (i', bi', ib') ∈ bs.fbs) :
    matchFB pb bs nf a i' bi' = .ok (decide (i' = i ∧ bi' = bi)) := by
  obtain ⟨l, h1, h2⟩ := mem_fbs.mp hm
  have hi : i' < nf := by
    rw [← h.len]
    exact (List.getElem?_eq_some_iff.mp h1).1
  obtain ⟨x, hx⟩ := IM.match_ok pb.enc nf (ivar pb.enc nf a.fi) hi
  obtain ⟨y, hy⟩ := IM.match_ok pb.enc bs.maxIns (ivar pb.enc bs.maxIns a.ib) (IM.triple_lt h1 h2)
  have hxi : x = true ↔ i' = i := by
    constructor
    · rintro rfl; exact IM.match_unique hx h.m1
    · rintro rfl; rw [h.m1] at hx; cases hx; rfl
  have hyi : y = true ↔ bi' = bi := by
    constructor
    · rintro rfl; exact IM.match_unique hy h.m2
    · rintro rfl; rw [h.m2] at hy; cases hy; rfl
  simp only [matchFB, hx, hy, bind, Except.bind]
  congr 1
  rw [Bool.eq_iff_iff, Bool.and_eq_true, decide_eq_true_iff, hxi, hyi]

theorem Sel.eCond (h : Sel pb bs nf a i bi ib) {p : RPath} (hne : bs.existsFbs pb p ≠ []) :
    eCond pb bs nf a p = .ok (decide ((none, p) ∈ ib ∧ constAt pb.archConst p = true)) := by
  have hok : exMap (fun fb : Nat × Nat => matchFB pb bs nf a fb.1 fb.2) (bs.existsFbs pb p) =
      .ok ((bs.existsFbs pb p).map (fun fb => decide (fb.1 = i ∧ fb.2 = bi))) := by
    refine VF.exMap_ok (fun fb hfb => ?_)
    obtain ⟨i', bi'⟩ := fb
    obtain ⟨ib', h1, _⟩ := mem_exists.mp hfb
    exact h.match_ok h1
  simp only [Peak.eCond, hok, bind, Except.bind]
  by_cases hc : (none, p) ∈ ib ∧ constAt pb.archConst p = true
  · rw [decide_eq_true hc]
    refine or_of_mem (List.mem_map.mpr ⟨(i, bi), mem_exists.mpr ⟨ib, h.mem, hc.1, hc.2⟩, ?_⟩)
    simp
  · rw [decide_eq_false hc]
    refine or_of_not_mem (by simpa using hne) ?_
    intro hm
    obtain ⟨⟨i', bi'⟩, h1, h2⟩ := List.mem_map.mp hm
    simp only [decide_eq_true_eq] at h2
    obtain ⟨rfl, rfl⟩ := h2
    obtain ⟨ib', g1, g2, g3⟩ := mem_exists.mp h1
    obtain ⟨l, k1, k2⟩ := mem_fbs.mp g1
    obtain ⟨l', k3, k4⟩ := mem_fbs.mp h.mem
    rw [k1] at k3; cases k3
    rw [k2] at k4; cases k4
    exact hc ⟨g2, g3⟩

theorem overlap_iff {p : RPath} : bs.overlap pb p = true ↔ bs.forallFbs pb p ≠ [] ∧ bs.existsFbs pb p ≠ [] := by
  simp [Bdgs.overlap]

/-- The leaf variable after the substitutions, for a leaf that the selected binding gives a constant. -/
theorem Sel.sub_const {a : SAsg B} (h : Sel pb bs nf a.m i bi ib) {p : RPath} (hp : (none, p) ∈ ib) (hc : constAt pb.archConst p = true) :
    subArch pb bs nf a p = if bs.overlap pb p then a.archE p else a.m.arch p := by
  simp only [subArch]
  split
  · next ho =>
    rw [h.eCond (overlap_iff.mp ho).2, decide_eq_true ⟨hp, hc⟩]
  · rfl

/-- The leaf variable after the substitutions, for another leaf of the selected binding. -/
theorem Sel.sub_other {a : SAsg B} (h : Sel pb bs nf a.m i bi ib) {x : Option RPath} {p : RPath} (hp : (x, p) ∈ ib)
    (hc : x.isSome = true ∨ constAt pb.archConst p = false) :
    subArch pb bs nf a p = (if bs.overlap pb p then a.archA p else a.m.arch p) ∧ bs.forallFbs pb p ≠ [] := by
  have hfa : bs.forallFbs pb p ≠ [] := by
    intro hn
    have : (i, bi) ∈ bs.forallFbs pb p := mem_forall.mpr ⟨ib, _, h.mem, hp, rfl, hc⟩
    rw [hn] at this
    cases this
  refine ⟨?_, hfa⟩
  simp only [subArch]
  split
  · next ho =>
    rw [h.eCond (overlap_iff.mp ho).2, decide_eq_false]
    rintro ⟨h1, h2⟩
    rcases hc with hc | hc
    · have : ∀ (l : Bdg), (l.map (·.2)).Nodup → (x, p) ∈ l → (none, p) ∈ l → x = none := by
        intro l
        induction l with
        | nil => intro _ h; cases h
        | cons y l ih =>
          intro hn h1 h2
          simp only [List.map_cons, List.nodup_cons] at hn
          rcases List.mem_cons.mp h1 with e1 | e1 <;> rcases List.mem_cons.mp h2 with e2 | e2
          · rw [← e1] at e2; cases e2; rfl
          · exact absurd (List.mem_map.mpr ⟨_, e2, by rw [← e1]⟩) hn.1
          · exact absurd (List.mem_map.mpr ⟨_, e1, by rw [← e2]⟩) hn.1
          · exact ih hn.2 e1 e2
      rw [this ib h.paths hp h1] at hc
      cases hc
    · rw [h2] at hc; cases hc
  · rfl

end

theorem bindEqs_true {cons : List RPath} {al il : List (RPath × BV)} : ∀ {b : Bdg} {cs : List Bool}, sBindEqs cons al il b = .ok cs →
    (∀ q p v w, (some q, p) ∈ b → al.lookup p = some v → il.lookup q = some w → v = w) → ∀ c ∈ cs, c = true
  | [], cs, h, _ => by cases h; simp
  | (x, p) :: b, cs, h, he => by
    simp only [sBindEqs] at h
    split at h
    · cases h
    · next v hv =>
      split at h
      · exact bindEqs_true h (fun q p v w hm => he q p v w (List.mem_cons_of_mem _ hm))
      · next q =>
        split at h
        · cases h
        · split at h
          · cases h
          · next w hw =>
            obtain ⟨c, hc, cs', hcs, hr⟩ := by simpa only [exBind] using h
            cases hr
            have := he q p v w List.mem_cons_self hv hw
            subst this
            simp only [leafEq, if_true, beq_self_eq_true] at hc
            cases hc
            intro c' hc'
            rcases List.mem_cons.mp hc' with rfl | hc'
            · rfl
            · exact bindEqs_true hcs (fun q p v w hm => he q p v w (List.mem_cons_of_mem _ hm)) c' hc'

/-! ## outputs -/

theorem leafTypes_nil {t u : Ty} (h : (([] : RPath), u) ∈ leafTypes t []) : t = u ∧ VF.IsLeaf t := by
  cases t with
  | bv c w => simp only [leafTypes, List.mem_singleton, Prod.mk.injEq, true_and] at h; exact ⟨h.symm, .inl ⟨_, _, rfl⟩⟩
  | bit c => simp only [leafTypes, List.mem_singleton, Prod.mk.injEq, true_and] at h; exact ⟨h.symm, .inr (.inl ⟨_, rfl⟩)⟩
  | enum c ms => simp only [leafTypes, List.mem_singleton, Prod.mk.injEq, true_and] at h; exact ⟨h.symm, .inr (.inr ⟨_, _, rfl⟩)⟩
  | prod c fs =>
    simp only [leafTypes] at h
    obtain ⟨k, p, hp, _⟩ := VF.typesF_head fs _ h
    cases hp
  | sum c fs =>
    simp only [leafTypes] at h
    obtain ⟨k, p, hp, _⟩ := VF.typesF_head fs _ h
    cases hp

theorem leafTypesF_one : ∀ {fs : Fields} {k : Key} {u : Ty}, ([k], u) ∈ leafTypesF fs [] → (k, u) ∈ fs.toList ∧ VF.IsLeaf u
  | .nil, _, _, h => by simp [leafTypesF] at h
  | .cons k' t fs, k, u, h => by
    rw [VF.typesF_cons] at h
    rcases List.mem_append.mp h with h | h
    · obtain ⟨⟨p, t'⟩, hl, he⟩ := List.mem_map.mp h
      simp only [Prod.mk.injEq, List.cons.injEq] at he
      obtain ⟨⟨rfl, rfl⟩, rfl⟩ := he
      obtain ⟨rfl, hl'⟩ := leafTypes_nil hl
      exact ⟨by simp [Fields.toList], hl'⟩
    · obtain ⟨h1, h2⟩ := leafTypesF_one h
      exact ⟨by simp [Fields.toList, h1], h2⟩

theorem rawLeaves_zip : ∀ {fs : Fields} {vs : List RVal} {k : Key} {u : Ty} {v : RVal}, (k, u, v) ∈ SB.zipF fs vs → VF.IsLeaf u → RHas u v →
    ∃ n, v = .leaf n ∧ n < 2 ^ width u ∧ ([k], u, n) ∈ rawLeavesAll fs vs
  | .nil, vs, k, u, v, h, _, _ => by cases vs <;> simp [SB.zipF] at h
  | .cons _ _ _, [], k, u, v, h, _, _ => by simp [SB.zipF] at h
  | .cons k' t fs, w :: vs, k, u, v, h, hl, hr => by
    simp only [SB.zipF, List.mem_cons, Prod.mk.injEq] at h
    simp only [rawLeavesAll, List.mem_append, List.mem_map]
    rcases h with ⟨rfl, rfl, rfl⟩ | h
    · rcases hl with ⟨c, w, rfl⟩ | ⟨c, rfl⟩ | ⟨c, ms, rfl⟩ <;> cases v <;> simp only [RHas] at hr <;>
        exact ⟨_, rfl, hr, .inl ⟨_, List.mem_singleton.mpr rfl, rfl⟩⟩
    · obtain ⟨n, h1, h2, h3⟩ := rawLeaves_zip h hl hr
      exact ⟨n, h1, h2, .inr h3⟩

theorem fieldEq_ok (P : Process) {t : Ty} (hl : VF.IsLeaf t) (hw : WF t) {n m : Nat} (hn : n < 2 ^ width t) (hm : m < 2 ^ width t) :
    fieldEq P.asm (mkAV t n) (mkAV t m) = .ok (n == m) := by
  rcases hl with ⟨c, w, rfl⟩ | ⟨c, rfl⟩ | ⟨c, ms, rfl⟩
  · simp only [width] at hn hm
    simp only [mkAV, fieldEq, leafEq, BV.ofNat_size, if_true, BV.ofNat_val, Nat.mod_eq_of_lt hn, Nat.mod_eq_of_lt hm]
  · simp only [width] at hn hm
    rcases (by omega : n = 0 ∨ n = 1) with rfl | rfl <;> rcases (by omega : m = 0 ∨ m = 1) with rfl | rfl <;> rfl
  · obtain ⟨o, ho, _⟩ := P.good hw
    simp only [mkAV, fieldEq, AV.eq, ho, if_true, BV.ofNat_val, Nat.mod_eq_of_lt hn, Nat.mod_eq_of_lt hm]

/-- A bound output field. -/
theorem out_field {c : Nat} {fs : Fields} {ws : List RVal} (hw : WF (.prod c fs)) (hr : RHas (.prod c fs) (.prod ws)) {k : Key} {u : Ty}
    (hq : ([k], u) ∈ leafTypes (.prod c fs) []) :
    VF.IsLeaf u ∧ WF u ∧ ∃ n, n < 2 ^ width u ∧ ([k], u, n) ∈ rawLeaves (.prod c fs) (.prod ws) ∧
      ((inputDict fs ws).map (fun e => ([e.1], e.2))).lookup [k] = some (mkAV u n) := by
  obtain ⟨hku, hl⟩ := leafTypesF_one hq
  have hn := hw.1
  obtain ⟨z, hz, hzk⟩ : ∃ z ∈ SB.zipF fs ws, z.1 = k := by
    have : k ∈ (SB.zipF fs ws).map (·.1) := by
      rw [SB.zipF_names fs ws hr]
      exact List.mem_map.mpr ⟨_, hku, rfl⟩
    obtain ⟨z, h1, h2⟩ := List.mem_map.mp this
    exact ⟨z, h1, h2⟩
  obtain ⟨k', t, v⟩ := z
  simp only at hzk
  subst hzk
  obtain ⟨g1, g2⟩ := SB.zipF_mem fs ws hr _ hz
  simp only at g1 g2
  have htu : t = u := Option.some.inj ((SB.lookup_of_mem hn g1).symm.trans (SB.lookup_of_mem hn hku))
  subst htu
  obtain ⟨n, rfl, hlt, hm⟩ := rawLeaves_zip hz hl g2
  refine ⟨hl, (VF.types_leaf _ hw _ hq).2, n, hlt, hm, ?_⟩
  refine VF.lookup_of_mem' ?_ ?_
  · rw [List.map_map]
    have := IM.dict_nodup hw hr
    rw [show ((fun x : RPath × AV => x.1) ∘ fun e : Key × AV => ([e.1], e.2)) = (fun k => [k]) ∘ (·.1) from rfl, ← List.map_map]
    exact this.map (fun a b h => List.cons.inj h |>.1)
  · rw [VF.inputDict_eq, List.map_map]
    refine List.mem_map.mpr ⟨_, hz, ?_⟩
    rcases hl with ⟨c, w, rfl⟩ | ⟨c, rfl⟩ | ⟨c, ms, rfl⟩ <;> simp [rawCode]

theorem lookup_one {l : List (Key × AV)} : ∀ {q : RPath} {x : AV}, (l.map (fun e => ([e.1], e.2))).lookup q = some x → ∃ k, q = [k] := by
  intro q x h
  induction l with
  | nil => cases h
  | cons e l ih =>
    rw [List.map_cons, List.lookup_cons] at h
    split at h
    · next he => exact ⟨e.1, by simpa using he⟩
    · exact ih h

/-- The equalities of the outputs say that the bound outputs agree. -/
theorem fieldEqs_true (P : Process) {ci ca : Nat} {fi fa : Fields} {wi wa : List RVal} (hwi : WF (.prod ci fi)) (hwa : WF (.prod ca fa))
    (hi : RHas (.prod ci fi) (.prod wi)) (ha : RHas (.prod ca fa) (.prod wa)) : ∀ {ob : Bdg} {eqs : List Bool},
    (∀ q p, (some q, p) ∈ ob → ∃ t, (q, t) ∈ leafTypes (.prod ci fi) [] ∧ (p, t) ∈ leafTypes (.prod ca fa) []) →
    fieldEqs P.asm ((inputDict fi wi).map (fun e => ([e.1], e.2))) ((inputDict fa wa).map (fun e => ([e.1], e.2))) ob = .ok eqs → (∀ b ∈ eqs, b = true) →
    OutputsAgree (.prod ci fi) (.prod ca fa) ob (.prod wi) (.prod wa)
  | [], eqs, _, h, _ => by intro q p hm; cases hm
  | (none, p') :: ob, eqs, hty, h, he => by
    simp only [fieldEqs] at h
    have := fieldEqs_true P hwi hwa hi ha (fun q p hm => hty q p (List.mem_cons_of_mem _ hm)) h he
    intro q p hm
    rcases List.mem_cons.mp hm with hm | hm
    · cases hm
    · exact this q p hm
  | (some q', p') :: ob, eqs, hty, h, he => by
    simp only [fieldEqs] at h
    split at h
    · cases h
    · next x hx =>
      split at h
      · cases h
      · next y hy =>
        obtain ⟨b, hb, bs, hbs, hr⟩ := by simpa only [exBind] using h
        cases hr
        have ih := fieldEqs_true P hwi hwa hi ha (fun q p hm => hty q p (List.mem_cons_of_mem _ hm)) hbs (fun b hb => he b (List.mem_cons_of_mem _ hb))
        intro q p hm
        rcases List.mem_cons.mp hm with hm | hm
        · cases hm
          obtain ⟨t, t1, t2⟩ := hty q' p' List.mem_cons_self
          obtain ⟨k, rfl⟩ := lookup_one hx
          obtain ⟨k', rfl⟩ := lookup_one hy
          obtain ⟨l1, w1, n, n1, n2, n3⟩ := out_field hwi hi t1
          obtain ⟨l2, w2, m, m1, m2, m3⟩ := out_field hwa ha t2
          rw [hx] at n3; cases n3
          rw [hy] at m3; cases m3
          rw [fieldEq_ok P l1 w1 n1 m1] at hb
          have := he b List.mem_cons_self
          rw [this] at hb
          have := Except.ok.inj hb
          rw [beq_iff_eq] at this
          subst this
          exact ⟨t, t, n, n2, m2⟩
        · exact ih q p hm

theorem run_ok (P : Process) {B K : Type} {obj : PeakObj B K} {fn : Fn B} (hc : Computes P obj fn) (hin : WF obj.inT)
    (hout : WF obj.outT ∧ Buildable obj.outT ∧ UnionFree obj.outT) (bb : List (B × List BV)) {r : RVal} (hr : RHas obj.inT r) :
    ∃ d co fo ws, obj.outT = .prod co fo ∧ (fn r bb).1 = .prod ws ∧ RHas obj.outT (.prod ws) ∧ productToDict P.asm obj.inT (mkAV obj.inT (rawCode obj.inT r)) = .ok d ∧
      simpleRun P.asm obj d bb = .ok ((inputDict fo ws).map (fun e => ([e.1], e.2))) ∧ (obj.run d bb).2 = (fn r bb).2 ∧
      (∀ cs valid, exMap (validField P.asm d) ((obj.inT.fieldDict.map (·.1)).filter (fun k => cs.contains [k])) = .ok valid → valid.all id = true →
        ∀ vs, r = .prod vs → ConstsValid P.asm obj.inT cs vs) := by
  obtain ⟨ci, fi, co, fo, h1, h2, h3⟩ := hc
  obtain ⟨vs, rfl⟩ : ∃ vs, r = .prod vs := by
    rw [h1] at hr
    cases r with
    | leaf _ => simp [RHas] at hr
    | sum _ _ => simp [RHas] at hr
    | prod vs => exact ⟨vs, rfl⟩
  obtain ⟨ws, g1, g2, g3, g4⟩ := h3 vs bb hr
  rw [h1] at hin hr
  refine ⟨inputDict fi vs, co, fo, ws, h2, g1, g2, by rw [h1]; exact VF.dict_ok P hin hr, ?_, g4, ?_⟩
  · rw [h2] at hout g2
    simp only [simpleRun, h2]
    rw [VF.fromFields_raw P hout.1 hout.2.1 g2 g3]
    simp only [bind, Except.bind, VF.dict_ok P hout.1 g2]
  · intro cs valid hv hall vs' he
    cases he
    obtain ⟨valid', v1, v2, _⟩ := IM.valid_ok P (cs := cs) hin hr
    rw [h1] at hv ⊢
    rw [v1] at hv
    cases hv
    exact v2.mp hall

/-! ## the formula -/

section
variable {B K : Type} [DecidableEq B] [DecidableEq K] {pb : MapPb B K} {bs : Bdgs}

/-- What the formula consists of. -/
structure Parts (A : Ty → Except Err AsmObj) (pb : MapPb B K) (bs : Bdgs) (a : SAsg B) (v : RPath → Nat) (ares ires : FormsRes) (da di : List (Key × AV))
    (archOut irOut : List (RPath × AV)) (valid forms exC faC : List Bool) (fbs obs : List (Bool × Bool)) : Prop where
  ares_h : smtForms A v a.m.archTag pb.arch.inT [] = .ok ares
  ires_h : smtForms A a.m.ir a.m.irTag pb.ir.inT [] = .ok ires
  da_h : productToDict A pb.arch.inT ares.value = .ok da
  di_h : productToDict A pb.ir.inT ires.value = .ok di
  valid_h : exMap (validField A da) ((pb.arch.inT.fieldDict.map (·.1)).filter (fun k => pb.archConst.contains [k])) = .ok valid
  forms_h : exMap (formCond pb ares.forms.length a.m ares.varmap) ares.forms.zipIdx = .ok forms
  fbs_h : exMap (fbCond pb bs ares.forms.length a.m ares.varmap.leaves ires.varmap.leaves) bs.fbs = .ok fbs
  archOut_h : simpleRun A pb.arch da (pb.arch.bbOuts a.m.archBB) = .ok archOut
  irOut_h : simpleRun A pb.ir di (pb.ir.bbOuts a.m.irBB) = .ok irOut
  obs_h : exMap (obCond A pb bs a.m irOut archOut) bs.outs.zipIdx = .ok obs
  exC_h : consConds A (leafTypes pb.arch.inT []) (constAt pb.archConst) v true pb.cons = .ok exC
  faC_h : consConds A (leafTypes pb.arch.inT []) (constAt pb.archConst) v false pb.cons = .ok faC

/-- What the formula says without the black boxes. -/
structure Holds (valid forms exC faC : List Bool) (fbs obs : List (Bool × Bool)) : Prop where
  valid_h : ∀ b ∈ valid, b = true
  forms_h : true ∈ forms
  obs_h : true ∈ obs.map (·.1)
  exC_h : ∀ b ∈ exC, b = true
  fbs_h : true ∈ fbs.map (·.1)
  impl_h : (∀ b ∈ faC, b = true) → true ∈ fbs.map (·.2) → ∀ b ∈ obs.map (·.2), b = true

/-- The number of forms does not depend on the values. -/
theorem forms_length {P : Process} {t : Ty} (hw : WF t) (hb : Buildable t) {ρ τ : RPath → Nat} {r : FormsRes} (h : smtForms P.asm ρ τ t [] = .ok r) :
    r.forms.length = (RF.skels t).length := (RF.raw_ok P ρ τ t hw hb [] r h).length_eq

theorem formula_inv {P : Process} (hin : WF pb.arch.inT ∧ Buildable pb.arch.inT) {a : SAsg B} (h : simpleFormula P.asm pb bs a = .ok true) :
    ∃ ares ires da di archOut irOut valid forms exC faC fbs obs,
      Parts P.asm pb bs a (subArch pb bs (RF.skels pb.arch.inT).length a) ares ires da di archOut irOut valid forms exC faC fbs obs ∧
      ((∃ F : K → List BV → List BV, BoxesCompute F pb.arch.bbs (pb.arch.run da (pb.arch.bbOuts a.m.archBB)).2 (pb.arch.bbOuts a.m.archBB) ∧
        BoxesCompute F pb.ir.bbs (pb.ir.run di (pb.ir.bbOuts a.m.irBB)).2 (pb.ir.bbOuts a.m.irBB)) → Holds valid forms exC faC fbs obs) := by
  simp only [simpleFormula, exBind] at h
  obtain ⟨res, hres, ares, hares, ires, hires, da, hda, di, hdi, valid, hvalid, validC, hvalidC, forms, hforms, formsC, hformsC, fbs, hfbs, archOut, harchOut,
    irOut, hirOut, obs, hobs, obsC, hobsC, F, hF, exC, hexC, faC, hfaC, fbsC, hfbsC, impl, himpl, fCond, hfCond, pre, hpre, ⟨g, fal⟩, hg, hgt⟩ := h
  cases hgt
  rw [forms_length hin.1 hin.2 hres, ← forms_length hin.1 hin.2 hares] at hforms hfbs
  rw [forms_length hin.1 hin.2 hres] at hares hexC hfaC
  refine ⟨ares, ires, da, di, archOut, irOut, valid, forms, exC, faC, fbs, obs,
    ⟨hares, hires, hda, hdi, hvalid, hforms, hfbs, harchOut, hirOut, hobs, hexC, hfaC⟩, ?_⟩
  rintro ⟨Fn, hFa, hFi⟩
  have hun := (C35_uninterpreted _ _ _ _ _ _ _ _ _ hg).1.mp rfl ⟨Fn, fun k i o hc => by
    rcases hc with hc | hc
    · exact (VF.called_iff Fn _ _ _).mpr hFa k i o hc
    · exact (VF.called_iff Fn _ _ _).mpr hFi k i o hc⟩
  simp only [Bool.and_eq_true, Bool.or_eq_true, Bool.not_eq_true'] at hun
  obtain ⟨h1, h2⟩ := hun
  subst h1
  have hall := List.all_eq_true.mp (and_true hpre)
  have e1 : validC = true := by have := hall validC (by simp); exact this
  have e2 : formsC = true := by have := hall formsC (by simp); exact this
  have e3 : obsC = true := by have := hall obsC (by simp); exact this
  have e4 : fbsC = true := by have := hall fbsC (by simp); exact this
  subst e1 e2 e3 e4
  refine ⟨List.all_eq_true.mp (and_true hvalidC), or_true hformsC, or_true hobsC, fun b hb => hall b (by simp [hb]), or_true hfbsC, ?_⟩
  intro hfa himp
  rw [or_of_mem himp] at himpl
  cases himpl
  rw [and_of_all (by simp) (by
    intro b hb
    rcases List.mem_append.mp hb with hb | hb
    · exact hfa b hb
    · exact List.mem_singleton.mp hb)] at hfCond
  cases hfCond
  rcases h2 with h2 | h2
  · cases h2
  · subst h2
    exact List.all_eq_true.mp (and_true hF)

omit [DecidableEq K] in
/-- Black boxes that return zero. -/
theorem zero_boxes (obj : PeakObj B K) (hn : (obj.bbs.map (·.1)).Nodup) (ins : List (B × List BV)) :
    BoxesCompute (fun k _ => (obj.bbOutW k).mapIdx (fun _ w => BV.ofNat w 0)) obj.bbs ins (obj.bbOuts (fun _ _ => 0)) := by
  intro b k i o hb _ ho
  have := VF.lookup_map_nodup (fun b : B × K => (obj.bbOutW b.2).mapIdx (fun i w => BV.ofNat w 0)) hn hb
  simp only [PeakObj.bbOuts] at ho
  rw [this] at ho
  exact Option.some.inj ho

theorem consConds_true {A : Ty → Except Err AsmObj} {types : List (RPath × Ty)} {isConst : RPath → Bool} {v : RPath → Nat} {const : Bool} :
    ∀ {cons : List (RPath × List Nat)} {l : List Bool}, consConds A types isConst v const cons = .ok l → (∀ b ∈ l, b = true) →
      ∀ c ∈ cons, isConst c.1 = const → ∃ n ∈ c.2, consEq A types c.1 (v c.1) n = .ok true
  | [], _, _, _ => by simp
  | (p, cs) :: cons, l, h, hl => by
    simp only [consConds] at h
    rw [List.forall_mem_cons]
    split at h
    · next hp =>
      simp only [exBind] at h
      obtain ⟨m, hm, b, hb, l', hl', hr⟩ := h
      cases hr
      refine ⟨fun _ => ?_, consConds_true hl' (fun b hb => hl b (List.mem_cons_of_mem _ hb))⟩
      have := hl b List.mem_cons_self
      subst this
      obtain ⟨n, h1, h2⟩ := IM.exMap_mem' hm true (or_true hb)
      exact ⟨n, h1, h2⟩
    · next hp => exact ⟨fun h' => absurd h' hp, consConds_true h hl⟩

theorem consConds_of {A : Ty → Except Err AsmObj} {types : List (RPath × Ty)} {isConst : RPath → Bool} {v : RPath → Nat} {const : Bool} :
    ∀ {cons : List (RPath × List Nat)} {l : List Bool}, consConds A types isConst v const cons = .ok l →
      (∀ c ∈ cons, isConst c.1 = const → ∃ n ∈ c.2, consEq A types c.1 (v c.1) n = .ok true) → ∀ b ∈ l, b = true
  | [], l, h, _ => by
    cases h
    intro b hb
    cases hb
  | (p, cs) :: cons, l, h, hall => by
    simp only [consConds] at h
    split at h
    · next hp =>
      simp only [exBind] at h
      obtain ⟨m, hm, b, hb, l', hl', hr⟩ := h
      cases hr
      intro x hx
      rcases List.mem_cons.mp hx with rfl | hx
      · obtain ⟨n, hn, hnt⟩ := hall (p, cs) List.mem_cons_self hp
        obtain ⟨j, hj⟩ := List.getElem?_of_mem hn
        obtain ⟨y, hy, hye⟩ := IM.forall₂_at' (RF.exMap_forall₂ hm) hj
        simp only at hnt
        rw [hnt] at hye
        cases hye
        rw [or_of_mem (List.mem_of_getElem? hy)] at hb
        exact (Except.ok.inj hb).symm
      · exact consConds_of hl' (fun c hc => hall c (List.mem_cons_of_mem _ hc)) x hx
    · exact consConds_of h (fun c hc => hall c (List.mem_cons_of_mem _ hc))

variable {P : Process} {fi fa : Fn B} {inW : K → List Nat}

/-- The form that holds when the boxes return zero has its tags set, and the constants satisfy their constraints. -/
theorem tags_of (S : Setup P pb.ir pb.arch fi fa inW) {a : SAsg B} (h : simpleFormula P.asm pb bs { a with m := { a.m with irBB := fun _ _ => 0, archBB := fun _ _ => 0 } } = .ok true)
    {i : Nat} {s : RVal} (hs : (RF.skels pb.arch.inT)[i]? = some s)
    (m1 : pb.enc.matchIndex (RF.skels pb.arch.inT).length (ivar pb.enc (RF.skels pb.arch.inT).length a.m.fi) i = .ok true) :
    RF.tagsOk a.m.archTag pb.arch.inT [] s = true ∧
    (∀ c ∈ pb.cons, constAt pb.archConst c.1 = true →
      ∃ n ∈ c.2, consEq P.asm (leafTypes pb.arch.inT []) c.1 (subArch pb bs (RF.skels pb.arch.inT).length a c.1) n = .ok true) ∧
    ∀ vs, VF.fill pb.arch.inT s (subArch pb bs (RF.skels pb.arch.inT).length a) = .prod vs → ConstsValid P.asm pb.arch.inT pb.archConst vs := by
  obtain ⟨ares, ires, da, di, archOut, irOut, valid, forms, exC, faC, fbs, obs, hP, hH⟩ := formula_inv S.arch_in h
  have hz := hH ⟨_, zero_boxes pb.arch S.arch_boxes.1 _, by
    have := zero_boxes pb.ir S.ir_boxes.1 (pb.ir.run di (pb.ir.bbOuts (fun _ _ => 0))).2
    rw [S.same_classes] at this
    exact this⟩
  have hraw := RF.raw_ok P _ _ _ S.arch_in.1 S.arch_in.2 _ _ hP.ares_h
  have ht : RF.tagsOk a.m.archTag pb.arch.inT [] s = true := by
    obtain ⟨⟨f, i'⟩, hf, hc⟩ := IM.exMap_mem' hP.forms_h true hz.forms_h
    rw [List.mem_zipIdx_iff_getElem?] at hf
    simp only at hf
    simp only [formCond, exBind] at hc
    obtain ⟨x, hx, hxr⟩ := hc
    have hxr := Except.ok.inj hxr
    simp only [Bool.and_eq_true] at hxr
    obtain ⟨rfl, hfm⟩ := hxr
    rw [forms_length S.arch_in.1 S.arch_in.2 hP.ares_h] at hx
    have := IM.match_unique hx m1
    subst this
    obtain ⟨s', hs', hF⟩ := IM.forall₂_at' hraw hf
    rw [hs] at hs'
    cases hs'
    rw [← hF.sel]
    exact hfm
  refine ⟨ht, consConds_true hP.exC_h hz.exC_h, ?_⟩
  obtain ⟨f, hf, hF⟩ := IM.forall₂_at hraw hs
  have hb : RF.below (subArch pb bs (RF.skels pb.arch.inT).length a) [] = subArch pb bs (RF.skels pb.arch.inT).length a := by funext q; rfl
  obtain ⟨g1, g2⟩ := hF.val ht
  have hval := g2.trans g1
  obtain ⟨d, co, fo, ws, _, _, _, r1, _, _, r4⟩ := run_ok P S.arch_fn S.arch_in.1 S.arch_out [] (VF.fill_spec _ s (subArch pb bs (RF.skels pb.arch.inT).length a) hF.has).1
  have hda := hP.da_h
  rw [hval] at hda
  have hda' := hda.symm.trans r1
  cases hda'
  exact r4 pb.archConst valid hP.valid_h (by rw [List.all_eq_true]; exact hz.valid_h)

/-- What the formula says of the outputs. -/
theorem outs_of (S : Setup P pb.ir pb.arch fi fa inW) (hB : IM.BdgsOk0 pb bs) {a : SAsg B}
    (hfa : ∀ c ∈ pb.cons, constAt pb.archConst c.1 = false →
      ∃ n ∈ c.2, consEq P.asm (leafTypes pb.arch.inT []) c.1 (subArch pb bs (RF.skels pb.arch.inT).length a c.1) n = .ok true)
    (h : simpleFormula P.asm pb bs a = .ok true) {i bi bo : Nat} {s si : RVal} {ib ob : Bdg} (hs : (RF.skels pb.arch.inT)[i]? = some s)
    (hsi : RF.skels pb.ir.inT = [si]) (hob : bs.outs[bo]? = some ob) (hsel : Sel pb bs (RF.skels pb.arch.inT).length a.m i bi ib)
    (m3 : pb.enc.matchIndex bs.outs.length (ivar pb.enc bs.outs.length a.m.ob) bo = .ok true) (hib : IM.BOk pb s ib)
    (ht : RF.tagsOk a.m.archTag pb.arch.inT [] s = true)
    (heq : ∀ q p, (some q, p) ∈ ib → subArch pb bs (RF.skels pb.arch.inT).length a p = a.m.ir q) (F : K → List BV → List BV)
    (hFi : BoxesCompute F pb.ir.bbs (fi (VF.fill pb.ir.inT si a.m.ir) (pb.ir.bbOuts a.m.irBB)).2 (pb.ir.bbOuts a.m.irBB))
    (hFa : BoxesCompute F pb.arch.bbs (fa (VF.fill pb.arch.inT s (subArch pb bs (RF.skels pb.arch.inT).length a)) (pb.arch.bbOuts a.m.archBB)).2
      (pb.arch.bbOuts a.m.archBB)) :
    OutputsAgree pb.ir.outT pb.arch.outT ob (fi (VF.fill pb.ir.inT si a.m.ir) (pb.ir.bbOuts a.m.irBB)).1
      (fa (VF.fill pb.arch.inT s (subArch pb bs (RF.skels pb.arch.inT).length a)) (pb.arch.bbOuts a.m.archBB)).1 := by
  obtain ⟨ares, ires, da, di, archOut, irOut, valid, forms, exC, faC, fbs, obs, hP, hH⟩ := formula_inv S.arch_in h
  generalize hv : subArch pb bs (RF.skels pb.arch.inT).length a = v at *
  have hsh : RHas pb.arch.inT s := IM.skels_mem_has (P := P) S.arch_in.1 S.arch_in.2 (List.mem_of_getElem? hs)
  have hsih : RHas pb.ir.inT si := IM.skels_mem_has (P := P) S.ir_in.1 S.ir_in.2 (by rw [hsi]; exact List.mem_singleton.mpr rfl)
  have value : ∀ {T : Ty} {ρ τ : RPath → Nat} {r : FormsRes} {j : Nat} {s : RVal}, WF T ∧ Buildable T → smtForms P.asm ρ τ T [] = .ok r → (RF.skels T)[j]? = some s →
      RF.tagsOk τ T [] s = true → r.value = mkAV T (rawCode T (VF.fill T s ρ)) := by
    intro T ρ τ r j s hw hr hs ht
    obtain ⟨f, hf, hF⟩ := IM.forall₂_at (RF.raw_ok P _ _ _ hw.1 hw.2 _ _ hr) hs
    obtain ⟨g1, g2⟩ := hF.val ht
    exact g2.trans g1
  have va := value S.arch_in hP.ares_h hs ht
  have vi := value S.ir_in hP.ires_h (j := 0) (s := si) (by rw [hsi]; rfl) (RF.tags_unionFree _ _ _ _ hB.uf)
  obtain ⟨d, co, fo, ws, a1, a2, a3, a4, a5, a6, _⟩ := run_ok P S.arch_fn S.arch_in.1 S.arch_out (pb.arch.bbOuts a.m.archBB) (VF.fill_spec _ s v hsh).1
  obtain ⟨d', co', fo', ws', b1, b2, b3, b4, b5, b6, _⟩ := run_ok P S.ir_fn S.ir_in.1 S.ir_out (pb.ir.bbOuts a.m.irBB) (VF.fill_spec _ si a.m.ir hsih).1
  have hda := hP.da_h
  rw [va, a4] at hda
  cases hda
  have hdi := hP.di_h
  rw [vi, b4] at hdi
  cases hdi
  have hao := hP.archOut_h
  rw [a5] at hao
  cases hao
  have hio := hP.irOut_h
  rw [b5] at hio
  cases hio
  have hz := hH ⟨F, by rw [a6]; exact hFa, by rw [b6]; exact hFi⟩
  have hlen := forms_length S.arch_in.1 S.arch_in.2 hP.ares_h
  have hfa := consConds_of hP.faC_h hfa
  -- the binding that was chosen
  have himp : true ∈ fbs.map (·.2) := by
    obtain ⟨j, hj⟩ := List.getElem?_of_mem hsel.mem
    obtain ⟨x, hx, hxc⟩ := IM.forall₂_at' (RF.exMap_forall₂ hP.fbs_h) hj
    refine List.mem_map.mpr ⟨x, List.mem_of_getElem? hx, ?_⟩
    rw [hlen] at hxc
    simp only [fbCond, exBind] at hxc
    obtain ⟨m, hm, eqs, heqs, hr⟩ := hxc
    cases hr
    rw [hsel.match_ok hsel.mem] at hm
    have hm := (Except.ok.inj hm).symm
    simp only [and_self, decide_true] at hm
    subst hm
    simp only [Bool.true_and, List.all_eq_true]
    refine bindEqs_true heqs ?_
    intro q p x y he hx hy
    obtain ⟨_, _, t, hq, hp⟩ := hib.typed q p he
    rw [varmap_lookup P S.arch_in.1 hP.ares_h hp] at hx
    rw [varmap_lookup P S.ir_in.1 hP.ires_h hq] at hy
    cases hx; cases hy
    rw [heq q p he]
  have hob2 := hz.impl_h hfa himp
  obtain ⟨j, hj⟩ : ∃ j, bs.outs.zipIdx[j]? = some (ob, bo) := List.getElem?_of_mem (List.mem_zipIdx_iff_getElem?.mpr hob)
  obtain ⟨x, hx, hxc⟩ := IM.forall₂_at' (RF.exMap_forall₂ hP.obs_h) hj
  have hx2 := hob2 x.2 (List.mem_map.mpr ⟨x, List.mem_of_getElem? hx, rfl⟩)
  simp only [obCond, m3, exBind] at hxc
  obtain ⟨m, hm, eqs, heqs, c, hcc, hr⟩ := hxc
  cases hm
  cases hr
  simp only [Bool.not_true, Bool.false_or] at hx2
  subst hx2
  have hty : ∀ q p, (some q, p) ∈ ob → ∃ t, (q, t) ∈ leafTypes pb.ir.outT [] ∧ (p, t) ∈ leafTypes pb.arch.outT [] := by
    have hm := List.mem_of_getElem? hob
    rw [hB.outs] at hm
    obtain ⟨f, hR, hf⟩ := C28_sound _ _ (VF.types_nodup _ S.arch_out.1) (VF.types_nodup _ S.ir_out.1) ob hm
    intro q p he
    have hp := hR.1.subset (List.mem_map.mpr ⟨_, he, rfl⟩)
    obtain ⟨⟨p', t⟩, hpt, rfl⟩ := List.mem_map.mp hp
    exact ⟨t, hf.typed p' t q hpt (hR.2 _ he).symm, hpt⟩
  rw [a2, b2]
  have S1 := S.ir_out.1
  have S2 := S.arch_out.1
  rw [a1] at a3 S2 hty ⊢
  rw [b1] at b3 S1 hty ⊢
  exact fieldEqs_true P S1 S2 b3 a3 hty heqs (List.all_eq_true.mp (and_true hcc))

end

end Peak.SFm
