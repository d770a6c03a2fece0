import Verif.Lemmas.SmtForms
import Verif.Lemmas.Verify
/-!
# `SMTForms` on raw values

The forms of a type are, in order, its shapes (`skels`).  Under an assignment whose tags agree with a shape, the value of the form and of
the whole is the raw value of that shape with the bits of the leaf variables.
-/

namespace Peak.RF
open Peak Peak.Spec

mutual
/-- The shapes of a type (raw values with leaves 0), in the order of the forms. -/
def skels : Ty → List RVal
  | .prod _ fs => (pyProduct (skelsF fs)).map .prod
  | .sum _ fs => skelsO fs
  | _ => [.leaf 0]
def skelsF : Fields → List (List RVal)
  | .nil => []
  | .cons _ t fs => skels t :: skelsF fs
def skelsO : Fields → List RVal
  | .nil => []
  | .cons k t fs => (skels t).map (.sum k) ++ skelsO fs
end

mutual
/-- The union choices of a raw value. -/
def rdecs : Ty → RPath → RVal → List (RPath × Key)
  | .prod _ fs, p, .prod vs => rdecsAll fs p vs
  | .sum _ fs, p, .sum k v => (p, k) :: rdecsAt fs p k v
  | _, _, _ => []
def rdecsAll : Fields → RPath → List RVal → List (RPath × Key)
  | .cons k t fs, p, v :: vs => rdecs t (p ++ [k]) v ++ rdecsAll fs p vs
  | _, _, _ => []
def rdecsAt : Fields → RPath → Key → RVal → List (RPath × Key)
  | .nil, _, _, _ => []
  | .cons k' t fs, p, k, v => if k = k' then rdecs t (p ++ [k']) v else rdecsAt fs p k v
end

mutual
/-- The tags select the choices of the raw value. -/
def tagsOk (τ : RPath → Nat) : Ty → RPath → RVal → Bool
  | .prod _ fs, p, .prod vs => tagsOkAll τ fs p vs
  | .sum _ fs, p, .sum k v => decide (τ p % 2 ^ tagBits fs.toList.length = optionIndex fs k) && tagsOkAt τ fs p k v
  | _, _, _ => true
def tagsOkAll (τ : RPath → Nat) : Fields → RPath → List RVal → Bool
  | .cons k t fs, p, v :: vs => tagsOk τ t (p ++ [k]) v && tagsOkAll τ fs p vs
  | _, _, _ => true
def tagsOkAt (τ : RPath → Nat) : Fields → RPath → Key → RVal → Bool
  | .nil, _, _, _ => true
  | .cons k' t fs, p, k, v => if k = k' then tagsOk τ t (p ++ [k']) v else tagsOkAt τ fs p k v
end

/-- The leaf variables below a path. -/
def below (ρ : RPath → Nat) (p : RPath) : RPath → Nat := fun q => ρ (p ++ q)

theorem below_step (ρ : RPath → Nat) (p : RPath) (k : Key) : (fun q => below ρ p (k :: q)) = below ρ (p ++ [k]) := by
  funext q; simp [below]

def leafOf (p : RPath) (l : RPath × Ty × Nat) : RPath × BV := (p ++ l.1, BV.ofNat (width l.2.1) l.2.2)

structure FormIs (ρ τ : RPath → Nat) (t : Ty) (p : RPath) (r : FormsRes) (f : SForm) (s : RVal) : Prop where
  decs : f.pathDict = rdecs t p s
  leaves : f.leaves = (rawLeaves t (VF.fill t s (below ρ p))).map (leafOf p)
  sel : formMatches r.varmap f = tagsOk τ t p s
  has : RHas t s
  val : tagsOk τ t p s = true → f.value = mkAV t (rawCode t (VF.fill t s (below ρ p))) ∧ r.value = f.value

def RawOk (ρ τ : RPath → Nat) (t : Ty) (p : RPath) (r : FormsRes) : Prop := List.Forall₂ (FormIs ρ τ t p r) r.forms (skels t)

variable {ρ τ : RPath → Nat}

theorem leaf_raw {t : Ty} {p : RPath} {b : BV} {x : AV} (hx : x = mkAV t (ρ p % 2 ^ width t)) (hb : b = BV.ofNat (width t) (ρ p))
    (hs : skels t = [.leaf 0]) (hf : VF.fill t (.leaf 0) (below ρ p) = .leaf (ρ p % 2 ^ width t))
    (hl : ∀ n, rawLeaves t (.leaf n) = [([], t, n)]) (hc : ∀ n, rawCode t (.leaf n) = n) (hd : rdecs t p (.leaf 0) = [])
    (ht : tagsOk τ t p (.leaf 0) = true) (hh : RHas t (.leaf 0)) :
    RawOk ρ τ t p ⟨[⟨x, [], [(p, b)]⟩], ⟨[(p, b)], [], []⟩, x⟩ := by
  unfold RawOk
  rw [hs]
  refine .cons ⟨hd.symm, ?_, by rw [ht]; rfl, hh, ?_⟩ .nil
  · rw [hf, hl, hb]
    simp [leafOf, VF.ofNat_mod]
  · intro _
    rw [hf, hc]
    exact ⟨hx, rfl⟩

/-! ## products -/

/-- What is shown of one element of the product of the forms. -/
def SubsIs (ρ τ : RPath → Nat) (p : RPath) : Fields → List FormsRes → List SForm → List RVal → Prop
  | .nil, [], [], [] => True
  | .cons k t fs, r :: rs, f :: fms, s :: ss => FormIs ρ τ t (p ++ [k]) r f s ∧ SubsIs ρ τ p fs rs fms ss
  | _, _, _, _ => False

def RowsRaw (ρ τ : RPath → Nat) (p : RPath) : Fields → List FormsRes → Prop
  | .nil, [] => True
  | .cons k t fs, r :: rs => RawOk ρ τ t (p ++ [k]) r ∧ RowsRaw ρ τ p fs rs
  | _, _ => False

theorem forall₂_flatMap {α β γ δ : Type} {R : α → β → Prop} {S : γ → δ → Prop} {f : α → List γ} {g : β → List δ} {l : List α} {m : List β}
    (h : List.Forall₂ R l m) (hfg : ∀ a b, R a b → List.Forall₂ S (f a) (g b)) : List.Forall₂ S (l.flatMap f) (m.flatMap g) := by
  induction h with
  | nil => exact .nil
  | cons h1 _ ih => rw [List.flatMap_cons, List.flatMap_cons]; exact List.rel_append (hfg _ _ h1) ih

theorem rows_product {p : RPath} : ∀ (fs : Fields) (rows : List FormsRes), RowsRaw ρ τ p fs rows →
    List.Forall₂ (SubsIs ρ τ p fs rows) (pyProduct (rows.map (·.forms))) (pyProduct (skelsF fs))
  | .nil, [], _ => .cons trivial .nil
  | .cons k t fs, r :: rs, h => by
    have ih := rows_product fs rs h.2
    simp only [List.map_cons, pyProduct, skelsF]
    refine forall₂_flatMap h.1 ?_
    intro f s hfs
    rw [List.forall₂_map_left_iff, List.forall₂_map_right_iff]
    exact ih.imp (fun a b hab => ⟨hfs, hab⟩)
  | .nil, _ :: _, h => by simp [RowsRaw] at h
  | .cons .., [], h => by simp [RowsRaw] at h

theorem subs_facts {p : RPath} : ∀ (fs : Fields) (rows : List FormsRes) (subs : List SForm) (ss : List RVal), SubsIs ρ τ p fs rows subs ss → WFs fs →
    subs.flatMap (·.pathDict) = rdecsAll fs p ss ∧
    subs.flatMap (·.leaves) = (rawLeavesAll fs (VF.fillAll fs ss (below ρ p))).map (leafOf p) ∧
    SF.allMatch rows subs = tagsOkAll τ fs p ss ∧ RHasAll fs ss ∧
    (tagsOkAll τ fs p ss = true → rows.map (·.value) = subs.map (·.value) ∧ ∃ ns, SF.ValsOk fs (subs.map (·.value)) ns ∧
      SF.packAll fs ns = rawCodeAll fs (VF.fillAll fs ss (below ρ p)))
  | .nil, [], [], [], _, _ => ⟨rfl, rfl, rfl, trivial, fun _ => ⟨rfl, [], trivial, rfl⟩⟩
  | .cons k t fs, r :: rs, f :: subs, s :: ss, h, hw => by
    obtain ⟨i1, i2, i3, i4, i5⟩ := subs_facts fs rs subs ss h.2 hw.2
    obtain ⟨j1, j2, j3, j4, j5⟩ := h.1
    refine ⟨?_, ?_, ?_, ⟨j4, i4⟩, ?_⟩
    · rw [List.flatMap_cons, i1, j1]; rfl
    · rw [List.flatMap_cons, i2, j2]
      simp only [VF.fillAll, rawLeavesAll, below_step, List.map_append, List.map_map]
      congr 1
      apply List.map_congr_left
      intro l _
      simp [leafOf]
    · simp only [SF.allMatch, tagsOkAll, i3, j3]
    · intro ht
      simp only [tagsOkAll, Bool.and_eq_true] at ht
      obtain ⟨a1, ns, a2, a3⟩ := i5 ht.2
      obtain ⟨b1, b2⟩ := j5 ht.1
      have hc := SB.code_lt t _ hw.1 (VF.fill_spec t s (below ρ (p ++ [k])) j4).1
      refine ⟨by simp [b2, a1], _ :: ns, ⟨b1, hc, a2⟩, ?_⟩
      simp only [SF.packAll, a3, VF.fillAll, rawCodeAll, below_step]
  | .nil, [], [], _ :: _, h, _ => by simp [SubsIs] at h
  | .nil, [], _ :: _, _, h, _ => by simp [SubsIs] at h
  | .nil, _ :: _, _, _, h, _ => by simp [SubsIs] at h
  | .cons .., [], _, _, h, _ => by simp [SubsIs] at h
  | .cons .., _ :: _, [], _, h, _ => by simp [SubsIs] at h
  | .cons .., _ :: _, _ :: _, [], h, _ => by simp [SubsIs] at h

theorem prod_raw (P : Process) {c : Nat} {fs : Fields} {p : RPath} {rows : List FormsRes} {r : FormsRes} (hw : WF (.prod c fs))
    (hb : Buildable (.prod c fs)) (hr : smtFields P.asm ρ τ fs p = .ok rows) (h : SF.RowsOk ρ τ p fs rows) (hraw : RowsRaw ρ τ p fs rows)
    (hres : smtForms P.asm ρ τ (.prod c fs) p = .ok r) : RawOk ρ τ (.prod c fs) p r := by
  obtain ⟨ns, hns⟩ := SF.rows_vals fs rows h
  have hx := SF.fromFields_bits P hw hb hns
  rw [List.map_map] at hx
  simp only [smtForms, hr] at hres
  rw [show (rows.map (fun r => Arg.asm r.value)) = rows.map (Arg.asm ∘ fun x => x.value) from rfl, hx] at hres
  simp only at hres
  cases hf : exMap (combineForms P.asm (.prod c fs)) (pyProduct (rows.map (·.forms))) with
  | error e => rw [hf] at hres; cases hres
  | ok forms =>
    rw [hf] at hres
    cases hres
    obtain ⟨t1, t2, t3, t4, t5⟩ := SF.tables_facts fs rows h
    have hvm := SF.foldr_matches (fun r : FormsRes => r.varmap) rows
    rw [← t3] at hvm
    have hlook : ∀ r ∈ rows, ∀ f ∈ r.forms, ∀ e ∈ f.pathDict,
        ((SF.tablesOf fs rows).flatMap (·.2)).lookup e.1 = r.varmap.matches_.lookup e.1 := by
      intro r hr' f hf' e he
      obtain ⟨k, hk⟩ := t4 r hr'
      exact SF.lookup_keyed t1 (by rw [t2]; exact hw.1) hk (t5 r hr' f hf' e he)
    have hcomb : ∀ subs ∈ pyProduct (rows.map (·.forms)), ∃ g, combineForms P.asm (.prod c fs) subs = .ok g := by
      intro subs hs
      obtain ⟨ms, hms⟩ := SF.subs_vals fs rows h subs hs
      have := SF.fromFields_bits P hw hb hms
      rw [List.map_map] at this
      refine ⟨⟨mkAV (.prod c fs) (SF.packAll fs ms), subs.flatMap (·.pathDict), subs.flatMap (·.leaves)⟩, ?_⟩
      simp only [combineForms]
      rw [show (subs.map (fun f => Arg.asm f.value)) = subs.map (Arg.asm ∘ fun x => x.value) from rfl, this]
    obtain ⟨forms', hf2, hfa⟩ := SF.exMap_ok hcomb
    rw [hf] at hf2
    cases hf2
    have hprod := rows_product fs rows hraw
    unfold RawOk
    simp only [skels]
    rw [List.forall₂_map_right_iff]
    have hmem : ∀ subs ∈ pyProduct (rows.map (·.forms)), subs ∈ pyProduct (rows.map (·.forms)) := fun _ h => h
    -- combine the two relations
    have key : ∀ (L : List (List SForm)) (F : List SForm) (M : List (List RVal)), (∀ s ∈ L, s ∈ pyProduct (rows.map (·.forms))) →
        List.Forall₂ (fun a b => combineForms P.asm (.prod c fs) a = .ok b) L F → List.Forall₂ (SubsIs ρ τ p fs rows) L M →
        List.Forall₂ (fun f ss => FormIs ρ τ (.prod c fs) p
          ⟨forms, rows.foldr (fun r vm => r.varmap.append vm) ⟨[], [], []⟩, mkAV (.prod c fs) (SF.packAll fs ns)⟩ f (.prod ss)) F M := by
      intro L F M hL h1 h2
      induction h1 generalizing M with
      | nil => cases h2; exact .nil
      | @cons subs g L F hsg _ ih =>
        cases h2 with
        | @cons _ ss _ M hss h2 =>
          refine .cons ?_ (ih M (fun s hs => hL s (List.mem_cons_of_mem _ hs)) h2)
          obtain ⟨i1, i2, i3, i4, i5⟩ := subs_facts fs rows subs ss hss hw.2
          simp only [combineForms] at hsg
          cases hff : AV.fromFields P.asm (.prod c fs) (subs.map (fun f => Arg.asm f.value)) 0 with
          | error e => rw [hff] at hsg; cases hsg
          | ok y =>
            rw [hff] at hsg
            cases hsg
            refine ⟨i1, i2, ?_, i4, ?_⟩
            · show SF.preMatches _ (subs.flatMap (·.pathDict)) = _
              simp only
              rw [hvm, SF.allMatch_eq (hL subs List.mem_cons_self) hlook, i3]
              rfl
            · intro ht
              obtain ⟨a1, ms, a2, a3⟩ := i5 ht
              have hy := SF.fromFields_bits P hw hb a2
              rw [List.map_map] at hy
              rw [show (subs.map (fun f => Arg.asm f.value)) = subs.map (Arg.asm ∘ fun x => x.value) from rfl, hy] at hff
              cases hff
              rw [a3]
              refine ⟨rfl, ?_⟩
              simp only
              rw [← a1] at a2
              have := SF.fromFields_bits P hw hb a2
              rw [SF.fromFields_bits P hw hb hns, a3] at this
              exact Except.ok.inj this
    exact key _ _ _ (fun _ h => h) hfa hprod

/-! ## unions -/

/-- What is known of the row of an option. -/
def OptRaw (P : Process) (ρ τ : RPath → Nat) (u : Ty) (tag : BV) (p : RPath) (k : Key) (t : Ty) (row : Key × FormsRes × Bool) : Prop :=
  row.1 = k ∧ ∃ r, smtForms P.asm ρ τ t (p ++ [k]) = .ok r ∧ row.2.1.varmap = r.varmap ∧
    AV.fromOption P.asm u k (.asm r.value) (some tag) 0 = .ok row.2.1.value ∧
    (∃ x, row.2.1.value.getOption P.asm k = .ok (row.2.2, x)) ∧
    List.Forall₂ (fun f g => liftForm P.asm u p k tag f = .ok g) r.forms row.2.1.forms

def OptsRaw (P : Process) (ρ τ : RPath → Nat) (u : Ty) (tag : BV) (p : RPath) : Fields → List (Key × FormsRes × Bool) → Prop
  | .nil, [] => True
  | .cons k t fs, row :: rows => OptRaw P ρ τ u tag p k t row ∧ OptsRaw P ρ τ u tag p fs rows
  | _, _ => False

theorem exMap_forall₂ {α β : Type} {f : α → Except Err β} : ∀ {l : List α} {l' : List β}, exMap f l = .ok l' → List.Forall₂ (fun a b => f a = .ok b) l l'
  | [], l', h => by cases h; exact .nil
  | a :: l, l', h => by
    simp only [exMap] at h
    cases h1 : f a with
    | error e => rw [h1] at h; cases h
    | ok b' =>
      rw [h1] at h
      cases h2 : exMap f l with
      | error e => rw [h2] at h; cases h
      | ok bs =>
        rw [h2] at h
        cases h
        exact .cons h1 (exMap_forall₂ h2)

theorem options_inv (P : Process) {u : Ty} {tag : BV} {p : RPath} : ∀ (fs : Fields) (rows : List (Key × FormsRes × Bool)),
    smtOptions P.asm ρ τ u tag fs p = .ok rows → OptsRaw P ρ τ u tag p fs rows
  | .nil, rows, h => by cases h; trivial
  | .cons k t fs, rows, h => by
    simp only [smtOptions] at h
    cases h1 : smtForms P.asm ρ τ t (p ++ [k]) with
    | error e => rw [h1] at h; cases h
    | ok r =>
      rw [h1] at h
      simp only at h
      cases h2 : AV.fromOption P.asm u k (.asm r.value) (some tag) 0 with
      | error e => rw [h2] at h; cases h
      | ok x =>
        rw [h2] at h
        simp only at h
        cases h3 : exMap (liftForm P.asm u p k tag) r.forms with
        | error e => rw [h3] at h; cases h
        | ok forms =>
          rw [h3] at h
          simp only at h
          cases h4 : x.getOption P.asm k with
          | error e => rw [h4] at h; cases h
          | ok mx =>
            rw [h4] at h
            simp only at h
            cases h5 : smtOptions P.asm ρ τ u tag fs p with
            | error e => rw [h5] at h; cases h
            | ok rs =>
              rw [h5] at h
              cases h
              exact ⟨⟨rfl, r, h1, rfl, h2, ⟨mx.2, h4⟩, exMap_forall₂ h3⟩, options_inv P fs rs h5⟩

theorem at_get : ∀ (fs : Fields) (p : RPath) (k : Key) (v : RVal) (t : Ty) (ρ' : RPath → Nat), (fs.toList.map (·.1)).Nodup → (k, t) ∈ fs.toList →
    rdecsAt fs p k v = rdecs t (p ++ [k]) v ∧ rawLeavesAt fs k v = (rawLeaves t v).map (fun l => (k :: l.1, l.2)) ∧
    VF.fillAt fs k v ρ' = VF.fill t v (fun q => ρ' (k :: q)) ∧ tagsOkAt τ fs p k v = tagsOk τ t (p ++ [k]) v ∧
    (RHasAt fs k v ↔ RHas t v) ∧ rawCodeAt fs k v = rawCode t v
  | .nil, _, _, _, _, _, _, h => by simp [Fields.toList] at h
  | .cons k' t' fs, p, k, v, t, ρ', hn, h => by
    simp only [Fields.toList, List.map_cons, List.nodup_cons, List.mem_cons] at hn h
    by_cases hk : k = k'
    · subst hk
      rcases h with h | h
      · cases h
        simp [rdecsAt, rawLeavesAt, VF.fillAt, tagsOkAt, RHasAt, rawCodeAt]
      · exact absurd (List.mem_map_of_mem (f := (·.1)) h) hn.1
    · rcases h with h | h
      · cases h; exact absurd rfl hk
      · have := at_get fs p k v t ρ' hn.2 h
        simpa [rdecsAt, rawLeavesAt, VF.fillAt, tagsOkAt, RHasAt, rawCodeAt, hk] using this

theorem mkAV_inj {t : Ty} {n m : Nat} (hn : n < 2 ^ width t) (hm : m < 2 ^ width t) (h : mkAV t n = mkAV t m) : n = m := by
  have := congrArg AV.asBv h
  rw [asBv_mkAV hn, asBv_mkAV hm] at this
  have := congrArg BV.val this
  rwa [ofNat_val_of_lt hn, ofNat_val_of_lt hm] at this

theorem sum_raw (P : Process) {c : Nat} {fs : Fields} {p : RPath} {r : FormsRes} (hw : WF (.sum c fs)) (hb : Buildable (.sum c fs))
    (ih : ∀ k t, (k, t) ∈ fs.toList → ∀ r', smtForms P.asm ρ τ t (p ++ [k]) = .ok r' → RawOk ρ τ t (p ++ [k]) r')
    (hres : smtForms P.asm ρ τ (.sum c fs) p = .ok r) : RawOk ρ τ (.sum c fs) p r := by
  obtain ⟨o, ho, hg⟩ := P.good hw
  obtain ⟨tg, ht, hgt⟩ := hg.tag
  have htag0 : (BV.ofNat tg.width (τ p)).size = tagBits fs.toList.length := by rw [BV.ofNat_size, hgt.width]
  obtain ⟨rows, hrows, hok⟩ := SF.options_ok P ρ τ c fs (BV.ofNat tg.width (τ p)) p hw hb htag0 fs hw.2.2 hb.2.2 (fun _ h => h)
  generalize htagd : BV.ofNat tg.width (τ p) = tag at hrows hok
  have htag : tag.size = tagBits fs.toList.length := by rw [← htagd, BV.ofNat_size, hgt.width]
  have htv : tag.val = τ p % 2 ^ tagBits fs.toList.length := by rw [← htagd, BV.ofNat_val, hgt.width]
  obtain ⟨hnames, hkeyed, hmem⟩ := SF.opts_names fs rows hok
  have hraw := options_inv P fs rows hrows
  have hnd : (rows.map (·.1)).Nodup := by rw [hnames]; exact hw.2.1
  have hne : rows ≠ [] := by
    rintro rfl
    have := congrArg List.length hnames
    simp only [List.map_nil, List.length_nil, List.length_map] at this
    exact hw.1 (List.eq_nil_of_length_eq_zero this.symm)
  obtain ⟨e0, he0, hchain, hchoose⟩ := SF.iteChain_spec (l := rows.map (fun r => (r.1, r.2.1.value, r.2.2))) (by simpa using hne)
  obtain ⟨row0, hrow0, rfl⟩ := List.mem_map.mp he0
  have hvm := SF.foldr_matches (fun r : Key × FormsRes × Bool => r.2.1.varmap) rows
  have hflat : rows.flatMap (fun r => r.2.1.varmap.matches_) = (SF.optTables rows).flatMap (·.2) := by
    simp only [SF.optTables, List.flatMap_map]
  rw [hflat] at hvm
  simp only [smtForms, ho, ht, htagd, hrows, hchain] at hres
  have hmt : (Varmap.append ⟨[], [(p, tag)], [(p, rows.map (fun r => (r.1, r.2.2)))]⟩
      (rows.foldr (fun r vm => r.2.1.varmap.append vm) ⟨[], [], []⟩)).matches_ =
      (p, rows.map (fun r => (r.1, r.2.2))) :: (SF.optTables rows).flatMap (·.2) := by
    simp only [Varmap.append, List.singleton_append]
    rw [← hvm]; rfl
  have hlook : ∀ row ∈ rows, ∀ q ∈ row.2.1.varmap.matches_.map (·.1),
      ((p, rows.map (fun r => (r.1, r.2.2))) :: (SF.optTables rows).flatMap (·.2)).lookup q = row.2.1.varmap.matches_.lookup q := by
    intro row hrow q hq
    have hin : (row.1, row.2.1.varmap.matches_) ∈ SF.optTables rows := List.mem_map_of_mem (f := fun r => (r.1, r.2.1.varmap.matches_)) hrow
    have hpre := hkeyed _ hin q hq
    rw [List.lookup_cons, SF.lookup_self_not_prefix hpre]
    refine SF.lookup_keyed hkeyed ?_ hin hq
    simpa [SF.optTables, Function.comp_def] using hnd
  -- one option
  have hrow : ∀ k t row, row ∈ rows → (k, t) ∈ fs.toList → OptRaw P ρ τ (.sum c fs) tag p k t row →
      List.Forall₂ (FormIs ρ τ (.sum c fs) p r) row.2.1.forms ((skels t).map (.sum k)) := by
    intro k t row hrm hkt ⟨hk, rk, h1, h2, h3, ⟨gx, h4⟩, h5⟩
    subst hk
    have hraw := ih row.1 t hkt rk h1
    obtain ⟨i, hi⟩ := List.getElem?_of_mem hkt
    have hwt := wfs_mem fs hw.2.2 i row.1 t hi
    have hbt := VF.buildables_mem fs hb.2.2 _ hkt
    obtain ⟨rk', hrk', hfo⟩ := SF.forms_ok P ρ τ t hwt hbt (p ++ [row.1])
    rw [h1] at hrk'
    cases hrk'
    obtain ⟨n, hn, hval⟩ := hfo.val
    rw [hval, SF.fromOption_bits P hw hb hkt hn htag] at h3
    have hm : row.2.2 = decide (tag.val = optionIndex fs row.1) := by
      obtain ⟨x, hx⟩ := SF.getOption_bits P hw hkt hn htag
      rw [← Except.ok.inj h3, hx] at h4
      exact (Prod.mk.inj (Except.ok.inj h4)).1.symm
    rw [List.forall₂_map_right_iff]
    have hfm : ∀ f ∈ rk.forms, f ∈ rk.forms := fun _ h => h
    have key : ∀ (L G : List SForm) (M : List RVal), (∀ f ∈ L, f ∈ rk.forms) →
        List.Forall₂ (fun f g => liftForm P.asm (.sum c fs) p row.1 tag f = .ok g) L G →
        List.Forall₂ (FormIs ρ τ t (p ++ [row.1]) rk) L M →
        List.Forall₂ (fun g s => FormIs ρ τ (.sum c fs) p r g (.sum row.1 s)) G M := by
      intro L G M hL g1 g2
      induction g1 generalizing M with
      | nil => cases g2; exact .nil
      | @cons f g L G hfg _ ihL =>
        cases g2 with
        | @cons _ s _ M hs g2 =>
          refine .cons ?_ (ihL M (fun f hf => hL f (List.mem_cons_of_mem _ hf)) g2)
          have hfr := hL f List.mem_cons_self
          obtain ⟨l1, l2, l3⟩ := SF.lift_facts hfg
          obtain ⟨j1, j2, j3, j4, j5⟩ := hs
          obtain ⟨a1, _, a3, a4, a5, _⟩ := at_get (τ := τ) fs p row.1 s t (below ρ p) hw.2.1 hkt
          obtain ⟨_, b2, _, _, _, b6⟩ := at_get (τ := τ) fs p row.1 (VF.fill t s (below ρ (p ++ [row.1]))) t (below ρ p) hw.2.1 hkt
          have htags : tagsOk τ (.sum c fs) p (.sum row.1 s) = (row.2.2 && tagsOk τ t (p ++ [row.1]) s) := by
            simp only [tagsOk, a4, hm, htv]
          have hfill : VF.fill (.sum c fs) (.sum row.1 s) (below ρ p) = .sum row.1 (VF.fill t s (below ρ (p ++ [row.1]))) := by
            simp only [VF.fill, a3, below_step]
          refine ⟨?_, ?_, ?_, ?_, ?_⟩
          · rw [l1, j1]; simp only [rdecs, a1]
          · rw [l2, j2, hfill]
            simp only [rawLeaves, b2, List.map_map]
            apply List.map_congr_left
            intro l _
            simp [leafOf]
          · rw [htags, ← j3, ← Except.ok.inj hres]
            show SF.preMatches _ g.pathDict = _
            rw [hmt, l1]
            simp only [SF.preMatches, List.all_cons]
            congr 1
            · rw [List.lookup_cons_self]
              simp only [Option.bind_some, SF.lookup_table hnd hrm]
              cases row.2.2 <;> rfl
            · show SF.preMatches _ f.pathDict = SF.preMatches _ f.pathDict
              apply SF.preMatches_congr
              intro e he
              rw [← h2]
              exact hlook row hrm e.1 (by rw [h2]; exact hfo.dom f hfr e he)
          · simp only [RHas]; exact a5.mpr j4
          · intro htt
            rw [htags, Bool.and_eq_true] at htt
            obtain ⟨v1, v2⟩ := j5 htt.2
            have hlt := SB.code_lt t _ hwt (VF.fill_spec t s (below ρ (p ++ [row.1])) j4).1
            rw [v1, SF.fromOption_bits P hw hb hkt hlt htag] at l3
            have htagv : tag.val = optionIndex fs row.1 := by
              have := htt.1
              rw [hm] at this
              simpa using this
            have hcode : rawCode (.sum c fs) (VF.fill (.sum c fs) (.sum row.1 s) (below ρ p)) =
                tag.val + 2 ^ tagBits fs.toList.length * rawCode t (VF.fill t s (below ρ (p ++ [row.1]))) := by
              rw [hfill]
              simp only [rawCode, b6, htagv]
            refine ⟨by rw [hcode]; exact (Except.ok.inj l3).symm, ?_⟩
            -- the chain chose this row
            have hm0 : row0.2.2 = true := hchoose ⟨_, List.mem_map_of_mem (f := fun r => (r.1, r.2.1.value, r.2.2)) hrm, htt.1⟩
            obtain ⟨t0, htm0, _, hd0, _⟩ := hmem row0 hrow0
            rw [hd0, decide_eq_true_iff, htagv] at hm0
            obtain ⟨j, hj⟩ := List.getElem?_of_mem htm0
            rw [optionIndex_of_get hw.2.1 hi, optionIndex_of_get hw.2.1 hj] at hm0
            subst hm0
            rw [hi] at hj
            have hk0 : row0.1 = row.1 := (Prod.mk.inj (Option.some.inj hj)).1.symm
            have hr0 : row0 = row := List.inj_on_of_nodup_map hnd hrow0 hrm hk0
            have hnn : n = rawCode t (VF.fill t s (below ρ (p ++ [row.1]))) :=
              mkAV_inj hn hlt (by rw [← hval, v2, v1])
            rw [← Except.ok.inj hres]
            simp only
            rw [hr0, ← Except.ok.inj h3, ← Except.ok.inj l3, hnn]
    exact key _ _ _ (fun _ h => h) h5 hraw
  -- all options
  have hall : ∀ (fs' : Fields) (rows' : List (Key × FormsRes × Bool)), (∀ kt ∈ fs'.toList, kt ∈ fs.toList) → (∀ row ∈ rows', row ∈ rows) →
      OptsRaw P ρ τ (.sum c fs) tag p fs' rows' →
      List.Forall₂ (FormIs ρ τ (.sum c fs) p r) (rows'.flatMap (fun r => r.2.1.forms)) (skelsO fs') := by
    intro fs'
    induction fs' using Fields.rec (motive_1 := fun _ => True) with
    | nil => intro rows' _ _ h; cases rows' with
      | nil => exact .nil
      | cons => simp [OptsRaw] at h
    | cons k t fs' _ ihf =>
      intro rows' h1 h2 h3
      cases rows' with
      | nil => simp [OptsRaw] at h3
      | cons row rows' =>
        rw [List.flatMap_cons]
        simp only [skelsO]
        refine List.rel_append (hrow k t row (h2 row List.mem_cons_self) (h1 _ (by simp [Fields.toList])) h3.1)
          (ihf rows' (fun kt h => h1 kt (by simp [Fields.toList, h])) (fun row h => h2 row (List.mem_cons_of_mem _ h)) h3.2)
    | _ => trivial
  unfold RawOk
  have := hall fs rows (fun _ h => h) (fun _ h => h) hraw
  simp only [skels]
  rw [← Except.ok.inj hres] at this ⊢
  exact this

mutual
theorem raw_ok (P : Process) (ρ τ : RPath → Nat) : ∀ (t : Ty), WF t → Buildable t → ∀ p r, smtForms P.asm ρ τ t p = .ok r → RawOk ρ τ t p r
  | .bv c w, _, _, p, r, h => by
    cases h
    refine leaf_raw ?_ rfl rfl (by simp [VF.fill, below]) (by simp [rawLeaves]) (by simp [rawCode]) rfl rfl (by simp [RHas, Nat.two_pow_pos])
    simp only [mkAV, width]
    congr 1
    apply BV.ext <;> simp [BV.ofNat_size, BV.ofNat_val]
  | .bit c, _, _, p, r, h => by
    cases h
    refine leaf_raw ?_ rfl rfl (by simp [VF.fill, below]) (by simp [rawLeaves]) (by simp [rawCode]) rfl rfl (by simp [RHas, Nat.two_pow_pos])
    simp only [mkAV, width, BV.ofNat_val, Nat.pow_one]
    rcases Nat.mod_two_eq_zero_or_one (ρ p) with h | h <;> rw [h] <;> rfl
  | .enum c ms, hw, _, p, r, h => by
    obtain ⟨o, ho, hg⟩ := P.good hw
    have hn : AV.new P.asm (.enum c ms) (.asm (.bits (BV.ofNat o.width (ρ p)))) = .ok (mkAV (.enum c ms) (ρ p % 2 ^ width (.enum c ms))) := by
      rw [new_bits P hw (by simp) (by rw [BV.ofNat_size, hg.width]), BV.ofNat_val, hg.width]
    simp only [smtForms, ho, hn] at h
    cases h
    exact leaf_raw rfl (by rw [hg.width]) rfl (by simp [VF.fill, below]) (by simp [rawLeaves]) (by simp [rawCode]) rfl rfl (by simp [RHas, Nat.two_pow_pos])
  | .prod c fs, hw, hb, p, r, h => by
    obtain ⟨rows, h1, h2⟩ := SF.fields_ok P ρ τ fs hw.2 hb.2.2 p
    exact prod_raw P hw hb h1 h2 (rows_raw P ρ τ fs hw.2 hb.2.2 p rows h1) h
  | .sum c fs, hw, hb, p, r, h => sum_raw P hw hb (opts_raw P ρ τ fs hw.2.2 hb.2.2 p) h
theorem rows_raw (P : Process) (ρ τ : RPath → Nat) : ∀ (fs : Fields), WFs fs → Buildables fs → ∀ p rows, smtFields P.asm ρ τ fs p = .ok rows →
    RowsRaw ρ τ p fs rows
  | .nil, _, _, p, rows, h => by cases h; trivial
  | .cons k t fs, hw, hb, p, rows, h => by
    simp only [smtFields] at h
    cases h1 : smtForms P.asm ρ τ t (p ++ [k]) with
    | error e => rw [h1] at h; cases h
    | ok r =>
      rw [h1] at h
      cases h2 : smtFields P.asm ρ τ fs p with
      | error e => rw [h2] at h; cases h
      | ok rs =>
        rw [h2] at h
        cases h
        exact ⟨raw_ok P ρ τ t hw.1 hb.1 (p ++ [k]) r h1, rows_raw P ρ τ fs hw.2 hb.2 p rs h2⟩
theorem opts_raw (P : Process) (ρ τ : RPath → Nat) : ∀ (fs : Fields), WFs fs → Buildables fs → ∀ p k t, (k, t) ∈ fs.toList →
    ∀ r, smtForms P.asm ρ τ t (p ++ [k]) = .ok r → RawOk ρ τ t (p ++ [k]) r
  | .nil, _, _, _, _, _, h, _, _ => by simp [Fields.toList] at h
  | .cons k' t' fs, hw, hb, p, k, t, h, r, hr => by
    simp only [Fields.toList, List.mem_cons] at h
    by_cases hh : (k, t) = (k', t')
    · cases hh
      exact raw_ok P ρ τ t' hw.1 hb.1 (p ++ [k']) r hr
    · exact opts_raw P ρ τ fs hw.2 hb.2 p k t (h.resolve_left hh) r hr
end

end Peak.RF
