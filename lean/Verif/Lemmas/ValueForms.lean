import Verif.Model.ValueForms
import Verif.Spec.ValueForms
import Verif.Lemmas.SmtForms
import Verif.Model.Verify
/-!
# `SMTForms` of a given value gives the forms of the type with the parts of the value for the variables
-/

namespace Peak.ValF
open Peak Peak.Spec

/-! ## parts of a number -/

theorem at_field : ∀ (fs : Fields), (fs.toList.map (·.1)).Nodup → ∀ (base : Nat) (k : Key) (t : Ty), (k, t) ∈ fs.toList →
    ∃ off, (layoutFrom base fs).lookup k = some (base + off, base + off + width t) ∧ off + width t ≤ sumWidths fs ∧
      ∀ n p, bitsAtF fs n k p = bitsAt t (n / 2 ^ off % 2 ^ width t) p ∧ tagAtF fs n k p = tagAt t (n / 2 ^ off % 2 ^ width t) p
  | .nil, _, _, _, _, h => by simp [Fields.toList] at h
  | .cons k' t' fs, hn, base, k, t, h => by
    simp only [Fields.toList, List.map_cons, List.nodup_cons] at hn
    by_cases hk : k = k'
    · subst hk
      have : t = t' := by
        rcases List.mem_cons.mp h with h | h
        · exact (Prod.mk.inj h).2
        · exact absurd (List.mem_map_of_mem (f := (·.1)) h) hn.1
      subst this
      refine ⟨0, by simp [layoutFrom], by simp [sumWidths], fun n p => ?_⟩
      simp [bitsAtF, tagAtF]
    · have hm : (k, t) ∈ fs.toList := by
        rcases List.mem_cons.mp h with h | h
        · exact absurd (Prod.mk.inj h).1 hk
        · exact h
      obtain ⟨off, h1, h2, h3⟩ := at_field fs hn.2 (base + width t') k t hm
      have hk' : (k == k') = false := by simpa using hk
      refine ⟨width t' + off, ?_, ?_, fun n p => ?_⟩
      · simp only [layoutFrom, List.lookup_cons, hk', h1, Nat.add_assoc]
      · simp only [sumWidths]; omega
      · simp only [bitsAtF, tagAtF, if_neg hk, h3, Nat.pow_add, ← Nat.div_div_eq_div_mul, and_self]

theorem at_option : ∀ (fs : Fields), (fs.toList.map (·.1)).Nodup → ∀ (k : Key) (t : Ty), (k, t) ∈ fs.toList →
    ∀ n p, bitsAtO fs n k p = bitsAt t (n % 2 ^ width t) p ∧ tagAtO fs n k p = tagAt t (n % 2 ^ width t) p
  | .nil, _, _, _, h => by simp [Fields.toList] at h
  | .cons k' t' fs, hn, k, t, h => by
    intro n p
    simp only [Fields.toList, List.map_cons, List.nodup_cons] at hn
    by_cases hk : k = k'
    · subst hk
      have : t = t' := by
        rcases List.mem_cons.mp h with h | h
        · exact (Prod.mk.inj h).2
        · exact absurd (List.mem_map_of_mem (f := (·.1)) h) hn.1
      subst this
      simp [bitsAtO, tagAtO]
    · have hm : (k, t) ∈ fs.toList := by
        rcases List.mem_cons.mp h with h | h
        · exact absurd (Prod.mk.inj h).1 hk
        · exact h
      simp only [bitsAtO, tagAtO, if_neg hk]
      exact at_option fs hn.2 k t hm n p

/-! ## reading the parts -/

theorem get_num (P : Process) {c : Nat} {fs : Fields} {n : Nat} (hw : WF (.prod c fs)) (hn : n < 2 ^ width (.prod c fs))
    {k : Key} {t : Ty} (hk : (k, t) ∈ fs.toList) :
    ∃ m, m < 2 ^ width t ∧ (mkAV (.prod c fs) n).get P.asm k = .ok (mkAV t m) ∧
      ∀ p, bitsAt (.prod c fs) n (k :: p) = bitsAt t m p ∧ tagAt (.prod c fs) n (k :: p) = tagAt t m p := by
  obtain ⟨off, h1, h2, h3⟩ := at_field fs hw.1 0 k t hk
  obtain ⟨i, hi⟩ := List.getElem?_of_mem hk
  obtain ⟨o, ho, hg⟩ := P.good hw
  refine ⟨n / 2 ^ off % 2 ^ width t, Nat.mod_lt _ (Nat.two_pow_pos _), ?_, fun p => by simp only [bitsAt, tagAt]; exact h3 n p⟩
  rw [show mkAV (.prod c fs) n = .adt (.prod c fs) (BV.ofNat (width (.prod c fs)) n) from rfl]
  simp only [AV.get, ho]
  rw [sub_spec P hg (wfs_mem fs hw.2 i k t hi) rfl (lookup_of_get hw.1 hi) (by simpa [layoutOf] using h1) (by simpa [width] using h2),
    ofNat_val_of_lt hn, mkAV_mod]

theorem option_num (P : Process) {c : Nat} {fs : Fields} {n : Nat} (hw : WF (.sum c fs)) (hn : n < 2 ^ width (.sum c fs))
    {k : Key} {t : Ty} (hk : (k, t) ∈ fs.toList) :
    ∃ m b, m < 2 ^ width t ∧ (mkAV (.sum c fs) n).getOption P.asm k = .ok (b, mkAV t m) ∧
      ∀ p, bitsAt (.sum c fs) n (k :: p) = bitsAt t m p ∧ tagAt (.sum c fs) n (k :: p) = tagAt t m p := by
  obtain ⟨i, hi⟩ := List.getElem?_of_mem hk
  obtain ⟨o, ho, hg⟩ := P.good hw
  obtain ⟨tg, ht, hgt⟩ := hg.tag
  have hle := width_le_maxWidth fs i k t hi
  have hs := sub_spec P hg (wfs_mem fs hw.2.2 i k t hi) (b := BV.ofNat (width (.sum c fs)) n)
    (k := k) (off := tagBits fs.toList.length) rfl (lookup_of_get hw.2.1 hi) (sum_layout hw hi) (by simp only [width]; omega)
  have hkj : k ∈ fs.toList.map (·.1) := List.mem_map_of_mem (f := (·.1)) hk
  rw [ofNat_val_of_lt hn] at hs
  have hat := at_option fs hw.2.1 k t hk (n / 2 ^ tagBits fs.toList.length)
  suffices h : ∃ b, (mkAV (.sum c fs) n).getOption P.asm k = .ok (b, mkAV t (n / 2 ^ tagBits fs.toList.length % 2 ^ width t)) by
    obtain ⟨b, hb⟩ := h
    exact ⟨_, b, Nat.mod_lt _ (Nat.two_pow_pos _), hb, fun p => by simp only [bitsAt, tagAt]; exact hat p⟩
  rw [mkAV_mod, show mkAV (.sum c fs) n = .adt (.sum c fs) (BV.ofNat (width (.sum c fs)) n) from rfl]
  simp only [AV.getOption, ho, hs, SubObj.tagIdx, AsmObj.sub, ht, AsmObj.assembleTag, hgt.asm_ok k hkj, hgt.width, Nat.zero_add]
  exact ⟨_, rfl⟩

theorem tag_num (P : Process) {c : Nat} {fs : Fields} {n : Nat} (hw : WF (.sum c fs)) (hn : n < 2 ^ width (.sum c fs)) :
    (mkAV (.sum c fs) n).getTag P.asm = .ok (BV.ofNat (tagBits fs.toList.length) n) := by
  obtain ⟨o, ho, hg⟩ := P.good hw
  obtain ⟨tg, ht, hgt⟩ := hg.tag
  have := tag_slice (tw := tagBits fs.toList.length) (w := width (.sum c fs)) (n := n / 2 ^ tagBits fs.toList.length) (tag := n % 2 ^ tagBits fs.toList.length)
    (Nat.mod_lt _ (Nat.two_pow_pos _)) (by simp only [width]; omega) (BV.ofNat (width (.sum c fs)) n) rfl
    (by rw [ofNat_val_of_lt hn]; exact (Nat.mod_add_div _ _).symm)
  simp only [mkAV, AV.getTag, ho, SubObj.tagIdx, AsmObj.sub, ht, hgt.width, Nat.zero_add, this]
  congr 1
  apply BV.ext <;> simp [BV.ofNat_size, BV.ofNat_val]

theorem isOf_mkAV (t : Ty) (n : Nat) : (mkAV t n).isOf t = true := by
  cases t <;> simp [mkAV, AV.isOf]

/-! ## the same forms -/

theorem exMap_forall₂ {α β : Type} {f : α → Except Err β} : ∀ {l : List α} {l' : List β}, exMap f l = .ok l' → List.Forall₂ (fun a b => f a = .ok b) l l'
  | [], _, h => by cases h; exact .nil
  | a :: l, _, h => by
    simp only [exMap] at h
    split at h
    · cases h
    · next b hb =>
      split at h
      · cases h
      · next bs hbs => cases h; exact .cons hb (exMap_forall₂ hbs)

def fkey (f : SForm) : List (RPath × Key) × List (RPath × BV) := (f.pathDict, f.leaves)

structure Same (t : Ty) (r r' : FormsRes) : Prop where
  value : r.value = r'.value
  varmap : r.varmap = r'.varmap
  forms : r.forms.map fkey = r'.forms.map fkey
  typed : ∃ m, m < 2 ^ width t ∧ r.value = mkAV t m
  ftyped : ∀ f ∈ r.forms, ∃ m, m < 2 ^ width t ∧ f.value = mkAV t m

def Sames : Fields → List FormsRes → List FormsRes → Prop
  | .nil, [], [] => True
  | .cons _ t fs, r :: rs, r' :: rs' => Same t r r' ∧ Sames fs rs rs'
  | _, _, _ => False

theorem sames_values : ∀ {fs : Fields} {rs rs' : List FormsRes}, Sames fs rs rs' →
    rs.map (·.value) = rs'.map (·.value) ∧ rs.map (fun r => r.forms.map fkey) = rs'.map (fun r => r.forms.map fkey) ∧
      rs.foldr (fun (r : FormsRes) (vm : Varmap) => r.varmap.append vm) (⟨[], [], []⟩ : Varmap) = rs'.foldr (fun (r : FormsRes) (vm : Varmap) => r.varmap.append vm) (⟨[], [], []⟩ : Varmap)
  | .nil, [], [], _ => ⟨rfl, rfl, rfl⟩
  | .cons _ t fs, r :: rs, r' :: rs', h => by
    obtain ⟨h1, h2, h3⟩ := sames_values h.2
    exact ⟨by simp [h.1.value, h1], by simp only [List.map_cons, h.1.forms, h2], by simp only [List.foldr_cons, h.1.varmap, h3]⟩
  | .nil, [], _ :: _, h => by simp [Sames] at h
  | .nil, _ :: _, _, h => by simp [Sames] at h
  | .cons .., [], _, h => by simp [Sames] at h
  | .cons .., _ :: _, [], h => by simp [Sames] at h

theorem sames_subs : ∀ {fs : Fields} {rs rs' : List FormsRes}, Sames fs rs rs' → ∀ subs ∈ pyProduct (rs.map (·.forms)),
    ∃ ms, SF.ValsOk fs (subs.map (·.value)) ms
  | .nil, [], [], _, subs, hs => by
    simp [pyProduct] at hs
    subst hs
    exact ⟨[], trivial⟩
  | .cons _ t fs, r :: rs, r' :: rs', h, subs, hs => by
    simp only [List.map_cons, pyProduct, List.mem_flatMap, List.mem_map] at hs
    obtain ⟨f, hf, subs', hs', rfl⟩ := hs
    obtain ⟨ms, hms⟩ := sames_subs h.2 subs' hs'
    obtain ⟨m, hm, hv⟩ := h.1.ftyped f hf
    exact ⟨m :: ms, hv, hm, hms⟩
  | .nil, [], _ :: _, h, _, _ => by simp [Sames] at h
  | .nil, _ :: _, _, h, _, _ => by simp [Sames] at h
  | .cons .., [], _, h, _, _ => by simp [Sames] at h
  | .cons .., _ :: _, [], h, _, _ => by simp [Sames] at h

theorem sames_vals : ∀ {fs : Fields} {rs rs' : List FormsRes}, Sames fs rs rs' → ∃ ms, SF.ValsOk fs (rs.map (·.value)) ms
  | .nil, [], [], _ => ⟨[], trivial⟩
  | .cons _ t fs, r :: rs, r' :: rs', h => by
    obtain ⟨ms, hms⟩ := sames_vals h.2
    obtain ⟨m, hm, hv⟩ := h.1.typed
    exact ⟨m :: ms, hv, hm, hms⟩
  | .nil, [], _ :: _, h => by simp [Sames] at h
  | .nil, _ :: _, _, h => by simp [Sames] at h
  | .cons .., [], _, h => by simp [Sames] at h
  | .cons .., _ :: _, [], h => by simp [Sames] at h

theorem product_map {α β : Type} (g : α → β) : ∀ (L : List (List α)), (pyProduct L).map (List.map g) = pyProduct (L.map (List.map g))
  | [] => rfl
  | l :: L => by
    simp only [pyProduct, List.map_cons, List.map_flatMap, List.flatMap_map, ← product_map g L, List.map_map]
    rfl

theorem combine_keys {A : Ty → Except Err AsmObj} {t : Ty} {L : List (List SForm)} {forms : List SForm} (h : exMap (combineForms A t) L = .ok forms) :
    forms.map fkey = (L.map (List.map fkey)).map (fun ks => (ks.flatMap (·.1), ks.flatMap (·.2))) := by
  have := exMap_forall₂ h
  clear h
  induction this with
  | nil => rfl
  | cons h1 _ ih =>
    rw [List.map_cons, ih, List.map_cons, List.map_cons]
    congr 1
    simp only [combineForms] at h1
    split at h1
    · cases h1
    · cases h1
      simp [fkey, List.flatMap_map]

/-! ## options -/

structure OptSame (p : RPath) (k : Key) (u : Ty) (row row' : Key × FormsRes × Bool) : Prop where
  name : row.1 = k
  same : Same u row.2.1 row'.2.1
  cond : row.2.2 = row'.2.2
  name' : row'.1 = k

def OptSames (p : RPath) (u : Ty) : Fields → List (Key × FormsRes × Bool) → List (Key × FormsRes × Bool) → Prop
  | .nil, [], [] => True
  | .cons k _ fs, r :: rs, r' :: rs' => OptSame p k u r r' ∧ OptSames p u fs rs rs'
  | _, _, _ => False

theorem optSames_facts {p : RPath} {u : Ty} : ∀ {fs : Fields} {rs rs' : List (Key × FormsRes × Bool)}, OptSames p u fs rs rs' →
    rs.map (fun r => (r.1, r.2.1.value, r.2.2)) = rs'.map (fun r => (r.1, r.2.1.value, r.2.2)) ∧
    rs.map (fun r => (r.1, r.2.2)) = rs'.map (fun r => (r.1, r.2.2)) ∧
    (rs.flatMap (fun r => r.2.1.forms)).map fkey = (rs'.flatMap (fun r => r.2.1.forms)).map fkey ∧
    (∀ r ∈ rs, ∃ m, m < 2 ^ width u ∧ r.2.1.value = mkAV u m) ∧ (∀ r ∈ rs, ∀ f ∈ r.2.1.forms, ∃ m, m < 2 ^ width u ∧ f.value = mkAV u m) ∧
    rs.foldr (fun (r : Key × FormsRes × Bool) (vm : Varmap) => r.2.1.varmap.append vm) (⟨[], [], []⟩ : Varmap) =
      rs'.foldr (fun (r : Key × FormsRes × Bool) (vm : Varmap) => r.2.1.varmap.append vm) (⟨[], [], []⟩ : Varmap)
  | .nil, [], [], _ => ⟨rfl, rfl, rfl, by simp, by simp, rfl⟩
  | .cons _ t fs, r :: rs, r' :: rs', h => by
    obtain ⟨h1, h2, h3, h4, h5, h6⟩ := optSames_facts h.2
    obtain ⟨a1, a2, a3, a4⟩ := h.1
    refine ⟨?_, ?_, ?_, ?_, ?_, ?_⟩
    · simp only [List.map_cons, h1, a1, a4, a2.value, a3]
    · simp only [List.map_cons, h2, a1, a4, a3]
    · simp only [List.flatMap_cons, List.map_append, h3, a2.forms]
    · intro x hx
      rcases List.mem_cons.mp hx with rfl | hx
      · exact a2.typed
      · exact h4 x hx
    · intro x hx
      rcases List.mem_cons.mp hx with rfl | hx
      · exact a2.ftyped
      · exact h5 x hx
    · simp only [List.foldr_cons, h6, a2.varmap]
  | .nil, [], _ :: _, h => by simp [OptSames] at h
  | .nil, _ :: _, _, h => by simp [OptSames] at h
  | .cons .., [], _, h => by simp [OptSames] at h
  | .cons .., _ :: _, [], h => by simp [OptSames] at h

theorem lift_keys {A : Ty → Except Err AsmObj} {u : Ty} {p : RPath} {k : Key} {tag : BV} {L forms : List SForm} (h : exMap (liftForm A u p k tag) L = .ok forms) :
    forms.map fkey = (L.map fkey).map (fun e => ((p, k) :: e.1, e.2)) := by
  have := exMap_forall₂ h
  clear h
  induction this with
  | nil => rfl
  | cons h1 _ ih =>
    rw [List.map_cons, ih, List.map_cons, List.map_cons]
    congr 1
    simp only [liftForm] at h1
    split at h1
    · cases h1
    · cases h1; rfl

theorem iteChain_mem {l : List (Key × AV × Bool)} {y : AV} (h : iteChain l = .ok y) : ∃ e ∈ l, e.2.1 = y := by
  have fold : ∀ (l : List (Key × AV × Bool)) (x : AV), (∃ e ∈ l, e.2.1 = l.foldl (fun acc e => if e.2.2 then e.2.1 else acc) x) ∨
      l.foldl (fun acc e => if e.2.2 then e.2.1 else acc) x = x := by
    intro l
    induction l with
    | nil => intro x; exact .inr rfl
    | cons e l ih =>
      intro x
      rw [List.foldl_cons]
      rcases ih (if e.2.2 then e.2.1 else x) with ⟨e', h1, h2⟩ | h2
      · exact .inl ⟨e', List.mem_cons_of_mem _ h1, h2⟩
      · rw [h2]
        cases e.2.2
        · exact .inr rfl
        · exact .inl ⟨e, List.mem_cons_self, rfl⟩
  match l, h with
  | (k, x, b) :: l, h =>
    simp only [iteChain, Except.ok.injEq] at h
    rcases fold l x with ⟨e, h1, h2⟩ | h2
    · exact ⟨e, List.mem_cons_of_mem _ h1, h2.trans h⟩
    · exact ⟨_, List.mem_cons_self, (h2.symm.trans h)⟩

mutual
theorem val_same (P : Process) (tu : Nat → Bool) (ρ τ : RPath → Nat) : ∀ (t : Ty), WF t → Buildable t → NoTagged tu t → ∀ (p : RPath) (n : Nat), n < 2 ^ width t →
    (∀ q, ρ (p ++ q) = bitsAt t n q) → (∀ q, τ (p ++ q) = tagAt t n q) →
    ∃ r r', valForms P.asm tu t p (mkAV t n) = .ok r ∧ smtForms P.asm ρ τ t p = .ok r' ∧ Same t r r'
  | .bv c w, _, _, _, p, n, hn, hρ, _ => by
    have h : ρ p = n := by simpa [bitsAt] using hρ []
    refine ⟨_, _, by simp only [valForms, isOf_mkAV, if_true]; rfl, rfl, ?_⟩
    refine ⟨by simp [valLeaf, mkAV, h], by simp [valLeaf, mkAV, h, AV.asBv], by simp [valLeaf, fkey, mkAV, AV.asBv, h], ⟨n, hn, rfl⟩, ?_⟩
    intro f hf
    simp only [valLeaf, List.mem_singleton] at hf
    subst hf
    exact ⟨n, hn, rfl⟩
  | .bit c, _, _, _, p, n, hn, hρ, _ => by
    have h : ρ p = n := by simpa [bitsAt] using hρ []
    refine ⟨_, _, by simp only [valForms, isOf_mkAV, if_true]; rfl, rfl, ?_⟩
    have ha := asBv_mkAV hn
    have hb : (mkAV (.bit c) n) = .bit ((BV.ofNat 1 n).val == 1) := by
      simp only [width] at hn
      rcases (by omega : n = 0 ∨ n = 1) with rfl | rfl <;> rfl
    refine ⟨by simp only [valLeaf, h, hb], by simp only [valLeaf, h, ha]; rfl, by simp only [valLeaf, h, fkey, ha, List.map_cons, List.map_nil]; rfl, ⟨n, hn, rfl⟩, ?_⟩
    intro f hf
    simp only [valLeaf, List.mem_singleton] at hf
    subst hf
    exact ⟨n, hn, rfl⟩
  | .enum c ms, hw, _, _, p, n, hn, hρ, _ => by
    have h : ρ p = n := by simpa [bitsAt] using hρ []
    obtain ⟨o, ho, hg⟩ := P.good hw
    have hnew : AV.new P.asm (.enum c ms) (.asm (.bits (BV.ofNat o.width n))) = .ok (mkAV (.enum c ms) n) := by
      rw [new_bits P hw (by simp) (by rw [BV.ofNat_size, hg.width]), BV.ofNat_val, hg.width, mkAV_mod]
    refine ⟨_, _, by simp only [valForms, isOf_mkAV, if_true]; rfl, by simp only [smtForms, ho, h, hnew]; rfl, ?_⟩
    have ha := asBv_mkAV hn
    refine ⟨rfl, by simp only [valLeaf, ha, hg.width], by simp only [valLeaf, fkey, ha, hg.width, List.map_cons, List.map_nil], ⟨n, hn, rfl⟩, ?_⟩
    intro f hf
    simp only [valLeaf, List.mem_singleton] at hf
    subst hf
    exact ⟨n, hn, rfl⟩
  | .prod c fs, hw, hb, ht, p, n, hn, hρ, hτ => by
    obtain ⟨rows, rows', h1, h2, h3⟩ := vals_same P tu ρ τ fs hw.2 hb.2.2 ht p (mkAV (.prod c fs) n) (fun k t hk => by
      obtain ⟨m, a1, a2, a3⟩ := get_num P hw hn hk
      refine ⟨m, a1, a2, fun q => ?_, fun q => ?_⟩
      · rw [← (a3 q).1, ← hρ, List.append_assoc]; rfl
      · rw [← (a3 q).2, ← hτ, List.append_assoc]; rfl)
    obtain ⟨r', h4, _⟩ := SF.forms_ok P ρ τ (.prod c fs) hw hb p
    obtain ⟨v1, v2, v3⟩ := sames_values h3
    obtain ⟨ns, hns⟩ := sames_vals h3
    have hx := SF.fromFields_bits P hw hb hns
    rw [List.map_map] at hx
    have hcomb : ∀ subs ∈ pyProduct (rows.map (·.forms)), ∃ g, combineForms P.asm (.prod c fs) subs = .ok g := by
      intro subs hs
      obtain ⟨ms, hms⟩ := sames_subs h3 subs hs
      have := SF.fromFields_bits P hw hb hms
      rw [List.map_map] at this
      refine ⟨⟨mkAV (.prod c fs) (SF.packAll fs ms), subs.flatMap (·.pathDict), subs.flatMap (·.leaves)⟩, ?_⟩
      simp only [combineForms]
      rw [show (subs.map (fun f => Arg.asm f.value)) = subs.map (Arg.asm ∘ fun x => x.value) from rfl, this]
    obtain ⟨forms, hf, hfa⟩ := SF.exMap_ok hcomb
    refine ⟨⟨forms, rows.foldr (fun r vm => r.varmap.append vm) ⟨[], [], []⟩, mkAV (.prod c fs) (SF.packAll fs ns)⟩, r', ?_, h4, ?_⟩
    · simp only [valForms, isOf_mkAV, if_true, h1]
      rw [show (rows.map (fun r => Arg.asm r.value)) = rows.map (Arg.asm ∘ fun x => x.value) from rfl, hx]
      simp only [hf]
    · have hx' : AV.fromFields P.asm (.prod c fs) (rows'.map (fun r => Arg.asm r.value)) 0 = .ok (mkAV (.prod c fs) (SF.packAll fs ns)) := by
        rw [← hx]
        congr 1
        have := congrArg (List.map Arg.asm) v1
        rw [List.map_map, List.map_map] at this
        exact this.symm
      simp only [smtForms, h2, hx'] at h4
      cases hf' : exMap (combineForms P.asm (.prod c fs)) (pyProduct (rows'.map (·.forms))) with
      | error e => rw [hf'] at h4; cases h4
      | ok forms' =>
        rw [hf'] at h4
        cases h4
        refine ⟨rfl, v3, ?_, ⟨_, SF.packAll_lt fs _ _ hns, rfl⟩, ?_⟩
        · simp only
          rw [combine_keys hf, combine_keys hf', product_map, product_map, List.map_map, List.map_map]
          have := v2
          rw [show (fun r : FormsRes => r.forms.map fkey) = (List.map fkey ∘ fun x => x.forms) from rfl] at this
          rw [this]
        · intro f hf0
          obtain ⟨subs, hs, hsf⟩ := SF.mem_right_of_forall₂ hfa f hf0
          obtain ⟨ms, hms⟩ := sames_subs h3 subs hs
          have := SF.fromFields_bits P hw hb hms
          rw [List.map_map] at this
          simp only [combineForms] at hsf
          rw [show (subs.map (fun f => Arg.asm f.value)) = subs.map (Arg.asm ∘ fun x => x.value) from rfl, this] at hsf
          cases hsf
          exact ⟨_, SF.packAll_lt fs _ _ hms, rfl⟩
  | .sum c fs, hw, hb, ht, p, n, hn, hρ, hτ => by
    have htag : τ p = n % 2 ^ tagBits fs.toList.length := by simpa [tagAt] using hτ []
    have hT : BV.ofNat (tagBits fs.toList.length) (τ p) = BV.ofNat (tagBits fs.toList.length) n := by
      rw [htag]
      apply BV.ext <;> simp [BV.ofNat_size, BV.ofNat_val]
    obtain ⟨rows, rows', h1, h2, h3⟩ := opts_same P tu ρ τ c fs hw hb (BV.ofNat (tagBits fs.toList.length) n) rfl p n hn fs hw.2.2 hb.2.2 ht.2 (fun _ h => h)
      (fun k t hk => by
        obtain ⟨m, b, a1, a2, a3⟩ := option_num P hw hn hk
        refine ⟨m, b, a1, a2, fun q => ?_, fun q => ?_⟩
        · rw [← (a3 q).1, ← hρ, List.append_assoc]; rfl
        · rw [← (a3 q).2, ← hτ, List.append_assoc]; rfl)
    obtain ⟨r', h4, _⟩ := SF.forms_ok P ρ τ (.sum c fs) hw hb p
    obtain ⟨f1, f2, f3, f4, f5, f6⟩ := optSames_facts h3
    obtain ⟨o, ho, hg⟩ := P.good hw
    obtain ⟨tg, htg, hgt⟩ := hg.tag
    simp only [smtForms, ho, htg, hgt.width, hT, h2, ← f1] at h4
    cases hi : iteChain (rows.map (fun r => (r.1, r.2.1.value, r.2.2))) with
    | error e => rw [hi] at h4; cases h4
    | ok y =>
      rw [hi] at h4
      cases h4
      refine ⟨⟨rows.flatMap (fun r => r.2.1.forms), Varmap.append ⟨[], [(p, BV.ofNat (tagBits fs.toList.length) n)], [(p, rows.map (fun r => (r.1, r.2.2)))]⟩
          (rows.foldr (fun r vm => r.2.1.varmap.append vm) ⟨[], [], []⟩), y⟩,
        ⟨rows'.flatMap (fun r => r.2.1.forms), Varmap.append ⟨[], [(p, BV.ofNat (tagBits fs.toList.length) n)], [(p, rows'.map (fun r => (r.1, r.2.2)))]⟩
          (rows'.foldr (fun r vm => r.2.1.varmap.append vm) ⟨[], [], []⟩), y⟩,
        by simp only [valForms, isOf_mkAV, if_true, tag_num P hw hn, ht.1, h1, hi], by simp only [smtForms, ho, htg, hgt.width, hT, h2, ← f1, hi], rfl, ?_, f3, ?_, ?_⟩
      · simp only [f2, f6]
      · obtain ⟨e, he, hy⟩ := iteChain_mem hi
        obtain ⟨r, hr, rfl⟩ := List.mem_map.mp he
        simp only at hy ⊢
        rw [← hy]
        exact f4 r hr
      · intro f hf
        obtain ⟨r, hr, hf⟩ := List.mem_flatMap.mp hf
        exact f5 r hr f hf
theorem vals_same (P : Process) (tu : Nat → Bool) (ρ τ : RPath → Nat) : ∀ (fs : Fields), WFs fs → Buildables fs → NoTaggeds tu fs → ∀ (p : RPath) (x : AV),
    (∀ k t, (k, t) ∈ fs.toList → ∃ m, m < 2 ^ width t ∧ x.get P.asm k = .ok (mkAV t m) ∧ (∀ q, ρ (p ++ [k] ++ q) = bitsAt t m q) ∧
      (∀ q, τ (p ++ [k] ++ q) = tagAt t m q)) →
    ∃ rs rs', valFields P.asm tu x fs p = .ok rs ∧ smtFields P.asm ρ τ fs p = .ok rs' ∧ Sames fs rs rs'
  | .nil, _, _, _, p, x, _ => ⟨[], [], rfl, rfl, trivial⟩
  | .cons k t fs, hw, hb, ht, p, x, h => by
    obtain ⟨m, a1, a2, a3, a4⟩ := h k t (by simp [Fields.toList])
    obtain ⟨r, r', h1, h2, h3⟩ := val_same P tu ρ τ t hw.1 hb.1 ht.1 (p ++ [k]) m a1 a3 a4
    obtain ⟨rs, rs', h4, h5, h6⟩ := vals_same P tu ρ τ fs hw.2 hb.2 ht.2 p x (fun k' t' hk => h k' t' (by simp [Fields.toList, hk]))
    exact ⟨r :: rs, r' :: rs', by simp only [valFields, a2, h1, h4], by simp only [smtFields, h2, h5], h3, h6⟩
theorem opts_same (P : Process) (tu : Nat → Bool) (ρ τ : RPath → Nat) (c : Nat) (full : Fields) (hwf : WF (.sum c full)) (hbf : Buildable (.sum c full))
    (tag : BV) (htag : tag.size = tagBits full.toList.length) (p : RPath) (n : Nat) (hn : n < 2 ^ width (.sum c full)) :
    ∀ (fs : Fields), WFs fs → Buildables fs → NoTaggeds tu fs → (∀ kt ∈ fs.toList, kt ∈ full.toList) →
    (∀ k t, (k, t) ∈ fs.toList → ∃ m b, m < 2 ^ width t ∧ (mkAV (.sum c full) n).getOption P.asm k = .ok (b, mkAV t m) ∧ (∀ q, ρ (p ++ [k] ++ q) = bitsAt t m q) ∧
      (∀ q, τ (p ++ [k] ++ q) = tagAt t m q)) →
    ∃ rs rs', valOptions P.asm tu (mkAV (.sum c full) n) (.sum c full) false tag fs p = .ok rs ∧ smtOptions P.asm ρ τ (.sum c full) tag fs p = .ok rs' ∧
      OptSames p (.sum c full) fs rs rs'
  | .nil, _, _, _, _, _ => ⟨[], [], rfl, rfl, trivial⟩
  | .cons k t fs, hw, hb, ht, hsub, h => by
    obtain ⟨m, b, a1, a2, a3, a4⟩ := h k t (by simp [Fields.toList])
    obtain ⟨r, r', h1, h2, h3⟩ := val_same P tu ρ τ t hw.1 hb.1 ht.1 (p ++ [k]) m a1 a3 a4
    obtain ⟨rs, rs', h4, h5, h6⟩ := opts_same P tu ρ τ c full hwf hbf tag htag p n hn fs hw.2 hb.2 ht.2 (fun kt hk => hsub kt (by simp [Fields.toList, hk]))
      (fun k' t' hk => h k' t' (by simp [Fields.toList, hk]))
    obtain ⟨r'', b1, b2⟩ := SF.forms_ok P ρ τ t hw.1 hb.1 (p ++ [k])
    rw [h2] at b1
    cases b1
    have hk := hsub (k, t) (by simp [Fields.toList])
    obtain ⟨row, h7, h8⟩ := SF.option_ok P hwf hbf hk htag h2 b2 h5
    obtain ⟨m', hm', hv⟩ := h3.typed
    have hx := SF.fromOption_bits P hwf hbf hk hm' htag
    obtain ⟨f0, hget⟩ := SF.getOption_bits P hwf hk hm' htag
    have h9 := h7
    simp only [smtOptions, h2, ← h3.value, hv, hx, hget, h5] at h9
    cases hforms : exMap (liftForm P.asm (.sum c full) p k tag) r'.forms with
    | error e => rw [hforms] at h9; cases h9
    | ok forms =>
      rw [hforms] at h9
      cases h9
      refine ⟨(k, ⟨r.forms.map (fun f => ⟨mkAV (.sum c full) n, (p, k) :: f.pathDict, f.leaves⟩), r.varmap, mkAV (.sum c full) (tag.val + 2 ^ tagBits full.toList.length * m')⟩,
        decide (tag.val = optionIndex full k)) :: rs, _, ?_, h7, ⟨rfl, ?_, rfl, rfl⟩, h6⟩
      · simp only [valOptions, Bool.false_eq_true, if_false, a2, h1, hv, hx, hget, h4]
      · refine ⟨rfl, h3.varmap, ?_, ⟨_, SF.sum_lt c hk hm' htag, rfl⟩, ?_⟩
        · simp only
          rw [lift_keys hforms, ← h3.forms, List.map_map, List.map_map]
          rfl
        · intro f hf
          obtain ⟨g, _, rfl⟩ := List.mem_map.mp hf
          exact ⟨n, hn, rfl⟩
end

/-! ## the leaves in the varmap -/

/-- The entry of a leaf. -/
def leafOf (ρ : RPath → Nat) (l : RPath × Ty) : RPath × BV := (l.1, BV.ofNat (width l.2) (ρ l.1))

theorem foldr_leaves {α : Type} (f : α → Varmap) (L : List α) :
    (L.foldr (fun a vm => (f a).append vm) (⟨[], [], []⟩ : Varmap)).leaves = L.flatMap (fun a => (f a).leaves) := by
  induction L with
  | nil => rfl
  | cons a L ih => rw [List.foldr_cons, List.flatMap_cons, ← ih]; rfl

mutual
theorem smt_leaves (P : Process) (ρ τ : RPath → Nat) : ∀ (t : Ty), WF t → ∀ (p : RPath) (r : FormsRes), smtForms P.asm ρ τ t p = .ok r →
    r.varmap.leaves = (leafTypes t p).map (leafOf ρ)
  | .bv c w, _, p, r, h => by cases h; simp [leafTypes, leafOf, width]
  | .bit c, _, p, r, h => by cases h; simp [leafTypes, leafOf, width]
  | .enum c ms, hw, p, r, h => by
    obtain ⟨o, ho, hg⟩ := P.good hw
    simp only [smtForms, ho] at h
    split at h
    · cases h
    · cases h
      simp [leafTypes, leafOf, hg.width]
  | .prod c fs, hw, p, r, h => by
    simp only [smtForms] at h
    split at h
    · cases h
    · next rows hrows =>
      split at h
      · cases h
      · split at h
        · cases h
        · cases h
          simp only [foldr_leaves, leafTypes]
          exact smts_leaves P ρ τ fs hw.2 p rows hrows
  | .sum c fs, hw, p, r, h => by
    simp only [smtForms] at h
    split at h
    · cases h
    · split at h
      · cases h
      · split at h
        · cases h
        · next rows hrows =>
          split at h
          · cases h
          · cases h
            rw [leafTypes]
            refine Eq.trans ?_ (opts_leaves P ρ τ _ _ fs hw.2.2 p rows hrows)
            refine Eq.trans ?_ (foldr_leaves (fun r : Key × FormsRes × Bool => r.2.1.varmap) rows)
            exact List.nil_append _
theorem smts_leaves (P : Process) (ρ τ : RPath → Nat) : ∀ (fs : Fields), WFs fs → ∀ (p : RPath) (rows : List FormsRes), smtFields P.asm ρ τ fs p = .ok rows →
    rows.flatMap (fun r => r.varmap.leaves) = (leafTypesF fs p).map (leafOf ρ)
  | .nil, _, p, rows, h => by cases h; rfl
  | .cons k t fs, hw, p, rows, h => by
    simp only [smtFields] at h
    split at h
    · cases h
    · next r hr =>
      split at h
      · cases h
      · next rs hrs =>
        cases h
        simp only [List.flatMap_cons, leafTypesF, List.map_append, smt_leaves P ρ τ t hw.1 _ r hr, smts_leaves P ρ τ fs hw.2 p rs hrs]
theorem opts_leaves (P : Process) (ρ τ : RPath → Nat) (u : Ty) (tag : BV) : ∀ (fs : Fields), WFs fs → ∀ (p : RPath) (rows : List (Key × FormsRes × Bool)),
    smtOptions P.asm ρ τ u tag fs p = .ok rows → rows.flatMap (fun r => r.2.1.varmap.leaves) = (leafTypesF fs p).map (leafOf ρ)
  | .nil, _, p, rows, h => by cases h; rfl
  | .cons k t fs, hw, p, rows, h => by
    simp only [smtOptions] at h
    split at h
    · cases h
    · next r hr =>
      split at h
      · cases h
      · split at h
        · cases h
        · split at h
          · cases h
          · split at h
            · cases h
            · next rs hrs =>
              cases h
              simp only [List.flatMap_cons, leafTypesF, List.map_append, smt_leaves P ρ τ t hw.1 _ r hr, opts_leaves P ρ τ u tag fs hw.2 p rs hrs]
end

mutual
theorem smt_one (A : Ty → Except Err AsmObj) (ρ τ : RPath → Nat) : ∀ (t : Ty), UnionFree t → ∀ (p : RPath) (r : FormsRes), smtForms A ρ τ t p = .ok r →
    ∃ f, r.forms = [f] ∧ f.pathDict = [] ∧ f.leaves = r.varmap.leaves
  | .bv c w, _, p, r, h => by cases h; exact ⟨_, rfl, rfl, rfl⟩
  | .bit c, _, p, r, h => by cases h; exact ⟨_, rfl, rfl, rfl⟩
  | .enum c ms, _, p, r, h => by
    simp only [smtForms] at h
    split at h
    · cases h
    · split at h
      · cases h
      · cases h; exact ⟨_, rfl, rfl, rfl⟩
  | .prod c fs, hu, p, r, h => by
    simp only [smtForms] at h
    split at h
    · cases h
    · next rows hrows =>
      split at h
      · cases h
      · split at h
        · cases h
        · next forms hf =>
          cases h
          obtain ⟨subs, h1, h2, h3⟩ := smts_one A ρ τ fs hu p rows hrows
          rw [h1] at hf
          simp only [exMap, combineForms] at hf
          split at hf
          · cases hf
          · next hc =>
            cases hf
            split at hc
            · cases hc
            · cases hc
              exact ⟨_, rfl, h2, by simp only [foldr_leaves, h3]⟩
  | .sum c fs, hu, _, _, _ => by simp [UnionFree] at hu
theorem smts_one (A : Ty → Except Err AsmObj) (ρ τ : RPath → Nat) : ∀ (fs : Fields), UnionFrees fs → ∀ (p : RPath) (rows : List FormsRes),
    smtFields A ρ τ fs p = .ok rows →
    ∃ subs : List SForm, pyProduct (rows.map (·.forms)) = [subs] ∧ subs.flatMap (·.pathDict) = [] ∧ subs.flatMap (·.leaves) = rows.flatMap (fun r => r.varmap.leaves)
  | .nil, _, p, rows, h => by cases h; exact ⟨[], rfl, rfl, rfl⟩
  | .cons k t fs, hu, p, rows, h => by
    simp only [smtFields] at h
    split at h
    · cases h
    · next r hr =>
      split at h
      · cases h
      · next rs hrs =>
        cases h
        obtain ⟨f, h1, h2, h3⟩ := smt_one A ρ τ t hu.1 _ r hr
        obtain ⟨subs, h4, h5, h6⟩ := smts_one A ρ τ fs hu.2 p rs hrs
        exact ⟨f :: subs, by simp [pyProduct, h1, h4], by simp [h2, h5], by simp [h3, h6]⟩
end

mutual
theorem noTagged_of_free (tu : Nat → Bool) : ∀ (t : Ty), UnionFree t → NoTagged tu t
  | .bv _ _, _ => by simp [NoTagged]
  | .bit _, _ => by simp [NoTagged]
  | .enum _ _, _ => by simp [NoTagged]
  | .prod _ fs, h => by simp only [NoTagged]; exact noTaggeds_of_free tu fs h
  | .sum _ _, h => by simp [UnionFree] at h
theorem noTaggeds_of_free (tu : Nat → Bool) : ∀ (fs : Fields), UnionFrees fs → NoTaggeds tu fs
  | .nil, _ => by simp [NoTaggeds]
  | .cons _ t fs, h => by simp only [NoTaggeds]; exact ⟨noTagged_of_free tu t h.1, noTaggeds_of_free tu fs h.2⟩
end

end Peak.ValF
