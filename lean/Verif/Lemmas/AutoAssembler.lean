import Verif.Model.AutoAssembler
import Verif.Lemmas.Asm2

namespace Peak.Auto
open Peak Peak.Spec

/-! ### enums -/

theorem autoScan_spec : ∀ (ms : List EVal) (a : AutoEnumAcc),
    (∀ e i, (e, i) ∈ (autoScan ms a).imap ↔ (e, i) ∈ a.imap ∨ (e = .lit i ∧ .lit i ∈ ms)) ∧
    (∀ i, i ∈ (autoScan ms a).used ↔ i ∈ a.used ∨ .lit i ∈ ms) ∧
    (autoScan ms a).free = ((autos ms).map EVal.auto).reverse ++ a.free
  | [], a => by simp [autoScan, autos]
  | .lit v :: ms, a => by
    obtain ⟨h1, h2, h3⟩ := autoScan_spec ms { a with imap := (.lit v, v) :: a.imap, used := v :: a.used }
    refine ⟨fun e i => ?_, fun i => ?_, ?_⟩
    · rw [autoScan, h1]
      simp only [List.mem_cons, Prod.mk.injEq, EVal.lit.injEq]
      constructor
      · rintro ((⟨rfl, rfl⟩ | h) | ⟨rfl, h⟩)
        · exact Or.inr ⟨rfl, Or.inl rfl⟩
        · exact Or.inl h
        · exact Or.inr ⟨rfl, Or.inr h⟩
      · rintro (h | ⟨rfl, rfl | h⟩)
        · exact Or.inl (Or.inr h)
        · exact Or.inl (Or.inl ⟨rfl, rfl⟩)
        · exact Or.inr ⟨rfl, h⟩
    · rw [autoScan, h2]
      simp only [List.mem_cons, EVal.lit.injEq]
      tauto
    · rw [autoScan, h3]; rfl
  | .auto j :: ms, a => by
    obtain ⟨h1, h2, h3⟩ := autoScan_spec ms { a with free := .auto j :: a.free }
    refine ⟨fun e i => ?_, fun i => ?_, ?_⟩
    · rw [autoScan, h1]; simp
    · rw [autoScan, h2]; simp
    · rw [autoScan, h3]; simp [autos]

/-- the non-negative members of `used` -/
def nats (used : List Int) : List Nat := (used.filter (fun i => 0 ≤ i)).map Int.toNat

theorem mem_nats {used : List Int} {c : Nat} : c ∈ nats used ↔ (c : Int) ∈ used := by
  simp only [nats, List.mem_map, List.mem_filter, decide_eq_true_eq]
  constructor
  · rintro ⟨i, ⟨h1, h2⟩, rfl⟩; rwa [Int.toNat_of_nonneg h2]
  · intro h; exact ⟨c, ⟨h, by omega⟩, by simp⟩

theorem autoNext_eq (used : List Int) : ∀ n c, autoNext used n c = nextFree (nats used) n c
  | 0, c => rfl
  | n + 1, c => by simp only [autoNext, nextFree, mem_nats, autoNext_eq used n]

theorem autoNext_not_mem (used : List Int) (c : Nat) : (autoNext used used.length c : Int) ∉ used := by
  rw [autoNext_eq]
  have hl : (nats used).length ≤ used.length := by simp [nats, List.length_filter_le]
  obtain ⟨h1, h2, h3⟩ := nextFree_spec (nats used) used.length c
  rcases h3 with h3 | h3
  · rwa [mem_nats] at h3
  · intro hm
    have : (List.range' c (used.length + 1)).length ≤ (nats used).length := by
      apply nodup_subset_length List.nodup_range'
      intro x hx
      rw [List.mem_range'_1] at hx
      by_cases hx' : x = c + used.length
      · rw [hx', ← h3]; exact mem_nats.2 hm
      · exact h2 x hx.1 (by omega)
    simp at this; omega

structure MapInv (imap : List (EVal × Int)) (used : List Int) : Prop where
  mem_used : ∀ e i, (e, i) ∈ imap → i ∈ used
  nonneg : ∀ i ∈ used, 0 ≤ i
  inj : ∀ e e' i, (e, i) ∈ imap → (e', i) ∈ imap → e = e'
  func : ∀ e i i', (e, i) ∈ imap → (e, i') ∈ imap → i = i'

theorem autoAssign_spec : ∀ (es : List EVal) (c : Nat) (imap : List (EVal × Int)) (used : List Int),
    MapInv imap used → es.Nodup → (∀ e ∈ es, ∀ i, (e, i) ∉ imap) →
    MapInv (autoAssign es c imap used).1 (autoAssign es c imap used).2 ∧
    (∀ p ∈ imap, p ∈ (autoAssign es c imap used).1) ∧
    (∀ i ∈ used, i ∈ (autoAssign es c imap used).2) ∧
    (∀ e ∈ es, ∃ i, (e, i) ∈ (autoAssign es c imap used).1)
  | [], c, imap, used, hi, _, _ => ⟨hi, fun _ h => h, fun _ h => h, by simp⟩
  | e :: es, c, imap, used, hi, hn, hk => by
    simp only [autoAssign]
    have hfresh := autoNext_not_mem used c
    generalize autoNext used used.length c = d at hfresh ⊢
    have hn' := List.nodup_cons.1 hn
    have hi' : MapInv ((e, (d : Int)) :: imap) ((d : Int) :: used) := by
      constructor
      · intro e' i h
        rcases List.mem_cons.1 h with h | h
        · simp only [Prod.mk.injEq] at h; simp [h.2]
        · exact List.mem_cons_of_mem _ (hi.mem_used _ _ h)
      · intro i h
        rcases List.mem_cons.1 h with h | h
        · omega
        · exact hi.nonneg i h
      · intro e1 e2 i h1 h2
        rcases List.mem_cons.1 h1 with h1 | h1 <;> rcases List.mem_cons.1 h2 with h2 | h2
        · simp only [Prod.mk.injEq] at h1 h2; rw [h1.1, h2.1]
        · simp only [Prod.mk.injEq] at h1; rw [h1.2] at h2; exact absurd (hi.mem_used _ _ h2) hfresh
        · simp only [Prod.mk.injEq] at h2; rw [h2.2] at h1; exact absurd (hi.mem_used _ _ h1) hfresh
        · exact hi.inj _ _ _ h1 h2
      · intro e1 i i' h1 h2
        rcases List.mem_cons.1 h1 with h1 | h1 <;> rcases List.mem_cons.1 h2 with h2 | h2
        · simp only [Prod.mk.injEq] at h1 h2; rw [h1.2, h2.2]
        · simp only [Prod.mk.injEq] at h1; rw [h1.1] at h2; exact absurd h2 (hk e (by simp) _)
        · simp only [Prod.mk.injEq] at h2; rw [h2.1] at h1; exact absurd h1 (hk e (by simp) _)
        · exact hi.func _ _ _ h1 h2
    obtain ⟨r1, r2, r3, r4⟩ := autoAssign_spec es d _ _ hi' hn'.2 (by
      intro e' he' i h
      rcases List.mem_cons.1 h with h | h
      · simp only [Prod.mk.injEq] at h; exact hn'.1 (h.1 ▸ he')
      · exact hk e' (List.mem_cons_of_mem _ he') i h)
    refine ⟨r1, fun p hp => r2 p (List.mem_cons_of_mem _ hp), fun i h => r3 i (List.mem_cons_of_mem _ h), ?_⟩
    intro e' he'
    rcases List.mem_cons.1 he' with rfl | he'
    · exact ⟨d, r2 _ (by simp)⟩
    · exact r4 e' he'

theorem autoEnumMap_spec {ms : List EVal} (hw : WF (.enum 0 ms)) :
    MapInv (autoEnumMap ms).1 (autoEnumMap ms).2 ∧ (∀ e ∈ ms, ∃ i, (e, i) ∈ (autoEnumMap ms).1) := by
  obtain ⟨h1, h2, h3⟩ := autoScan_spec ms {}
  obtain ⟨_, hpos, hnd⟩ := hw
  have hi : MapInv (autoScan ms {}).imap (autoScan ms {}).used := by
    constructor
    · intro e i h; rw [h1] at h; rw [h2]
      rcases h with h | h
      · simp at h
      · exact Or.inr h.2
    · intro i h; rw [h2] at h
      rcases h with h | h
      · simp at h
      · exact hpos i h
    · intro e e' i h h'; rw [h1] at h h'
      rcases h with h | h
      · simp at h
      · rcases h' with h' | h'
        · simp at h'
        · rw [h.1, h'.1]
    · intro e i i' h h'; rw [h1] at h h'
      rcases h with h | h
      · simp at h
      · rcases h' with h' | h'
        · simp at h'
        · have := h.1.symm.trans h'.1; simpa using this
  have hfree : (autoScan ms {}).free = ((autos ms).map EVal.auto).reverse := by rw [h3]; simp
  obtain ⟨r1, r2, r3, r4⟩ := autoAssign_spec (autoScan ms {}).free 0 _ _ hi
    (by rw [hfree, List.nodup_reverse]; exact hnd.map (fun a b h => by simpa using h))
    (by
      intro e he i h
      rw [hfree] at he
      rw [h1] at h
      rcases h with h | h
      · simp at h
      · rw [h.1] at he; simp at he)
  refine ⟨r1, ?_⟩
  intro e he
  cases e with
  | lit v => exact ⟨v, r2 _ ((h1 _ _).2 (Or.inr ⟨rfl, he⟩))⟩
  | auto j =>
    apply r4
    rw [hfree, List.mem_reverse]
    exact List.mem_map_of_mem (mem_autos.2 he)

theorem foldl_max_int (l : List Int) (x : Int) : x ≤ l.foldl max x ∧ ∀ y ∈ l, y ≤ l.foldl max x := by
  induction l generalizing x with
  | nil => simp
  | cons z l ih =>
    simp only [List.foldl_cons]
    obtain ⟨h1, h2⟩ := ih (max x z)
    refine ⟨by omega, fun y hy => ?_⟩
    rcases List.mem_cons.1 hy with rfl | hy
    · omega
    · exact h2 y hy

theorem intMax_spec {l : List Int} (h : l ≠ []) : ∃ m, intMax l = some m ∧ ∀ y ∈ l, y ≤ m := by
  cases l with
  | nil => exact absurd rfl h
  | cons x l =>
    refine ⟨_, rfl, fun y hy => ?_⟩
    obtain ⟨h1, h2⟩ := foldl_max_int l x
    rcases List.mem_cons.1 hy with rfl | hy
    · exact h1
    · exact h2 y hy

theorem autoDecoding_spec (imap : List (EVal × Int)) (w : Nat) : ∀ (es : List EVal) (d : List (BV × EVal)),
    (∀ e ∈ es, ∃ i, imap.lookup e = some i) →
    ∃ d', autoDecoding imap w es d = .ok d' ∧
      ∀ b e, (b, e) ∈ d' ↔ (b, e) ∈ d ∨ (e ∈ es ∧ ∃ i, imap.lookup e = some i ∧ b = BV.ofInt w i)
  | [], d, _ => ⟨d, rfl, by simp⟩
  | e :: es, d, h => by
    obtain ⟨i, hi⟩ := h e (by simp)
    obtain ⟨d', h1, h2⟩ := autoDecoding_spec imap w es ((BV.ofInt w i, e) :: d) (fun e he => h e (by simp [he]))
    refine ⟨d', by simp only [autoDecoding, hi, h1], fun b e' => ?_⟩
    rw [h2]
    simp only [List.mem_cons, Prod.mk.injEq]
    constructor
    · rintro ((⟨rfl, rfl⟩ | h) | h)
      · exact Or.inr ⟨Or.inl rfl, i, hi, rfl⟩
      · exact Or.inl h
      · exact Or.inr ⟨Or.inr h.1, h.2⟩
    · rintro (h | ⟨rfl | h, j, hj, rfl⟩)
      · exact Or.inl (Or.inr h)
      · rw [hi] at hj; simp only [Option.some.injEq] at hj; subst hj; exact Or.inl (Or.inl ⟨rfl, rfl⟩)
      · exact Or.inr ⟨h, j, hj, rfl⟩

theorem BV.ofInt_of_lt {w : Nat} {i : Int} (h0 : 0 ≤ i) (h : i.toNat < 2 ^ w) : BV.ofInt w i = BV.ofNat w i.toNat := by
  unfold BV.ofInt
  congr 1
  have : i % ((2 ^ w : Nat) : Int) = i := Int.emod_eq_of_lt h0 (by omega)
  rw [this]

/-! ### what is known of generated functions -/

def IsBit : Ty → Prop
  | .bit _ => True
  | _ => False

structure AGood (t : Ty) (o : AutoObj) : Prop where
  width : autoWidth t = .ok o.width
  rt : ∀ v, t.Has v → ∃ n, n < 2 ^ o.width ∧
    (∃ e, o.asm v = .ok e ∧ e.toNat = n ∧ (¬ IsBit t → e = .bv (BV.ofNat o.width n))) ∧
    o.dsm (.bv (BV.ofNat o.width n)) = .ok v

theorem autoEnum_good (c : Nat) {ms : List EVal} (hw : WF (.enum c ms)) :
    ∃ o, autoEnum ms = .ok o ∧ AGood (.enum c ms) o := by
  obtain ⟨hi, hall⟩ := autoEnumMap_spec (ms := ms) hw
  have hne : (autoEnumMap ms).2 ≠ [] := by
    obtain ⟨e, he⟩ := List.exists_mem_of_ne_nil _ hw.1
    obtain ⟨i, h⟩ := hall e he
    exact List.ne_nil_of_mem (hi.mem_used _ _ h)
  obtain ⟨mx, hmx, hle⟩ := intMax_spec hne
  have hlk : ∀ e i, (autoEnumMap ms).1.lookup e = some i ↔ (e, i) ∈ (autoEnumMap ms).1 :=
    fun e i => lookup_iff_mem (fun b b' h h' => hi.func e b b' h h')
  obtain ⟨d, hd1, hd2⟩ := autoDecoding_spec (autoEnumMap ms).1 (bitLength mx.natAbs) ms [] (by
    intro e he
    obtain ⟨i, h⟩ := hall e he
    exact ⟨i, (hlk e i).2 h⟩)
  have hfit : ∀ i ∈ (autoEnumMap ms).2, 0 ≤ i ∧ i.toNat < 2 ^ bitLength mx.natAbs := by
    intro i h
    have h0 := hi.nonneg i h
    refine ⟨h0, Nat.lt_of_le_of_lt ?_ (lt_two_pow_bitLength _)⟩
    have := hle i h
    omega
  obtain ⟨o, ho⟩ : ∃ o, autoEnum ms = .ok o := by
    unfold autoEnum; simp only [hmx, hd1]; exact ⟨_, rfl⟩
  refine ⟨o, ho, ?_⟩
  refine ⟨by simp only [autoWidth, ho], ?_⟩
  unfold autoEnum at ho
  simp only [hmx, hd1, Except.ok.injEq] at ho
  subst ho
  intro v hv
  cases v <;> simp only [Ty.Has] at hv
  next e =>
    obtain ⟨i, h⟩ := hall e hv
    obtain ⟨f1, f2⟩ := hfit i (hi.mem_used _ _ h)
    refine ⟨i.toNat, f2, ⟨.bv (BV.ofNat _ i.toNat), ?_, ?_, fun _ => rfl⟩, ?_⟩
    · simp only [if_pos hv, (hlk e i).2 h, BV.ofInt_of_lt f1 f2]
    · exact BV.ofNat_val_of_lt f2
    · have : d.lookup (BV.ofNat (bitLength mx.natAbs) i.toNat) = some e := by
        rw [lookup_iff_mem, hd2]
        · exact Or.inr ⟨hv, i, (hlk e i).2 h, (BV.ofInt_of_lt f1 f2).symm⟩
        · intro e1 e2 h1 h2
          rw [hd2] at h1 h2
          rcases h1 with h1 | ⟨_, i1, h1, h1'⟩
          · simp at h1
          · rcases h2 with h2 | ⟨_, i2, h2, h2'⟩
            · simp at h2
            · rw [hlk] at h1 h2
              obtain ⟨a1, a2⟩ := hfit i1 (hi.mem_used _ _ h1)
              obtain ⟨b1, b2⟩ := hfit i2 (hi.mem_used _ _ h2)
              rw [BV.ofInt_of_lt a1 a2] at h1'
              rw [BV.ofInt_of_lt b1 b2] at h2'
              have e1 := congrArg BV.val h1'
              have e2 := congrArg BV.val h2'
              rw [BV.ofNat_val_of_lt f2, BV.ofNat_val_of_lt a2] at e1
              rw [BV.ofNat_val_of_lt f2, BV.ofNat_val_of_lt b2] at e2
              have : i1 = i2 := by omega
              subst this
              exact hi.inj _ _ _ h1 h2
      simp only [this]

/-! ### products -/

def AGoodAll : Fields → List (Key × AutoObj) → Prop
  | .nil, [] => True
  | .cons k t fs, (k', o) :: l => k' = k ∧ AGood t o ∧ AGoodAll fs l
  | _, _ => False

def objs (l : List (Key × AutoObj)) : List AutoObj := l.map (·.2)

theorem autoWidths_good : ∀ (fs : Fields) (l : List (Key × AutoObj)), AGoodAll fs l →
    autoWidths fs = .ok ((objs l).map (·.width)) ∧ l.length = fs.toList.length
  | .nil, l, hg => by cases l <;> simp only [AGoodAll] at hg; exact ⟨rfl, rfl⟩
  | .cons k t fs, l, hg => by
    cases l with
    | nil => simp only [AGoodAll] at hg
    | cons p l =>
      obtain ⟨k', o⟩ := p
      obtain ⟨_, h1, h2⟩ := hg
      obtain ⟨i1, i2⟩ := autoWidths_good fs l h2
      refine ⟨?_, by simp [Fields.toList, i2]⟩
      simp only [autoWidths, h1.width, i1, objs, List.map_cons]

theorem rows_rt : ∀ (fs : Fields) (l : List (Key × AutoObj)) (vs : List Val) (base opcode w : Nat),
    AGoodAll fs l → fs.HasAll vs → opcode < 2 ^ base → base + ((objs l).map (·.width)).sum ≤ w →
    ∃ N, N < 2 ^ ((objs l).map (·.width)).sum ∧
      autoAsmRows w (autoRows (objs l) base) vs (BV.ofNat w opcode) = .ok (BV.ofNat w (opcode + 2 ^ base * N)) ∧
      ∀ b : BV, base + ((objs l).map (·.width)).sum ≤ b.size →
        b.val / 2 ^ base % 2 ^ ((objs l).map (·.width)).sum = N → autoDsmRows (autoRows (objs l) base) b = .ok vs
  | .nil, l, vs, base, opcode, w, hg, hv, ho, hb => by
    cases l <;> simp only [AGoodAll] at hg
    cases vs <;> simp only [Fields.HasAll] at hv
    exact ⟨0, Nat.two_pow_pos _, by simp [objs, autoRows, autoAsmRows], by simp [objs, autoRows, autoDsmRows]⟩
  | .cons k t fs, l, vs, base, opcode, w, hg, hv, ho, hb => by
    cases l with
    | nil => simp only [AGoodAll] at hg
    | cons p l =>
      obtain ⟨k', o⟩ := p
      cases vs with
      | nil => simp only [Fields.HasAll] at hv
      | cons v vs =>
        obtain ⟨_, h1, h2⟩ := hg
        obtain ⟨n, hn, ⟨e, he1, he2, _⟩, hd⟩ := h1.rt v hv.1
        simp only [objs, List.map_cons, List.sum_cons] at hb ⊢
        have hlt := pow_add_lt ho hn
        obtain ⟨N, hN, ha, hr⟩ := rows_rt fs l vs (base + o.width) (opcode + 2 ^ base * n) w h2 hv.2 hlt
          (by simp only [objs]; omega)
        simp only [objs] at hN ha hr
        generalize ((l.map (·.2)).map (·.width)).sum = W at hN ha hr hb ⊢
        refine ⟨n + 2 ^ o.width * N, pow_add_lt hn hN, ?_, ?_⟩
        · simp only [autoRows, autoAsmRows, he1, he2]
          rw [BV.or_shl (by omega) ho (Nat.lt_of_lt_of_le hlt (Nat.pow_le_pow_right (by decide) (by omega))), ha,
            Nat.mul_add, Nat.pow_add, Nat.mul_assoc, Nat.add_assoc]
        · intro b hb' hval
          obtain ⟨f1, f2⟩ := slice_field (b := b) (base := base) (w := o.width) (by omega)
          have hsl : b.slice base (base + o.width) = BV.ofNat o.width n := by
            apply BV.ext
            · exact f1
            · rw [f2, BV.ofNat_val_of_lt hn]
              have := congrArg (· % 2 ^ o.width) hval
              rw [Nat.pow_add, Nat.mod_mul_right_mod, Nat.add_mul_mod_self_left, Nat.mod_eq_of_lt hn] at this
              exact this
          have hrest : b.val / 2 ^ (base + o.width) % 2 ^ W = N := by
            rw [Nat.pow_add, ← Nat.div_div_eq_div_mul]
            have := congrArg (· / 2 ^ o.width) hval
            rw [Nat.pow_add, Nat.mod_mul_right_div_self, Nat.add_mul_div_left _ _ (Nat.two_pow_pos _),
              Nat.div_eq_of_lt hn, Nat.zero_add] at this
            exact this
          have := hr b (by omega) hrest
          simp only [autoRows, autoDsmRows, hsl, hd, this]

theorem autoProduct_good (c : Nat) {fs : Fields} {l : List (Key × AutoObj)} (hg : AGoodAll fs l) (hl : generateAll fs = .ok l) :
    ∃ o, generateAssembler (.prod c fs) = .ok o ∧ AGood (.prod c fs) o := by
  obtain ⟨hw, _⟩ := autoWidths_good fs l hg
  have hw' : autoWidth (.prod c fs) = .ok ((objs l).map (·.width)).sum := by simp only [autoWidth, hw]
  obtain ⟨o, ho⟩ : ∃ o, generateAssembler (.prod c fs) = .ok o := by
    simp only [generateAssembler, hw', hl, autoProduct]
    rw [if_pos (by simp [objs])]
    exact ⟨_, rfl⟩
  refine ⟨o, ho, ?_⟩
  simp only [generateAssembler, hw', hl, autoProduct] at ho
  rw [if_pos (by simp [objs]), Except.ok.injEq] at ho
  subst ho
  refine ⟨hw', ?_⟩
  intro v hv
  cases v <;> simp only [Ty.Has] at hv
  next vs =>
    obtain ⟨N, hN, ha, hr⟩ := rows_rt fs l vs 0 0 ((objs l).map (·.width)).sum hg hv (by simp) (by omega)
    simp only [objs, Nat.pow_zero, Nat.one_mul, Nat.zero_add] at ha
    refine ⟨N, hN, ⟨.bv (BV.ofNat _ N), ?_, BV.ofNat_val_of_lt hN, fun _ => rfl⟩, ?_⟩
    · simp only [ha, objs]
    · have := hr (BV.ofNat ((objs l).map (·.width)).sum N) (by simp) (by
        simp only [Nat.pow_zero, Nat.div_one, BV.ofNat_val, Nat.mod_mod]; exact Nat.mod_eq_of_lt hN)
      simp only [objs] at this ⊢
      simp only [this]

/-! ### unions -/

def optsOf (tw : Nat) : List (Key × AutoObj) → Nat → List AutoOpt
  | [], _ => []
  | (k, o) :: l, tag => ⟨k, BV.ofNat tw tag, o⟩ :: optsOf tw l (tag + 1)

theorem autoOpts_eq (tw w : Nat) : ∀ (l : List (Key × AutoObj)) (tag : Nat), (∀ p ∈ l, tw + p.2.width ≤ w) →
    autoOpts tw w l tag = .ok (optsOf tw l tag)
  | [], _, _ => rfl
  | (k, o) :: l, tag, h => by
    simp only [autoOpts, if_pos (h (k, o) (by simp)), autoOpts_eq tw w l (tag + 1) (fun p hp => h p (by simp [hp])), optsOf]

theorem optsOf_find (tw : Nat) : ∀ (fs : Fields) (l : List (Key × AutoObj)) (t0 : Nat) (k : Key) (v : Val),
    AGoodAll fs l → (fs.toList.map (·.1)).Nodup → fs.HasAt k v → t0 + l.length ≤ 2 ^ tw →
    ∃ t o i, (k, t) ∈ fs.toList ∧ (k, o) ∈ l ∧ t.Has v ∧ AGood t o ∧ i < l.length ∧
      (optsOf tw l t0).find? (fun r => r.key == k) = some ⟨k, BV.ofNat tw (t0 + i), o⟩ ∧
      (optsOf tw l t0).find? (fun r => r.tag == BV.ofNat tw (t0 + i)) = some ⟨k, BV.ofNat tw (t0 + i), o⟩
  | .nil, l, t0, k, v, hg, hn, hv, ht => by simp only [Fields.HasAt] at hv
  | .cons k' t fs, l, t0, k, v, hg, hn, hv, ht => by
    cases l with
    | nil => simp only [AGoodAll] at hg
    | cons p l =>
      obtain ⟨k'', o⟩ := p
      obtain ⟨rfl, h1, h2⟩ := hg
      simp only [Fields.toList, List.map_cons, List.nodup_cons] at hn
      simp only [Fields.HasAt] at hv
      by_cases hk : k = k''
      · subst hk
        have hv' : t.Has v := by
          rcases hv with hv | hv
          · exact hv.2
          · exact absurd (hasAt_mem fs k v hv) hn.1
        exact ⟨t, o, 0, by simp [Fields.toList], by simp, hv', h1, by simp, by simp [optsOf], by simp [optsOf]⟩
      · rcases hv with hv | hv
        · exact absurd hv.1 hk
        · simp only [List.length_cons] at ht
          obtain ⟨t', o', i, a1, a2, a3, a4, a5, a6, a7⟩ := optsOf_find tw fs l (t0 + 1) k v h2 hn.2 hv (by omega)
          refine ⟨t', o', i + 1, by simp [Fields.toList, a1], by simp [a2], a3, a4, by simp; omega, ?_, ?_⟩
          · have : (k'' == k) = false := by simp; exact fun h => hk h.symm
            simp only [optsOf, List.find?_cons, this]
            rw [a6]; simp only [Nat.add_assoc, Nat.add_comm 1]
          · have : (BV.ofNat tw t0 == BV.ofNat tw (t0 + (i + 1))) = false := by
              rw [beq_eq_false_iff_ne]
              intro h
              have := congrArg BV.val h
              rw [BV.ofNat_val_of_lt (by omega), BV.ofNat_val_of_lt (by omega)] at this
              omega
            simp only [optsOf, List.find?_cons, this]
            rw [show t0 + (i + 1) = t0 + 1 + i by omega, a7]

theorem foldl_max_ge (l : List Nat) (a : Nat) : a ≤ l.foldl max a ∧ ∀ y ∈ l, y ≤ l.foldl max a := by
  induction l generalizing a with
  | nil => simp
  | cons z l ih =>
    simp only [List.foldl_cons]
    obtain ⟨h1, h2⟩ := ih (max a z)
    refine ⟨by omega, fun y hy => ?_⟩
    rcases List.mem_cons.1 hy with rfl | hy
    · omega
    · exact h2 y hy

theorem autoSum_good (c : Nat) {fs : Fields} {l : List (Key × AutoObj)} (hne : fs.toList ≠ [])
    (hn : (fs.toList.map (·.1)).Nodup) (hb : ∀ k t, (k, t) ∈ fs.toList → ¬ IsBit t)
    (hg : AGoodAll fs l) (hl : generateAll fs = .ok l) :
    ∃ o, generateAssembler (.sum c fs) = .ok o ∧ AGood (.sum c fs) o := by
  obtain ⟨hw, hlen⟩ := autoWidths_good fs l hg
  obtain ⟨p, l', rfl⟩ : ∃ p l', l = p :: l' := by
    cases l with
    | nil =>
      cases fs with
      | nil => exact absurd rfl hne
      | cons => simp only [AGoodAll] at hg
    | cons p l' => exact ⟨p, l', rfl⟩
  generalize hL : p :: l' = l at hg hl hw hlen
  have hw' : autoWidth (.sum c fs) = .ok (((objs l).map (·.width)).foldl max 0 + bitLength l.length) := by
    simp only [autoWidth, hw, hlen]
    rw [← hL]; rfl
  generalize htw : bitLength l.length = tw at hw'
  generalize hpw : ((objs l).map (·.width)).foldl max 0 = pw at hw'
  have hfit : ∀ q ∈ l, q.2.width ≤ pw := by
    intro q hq
    rw [← hpw]
    apply (foldl_max_ge _ 0).2
    exact List.mem_map_of_mem (f := (·.width)) (List.mem_map_of_mem (f := (·.2)) hq)
  have hopts : autoOpts tw (pw + tw) l 0 = .ok (optsOf tw l 0) :=
    autoOpts_eq tw _ l 0 (fun q hq => by have := hfit q hq; omega)
  obtain ⟨o, ho⟩ : ∃ o, generateAssembler (.sum c fs) = .ok o := by
    simp only [generateAssembler, hw', hl, autoSum, htw, hopts]
    exact ⟨_, rfl⟩
  refine ⟨o, ho, ?_⟩
  simp only [generateAssembler, hw', hl, autoSum, htw, hopts, Except.ok.injEq] at ho
  subst ho
  refine ⟨hw', ?_⟩
  intro v hv
  cases v <;> simp only [Ty.Has] at hv
  next k v =>
    have htl : l.length < 2 ^ tw := by rw [← htw]; exact lt_two_pow_bitLength _
    obtain ⟨t, o, i, a1, a2, a3, a4, a5, a6, a7⟩ := optsOf_find tw fs l 0 k v hg hn hv (by omega)
    simp only [Nat.zero_add] at a6 a7
    obtain ⟨n, hn', ⟨e, he1, he2, he3⟩, hd⟩ := a4.rt v a3
    have he := he3 (hb k t a1)
    subst he
    have hi : i < 2 ^ tw := by omega
    have how := hfit _ a2
    simp only at how
    have hlt : i + 2 ^ tw * n < 2 ^ (pw + tw) := by
      have := pow_add_lt hi (Nat.lt_of_lt_of_le hn' (Nat.pow_le_pow_right (by decide) how))
      rwa [Nat.add_comm tw] at this
    refine ⟨i + 2 ^ tw * n, hlt, ⟨.bv (BV.ofNat (pw + tw) (i + 2 ^ tw * n)), ?_, BV.ofNat_val_of_lt hlt, fun _ => rfl⟩, ?_⟩
    · have e1 : (BV.ofNat (pw + tw) 0).or ((BV.ofNat tw i).zext (pw + tw - tw)) = BV.ofNat (pw + tw) i := by
        apply BV.ext
        · rfl
        · simp only [BV.or, BV.zext, BV.ofNat_size, BV.ofNat_val, Nat.zero_mod, Nat.zero_or]
          rw [Nat.mod_eq_of_lt hi, show tw + (pw + tw - tw) = pw + tw by omega, Nat.mod_mod]
      have e2 : (BV.ofNat o.width n).zext (pw + tw - (BV.ofNat o.width n).size) = BV.ofNat (pw + tw) n := by
        apply BV.ext
        · simp only [BV.zext, BV.ofNat_size]; omega
        · simp only [BV.zext, BV.ofNat_size, BV.ofNat_val, Nat.mod_eq_of_lt hn']
          rw [show o.width + (pw + tw - o.width) = pw + tw by omega]
      simp only [a6, he1, e1, e2]
      rw [BV.or_shl (by omega) hi hlt]
    · have s1 : (BV.ofNat (pw + tw) (i + 2 ^ tw * n)).slice 0 tw = BV.ofNat tw i := by
        have := slice_field (b := BV.ofNat (pw + tw) (i + 2 ^ tw * n)) (base := 0) (w := tw) (by simp)
        rw [Nat.zero_add] at this
        apply BV.ext
        · exact this.1
        · rw [this.2, BV.ofNat_val_of_lt hlt, BV.ofNat_val_of_lt hi, Nat.pow_zero, Nat.div_one,
            Nat.add_mul_mod_self_left, Nat.mod_eq_of_lt hi]
      have s2 : (BV.ofNat (pw + tw) (i + 2 ^ tw * n)).slice tw (tw + o.width) = BV.ofNat o.width n := by
        have := slice_field (b := BV.ofNat (pw + tw) (i + 2 ^ tw * n)) (base := tw) (w := o.width) (by simp; omega)
        apply BV.ext
        · exact this.1
        · rw [this.2, BV.ofNat_val_of_lt hlt, BV.ofNat_val_of_lt hn', Nat.add_mul_div_left _ _ (Nat.two_pow_pos _),
            Nat.div_eq_of_lt hi, Nat.zero_add, Nat.mod_eq_of_lt hn']
      simp only [s1, a7, s2, hd]

end Peak.Auto
