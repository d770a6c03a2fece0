import Verif.Model.RiscVAsmX
import Verif.Props.AssemblerLayout
import Verif.Lemmas.Asm2
/-!
# C80: the instruction set of `examples/riscv` before and after `examples/riscv_ext` is used
-/

namespace Peak.RV
open Peak Peak.Spec
open Peak.RMap (options)

/-! ## the namespace object -/

/-- Whether the extension has been used. -/
def Act.loads : Act → Bool
  | .base | .asm => false
  | .ext | .extAsm => true

/-- What the process looks like after any history: at most one namespace, which holds the extension's options once it was loaded. -/
def NsInv (s : Mods) (loaded : Bool) : Prop :=
  (s.base = none ∧ s.ext = none ∧ s.heap = [] ∧ loaded = false) ∨
  (s.base = some 0 ∧ s.ext = none ∧ s.heap = [⟨options⟩] ∧ loaded = false) ∨
  (s.base = some 0 ∧ s.ext = some 0 ∧ s.heap = [⟨options ++ [(oExt, extT)]⟩] ∧ loaded = true)

theorem inv_base {s : Mods} {l : Bool} (h : NsInv s l) : s.callBase.1 = 0 ∧ s.callBase.2.base = some 0 ∧ NsInv s.callBase.2 l := by
  obtain ⟨heap, base, ext, ctors⟩ := s
  rcases h with ⟨rfl, rfl, rfl, rfl⟩ | ⟨rfl, rfl, rfl, rfl⟩ | ⟨rfl, rfl, rfl, rfl⟩
  · exact ⟨rfl, rfl, .inr (.inl ⟨rfl, rfl, rfl, rfl⟩)⟩
  · exact ⟨rfl, rfl, .inr (.inl ⟨rfl, rfl, rfl, rfl⟩)⟩
  · exact ⟨rfl, rfl, .inr (.inr ⟨rfl, rfl, rfl, rfl⟩)⟩

theorem inv_ext {s : Mods} {l : Bool} (h : NsInv s l) : s.callExt.1 = 0 ∧ NsInv s.callExt.2 true := by
  obtain ⟨heap, base, ext, ctors⟩ := s
  rcases h with ⟨rfl, rfl, rfl, rfl⟩ | ⟨rfl, rfl, rfl, rfl⟩ | ⟨rfl, rfl, rfl, rfl⟩ <;>
    exact ⟨rfl, .inr (.inr ⟨rfl, rfl, rfl, rfl⟩)⟩

theorem inv_asm {s : Mods} {l : Bool} (h : NsInv s l) : NsInv s.importAsm l := by
  unfold Mods.importAsm
  cases hc : s.ctors with
  | some _ => exact h
  | none => exact (inv_base h).2.2

theorem inv_step {s : Mods} {l : Bool} (h : NsInv s l) (a : Act) : NsInv (s.step a) (l || a.loads) := by
  cases a with
  | base => rw [show Act.loads .base = false from rfl, Bool.or_false]; exact (inv_base h).2.2
  | ext => rw [show Act.loads .ext = true from rfl, Bool.or_true]; exact (inv_ext h).2
  | asm => rw [show Act.loads .asm = false from rfl, Bool.or_false]; exact inv_asm h
  | extAsm => rw [show Act.loads .extAsm = true from rfl, Bool.or_true]; exact (inv_ext (inv_asm h)).2

theorem inv_run : ∀ (acts : List Act) (s : Mods) (l : Bool), NsInv s l → NsInv (s.run acts) (l || acts.any Act.loads)
  | [], s, l, h => by simpa [Mods.run] using h
  | a :: as, s, l, h => by
    have := inv_run as (s.step a) _ (inv_step h a)
    rw [Bool.or_assoc] at this
    exact this

theorem inv_init (acts : List Act) : NsInv (Mods.run {} acts) (acts.any Act.loads) := by
  have := inv_run acts {} false (.inl ⟨rfl, rfl, rfl, rfl⟩)
  rwa [Bool.false_or] at this

theorem baseInst_eq {s : Mods} {l : Bool} (h : NsInv s l) : s.baseInst = options ++ if l then [(oExt, extT)] else [] := by
  obtain ⟨heap, base, ext, ctors⟩ := s
  rcases h with ⟨rfl, rfl, rfl, rfl⟩ | ⟨rfl, rfl, rfl, rfl⟩ | ⟨rfl, rfl, rfl, rfl⟩ <;> rfl

/-- C80, as long as nothing uses the extension: the instructions of `riscv.isa` are the nine options of its definition, after any
history. -/
theorem C80_isa_partial (acts : List Act) (h : ∀ a ∈ acts, a = .base ∨ a = .asm) : (Mods.run {} acts).baseInst = options := by
  have hl : acts.any Act.loads = false := by
    rw [List.any_eq_false]
    intro a ha
    rcases h a ha with rfl | rfl <;> decide
  rw [baseInst_eq (inv_init acts), hl]
  exact List.append_nil _

/-- C80, violated: after any history in which the extension was used, the instructions of `riscv.isa` include those of the extension; the
two examples share one namespace object. -/
theorem C80_violated_isa (acts : List Act) (h : .ext ∈ acts ∨ .extAsm ∈ acts) :
    (Mods.run {} acts).baseInst = options ++ [(oExt, extT)] ∧ (Mods.run {} acts).callBase.1 = (Mods.run {} acts).callExt.1 := by
  have hl : acts.any Act.loads = true := by
    rw [List.any_eq_true]
    rcases h with h | h
    · exact ⟨_, h, rfl⟩
    · exact ⟨_, h, rfl⟩
  have hi := inv_init acts
  refine ⟨by rw [baseInst_eq hi, hl]; rfl, ?_⟩
  rw [(inv_base hi).1, (inv_ext hi).1]

/-- C80: after importing `riscv_ext.asm` the table of constructors of `riscv.asm` has no entry for the extension's option, unless the
extension was used before the first import of `riscv.asm`. -/
theorem C80_constructors (before after : List Act) (hb : ∀ a ∈ before, a = .base) :
    (Mods.run {} (before ++ .extAsm :: after)).ctors = some (options.map (·.1)) ∧
    (Mods.run {} (before ++ .ext :: .extAsm :: after)).ctors = some (options.map (·.1) ++ [oExt]) := by
  have keep : ∀ (l : List Act) (s : Mods) (c : List Key), s.ctors = some c → (s.run l).ctors = some c := by
    intro l
    induction l with
    | nil => exact fun s c h => h
    | cons a l ih =>
      intro s c h
      apply ih
      obtain ⟨heap, base, ext, ctors⟩ := s
      cases h
      cases a <;> cases base <;> cases ext <;> rfl
  have none_before : ∀ (l : List Act) (s : Mods), (∀ a ∈ l, a = .base) → s.ctors = none → (s.run l).ctors = none := by
    intro l
    induction l with
    | nil => exact fun s _ h => h
    | cons a l ih =>
      intro s hl h
      apply ih _ (fun a ha => hl a (List.mem_cons_of_mem _ ha))
      rw [hl a (List.mem_cons_self)]
      obtain ⟨heap, base, ext, ctors⟩ := s
      cases h
      cases base <;> rfl
  have hrun : ∀ (l l' : List Act) (s : Mods), s.run (l ++ l') = (s.run l).run l' := fun l l' s => List.foldl_append
  have hl : before.any Act.loads = false := by
    rw [List.any_eq_false]
    intro a ha
    rw [hb a ha]
    decide
  have hi := inv_init before
  rw [hl] at hi
  have hn := none_before before {} hb rfl
  rw [hrun, hrun]
  generalize Mods.run {} before = s at hi hn
  obtain ⟨heap, base, ext, ctors⟩ := s
  cases hn
  constructor
  · apply keep after (Mods.step _ .extAsm)
    rcases hi with ⟨h1, h2, h3, h4⟩ | ⟨h1, h2, h3, h4⟩ | ⟨_, _, _, h4⟩
    · cases h1; cases h2; cases h3; rfl
    · cases h1; cases h2; cases h3; rfl
    · cases h4
  · apply keep after (Mods.step (Mods.step _ .ext) .extAsm)
    rcases hi with ⟨h1, h2, h3, h4⟩ | ⟨h1, h2, h3, h4⟩ | ⟨_, _, _, h4⟩
    · cases h1; cases h2; cases h3; rfl
    · cases h1; cases h2; cases h3; rfl
    · cases h4

/-! ## opcodes -/

theorem options_wf : ∀ x ∈ options ++ [(oExt, extT)], WF x.2 := by
  intro x hx
  simp only [options, List.cons_append, List.nil_append, List.mem_cons, List.not_mem_nil, or_false] at hx
  rcases hx with rfl | rfl | rfl | rfl | rfl | rfl | rfl | rfl | rfl | rfl <;>
    simp [RMap.opT, RMap.immT, RMap.luiT, RMap.auipcT, RMap.jalT, RMap.jalrT, RMap.brT, RMap.ldT, RMap.stT, extT, eT, bitT, RMap.immAT, RMap.immST,
      RMap.rT, RMap.iT, RMap.isT, RMap.sT, RMap.uT, RMap.bT, RMap.jT, RMap.aluT, RMap.arithT, RMap.shiftT, RMap.loadT, RMap.branchT, WF, WFs,
      Fields.toList, autos, RMap.kData, RMap.kTag, RMap.kRd, RMap.kRs1, RMap.kRs2, RMap.kImm, RMap.kArith, RMap.kShift, kRs]

theorem sumOf_wf (rank : Key → Nat) (opts : List (Key × Ty)) (hne : opts ≠ []) (hkeys : (opts.map (·.1)).Nodup) (hwf : ∀ x ∈ opts, WF x.2) :
    WF (sumOf rank opts) := by
  have hp := sortByRepr_perm (opts.map (fun p => (rank p.1, p.1, p.2)))
  simp only [sumOf, Ty.mkSum, WF, toList_ofList]
  refine ⟨?_, ?_, ?_⟩
  · intro h
    have := hp.length_eq
    simp only [List.map_eq_nil_iff] at h
    rw [h, List.length_map] at this
    exact hne (List.length_eq_zero_iff.1 this.symm)
  · rw [List.map_map, (hp.map _).nodup_iff, List.map_map]
    exact hkeys
  · have : ∀ l : List (Nat × Key × Ty), (∀ x ∈ l, WF x.2.2) → WFs (Fields.ofList (l.map (·.2))) := by
      intro l
      induction l with
      | nil => intro _; trivial
      | cons x l ih =>
        intro h
        exact ⟨h x (by simp), ih (fun y hy => h y (by simp [hy]))⟩
    refine this _ (fun x hx => ?_)
    obtain ⟨y, hy, rfl⟩ := List.mem_map.mp (hp.mem_iff.1 hx)
    exact hwf y hy

/-- The number of an instruction under an order of the options: the options that come before its own, and its payload. -/
theorem encode_sumOf (rank : Key → Nat) (opts : List (Key × Ty)) (hne : opts ≠ []) (hkeys : (opts.map (·.1)).Nodup) (hwf : ∀ x ∈ opts, WF x.2)
    (hrank : (opts.map (fun p => rank p.1)).Nodup) {k : Key} {t : Ty} (hm : (k, t) ∈ opts) {v : Val} (hv : t.Has v) :
    (sumOf rank opts).Has (.sum k v) ∧
    encode (sumOf rank opts) (.sum k v) = opts.countP (fun p => decide (rank p.1 < rank k)) + 2 ^ tagBits opts.length * encode t v := by
  have hw := sumOf_wf rank opts hne hkeys hwf
  have hp := sortByRepr_perm (opts.map (fun p => (rank p.1, p.1, p.2)))
  have hm' : (rank k, k, t) ∈ opts.map (fun p => (rank p.1, p.1, p.2)) := List.mem_map.mpr ⟨(k, t), hm, rfl⟩
  have hs := sorted_index (sortByRepr_sorted _) (((hp.map (·.1)).nodup_iff).2 (by rw [List.map_map]; exact hrank)) (hp.mem_iff.2 hm')
  rw [hp.countP_eq, List.countP_map] at hs
  have hi : (Fields.ofList ((sortByRepr (opts.map (fun p => (rank p.1, p.1, p.2)))).map (·.2))).toList[opts.countP (fun p => decide (rank p.1 < rank k))]? =
      some (k, t) := by
    rw [toList_ofList, List.getElem?_map]
    exact (congrArg (Option.map _) hs)
  have hidx := optionIndex_of_get hw.2.1 hi
  have hlen : (Fields.ofList ((sortByRepr (opts.map (fun p => (rank p.1, p.1, p.2)))).map (·.2))).toList.length = opts.length := by
    rw [toList_ofList, List.length_map, hp.length_eq, List.length_map]
  refine ⟨(hasAt_iff hw.2.1 k v).2 ⟨_, t, hi, hv⟩, ?_⟩
  show optionIndex _ k + 2 ^ tagBits (Fields.toList _).length * encodeAt _ k v = _
  rw [hidx, encodeAt_get _ k v t (by rw [hidx]; exact hi), hlen]

theorem maxWidth_le : ∀ (fs : Fields) (w : Nat), (∀ x ∈ fs.toList, width x.2 ≤ w) → maxWidth fs ≤ w
  | .nil, w, _ => Nat.zero_le w
  | .cons k t fs, w, h => by
    rw [maxWidth]
    have h1 := h (k, t) (by simp [Fields.toList])
    have h2 := maxWidth_le fs w (fun x hx => h x (by simp [Fields.toList, hx]))
    exact Nat.max_le.mpr ⟨h1, h2⟩

theorem width_sumOf (rank : Key → Nat) (opts : List (Key × Ty)) {w : Nat} (hle : ∀ x ∈ opts, width x.2 ≤ w) (hex : ∃ x ∈ opts, width x.2 = w) :
    width (sumOf rank opts) = tagBits opts.length + w := by
  have hp := sortByRepr_perm (opts.map (fun p => (rank p.1, p.1, p.2)))
  have hmem : ∀ x : Key × Ty, x ∈ (Fields.ofList ((sortByRepr (opts.map (fun p => (rank p.1, p.1, p.2)))).map (·.2))).toList ↔ x ∈ opts := by
    intro x
    rw [toList_ofList, List.mem_map]
    constructor
    · rintro ⟨y, hy, rfl⟩
      obtain ⟨z, hz, rfl⟩ := List.mem_map.mp (hp.mem_iff.1 hy)
      exact hz
    · intro hx
      exact ⟨(rank x.1, x), hp.mem_iff.2 (List.mem_map.mpr ⟨x, hx, rfl⟩), rfl⟩
  have hlen : (Fields.ofList ((sortByRepr (opts.map (fun p => (rank p.1, p.1, p.2)))).map (·.2))).toList.length = opts.length := by
    rw [toList_ofList, List.length_map, hp.length_eq, List.length_map]
  have h1 := maxWidth_le _ w (fun x hx => hle x ((hmem x).1 hx))
  obtain ⟨x, hx, hw⟩ := hex
  obtain ⟨i, hi⟩ := List.getElem?_of_mem ((hmem x).2 hx)
  have h2 := width_le_maxWidth _ i x.1 x.2 hi
  rw [hw] at h2
  show tagBits (Fields.toList _).length + maxWidth _ = _
  rw [hlen]
  omega

theorem options_width : (∀ x ∈ options ++ [(oExt, extT)], width x.2 ≤ 26) ∧ ∃ x ∈ options, width x.2 = 26 := by
  refine ⟨?_, (RMap.oIMM, RMap.immT), by simp [options], by decide +kernel⟩
  intro x hx
  simp only [options, List.cons_append, List.nil_append, List.mem_cons, List.not_mem_nil, or_false] at hx
  rcases hx with rfl | rfl | rfl | rfl | rfl | rfl | rfl | rfl | rfl | rfl <;> decide +kernel

/-- C80, violated: the opcode of an instruction of the base set depends on whether the extension has been used.  `rank` is the order of the
printed forms of the options, and `o` and `o'` are the assemblers of `riscv.isa.Inst` before and after, whatever else has been assembled:
an instruction keeps its opcode exactly if its option sorts before `Ext`; otherwise the opcode is larger by one. -/
theorem C80_violated_opcodes (rank : Key → Nat) (hrank : ((options ++ [(oExt, extT)]).map (fun p => rank p.1)).Nodup) (hist hist' : List Ty)
    (acts acts' : List Act) (ha : ∀ a ∈ acts, a = .base ∨ a = .asm) (ha' : .ext ∈ acts' ∨ .extAsm ∈ acts')
    {k : Key} {t : Ty} (hm : (k, t) ∈ options) {v : Val} (hv : t.Has v) :
    ∃ o o' b b', assemblerAfter hist (sumOf rank (Mods.run {} acts).baseInst) = .ok o ∧
      assemblerAfter hist' (sumOf rank (Mods.run {} acts').baseInst) = .ok o' ∧
      o.assemble (.sum k v) = .ok b ∧ o'.assemble (.sum k v) = .ok b' ∧ b'.size = b.size ∧
      b'.val = b.val + (if rank k < rank oExt then 0 else 1) ∧ (b = b' ↔ rank k < rank oExt) := by
  rw [C80_isa_partial acts ha, (C80_violated_isa acts' ha').1]
  have hm' : (k, t) ∈ options ++ [(oExt, extT)] := List.mem_append_left _ hm
  have hk : (options.map (·.1)).Nodup := by decide
  have hk' : ((options ++ [(oExt, extT)]).map (·.1)).Nodup := by decide
  have hr : (options.map (fun p => rank p.1)).Nodup := by
    rw [List.map_append] at hrank
    exact (List.nodup_append.mp hrank).1
  have hwf : ∀ x ∈ options, WF x.2 := fun x hx => options_wf x (List.mem_append_left _ hx)
  obtain ⟨e1, e2⟩ := encode_sumOf rank options (by decide) hk hwf hr hm hv
  obtain ⟨e1', e2'⟩ := encode_sumOf rank _ (by decide) hk' options_wf hrank hm' hv
  obtain ⟨o, b, h1, h2, h3, h4, h5, _⟩ := C02_opcode_fits hist _ _ (sumOf_wf rank options (by decide) hk hwf) e1
  obtain ⟨o', b', h1', h2', h3', h4', h5', _⟩ := C02_opcode_fits hist' _ _ (sumOf_wf rank _ (by decide) hk' options_wf) e1'
  have w := width_sumOf rank options (fun x hx => options_width.1 x (List.mem_append_left _ hx)) options_width.2
  have w' := width_sumOf rank (options ++ [(oExt, extT)]) options_width.1
    (by obtain ⟨x, hx, hw⟩ := options_width.2; exact ⟨x, List.mem_append_left _ hx, hw⟩)
  have hsz : b'.size = b.size := by
    rw [h4, h4', h3, h3', w, w']
    decide
  have hne : rank k ≠ rank oExt := by
    rw [List.map_append, List.nodup_append] at hrank
    exact hrank.2.2 _ (List.mem_map.mpr ⟨(k, t), hm, rfl⟩) _ (by simp)
  have hval : b'.val = b.val + (if rank k < rank oExt then 0 else 1) := by
    rw [h5, h5', e2, e2', List.countP_append]
    have ht : tagBits options.length = 4 := by decide
    have ht' : tagBits (options ++ [(oExt, extT)]).length = 4 := by decide
    rw [ht, ht']
    simp only [List.countP_cons, List.countP_nil]
    by_cases hlt : rank k < rank oExt
    · have : ¬ rank oExt < rank k := by omega
      simp [hlt, this]
    · have : rank oExt < rank k := by omega
      simp [hlt, this]
      omega
  refine ⟨o, o', b, b', h1, h1', h2, h2', hsz, hval, ?_⟩
  constructor
  · intro h
    by_contra hn
    rw [h, if_neg hn] at hval
    omega
  · intro h
    rw [if_pos h] at hval
    obtain ⟨s, x, hx⟩ := b
    obtain ⟨s', x', hx'⟩ := b'
    cases hsz
    cases hval
    rfl

/-- A case of C80: in the alphabetical order of the names, additions come after `Ext`. -/
example : ∃ rank : Key → Nat, ((options ++ [(oExt, extT)]).map (fun p => rank p.1)).Nodup ∧ ¬ rank RMap.oOP < rank oExt ∧ rank RMap.oAUIPC < rank oExt :=
  ⟨fun k => [7, 8, 5, 0, 3, 4, 1, 6, 9, 2][k]?.getD 10, by decide, by decide, by decide⟩

example : (Mods.run {} [.base, .asm, .extAsm, .base]).baseInst.length = 10 ∧ (Mods.run {} [.base, .asm, .base]).baseInst.length = 9 :=
  ⟨rfl, rfl⟩

end Peak.RV
