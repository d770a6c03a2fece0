import Verif.Model.RewriteRule
import Verif.Props.AssembledADT
/-!
# C37: serialization of rewrite rules
-/

namespace Peak
open Peak.Spec

/-- The types of the leaves of an instruction type: bits, bit vectors and enums. -/
def LeafTy : Ty → Prop
  | .bit _ => True
  | .bv _ _ => True
  | .enum c ms => WF (.enum c ms)
  | _ => False

/-- The value of an enum member, if the constant is given as one. -/
def RArg.MemberOk (t : Ty) : RArg → Prop
  | .member v => t.Has v ∧ ∃ e, v = .enum e
  | _ => True

namespace RR

def back : RConst → RArg
  | .bits b => .bits b
  | .bit b => .bit b

theorem ofNat_self (b : BV) : BV.ofNat b.size b.val = b := BV.ext rfl (Nat.mod_eq_of_lt b.isLt)

theorem enum_ok (P : Process) {c : Nat} {ms : List EVal} (hw : WF (.enum c ms)) {o : AsmObj} (ho : P.asm (.enum c ms) = .ok o)
    {b : BV} (hs : b.size = width (.enum c ms)) (hv : o.isValid b = true) :
    rrConst P.asm (.enum c ms) (.bits b) = .ok (.bits b) := by
  have hb : BV.ofNat (width (.enum c ms)) b.val = b := by rw [← hs]; exact ofNat_self b
  simp only [rrConst, rrWrap, new_bits P hw (by simp) hs, mkAV, hb, ho, hv, if_true]

def ConstOk (P : Process) (t : Ty) : RConst → Prop
  | .bit _ => ∃ k, t = .bit k
  | .bits b => b.size = width t ∧ (∀ k, t ≠ .bit k) ∧
      (∀ k ms, t = .enum k ms → ∃ o, P.asm (.enum k ms) = .ok o ∧ o.isValid b = true)

/-- A stored constant is of the width of the type and valid, and would be accepted again. -/
theorem const_spec (P : Process) {t : Ty} (ht : LeafTy t) {a : RArg} (ha : a.MemberOk t) {c : RConst} (h : rrConst P.asm t a = .ok c) :
    rrConst P.asm t (back c) = .ok c ∧ ConstOk P t c := by
  cases t with
  | bit k =>
    cases a with
    | bits b => cases h
    | bit b => cases h; exact ⟨rfl, k, rfl⟩
    | int i =>
      simp only [rrConst, rrWrap] at h
      by_cases h0 : i = 0
      · rw [if_pos h0] at h; cases h; exact ⟨rfl, k, rfl⟩
      · rw [if_neg h0] at h
        by_cases h1 : i = 1
        · rw [if_pos h1] at h; cases h; exact ⟨rfl, k, rfl⟩
        · rw [if_neg h1] at h; cases h
    | member v => obtain ⟨_, e, rfl⟩ := ha; cases h
    | path p => cases h
    | unbound => cases h
  | bv k w =>
    have key : ∀ n, rrConst P.asm (.bv k w) (.bits (BV.ofNat w n)) = .ok (.bits (BV.ofNat w n)) := by
      intro n
      simp [rrConst, rrWrap, AV.new, AV.plain, BV.ofNat]
    cases a with
    | bits b => cases h; exact ⟨key _, rfl, by simp, by simp⟩
    | bit b => cases h
    | int i => cases h; exact ⟨key _, rfl, by simp, by simp⟩
    | member v => obtain ⟨_, e, rfl⟩ := ha; cases h
    | path p => cases h
    | unbound => cases h
  | enum k ms =>
    have hw : WF (.enum k ms) := ht
    obtain ⟨o, ho, hg⟩ := P.good hw
    have key : ∀ b : BV, b.size = width (.enum k ms) →
        (if o.isValid b then (Except.ok (RConst.bits b) : Except Err RConst) else .error .valueError) = .ok c →
        rrConst P.asm (.enum k ms) (back c) = .ok c ∧ ConstOk P (.enum k ms) c := by
      intro b hb h
      by_cases hv : o.isValid b = true
      · rw [if_pos hv] at h
        cases h
        refine ⟨enum_ok P hw ho hb hv, hb, by simp, ?_⟩
        intro k' ms' he
        cases he
        exact ⟨o, ho, hv⟩
      · rw [if_neg hv] at h
        cases h
    cases a with
    | bits b =>
      by_cases hb : b.size = width (.enum k ms)
      · refine key b hb ?_
        have he : BV.ofNat (width (.enum k ms)) b.val = b := by rw [← hb]; exact ofNat_self b
        simp only [rrConst, rrWrap, new_bits P hw (by simp) hb, mkAV, he, ho] at h
        exact h
      · simp only [rrConst, rrWrap, AV.new, ho, AV.init, hg.width, if_neg hb] at h
        cases h
    | bit b =>
      simp only [rrConst, rrWrap, AV.new, ho, AV.init] at h
      cases h
    | int i => cases h
    | member v =>
      refine key (BV.ofNat (width (.enum k ms)) (encode (.enum k ms) v)) rfl ?_
      simp only [rrConst, rrWrap, new_raw P hw ha.1, mkAV, ho] at h
      exact h
    | path p => cases h
    | unbound => cases h
  | sum k fs => exact absurd ht (by simp [LeafTy])
  | prod k fs => exact absurd ht (by simp [LeafTy])

theorem entry_spec (P : Process) {types : RPath → Option Ty} {e : RArg × RPath} {e' : RSrc × RPath} (h : rrEntry P.asm types e = .ok e') :
    e'.2 = e.2 ∧
    (match e'.1 with
      | .path p => e.1 = .path p
      | .unbound => e.1 = .unbound ∧ (types e.2).isSome
      | .const c => ∃ t, types e.2 = some t ∧ rrConst P.asm t e.1 = .ok c ∧ (∀ p, e.1 ≠ .path p) ∧ e.1 ≠ .unbound) := by
  obtain ⟨a, p⟩ := e
  have key : ∀ a : RArg, (∀ p, a ≠ .path p) → a ≠ .unbound →
      (∀ t, types p = some t → ∀ c, rrConst P.asm t a = .ok c → e' = (.const c, p)) →
      (∃ t c, types p = some t ∧ rrConst P.asm t a = .ok c) →
      e'.2 = p ∧
      (match e'.1 with
        | .path q => a = .path q
        | .unbound => a = .unbound ∧ (types p).isSome
        | .const c => ∃ t, types p = some t ∧ rrConst P.asm t a = .ok c ∧ (∀ p, a ≠ .path p) ∧ a ≠ .unbound) := by
    intro a h1 h2 h3 h4
    obtain ⟨t, c, h5, h6⟩ := h4
    have := h3 t h5 c h6
    subst this
    exact ⟨rfl, t, h5, h6, h1, h2⟩
  have key2 : ∀ a : RArg, (∀ p, a ≠ .path p) → a ≠ .unbound → rrEntry P.asm types (a, p) = .ok e' →
      (∀ t, types p = some t → ∀ c, rrConst P.asm t a = .ok c → e' = (.const c, p)) ∧
      (∃ t c, types p = some t ∧ rrConst P.asm t a = .ok c) := by
    intro a h1 h2 h
    have h' : (match types p with
      | none => (.error .keyError : Except Err (RSrc × RPath))
      | some t =>
        match rrConst P.asm t a with
        | .error err => .error err
        | .ok c => .ok (.const c, p)) = .ok e' := by
      cases a with
      | path q => exact absurd rfl (h1 q)
      | unbound => exact absurd rfl h2
      | bits b => exact h
      | bit b => exact h
      | int b => exact h
      | member b => exact h
    cases htp : types p with
    | none => simp only [htp] at h'; cases h'
    | some t =>
      simp only [htp] at h'
      cases hc : rrConst P.asm t a with
      | error err => simp only [hc] at h'; cases h'
      | ok c =>
        simp only [hc] at h'; cases h'
        refine ⟨fun t' ht' c' hc' => ?_, t, c, rfl, hc⟩
        cases ht'
        rw [hc] at hc'
        cases hc'
        rfl
  have key3 : ∀ a : RArg, (∀ p, a ≠ .path p) → a ≠ .unbound → rrEntry P.asm types (a, p) = .ok e' → _ :=
    fun a h1 h2 h => key a h1 h2 (key2 a h1 h2 h).1 (key2 a h1 h2 h).2
  cases a with
  | path q => cases h; exact ⟨rfl, rfl⟩
  | unbound =>
    simp only [rrEntry] at h
    by_cases hs : (types p).isSome
    · rw [if_pos hs] at h; cases h; exact ⟨rfl, rfl, hs⟩
    · rw [if_neg hs] at h; cases h
  | bits b => exact key3 _ (by simp) (by simp) h
  | bit b => exact key3 _ (by simp) (by simp) h
  | int b => exact key3 _ (by simp) (by simp) h
  | member b => exact key3 _ (by simp) (by simp) h

/-- What the reader makes of one serialized entry. -/
def reread : RSrc × RPath → RArg × RPath
  | (.path p, q) => (.path p, q)
  | (.unbound, q) => (.unbound, q)
  | (.const c, q) => (back c, q)

theorem reread_eq (r : RRule) : r.serialize.ib.map readI = r.ib.map reread := by
  simp only [RRule.serialize, List.map_map]
  apply List.map_congr_left
  intro e _
  obtain ⟨s, q⟩ := e
  cases s with
  | path p => rfl
  | unbound => rfl
  | const c =>
    cases c with
    | bits b => simp only [Function.comp, readI, reread, back, if_true, ofNat_self]
    | bit b => cases b <;> rfl

theorem entry_again (P : Process) {types : RPath → Option Ty} (ht : ∀ p t, types p = some t → LeafTy t) {e : RArg × RPath}
    (ha : ∀ t, types e.2 = some t → e.1.MemberOk t) {e' : RSrc × RPath} (h : rrEntry P.asm types e = .ok e') :
    rrEntry P.asm types (reread e') = .ok e' := by
  obtain ⟨h2, h1⟩ := entry_spec P h
  obtain ⟨s, q⟩ := e'
  simp only at h2
  subst h2
  cases s with
  | path p => rfl
  | unbound =>
    simp only at h1
    simp only [reread, rrEntry, h1.2, if_true]
  | const c =>
    simp only at h1
    obtain ⟨t, htp, hc, _, _⟩ := h1
    have := (const_spec P (ht _ _ htp) (ha t htp) hc).1
    cases c with
    | bits b =>
      simp only [back] at this
      simp only [reread, back, rrEntry, htp, this]
    | bit b =>
      simp only [back] at this
      simp only [reread, back, rrEntry, htp, this]

theorem entries_spec (P : Process) {types : RPath → Option Ty} (ht : ∀ p t, types p = some t → LeafTy t) :
    ∀ (es : List (RArg × RPath)), (∀ e ∈ es, ∀ t, types e.2 = some t → e.1.MemberOk t) → ∀ es', rrEntries P.asm types es = .ok es' →
      List.Forall₂ (fun e e' => rrEntry P.asm types e = .ok e') es es' ∧ rrEntries P.asm types (es'.map reread) = .ok es' := by
  intro es
  induction es with
  | nil => intro _ es' h; cases h; exact ⟨.nil, rfl⟩
  | cons e es ih =>
    intro ha es' h
    simp only [rrEntries] at h
    cases he : rrEntry P.asm types e with
    | error err => simp only [he] at h; cases h
    | ok e' =>
      simp only [he] at h
      cases hes : rrEntries P.asm types es with
      | error err => simp only [hes] at h; cases h
      | ok es1 =>
        simp only [hes] at h
        cases h
        obtain ⟨h1, h2⟩ := ih (fun e he => ha e (List.mem_cons_of_mem _ he)) es1 hes
        refine ⟨.cons he h1, ?_⟩
        simp only [List.map_cons, rrEntries, entry_again P ht (ha e (List.mem_cons_self)) he, h2]

end RR

/-- C37: a rule that was constructed is reproduced, in both bindings and entry for entry, by writing it out and reading it back. -/
theorem C37_round_trip (P : Process) (types : RPath → Option Ty) (ht : ∀ p t, types p = some t → LeafTy t)
    (ib : List (RArg × RPath)) (ob : List (Option RPath × RPath)) (ha : ∀ e ∈ ib, ∀ t, types e.2 = some t → e.1.MemberOk t)
    (r : RRule) (h : mkRule P.asm types ib ob = .ok r) :
    readSerialized P.asm types r.serialize = .ok r := by
  unfold mkRule at h
  cases he : rrEntries P.asm types ib with
  | error err => simp only [he] at h; cases h
  | ok ib' =>
    simp only [he] at h
    cases h
    unfold readSerialized mkRule
    rw [RR.reread_eq, (RR.entries_spec P ht ib ha ib' he).2]
    simp only
    congr 2
    simp only [RRule.serialize, List.map_map]
    conv => rhs; rw [← List.map_id ob]
    apply List.map_congr_left
    intro e _
    obtain ⟨s, q⟩ := e
    cases s <;> rfl

/-- C37, what a constructed rule holds: the entries are those given, in order; paths and `Unbound` unchanged; a constant has exactly the
width of the type of its path, and one for an enum is a code the type's assembler accepts. -/
theorem C37_constants (P : Process) (types : RPath → Option Ty) (ht : ∀ p t, types p = some t → LeafTy t)
    (ib : List (RArg × RPath)) (ob : List (Option RPath × RPath)) (ha : ∀ e ∈ ib, ∀ t, types e.2 = some t → e.1.MemberOk t)
    (r : RRule) (h : mkRule P.asm types ib ob = .ok r) :
    r.ob = ob ∧ r.ib.length = ib.length ∧
    ∀ e ∈ ib.zip r.ib, e.2.2 = e.1.2 ∧
      (∀ p, e.1.1 = .path p → e.2.1 = .path p) ∧ (e.1.1 = .unbound → e.2.1 = .unbound) ∧
      (∀ b, e.2.1 = .const (.bit b) → ∃ k, types e.1.2 = some (.bit k) ∧ (e.1.1 = .bit b ∨ e.1.1 = .int b.toNat)) ∧
      (∀ b, e.2.1 = .const (.bits b) → ∃ t, types e.1.2 = some t ∧ b.size = width t ∧
        (∀ k ms, t = .enum k ms → ∃ o, P.asm t = .ok o ∧ o.isValid b = true) ∧
        (∀ b', e.1.1 = .bits b' → b.val = b'.val % 2 ^ width t) ∧
        (∀ i, e.1.1 = .int i → (b.val : Int) = i % 2 ^ width t) ∧
        (∀ v, e.1.1 = .member v → b.val = encode t v % 2 ^ width t)) := by
  unfold mkRule at h
  cases he : rrEntries P.asm types ib with
  | error err => simp only [he] at h; cases h
  | ok ib' =>
    simp only [he] at h
    cases h
    have hf := (RR.entries_spec P ht ib ha ib' he).1
    refine ⟨rfl, hf.length_eq.symm, ?_⟩
    rintro ⟨⟨a, p⟩, ⟨s, q⟩⟩ hmem
    have hent := (List.forall₂_iff_zip.mp hf).2 hmem
    have hmo := ha _ (List.of_mem_zip hmem).1
    obtain ⟨hq, hs⟩ := RR.entry_spec P hent
    simp only at hq hs hmo
    subst hq
    refine ⟨rfl, ?_, ?_, ?_, ?_⟩
    · rintro p rfl
      cases hent; rfl
    · rintro rfl
      cases s with
      | path p => cases hs
      | unbound => rfl
      | const c => obtain ⟨_, _, _, _, h5⟩ := hs; exact absurd rfl h5
    · rintro b rfl
      obtain ⟨t, htp, hc, _, _⟩ := hs
      have hcs := (RR.const_spec P (ht _ _ htp) (hmo t htp) hc).2
      simp only [RR.ConstOk] at hcs
      obtain ⟨k, rfl⟩ := hcs
      refine ⟨k, htp, ?_⟩
      cases a with
      | bit b' => cases hc; exact .inl rfl
      | int i =>
        simp only [rrConst, rrWrap] at hc
        by_cases h0 : i = 0
        · rw [if_pos h0] at hc; cases hc; exact .inr (by rw [h0]; rfl)
        · rw [if_neg h0] at hc
          by_cases h1 : i = 1
          · rw [if_pos h1] at hc; cases hc; exact .inr (by rw [h1]; rfl)
          · rw [if_neg h1] at hc; cases hc
      | bits b' => cases hc
      | member v => obtain ⟨_, e, rfl⟩ := hmo _ htp; cases hc
      | path p => cases hc
      | unbound => cases hc
    · rintro b rfl
      obtain ⟨t, htp, hc, _, _⟩ := hs
      have hlt := ht _ _ htp
      have hcs := (RR.const_spec P hlt (hmo t htp) hc).2
      simp only [RR.ConstOk] at hcs
      obtain ⟨h1, h2, h3⟩ := hcs
      refine ⟨t, htp, h1, ?_, ?_, ?_, ?_⟩
      · rintro k ms rfl; exact h3 k ms rfl
      · rintro b' rfl
        cases t with
        | bit k => exact absurd rfl (h2 k)
        | bv k w => cases hc; rfl
        | enum k ms =>
          obtain ⟨o, ho, hg⟩ := P.good (show WF (.enum k ms) from hlt)
          by_cases hb : b'.size = width (.enum k ms)
          · simp only [rrConst, rrWrap, new_bits P hlt (by simp) hb, mkAV, ho] at hc
            split at hc
            · cases hc; rfl
            · cases hc
          · simp only [rrConst, rrWrap, AV.new, ho, AV.init, hg.width, if_neg hb] at hc
            cases hc
        | sum k fs => exact absurd hlt (by simp [LeafTy])
        | prod k fs => exact absurd hlt (by simp [LeafTy])
      · rintro i rfl
        cases t with
        | bit k => exact absurd rfl (h2 k)
        | bv k w =>
          cases hc
          have hp : (0 : Int) < 2 ^ w := by
            have : (0 : Nat) < 2 ^ w := Nat.two_pow_pos w
            exact_mod_cast this
          have h0 := Int.emod_nonneg i (show (2 ^ w : Int) ≠ 0 by omega)
          have hl := Int.emod_lt_of_pos i hp
          simp only [BV.ofNat_val, width]
          rw [Nat.mod_eq_of_lt]
          · omega
          · have : ((2 ^ w : Nat) : Int) = 2 ^ w := by simp
            omega
        | enum k ms => cases hc
        | sum k fs => exact absurd hlt (by simp [LeafTy])
        | prod k fs => exact absurd hlt (by simp [LeafTy])
      · rintro v rfl
        cases t with
        | bit k => exact absurd rfl (h2 k)
        | bv k w => obtain ⟨_, e, rfl⟩ := hmo _ htp; cases hc
        | enum k ms =>
          obtain ⟨o, ho, hg⟩ := P.good (show WF (.enum k ms) from hlt)
          simp only [rrConst, rrWrap, new_raw P hlt (hmo _ htp).1, mkAV, ho] at hc
          split at hc
          · cases hc; rfl
          · cases hc
        | sum k fs => exact absurd hlt (by simp [LeafTy])
        | prod k fs => exact absurd hlt (by simp [LeafTy])

/-- A rule with a path, an unbound input, a bit vector given as a (negative) int and an enum member: the hypotheses are met and the
constructor succeeds. -/
example (P : Process) : ∃ r, mkRule P.asm
      (fun p => if p = [0] then some (.bv 0 16) else if p = [1] then some (.enum 1 [.lit 0, .lit 2]) else if p = [2] then some (.bit 2) else none)
      [(.path [7, 8], [9]), (.unbound, [0]), (.int (-1), [0]), (.int 1, [2])] [(some [5], [6]), (none, [7])] = .ok r ∧
    r.ib = [(.path [7, 8], [9]), (.unbound, [0]), (.const (.bits (BV.ofNat 16 65535)), [0]), (.const (.bit true), [2])] ∧
    readSerialized P.asm
      (fun p => if p = [0] then some (.bv 0 16) else if p = [1] then some (.enum 1 [.lit 0, .lit 2]) else if p = [2] then some (.bit 2) else none)
      r.serialize = .ok r := by
  refine ⟨_, rfl, by rfl, ?_⟩
  refine C37_round_trip P _ ?_ [(.path [7, 8], [9]), (.unbound, [0]), (.int (-1), [0]), (.int 1, [2])] _ ?_ _ rfl
  · intro p t h

    split at h
    · cases h; trivial
    · split at h
      · cases h; simp [LeafTy, WF, autos]
      · split at h
        · cases h; trivial
        · cases h
  · intro e he t _
    simp only [List.mem_cons, List.not_mem_nil, or_false] at he
    rcases he with rfl | rfl | rfl | rfl <;> trivial

end Peak
