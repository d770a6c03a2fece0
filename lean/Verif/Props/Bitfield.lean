import Verif.Model.Bitfield
import Verif.Lemmas.AsmGood
import Verif.Lemmas.Asm2
import Mathlib.Tactic.Ring
/-!
# C21: `bitfield.encode` packs fields without overlap
-/

namespace Peak
open Peak.Spec

mutual
/-- The declared sizes are honest inside `t` (except possibly for the shift of `t`'s own class): enum members are numbers that fit
in `clog2(#members)` bits, explicit tags cover the options and are distinct, and no class used inside carries a `bitfield` shift. -/
def Honest (env : BfEnv) : Ty → Prop
  | .bit _ => True
  | .bv _ _ => True
  | .enum _ ms => ∀ e ∈ ms, ∃ v : Nat, e = .lit v ∧ v < 2 ^ clog2 ms.length
  | .prod _ fs => Honests env fs
  | .sum c fs => (fs.toList.map (·.1)).Nodup ∧ Honests env fs ∧
      ∀ tags, env.tags c = some tags → (∀ p ∈ fs.toList, ∃ i, (p.1, i) ∈ tags) ∧ (tags.map (·.1)).Nodup ∧ (tags.map (·.2)).Nodup
def Honests (env : BfEnv) : Fields → Prop
  | .nil => True
  | .cons _ t fs => (Honest env t ∧ Unshifted env t) ∧ Honests env fs
/-- The class of `t` carries no `bitfield` shift. -/
def Unshifted (env : BfEnv) : Ty → Prop
  | .bit c => env.off c = 0
  | .bv c _ => env.off c = 0
  | .enum c _ => env.off c = 0
  | .prod c _ => env.off c = 0
  | .sum c _ => env.off c = 0
end

/-- The `bitfield` shift of the class of `t`. -/
def offOf (env : BfEnv) : Ty → Nat
  | .bit c => env.off c
  | .bv c _ => env.off c
  | .enum c _ => env.off c
  | .prod c _ => env.off c
  | .sum c _ => env.off c

namespace Bf

/-- The fields of a product with their sizes and codes. -/
def Encs (env : BfEnv) (rev : Bool) : Fields → List Val → List (Nat × Nat) → Prop
  | .nil, [], [] => True
  | .cons _ t fs, v :: vs, (s, x) :: l => s = bfSize env t ∧ bfEncode env rev t v = .ok x ∧ x < 2 ^ s ∧ Encs env rev fs vs l
  | _, _, _ => False

/-- First field lowest. -/
def packL : List (Nat × Nat) → Nat
  | [] => 0
  | (s, x) :: l => x + 2 ^ s * packL l

/-- Last field lowest. -/
def packR : List (Nat × Nat) → Nat
  | [] => 0
  | (_, x) :: l => packR l + 2 ^ (l.map (·.1)).sum * x

def Fits (l : List (Nat × Nat)) : Prop := ∀ p ∈ l, p.2 < 2 ^ p.1

theorem packL_lt : ∀ l, Fits l → packL l < 2 ^ (l.map (·.1)).sum
  | [], _ => by simp [packL]
  | (s, x) :: l, h => by
    simp only [packL, List.map_cons, List.sum_cons]
    exact pow_add_lt (h (s, x) (by simp)) (packL_lt l (fun p hp => h p (by simp [hp])))

theorem packR_lt : ∀ l, Fits l → packR l < 2 ^ (l.map (·.1)).sum
  | [], _ => by simp [packR]
  | (s, x) :: l, h => by
    simp only [packR, List.map_cons, List.sum_cons]
    rw [Nat.add_comm s]
    exact pow_add_lt (packR_lt l (fun p hp => h p (by simp [hp]))) (h (s, x) (by simp))

theorem split_eq {a b x y i : Nat} (ha : a < 2 ^ i) (hb : b < 2 ^ i) (h : a + 2 ^ i * x = b + 2 ^ i * y) : a = b ∧ x = y := by
  have h1 : a = b := by
    have := congrArg (· % 2 ^ i) h
    simpa only [Nat.add_mul_mod_self_left, Nat.mod_eq_of_lt ha, Nat.mod_eq_of_lt hb] using this
  subst h1
  refine ⟨rfl, ?_⟩
  have : 2 ^ i * x = 2 ^ i * y := by omega
  exact Nat.eq_of_mul_eq_mul_left (Nat.two_pow_pos i) this

theorem packL_inj : ∀ l l', Fits l → Fits l' → l.map (·.1) = l'.map (·.1) → packL l = packL l' → l = l'
  | [], [], _, _, _, _ => rfl
  | [], _ :: _, _, _, h, _ => by simp at h
  | _ :: _, [], _, _, h, _ => by simp at h
  | (s, x) :: l, (s', x') :: l', f, f', h, he => by
    simp only [List.map_cons, List.cons.injEq] at h
    obtain ⟨rfl, h⟩ := h
    simp only [packL] at he
    obtain ⟨hx, hp⟩ := split_eq (f (s, x) (by simp)) (f' (s, x') (by simp)) he
    rw [packL_inj l l' (fun p hp => f p (by simp [hp])) (fun p hp => f' p (by simp [hp])) h hp,
      show x = x' from hx]

theorem packR_inj : ∀ l l', Fits l → Fits l' → l.map (·.1) = l'.map (·.1) → packR l = packR l' → l = l'
  | [], [], _, _, _, _ => rfl
  | [], _ :: _, _, _, h, _ => by simp at h
  | _ :: _, [], _, _, h, _ => by simp at h
  | (s, x) :: l, (s', x') :: l', f, f', h, he => by
    simp only [List.map_cons, List.cons.injEq] at h
    obtain ⟨rfl, h⟩ := h
    have fl : Fits l := fun p hp => f p (by simp [hp])
    have fl' : Fits l' := fun p hp => f' p (by simp [hp])
    simp only [packR, ← h] at he
    obtain ⟨hp, hx⟩ := split_eq (packR_lt l fl) (h ▸ packR_lt l' fl') he
    rw [packR_inj l l' fl fl' h hp, hx]

theorem packL_get : ∀ (l : List (Nat × Nat)) (i : Nat) (p : Nat × Nat), Fits l → l[i]? = some p →
    packL l / 2 ^ ((l.take i).map (·.1)).sum % 2 ^ p.1 = p.2
  | [], i, p, _, h => by simp at h
  | (s, x) :: l, 0, p, f, h => by
    simp only [List.getElem?_cons_zero, Option.some.injEq] at h
    subst h
    simp only [packL, List.take_zero, List.map_nil, List.sum_nil, Nat.pow_zero, Nat.div_one]
    rw [Nat.add_mul_mod_self_left]
    exact Nat.mod_eq_of_lt (f (s, x) (by simp))
  | (s, x) :: l, i + 1, p, f, h => by
    have ih := packL_get l i p (fun p hp => f p (by simp [hp])) (by simpa using h)
    simp only [packL, List.take_succ_cons, List.map_cons, List.sum_cons]
    rw [Nat.pow_add, ← Nat.div_div_eq_div_mul, Nat.add_mul_div_left _ _ (Nat.two_pow_pos _),
      Nat.div_eq_of_lt (f (s, x) (by simp) : x < 2 ^ s), Nat.zero_add]
    exact ih

theorem packR_get : ∀ (l : List (Nat × Nat)) (i : Nat) (p : Nat × Nat), Fits l → l[i]? = some p →
    packR l / 2 ^ ((l.drop (i + 1)).map (·.1)).sum % 2 ^ p.1 = p.2
  | [], i, p, _, h => by simp at h
  | (s, x) :: l, 0, p, f, h => by
    simp only [List.getElem?_cons_zero, Option.some.injEq] at h
    subst h
    have := packR_lt l (fun p hp => f p (by simp [hp]))
    simp only [packR, List.drop_succ_cons, List.drop_zero]
    rw [Nat.add_mul_div_left _ _ (Nat.two_pow_pos _), Nat.div_eq_of_lt this, Nat.zero_add]
    exact Nat.mod_eq_of_lt (f (s, x) (by simp))
  | (s, x) :: l, i + 1, p, f, h => by
    have hg : l[i]? = some p := by simpa using h
    have ih := packR_get l i p (fun p hp => f p (by simp [hp])) hg
    simp only [packR, List.drop_succ_cons]
    have hs : (l.map (·.1)).sum = ((l.take i).map (·.1)).sum + (p.1 + ((l.drop (i + 1)).map (·.1)).sum) := by
      obtain ⟨hi, rfl⟩ := List.getElem?_eq_some_iff.1 hg
      have e : l.map (·.1) = (l.take i).map (·.1) ++ (l[i].1 :: (l.drop (i + 1)).map (·.1)) := by
        have e' : l[i] :: l.drop (i + 1) = l.drop i := (List.drop_eq_getElem_cons hi).symm
        calc l.map (·.1) = (l.take i ++ l.drop i).map (·.1) := by rw [List.take_append_drop]
          _ = (l.take i ++ (l[i] :: l.drop (i + 1))).map (·.1) := by rw [e']
          _ = _ := by rw [List.map_append, List.map_cons]
      rw [e, List.sum_append, List.sum_cons]
    generalize ((l.drop (i + 1)).map (·.1)).sum = D at ih hs ⊢
    rw [hs, show ((l.take i).map (·.1)).sum + (p.1 + D) = D + (p.1 + ((l.take i).map (·.1)).sum) by omega, Nat.pow_add,
      Nat.mul_assoc, Nat.add_mul_div_left _ _ (Nat.two_pow_pos _), Nat.pow_add, Nat.mul_assoc, Nat.add_mul_mod_self_left]
    exact ih

theorem left_spec (env : BfEnv) (rev : Bool) : ∀ (fs : Fields) (vs : List Val) (l : List (Nat × Nat)) (pos word : Nat),
    Encs env rev fs vs l → word < 2 ^ pos → bfLeft env rev fs vs pos word = .ok (word + 2 ^ pos * packL l)
  | .nil, vs, l, pos, word, h, hw => by
    cases vs <;> cases l <;> simp only [Encs] at h
    simp [bfLeft, packL]
  | .cons k t fs, vs, l, pos, word, h, hw => by
    cases vs <;> cases l <;> simp only [Encs] at h
    next v vs p l =>
      obtain ⟨s, x⟩ := p
      simp only [Encs] at h
      obtain ⟨rfl, he, hx, hr⟩ := h
      simp only [bfLeft, he]
      rw [or_shift hw, left_spec env rev fs vs l _ _ hr (pow_add_lt hw hx), packL, Nat.pow_add, Nat.mul_add, Nat.mul_assoc,
        Nat.add_assoc]

theorem right_spec (env : BfEnv) (rev : Bool) : ∀ (fs : Fields) (vs : List Val) (l : List (Nat × Nat)) (word : Nat),
    Encs env rev fs vs l →
    bfRight env rev fs vs (l.map (·.1)).sum (2 ^ (l.map (·.1)).sum * word) = .ok (packR l + 2 ^ (l.map (·.1)).sum * word)
  | .nil, vs, l, word, h => by
    cases vs <;> cases l <;> simp only [Encs] at h
    simp [bfRight, packR]
  | .cons k t fs, vs, l, word, h => by
    cases vs <;> cases l <;> simp only [Encs] at h
    next v vs p l =>
      obtain ⟨s, x⟩ := p
      simp only [Encs] at h
      obtain ⟨rfl, he, hx, hr⟩ := h
      simp only [bfRight, he, List.map_cons, List.sum_cons]
      rw [Nat.add_sub_cancel_left]
      have e : 2 ^ (bfSize env t + (l.map (·.1)).sum) * word ||| x <<< (l.map (·.1)).sum =
          2 ^ (l.map (·.1)).sum * (x + 2 ^ bfSize env t * word) := by
        rw [Nat.add_comm (bfSize env t), Nat.pow_add, Nat.mul_assoc, Nat.mul_comm (2 ^ (l.map (·.1)).sum) (_ * word),
          ← Nat.shiftLeft_eq, ← Nat.shiftLeft_or_distrib, Nat.or_comm, Nat.mul_comm (2 ^ bfSize env t) word, ← Nat.shiftLeft_eq,
          or_shift hx, Nat.shiftLeft_eq, Nat.shiftLeft_eq, Nat.mul_comm word]
        ring
      rw [e, right_spec env rev fs vs l _ hr, packR, Nat.pow_add]
      ring_nf

theorem encs_fits (env : BfEnv) (rev : Bool) : ∀ (fs : Fields) (vs : List Val) (l : List (Nat × Nat)), Encs env rev fs vs l →
    Fits l ∧ l.map (·.1) = fs.toList.map (fun p => bfSize env p.2)
  | .nil, vs, l, h => by
    cases vs <;> cases l <;> simp only [Encs] at h
    simp [Fits, Fields.toList]
  | .cons k t fs, vs, l, h => by
    cases vs <;> cases l <;> simp only [Encs] at h
    next v vs p l =>
      obtain ⟨s, x⟩ := p
      simp only [Encs] at h
      obtain ⟨rfl, he, hx, hr⟩ := h
      obtain ⟨h1, h2⟩ := encs_fits env rev fs vs l hr
      refine ⟨?_, by simp [Fields.toList, h2]⟩
      intro p hp
      rcases List.mem_cons.1 hp with rfl | hp
      · exact hx
      · exact h1 p hp

theorem bfSizes_eq (env : BfEnv) : ∀ fs, bfSizes env fs = (fs.toList.map (fun p => bfSize env p.2)).sum
  | .nil => by simp [bfSizes, Fields.toList]
  | .cons k t fs => by simp [bfSizes, Fields.toList, bfSizes_eq env fs]

/-- The unshifted word of a product. -/
theorem prod_word (env : BfEnv) (rev : Bool) {c : Nat} {fs : Fields} {vs : List Val} {l : List (Nat × Nat)}
    (h : Encs env rev fs vs l) :
    bfEncode env rev (.prod c fs) (.prod vs) = .ok ((if rev then packR l else packL l) <<< env.off c) := by
  cases rev with
  | false =>
    simp only [bfEncode, Bool.false_eq_true, if_false, left_spec env false fs vs l 0 0 h (by simp)]
    simp
  | true =>
    have := right_spec env true fs vs l 0 h
    rw [(encs_fits env true fs vs l h).2, ← bfSizes_eq] at this
    simp only [Nat.mul_zero, Nat.add_zero] at this
    simp only [bfEncode, if_true, this]

theorem shl_inj {x y i : Nat} (h : x <<< i = y <<< i) : x = y := by
  rw [Nat.shiftLeft_eq, Nat.shiftLeft_eq] at h
  exact Nat.eq_of_mul_eq_mul_right (Nat.two_pow_pos i) h

theorem offOf_unshifted {env : BfEnv} {t : Ty} (h : Unshifted env t) : offOf env t = 0 := by
  cases t <;> exact h

theorem instkey_spec (env : BfEnv) (c : Nat) (fs : Fields) (k : Key)
    (ht : ∀ tags, env.tags c = some tags →
      (∀ p ∈ fs.toList, ∃ i, (p.1, i) ∈ tags) ∧ (tags.map (·.1)).Nodup ∧ (tags.map (·.2)).Nodup)
    (hk : k ∈ fs.toList.map (·.1)) : ∃ i, bfInstkey env c fs k = .ok i ∧ i < 2 ^ bfSumsize env c fs := by
  unfold bfInstkey bfSumsize
  cases htag : env.tags c with
  | some tags =>
    obtain ⟨h1, h2, _⟩ := ht tags htag
    obtain ⟨p, hp, rfl⟩ := List.mem_map.1 hk
    obtain ⟨i, hi⟩ := h1 p hp
    have hl : tags.lookup p.1 = some i := by
      rw [lookup_iff_mem]
      · exact hi
      · intro b b' hb hb'
        obtain ⟨x, hx, ex⟩ := List.getElem_of_mem hb
        obtain ⟨y, hy, ey⟩ := List.getElem_of_mem hb'
        have : x = y := by
          have e1 : (tags.map (·.1))[x]'(by simpa) = (tags.map (·.1))[y]'(by simpa) := by simp [ex, ey]
          exact h2.getElem_inj_iff.1 e1
        subst this
        rw [ex] at ey
        simpa using ey
    simp only [hl]
    refine ⟨i, rfl, ?_⟩
    have : i ≤ (tags.map (·.2)).foldl max 0 := le_foldl_max (List.mem_map_of_mem (f := (·.2)) hi)
    exact Nat.lt_of_le_of_lt this (by unfold clog2; exact lt_two_pow_bitLength _)
  | none =>
    cases hf : fs.toList.findIdx? (fun p => p.1 == k) with
    | none =>
      rw [List.findIdx?_eq_none_iff] at hf
      obtain ⟨p, hp, rfl⟩ := List.mem_map.1 hk
      have := hf p hp
      simp at this
    | some i =>
      refine ⟨i, rfl, ?_⟩
      obtain ⟨hi, _⟩ := List.findIdx?_eq_some_iff_findIdx_eq.1 hf
      have : i ≤ fs.toList.length - 1 := by omega
      exact Nat.lt_of_le_of_lt this (by simp only [clog2]; exact lt_two_pow_bitLength _)

theorem instkey_inj (env : BfEnv) (c : Nat) (fs : Fields) (k k' : Key) (i : Nat)
    (ht : ∀ tags, env.tags c = some tags →
      (∀ p ∈ fs.toList, ∃ i, (p.1, i) ∈ tags) ∧ (tags.map (·.1)).Nodup ∧ (tags.map (·.2)).Nodup)
    (h : bfInstkey env c fs k = .ok i) (h' : bfInstkey env c fs k' = .ok i) : k = k' := by
  unfold bfInstkey at h h'
  cases htag : env.tags c with
  | some tags =>
    obtain ⟨_, _, h3⟩ := ht tags htag
    simp only [htag] at h h'
    split at h
    · next j hj =>
      split at h'
      · next j' hj' =>
        simp only [Except.ok.injEq] at h h'
        subst h; subst h'
        obtain ⟨x, hx, ex⟩ := List.getElem_of_mem (mem_of_lookup hj)
        obtain ⟨y, hy, ey⟩ := List.getElem_of_mem (mem_of_lookup hj')
        have : x = y := by
          have e1 : (tags.map (·.2))[x]'(by simpa) = (tags.map (·.2))[y]'(by simpa) := by simp [ex, ey]
          exact h3.getElem_inj_iff.1 e1
        subst this
        rw [ex] at ey
        simp only [Prod.mk.injEq] at ey
        exact ey.1
      · simp at h'
    · simp at h
  | none =>
    simp only [htag] at h h'
    split at h
    · next j hj =>
      split at h'
      · next j' hj' =>
        simp only [Except.ok.injEq] at h h'
        subst h; subst h'
        have e1 := List.findIdx?_eq_some_iff_getElem.1 hj
        have e2 := List.findIdx?_eq_some_iff_getElem.1 hj'
        obtain ⟨hi, e1, _⟩ := e1
        obtain ⟨hi', e2, _⟩ := e2
        rw [beq_iff_eq] at e1 e2
        exact e1.symm.trans e2
      · simp at h'
    · simp at h

mutual
theorem type_spec (env : BfEnv) (rev : Bool) : ∀ (t : Ty), WF t → Honest env t →
    (∀ v, t.Has v → ∃ x, bfEncode env rev t v = .ok (x <<< offOf env t) ∧ x < 2 ^ bfSize env t) ∧
    (∀ v v' n, t.Has v → t.Has v' → bfEncode env rev t v = .ok n → bfEncode env rev t v' = .ok n → v = v')
  | .bit c, _, _ => by
    constructor
    · intro v hv
      cases v <;> simp only [Ty.Has] at hv
      next b => exact ⟨b.toNat, rfl, by cases b <;> simp [bfSize]⟩
    · intro v v' n hv hv' h h'
      cases v <;> simp only [Ty.Has] at hv
      cases v' <;> simp only [Ty.Has] at hv'
      next b b' =>
        rw [bfEncode] at h h'
        simp only [Except.ok.injEq] at h h'
        have := shl_inj (h.trans h'.symm)
        cases b <;> cases b' <;> simp at this ⊢
  | .bv c w, _, _ => by
    constructor
    · intro v hv
      cases v <;> simp only [Ty.Has] at hv
      next b => exact ⟨b.val, rfl, by simp only [bfSize]; exact hv ▸ b.isLt⟩
    · intro v v' n hv hv' h h'
      cases v <;> simp only [Ty.Has] at hv
      cases v' <;> simp only [Ty.Has] at hv'
      next b b' =>
        rw [bfEncode] at h h'
        simp only [Except.ok.injEq] at h h'
        exact congrArg Val.bits (BV.ext (hv.trans hv'.symm) (shl_inj (h.trans h'.symm)))
  | .enum c ms, _, ho => by
    constructor
    · intro v hv
      cases v <;> simp only [Ty.Has] at hv
      next e =>
        obtain ⟨x, rfl, hx⟩ := ho e hv
        refine ⟨x, ?_, hx⟩
        simp only [bfEncode, offOf, Int.toNat_natCast]
        rw [if_neg (by omega)]
    · intro v v' n hv hv' h h'
      cases v <;> simp only [Ty.Has] at hv
      cases v' <;> simp only [Ty.Has] at hv'
      next e e' =>
        obtain ⟨x, rfl, _⟩ := ho e hv
        obtain ⟨x', rfl, _⟩ := ho e' hv'
        simp only [bfEncode, Int.toNat_natCast] at h h'
        rw [if_neg (by omega)] at h h'
        simp only [Except.ok.injEq] at h h'
        rw [shl_inj (h.trans h'.symm)]
  | .prod c fs, hw, ho => by
    obtain ⟨h1, h2⟩ := fields_spec env rev fs hw.2 ho
    constructor
    · intro v hv
      cases v <;> simp only [Ty.Has] at hv
      next vs =>
        obtain ⟨l, hl⟩ := h1 vs hv
        obtain ⟨f1, f2⟩ := encs_fits env rev fs vs l hl
        refine ⟨_, prod_word env rev hl, ?_⟩
        rw [bfSize, bfSizes_eq, ← f2]
        split
        · exact packR_lt l f1
        · exact packL_lt l f1
    · intro v v' n hv hv' h h'
      cases v <;> simp only [Ty.Has] at hv
      cases v' <;> simp only [Ty.Has] at hv'
      next vs vs' =>
        obtain ⟨l, hl⟩ := h1 vs hv
        obtain ⟨l', hl'⟩ := h1 vs' hv'
        obtain ⟨f1, f2⟩ := encs_fits env rev fs vs l hl
        obtain ⟨f1', f2'⟩ := encs_fits env rev fs vs' l' hl'
        rw [prod_word env rev hl, Except.ok.injEq] at h
        rw [prod_word env rev hl', Except.ok.injEq] at h'
        have e := shl_inj (h.trans h'.symm)
        have : l = l' := by
          split at e
          · exact packR_inj l l' f1 f1' (f2.trans f2'.symm) e
          · exact packL_inj l l' f1 f1' (f2.trans f2'.symm) e
        subst this
        rw [h2 vs vs' l hv hv' hl hl']
  | .sum c fs, hw, ho => by
    obtain ⟨h1, h2⟩ := option_spec env rev fs hw.2.2 ho.2.1
    have hkey : ∀ k v, fs.HasAt k v → ∃ i, bfInstkey env c fs k = .ok i ∧ i < 2 ^ bfSumsize env c fs := by
      intro k v hv
      exact instkey_spec env c fs k ho.2.2 (hasAt_mem fs k v hv)
    have hval : ∀ k v, fs.HasAt k v → ∃ i x, bfInstkey env c fs k = .ok i ∧ i < 2 ^ bfSumsize env c fs ∧
        bfOption env rev fs k v = .ok x ∧ x < 2 ^ bfMaxSize env fs ∧
        bfEncode env rev (.sum c fs) (.sum k v) = .ok ((if rev then x + 2 ^ bfMaxSize env fs * i
          else i + 2 ^ bfSumsize env c fs * x) <<< env.off c) := by
      intro k v hv
      obtain ⟨i, hi1, hi2⟩ := hkey k v hv
      obtain ⟨x, hx1, hx2⟩ := h1 k v hw.2.1 hv
      refine ⟨i, x, hi1, hi2, hx1, hx2, ?_⟩
      simp only [bfEncode, hi1, hx1, Nat.add_sub_cancel]
      rw [Nat.or_comm, or_shift hx2, Nat.or_comm _ i, or_shift hi2]
    constructor
    · intro v hv
      cases v <;> simp only [Ty.Has] at hv
      next k v =>
        obtain ⟨i, x, a1, a2, a3, a4, a5⟩ := hval k v hv
        refine ⟨_, a5, ?_⟩
        rw [bfSize]
        split
        · exact pow_add_lt a4 a2
        · rw [Nat.add_comm (bfMaxSize env fs)]; exact pow_add_lt a2 a4
    · intro v v' n hv hv' h h'
      cases v <;> simp only [Ty.Has] at hv
      cases v' <;> simp only [Ty.Has] at hv'
      next k v k' v' =>
        obtain ⟨i, x, a1, a2, a3, a4, a5⟩ := hval k v hv
        obtain ⟨i', x', b1, b2, b3, b4, b5⟩ := hval k' v' hv'
        rw [a5, Except.ok.injEq] at h
        rw [b5, Except.ok.injEq] at h'
        have e := shl_inj (h.trans h'.symm)
        have : i = i' ∧ x = x' := by
          split at e
          · exact (split_eq a4 b4 e).symm
          · exact split_eq a2 b2 e
        obtain ⟨rfl, rfl⟩ := this
        have hk : k = k' := instkey_inj env c fs k k' i ho.2.2 a1 b1
        subst hk
        rw [h2 k v v' x hw.2.1 hv hv' a3 b3]
theorem fields_spec (env : BfEnv) (rev : Bool) : ∀ (fs : Fields), WFs fs → Honests env fs →
    (∀ vs, fs.HasAll vs → ∃ l, Encs env rev fs vs l) ∧
    (∀ vs vs' l, fs.HasAll vs → fs.HasAll vs' → Encs env rev fs vs l → Encs env rev fs vs' l → vs = vs')
  | .nil, _, _ => by
    constructor
    · intro vs hv
      cases vs <;> simp only [Fields.HasAll] at hv
      exact ⟨[], trivial⟩
    · intro vs vs' l hv hv' _ _
      cases vs <;> simp only [Fields.HasAll] at hv
      cases vs' <;> simp only [Fields.HasAll] at hv'
      rfl
  | .cons k t fs, hw, ho => by
    obtain ⟨h1, h2⟩ := type_spec env rev t hw.1 ho.1.1
    obtain ⟨i1, i2⟩ := fields_spec env rev fs hw.2 ho.2
    constructor
    · intro vs hv
      cases vs <;> simp only [Fields.HasAll] at hv
      next v vs =>
        obtain ⟨x, hx, hlt⟩ := h1 v hv.1
        obtain ⟨l, hl⟩ := i1 vs hv.2
        rw [offOf_unshifted ho.1.2, Nat.shiftLeft_zero] at hx
        exact ⟨(bfSize env t, x) :: l, rfl, hx, hlt, hl⟩
    · intro vs vs' l hv hv' h h'
      cases vs <;> simp only [Fields.HasAll] at hv
      cases vs' <;> simp only [Fields.HasAll] at hv'
      next v vs v' vs' =>
        cases l with
        | nil => simp only [Encs] at h
        | cons p l =>
          obtain ⟨s, x⟩ := p
          simp only [Encs] at h h'
          rw [h2 v v' x hv.1 hv'.1 h.2.1 h'.2.1, i2 vs vs' l hv.2 hv'.2 h.2.2.2 h'.2.2.2]
theorem option_spec (env : BfEnv) (rev : Bool) : ∀ (fs : Fields), WFs fs → Honests env fs →
    (∀ k v, (fs.toList.map (·.1)).Nodup → fs.HasAt k v → ∃ x, bfOption env rev fs k v = .ok x ∧ x < 2 ^ bfMaxSize env fs) ∧
    (∀ k v v' x, (fs.toList.map (·.1)).Nodup → fs.HasAt k v → fs.HasAt k v' → bfOption env rev fs k v = .ok x →
      bfOption env rev fs k v' = .ok x → v = v')
  | .nil, _, _ => by
    constructor
    · intro k v _ h; simp only [Fields.HasAt] at h
    · intro k v v' x _ h; simp only [Fields.HasAt] at h
  | .cons k' t fs, hw, ho => by
    obtain ⟨h1, h2⟩ := type_spec env rev t hw.1 ho.1.1
    obtain ⟨i1, i2⟩ := option_spec env rev fs hw.2 ho.2
    have hsplit : ∀ k v, ((Fields.cons k' t fs).toList.map (·.1)).Nodup → (Fields.cons k' t fs).HasAt k v →
        (k = k' ∧ t.Has v) ∨ (k ≠ k' ∧ fs.HasAt k v) := by
      intro k v hn hv
      simp only [Fields.toList, List.map_cons, List.nodup_cons] at hn
      simp only [Fields.HasAt] at hv
      rcases hv with hv | hv
      · exact Or.inl hv
      · refine Or.inr ⟨?_, hv⟩
        rintro rfl
        exact hn.1 (hasAt_mem fs k v hv)
    constructor
    · intro k v hn hv
      simp only [bfOption, bfMaxSize]
      rcases hsplit k v hn hv with ⟨rfl, hv2⟩ | ⟨hk, hv⟩
      · obtain ⟨x, hx, hlt⟩ := h1 v hv2
        rw [offOf_unshifted ho.1.2, Nat.shiftLeft_zero] at hx
        rw [if_pos rfl]
        exact ⟨x, hx, Nat.lt_of_lt_of_le hlt (Nat.pow_le_pow_right (by decide) (Nat.le_max_left _ _))⟩
      · rw [if_neg hk]
        simp only [Fields.toList, List.map_cons, List.nodup_cons] at hn
        obtain ⟨x, hx, hlt⟩ := i1 k v hn.2 hv
        exact ⟨x, hx, Nat.lt_of_lt_of_le hlt (Nat.pow_le_pow_right (by decide) (Nat.le_max_right _ _))⟩
    · intro k v v' x hn hv hv' h h'
      simp only [bfOption] at h h'
      rcases hsplit k v hn hv with ⟨rfl, hv2⟩ | ⟨hk, hv⟩
      · rcases hsplit k v' hn hv' with ⟨_, hv2'⟩ | ⟨hk, _⟩
        · rw [if_pos rfl] at h h'
          exact h2 v v' x hv2 hv2' h h'
        · exact absurd rfl hk
      · rcases hsplit k v' hn hv' with ⟨hk', _⟩ | ⟨_, hv'⟩
        · exact absurd hk' hk
        · rw [if_neg hk] at h h'
          simp only [Fields.toList, List.map_cons, List.nodup_cons] at hn
          exact i2 k v v' x hn.2 hv hv' h h'
end

end Bf

/-- `n` is the least number of bits for the numbers in `S`. -/
def LeastBits (S : Nat → Prop) (n : Nat) : Prop := (∀ x, S x → x < 2 ^ n) ∧ ∀ m < n, ∃ x, S x ∧ 2 ^ m ≤ x

mutual
/-- Values of `t` take `n` bits: as many as the members of an enum need when they are counted from 0, the sum of the fields of a product, and for a
union the largest option and the bits of the largest tag, the tags being counted from 0 unless they are given. -/
def Takes (env : BfEnv) : Ty → Nat → Prop
  | .bit _, n => n = 1
  | .bv _ w, n => n = w
  | .enum _ ms, n => LeastBits (· < ms.length) n
  | .prod _ fs, n => ∃ l, TakesAll env fs l ∧ n = l.sum
  | .sum c fs, n => ∃ l m s, TakesAll env fs l ∧ (∀ x ∈ l, x ≤ m) ∧ (m ∈ l ∨ m = 0) ∧ n = m + s ∧
      match env.tags c with
      | some tags => LeastBits (fun i => ∃ k, (k, i) ∈ tags) s
      | none => LeastBits (· < fs.toList.length) s
def TakesAll (env : BfEnv) : Fields → List Nat → Prop
  | .nil, l => l = []
  | .cons _ t fs, l => ∃ n l', Takes env t n ∧ TakesAll env fs l' ∧ l = n :: l'
end

namespace Bf

theorem leastBits_count (n : Nat) : LeastBits (· < n) (clog2 n) := by
  constructor
  · intro x hx
    have := lt_two_pow_bitLength (n - 1)
    unfold clog2
    omega
  · intro m hm
    unfold clog2 at hm
    have h1 := bitLength_le_iff (n - 1) m
    refine ⟨n - 1, ?_, ?_⟩
    · rcases Nat.eq_zero_or_pos n with rfl | h
      · simp [bitLength] at hm
      · omega
    · omega

theorem foldl_max_spec (l : List Nat) : ∀ a, (∀ x ∈ l, x ≤ l.foldl max a) ∧ a ≤ l.foldl max a ∧ (l.foldl max a = a ∨ l.foldl max a ∈ l) := by
  induction l with
  | nil => intro a; simp
  | cons y l ih =>
    intro a
    obtain ⟨h1, h2, h3⟩ := ih (max a y)
    simp only [List.foldl_cons, List.mem_cons]
    refine ⟨?_, by omega, ?_⟩
    · rintro x (rfl | hx)
      · omega
      · exact h1 x hx
    · rcases h3 with h3 | h3
      · rcases Nat.le_total a y with h | h
        · exact .inr (.inl (by omega))
        · exact .inl (by omega)
      · exact .inr (.inr h3)

theorem leastBits_tags (tags : List (Key × Nat)) : LeastBits (fun i => ∃ k, (k, i) ∈ tags) (clog2 ((tags.map (·.2)).foldl max 0 + 1)) := by
  obtain ⟨h1, -, h3⟩ := foldl_max_spec (tags.map (·.2)) 0
  obtain ⟨g1, g2⟩ := leastBits_count ((tags.map (·.2)).foldl max 0 + 1)
  constructor
  · rintro x ⟨k, hk⟩
    exact g1 x (Nat.lt_succ_of_le (h1 x (List.mem_map.mpr ⟨_, hk, rfl⟩)))
  · intro m hm
    obtain ⟨x, hx, hle⟩ := g2 m hm
    refine ⟨(tags.map (·.2)).foldl max 0, ?_, by omega⟩
    rcases h3 with h3 | h3
    · rw [h3] at hx
      have := Nat.two_pow_pos m
      omega
    · obtain ⟨p, hp, e⟩ := List.mem_map.mp h3
      exact ⟨p.1, e ▸ hp⟩

theorem leastBits_unique {S : Nat → Prop} {n m : Nat} (h : LeastBits S n) (h' : LeastBits S m) : n = m := by
  rcases Nat.lt_trichotomy n m with hl | hl | hl
  · obtain ⟨x, hx, hle⟩ := h'.2 n hl
    have := h.1 x hx
    omega
  · exact hl
  · obtain ⟨x, hx, hle⟩ := h.2 m hl
    have := h'.1 x hx
    omega

theorem maxSize_spec (env : BfEnv) : ∀ fs, (∀ x ∈ fs.toList.map (fun p => bfSize env p.2), x ≤ bfMaxSize env fs) ∧
    (bfMaxSize env fs ∈ fs.toList.map (fun p => bfSize env p.2) ∨ bfMaxSize env fs = 0)
  | .nil => by simp [Fields.toList, bfMaxSize]
  | .cons k t fs => by
    obtain ⟨h1, h2⟩ := maxSize_spec env fs
    simp only [Fields.toList, List.map_cons, List.mem_cons, bfMaxSize]
    refine ⟨?_, ?_⟩
    · rintro x (rfl | hx)
      · omega
      · have := h1 x hx
        omega
    · rcases Nat.le_total (bfSize env t) (bfMaxSize env fs) with h | h
      · rw [Nat.max_eq_right h]
        rcases h2 with h2 | h2
        · exact .inl (.inr h2)
        · exact .inr h2
      · exact .inl (.inl (by omega))

mutual
theorem takes_iff (env : BfEnv) : ∀ (t : Ty) (n : Nat), Takes env t n ↔ n = bfSize env t
  | .bit _, n => by simp [Takes, bfSize]
  | .bv _ w, n => by simp [Takes, bfSize]
  | .enum _ ms, n => by
    simp only [Takes, bfSize]
    exact ⟨fun h => leastBits_unique h (leastBits_count _), fun h => h ▸ leastBits_count _⟩
  | .prod _ fs, n => by
    simp only [Takes, bfSize, takesAll_iff env fs, bfSizes_eq]
    exact ⟨fun ⟨l, h1, h2⟩ => h1 ▸ h2, fun h => ⟨_, rfl, h⟩⟩
  | .sum c fs, n => by
    obtain ⟨h1, h2⟩ := maxSize_spec env fs
    have hs : ∀ s, (match env.tags c with
      | some tags => LeastBits (fun i => ∃ k, (k, i) ∈ tags) s
      | none => LeastBits (· < fs.toList.length) s) ↔ s = bfSumsize env c fs := by
      intro s
      unfold bfSumsize
      cases env.tags c with
      | none => exact ⟨fun h => leastBits_unique h (leastBits_count _), fun h => h ▸ leastBits_count _⟩
      | some tags => exact ⟨fun h => leastBits_unique h (leastBits_tags _), fun h => h ▸ leastBits_tags _⟩
    simp only [Takes, bfSize, takesAll_iff env fs, hs]
    constructor
    · rintro ⟨l, m, s, rfl, h3, h4, rfl, rfl⟩
      congr 1
      rcases h2 with h2 | h2
      · have := h3 _ h2
        rcases h4 with h4 | h4
        · have := h1 _ h4
          omega
        · omega
      · rcases h4 with h4 | h4
        · have := h1 _ h4
          omega
        · omega
    · rintro rfl
      exact ⟨_, _, _, rfl, h1, h2, rfl, rfl⟩
theorem takesAll_iff (env : BfEnv) : ∀ (fs : Fields) (l : List Nat), TakesAll env fs l ↔ l = fs.toList.map (fun p => bfSize env p.2)
  | .nil, l => by simp [TakesAll, Fields.toList]
  | .cons _ t fs, l => by
    simp only [TakesAll, takes_iff env t, takesAll_iff env fs, Fields.toList, List.map_cons]
    exact ⟨fun ⟨_, _, h1, h2, h3⟩ => by rw [h3, h1, h2], fun h => ⟨_, _, rfl, rfl, h⟩⟩
end

end Bf

/-- C21: `size` is the number of bits that `Takes` describes. -/
theorem C21_size (env : BfEnv) (t : Ty) (n : Nat) : Takes env t n ↔ n = bfSize env t := Bf.takes_iff env t n

/-- A union of a product of an enum of three members and a bit, and a vector of two bits, with the tags 1 and 5. -/
example : Takes ⟨fun _ => 0, fun _ => some [(0, 1), (1, 5)]⟩
    (.sum 0 (.cons 0 (.prod 0 (.cons 0 (.enum 0 [.lit 0, .lit 1, .lit 2]) (.cons 1 (.bit 0) .nil))) (.cons 1 (.bv 0 2) .nil))) 6 :=
  (C21_size _ _ _).mpr (by decide +kernel)

/-- C21 (partial: `Honest` excludes what the decorators and `size` do not check, see `C21_violated_*`): every value of the type is
encoded, in the advertised number of bits before the shift of its class, and two different values get different words, in both
field orders. -/
theorem C21_injective_partial (env : BfEnv) (reverse : Bool) (t : Ty) (hw : WF t) (ho : Honest env t) :
    (∀ v, t.Has v → ∃ x, bfEncode env reverse t v = .ok (x <<< offOf env t) ∧ x < 2 ^ bfSize env t) ∧
    (∀ v v' n, t.Has v → t.Has v' → bfEncode env reverse t v = .ok n → bfEncode env reverse t v' = .ok n → v = v') :=
  Bf.type_spec env reverse t hw ho

/-- C21: the word of a product holds each field's own word in a range of its own: the fields before it (in reverse order, after it)
come first. -/
theorem C21_field_range (env : BfEnv) (reverse : Bool) (c : Nat) (fs : Fields) (vs : List Val) (i : Nat) (k : Key) (t : Ty) (v : Val)
    (hw : WF (.prod c fs)) (ho : Honest env (.prod c fs)) (h0 : env.off c = 0) (hv : (Ty.prod c fs).Has (.prod vs))
    (ht : fs.toList[i]? = some (k, t)) (hi : vs[i]? = some v) :
    ∃ word x, bfEncode env reverse (.prod c fs) (.prod vs) = .ok word ∧ bfEncode env reverse t v = .ok x ∧
      word / 2 ^ (((if reverse then fs.toList.drop (i + 1) else fs.toList.take i).map (fun p => bfSize env p.2)).sum)
        % 2 ^ bfSize env t = x := by
  obtain ⟨l, hl⟩ := (Bf.fields_spec env reverse fs hw.2 ho).1 vs hv
  obtain ⟨f1, f2⟩ := Bf.encs_fits env reverse fs vs l hl
  have hget : ∃ x, l[i]? = some (bfSize env t, x) ∧ bfEncode env reverse t v = .ok x := by
    clear f1 f2 hw ho hv
    induction fs using Fields.rec (motive_1 := fun _ => True) generalizing vs l i with
    | nil => simp [Fields.toList] at ht
    | cons k' t' fs _ ih =>
      cases vs <;> cases l <;> simp only [Bf.Encs] at hl
      next w vs p l =>
        obtain ⟨s, x⟩ := p
        simp only [Bf.Encs] at hl
        cases i with
        | zero =>
          simp only [Fields.toList, List.getElem?_cons_zero, Option.some.injEq, Prod.mk.injEq] at ht hi
          obtain ⟨rfl, rfl⟩ := ht
          subst hi
          exact ⟨x, by simp [hl.1], hl.2.1⟩
        | succ i =>
          obtain ⟨x, h1, h2⟩ := ih vs i (by simpa [Fields.toList] using ht) (by simpa using hi) l hl.2.2.2
          exact ⟨x, by simpa using h1, h2⟩
    | _ => trivial
  obtain ⟨x, hx, he⟩ := hget
  refine ⟨_, x, Bf.prod_word env reverse hl, he, ?_⟩
  rw [h0, Nat.shiftLeft_zero]
  cases reverse with
  | true =>
    simp only [if_true]
    rw [List.map_drop, ← f2, ← List.map_drop]
    exact Bf.packR_get l i _ f1 hx
  | false =>
    simp only [Bool.false_eq_true, if_false]
    rw [List.map_take, ← f2, ← List.map_take]
    exact Bf.packL_get l i _ f1 hx

/-- An opcode enum, a bit and a tagged union, with explicit tags 2 and 5 and a shift on the outermost class. -/
def bfDemo : Ty :=
  .prod 0 (.cons 0 (.enum 1 [.lit 0, .lit 1, .lit 3]) (.cons 1 (.bit 2)
    (.cons 2 (.sum 3 (.cons 0 (.bv 4 8) (.cons 1 (.prod 5 (.cons 0 (.bv 6 2) .nil)) .nil))) .nil)))

def bfDemoEnv : BfEnv where
  off c := if c = 0 then 4 else 0
  tags c := if c = 3 then some [(0, 2), (1, 5)] else none

example : WF bfDemo ∧ Honest bfDemoEnv bfDemo ∧
    bfDemo.Has (.prod [.enum (.lit 3), .bit true, .sum 1 (.prod [.bits (BV.ofNat 2 3)])]) := by
  refine ⟨?_, ?_, ?_⟩
  · simp [bfDemo, WF, WFs, Fields.toList, autos]
  · simp only [bfDemo, Honest, Honests, Unshifted, bfDemoEnv, Fields.toList]
    refine ⟨⟨?_, ?_⟩, ⟨?_, ?_⟩, ⟨⟨?_, ?_, ?_⟩, ?_⟩, ?_⟩ <;> first | trivial | skip
    · intro e he
      simp only [List.mem_cons, List.not_mem_nil, or_false] at he
      rcases he with rfl | rfl | rfl
      · exact ⟨0, rfl, by decide⟩
      · exact ⟨1, rfl, by decide⟩
      · exact ⟨3, rfl, by decide⟩
    · intro tags h
      simp only [if_true, Option.some.injEq] at h
      subst h
      exact ⟨by simp, by decide, by decide⟩
  · simp [bfDemo, Ty.Has, Fields.HasAll, Fields.HasAt]

/-- `tag` takes a union and a dict (distinct keys) with one natural number for each option and for nothing else; afterwards the options of this class, and of
no other, have these tags. -/
theorem C21_tag (env : BfEnv) (c : Nat) (fs : Fields) (tags : List (Key × TagArg)) (hk : (tags.map (·.1)).Nodup) (hn : ∀ k n, (k, .int n) ∈ tags → 0 ≤ n) :
    ((∃ env', bfTag env tags (.sum c fs) = .ok env') ↔
      (∀ k, k ∈ tags.map (·.1) ↔ k ∈ fs.toList.map (·.1)) ∧ ∀ k x, (k, x) ∈ tags → ∃ n : Nat, x = .int n) ∧
    ∀ env', bfTag env tags (.sum c fs) = .ok env' → env'.off = env.off ∧ (∀ c', c' ≠ c → env'.tags c' = env.tags c') ∧
      (∀ k (n : Nat), (k, .int n) ∈ tags → bfInstkey env' c fs k = .ok n) ∧ (∀ p ∈ fs.toList, ∃ n, bfInstkey env' c fs p.1 = .ok n) ∧
      ∀ w, bfSumsize env' c fs ≤ w ↔ ∀ k (n : Nat), (k, .int n) ∈ tags → n < 2 ^ w := by
  have hneg : tags.any (fun p => p.2.isNeg) = false := by
    rw [← Bool.not_eq_true, List.any_eq_true]
    rintro ⟨⟨k, x⟩, hm, hx⟩
    cases x with
    | other => simp [TagArg.isNeg] at hx
    | int n => have := hn k n hm; simp [TagArg.isNeg] at hx; omega
  have hkeys : ((tags.map (·.1)).all (fun k => (fs.toList.map (·.1)).contains k) && (fs.toList.map (·.1)).all (fun k => (tags.map (·.1)).contains k)) = true ↔
      ∀ k, k ∈ tags.map (·.1) ↔ k ∈ fs.toList.map (·.1) := by
    simp only [Bool.and_eq_true, List.all_eq_true, List.contains_iff_mem]
    exact ⟨fun h k => ⟨h.1 k, h.2 k⟩, fun h => ⟨fun k => (h k).1, fun k => (h k).2⟩⟩
  have hint : tags.all (fun p => p.2.isInt) = true ↔ ∀ k x, (k, x) ∈ tags → ∃ n : Nat, x = .int n := by
    rw [List.all_eq_true]
    constructor
    · intro h k x hm
      cases x with
      | other => exact absurd (h _ hm) (by simp [TagArg.isInt])
      | int n => exact ⟨n.toNat, by rw [Int.toNat_of_nonneg (hn k n hm)]⟩
    · rintro h ⟨k, x⟩ hm
      obtain ⟨n, rfl⟩ := h k x hm
      rfl
  have hval : ∀ k (n : Nat), (k, TagArg.int n) ∈ tags →
      (tags.map (fun p => (p.1, p.2.toNat))).lookup k = some n := by
    intro k n hm
    clear hneg hkeys hint hn
    induction tags with
    | nil => cases hm
    | cons a l ih =>
      simp only [List.map_cons, List.nodup_cons] at hk
      rcases List.mem_cons.mp hm with h | h
      · subst h; simp [List.lookup, TagArg.toNat]
      · have : k ≠ a.1 := fun e => hk.1 (e ▸ List.mem_map_of_mem (f := (·.1)) h)
        simp only [List.map_cons, List.lookup, beq_eq_false_iff_ne.mpr this]
        exact ih hk.2 h
  constructor
  · simp only [bfTag, hneg, Bool.false_eq_true, if_false]
    constructor
    · rintro ⟨e, h⟩
      split at h
      · cases h
      · next h1 =>
        split at h
        · cases h
        · next h2 => exact ⟨hkeys.mp (not_not.mp h1), hint.mp (not_not.mp h2)⟩
    · rintro ⟨h1, h2⟩
      rw [if_neg (not_not.mpr (hkeys.mpr h1)), if_neg (not_not.mpr (hint.mpr h2))]
      exact ⟨_, rfl⟩
  · intro env' h
    simp only [bfTag, hneg, Bool.false_eq_true, if_false] at h
    split at h
    · cases h
    · next h1 =>
      split at h
      · cases h
      · next h2 =>
        have h1 := hkeys.mp (not_not.mp h1)
        have h2 := hint.mp (not_not.mp h2)
        cases h
        have hik : ∀ k (n : Nat), (k, TagArg.int n) ∈ tags →
            bfInstkey { env with tags := fun c' => if c' = c then some (tags.map (fun p => (p.1, p.2.toNat))) else env.tags c' } c fs k = .ok n := by
          intro k n hm
          simp only [bfInstkey, if_true, hval k n hm]
        refine ⟨rfl, fun c' hc => if_neg hc, hik, ?_, ?_⟩
        · intro p hp
          obtain ⟨q, hq, e⟩ := List.mem_map.mp ((h1 p.1).mpr (List.mem_map_of_mem hp))
          obtain ⟨n, hx⟩ := h2 q.1 q.2 hq
          exact ⟨n, hik _ _ (by rw [← e, ← hx]; exact hq)⟩
        · intro w
          simp only [bfSumsize, if_true, clog2, Nat.add_sub_cancel, bitLength_le_iff]
          have hmax : ∀ (l : List Nat) (a : Nat), l.foldl max a < 2 ^ w ↔ a < 2 ^ w ∧ ∀ x ∈ l, x < 2 ^ w := by
            intro l
            induction l with
            | nil => simp
            | cons b l ih => intro a; simp only [List.foldl_cons, ih, List.forall_mem_cons, Nat.max_lt, and_assoc]
          rw [hmax]
          constructor
          · intro h k n hm
            exact h.2 n (List.mem_map.mpr ⟨(k, n), List.mem_map.mpr ⟨(k, .int n), hm, rfl⟩, rfl⟩)
          · intro h
            refine ⟨Nat.two_pow_pos w, ?_⟩
            intro x hx
            obtain ⟨q, hq, rfl⟩ := List.mem_map.mp hx
            obtain ⟨r, hr, rfl⟩ := List.mem_map.mp hq
            obtain ⟨n, hxn⟩ := h2 r.1 r.2 hr
            have := h r.1 n (by rw [← hxn]; exact hr)
            simpa [hxn, TagArg.toNat] using this

/-- Only unions can be tagged, and a missing or surplus option is refused. -/
theorem C21_tag_refused (env : BfEnv) (t : Ty) (tags : List (Key × TagArg)) :
    ((∀ c fs, t ≠ .sum c fs) → bfTag env tags t = .error .typeError) ∧
    (∀ c fs k, t = .sum c fs → (k ∈ tags.map (·.1) ↔ k ∉ fs.toList.map (·.1)) → bfTag env tags t = .error .valueError) := by
  constructor
  · intro h
    cases t with
    | sum c fs => exact absurd rfl (h c fs)
    | _ => rfl
  · rintro c fs k rfl h
    simp only [bfTag]
    rw [if_pos]
    simp only [Bool.and_eq_true, List.all_eq_true, List.contains_iff_mem]
    rintro ⟨h1, h2⟩
    by_cases hk : k ∈ tags.map (·.1)
    · exact h.mp hk (h1 k hk)
    · exact hk (h2 k (by by_contra hc; exact hk (h.mpr hc)))

example : ∃ env', bfTag ⟨fun _ => 0, fun _ => none⟩ [(1, .int 5), (0, .int 2)] (.sum 3 (.cons 0 (.bv 1 2) (.cons 1 (.bit 2) .nil))) = .ok env' ∧
    bfInstkey env' 3 (.cons 0 (.bv 1 2) (.cons 1 (.bit 2) .nil)) 1 = .ok 5 ∧ bfSumsize env' 3 (.cons 0 (.bv 1 2) (.cons 1 (.bit 2) .nil)) = 3 :=
  ⟨_, rfl, rfl, rfl⟩

/-- An enum with members 0 and 5 is given one bit by `size` but occupies three: two different instructions get the same word. -/
theorem C21_violated_enum : ∃ env t v v', WF t ∧ t.Has v ∧ t.Has v' ∧ v ≠ v' ∧ ∃ n, bfEncode env false t v = .ok n ∧
    bfEncode env false t v' = .ok n := by
  refine ⟨⟨fun _ => 0, fun _ => none⟩, .prod 0 (.cons 0 (.enum 1 [.lit 0, .lit 5]) (.cons 1 (.bv 2 3) .nil)),
    .prod [.enum (.lit 5), .bits (BV.ofNat 3 0)], .prod [.enum (.lit 5), .bits (BV.ofNat 3 2)], ?_, ?_, ?_, ?_, 5, ?_, ?_⟩
  · simp [WF, WFs, Fields.toList, autos]
  · simp [Ty.Has, Fields.HasAll]
  · simp [Ty.Has, Fields.HasAll]
  · simp; decide
  · decide +kernel
  · decide +kernel

/-- The `tag` decorator accepts equal tags: two options then get the same word. -/
theorem C21_violated_tags : ∃ env t v v', WF t ∧ t.Has v ∧ t.Has v' ∧ v ≠ v' ∧ ∃ n, bfEncode env false t v = .ok n ∧
    bfEncode env false t v' = .ok n := by
  refine ⟨⟨fun _ => 0, fun _ => some [(0, 1), (1, 1)]⟩, .sum 0 (.cons 0 (.bv 1 2) (.cons 1 (.bv 2 2) .nil)),
    .sum 0 (.bits (BV.ofNat 2 3)), .sum 1 (.bits (BV.ofNat 2 3)), ?_, ?_, ?_, ?_, 7, ?_, ?_⟩
  · simp [WF, WFs, Fields.toList]
  · simp [Ty.Has, Fields.HasAt]
  · simp [Ty.Has, Fields.HasAt]
  · simp
  · decide +kernel
  · decide +kernel

/-- A `bitfield` shift on a class used as a field moves it into its neighbour. -/
theorem C21_violated_shift : ∃ env t v v', WF t ∧ t.Has v ∧ t.Has v' ∧ v ≠ v' ∧ ∃ n, bfEncode env false t v = .ok n ∧
    bfEncode env false t v' = .ok n := by
  refine ⟨⟨fun c => if c = 1 then 2 else 0, fun _ => none⟩, .prod 0 (.cons 0 (.bv 1 2) (.cons 1 (.bv 2 2) .nil)),
    .prod [.bits (BV.ofNat 2 1), .bits (BV.ofNat 2 0)], .prod [.bits (BV.ofNat 2 1), .bits (BV.ofNat 2 1)], ?_, ?_, ?_, ?_, 4, ?_, ?_⟩
  · simp [WF, WFs, Fields.toList]
  · simp [Ty.Has, Fields.HasAll]
  · simp [Ty.Has, Fields.HasAll]
  · simp; decide
  · decide +kernel
  · decide +kernel

/-- Somewhere in the value is a member of an Enum that was given no number (`new_instruction()`). -/
inductive Unnumbered : Val → Prop
  | here (i : Nat) : Unnumbered (.enum (.auto i))
  | field (vs : List Val) (v : Val) : v ∈ vs → Unnumbered v → Unnumbered (.prod vs)
  | option (k : Key) (v : Val) : Unnumbered v → Unnumbered (.sum k v)

mutual
theorem unnumbered_encode (env : BfEnv) (r : Bool) : ∀ (t : Ty) (v : Val) (n : Nat), Unnumbered v → bfEncode env r t v ≠ .ok n
  | .bit c, v, n, h => by cases h <;> simp [bfEncode]
  | .bv c w, v, n, h => by cases h <;> simp [bfEncode]
  | .enum c ms, v, n, h => by cases h <;> simp [bfEncode]
  | .prod c fs, v, n, h => by
    cases h with
    | here i => simp [bfEncode]
    | option k v h => simp [bfEncode]
    | field vs v hm h =>
      rw [bfEncode]
      cases r with
      | true =>
        simp only [if_true]
        cases he : bfRight env true fs vs (bfSizes env fs) 0 with
        | error e => simp
        | ok x => exact absurd he (unnumbered_right env true fs vs _ _ x ⟨v, hm, h⟩)
      | false =>
        simp only [Bool.false_eq_true, if_false]
        cases he : bfLeft env false fs vs 0 0 with
        | error e => simp
        | ok x => exact absurd he (unnumbered_left env false fs vs _ _ x ⟨v, hm, h⟩)
  | .sum c fs, v, n, h => by
    cases h with
    | here i => simp [bfEncode]
    | field vs v hm h => simp [bfEncode]
    | option k v h =>
      rw [bfEncode]
      cases bfInstkey env c fs k with
      | error e => simp
      | ok tag =>
        cases he : bfOption env r fs k v with
        | error e => simp
        | ok x => exact absurd he (unnumbered_option env r fs k v x h)
theorem unnumbered_left (env : BfEnv) (r : Bool) : ∀ (fs : Fields) (vs : List Val) (p w n : Nat), (∃ v ∈ vs, Unnumbered v) →
    bfLeft env r fs vs p w ≠ .ok n
  | .nil, [], p, w, n, h => by simp at h
  | .nil, v :: vs, p, w, n, h => by simp [bfLeft]
  | .cons k t fs, [], p, w, n, h => by simp at h
  | .cons k t fs, v :: vs, p, w, n, h => by
    rw [bfLeft]
    cases he : bfEncode env r t v with
    | error e => simp
    | ok x =>
      obtain ⟨u, hu, h⟩ := h
      rcases List.mem_cons.mp hu with rfl | hu
      · exact absurd he (unnumbered_encode env r t _ x h)
      · exact unnumbered_left env r fs vs _ _ n ⟨u, hu, h⟩
theorem unnumbered_right (env : BfEnv) (r : Bool) : ∀ (fs : Fields) (vs : List Val) (p w n : Nat), (∃ v ∈ vs, Unnumbered v) →
    bfRight env r fs vs p w ≠ .ok n
  | .nil, [], p, w, n, h => by simp at h
  | .nil, v :: vs, p, w, n, h => by simp [bfRight]
  | .cons k t fs, [], p, w, n, h => by simp at h
  | .cons k t fs, v :: vs, p, w, n, h => by
    rw [bfRight]
    cases he : bfEncode env r t v with
    | error e => simp
    | ok x =>
      obtain ⟨u, hu, h⟩ := h
      rcases List.mem_cons.mp hu with rfl | hu
      · exact absurd he (unnumbered_encode env r t _ x h)
      · exact unnumbered_right env r fs vs _ _ n ⟨u, hu, h⟩
theorem unnumbered_option (env : BfEnv) (r : Bool) : ∀ (fs : Fields) (k : Key) (v : Val) (n : Nat), Unnumbered v → bfOption env r fs k v ≠ .ok n
  | .nil, k, v, n, h => by simp [bfOption]
  | .cons k' t fs, k, v, n, h => by
    rw [bfOption]
    split
    · exact unnumbered_encode env r t v n h
    · exact unnumbered_option env r fs k v n h
end

/-- C21: a value with a member that was given no number is refused, however deep in the value the member is. -/
theorem C21_unnumbered (env : BfEnv) (reverse : Bool) (t : Ty) (v : Val) (h : Unnumbered v) : ∃ e, bfEncode env reverse t v = .error e := by
  cases he : bfEncode env reverse t v with
  | error e => exact ⟨e, rfl⟩
  | ok n => exact absurd he (unnumbered_encode env reverse t v n h)

/-- Such a member as an option of a union in a product, which is a value of its type. -/
example : Unnumbered (.prod [.bit true, .sum 1 (.enum (.auto 4))]) ∧
    (Ty.prod 0 (.cons 0 (.bit 0) (.cons 1 (.sum 1 (.cons 0 (.bit 0) (.cons 1 (.enum 2 [.auto 4]) .nil))) .nil))).Has (.prod [.bit true, .sum 1 (.enum (.auto 4))]) :=
  ⟨.field _ (.sum 1 (.enum (.auto 4))) (by simp) (.option _ _ (.here 4)), by simp [Ty.Has, Fields.HasAll, Fields.HasAt]⟩

end Peak
