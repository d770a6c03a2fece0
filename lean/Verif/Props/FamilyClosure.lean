import Verif.Model.FamilyClosure
/-!
# C25: family_closure memoises
-/

namespace Peak
namespace Fc
variable {κ : Type} {same : κ → κ → Bool}

structure Inv (s : FcState κ) : Prop where
  lt : ∀ e ∈ s.cache, e.2 < s.runs
  inj : ∀ e ∈ s.cache, ∀ e' ∈ s.cache, e.2 = e'.2 → e = e'

theorem inv_init : Inv (FcState.init κ) := ⟨by simp [FcState.init], by simp [FcState.init]⟩

theorem inv_call {s : FcState κ} (hs : Inv s) (k : κ) (ok : Bool) : Inv (s.call same k ok).1 := by
  unfold FcState.call
  split
  · exact hs
  · split
    · refine ⟨?_, ?_⟩
      · intro e he
        simp only [List.mem_append, List.mem_singleton] at he
        rcases he with he | rfl
        · have := hs.lt e he; simp only; omega
        · simp
      · intro e he e' he' h
        simp only [List.mem_append, List.mem_singleton] at he he'
        rcases he with he | rfl <;> rcases he' with he' | rfl
        · exact hs.inj e he e' he' h
        · have := hs.lt e he; simp only at h; omega
        · have := hs.lt e' he'; simp only at h; omega
        · rfl
    · exact ⟨fun e he => by have := hs.lt e he; simp only; omega, hs.inj⟩

theorem lookup_call {s : FcState κ} (k k' : κ) (ok : Bool) (x : Nat) (h : s.lookup same k = some x) :
    (s.call same k' ok).1.lookup same k = some x := by
  unfold FcState.call
  split
  · exact h
  · split
    · unfold FcState.lookup at h ⊢
      cases hf : s.cache.find? (fun e => same k e.1) with
      | none => simp [hf] at h
      | some e => simpa [List.find?_append, hf] using h
    · exact h

theorem result_lookup (hr : ∀ k, same k k = true) {s : FcState κ} (k : κ) (ok : Bool) (x : Nat)
    (h : (s.call same k ok).2.value = some x) : (s.call same k ok).1.lookup same k = some x := by
  unfold FcState.call at h ⊢
  split
  · next y hy => simp only [hy] at h ⊢; exact h
  · next hn =>
    simp only [hn] at h
    split
    · next hok =>
      simp only [hok, if_true] at h
      unfold FcState.lookup at hn ⊢
      simp only [Option.map_eq_none_iff] at hn
      simp only [List.find?_append, hn, Option.none_or]
      simpa [hr] using h
    · next hok => simp [hok] at h

theorem lookup_run (cs : List (κ × Bool)) {s : FcState κ} (k : κ) (x : Nat) (h : s.lookup same k = some x) :
    (s.run same cs).1.lookup same k = some x := by
  induction cs generalizing s with
  | nil => exact h
  | cons c cs ih => exact ih (lookup_call k c.1 c.2 x h)

theorem inv_run (cs : List (κ × Bool)) {s : FcState κ} (hs : Inv s) : Inv (s.run same cs).1 := by
  induction cs generalizing s with
  | nil => exact hs
  | cons c cs ih => exact ih (inv_call hs c.1 c.2)

theorem run_result (hr : ∀ k, same k k = true) (cs : List (κ × Bool)) (s : FcState κ) (i : Nat) (k : κ) (ok : Bool) (r : FcResult)
    (x : Nat) (hi : cs[i]? = some (k, ok)) (hres : (s.run same cs).2[i]? = some r) (hx : r.value = some x) :
    (s.run same cs).1.lookup same k = some x := by
  induction cs generalizing s i with
  | nil => simp at hi
  | cons c cs ih =>
    cases i with
    | zero =>
      simp only [List.getElem?_cons_zero, Option.some.injEq] at hi
      subst hi
      simp only [FcState.run, List.getElem?_cons_zero, Option.some.injEq] at hres ⊢
      subst hres
      exact lookup_run cs k x (result_lookup hr k ok x hx)
    | succ i =>
      simp only [List.getElem?_cons_succ] at hi
      simp only [FcState.run, List.getElem?_cons_succ] at hres ⊢
      exact ih _ i hi hres

theorem lookup_congr (hs : ∀ k k', same k k' = true → same k' k = true)
    (ht : ∀ k k' k'', same k k' = true → same k' k'' = true → same k k'' = true) (s : FcState κ) (k k' : κ)
    (h : same k k' = true) : s.lookup same k = s.lookup same k' := by
  unfold FcState.lookup
  have : (fun e : κ × Nat => same k e.1) = (fun e : κ × Nat => same k' e.1) := by
    funext e
    rw [Bool.eq_iff_iff]
    exact ⟨fun he => ht _ _ _ (hs _ _ h) he, fun he => ht _ _ _ h he⟩
  rw [this]

theorem lookup_inj (hs : ∀ k k', same k k' = true → same k' k = true)
    (ht : ∀ k k' k'', same k k' = true → same k' k'' = true → same k k'' = true) {s : FcState κ} (hinv : Inv s) (k k' : κ) (x : Nat)
    (h : s.lookup same k = some x) (h' : s.lookup same k' = some x) : same k k' = true := by
  unfold FcState.lookup at h h'
  simp only [Option.map_eq_some_iff] at h h'
  obtain ⟨e, he, rfl⟩ := h
  obtain ⟨e', he', hx⟩ := h'
  have := hinv.inj e' (List.mem_of_find?_eq_some he') e (List.mem_of_find?_eq_some he) hx
  subst this
  exact ht _ _ _ (List.find?_some he :) (hs _ _ (List.find?_some he' :))

theorem run_length (cs : List (κ × Bool)) (s : FcState κ) : (s.run same cs).2.length = cs.length := by
  induction cs generalizing s with
  | nil => rfl
  | cons c cs ih => simp [FcState.run, ih]

theorem ran_of_lookup (cs : List (κ × Bool)) (s : FcState κ) (k' : κ) (x : Nat)
    (hs : ∀ k k', same k k' = true → same k' k = true)
    (ht : ∀ k k' k'', same k k' = true → same k' k'' = true → same k k'' = true)
    (h : s.lookup same k' = some x) (j : Nat) (k : κ) (ok : Bool) (r : FcResult)
    (hj : cs[j]? = some (k, ok)) (hres : (s.run same cs).2[j]? = some r) (hk : same k' k = true) : r = ⟨some x, false⟩ := by
  induction cs generalizing s j with
  | nil => simp at hj
  | cons c cs ih =>
    cases j with
    | zero =>
      simp only [List.getElem?_cons_zero, Option.some.injEq] at hj
      subst hj
      simp only [FcState.run, List.getElem?_cons_zero, Option.some.injEq] at hres
      subst hres
      rw [lookup_congr hs ht s k' k hk] at h
      simp [FcState.call, h]
    | succ j =>
      simp only [List.getElem?_cons_succ] at hj
      simp only [FcState.run, List.getElem?_cons_succ] at hres
      exact ih _ (lookup_call k' c.1 c.2 x h) j hj hres

end Fc

/-- Equality and hashing of the keys that occur is coherent: an equivalence relation. -/
structure Coherent {κ : Type} (same : κ → κ → Bool) : Prop where
  refl : ∀ k, same k k = true
  symm : ∀ k k', same k k' = true → same k' k = true
  trans : ∀ k k' k'', same k k' = true → same k' k'' = true → same k k'' = true

/-- C25, for keys with a coherent equality: in every sequence of calls of a closure, calls with equal keys that return give the same
object, calls with different keys give different objects, and once a call has returned, no later call with an equal key runs the
wrapped function again; even when the wrapped function raises at some of the calls. -/
theorem C25_memo {κ : Type} {same : κ → κ → Bool} (hc : Coherent same) (calls : List (κ × Bool)) (i j : Nat) (k k' : κ)
    (ok ok' : Bool) (r r' : FcResult) (x x' : Nat)
    (hi : calls[i]? = some (k, ok)) (hj : calls[j]? = some (k', ok'))
    (hr : ((FcState.init κ).run same calls).2[i]? = some r) (hr' : ((FcState.init κ).run same calls).2[j]? = some r')
    (hx : r.value = some x) (hx' : r'.value = some x') :
    (x = x' ↔ same k k' = true) := by
  have h1 := Fc.run_result hc.refl calls _ i k ok r x hi hr hx
  have h2 := Fc.run_result hc.refl calls _ j k' ok' r' x' hj hr' hx'
  constructor
  · rintro rfl
    exact Fc.lookup_inj hc.symm hc.trans (Fc.inv_run calls Fc.inv_init) k k' x h1 h2
  · intro h
    rw [Fc.lookup_congr hc.symm hc.trans _ k k' h] at h1
    rw [h1] at h2
    simpa using h2

theorem C25_once {κ : Type} {same : κ → κ → Bool} (hc : Coherent same) (calls : List (κ × Bool)) (s : FcState κ) (i j : Nat)
    (hij : i < j) (k k' : κ) (ok ok' : Bool) (r r' : FcResult) (x : Nat)
    (hi : calls[i]? = some (k, ok)) (hj : calls[j]? = some (k', ok')) (hk : same k k' = true)
    (hr : (s.run same calls).2[i]? = some r) (hr' : (s.run same calls).2[j]? = some r') (hx : r.value = some x) :
    r' = ⟨some x, false⟩ := by
  induction calls generalizing s i j with
  | nil => simp at hi
  | cons c cs ih =>
    cases j with
    | zero => omega
    | succ j =>
      simp only [List.getElem?_cons_succ] at hj
      simp only [FcState.run, List.getElem?_cons_succ] at hr'
      cases i with
      | zero =>
        simp only [List.getElem?_cons_zero, Option.some.injEq] at hi
        subst hi
        simp only [FcState.run, List.getElem?_cons_zero, Option.some.injEq] at hr
        subst hr
        exact Fc.ran_of_lookup cs _ k x hc.symm hc.trans (Fc.result_lookup hc.refl k ok x hx) j k' ok' r' hj hr' hk
      | succ i =>
        simp only [List.getElem?_cons_succ] at hi
        simp only [FcState.run, List.getElem?_cons_succ] at hr
        exact ih _ i j (by omega) hi hj hr hr'

/-- A key as users of the shipped families build it: every family argument is an instance of one of the four shipped classes. -/
def Fam.Shipped (f : Fam) : Prop := f.cls = .py ∨ f.cls = .pyx ∨ f.cls = .smt ∨ f.cls = .magma

/-- The class hashes do not add up to PyFamily's hash 0. -/
def Hashes.NonZero (h : Hashes) : Prop := ∀ a b c, 2 * h.asm a + 3 * h.aadt b + 5 * h.extras c ≠ 0

/-- Two instances of shipped families stand for the same family: same kind and, but for PyFamily, same assembler, ADT and extras. -/
def Fam.Same (f g : Fam) : Prop :=
  f.cls = g.cls ∧ (f.cls ≠ .py → f.asm = g.asm ∧ f.aadt = g.aadt ∧ f.extras = g.extras)

/-- C25: for instances of the shipped families, dictionary equality is being the same family, in particular of the same kind, if the
hashes of assembling families are not 0 by accident. -/
theorem C25_family_key (h : Hashes) (hh : h.NonZero) (f g : Fam) (hf : f.Shipped) (hg : g.Shipped) :
    FcArg.same h (.fam f) (.fam g) = true ↔ f.Same g := by
  obtain ⟨c, a, b, e⟩ := f
  obtain ⟨c', a', b', e'⟩ := g
  simp only [Fam.Shipped] at hf hg
  have h1 := hh a b e
  have h2 := hh a' b' e'
  rcases hf with rfl | rfl | rfl | rfl <;> rcases hg with rfl | rfl | rfl | rfl <;>
    simp [FcArg.same, Fam.hash, Fam.eq, Fam.eqMethod, FamCls.isSub, FamCls.isAsm, Fam.Same, and_assoc, h1, Ne.symm h2] <;>
    (try (rintro rfl rfl rfl; rfl))

theorem Fc.sameList_refl {α : Type} {f : α → α → Bool} (hf : ∀ x, f x x = true) (l : List α) : sameList f l l = true := by
  induction l with
  | nil => rfl
  | cons x xs ih => simp [sameList, hf, ih]

theorem Fc.sameList_symm {α : Type} {f : α → α → Bool} (hf : ∀ x y, f x y = true → f y x = true) :
    ∀ l m : List α, sameList f l m = true → sameList f m l = true
  | [], [], _ => rfl
  | x :: xs, y :: ys, h => by
    simp only [sameList, Bool.and_eq_true] at h ⊢
    exact ⟨hf _ _ h.1, Fc.sameList_symm hf xs ys h.2⟩
  | [], _ :: _, h => by simp [sameList] at h
  | _ :: _, [], h => by simp [sameList] at h

theorem Fc.sameList_trans {α : Type} {f : α → α → Bool} (hf : ∀ x y z, f x y = true → f y z = true → f x z = true) :
    ∀ l m n : List α, sameList f l m = true → sameList f m n = true → sameList f l n = true
  | [], [], [], _, _ => rfl
  | x :: xs, y :: ys, z :: zs, h, h' => by
    simp only [sameList, Bool.and_eq_true] at h h' ⊢
    exact ⟨hf _ _ _ h.1 h'.1, Fc.sameList_trans hf xs ys zs h.2 h'.2⟩
  | [], [], _ :: _, _, h' => by simp [sameList] at h'
  | [], _ :: _, _, h, _ => by simp [sameList] at h
  | _ :: _, [], _, h, _ => by simp [sameList] at h
  | _ :: _, _ :: _, [], _, h' => by simp [sameList] at h'

/-- An argument whose families are shipped ones. -/
def FcArg.Shipped : FcArg → Prop
  | .fam f => f.Shipped
  | .val _ => True

/-- Keys over shipped families. -/
def ShippedKey : Type := { k : FcKey // (∀ a ∈ k.args, a.Shipped) ∧ ∀ p ∈ k.kwargs, p.2.Shipped }

def ShippedArg : Type := { a : FcArg // a.Shipped }

theorem Fc.arg_coherent (h : Hashes) (hh : h.NonZero) : Coherent (fun a b : ShippedArg => a.1.same h b.1) := by
  refine ⟨?_, ?_, ?_⟩
  · rintro ⟨a, ha⟩
    cases a with
    | fam f => exact (C25_family_key h hh f f ha ha).2 ⟨rfl, fun _ => ⟨rfl, rfl, rfl⟩⟩
    | val n => simp [FcArg.same]
  · rintro ⟨a, ha⟩ ⟨b, hb⟩ hab
    cases a <;> cases b <;> simp only at hab ⊢
    · next f g =>
      have := (C25_family_key h hh f g ha hb).1 hab
      exact (C25_family_key h hh g f hb ha).2 ⟨this.1.symm, fun hn => by
        have := this.2 (by rw [this.1]; exact hn); exact ⟨this.1.symm, this.2.1.symm, this.2.2.symm⟩⟩
    · simp [FcArg.same] at hab
    · simp [FcArg.same] at hab
    · simp only [FcArg.same, beq_iff_eq] at hab ⊢; exact hab.symm
  · rintro ⟨a, ha⟩ ⟨b, hb⟩ ⟨c, hcc⟩ hab hbc
    cases a <;> cases b <;> cases c <;> simp only at hab hbc ⊢ <;> try (simp [FcArg.same] at hab hbc; done)
    · next f g k =>
      have h1 := (C25_family_key h hh f g ha hb).1 hab
      have h2 := (C25_family_key h hh g k hb hcc).1 hbc
      refine (C25_family_key h hh f k ha hcc).2 ⟨h1.1.trans h2.1, fun hn => ?_⟩
      have h3 := h1.2 hn
      have h4 := h2.2 (by rw [← h1.1]; exact hn)
      exact ⟨h3.1.trans h4.1, h3.2.1.trans h4.2.1, h3.2.2.trans h4.2.2⟩
    · simp only [FcArg.same, beq_iff_eq] at hab hbc ⊢; exact hab.trans hbc

theorem Fc.sameList_map {α β : Type} (f : β → β → Bool) (g : α → β) (l m : List α) :
    sameList f (l.map g) (m.map g) = sameList (fun x y => f (g x) (g y)) l m := by
  induction l generalizing m with
  | nil => cases m <;> rfl
  | cons x xs ih => cases m with
    | nil => rfl
    | cons y ys => simp [sameList, ih]

theorem Fc.lift {P : FcArg → Prop} (l : List FcArg) (h : ∀ a ∈ l, P a) : ∃ m : List { a : FcArg // P a }, m.map (·.1) = l :=
  ⟨l.attach.map (fun a => ⟨a.1, h a.1 a.2⟩), by simp⟩

theorem Fc.lift_kw (l : List (String × FcArg)) (h : ∀ p ∈ l, p.2.Shipped) :
    ∃ m : List (String × ShippedArg), m.map (fun p => (p.1, p.2.1)) = l :=
  ⟨l.attach.map (fun p => (p.1.1, ⟨p.1.2, h p.1 p.2⟩)), by
    rw [List.map_map]
    exact List.attach_map_subtype_val l⟩

/-- C25: equality of the cache keys built from shipped families and plain values is coherent, so `C25_memo` and `C25_once` apply to
every sequence of calls of a family closure with such arguments. -/
theorem C25_shipped_keys_partial (h : Hashes) (hh : h.NonZero) : Coherent (fun k k' : ShippedKey => k.1.same h k'.1) := by
  have ca := Fc.arg_coherent h hh
  have cp : Coherent (fun x y : String × ShippedArg => x.1 == y.1 && x.2.1.same h y.2.1) := by
    refine ⟨fun x => ?_, fun x y hxy => ?_, fun x y z hxy hyz => ?_⟩
    · simp only [Bool.and_eq_true, beq_iff_eq]; exact ⟨trivial, ca.refl x.2⟩
    · simp only [Bool.and_eq_true, beq_iff_eq] at hxy ⊢; exact ⟨hxy.1.symm, ca.symm _ _ hxy.2⟩
    · simp only [Bool.and_eq_true, beq_iff_eq] at hxy hyz ⊢; exact ⟨hxy.1.trans hyz.1, ca.trans _ _ _ hxy.2 hyz.2⟩
  refine ⟨?_, ?_, ?_⟩
  · rintro ⟨⟨a, kw⟩, h1, h2⟩
    obtain ⟨a', rfl⟩ := Fc.lift a h1
    obtain ⟨kw', rfl⟩ := Fc.lift_kw kw h2
    simp only [FcKey.same, Fc.sameList_map, Bool.and_eq_true]
    exact ⟨Fc.sameList_refl ca.refl a', Fc.sameList_refl cp.refl kw'⟩
  · rintro ⟨⟨a, kw⟩, h1, h2⟩ ⟨⟨b, kv⟩, h3, h4⟩ hk
    obtain ⟨a', rfl⟩ := Fc.lift a h1
    obtain ⟨kw', rfl⟩ := Fc.lift_kw kw h2
    obtain ⟨b', rfl⟩ := Fc.lift b h3
    obtain ⟨kv', rfl⟩ := Fc.lift_kw kv h4
    simp only [FcKey.same, Fc.sameList_map, Bool.and_eq_true] at hk ⊢
    exact ⟨Fc.sameList_symm ca.symm _ _ hk.1, Fc.sameList_symm cp.symm _ _ hk.2⟩
  · rintro ⟨⟨a, kw⟩, h1, h2⟩ ⟨⟨b, kv⟩, h3, h4⟩ ⟨⟨c, ku⟩, h5, h6⟩ hk hk'
    obtain ⟨a', rfl⟩ := Fc.lift a h1
    obtain ⟨kw', rfl⟩ := Fc.lift_kw kw h2
    obtain ⟨b', rfl⟩ := Fc.lift b h3
    obtain ⟨kv', rfl⟩ := Fc.lift_kw kv h4
    obtain ⟨c', rfl⟩ := Fc.lift c h5
    obtain ⟨ku', rfl⟩ := Fc.lift_kw ku h6
    simp only [FcKey.same, Fc.sameList_map, Bool.and_eq_true] at hk hk' ⊢
    exact ⟨Fc.sameList_trans ca.trans _ _ _ hk.1 hk'.1, Fc.sameList_trans cp.trans _ _ _ hk.2 hk'.2⟩

/-- Hashes that are never 0 together exist. -/
example : (⟨fun _ => 1, fun _ => 1, fun _ => 1⟩ : Hashes).NonZero := by intro _ _ _; simp

/-- C25 fails for subclasses of PyFamily (as in tests/test_fc.py): two different kinds of families share a result. -/
theorem C25_violated_subclass (h : Hashes) :
    ∃ f g : Fam, f.cls ≠ g.cls ∧
      ((FcState.init FcKey).run (FcKey.same h) [(⟨[.fam f], []⟩, true), (⟨[.fam g], []⟩, true)]).2 =
        [⟨some 0, true⟩, ⟨some 0, false⟩] := by
  refine ⟨⟨.py, 0, 0, []⟩, ⟨.sub .py 0, 0, 0, []⟩, by decide, ?_⟩
  rfl

/-- C25 fails: equality of families is not transitive, and a call for PyFamily returns whichever subclass was built first. -/
theorem C25_violated_not_transitive (h : Hashes) :
    ∃ f g k : Fam, f.eq g = true ∧ g.eq k = true ∧ f.eq k = false ∧
      ((FcState.init FcKey).run (FcKey.same h)
        [(⟨[.fam f], []⟩, true), (⟨[.fam k], []⟩, true), (⟨[.fam g], []⟩, true)]).2 =
        [⟨some 0, true⟩, ⟨some 1, true⟩, ⟨some 0, false⟩] := by
  refine ⟨⟨.sub .py 0, 0, 0, []⟩, ⟨.py, 0, 0, []⟩, ⟨.sub .py 1, 0, 0, []⟩, by decide, by decide, by decide, ?_⟩
  rfl

/-- C25 fails: the same keyword arguments in another order are another key, so the function runs again and another object is
returned. -/
theorem C25_violated_kwargs (h : Hashes) :
    ((FcState.init FcKey).run (FcKey.same h)
      [(⟨[], [("x", .val 1), ("y", .val 2)]⟩, true), (⟨[], [("y", .val 2), ("x", .val 1)]⟩, true)]).2 =
      [⟨some 0, true⟩, ⟨some 1, true⟩] := by rfl

/-- PyFamily() == PyXFamily() holds although they are different kinds and their hashes differ: only the hashes keep them apart. -/
theorem C25_py_eq_pyx (a b : Nat) (e : List Nat) : Fam.eq ⟨.py, 0, 0, []⟩ ⟨.pyx, a, b, e⟩ = true ∧
    Fam.eq ⟨.pyx, a, b, e⟩ ⟨.py, 0, 0, []⟩ = true := by
  constructor <;> rfl

/-- A history with a raising run: the object built by the second run is returned from then on. -/
example (h : Hashes) : ((FcState.init FcKey).run (FcKey.same h)
    [(⟨[.val 3], []⟩, false), (⟨[.val 3], []⟩, true), (⟨[.val 4], []⟩, true), (⟨[.val 3], []⟩, true)]).2 =
    [⟨none, true⟩, ⟨some 1, true⟩, ⟨some 2, true⟩, ⟨some 1, false⟩] := by rfl

end Peak
