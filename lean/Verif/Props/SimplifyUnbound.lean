import Verif.Lemmas.SimplifyUnbound
import Verif.Props.SimplifyBinding
/-!
# C38 for bindings with `Unbound` entries

`BindsU P η t r b`: the leaf binding `b` gives every leaf of `r` its bits or leaves it `Unbound`.  `GroupsU P η t r b b'`: `b'` gives parts of `r` their
values, each leaf of `r` is in one of them, and the `Unbound` entries are leaves that `b` leaves `Unbound`.  `LoneUnbound t b`: some union inside `t` has
a single entry of `b` below it, and this entry is `Unbound`.
-/

namespace Peak
open Peak.Spec

/-- C38, with `Unbound` entries, for the types whose values can be put together from fields: the call returns exactly when no union has an `Unbound` leaf
for its only leaf, and what it returns gives the same values, whatever the unbound leaves hold, and keeps these unbound. -/
theorem C38_unbound_partial (P : Process) (η : RPath → AV) (t : Ty) (hw : WF t) (hb : Buildable t) (r : RVal) (hr : RHas t r)
    (b : List BEntry) (h : BindsU P η t r b) :
    ((∃ b', simplifyBinding P.asm t b = .ok b') ↔ ¬ LoneUnbound t b) ∧
      ∀ b', simplifyBinding P.asm t b = .ok b' → GroupsU P η t r b b' := by
  obtain ⟨h1, h2⟩ := SU.simp_unbound P η t r b hw hb hr h
  constructor
  · constructor
    · rintro ⟨b', hb'⟩ hl
      obtain ⟨e, he⟩ := h2 hl
      rw [hb'] at he
      cases he
    · intro hl
      obtain ⟨b', hb', _⟩ := h1 hl
      exact ⟨b', hb'⟩
  · intro b' hb'
    by_cases hl : LoneUnbound t b
    · obtain ⟨e, he⟩ := h2 hl
      rw [hb'] at he
      cases he
    · obtain ⟨b'', hb'', hg⟩ := h1 hl
      rw [hb'] at hb''
      cases hb''
      exact hg

/-- The binding of `exBindRaw` with one leaf of the pair in the union `Unbound`. -/
def exBindingU : List BEntry :=
  [(.unbound, [1, 3, 5]), (.path [7], [0]), (.val (.bits (BV.ofNat 1 1)), [1, 3, 4])]

example : BindsU ⟨fun _ => []⟩ (fun _ => .bits (BV.ofNat 2 3)) exBindTy exBindRaw exBindingU ∧
    simplifyBinding (Process.asm ⟨fun _ => []⟩) exBindTy exBindingU =
      .ok [(.unbound, [1, 3, 5]), (.val (.bits (BV.ofNat 1 1)), [1, 3, 4]), (.path [7], [0])] := by
  refine ⟨⟨[([1, 3, 5], .bv 0 3, 6), ([0], .bv 0 2, 3), ([1, 3, 4], .bv 0 1, 1)], ?_, ?_⟩, ?_⟩
  · simp only [exBindTy, exBindRaw, rawLeaves, rawLeavesAll, rawLeavesAt]
    decide
  · exact .cons ⟨rfl, .inl rfl⟩ (.cons ⟨rfl, .inr ⟨_, rfl, rfl⟩⟩ (.cons ⟨rfl, .inr ⟨_, rfl, rfl⟩⟩ .nil))
  · rfl

/-- The union holding the bit, `Unbound`: the call raises. -/
example : LoneUnbound exBindTy [(.path [7], [0]), (.unbound, [1, 2])] :=
  ⟨[1], _, _, 2, [], rfl, rfl⟩

end Peak
