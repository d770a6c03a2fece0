import Verif.Model.BoxPe
/-!
# What the PE of `tests/test_black_box.py` shows after a history
-/

namespace Peak.BxPe

/-- The output last set for a black box; the history has the last operation first. -/
def lastOut (b : Box) : List Op → Option Word
  | [] => none
  | .set b' o :: past => if b' = b then some o else lastOut b past
  | _ :: past => lastOut b past

/-- The black boxes called up to and including `b`. -/
def upTo : Box → List Box
  | .one => [.one]
  | .two => [.one, .two]
  | .three => [.one, .two, .three]

/-- What a black box was last given: the word of the last call of the PE, inverted for the second one, at which it and the ones called before it had outputs. -/
def lastIn (b : Box) : List Op → Option Word
  | [] => none
  | .call _ x :: past => if ∀ b' ∈ upTo b, lastOut b' past ≠ none then some (if b = .two then ~~~ x else x) else lastIn b past
  | _ :: past => lastIn b past

end Peak.BxPe
