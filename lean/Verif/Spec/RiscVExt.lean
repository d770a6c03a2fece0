import Verif.Model.RiscV
/-!
# Counting bits
-/

namespace Peak.RV

/-- The bits of a word, least significant first. -/
def bitsOf (w : Word) : List Bool := (List.range 32).map w.getLsbD

/-- Number of ones. -/
def ones (w : Word) : Nat := (bitsOf w).count true

/-- Number of zeros below the lowest one (32 if there is none). -/
def trailing (w : Word) : Nat := ((bitsOf w).takeWhile (· == false)).length

/-- Number of zeros above the highest one (32 if there is none). -/
def leading (w : Word) : Nat := ((bitsOf w).reverse.takeWhile (· == false)).length

end Peak.RV
