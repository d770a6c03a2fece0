import Verif.Model.Basic
/-!
# `peak/mapper/index_var.py`

The SMT variable is modelled by its value in an assignment (a bit vector).
-/

namespace Peak

/-- `OneHot` (index_var.py:42-52) and `Binary` (54-67). -/
inductive IEnc
  | oneHot | binary
  deriving DecidableEq

/-- `var_len` (index_var.py:43-45, 55-57).  `len(bin(m)) - 2` is the bit length of `m`, except that `bin(0)` has one digit; for
zero entries `bin(-1)` is `"-0b1"`, of length 4. -/
def IEnc.varLen : IEnc → Nat → Nat
  | .oneHot, n => n
  | .binary, 0 => 2
  | .binary, n + 1 => if n = 0 then 1 else bitLength n

/-- `translate_index` (index_var.py:47-49, 59-61). -/
def IEnc.translate : IEnc → Nat → Nat → Nat
  | .oneHot, _, i => 2 ^ i
  | .binary, _, i => i

/-- `match_index` (index_var.py:12-15); `n` is `num_entries`, `var` the value of the variable, `i` any Python int. -/
def IEnc.matchIndex (e : IEnc) (n : Nat) (var : BV) (i : Int) : Except Err Bool :=
  if 0 ≤ i ∧ i < n then .ok (var.eqInt (e.translate n i.toNat)) else .error .valueError

/-- The loop of `decode` (index_var.py:17-21), from index `n - k` on. -/
def IEnc.decodeFrom (e : IEnc) (n : Nat) (v : Nat) : Nat → Except Err Nat
  | 0 => .error .valueError
  | k + 1 => if v = e.translate n (n - (k + 1)) then .ok (n - (k + 1)) else e.decodeFrom n v k

/-- `decode` (index_var.py:17-21); every caller passes the unsigned value of the solved variable (mapper.py:837-839). -/
def IEnc.decode (e : IEnc) (n : Nat) (v : Nat) : Except Err Nat := e.decodeFrom n v n

/-- `is_valid` (index_var.py:51-52, 63-67). -/
def IEnc.isValid : IEnc → Nat → BV → Bool
  | .oneHot, _, var => (var.and var.pred).eqInt 0 && !(var.eqInt 0)
  | .binary, n, var => if n = 2 ^ IEnc.varLen .binary n then true else decide (var.val < n % 2 ^ var.size)

end Peak
