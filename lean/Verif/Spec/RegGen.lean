import Verif.Model.RegGen
/-!
# What registers do
-/

namespace Peak.RG

variable {T I V : Type}

/-- What is stored after a history that begins with `v` stored: the value of the last enabled call, of the last call of a register without enable,
of the last poke with a value of the type — all on the register with number `n`. -/
def stored (E : Env T I V) (n : Nat) (t : T) : Kind → Option V → List (Op T I V) → Option V
  | _, v, [] => v
  | .enable, v, .call m (some x) (some true) :: ops => stored E n t .enable (if m = n then some x else v) ops
  | .plain, v, .call m x none :: ops => stored E n t .plain (if m = n then x else v) ops
  | .attr, v, .poke m x :: ops => stored E n t .attr (if m = n ∧ E.isT t x = true then some x else v) ops
  | k, v, _ :: ops => stored E n t k v ops

/-- Initial values that are the same key of a dictionary give the same value of every type. -/
def Coherent (E : Env T I V) : Prop := (∀ i, E.same i i = true) ∧ ∀ i j t, E.same i j = true → E.conv t i = E.conv t j

end Peak.RG
