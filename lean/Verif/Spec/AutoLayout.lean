import Verif.Model.AutoLayout
/-!
# Parts of a value
-/

namespace Peak.Auto

/-- `v'` of type `t'` is the part of the value `v` of type `t` at a path of field names and of the options that are there. -/
inductive Part : Ty → Val → List Key → Ty → Val → Prop
  | here {t : Ty} {v : Val} : Part t v [] t v
  | field {c : Nat} {fs : Fields} {vs : List Val} {i : Nat} {k : Key} {t : Ty} {v : Val} {p : List Key} {t' : Ty} {v' : Val} :
      fs.toList[i]? = some (k, t) → vs[i]? = some v → Part t v p t' v' → Part (.prod c fs) (.prod vs) (k :: p) t' v'
  | option {c : Nat} {fs : Fields} {k : Key} {t : Ty} {v : Val} {p : List Key} {t' : Ty} {v' : Val} :
      (k, t) ∈ fs.toList → Part t v p t' v' → Part (.sum c fs) (.sum k v) (k :: p) t' v'

end Peak.Auto
