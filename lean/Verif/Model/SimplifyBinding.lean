import Verif.Model.AssembledADT
import Verif.Model.SmtForms
/-!
# `peak/mapper/utils.py:226-324`: `SimplifyBinding`, and `RewriteRule.build_inputs`

`sum` and `tagged_union` differ in the getter and the builder only and are one constructor of `Ty`; so are `product` and `tuple`.
-/

namespace Peak

/-- First component of a binding entry: an IR path (a tuple), `Unbound`, or a value (utils.py:241-262). -/
inductive BSrc
  | path (p : RPath)
  | unbound
  | val (x : AV)

/-- An entry of a binding: utils.py:241-262. -/
abbrev BEntry := BSrc × RPath

/-- `len(binding)==1 and binding[0][1] == ()` (utils.py:233). -/
def isLeafBinding : List BEntry → Bool
  | [(_, [])] => true
  | _ => false

/-- The loop of `tagged_or_sum` (utils.py:270-272). -/
def stripOption (k : Key) : List BEntry → Except Err (List BEntry)
  | [] => .ok []
  | (_, []) :: _ => .error .indexError
  | (s, k' :: p) :: b =>
    if k' = k then
      match stripOption k b with
      | .error e => .error e
      | .ok b' => .ok ((s, p) :: b')
    else .error .assertionError

/-- The keys of `sub_binding_dict`, in order of first appearance (utils.py:290-294). -/
def bindingFields (names : List Key) : List BEntry → List Key → Except Err (List Key)
  | [], acc => .ok acc
  | (_, []) :: _, _ => .error .indexError
  | (_, k :: _) :: b, acc =>
    if k ∈ names then bindingFields names b (if k ∈ acc then acc else acc ++ [k]) else .error .assertionError

/-- `sub_binding_dict[k]` (utils.py:289-294). -/
def subBinding (k : Key) : List BEntry → List BEntry
  | [] => []
  | (_, []) :: b => subBinding k b
  | (s, k' :: p) :: b => if k' = k then (s, p) :: subBinding k b else subBinding k b

/-- `simplify` for one field (utils.py:302): the field's value if its binding is one entry that is neither a path nor `Unbound`. -/
def fieldValue : List BEntry → Option AV
  | [(.val x, _)] => some x
  | _ => none

/-- The prefix put before the paths of a part: utils.py:284, 315. -/
def addPrefix (k : Key) (b : List BEntry) : List BEntry := b.map (fun e => (e.1, k :: e.2))

/-- The values of all fields, in declaration order: the arguments of `from_fields` (utils.py:304-311). -/
def fieldValues (rows : List (Key × List BEntry)) : List Key → Option (List AV)
  | [] => some []
  | k :: ks =>
    match (rows.lookup k).bind fieldValue, fieldValues rows ks with
    | some x, some xs => some (x :: xs)
    | _, _ => none

/-- An item of `simplified_binding_dict` (utils.py:301). -/
def dictItem (k : Key) : Except Err (List BEntry) → Except Err (Key × List BEntry)
  | .error e => .error e
  | .ok r => .ok (k, r)

mutual
/-- `SimplifyBinding()(aadt_t, binding)` (peak/mapper/utils.py:241-324). -/
def simplifyBinding (A : Ty → Except Err AsmObj) : Ty → List BEntry → Except Err (List BEntry)
  | .bv _ _, b => if isLeafBinding b then .ok b else .error .assertionError                     -- utils.py:245-247, 230-232
  | .bit _, b => if isLeafBinding b then .ok b else .error .assertionError
  | .enum _ _, b => if isLeafBinding b then .ok b else .error .assertionError                   -- utils.py:249-251
  | .sum c fs, b =>                                                                             -- utils.py:253-284
    if isLeafBinding b then .ok b
    else
      match b with
      | [] => .error .indexError
      | (_, []) :: _ => .error .indexError
      | (s, k :: p) :: b =>
        match stripOption k ((s, k :: p) :: b) with
        | .error e => .error e
        | .ok sub =>
          match simplifyAt A fs k sub with
          | .error e => .error e
          | .ok [(.val x, q)] =>
            if q = [] then
              match AV.fromOption A (.sum c fs) k (.asm x) none 0 with
              | .error e => .error e
              | .ok y => .ok [(.val y, [])]
            else .error .assertionError
          | .ok [(.unbound, q)] =>                                                              -- `Unbound` is not a tuple
            if q = [] then .error .typeError else .error .assertionError
          | .ok r => .ok (addPrefix k r)
  | .prod c fs, b =>                                                                            -- utils.py:287-324
    if isLeafBinding b then .ok b
    else
      match bindingFields (fs.toList.map (·.1)) b [] with
      | .error e => .error e
      | .ok order =>
        if order.length = fs.toList.length then
          match exMap (fun k => dictItem k (simplifyAt A fs k (subBinding k b))) order with
          | .error e => .error e
          | .ok rows =>
            match fieldValues rows (fs.toList.map (·.1)) with
            | some xs =>
              match AV.fromFields A (.prod c fs) (xs.map .asm) 0 with
              | .error e => .error e
              | .ok y => .ok [(.val y, [])]
            | none => .ok (rows.flatMap (fun r => addPrefix r.1 r.2))
        else .error .assertionError
/-- `self(aadt_t[k], sub)` (utils.py:300). -/
def simplifyAt (A : Ty → Except Err AsmObj) : Fields → Key → List BEntry → Except Err (List BEntry)
  | .nil, _, _ => .error .keyError
  | .cons k' t fs, k, b => if k = k' then simplifyBinding A t b else simplifyAt A fs k b
end

end Peak
