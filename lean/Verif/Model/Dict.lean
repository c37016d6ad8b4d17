/-!
Python dictionaries as association lists in insertion order.
-/

namespace Verif

/-- A Python `dict`: key/value pairs in insertion order.  Every dictionary built by the operations
below from the empty one has distinct keys (`Dict.WF`). -/
abbrev Dict (α β : Type) := List (α × β)

namespace Dict
variable {α β : Type} [DecidableEq α]

/-- `d.get(k)`. -/
def get? : Dict α β → α → Option β
  | [], _ => none
  | (k', v) :: t, k => if k' = k then some v else get? t k

/-- `d[k] = v`: replace in place, or append at the end. -/
def set : Dict α β → α → β → Dict α β
  | [], k, v => [(k, v)]
  | (k', v') :: t, k, v => if k' = k then (k', v) :: t else (k', v') :: set t k v

/-- `k in d`. -/
def has (d : Dict α β) (k : α) : Bool := (get? d k).isSome

/-- `list(d)`. -/
def keys (d : Dict α β) : List α := d.map Prod.fst

/-- `list(d.values())`. -/
def values (d : Dict α β) : List β := d.map Prod.snd

/-- The keys of a Python dictionary are distinct. -/
def WF (d : Dict α β) : Prop := (d.map Prod.fst).Nodup

instance (d : Dict α β) : Decidable (WF d) := inferInstanceAs (Decidable (List.Nodup _))

end Dict

/-- A Python `Counter` with nonnegative counts. -/
abbrev Counter (α : Type) := Dict α Nat

/-- `counter[k]` (missing keys count zero). -/
def Counter.count {α : Type} [DecidableEq α] (d : Counter α) (k : α) : Nat :=
  (Dict.get? d k).getD 0

/-- `counter[k] += n`. -/
def Counter.incr {α : Type} [DecidableEq α] (d : Counter α) (k : α) (n : Nat) : Counter α :=
  Dict.set d k (Counter.count d k + n)

end Verif
