/-!
Python list helpers used by several parts of the model.
-/

namespace Verif

/-- Insert `x` before the first element that is not smaller. -/
def insertBy {α : Type} (le : α → α → Bool) (x : α) : List α → List α
  | [] => [x]
  | y :: ys => if le x y then x :: y :: ys else y :: insertBy le x ys

/-- Python's `sorted` / `list.sort`: stable sort.  (Python uses timsort; any stable sort gives the
same list when `le` is a total preorder.) -/
def sortBy {α : Type} (le : α → α → Bool) : List α → List α
  | [] => []
  | x :: xs => insertBy le x (sortBy le xs)

end Verif
