import Verif.Model.Sparse

/-!
Model of `einsum`, `/repo/pyblock3/algebra/einsum.py:20-186`, with the `tensordot` and `transpose` of block-sparse tensors.

`char_map` is rewritten before each use, so it is written as a count of letters or a position.  `char_count` is a function to numbers.
`none` is an exception.  Python's `strip` is modelled for the six ASCII blanks.
-/

namespace Verif
namespace Einsum

/-- einsum.py:26-33: split at `,` and at `->`; the pieces, whether `->` was seen, and the rest. -/
def split (cur : List Char) : List Char → List (List Char) × Bool × List Char
  | [] => ([], false, cur)
  | ',' :: r =>
    let x := split [] r
    (cur :: x.1, x.2.1, x.2.2)
  | '-' :: '>' :: r =>
    let x := split [] r
    (cur :: x.1, true, x.2.2)
  | c :: r => split (cur ++ [c]) r

/-- Characters removed by `str.strip`. -/
def isBlank (c : Char) : Bool := c ∈ [' ', '\t', '\n', '\r', '\x0b', '\x0c']

/-- `s.strip()`. -/
def strip (s : List Char) : List Char := ((s.dropWhile isBlank).reverse.dropWhile isBlank).reverse

/-- einsum.py:47-49: empty characters. -/
def isEmptyChar (c : Char) : Bool := c ∈ [' ', '\t', '\n', '\r']

/-- einsum.py:51: illegal characters (an ellipsis is rejected by line 82). -/
def isIllegal (c : Char) : Bool := c ∈ ['-', '.', '>', '\x00']

variable {α : Type} [DecidableEq α]

/-- Positions of the letters with a property. -/
def positions (p : α → Bool) (s : List α) : List Nat := (List.range s.length).filter fun j => s[j]?.any p

/-- einsum.py:91-96: occurrences of each letter in all operands and in the result. -/
def charCount (ops : List (List α)) (result : List α) (c : α) : Nat := (ops.map (List.count c)).sum + result.count c

/-- einsum.py:98-129: no letter repeated in an operand (line 115), no letter that occurs nowhere else (line 129). -/
def checkOperands (cnt : α → Nat) (ops : List (List α)) : Bool :=
  ops.all fun ig => decide ig.Nodup && ig.all fun c => ig.count c ≠ cnt c

/-- einsum.py:160-166: `char_map[ig[x]]`, the position of the letter among the contracted letters of the first operand, or -1. -/
def sortKey (letters ig : List α) (x : Nat) : Int :=
  match ig[x]? with
  | some c => if c ∈ letters then (letters.idxOf c : Int) else -1
  | none => -1

section
variable {X : Type} (tensordot : X → X → List Nat → List Nat → Option X) (transpose : X → List Nat → X)

/-- einsum.py:131-175: one pass of the loop; state: script and array of the first operand, and `char_count`. -/
def step (s : List α) (A : X) (cnt : α → Nat) (ig : List α) (B : X) : Option (List α × X × (α → Nat)) :=
  let m := fun c => s.count c + ig.count c
  let ctr := fun c => decide (m c > 1) && decide (m c = cnt c)
  let br := fun c => decide (m c > 1) && !decide (m c = cnt c)
  let free := fun c => !decide (m c > 1)
  let idxa := positions ctr s
  let newsr := s.filter br
  let newss := s.filter free ++ ig.filter free
  let idxb := positions ctr ig
  if (positions br s).length ≠ 0 then none else
  if (positions br ig).length ≠ 0 then none else
  let letters := s.filter ctr
  let idxb := sortBy (fun x y => decide (sortKey letters ig x ≤ sortKey letters ig y)) idxb
  match tensordot A B idxa idxb with
  | none => none
  | some tmp => some (newsr ++ newss, tmp, fun c => if c ∈ letters then cnt c - 2 else cnt c)

/-- einsum.py:131-175: the loop over the operands after the first. -/
def loop (s : List α) (A : X) (cnt : α → Nat) : List (List α × X) → Option (List α × X)
  | [] => some (s, A)
  | (ig, B) :: rest =>
    match step tensordot s A cnt ig B with
    | none => none
    | some (s, A, cnt) => loop s A cnt rest

/-- einsum.py:176-186: the final transposition.  (A letter of the result that is not in the script, here `none`,
gives position -1 or `KeyError`; this cannot happen for checked operands.) -/
def finish (s : List α) (A : X) (result : List α) : Option X :=
  if s.length ≠ result.length then none
  else if s = result then some A
  else if result.all (· ∈ s) then some (transpose A (result.map fun c => s.idxOf c)) else none

/-- einsum.py:84-186: the scripts are split and cleaned. -/
def core (ops : List (List α)) (result : List α) (arrs : List X) : Option X :=
  if ops.length ≠ arrs.length then none
  else if !checkOperands (charCount ops result) ops then none
  else match ops.zip arrs with
    | [] => none
    | (s, A) :: rest =>
      match loop tensordot s A (charCount ops result) rest with
      | none => none
      | some (s, A) => finish transpose s A result

/-- einsum.py:20-186 `einsum`. -/
def einsum (script : List Char) (arrs : List X) : Option X :=
  let x := split [] script
  let ops := x.1.map strip
  if !x.2.1 then none
  else if ops.any (·.any isIllegal) then none
  else core tensordot transpose (ops.map (·.filter fun c => !isEmptyChar c)) (strip x.2.2) arrs

end

variable {Q K : Type} [DecidableEq Q] [Zero Q] [Add K] [Mul K] [Zero K]

/-- `tensordot=SparseTensor._tensordot`. -/
def spDot (A B : SpT Q K) (idxa idxb : List Nat) : Option (SpT Q K) :=
  SpT.tensordot A B (idxa.map fun (i : Nat) => (i : Int)) (idxb.map fun (i : Nat) => (i : Int))

/-- `transpose=SparseTensor._transpose`. -/
def spTranspose (A : SpT Q K) (perm : List Nat) : SpT Q K := A.transpose (some perm)

end Einsum
end Verif
