import Verif.Model.Basic

/-!
# What texts mean

Words separated by white space, Fortran records and the decimal notation of numbers, described
without reference to how the program reads them.
-/

namespace Hotbit

/-- A blank: space, tab, line end and the other ASCII separators. -/
def Blank (c : Char) : Prop := c.toNat = 32 ∨ (9 ≤ c.toNat ∧ c.toNat ≤ 13) ∨ (28 ≤ c.toNat ∧ c.toNat ≤ 31)

/-- `IsWords s ws`: the words of `s`, that is its maximal runs without blanks, are `ws`. -/
inductive IsWords : List Char → List (List Char) → Prop
  | blank (s : List Char) : (∀ c ∈ s, Blank c) → IsWords s []
  | word (pre w rest : List Char) (ws : List (List Char)) :
      (∀ c ∈ pre, Blank c) → w ≠ [] → (∀ c ∈ w, ¬ Blank c) →
      (∀ c, rest.head? = some c → Blank c) → IsWords rest ws → IsWords (pre ++ w ++ rest) (w :: ws)

/-- The value of a string of decimal digits. -/
def DigitsValue : List Char → ℕ → Prop := fun s n =>
  s ≠ [] ∧ (∀ c ∈ s, '0' ≤ c ∧ c ≤ '9') ∧
    n = (s.map (fun c => c.toNat - '0'.toNat)).foldl (fun v d => 10 * v + d) 0

/-- Separators of a Fortran record: blanks and commas. -/
def FSep (c : Char) : Prop := Blank c ∨ c = ','

/-- A Fortran exponent may be written with `d`. -/
def dToE (w : List Char) : List Char := w.map (fun c => if c = 'd' then 'e' else c)

/-- `FortranText num s vals`: the line `s` is a Fortran record with the values `vals`; `num w v` says
that the word `w` denotes the number `v`; `n*w` denotes `n` copies. -/
inductive FortranText {α : Type} (num : List Char → α → Prop) : List Char → List α → Prop
  | blank (s : List Char) : (∀ c ∈ s, FSep c) → FortranText num s []
  | one (pre w rest : List Char) (v : α) (vals : List α) :
      (∀ c ∈ pre, FSep c) → w ≠ [] → (∀ c ∈ w, ¬ FSep c ∧ c ≠ '*') → num (dToE w) v →
      (∀ c, rest.head? = some c → FSep c) → FortranText num rest vals →
      FortranText num (pre ++ w ++ rest) (v :: vals)
  | many (pre m w rest : List Char) (n : ℕ) (v : α) (vals : List α) :
      (∀ c ∈ pre, FSep c) → DigitsValue m n → (∀ c ∈ w, ¬ FSep c) → num (dToE w) v →
      (∀ c, rest.head? = some c → FSep c) → FortranText num rest vals →
      FortranText num (pre ++ m ++ '*' :: w ++ rest) (List.replicate n v ++ vals)

end Hotbit
