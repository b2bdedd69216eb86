import Verif.Spec.Text
import Verif.Model.Basic

/-!
# Files with lines `key=value` and data sets; shells of an atom
-/

namespace Hotbit

/-- `w` is `s` without the blanks around it. -/
def IsTrim (s w : List Char) : Prop :=
  ∃ pre post, s = pre ++ w ++ post ∧ (∀ c ∈ pre, Blank c) ∧ (∀ c ∈ post, Blank c) ∧
    (∀ c, w.head? = some c → ¬ Blank c) ∧ (∀ c, w.getLast? = some c → ¬ Blank c)

/-- The line `key = value` (blanks around the key do not matter); `value` is all text after the first
equals sign. -/
def KeyLine (key line value : List Char) : Prop :=
  ∃ k, line = k ++ '=' :: value ∧ '=' ∉ k ∧ IsTrim k key

/-- The line has the key. -/
def HasKey (key line : List Char) : Prop := ∃ v, KeyLine key line v

/-- A comment line. -/
def CommentLine (l : List Char) : Prop := ∃ pre rest, l = pre ++ '#' :: rest ∧ ∀ c ∈ pre, Blank c

/-- The rows of numbers at the beginning of a text, up to the first blank line or its end; comments
are left out.  `num w v`: the word `w` denotes the number `v`. -/
inductive NumberRows {α : Type} (num : List Char → α → Prop) : List (List Char) → List (List α) → Prop
  | fin : NumberRows num [] []
  | blank (l : List Char) (ls : List (List Char)) : (∀ c ∈ l, Blank c) → NumberRows num (l :: ls) []
  | comment (l : List Char) (ls : List (List Char)) (r : List (List α)) :
      CommentLine l → NumberRows num ls r → NumberRows num (l :: ls) r
  | row (l : List Char) (ls ws : List (List Char)) (v : List α) (r : List (List α)) :
      ¬ CommentLine l → IsWords l ws → ws ≠ [] → List.Forall₂ num ws v → NumberRows num ls r →
      NumberRows num (l :: ls) (v :: r)

/-- A data set: rows of numbers after any number of blank lines and comments. -/
inductive DataSet {α : Type} (num : List Char → α → Prop) : List (List Char) → List (List α) → Prop
  | blank (l : List Char) (ls : List (List Char)) (r : List (List α)) :
      (∀ c ∈ l, Blank c) → DataSet num ls r → DataSet num (l :: ls) r
  | comment (l : List Char) (ls : List (List Char)) (r : List (List α)) :
      CommentLine l → DataSet num ls r → DataSet num (l :: ls) r
  | rows (ls : List (List Char)) (r : List (List α)) : NumberRows num ls r → DataSet num ls r

/-- A text block: its lines without the blanks around them, up to the first blank line or its end;
comments are left out. -/
inductive TextRows : List (List Char) → List (List Char) → Prop
  | fin : TextRows [] []
  | blank (l : List Char) (ls : List (List Char)) : (∀ c ∈ l, Blank c) → TextRows (l :: ls) []
  | comment (l : List Char) (ls r : List (List Char)) :
      CommentLine l → TextRows ls r → TextRows (l :: ls) r
  | row (l w : List Char) (ls r : List (List Char)) :
      ¬ CommentLine l → IsTrim l w → w ≠ [] → TextRows ls r → TextRows (l :: ls) (w :: r)

/-- A text block with blank lines and comments before it. -/
inductive TextSet : List (List Char) → List (List Char) → Prop
  | blank (l : List Char) (ls r : List (List Char)) :
      (∀ c ∈ l, Blank c) → TextSet ls r → TextSet (l :: ls) r
  | rows (ls r : List (List Char)) : TextRows ls r → r ≠ [] → TextSet ls r
  | comment (l : List Char) (ls r : List (List Char)) :
      CommentLine l → TextSet ls r → TextSet (l :: ls) r

/-- Words for yes, in any letter case. -/
def YesWord (w : List Char) : Prop :=
  String.ofList (w.map Char.toLower) ∈ ["true", "t", "yes", "y"]

/-- Words for no, in any letter case. -/
def NoWord (w : List Char) : Prop :=
  String.ofList (w.map Char.toLower) ∈ ["false", "f", "no", "n"]

/-- The shells of an atom are one s shell, one s and one p shell, or one s, one p and one d shell, in
any order: names like `2s`. -/
def GoodShells (valence : List (List Char)) : Prop :=
  ∃ ls : List Char, (ls = ['s'] ∨ ls = ['s', 'p'] ∨ ls = ['s', 'p', 'd']) ∧
    ∃ names : List (List Char), valence.Perm names ∧
      List.Forall₂ (fun (l : Char) (o : List Char) => ∃ n : Char, n.isDigit = true ∧ o = [n, l]) ls names

/-- Energies of the basis orbitals named `types` agree with the energies of the shells: every orbital
has the energy of the shell with its letter (the first letter of its name). -/
def EnergiesMatch {α : Type} (valence : List (List Char)) (eps : List Char → α)
    (types : List (List Char)) (energies : List α) : Prop :=
  types.length = energies.length ∧
    ∀ i (h1 : i < types.length) (h2 : i < energies.length),
      ∃ n l, [n, l] ∈ valence ∧ types[i].head? = some l ∧ energies[i] = eps [n, l]

/-- The energy of a shell when there is one energy for each letter. -/
def letterEnergy {α : Type} (ed ep es : α) : List Char → α
  | [_, 's'] => es
  | [_, 'p'] => ep
  | _ => ed

end Hotbit
