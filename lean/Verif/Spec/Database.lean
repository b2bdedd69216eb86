import Verif.Model.Database

/-!
# Specification for C117: which parameter files a directory offers
-/

namespace Hotbit

/-- A chemical symbol: a capital letter, or a capital and a small letter. -/
def IsElementName (s : List Char) : Prop :=
  ∃ u : Char, u.isUpper = true ∧ (s = [u] ∨ ∃ l : Char, l.isLower = true ∧ s = [u, l])

/-- The file of an element in a directory. -/
def elmFile (p a : List Char) : List Char := p ++ '/' :: a ++ ['.', 'e', 'l', 'm']

/-- The skf file of two elements in a directory. -/
def skfFile (p a b : List Char) : List Char := p ++ '/' :: a ++ '-' :: b ++ ['.', 's', 'k', 'f']

/-- The directory `p` holds element files for exactly the symbols `els`. -/
def ElmDirectory (fs : FileSystem) (p : List Char) (els : List (List Char)) : Prop :=
  (∀ a ∈ els, IsElementName a) ∧ ∀ f, f ∈ fs.globElm p ↔ ∃ a ∈ els, f = elmFile p a

/-- The directory `p` holds skf files for exactly the pairs `prs`. -/
def SkfDirectory (fs : FileSystem) (p : List Char) (prs : List (List Char × List Char)) : Prop :=
  (∀ q ∈ prs, IsElementName q.1 ∧ IsElementName q.2) ∧ ∀ f, f ∈ fs.globSkf p ↔ ∃ q ∈ prs, f = skfFile p q.1 q.2

/-- The table a user expects for two elements: the file with the elements in this order, else the file
with the elements in the other order, else none. -/
def tableFor (fs : FileSystem) (p a b : List Char) : Option (List Char) :=
  if fs.pathExists (parPath p a b) then some (parPath p a b)
  else if fs.pathExists (parPath p b a) then some (parPath p b a)
  else none

end Hotbit
