import Verif.Model.ElementFiles

/-! # What a user expects of the files of element data -/

namespace Hotbit

/-- An absolute path starts with a slash and names the same file; no element has a slash in its
symbol. -/
structure ElmWorld.Sane {ρ : Type} (W : ElmWorld ρ) : Prop where
  abs : ∀ p, W.isfile p = true → ∃ q, W.abspath p = '/' :: q
  same : ∀ p, W.isfile p = true → W.isfile (W.abspath p) = true
  known : ∀ f s d, W.read f s = .ok d → '/' ∉ s

/-- The file given by the user for an element. -/
def customElm {ρ : Type} (E : Option (List (List Char × ElmVal ρ))) (s p : List Char) : Prop :=
  ∃ D, E = some D ∧ s ≠ restKey ∧ (s, ElmVal.path p) ∈ D

/-- No file is given by the user for an element. -/
def notCustomElm {ρ : Type} (E : Option (List (List Char × ElmVal ρ))) (s : List Char) : Prop :=
  ∀ D, E = some D → ∀ v, (s, v) ∈ D → s = restKey

/-- Other elements may be taken from the default directory. -/
def restAllowed {ρ : Type} (E : Option (List (List Char × ElmVal ρ))) : Prop :=
  ∀ D, E = some D → (restKey, ElmVal.path restDefault) ∈ D

/-- The file for an element: the one given by the user, otherwise `symbol.elm` in the default
directory. -/
def ElmFileFor {ρ : Type} (W : ElmWorld ρ) (E : Option (List (List Char × ElmVal ρ)))
    (s F : List Char) : Prop :=
  (∃ p, customElm E s p ∧ F = W.abspath p ∧ W.isfile p = true) ∨
  (notCustomElm E s ∧ restAllowed E ∧
    ∃ dir, W.params = some dir ∧ F = joinPath dir (s ++ elmExt) ∧ W.isfile F = true)

/-- Every file given by the user exists, and no value is an object. -/
def CustomsExist {ρ : Type} (W : ElmWorld ρ) (E : Option (List (List Char × ElmVal ρ))) : Prop :=
  ∀ D, E = some D → ∀ s v, (s, v) ∈ D → s ≠ restKey → ∃ p, v = .path p ∧ W.isfile p = true

/-- A dictionary has each key once. -/
def UniqueKeys {ρ : Type} (E : Option (List (List Char × ElmVal ρ))) : Prop :=
  ∀ D, E = some D → (D.map Prod.fst).Nodup

/-- A chemical symbol: a letter that is not lower case, perhaps followed by a lower case letter. -/
def IsElmSymbol (s : List Char) : Prop :=
  (∃ c, s = [c] ∧ c ≠ '/' ∧ c ≠ '.') ∨
  ∃ c d, s = [c, d] ∧ c ≠ '/' ∧ c ≠ '.' ∧ d.isLower = true

/-- The directory set last in a history. -/
def lastDir (env : Option (List Char)) : List DirEvent → Option (List Char)
  | [] => env
  | .new (some d) :: h => lastDir (some d) h
  | .new none :: h => lastDir env h
  | .setenv d :: h => lastDir (some d) h
  | .use _ :: h => lastDir env h

/-- The number of calculators made in a history. -/
def madeIn : List DirEvent → ℕ
  | [] => 0
  | .new _ :: h => madeIn h + 1
  | .setenv _ :: h => madeIn h
  | .use _ :: h => madeIn h

end Hotbit
