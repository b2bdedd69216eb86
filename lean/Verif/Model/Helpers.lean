import Verif.Model.Containers
import Verif.Model.Mix

/-!
# Small helpers of `box/mix.py` and `box/timing.py`
-/

namespace Hotbit

/-! ## `even_cpu_load`, `box/mix.py:20-67` -/

/-- The inner loop: take items until the load of this cpu exceeds `lim`; returns what was taken and what
is left. An item is a pair of its name and its time. -/
def fillCpu {α : Type} (lim : ℚ) (acc : ℕ) : List (α × ℕ) → List α × List (α × ℕ)
  | [] => ([], [])
  | (x, t) :: items =>
    if (lim < ((acc + t : ℕ) : ℚ)) then ([x], items)
    else
      let r := fillCpu lim (acc + t) items
      (x :: r.1, r.2)

/-- The loop over cpus; a cpu reached after all items are assigned keeps its empty list. -/
def fillCpus {α : Type} (lim : ℚ) : ℕ → List (α × ℕ) → List (List α)
  | 0, _ => []
  | n + 1, [] => [] :: fillCpus lim n []
  | n + 1, it :: items =>
    let r := fillCpu lim 0 (it :: items)
    r.1 :: fillCpus lim n r.2

/-- The items of `even_cpu_load(N,ncpu,power,indices)`: system sizes, or indices into `N`, in reversed
order, with their times. -/
def loadItems (N : List ℕ) (power : ℕ) (indices : Bool) : List (ℕ × ℕ) :=
  (N.zipIdx.reverse).map fun p => (if indices then p.2 else p.1, p.1 ^ power)

/-- `even_cpu_load`, `box/mix.py:20-67`. The warning about idle cpus is not modelled; integer overflow of
`N2**power` is not modelled; the average is computed exactly. -/
def evenCpuLoad (N : List ℕ) (ncpu power : ℕ) (indices : Bool) : Except Exn (List (List ℕ)) :=
  if N.length < ncpu then .error .assertionError
  else if ncpu = 0 then .error .zeroDivisionError
  else .ok (fillCpus ((((N.map (· ^ power)).sum : ℕ) : ℚ) / ncpu) ncpu (loadItems N power indices))

/-! ## Numbers -/

/-- `gcd(a,b)`, `box/mix.py:213-218`; `%` of Python integers is `Int.fmod`. -/
def pyGcd (a b : ℤ) : ℤ :=
  if _h : b = 0 then a else pyGcd b (a.fmod b)
termination_by b.natAbs
decreasing_by
  rcases lt_or_gt_of_ne _h with hb | hb
  · have h1 := Int.fmod_nonneg_of_pos (-a) (b := -b) (by omega)
    have h2 := Int.fmod_lt_of_pos (-a) (b := -b) (by omega)
    rw [Int.fmod_def] at h1 h2
    rw [Int.fmod_def]
    have h3 : (-a).fdiv (-b) = a.fdiv b := Int.neg_fdiv_neg a b
    rw [h3] at h1 h2
    have e : -a - -b * a.fdiv b = -(a - b * a.fdiv b) := by ring
    rw [e] at h1 h2
    omega
  · have h1 := Int.fmod_nonneg_of_pos a hb
    have h2 := Int.fmod_lt_of_pos a hb
    omega

/-- Python `x % m` for a positive modulus. -/
noncomputable def pyMod (x m : ℝ) : ℝ := x - m * ⌊x / m⌋

/-- `sec_to_time(secs)`, `box/mix.py:344-360`: days, hours, minutes, seconds. -/
noncomputable def secToTime (secs : ℝ) : ℤ × ℤ × ℤ × ℤ :=
  (pyInt ⌊secs / 86400⌋,
   pyInt ⌊pyMod secs 86400 / 3600⌋,
   pyInt ⌊pyMod secs 3600 / 60⌋,
   pyInt (pyMod secs 60 + 1 / 2))

/-- `Timer.human_readable_time(seconds)`, `box/timing.py:200-206`: hours, minutes, seconds as printed by
`%i` (Python 3: `/` is true division). -/
noncomputable def humanReadable (seconds : ℝ) : ℤ × ℤ × ℤ :=
  let s : ℝ := pyRound seconds
  let hours := s / 3600
  let s' := s - hours * 3600
  let mins := s' / 60
  let s'' := s' - mins * 60
  (pyInt hours, pyInt mins, pyInt s'')

/-! ## Strings (as lists of characters) -/

/-- `s.rfind(c)`: index of the last occurrence, −1 if there is none. -/
def rfind (c : Char) : List Char → ℤ
  | [] => -1
  | x :: xs => if 0 ≤ rfind c xs then rfind c xs + 1 else if x = c then 0 else -1

/-- `s[:i]`. -/
def sliceTo (s : List Char) (i : ℤ) : List Char :=
  if i < 0 then s.take (s.length - i.natAbs) else s.take i.toNat

/-- `s[i:]`. -/
def sliceFrom (s : List Char) (i : ℤ) : List Char :=
  if i < 0 then s.drop (s.length - i.natAbs) else s.drop i.toNat

/-- `base_and_extension(filename)`, `box/mix.py:339-342`. -/
def baseAndExtension (f : List Char) : List Char × List Char :=
  let i := rfind '.' f
  (sliceTo f i, sliceFrom f (i + 1))

/-- `add_file_appendix(file,app)`, `box/mix.py:803-815`. -/
def addFileAppendix (f app : List Char) : List Char :=
  let i := rfind '.' f
  if i < 0 then f ++ '_' :: app
  else sliceTo f i ++ '_' :: app ++ sliceFrom f i

/-- `select_vector_mode(vec,mode)`, `box/mix.py:398-421`: a list of 3-vectors (`inl`) or a flat array
(`inr`). For a flat array and mode 'default' the number of vectors is `len(vec)/3`, a float in Python 3,
and `range` of it raises `TypeError`. Other modes return `None`. -/
def selectVectorMode {α : Type} (v : List (List α) ⊕ List α) (mode : String) :
    Except Exn (Option (List (List α) ⊕ List α)) :=
  match v with
  | .inl l =>
    if mode = "default" then .ok (some (.inl l))
    else if mode = "global" then
      match l with
      | [] => .error .indexError
      | _ => .ok (some (.inr l.flatten))
    else .ok none
  | .inr a =>
    if mode = "global" then .ok (some (.inr a))
    else if mode = "default" then
      if a.length % 3 ≠ 0 then .error .assertionError else .error .typeError
    else .ok none

/-- Leading blanks of a line, `box/mix.py:371-377`. -/
def indentation (line : List Char) : ℕ := (line.takeWhile (· = ' ')).length

/-- The smallest indentation of the lines longer than one character (at most 100),
`box/mix.py:367-378`. -/
def minIndentation (lines : List (List Char)) : ℕ :=
  (lines.filter fun l => 1 < l.length).foldl (fun mn l => min (indentation l) mn) 100

/-- The lines of `clean_indentation(st)`, `box/mix.py:362-387`, before they are joined; leading empty
lines are dropped. -/
def cleanLines (lines : List (List Char)) : List (List Char) :=
  (lines.map (·.drop (minIndentation lines))).dropWhile (· = [])

/-- `parse_name_for_atoms(atoms)`, `box/mix.py:818-834`: symbols in order of first occurrence with their
number (omitted if one). (`if n not in dict` compares a number with symbols, so it is always true.) -/
def parseName (symbols : List String) : List (String × Option ℕ) :=
  (symbols.foldl (fun (d : List String) s => if s ∈ d then d else d ++ [s]) []).map fun s =>
    (s, if symbols.count s < 2 then none else some (symbols.count s))

/-- `rotation_from_matrix(R)`, `box/mix.py:232-254`, for the unit eigenvector `t` the diagonaliser returns
and the random vector `r`: the angle. -/
noncomputable def rotationAngle (R : Mat) (t r : Vec) : Except Exn ℝ :=
  let a0 := cross3 t r
  let a1 : Vec := fun i => a0 i / norm3 a0
  let b1 := cross3 t a1
  let a2 := R.mulVec a1
  phival (∑ i, a1 i * a2 i) (∑ i, a2 i * b1 i)

end Hotbit
