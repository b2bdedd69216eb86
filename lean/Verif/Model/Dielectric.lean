import Verif.Model.Analysis
import Mathlib.Analysis.SpecialFunctions.Trigonometric.Basic

/-!
# The dielectric function (`hotbit/aseinterface.py:636-701`)

Real and complex arithmetic instead of floating point.
-/

namespace Hotbit

open Classical

/-- What is read of the states of one k-point, `aseinterface.py:665-674`: energies, occupations, weight, wave functions (rows are
states) and derivatives of the overlap matrix. -/
structure KStates where
  e : List ℝ
  f : List ℝ
  wk : ℝ
  wf : ℕ → ℕ → ℂ
  dS : ℕ → ℕ → Fin 3 → ℂ

/-- `list(mask).index(True)`. -/
noncomputable def indexTrue (l : List ℝ) (p : ℝ → Prop) : Except Exn ℕ :=
  match l.findIdx? (fun x => decide (p x)) with
  | some i => .ok i
  | none => .error .valueError

/-- `P = 1j*hbar*np.dot(wfc[a],np.dot(dS,wf[b]))`, `aseinterface.py:687`, with `dS` transposed at line 671. -/
noncomputable def KStates.velocity (K : KStates) (hbar : ℝ) (a b : ℕ) (d : Fin 3) : ℂ :=
  Complex.I * hbar * ∑ i ∈ Finset.range K.e.length, (starRingEnd ℂ) (K.wf a i) * ∑ j ∈ Finset.range K.e.length, K.dS i j d * K.wf b j

/-- One pair of states, `aseinterface.py:682-689`. -/
noncomputable def KStates.pair (K : KStates) (hbar otol : ℝ) (a b : ℕ) : List (ℝ × (Fin 3 → ℝ)) :=
  let de := K.e.getD b 0 - K.e.getD a 0
  let df := K.f.getD a 0 - K.f.getD b 0
  if df < otol then [] else [(de, fun d => K.wk * df * ‖K.velocity hbar a b d‖ ^ 2)]

/-- `range(i,j+1)`. -/
def rangeIncl (i j : ℕ) : List ℕ := (List.range (j + 1 - i)).map (i + ·)

/-- The excitations from one state, `aseinterface.py:680-689`. -/
noncomputable def KStates.from_ (K : KStates) (hbar otol cutoff : ℝ) (bmin a : ℕ) : Except Exn (List (ℝ × (Fin 3 → ℝ))) := do
  let bmax ← indexTrue K.e fun x => x > K.e.getD a 0 + cutoff
  return (rangeIncl (max (a + 1) bmin) bmax).flatMap fun b => K.pair hbar otol a b

/-- The excitations of one k-point, `aseinterface.py:669-689`. -/
noncomputable def KStates.excitations (K : KStates) (hbar otol cutoff : ℝ) : Except Exn (List (ℝ × (Fin 3 → ℝ))) := do
  let bmin ← indexTrue K.f fun x => x < 2 - otol
  let amin ← indexTrue K.e fun x => x > K.e.getD bmin 0 - cutoff
  let amax ← indexTrue K.f fun x => x < otol
  let l ← (rangeIncl amin amax).mapM fun a => K.from_ hbar otol cutoff bmin a
  return l.flatten

/-- `aseinterface.py:691-700` for the excitations `ex`, `wt`; `ex.max()` of nothing raises `ValueError`. -/
noncomputable def dielectricBroaden (hbar hartree width cutoff : ℝ) (N : ℕ) (ex : List (ℝ × (Fin 3 → ℝ))) :
    Except Exn (List ℝ × (Fin 3 → List ℝ)) := do
  let top ← match (ex.map Prod.fst).max? with
    | some m => .ok m
    | none => .error .valueError
  let x ← broaden (ex.map Prod.fst) (some (ex.map fun p => p.2 0)) width .gaussian false N (some width) (some (min top cutoff)) none
  let y ← broaden (ex.map Prod.fst) (some (ex.map fun p => p.2 1)) width .gaussian false N (some width) (some (min top cutoff)) none
  let z ← broaden (ex.map Prod.fst) (some (ex.map fun p => p.2 2)) width .gaussian false N (some width) (some (min top cutoff)) none
  let fin := fun r : List ℝ × List ℝ => List.zipWith (fun v g => v / g ^ 2 * (4 * Real.pi ^ 2 / hbar)) r.2 r.1
  return (z.1.map (· * hartree), ![fin x, fin y, fin z])

/-- `get_dielectric_function(width,cutoff,N)`, `aseinterface.py:636-701`; `running` are the timers that run. The argument `width`
and `cutoff` are in eV. -/
noncomputable def dielectric (hbar hartree width : ℝ) (cutoff : Option ℝ) (N : ℕ) (ks : List KStates) (running : List String) :
    List String × Except Exn (List ℝ × (Fin 3 → List ℝ)) :=
  if "dielectric function" ∈ running then (running, .error .assertionError)
  else
    let c := match cutoff with
      | none => 1E10
      | some c => c / hartree
    match (ks.mapM fun K => K.excitations hbar 0.05 c) with
    | .error e => ("dielectric function" :: running, .error e)
    | .ok l =>
      match dielectricBroaden hbar hartree (width / hartree) c N l.flatten with
      | .error e => ("dielectric function" :: running, .error e)
      | .ok r => (running, .ok r)

end Hotbit
