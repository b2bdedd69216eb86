import Verif.Model.Basic
import Mathlib.Algebra.BigOperators.Fin

/-!
# Charge mixers: `box/misc.py` (Anderson), `box/pulay.py`, `box/dummymixer.py`, `box/buildmixer.py`
-/

namespace Hotbit

/-- A vector of charges (numpy array of length `n`). -/
abbrev QVec (n : ℕ) := Fin n → ℝ

/-- `max(abs(v))` (Python raises for an empty vector; here the empty maximum is 0). -/
noncomputable def maxAbs {n : ℕ} (v : QVec n) : ℝ := (List.ofFn fun i => |v i|).foldr max 0

/-- `np.dot` of two vectors. -/
def dotQ {n : ℕ} (a b : QVec n) : ℝ := ∑ i, a i * b i

/-- Parameters of both mixers: `mixing_constant` (stored as `beta`), `memory`, `convergence`,
`chop`; `box/misc.py:18-22`, `box/pulay.py:11-18`, `box/dummymixer.py:9-13`. -/
structure MixerParams where
  beta : ℝ
  memory : ℕ
  convergence : ℝ
  chop : Option ℝ

/-- The damping at the end of both mixers, `box/misc.py:65-67`, `box/pulay.py:57-59`. -/
noncomputable def chopStep {n : ℕ} (p : MixerParams) (xi xb : QVec n) : QVec n :=
  match p.chop with
  | none => xb
  | some c => if c < maxAbs (xb - xi) then xi + (c / maxAbs (xb - xi)) • (xb - xi) else xb

/-- State of a mixer: call counter `it`, the residual and input histories (most recent first; only
the rows that are ever read are kept), and the list `fmax` (most recent first). -/
structure MixerState (n : ℕ) where
  it : ℕ := 0
  F : List (QVec n) := []
  x : List (QVec n) := []
  fmax : List ℝ := []

/-- `reset`, `box/dummymixer.py:16-18`; the arrays are zeroed by the next call. -/
def MixerState.reset {n : ℕ} : MixerState n := {}

/-- Simple mixing `(1-beta)*xi + beta*yi`, `box/misc.py:53`, `box/pulay.py:46`. -/
def simpleMix {n : ℕ} (p : MixerParams) (xi yi : QVec n) : QVec n :=
  (1 - p.beta) • xi + p.beta • yi

/-- `AndersonMixer.__call__`, `box/misc.py:30-83`. `solve A b` is `scipy.linalg.solve`
(`none` when it raises). The history rows used are the `M` previous calls. -/
noncomputable def andersonCall {n : ℕ} (p : MixerParams)
    (solve : {M : ℕ} → (Fin M → Fin M → ℝ) → (Fin M → ℝ) → Option (Fin M → ℝ))
    (s : MixerState n) (xi yi : QVec n) : Bool × QVec n × MixerState n :=
  let M := min s.it p.memory
  let F0 := yi - xi
  let Fh : Fin M → QVec n := fun j => s.F.getD j 0
  let xh : Fin M → QVec n := fun j => s.x.getD j 0
  let A := fun i j => dotQ (F0 - Fh i) (F0 - Fh j)
  let b := fun i => dotQ (F0 - Fh i) F0
  let xb := if M ≤ 1 then simpleMix p xi yi
    else match solve A b with
      | none => simpleMix p xi yi
      | some c => (xi + ∑ j, c j • (xh j - xi)) + p.beta • (F0 + ∑ j, c j • (Fh j - F0))
  let out := chopStep p xi xb
  let fmax := maxAbs F0
  (decide (fmax < p.convergence), out,
    { it := s.it + 1, F := (F0 :: s.F).take p.memory, x := (xi :: s.x).take p.memory,
      fmax := fmax :: s.fmax })

/-- `PulayMixer.__call__`, `box/pulay.py:28-66`. `inv A` is `np.linalg.inv` (`none` when it
raises). `lim = min(it,memory)` after incrementing `it`; row 0 is the present call. -/
noncomputable def pulayCall {n : ℕ} (p : MixerParams)
    (inv : {M : ℕ} → (Fin M → Fin M → ℝ) → Option (Fin M → Fin M → ℝ))
    (s : MixerState n) (xi yi : QVec n) : Bool × QVec n × MixerState n :=
  let lim := min (s.it + 1) p.memory
  let R0 := yi - xi
  let rho := (xi :: s.x).take p.memory
  let R := (R0 :: s.F).take p.memory
  let A : Fin lim → Fin lim → ℝ := fun i j => dotQ (R.getD j 0) (R.getD i 0)
  let xb := match inv A with
    | none => simpleMix p xi yi
    | some iA =>
      let down := ∑ i, ∑ j, iA i j
      let alfa := fun i => (∑ j, iA j i) / down
      ∑ i : Fin lim, alfa i • (rho.getD i 0 + p.beta • R.getD i 0)
  let out := chopStep p xi xb
  let fmax := maxAbs R0
  let hist := fmax :: s.fmax
  (decide (3 < s.it + 1) && (hist.take 3).all (fun f => decide (f < p.convergence)), out,
    { it := s.it + 1, F := R, x := rho, fmax := hist })

/-! ## `BuildMixer`, `box/buildmixer.py:6-18` -/

/-- The Python values that can be handed over as mixer options. -/
inductive PyVal
  | none
  | num (x : ℝ)
  | str (s : String)
  | other

/-- The argument of `BuildMixer`. A dict is its list of items (unique keys). -/
inductive MixerArg
  | none
  | str (name : String)
  | dict (items : List (String × PyVal))
  | other

/-- The mixer classes. -/
inductive MixerKind
  | pulay | anderson
  deriving DecidableEq, Repr

/-- `mixers[name.lower()]`. -/
def mixerClass (name : String) : Except Exn MixerKind :=
  if name.toLower = "pulay" then .ok .pulay
  else if name.toLower = "anderson" then .ok .anderson
  else .error .keyError

/-- Keyword arguments accepted by both constructors. -/
def mixerKeys : List String := ["mixing_constant", "memory", "convergence", "chop"]

/-- A constructed mixer: its class and the keyword arguments given (others have defaults). -/
structure BuiltMixer where
  kind : MixerKind
  kwargs : List (String × PyVal)

/-- `cls(**kw)`: an unknown keyword raises `TypeError`. -/
def constructMixer (k : MixerKind) (kw : List (String × PyVal)) : Except Exn BuiltMixer :=
  if kw.all (fun p => mixerKeys.contains p.1) then .ok ⟨k, kw⟩ else .error .typeError

/-- `BuildMixer(params)`, `box/buildmixer.py:6-18`. -/
def buildMixer : MixerArg → Except Exn BuiltMixer
  | .none => constructMixer .anderson []
  | .str name => do constructMixer (← mixerClass name) []
  | .dict items =>
    match items.lookup "name" with
    | some (.str s) => do
      constructMixer (← mixerClass s) (items.filter fun p => p.1 ≠ "name")
    | some _ => .error .attributeError
    | none => .error .exception
  | .other => .error .exception

end Hotbit
