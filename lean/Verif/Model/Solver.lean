import Verif.Model.Mixers

/-!
# The self-consistency loop: `Solver.get_states`, `hotbit/solver.py:61-100`
-/

namespace Hotbit

/-- What the loop calls: `solve dq` builds the electrostatic Hamiltonian for the charges (in SCC
mode), diagonalizes at all k-points and updates the states object (`solver.py:74-77`), any of which
may raise; `dqOut` are the resulting Mulliken charges (`st.get_dq()`); `mix` is the mixer call. -/
structure ScfEnv (St Q Mx : Type) where
  solve : Option Q → Except Exn St
  dqOut : St → Q
  mix : Mx → Q → Q → Bool × Q × Mx

/-- Result of the loop: the current states object, the charges the last Hamiltonian was built from,
number of diagonalizations, `self.iterations` if set, and the mixer. -/
structure ScfResult (St Q Mx : Type) where
  states : St
  charges : Q
  diagonalizations : ℕ
  iterations : Option ℕ
  mixer : Mx

variable {St Q Mx : Type}

/-- SCC iterations from number `i` with `fuel` left, `solver.py:72-97`. -/
def scfLoop (env : ScfEnv St Q Mx) (maxiter : ℕ) :
    ℕ → ℕ → St → Mx → Q → Except Exn (ScfResult St Q Mx)
  | 0, i, st, mx, dq => .ok ⟨st, dq, i, none, mx⟩
  | fuel + 1, i, _, mx, dq =>
    match env.solve (some dq) with
    | .error e => .error e
    | .ok st =>
      match env.mix mx dq (env.dqOut st) with
      | (done, dq', mx') =>
        if done then .ok ⟨st, dq, i + 1, some i, mx'⟩
        else if i = maxiter - 1 then .error .runtimeError
        else scfLoop env maxiter fuel (i + 1) st mx' dq'

/-- `get_states(calc,dq,H0,S)`, `solver.py:61-100`. `st0` is the states object before the call,
`mx0` the mixer after `reset()`. Output and timing are not modelled. -/
def getStates (env : ScfEnv St Q Mx) (scc : Bool) (maxiter : ℕ) (st0 : St) (mx0 : Mx) (dq : Q) :
    Except Exn (ScfResult St Q Mx) :=
  if scc then scfLoop env maxiter maxiter 0 st0 mx0 dq
  else if maxiter = 0 then .ok ⟨st0, dq, 0, none, mx0⟩
  else match env.solve none with
    | .error e => .error e
    | .ok st => .ok ⟨st, dq, 1, none, mx0⟩

end Hotbit
