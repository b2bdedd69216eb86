import Verif.Model.Basic

/-!
# `box/timing.py`: nested timers

Every call of `time()` is an input of the model: the functions take the clock reading as an argument.
-/

namespace Hotbit

/-- A timer with its child timers, `timing.py:30-61`. -/
inductive TNode where
  | mk (label : String) (running : Bool) (t1 elapsed : ℝ) (calls : ℕ) (kids : List TNode)

namespace TNode

def label : TNode → String | mk l _ _ _ _ _ => l
def running : TNode → Bool | mk _ r _ _ _ _ => r
def kids : TNode → List TNode | mk _ _ _ _ _ k => k

/-- `Timer(label)` at top level: created and started at time `now`, `timing.py:44-61`. -/
def root (label : String) (now : ℝ) : TNode := mk label true now 0 0 []

/-- `Timer(label, level=outmost.get_level()+1)`: not started. -/
def child (label : String) : TNode := mk label false 0 0 0 []

/-- `start()` without label, `timing.py:114-118` (raises if running: see `startLabel`). -/
def started (now : ℝ) : TNode → TNode
  | mk l _ _ e c k => mk l true now e c k

/-- `stop()` without label, `timing.py:131-137`. -/
def stopped (now : ℝ) : TNode → TNode
  | mk l _ t1 e c k => mk l false t1 (e + (now - t1)) (c + 1) k

mutual
/-- `get_timer(label)`, `timing.py:76-88`: depth first, the timer itself before its children. -/
def getTimer (l : String) : TNode → Option TNode
  | mk l' r t e c k => if l' = l then some (mk l' r t e c k) else getTimerL l k
def getTimerL (l : String) : List TNode → Option TNode
  | [] => none
  | t :: ts => match getTimer l t with
    | some x => some x
    | none => getTimerL l ts
end

mutual
/-- Changing, in place, the timer `get_timer(label)` returns (`none`: there is none). -/
def update (l : String) (g : TNode → TNode) : TNode → Option TNode
  | mk l' r t e c k =>
    if l' = l then some (g (mk l' r t e c k))
    else match updateL l g k with
      | some k' => some (mk l' r t e c k')
      | none => none
def updateL (l : String) (g : TNode → TNode) : List TNode → Option (List TNode)
  | [] => none
  | t :: ts => match update l g t with
    | some t' => some (t' :: ts)
    | none => match updateL l g ts with
      | some ts' => some (t :: ts')
      | none => none
end

mutual
/-- `get_outmost_running().add_subtimer(tr)` on a running timer, `timing.py:93-109`: go down through the
first running child as long as there is one; append there. -/
def addOutmost (new : TNode) : TNode → TNode
  | mk l r t e c k => match addOutmostL new k with
    | some k' => mk l r t e c k'
    | none => mk l r t e c (k ++ [new])
def addOutmostL (new : TNode) : List TNode → Option (List TNode)
  | [] => none
  | t :: ts =>
    if t.running then some (addOutmost new t :: ts)
    else match addOutmostL new ts with
      | some ts' => some (t :: ts')
      | none => none
end

/-- The timer of the label is made, inside the outmost running timer, if there is none,
`timing.py:121-125`. -/
def ensure (l : String) (T : TNode) : TNode := match T.getTimer l with
  | some _ => T
  | none => addOutmost (child l) T

/-- `start(label)` on the top-level timer, `timing.py:119-128`. -/
def start (l : String) (now : ℝ) (T : TNode) : Except Exn TNode :=
  if !T.running then .error .assertionError
  else
    match (ensure l T).getTimer l with
    | none => .error .attributeError   -- never: the new timer is found
    | some tr =>
      if tr.running then .error .assertionError
      else match (ensure l T).update l (started now) with
        | some T'' => .ok T''
        | none => .error .attributeError

/-- `stop(label)`, `timing.py:138-142`. -/
def stop (l : String) (now : ℝ) (T : TNode) : Except Exn TNode :=
  match T.getTimer l with
  | none => .error .assertionError
  | some tr =>
    if !tr.running then .error .assertionError
    else match T.update l (stopped now) with
      | some T'' => .ok T''
      | none => .error .attributeError

mutual
/-- `summary()`, `timing.py:144-168, 178-197`: `get_time` stops every timer that is still running (the
clock reading is taken to be the same for all). -/
def stopAll (now : ℝ) : TNode → TNode
  | mk l r t e c k =>
    if r then mk l false t (e + (now - t)) (c + 1) (stopAllL now k)
    else mk l r t e c (stopAllL now k)
def stopAllL (now : ℝ) : List TNode → List TNode
  | [] => []
  | t :: ts => stopAll now t :: stopAllL now ts
end

end TNode

/-- A call of the timer with the clock reading it takes. -/
inductive TEvent
  | start (l : String) (now : ℝ)
  | stop (l : String) (now : ℝ)

/-- Execute a list of calls; stops at the first exception. -/
def runTimer : List TEvent → TNode → Except Exn TNode
  | [], T => .ok T
  | .start l now :: es, T => do runTimer es (← T.start l now)
  | .stop l now :: es, T => do runTimer es (← T.stop l now)

end Hotbit
