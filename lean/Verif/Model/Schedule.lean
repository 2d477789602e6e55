import Verif.Model.Wrappers
import Mathlib.Data.List.Sort

/-!
# `schedule.py`

Counts are integers.  In the code they are int32 arrays; the subtractions `count - transition_begin`,
`step - boundary` do not overflow for `0 ≤ count < 2^31` and non-negative subtrahends, and are modelled
on `ℤ`.  A constructor that may raise returns `Res (Schedule α)`.
-/

namespace Optax

section
variable {α : Type} [Zero α] [One α] [Add α] [Sub α] [Mul α] [Div α] [Neg α] [JOps α]

/-- `constant_schedule` (`schedule.py:35-46`). -/
def constantSchedule (value : α) : Schedule α := fun _ => value

/-- `polynomial_schedule` (`schedule.py:49-89`). -/
def polynomialSchedule (initValue endValue power : α) (transitionSteps transitionBegin : ℤ) :
    Schedule α :=
  if transitionSteps ≤ 0 then fun _ => initValue
  else
    let begin_ := if transitionBegin < 0 then 0 else transitionBegin
    fun count =>
      let c := min (max (count - begin_) 0) transitionSteps
      let frac := 1 - JOps.ofInt c / JOps.ofInt transitionSteps
      (initValue - endValue) * JOps.pow frac power + endValue

/-- `linear_schedule` (`schedule.py:93-101`). -/
def linearSchedule (initValue endValue : α) (transitionSteps transitionBegin : ℤ) : Schedule α :=
  polynomialSchedule initValue endValue 1 transitionSteps transitionBegin

/-- `sorted(d.items())` for a dict with integer keys (distinct, so values are never compared) -/
def sortedItems {β : Type} (d : List (ℤ × β)) : List (ℤ × β) :=
  d.insertionSort (fun a b => a.1 ≤ b.1)

/-- `piecewise_constant_schedule` (`schedule.py:104-133`); `boundaries_and_scales=None` behaves as `{}`.
The dict is given as the list of its items. -/
def piecewiseConstantSchedule (initValue : α) (d : List (ℤ × α)) : Res (Schedule α) :=
  if d.all (fun x => JOps.le 0 x.2) then
    .ok (fun count =>
      (sortedItems d).foldl (fun v ts =>
        let indicator : α := JOps.max 0 (JOps.ofInt (ts.1 - count).sign)
        v * indicator + (1 - indicator) * ts.2 * v) initValue)
  else valueError

/-- `exponential_decay` (`schedule.py:136-204`). -/
def exponentialDecay (initValue : α) (transitionSteps : ℤ) (decayRate : α) (transitionBegin : ℤ)
    (staircase : Bool) (endValue : Option α) : Schedule α :=
  if transitionSteps ≤ 0 then fun _ => initValue
  else if JOps.eqb decayRate 0 then fun _ => initValue
  else
    let begin_ := if transitionBegin < 0 then 0 else transitionBegin
    fun count =>
      let decreased := count - begin_
      let p := JOps.ofInt decreased / JOps.ofInt transitionSteps
      let p := if staircase then JOps.floor p else p
      let v := if decreased ≤ 0 then initValue else initValue * JOps.pow decayRate p
      match endValue with
      | none => v
      | some e => if JOps.lt decayRate 1 then JOps.max v e else JOps.min v e

/-- `cosine_decay_schedule` (`schedule.py:207-235`). -/
def cosineDecaySchedule (initValue : α) (decaySteps : ℤ) (alpha : α) : Res (Schedule α) :=
  if decaySteps > 0 then
    .ok (fun count =>
      let c := min count decaySteps
      let cosineDecay := JOps.ofRat (1 / 2) *
        (1 + JOps.cos (JOps.pi * JOps.ofInt c / JOps.ofInt decaySteps))
      let decayed := (1 - alpha) * cosineDecay + alpha
      initValue * decayed)
  else valueError

/-- `_linear_interpolate` (`schedule.py:238-239`). -/
def linearInterpolate (start end_ pct : α) : α := (end_ - start) * pct + start

/-- `_cosine_interpolate` (`schedule.py:242-243`). -/
def cosineInterpolate (start end_ pct : α) : α :=
  end_ + (start - end_) / JOps.ofRat 2 * (JOps.cos (JOps.pi * pct) + 1)

/-- `jnp.cumprod` of `x :: xs` -/
def cumprod (x : α) : List α → List α
  | [] => [x]
  | y :: ys => x :: cumprod (x * y) ys

/-- the schedule built by `piecewise_interpolate_schedule` from the sorted items (`schedule.py:280-290`);
`bounds[:-1]`, `bounds[1:]`, `values[:-1]`, `values[1:]` zipped -/
def interpolate (f : α → α → α → α) (initValue : α) (items : List (ℤ × α)) : Schedule α :=
  let bounds : List ℤ := 0 :: items.map Prod.fst
  let values : List α := cumprod initValue (items.map Prod.snd)
  fun count =>
    ((List.zip (List.zip bounds.dropLast bounds.tail) (List.zip values.dropLast values.tail)).map
      (fun x =>
        let indicator : Bool := decide (x.1.1 ≤ count) && decide (count < x.1.2)
        let pct := JOps.ofInt (count - x.1.1) / JOps.ofInt (x.1.2 - x.1.1)
        boolNum indicator * f x.2.1 x.2.2 pct)).sum +
      boolNum (decide (bounds.getLastD 0 ≤ count)) * values.getLastD 0

/-- the choice of `interpolate_fn` (`schedule.py:266-271`) -/
def interpolateFn (interpolateType : String) : Res (α → α → α → α) :=
  if interpolateType = "linear" then .ok linearInterpolate
  else if interpolateType = "cosine" then .ok cosineInterpolate
  else valueError

/-- `piecewise_interpolate_schedule` (`schedule.py:246-290`). -/
def piecewiseInterpolateSchedule (interpolateType : String) (initValue : α) (d : List (ℤ × α)) :
    Res (Schedule α) := do
  let f ← interpolateFn interpolateType
  if (sortedItems d).all (fun x => JOps.le 0 x.2) then .ok (interpolate f initValue (sortedItems d))
  else valueError

/-- assignment `d[k] = v` on the items of a python dict: a repeated key keeps its position and gets the new
value -/
def dictSet {κ β : Type} [DecidableEq κ] (d : List (κ × β)) (k : κ) (v : β) : List (κ × β) :=
  if d.any (fun x => decide (x.1 = k)) then d.map (fun x => if x.1 = k then (k, v) else x)
  else d ++ [(k, v)]

/-- a dict display `{k1: v1, ...}`, or `d.update(items)` from a given `d` -/
def dictUpdate {κ β : Type} [DecidableEq κ] (d items : List (κ × β)) : List (κ × β) :=
  items.foldl (fun d x => dictSet d x.1 x.2) d

/-- python `int(x)` for a number: truncation towards 0 -/
def truncQ (q : ℚ) : ℤ := if 0 ≤ q then ⌊q⌋ else ⌈q⌉

/-- python division of floats: ZeroDivisionError -/
def pyDiv (a b : α) : Res α := if JOps.eqb b 0 then .error .zeroDiv else .ok (a / b)

/-- `linear_onecycle_schedule` (`schedule.py:293-332`).  The percentages are rationals: the rounding of
the float product in `int(pct * transition_steps)` is not modelled. -/
def linearOnecycleSchedule (transitionSteps : ℤ) (peakValue : α) (pctStart pctFinal : ℚ)
    (divFactor finalDivFactor : α) : Res (Schedule α) :=
  if transitionSteps ≤ 0 then valueError
  else do
    let initValue ← pyDiv peakValue divFactor
    let down ← pyDiv 1 divFactor
    let final ← pyDiv 1 finalDivFactor
    piecewiseInterpolateSchedule "linear" initValue
      (dictUpdate [] [(truncQ (pctStart * transitionSteps), divFactor),
        (truncQ (pctFinal * transitionSteps), down), (transitionSteps, final)])

/-- `cosine_onecycle_schedule` (`schedule.py:335-370`).  Same simplification as above. -/
def cosineOnecycleSchedule (transitionSteps : ℤ) (peakValue : α) (pctStart : ℚ)
    (divFactor finalDivFactor : α) : Res (Schedule α) :=
  if transitionSteps ≤ 0 then valueError
  else do
    let initValue ← pyDiv peakValue divFactor
    let final ← pyDiv 1 (divFactor * finalDivFactor)
    piecewiseInterpolateSchedule "cosine" initValue
      (dictUpdate [] [(truncQ (pctStart * transitionSteps), divFactor), (transitionSteps, final)])

/-- `join_schedules` (`schedule.py:373-391`).  An empty list of schedules raises IndexError, in the code
when the schedule is called. -/
def joinSchedules (schedules : List (Schedule α)) (boundaries : List ℤ) : Res (Schedule α) :=
  match schedules with
  | [] => .error .index
  | s0 :: rest => .ok (fun step =>
      (List.zip boundaries rest).foldl
        (fun output bs => if step < bs.1 then output else bs.2 (step - bs.1)) (s0 step))

/-- `warmup_cosine_decay_schedule` (`schedule.py:394-423`). -/
def warmupCosineDecaySchedule (initValue peakValue : α) (warmupSteps decaySteps : ℤ) (endValue : α) :
    Res (Schedule α) := do
  let alpha ← pyDiv endValue peakValue
  let cosine ← cosineDecaySchedule peakValue (decaySteps - warmupSteps) alpha
  joinSchedules [linearSchedule initValue peakValue warmupSteps 0, cosine] [warmupSteps]

/-- `warmup_exponential_decay_schedule` (`schedule.py:426-465`). -/
def warmupExponentialDecaySchedule (initValue peakValue : α) (warmupSteps transitionSteps : ℤ)
    (decayRate : α) (transitionBegin : ℤ) (staircase : Bool) (endValue : Option α) : Res (Schedule α) :=
  joinSchedules [linearSchedule initValue peakValue warmupSteps 0,
    exponentialDecay peakValue transitionSteps decayRate transitionBegin staircase endValue] [warmupSteps]

/-- keyword arguments of one cycle of `sgdr_schedule` -/
structure CosineKwargs (α : Type) where
  initValue : α
  peakValue : α
  warmupSteps : ℤ
  decaySteps : ℤ
  endValue : α

/-- the loop of `sgdr_schedule` (`schedule.py:486-489`) from step `step` -/
def sgdrLoop : ℤ → List (CosineKwargs α) → Res (List (Schedule α) × List ℤ)
  | _, [] => .ok ([], [])
  | step, kw :: rest => do
    let s ← warmupCosineDecaySchedule kw.initValue kw.peakValue kw.warmupSteps kw.decaySteps kw.endValue
    let r ← sgdrLoop (step + kw.decaySteps) rest
    return (s :: r.1, (step + kw.decaySteps) :: r.2)

/-- `sgdr_schedule` (`schedule.py:468-490`). -/
def sgdrSchedule (kwargs : List (CosineKwargs α)) : Res (Schedule α) := do
  let r ← sgdrLoop 0 kwargs
  joinSchedules r.1 r.2.dropLast

/-! ## `inject_hyperparams` -/

/-- an argument of the inner factory, as `inject_hyperparams` distinguishes them
(`schedule.py:568-577`): booleans, callables, numbers and anything else -/
inductive ArgVal (α β : Type) where
  | bool (b : Bool)
  | callable (f : Schedule α)
  | numeric (x : α)
  | other (x : β)

/-- the three groups of arguments -/
structure HpGroups (α β : Type) where
  sched : List (String × Schedule α)
  numeric : List (String × α)
  other : List (String × ArgVal α β)

/-- the loop grouping the bound arguments (`schedule.py:568-577`); argument names are distinct -/
def groupArgs {β : Type} (static : List String) : List (String × ArgVal α β) → HpGroups α β
  | [] => ⟨[], [], []⟩
  | (name, v) :: rest =>
    let r := groupArgs static rest
    if name ∈ static then { r with other := (name, v) :: r.other }
    else match v with
      | .bool b => { r with other := (name, .bool b) :: r.other }
      | .callable f => { r with sched := (name, f) :: r.sched }
      | .numeric x => { r with numeric := (name, x) :: r.numeric }
      | .other x => { r with other := (name, .other x) :: r.other }

/-- an inner factory: for the non-numeric arguments and the numeric hyperparameters, a transformation.
The type of its state does not depend on the arguments (in the code it is any python object). -/
structure Factory (α β : Type) where
  State : Type
  init : List (String × ArgVal α β) → List (String × α) → Params α → Res State
  update : List (String × ArgVal α β) → List (String × α) → Params α → State → Option (Params α) →
    Res (Params α × State)

/-- the transformation a factory builds -/
@[reducible] def Factory.build {β : Type} (F : Factory α β) (others : List (String × ArgVal α β))
    (hp : List (String × α)) : GT α where
  State := F.State
  init := F.init others hp
  update := F.update others hp

/-- `InjectHyperparamsState` (`schedule.py:500-504`). -/
structure InjectState (α σ : Type) where
  count : BitVec 32
  hyperparams : List (String × α)
  inner : σ

/-- `schedule_fn(count)` (`schedule.py:579-580`) -/
def scheduleFn (sched : List (String × Schedule α)) (count : BitVec 32) : List (String × α) :=
  sched.map (fun kf => (kf.1, kf.2 count.toInt))

/-- the transformation returned by `inject_hyperparams(inner_factory, static_args)(*args, **kwargs)`
(`schedule.py:507-607`), given the bound arguments.  Conversions of dtypes (`_convert_floats`, `schedule.py:493-497`) are not
modelled here; Model/Dtype.lean has them. -/
@[reducible] def injectHyperparams {β : Type} (F : Factory α β) (static : List String)
    (args : List (String × ArgVal α β)) : GT α where
  State := InjectState α F.State
  init p := do
    let gr := groupArgs static args
    let hp := dictUpdate gr.numeric (scheduleFn gr.sched 0#32)
    let inner ← F.init gr.other hp p
    return ⟨0#32, hp, inner⟩
  update g s p := do
    let gr := groupArgs static args
    let countInc := safeInt32Increment s.count
    let hp := dictUpdate s.hyperparams (scheduleFn gr.sched countInc)
    let r ← F.update gr.other hp g s.inner p
    return (r.1, ⟨countInc, hp, r.2⟩)

end
end Optax
