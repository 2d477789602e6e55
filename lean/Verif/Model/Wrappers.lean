import Verif.Model.Transform

/-!
# Model of `wrappers.py` and `lookahead.py`

`jnp.int64` counters are modelled as int32: without `jax_enable_x64` (the default) jax truncates the
requested dtype to int32.
-/

namespace Optax

section
variable {α : Type} [Zero α] [One α] [Add α] [Sub α] [Mul α] [Div α] [Neg α] [JOps α]

/-- `lax.cond` returning (updates, state).  Both branches are traced, so an exception in either
branch is raised whatever the predicate; the updates must agree in structure and shapes (TypeError).
Simplification: the corresponding check of the states is not modelled (states are opaque here). -/
def condUpd {S : Type} (c : Bool) (a b : Res (Params α × S)) : Res (Params α × S) := do
  let x ← a
  let y ← b
  if spec x.1 = spec y.1 then return (if c then x else y) else .error .type

/-! ## `flatten` (`wrappers.py:33-82`) -/

/-- `_flatten` (`wrappers.py:48-51`): `jnp.concatenate` of no arrays raises ValueError. -/
def flattenVec (p : Params α) : Res (Params α) :=
  match p.leaves with
  | [] => valueError
  | x :: xs =>
    let data := ((x :: xs).map Tensor.data).flatten
    .ok (.leaf ⟨[data.length], data⟩)

/-- `jnp.split(flat, offsets)` with the cumulative sizes, the last one deleted
(`wrappers.py:56-64`): the last piece is whatever is left. -/
def splitSizes {β : Type} : List ℕ → List β → List (List β)
  | [], _ => []
  | [_], xs => [xs]
  | n :: m :: ns, xs => xs.take n :: splitSizes (m :: ns) (xs.drop n)

/-- `_unflatten` (`wrappers.py:53-69`).  (`np.prod(update.shape)` is the size of the leaf.)  If the
inner transformation does not return an array, `jnp.split` raises TypeError. -/
def unflattenVec (updates flat : Params α) : Res (Params α) :=
  match flat with
  | .node _ _ => .error .type
  | .leaf v => do
    let pieces := splitSizes (updates.leaves.map (fun x => x.shape.prod)) v.data
    let reshaped ← (List.zip pieces updates.leaves).mapM
      (fun pu => (Tensor.mk [pu.1.length] pu.1).reshape pu.2.shape)
    PyTree.unflatten updates reshaped

/-- flattening of the optional params (`wrappers.py:76-77`) -/
def flattenArg : Option (Params α) → Res (Option (Params α))
  | none => .ok none
  | some p => do
    let q ← flattenVec p
    return some q

/-- `flatten(inner)` (`wrappers.py:33-82`). -/
@[reducible] def flatten (inner : GT α) : GT α where
  State := inner.State
  init p := do
    let flat ← flattenVec p
    inner.init flat
  update g s p := do
    let p' ← flattenArg p
    let fg ← flattenVec g
    let r ← inner.update fg s p'
    let u ← unflattenVec g r.1
    return (u, r.2)

/-! ## `apply_if_finite` (`wrappers.py:104-156`) -/

/-- `ApplyIfFiniteState` (`wrappers.py:85-101`). -/
structure ApplyIfFiniteState (S : Type) where
  notfiniteCount : BitVec 32
  lastFinite : Bool
  totalNotfinite : BitVec 32
  innerState : S

/-- `jnp.all(jnp.array([jnp.all(jnp.isfinite(p)) for p in flat_updates]))` (`wrappers.py:135-137`) -/
def allFinite (g : Params α) : Bool := g.leaves.all (fun x => x.data.all JOps.isfinite)

/-- `apply_if_finite(inner, max_consecutive_errors)` (`wrappers.py:104-156`). -/
@[reducible] def applyIfFinite (inner : GT α) (maxErr : ℤ) : GT α where
  State := ApplyIfFiniteState inner.State
  init p := do
    let s ← inner.init p
    return ⟨0#32, true, 0#32, s⟩
  update g s p := do
    let isfinite := allFinite g
    let nf := if isfinite then 0#32 else 1#32 + s.notfiniteCount
    let r ← condUpd (isfinite || decide (maxErr < nf.toInt))
      (inner.update g s.innerState p) (.ok (zerosLike g, s.innerState))
    return (r.1, ⟨nf, isfinite, (if isfinite then 0#32 else 1#32) + s.totalNotfinite, r.2⟩)

/-! ## `MultiSteps` (`wrappers.py:180-268`) -/

/-- `MultiStepsState` (`wrappers.py:163-177`). -/
structure MultiStepsState (α S : Type) where
  miniStep : BitVec 32
  gradientStep : BitVec 32
  innerOptState : S
  accGrads : Params α

/-- `MultiSteps(opt, every_k_schedule, use_grad_mean)` (`wrappers.py:180-268`) as a
`GradientTransformation` (`gradient_transformation`, `wrappers.py:267-268`).  `params` is dropped
(`wrappers.py:232`).  An int `every_k_schedule` is the constant function. -/
@[reducible] def multiSteps (opt : GT α) (everyK : ℤ → ℤ) (useGradMean : Bool) : GT α where
  State := MultiStepsState α opt.State
  init p := do
    let s ← opt.init p
    return ⟨0#32, 0#32, s, zerosLike p⟩
  update g s _ := do
    let k := everyK s.gradientStep.toInt
    let acc ← tzip (fun a b => a + b) g s.accGrads
    let finalStep : Res (Params α × MultiStepsState α opt.State) := do
      let gfu := if useGradMean then tmap (fun x => x / JOps.ofInt k) acc else acc
      let r ← opt.update gfu s.innerOptState none
      return (r.1, ⟨0#32, s.gradientStep + 1#32, r.2, zerosLike acc⟩)
    let midStep : Res (Params α × MultiStepsState α opt.State) :=
      .ok (zerosLike g, ⟨s.miniStep + 1#32, s.gradientStep, s.innerOptState, acc⟩)
    condUpd (decide (s.miniStep.toInt < k - 1)) midStep finalStep

/-- `MultiSteps.has_updated` (`wrappers.py:264-265`). -/
def hasUpdated {S : Type} (s : MultiStepsState α S) : Bool :=
  s.miniStep == 0#32 && decide (0 < s.gradientStep.toInt)

/-! ## `masked` (`wrappers.py:276-344`) -/

/-- `[p for p, m in zip(flat, flat_mask) if m]` (`wrappers.py:316`, `324`, `328`) -/
def selectMask {β : Type} (flat : List β) (m : List Bool) : List β :=
  ((flat.zip m).filter Prod.snd).map Prod.fst

/-- the loop replacing the selected entries by the next new one (`wrappers.py:338-339`) -/
def putBack {β : Type} : List Bool → List β → List β → Res (List β)
  | [], flat, _ => .ok flat
  | false :: ms, x :: xs, new => do
    let r ← putBack ms xs new
    return x :: r
  | true :: _, _ :: _, [] => .error .stopIteration
  | true :: ms, _ :: xs, y :: ys => do
    let r ← putBack ms xs ys
    return y :: r
  | _ :: _, [], _ => .error .index

/-- `bool(params)` in `if params:` (`wrappers.py:326`): `None` is false; python containers are true
iff non-empty; arrays of one entry are true iff the entry is non-zero, larger arrays raise ValueError. -/
def truthy : Option (Params α) → Res Bool
  | none => .ok false
  | some (.node _ cs) => .ok (!cs.isEmpty)
  | some (.leaf x) => match x.data with
    | [y] => .ok (!JOps.eqb y 0)
    | _ => .error .value

/-- `iter(new_masked_updates)` (`wrappers.py:337`): the children of the list the inner
transformation returns.  (If it returns an array python would iterate over rows; modelled as
TypeError.) -/
def iterChildren : Params α → Res (List (Params α))
  | .node _ cs => .ok cs
  | .leaf _ => .error .type

/-- the params handed to the inner transformation (`wrappers.py:326-330`) -/
def maskParamsArg (m : PyTree Bool) (p : Option (Params α)) : Res (Option (Params α)) := do
  let t ← truthy p
  match t, p with
  | true, some p => do
    let fp ← PyTree.flattenUpTo m p
    Except.ok (some (PyTree.node .list (selectMask fp m.leaves)))
  | _, _ => Except.ok none

/-- `masked(inner, mask)` (`wrappers.py:276-344`); a mask tree is the constant function.  `MaskedState`
(`wrappers.py:271-273`) has the one field `inner_state`. -/
@[reducible] def masked (inner : GT α) (mask : Params α → PyTree Bool) : GT α where
  State := inner.State
  init p := do
    let m := mask p
    let flat ← PyTree.flattenUpTo m p
    inner.init (.node .list (selectMask flat m.leaves))
  update g s p := do
    let m := mask g
    let flat ← PyTree.flattenUpTo m g
    let mg := PyTree.node .list (selectMask flat m.leaves)
    let mp ← maskParamsArg m p
    let r ← inner.update mg s mp
    let new ← iterChildren r.1
    let flat' ← putBack m.leaves flat new
    let u ← PyTree.unflatten m flat'
    return (u.join, r.2)

/-! ## `maybe_update` (`wrappers.py:353-392`) -/

/-- `MaybeUpdateState` (`wrappers.py:347-350`). -/
structure MaybeUpdateState (S : Type) where
  innerState : S
  step : BitVec 32

/-- `maybe_update(inner, should_update_fn)` (`wrappers.py:353-392`). -/
@[reducible] def maybeUpdate (inner : GT α) (should : ℤ → Bool) : GT α where
  State := MaybeUpdateState inner.State
  init p := do
    let s ← inner.init p
    return ⟨s, 0#32⟩
  update g s p := do
    let r ← condUpd (should s.step.toInt) (inner.update g s.innerState p) (.ok (g, s.innerState))
    return (r.1, ⟨r.2, s.step + 1#32⟩)

/-! ## `lookahead.py` -/

/-- `LookaheadState` (`lookahead.py:28-37`). -/
structure LookaheadState (S : Type) where
  fastState : S
  stepsSinceSync : BitVec 32

/-- `LookaheadParams(fast, slow)` (`lookahead.py:40-55`), a NamedTuple. -/
def lookaheadParams (fast slow : Params α) : Params α := .node (.named "LookaheadParams") [fast, slow]

/-- `LookaheadParams.init_synced` (`lookahead.py:57-60`). -/
def initSynced (p : Params α) : Params α := lookaheadParams p p

/-- the attributes `fast` and `slow` of params, if it is a `LookaheadParams` -/
def lookaheadView : Params α → Option (Params α × Params α)
  | .node (.named "LookaheadParams") [f, s] => some (f, s)
  | _ => none

/-- reading `params.fast` and `params.slow` (`lookahead.py:119-124`): AttributeError on `None` or a container
without these fields -/
def lookaheadArgs (p : Option (Params α)) : Res (Params α × Params α) :=
  match p.bind lookaheadView with
  | none => .error .attribute
  | some x => .ok x

/-- Leaves of optimiser states as `jax.tree_multimap` sees them: float arrays and int32 arrays. -/
inductive SLeaf (α : Type) where
  | num (t : Tensor α)
  | int (t : Tensor (BitVec 32))

/-- How the state of a transformation is laid out as a pytree (its registered flattening). -/
structure StateRep (S α : Type) where
  enc : S → PyTree (SLeaf α)
  dec : PyTree (SLeaf α) → Res S
  dec_enc : ∀ s, dec (enc s) = .ok s

/-- `lambda current, init: (1 - sync_next) * current + sync_next * init` (`lookahead.py:125-127`) -/
def blendLeaf (sync : Bool) : SLeaf α → SLeaf α → Res (SLeaf α)
  | .num c, .num i => do
    let r ← Tensor.bop (fun c i => (1 - boolNum sync) * c + boolNum sync * i) c i
    return .num r
  | .int c, .int i => do
    let b : BitVec 32 := if sync then 1#32 else 0#32
    let r ← Tensor.bop (fun c i => (1#32 - b) * c + b * i) c i
    return .int r
  | _, _ => .error .type

/-- `_lookahead_update` (`lookahead.py:135-191`). -/
def lookaheadUpdate (updates : Params α) (sync : Bool) (fast slow : Params α) (slowStep : α) :
    Res (Params α) := do
  let diff ← PyTree.zipM3 (fun f u s => do
    let fu ← Tensor.bop (fun a b => a + b) f u
    Tensor.bop (fun a b => a - b) fu s) fast updates slow
  let slowU := tmap (fun d => slowStep * boolNum sync * d) diff
  let fastU ← tzip (fun up d => up - boolNum sync * (1 - slowStep) * d) updates diff
  return lookaheadParams fastU slowU

/-- the optional reset of the fast state (`lookahead.py:121-127`) -/
def lookaheadReset {S : Type} (reset : Option (StateRep S α)) (sync : Bool) (cur : S) (init : Res S) :
    Res S :=
  match reset with
  | none => .ok cur
  | some rep => do
    let i ← init
    let t ← PyTree.zipM (blendLeaf sync) (rep.enc cur) (rep.enc i)
    rep.dec t

/-- `lookahead(fast_optimizer, sync_period, slow_step_size, reset_state)` (`lookahead.py:63-132`), after the
argument check.  `reset = some rep` is `reset_state=True` for a fast optimiser whose state is laid
out by `rep`.  Note that the fast optimiser is handed the whole `LookaheadParams` as params
(`lookahead.py:116-117`). -/
@[reducible] def lookahead (fast : GT α) (syncPeriod : ℤ) (slowStep : α)
    (reset : Option (StateRep fast.State α)) : GT α where
  State := LookaheadState fast.State
  init p := do
    let fp := match lookaheadView p with
      | some (f, _) => f
      | none => p
    let s ← fast.init fp
    return ⟨s, 0#32⟩
  update g s p := do
    let r ← fast.update g s.fastState p
    let sync : Bool := s.stepsSinceSync.toInt == syncPeriod - 1
    let x ← lookaheadArgs p
    let u ← lookaheadUpdate r.1 sync x.1 x.2 slowStep
    let fs ← lookaheadReset reset sync r.2 (fast.init x.1)
    return (u, ⟨fs, BitVec.ofInt 32 ((s.stepsSinceSync + 1#32).toInt.fmod syncPeriod)⟩)

/-- the `lookahead(...)` call with its argument check (`lookahead.py:95-96`) -/
def lookaheadCall (fast : GT α) (syncPeriod : ℤ) (slowStep : α)
    (reset : Option (StateRep fast.State α)) : Except Err (GT α) :=
  if syncPeriod < 1 then .error .value else .ok (lookahead fast syncPeriod slowStep reset)

end
end Optax
