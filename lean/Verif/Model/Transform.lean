import Verif.Model.Base

/-!
# Model of `numerics.py`, `transform.py`, `clipping.py`, `constrain.py`, `update.py` and `global_norm`

Everything is polymorphic in the type `α` of array entries.  `jit`, dtypes and `.astype` casts to the entry
type itself are not modelled; the optional `accumulator_dtype` of `trace` and `ema` is modelled by
the rounding function of the cast.
-/

namespace Optax

/-! ## Array reductions (jax.numpy) -/

namespace Tensor
variable {α : Type}

/-- sum of all entries, `jnp.sum(x)` -/
def sum [Add α] [Zero α] (t : Tensor α) : α := t.data.sum

/-- `jnp.linalg.norm(x)` (Frobenius / flattened 2-norm) -/
def norm [Add α] [Zero α] [Mul α] [JOps α] (t : Tensor α) : α :=
  JOps.sqrt ((t.map (fun x => x * x)).sum)

/-- shape after a reduction over the axes `ax` with `keepdims=True` -/
def keepShape (ax : ℕ → Bool) (s : List ℕ) : List ℕ :=
  s.mapIdx (fun a d => if ax a then 1 else d)

/-- the flat indices of an array of shape `s` that a reduction to (keepdims) shape `s'` combines
into the flat index `i'` -/
def fiber (s s' : List ℕ) (i' : ℕ) : List ℕ :=
  (List.range s.prod).filter (fun j => bproj s s' j == i')

/-- `jnp.sum(x, axis=ax, keepdims=True)` -/
def sumKeep [Add α] [Zero α] (ax : ℕ → Bool) (t : Tensor α) : Tensor α :=
  tens (keepShape ax t.shape)
    (fun i' => ((fiber t.shape (keepShape ax t.shape) i').map (fun j => (t.data[j]?).getD 0)).sum)

/-- number of entries reduced into one, for the axes `ax` -/
def redSize (ax : ℕ → Bool) (s : List ℕ) : ℕ :=
  (s.mapIdx (fun a d => if ax a then d else 1)).prod

/-- `jnp.mean(x, axis=ax, keepdims=True)` -/
def meanKeep [Add α] [Zero α] [Div α] [JOps α] (ax : ℕ → Bool) (t : Tensor α) : Tensor α :=
  (sumKeep ax t).map (fun x => x / JOps.ofInt (redSize ax t.shape : ℤ))

end Tensor

/-! ## `numerics.py` -/

/-- `jnp.iinfo(jnp.int32).max` -/
def maxInt32 : BitVec 32 := 2147483647#32

/-- `safe_int32_increment` (`numerics.py:37-53`), on two's complement int32. -/
def safeInt32Increment (count : BitVec 32) : BitVec 32 :=
  if count.slt maxInt32 then count + 1#32 else maxInt32

section
variable {α : Type} [Zero α] [One α] [Add α] [Sub α] [Mul α] [Div α] [Neg α] [JOps α]

/-- `safe_norm` (`numerics.py:21-34`). -/
def safeNorm (x : Tensor α) (minNorm : α) : α :=
  let norm := x.norm
  let x' := if JOps.le norm minNorm then Tensor.fullLike x (1 : α) else x
  if JOps.le norm minNorm then minNorm else x'.norm

/-! ## `linear_algebra.py`: `global_norm` -/

/-- `global_norm` (`linear_algebra.py:25-28`). -/
def globalNorm (t : Params α) : α :=
  JOps.sqrt ((t.leaves.map (fun x => (x.map (fun y => y * y)).sum)).sum)

/-! ## `transform.py` -/

/-- int32 counter as a float -/
def cnt (c : BitVec 32) : α := JOps.ofInt c.toInt

/-- `_update_moment` (`transform.py:77-80`). -/
def updateMoment (updates moments : Params α) (decay : α) (order : ℕ) : Res (Params α) :=
  tzip (fun g t => (1 - decay) * ipow g order + decay * t) updates moments

/-- `_bias_correction` (`transform.py:83-86`). -/
def biasCorrection (moment : Params α) (decay : α) (count : BitVec 32) : Params α :=
  let bc := 1 - JOps.pow decay (cnt count)
  tmap (fun t => t / bc) moment

/-- `cast_tree` (`utils.py:38-43`); the dtype is represented by its rounding function. -/
def castTree (t : Params α) : Option (α → α) → Params α
  | none => t
  | some f => tmap f t

/-- `TraceState` (`transform.py:32-34`). -/
structure TraceState (α : Type) where
  trace : Params α

/-- `trace(decay, nesterov, accumulator_dtype)` (`transform.py:37-74`). -/
@[reducible] def trace (decay : α) (nesterov : Bool) (acc : Option (α → α) := none) : GT α where
  State := TraceState α
  init p := .ok ⟨castTree (zerosLike p) acc⟩
  update g s _ := do
    let newTrace ← tzip (fun g t => g + decay * t) g s.trace
    let u ← if nesterov then tzip (fun g t => g + decay * t) g newTrace else .ok newTrace
    return (u, ⟨castTree newTrace acc⟩)

/-- `EmaState` (`transform.py:89-92`). -/
structure EmaState (α : Type) where
  count : BitVec 32
  ema : Params α

/-- `ema(decay, debias, accumulator_dtype)` (`transform.py:95-133`).  Note that with
`debias=False` the code returns the incoming `updates` (`transform.py:128-131`). -/
@[reducible] def ema (decay : α) (debias : Bool) (acc : Option (α → α) := none) : GT α where
  State := EmaState α
  init p := .ok ⟨0#32, castTree (zerosLike p) acc⟩
  update g s _ := do
    let newEma ← updateMoment g s.ema decay 1
    let countInc := safeInt32Increment s.count
    let u := if debias then biasCorrection newEma decay countInc else g
    return (u, ⟨countInc, castTree newEma acc⟩)

/-- `ScaleByRssState` (`transform.py:136-138`). -/
structure RssState (α : Type) where
  sumOfSquares : Params α

/-- `jnp.where(t > 0, jax.lax.rsqrt(t + eps), 0.0)` -/
def invSqrtPos (eps t : α) : α := if JOps.lt 0 t then JOps.rsqrt (t + eps) else 0

/-- `scale_by_rss` (`transform.py:141-174`). -/
@[reducible] def scaleByRss (initialAcc eps : α) : GT α where
  State := RssState α
  init p := .ok ⟨fullLike p initialAcc⟩
  update g s _ := do
    let sos ← tzip (fun g t => g * g + t) g s.sumOfSquares
    let inv := tmap (invSqrtPos eps) sos
    let u ← tzip (fun sc g => sc * g) inv g
    return (u, ⟨sos⟩)

/-- `ScaleByRmsState` (`transform.py:177-179`). -/
structure RmsState (α : Type) where
  nu : Params α

/-- `scale_by_rms` (`transform.py:182-213`). -/
@[reducible] def scaleByRms (decay eps initialScale : α) : GT α where
  State := RmsState α
  init p := .ok ⟨fullLike p initialScale⟩
  update g s _ := do
    let nu ← updateMoment g s.nu decay 2
    let u ← tzip (fun g n => g * JOps.rsqrt (n + eps)) g nu
    return (u, ⟨nu⟩)

/-- `ScaleByRStdDevState` (`transform.py:216-219`). -/
structure StdDevState (α : Type) where
  mu : Params α
  nu : Params α

/-- `scale_by_stddev` (`transform.py:222-256`). -/
@[reducible] def scaleByStddev (decay eps initialScale : α) : GT α where
  State := StdDevState α
  init p := .ok ⟨zerosLike p, fullLike p initialScale⟩
  update g s _ := do
    let mu ← updateMoment g s.mu decay 1
    let nu ← updateMoment g s.nu decay 2
    let u ← PyTree.zipM3 (fun g m n => do
      let d ← Tensor.bop (fun n m => n - m * m) n m
      Tensor.bop (fun g d => g * JOps.rsqrt (d + eps)) g d) g mu nu
    return (u, ⟨mu, nu⟩)

/-- `ScaleByAdamState` / `ScaleByBeliefState` (`transform.py:259-263`, `333-337`). -/
structure AdamState (α : Type) where
  count : BitVec 32
  mu : Params α
  nu : Params α

/-- `scale_by_adam` (`transform.py:266-304`). -/
@[reducible] def scaleByAdam (b1 b2 eps epsRoot : α) : GT α where
  State := AdamState α
  init p := .ok ⟨0#32, zerosLike p, zerosLike p⟩
  update g s _ := do
    let mu ← updateMoment g s.mu b1 1
    let nu ← updateMoment g s.nu b2 2
    let countInc := safeInt32Increment s.count
    let muHat := biasCorrection mu b1 countInc
    let nuHat := biasCorrection nu b2 countInc
    let u ← tzip (fun m v => m / (JOps.sqrt (v + epsRoot) + eps)) muHat nuHat
    return (u, ⟨countInc, mu, nu⟩)

/-- `scale` (`transform.py:310-330`). -/
@[reducible] def scale (stepSize : α) : GT α := stateless (fun g _ => .ok (tmap (fun x => stepSize * x) g))

/-- `scale_by_belief` (`transform.py:340-379`).  The prediction error uses the *old* mean. -/
@[reducible] def scaleByBelief (b1 b2 eps epsRoot : α) : GT α where
  State := AdamState α
  init p := .ok ⟨0#32, zerosLike p, zerosLike p⟩
  update g s _ := do
    let mu ← updateMoment g s.mu b1 1
    let predErr ← tzip (fun g m => g - m) g s.mu
    let nu ← updateMoment predErr s.nu b2 2
    let countInc := safeInt32Increment s.count
    let muHat := biasCorrection mu b1 countInc
    let nuHat := biasCorrection nu b2 countInc
    let u ← tzip (fun m v => m / (JOps.sqrt (v + epsRoot) + eps)) muHat nuHat
    return (u, ⟨countInc, mu, nu⟩)

/-- `scale_by_yogi` (`transform.py:382-426`).  The signed square goes through
`_update_moment(..., 2)` and is squared again (`transform.py:416-418`). -/
@[reducible] def scaleByYogi (b1 b2 eps epsRoot initialAcc : α) : GT α where
  State := AdamState α
  init p := .ok ⟨0#32, fullLike p initialAcc, fullLike p initialAcc⟩
  update g s _ := do
    let mu ← updateMoment g s.mu b1 1
    let signedSq ← tzip (fun g v => JOps.sign (v - ipow g 2) * ipow g 2) g s.nu
    let nu ← updateMoment signedSq s.nu b2 2
    let countInc := safeInt32Increment s.count
    let muHat := biasCorrection mu b1 countInc
    let nuHat := biasCorrection nu b2 countInc
    let u ← tzip (fun m v => m / (JOps.sqrt (v + epsRoot) + eps)) muHat nuHat
    return (u, ⟨countInc, mu, nu⟩)

/-- `jax.lax.cond(pred, true_fun, false_fun, ...)` on trees of arrays: both branches are traced, so an exception
in either is an exception of the `cond`; the results must agree in structure and shapes (TypeError
otherwise). -/
def condTree {α : Type} (c : Bool) (a b : Res (Params α)) : Res (Params α) := do
  let x ← a
  let y ← b
  if spec x = spec y then return (if c then x else y) else .error .type

/-- `ro_inf` of `scale_by_radam` (`transform.py:453`). -/
def radamRoInf (b2 : α) : α := JOps.ofInt 2 / (1 - b2) - 1

/-- `ro` of `scale_by_radam` (`transform.py:473-474`).  `2 * count_inc` is an int32 product. -/
def radamRo (b2 : α) (countInc : BitVec 32) : α :=
  let b2t := JOps.pow b2 (cnt countInc)
  radamRoInf b2 - cnt (2#32 * countInc) * b2t / (1 - b2t)

/-- `r` of `scale_by_radam` (`transform.py:458`). -/
def radamR (b2 ro : α) : α :=
  let roInf := radamRoInf b2
  JOps.sqrt ((ro - JOps.ofInt 4) * (ro - JOps.ofInt 2) * roInf /
    ((roInf - JOps.ofInt 4) * (roInf - JOps.ofInt 2) * ro))

/-- `scale_by_radam` (`transform.py:429-482`). -/
@[reducible] def scaleByRadam (b1 b2 eps epsRoot threshold : α) : GT α where
  State := AdamState α
  init p := .ok ⟨0#32, zerosLike p, zerosLike p⟩
  update g s _ := do
    let mu ← updateMoment g s.mu b1 1
    let nu ← updateMoment g s.nu b2 2
    let countInc := safeInt32Increment s.count
    let ro := radamRo b2 countInc
    let muHat := biasCorrection mu b1 countInc
    let nuHat := biasCorrection nu b2 countInc
    let r := radamR b2 ro
    let u ← condTree (JOps.le threshold ro)
      (tzip (fun m v => r * m / (JOps.sqrt (v + epsRoot) + eps)) muHat nuHat)
      (.ok muHat)
    return (u, ⟨countInc, mu, nu⟩)

/-- `add_decayed_weights` (`transform.py:488-510`). -/
@[reducible] def addDecayedWeights (weightDecay : α) : GT α :=
  stateless (fun g p => match p with
    | none => valueError
    | some p => tzip (fun g p => g + weightDecay * p) g p)

/-- A schedule (`base.py:38-40`): from the (int32) count to a number. -/
abbrev Schedule (α : Type) := ℤ → α

/-- `ScaleByScheduleState` (`transform.py:518-520`). -/
structure ScheduleState where
  count : BitVec 32

/-- `scale_by_schedule` (`transform.py:523-547`). -/
@[reducible] def scaleBySchedule (f : Schedule α) : GT α where
  State := ScheduleState
  init _ := .ok ⟨0#32⟩
  update g s _ :=
    let stepSize := f s.count.toInt
    .ok (tmap (fun x => stepSize * x) g, ⟨safeInt32Increment s.count⟩)

/-- The per-leaf function of `scale_by_trust_ratio` (`transform.py:581-594`). -/
def trustRatioLeaf (minNorm : α) (update param : Tensor α) : Tensor α :=
  let paramNorm := safeNorm param minNorm
  let updateNorm := safeNorm update minNorm
  let trustRatio := paramNorm / updateNorm
  let zeroNorm := JOps.eqb paramNorm 0 || JOps.eqb updateNorm 0
  let safe := if zeroNorm then 1 else trustRatio
  update.map (fun x => x * safe)

/-- `scale_by_trust_ratio` (`transform.py:559-599`); its state `ScaleByTrustRatioState` (`transform.py:555-556`, like the
unused `ScaleByFromageState`, `550-552`) has no fields. -/
@[reducible] def scaleByTrustRatio (minNorm : α) : GT α :=
  stateless (fun g p => match p with
    | none => valueError
    | some p => PyTree.zipM (fun u p => .ok (trustRatioLeaf minNorm u p)) g p)

/-! ### PRNG keys -/

/-- PRNG keys as free terms: `PRNGKey(seed)` and the `i`-th of `n` keys split from a key. -/
inductive Key where
  | seed (z : ℤ)
  | child (k : Key) (n i : ℕ)
  deriving DecidableEq

/-- `jax.random.split(k, n)`. -/
def Key.split (k : Key) (n : ℕ) : List Key := (List.range n).map (Key.child k n)

/-- `AddNoiseState` (`transform.py:602-605`). -/
structure NoiseState where
  count : BitVec 32
  key : Key

/-- `jax.random.normal(k, shape)` is an uninterpreted function of key and shape (given entry by
entry). -/
abbrev Normal (α : Type) := Key → List ℕ → ℕ → α

/-- The noise multiplier of `add_noise` (`transform.py:636`; the code calls it `variance`). -/
def noiseScale (eta gamma : α) (countInc : BitVec 32) : α := eta / JOps.pow (cnt countInc) gamma

/-- `all_keys[0]` (`transform.py:644`) -/
def headKey : List Key → Res Key
  | [] => .error .index
  | k :: _ => .ok k

/-- `add_noise` (`transform.py:608-646`). -/
@[reducible] def addNoise (normal : Normal α) (eta gamma : α) (seed : ℤ) : GT α where
  State := NoiseState
  init _ := .ok ⟨0#32, .seed seed⟩
  update g s _ := do
    let numVars := g.numLeaves
    let countInc := safeInt32Increment s.count
    let variance := noiseScale eta gamma countInc
    let allKeys := s.key.split (numVars + 1)
    let keyTree ← PyTree.unflatten g allKeys.tail
    let noise ← PyTree.zipM (fun (x : Tensor α) k => .ok (Tensor.tens x.shape (normal k x.shape)))
      g keyTree
    let u ← tzip (fun g n => g + variance * n) g noise
    let k0 ← headKey allKeys
    return (u, ⟨countInc, k0⟩)

/-- `ApplyEvery` (`transform.py:649-652`). -/
structure ApplyEveryState (α : Type) where
  count : BitVec 32
  gradAcc : Params α

/-- a boolean array used as a number -/
def boolNum (b : Bool) : α := if b then 1 else 0

/-- `apply_every(k)` (`transform.py:655-688`).  `%` on int32 is floor-mod; `k` is a python int in the int32
range, `k ≠ 0` (XLA's remainder by zero is not modelled). -/
@[reducible] def applyEvery (k : ℤ) : GT α where
  State := ApplyEveryState α
  init p := .ok ⟨0#32, zerosLike p⟩
  update g s _ := do
    let c := s.count.toInt.fmod k
    let acc : Bool := c != 0
    let gradAcc ← tzip (fun g ga => boolNum acc * ga + g) g s.gradAcc
    let emit : Bool := c == k - 1
    let u := tmap (fun ga => boolNum emit * ga) gradAcc
    let countInc := safeInt32Increment s.count
    return (u, ⟨BitVec.ofInt 32 (countInc.toInt.fmod k), gradAcc⟩)

/-- `_subtract_mean` (`transform.py:691-695`). -/
def subtractMean (g : Tensor α) : Res (Tensor α) :=
  if g.shape.length > 1 then Tensor.bop (fun a b => a - b) g (Tensor.meanKeep (fun a => a ≥ 1) g)
  else .ok g

/-- `centralize` (`transform.py:701-719`). -/
@[reducible] def centralize : GT α := stateless (fun g _ => PyTree.mapM subtractMean g)

/-! ### SM3 -/

/-- `ScaleBySM3State` (`transform.py:722-725`): `mu` has, at each leaf, the list of per-axis
accumulators. -/
structure SM3State (α : Type) where
  mu : PyTree (List (Tensor α))
  nu : Params α

/-- `_expanded_shape` (`transform.py:755-759`). -/
def expandedShape (shape : List ℕ) (axis : ℕ) : List ℕ :=
  List.replicate axis 1 ++ [shape.getD axis 1] ++ List.replicate (shape.length - axis - 1) 1

/-- `jnp.reshape`: TypeError when the number of entries differs. -/
def Tensor.reshape {α : Type} (t : Tensor α) (s : List ℕ) : Res (Tensor α) :=
  if t.data.length = s.prod then .ok ⟨s, t.data⟩ else .error .type

/-- python list indexing -/
def listGet {β : Type} (l : List β) (i : ℕ) : Res β :=
  match l[i]? with
  | some x => .ok x
  | none => .error .index

/-- `functools.reduce(jnp.minimum, v)`; TypeError on an empty list. -/
def reduceMin {α : Type} [JOps α] : List (Tensor α) → Res (Tensor α)
  | [] => .error .type
  | x :: xs => xs.foldlM (fun a b => Tensor.bop JOps.min a b) x

/-- `_new_accum` (`transform.py:761-766`). -/
def sm3NewAccum (b2 : α) (g : Tensor α) (v : List (Tensor α)) : Res (Tensor α) := do
  let c0 := if !JOps.eqb b2 1 then 1 - b2 else 1
  let c1 := b2
  if g.shape.length < 2 then
    let v0 ← listGet v 0
    Tensor.bop (fun g v => c0 * ipow g 2 + c1 * v) g v0
  else
    let m ← reduceMin v
    Tensor.bop (fun g v => c0 * ipow g 2 + c1 * v) g m

/-- maximum of a non-empty list -/
def listMax {α : Type} [JOps α] : List α → Res α
  | [] => .error .value
  | x :: xs => .ok (xs.foldl JOps.max x)

/-- `jnp.max(g, axis=other_axes(i, g.ndim))` (`transform.py:768-775`): a vector along axis `i`;
ValueError when a reduced axis is empty (even if the result is empty too: `max` has no identity). -/
def Tensor.maxOther {α : Type} [Zero α] [JOps α] (g : Tensor α) (i : ℕ) : Res (Tensor α) :=
  if (List.range g.shape.length).any (fun a => a != i && g.shape.getD a 1 == 0) then .error .value else do
  let s' := keepShape (fun a => a != i) g.shape
  let xs ← (List.range s'.prod).mapM (fun i' =>
    listMax ((fiber g.shape s' i').map (fun j => (g.data[j]?).getD 0)))
  return ⟨[g.shape.getD i 1], xs⟩

/-- `_new_mu` (`transform.py:768-772`). -/
def sm3NewMu {α : Type} [Zero α] [JOps α] (g : Tensor α) (i : ℕ) : Res (Tensor α) :=
  if g.shape.length < 2 then .ok g else g.maxOther i

/-- `scale_by_sm3` (`transform.py:728-792`). -/
@[reducible] def scaleBySM3 (b1 b2 eps : α) : GT α where
  State := SM3State α
  init p := .ok ⟨p.map (fun x => x.shape.map (fun s => Tensor.tens [s] (fun _ => (0 : α)))),
    zerosLike p⟩
  update g s _ := do
    let mu ← PyTree.zipM (fun (g : Tensor α) (v : List (Tensor α)) =>
      (List.range g.shape.length).mapM (fun i => do
        let vi ← listGet v i
        vi.reshape (expandedShape g.shape i))) g s.mu
    let accum ← PyTree.zipM (sm3NewAccum b2) g mu
    let inv := tmap (invSqrtPos eps) accum
    let up ← tzip (fun g a => g * a) g inv
    let nu ← updateMoment up s.nu b1 1
    let mu' ← PyTree.mapM (fun (x : Tensor α) =>
      (List.range x.shape.length).mapM (fun i => sm3NewMu x i)) accum
    return (nu, ⟨mu', nu⟩)

/-! ## `clipping.py` -/

/-- `clip(max_delta)` (`clipping.py:29-48`); `jnp.clip(x, lo, hi) = minimum(maximum(x, lo), hi)`. -/
@[reducible] def clip (maxDelta : α) : GT α :=
  stateless (fun g _ => .ok (tmap (fun x => JOps.min (JOps.max x (-maxDelta)) maxDelta) g))

/-- `clip_by_global_norm(max_norm)` (`clipping.py:54-82`). -/
@[reducible] def clipByGlobalNorm (maxNorm : α) : GT α :=
  stateless (fun g _ =>
    let gNorm := globalNorm g
    let trigger := JOps.lt gNorm maxNorm
    .ok (tmap (fun t => if trigger then t else t / gNorm * maxNorm) g))

/-- rank of `jnp.squeeze(x)` -/
def squeezeRank (s : List ℕ) : ℕ := (s.filter (fun d => d != 1)).length

/-- `unitwise_norm` (`clipping.py:85-101`). -/
def unitwiseNorm (x : Tensor α) : Res (Tensor α) :=
  let sq := x.map (fun y => ipow y 2)
  let root : α → α := fun y => JOps.pow y (JOps.ofRat (1 / 2))
  if squeezeRank x.shape ≤ 1 then .ok (Tensor.scalar (root sq.sum))
  else if x.shape.length = 2 ∨ x.shape.length = 3 then
    .ok ((sq.sumKeep (fun a => a == 0)).map root)
  else if x.shape.length = 4 then .ok ((sq.sumKeep (fun a => decide (a < 3))).map root)
  else valueError

/-- `jnp.where(c, a, b)` with broadcasting -/
def Tensor.where3 {α : Type} (c : Tensor Bool) (a b : Tensor α) : Res (Tensor α) := do
  let ca ← Tensor.bop Prod.mk c a
  Tensor.bop (fun ca b => if ca.1 then ca.2 else b) ca b

/-- `unitwise_clip` (`clipping.py:104-110`). -/
def unitwiseClip (gNorm maxNorm grad : Tensor α) : Res (Tensor α) := do
  let trigger ← Tensor.bop (fun a b => JOps.lt a b) gNorm maxNorm
  let q ← Tensor.bop (fun m g => m / JOps.max g (JOps.ofRat (1 / 1000000))) maxNorm gNorm
  let clipped ← Tensor.bop (fun g q => g * q) grad q
  Tensor.where3 trigger grad clipped

/-- `adaptive_grad_clip(clipping, eps)` (`clipping.py:116-145`). -/
@[reducible] def adaptiveGradClip (clipping eps : α) : GT α :=
  stateless (fun g p => match p with
    | none => valueError
    | some p => do
      let gNorm ← PyTree.mapM unitwiseNorm g
      let pNorm ← PyTree.mapM unitwiseNorm p
      let maxNorm := tmap (fun x => clipping * JOps.max x eps) pNorm
      PyTree.zipM3 unitwiseClip gNorm maxNorm g)

/-! ## `constrain.py` -/

/-- `keep_params_nonnegative` (`constrain.py:30-55`). -/
@[reducible] def keepParamsNonnegative : GT α :=
  stateless (fun g p => match p with
    | none => valueError
    | some p => tzip (fun p u => if JOps.lt (p + u) 0 then -p else u) p g)

/-- `ZeroNansState` (`constrain.py:58-65`). -/
structure ZeroNansState where
  foundNan : PyTree Bool

/-- `zero_nans` (`constrain.py:68-96`). -/
@[reducible] def zeroNans : GT α where
  State := ZeroNansState
  init p := .ok ⟨p.map (fun _ => false)⟩
  update g _ _ :=
    let st : ZeroNansState := ⟨g.map (fun x => x.data.any JOps.isnan)⟩
    .ok (tmap (fun x => if JOps.isnan x then 0 else x) g, st)

/-! ## `update.py` -/

/-- `apply_updates` (`update.py:24-44`). -/
def applyUpdates (params updates : Params α) : Res (Params α) :=
  tzip (fun p u => p + u) params updates

/-- `incremental_update` (`update.py:47-70`). -/
def incrementalUpdate (new old : Params α) (stepSize : α) : Res (Params α) :=
  tzip (fun new old => stepSize * new + (1 - stepSize) * old) new old

/-- `periodic_update` (`update.py:73-102`). -/
def periodicUpdate (new old : Params α) (steps updatePeriod : ℤ) : Res (Params α) :=
  condTree (steps.fmod updatePeriod == 0) (.ok new) (.ok old)

end

end Optax
