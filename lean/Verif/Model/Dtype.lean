import Mathlib.Order.Notation
import Mathlib.Data.List.OfFn
import Mathlib.Data.Fintype.Basic

/-!
# The dtypes of updates and states

The value model (`Model/*.lean`) does not track dtypes.  This file is the dtype-level reading of the same python lines: each
definition gives the dtype of every leaf that the cited code produces, by jax's type promotion.  A tree with `L` leaves is
described by the dtypes of its leaves, `Fin L → Ty`.

Simplifications: python `float`/`int` arguments have the weak types `wflt`/`wint`, as in jax (a `scale` by an array, or an
injected hyperparameter, has the dtype of that array: the argument `h`); `jnp.int64` is canonicalised to int32 (x64 mode is
off, jax's default); PRNG keys (uint32) are never combined with anything else and are left out; `params` is always given.
-/

namespace Optax.Dt

/-- dtypes, with jax's weak types of python scalars -/
inductive Ty where
  | bool | wint | i32 | wflt | bf16 | f16 | f32 | f64
  deriving DecidableEq

namespace Ty

/-- height in jax's promotion lattice -/
def rank : Ty → ℕ
  | bool => 0 | wint => 1 | i32 => 2 | wflt => 3 | bf16 => 4 | f16 => 4 | f32 => 5 | f64 => 6

/-- `jnp.promote_types`: the join in jax's lattice `bool → i* → i32 → f* → {bf16, f16} → f32 → f64` -/
def join (a b : Ty) : Ty :=
  if a = b then a else if a.rank = b.rank then f32 else if a.rank < b.rank then b else a

/-- result of `/`, `sqrt`, `mean` on integers -/
def inexact : Ty → Ty
  | bool => f32 | wint => wflt | i32 => f32 | t => t

/-- the floating dtypes of arrays -/
def IsFloat (t : Ty) : Prop := t = bf16 ∨ t = f16 ∨ t = f32 ∨ t = f64

instance : DecidablePred IsFloat := fun t => by unfold IsFloat; infer_instance

end Ty

open Ty

instance : Max Ty := ⟨Ty.join⟩

/-- division -/
def div (a b : Ty) : Ty := inexact (a ⊔ b)

/-- leaf dtypes of a tree -/
abbrev Tree (L : ℕ) := Fin L → Ty

/-- A transformation at dtype level.  `none` is the `TypeError` of a `lax.cond` whose branches have different types. -/
structure TGT (L : ℕ) where
  State : Type
  dec : DecidableEq State
  init : Tree L → State
  update : Tree L → State → Tree L → Option (Tree L × State)

attribute [instance] TGT.dec

variable {L : ℕ}

/-- `jax.lax.cond(_, lambda: a, lambda: b)` -/
def cond {α : Type} [DecidableEq α] (a b : Option α) : Option α :=
  match a, b with
  | some x, some y => if x = y then some x else none
  | _, _ => none

/-! ## transform.py -/

/-- stateless, leaf by leaf -/
@[reducible] def leafwise (f : Ty → Ty → Ty) : TGT L where
  State := Unit
  dec := inferInstance
  init _ := ()
  update g _ p := some (fun i => f (g i) (p i), ())

/-- `identity` (`base.py:53-67`) -/
@[reducible] def identity : TGT L := leafwise fun g _ => g

/-- `trace` (`transform.py:37-75`): `accumulator_dtype` is `acc` -/
@[reducible] def trace (nesterov : Bool) (acc : Option Ty) : TGT L where
  State := Tree L
  dec := inferInstance
  init p := fun i => acc.getD (p i)
  update g t _ :=
    let nt : Tree L := fun i => g i ⊔ (wflt ⊔ t i)
    let out : Tree L := if nesterov then fun i => g i ⊔ (wflt ⊔ nt i) else nt
    some (out, fun i => acc.getD (nt i))

/-- `_update_moment` (`transform.py:77-80`): `(1 - decay) * (g ** order) + decay * t` -/
def moment (g t : Ty) : Ty := (wflt ⊔ (g ⊔ wint)) ⊔ (wflt ⊔ t)

/-- `_bias_correction` (`transform.py:83-86`): `t / bias_correction.astype(t.dtype)` -/
def bias (t : Ty) : Ty := div t t

/-- `ema` (`transform.py:95-132`) -/
@[reducible] def ema (debias : Bool) (acc : Option Ty) : TGT L where
  State := Ty × Tree L
  dec := inferInstance
  init p := (i32, fun i => acc.getD (p i))
  update g s _ :=
    let ne : Tree L := fun i => moment (g i) (s.2 i)
    some (if debias then fun i => bias (ne i) else g, (i32, fun i => acc.getD (ne i)))

/-- `scale_by_rss` (`transform.py:141-176`) -/
@[reducible] def scaleByRss : TGT L where
  State := Tree L
  dec := inferInstance
  init p := p
  update g s _ :=
    let ss : Tree L := fun i => g i ⊔ s i
    some (fun i => (inexact (ss i ⊔ wflt) ⊔ wflt) ⊔ g i, ss)

/-- `scale_by_rms` (`transform.py:182-213`) -/
@[reducible] def scaleByRms : TGT L where
  State := Tree L
  dec := inferInstance
  init p := p
  update g s _ :=
    let nu : Tree L := fun i => moment (g i) (s i)
    some (fun i => g i ⊔ inexact (nu i ⊔ wflt), nu)

/-- `scale_by_stddev` (`transform.py:222-256`) -/
@[reducible] def scaleByStddev : TGT L where
  State := Tree L × Tree L
  dec := inferInstance
  init p := (p, p)
  update g s _ :=
    let mu : Tree L := fun i => moment (g i) (s.1 i)
    let nu : Tree L := fun i => moment (g i) (s.2 i)
    some (fun i => g i ⊔ inexact (nu i ⊔ mu i ⊔ wflt), (mu, nu))

/-- `m / (jnp.sqrt(v + eps_root) + eps)` (`transform.py:302-303`) -/
def adamOut (m v : Ty) : Ty := div m (inexact (v ⊔ wflt) ⊔ wflt)

/-- `scale_by_adam` (`transform.py:266-306`) -/
@[reducible] def scaleByAdam : TGT L where
  State := Ty × Tree L × Tree L
  dec := inferInstance
  init p := (i32, p, p)
  update g s _ :=
    let mu : Tree L := fun i => moment (g i) (s.2.1 i)
    let nu : Tree L := fun i => moment (g i) (s.2.2 i)
    some (fun i => adamOut (bias (mu i)) (bias (nu i)), (i32, mu, nu))

/-- `scale` (`transform.py:310-329`): `step_size * g`, `h` the type of the step size -/
@[reducible] def scale (h : Ty) : TGT L := leafwise fun g _ => h ⊔ g

/-- `scale_by_belief` (`transform.py:340-379`) -/
@[reducible] def scaleByBelief : TGT L where
  State := Ty × Tree L × Tree L
  dec := inferInstance
  init p := (i32, p, p)
  update g s _ :=
    let mu : Tree L := fun i => moment (g i) (s.2.1 i)
    let err : Tree L := fun i => g i ⊔ s.2.1 i
    let nu : Tree L := fun i => moment (err i) (s.2.2 i)
    some (fun i => adamOut (bias (mu i)) (bias (nu i)), (i32, mu, nu))

/-- `scale_by_yogi` (`transform.py:382-426`) -/
@[reducible] def scaleByYogi : TGT L where
  State := Ty × Tree L × Tree L
  dec := inferInstance
  init p := (i32, p, p)
  update g s _ :=
    let mu : Tree L := fun i => moment (g i) (s.2.1 i)
    let sq : Tree L := fun i => (s.2.2 i ⊔ (g i ⊔ wint)) ⊔ (g i ⊔ wint)
    let nu : Tree L := fun i => moment (sq i) (s.2.2 i)
    some (fun i => adamOut (bias (mu i)) (bias (nu i)), (i32, mu, nu))

/-- `b2 ** count_inc` and what is computed from it (`transform.py:471-472`, `:455`): weak float with int32 is weak float -/
def ro : Ty := wflt ⊔ div (wint ⊔ i32 ⊔ (wflt ⊔ i32)) (wint ⊔ (wflt ⊔ i32))

/-- `scale_by_radam` (`transform.py:429-482`), with the `lax.cond` of its two branches -/
@[reducible] def scaleByRadam : TGT L where
  State := Ty × Tree L × Tree L
  dec := inferInstance
  init p := (i32, p, p)
  update g s _ :=
    let mu : Tree L := fun i => moment (g i) (s.2.1 i)
    let nu : Tree L := fun i => moment (g i) (s.2.2 i)
    let r : Ty := inexact (div (ro ⊔ wflt) (wflt ⊔ ro))
    (cond (some fun i => div (r ⊔ bias (mu i)) (inexact (bias (nu i) ⊔ wflt) ⊔ wflt))
      (some fun i => bias (mu i))).map fun out => (out, (i32, mu, nu))

/-- `add_decayed_weights` (`transform.py:488-510`): `g + weight_decay * p` -/
@[reducible] def addDecayedWeights (h : Ty) : TGT L := leafwise fun g p => g ⊔ (h ⊔ p)

/-- `scale_by_schedule` (`transform.py:523-548`): `jnp.array(step_size, dtype=g.dtype) * g` -/
@[reducible] def scaleBySchedule : TGT L where
  State := Ty
  dec := inferInstance
  init _ := i32
  update g _ _ := some (fun i => g i ⊔ g i, i32)

/-- `safe_norm` (`numerics.py:21-35`) -/
def safeNorm (x : Ty) : Ty := wflt ⊔ inexact (x ⊔ x)

/-- `scale_by_trust_ratio` (`transform.py:559-600`) -/
@[reducible] def scaleByTrustRatio : TGT L := leafwise fun g p => g ⊔ (p ⊔ div (safeNorm p) (safeNorm g))

/-- `add_noise` (`transform.py:608-647`) -/
@[reducible] def addNoise : TGT L where
  State := Ty
  dec := inferInstance
  init _ := i32
  update g _ _ := some (fun i => g i ⊔ (g i ⊔ g i), i32)

/-- `apply_every` (`transform.py:655-688`): booleans times gradients -/
@[reducible] def applyEvery : TGT L where
  State := Ty × Tree L
  dec := inferInstance
  init p := (i32, p)
  update g s _ :=
    let acc : Tree L := fun i => (bool ⊔ s.2 i) ⊔ g i
    some (fun i => bool ⊔ acc i, (i32 ⊔ wint, acc))

/-- `centralize` (`transform.py:691-719`) -/
@[reducible] def centralize : TGT L := leafwise fun g _ => g ⊔ inexact g

/-- `scale_by_sm3` (`transform.py:728-790`).  The per-axis accumulators are created by `jnp.zeros([s])`, which is float32
whatever the dtype of the parameter (`:747-748`). -/
@[reducible] def scaleBySm3 : TGT L where
  State := Tree L × Tree L
  dec := inferInstance
  init p := (fun _ => f32, p)
  update g s _ :=
    let acc : Tree L := fun i => (wflt ⊔ (g i ⊔ wint)) ⊔ (wflt ⊔ s.1 i)
    let up : Tree L := fun i => g i ⊔ (inexact (acc i ⊔ wflt) ⊔ wflt)
    let nu : Tree L := fun i => moment (up i) (s.2 i)
    some (nu, (acc, nu))

/-! ## clipping.py, constrain.py -/

/-- `clip` (`clipping.py:29-48`) -/
@[reducible] def clip : TGT L := leafwise fun g _ => wflt ⊔ g ⊔ wflt

/-- `global_norm` (`linear_algebra.py:25-28`): python `sum`, starting from `0`, of the leaves' sums of squares -/
def globalNorm (g : Tree L) : Ty := inexact ((List.ofFn g).foldl join wint)

/-- `clip_by_global_norm` (`clipping.py:54-82`): `jnp.where(trigger, t, (t / g_norm) * max_norm)` -/
@[reducible] def clipByGlobalNorm : TGT L where
  State := Unit
  dec := inferInstance
  init _ := ()
  update g _ _ := some (fun i => g i ⊔ (div (g i) (globalNorm g) ⊔ wflt), ())

/-- `adaptive_grad_clip` (`clipping.py:85-145`) -/
@[reducible] def adaptiveGradClip : TGT L := leafwise fun g p =>
  let gn := inexact (g ⊔ wint) ⊔ wflt
  let mx := wflt ⊔ ((inexact (p ⊔ wint) ⊔ wflt) ⊔ wflt)
  g ⊔ (g ⊔ div mx (gn ⊔ wflt))

/-- `keep_params_nonnegative` (`constrain.py:30-56`): `jnp.where((p + u) < 0., -p, u)` -/
@[reducible] def keepParamsNonnegative : TGT L := leafwise fun g p => p ⊔ g

/-- `zero_nans` (`constrain.py:70-96`): a boolean per leaf -/
@[reducible] def zeroNans : TGT L where
  State := Tree L
  dec := inferInstance
  init _ := fun _ => bool
  update g _ _ := some (fun i => g i ⊔ g i, fun _ => bool)

/-! ## combine.py -/

/-- `chain` (`combine.py:24-53`) -/
def chain : List (TGT L) → TGT L
  | [] => { State := Unit, dec := inferInstance, init := fun _ => (), update := fun g _ _ => some (g, ()) }
  | t :: ts =>
    { State := t.State × (chain ts).State
      dec := inferInstance
      init := fun p => (t.init p, (chain ts).init p)
      update := fun g s p =>
        (t.update g s.1 p).bind fun r => ((chain ts).update r.1 s.2 p).map fun q => (q.1, (r.2, q.2)) }

/-! ## wrappers.py, lookahead.py, schedule.py -/

/-- `apply_if_finite` (`wrappers.py:104-152`) -/
@[reducible] def applyIfFinite (t : TGT L) : TGT L where
  State := Ty × Ty × Ty × t.State
  dec := inferInstance
  init p := (i32, bool, i32, t.init p)
  update g s p := (cond (t.update g s.2.2.2 p) (some (g, s.2.2.2))).map fun r =>
    (r.1, (i32 ⊔ (wint ⊔ s.1), bool, bool ⊔ s.2.2.1, r.2))

/-- `maybe_update` (`wrappers.py:351-393`) -/
@[reducible] def maybeUpdate (t : TGT L) : TGT L where
  State := t.State × Ty
  dec := inferInstance
  init p := (t.init p, i32)
  update g s p := (cond (t.update g s.1 p) (some (g, s.1))).map fun r => (r.1, (r.2, s.2 ⊔ wint))

/-- `MultiSteps` (`wrappers.py:223-260`).  The inner update does not get `params` (the inner transformation here is one that
ignores them; see C15 for what happens otherwise), `k` is the type of `k_steps`. -/
@[reducible] def multiSteps (useMean : Bool) (k : Ty) (t : TGT L) : TGT L where
  State := Ty × Ty × t.State × Tree L
  dec := inferInstance
  init p := (i32, i32, t.init p, p)
  update g s p :=
    let acc : Tree L := fun i => g i ⊔ s.2.2.2 i
    let gu : Tree L := if useMean then fun i => div (acc i) k else acc
    cond (some (g, (s.1 ⊔ wint, s.2.1, s.2.2.1, acc)))
      ((t.update gu s.2.2.1 p).map fun r => (r.1, (i32, s.2.1 ⊔ wint, r.2, acc)))

/-- `flatten` (`wrappers.py:33-82`): `jnp.concatenate` promotes all leaves to one dtype -/
@[reducible] def flatten (t : TGT 1) : TGT L where
  State := t.State
  dec := inferInstance
  init p := t.init fun _ => (List.ofFn p).foldl join bool
  update g s p :=
    (t.update (fun _ => (List.ofFn g).foldl join bool) s fun _ => (List.ofFn p).foldl join bool).map fun r =>
      (fun _ => r.1 0, r.2)

/-- `inject_hyperparams` (`schedule.py:508-607`) on a factory with one float hyperparameter: the hyperparameter is converted
to the dtype of the *first* leaf, of the params in `init` and of the updates in `update`. -/
@[reducible] def injectHyperparams (factory : Ty → TGT (L + 1)) (hst : ∀ h h', (factory h).State = (factory h').State) : TGT (L + 1) where
  State := Ty × Ty × (factory wflt).State
  dec := inferInstance
  init p := (i32, p 0, cast (hst (p 0) wflt) ((factory (p 0)).init p))
  update g s p := ((factory (g 0)).update g (cast (hst wflt (g 0)) s.2.2) p).map fun r =>
    (r.1, (i32, g 0, cast (hst (g 0) wflt) r.2))

/-- `apply_updates` (`update.py:25-44`): `jnp.asarray(p + u).astype(jnp.asarray(p).dtype)` -/
def applyUpdates (p _u : Tree L) : Tree L := p

/-! ## alias.py -/

/-- `_scale_by_learning_rate` (`alias.py:30-33`): a schedule, or a number of type `h` -/
@[reducible] def scaleByLearningRate (h : Option Ty) : TGT L := match h with | none => scaleBySchedule | some h => scale h

/-- `trace(...) if momentum is not None else identity()` (`alias.py:365-366`, `:401-402`) -/
def momentumOrIdentity (momentum nesterov : Bool) : TGT L := if momentum then trace nesterov none else identity

/-- `adabelief` (`alias.py:36-66`) -/
def adabelief (h : Option Ty) : TGT L := chain [scaleByBelief, scaleByLearningRate h]
/-- `adagrad` (`alias.py:69-99`) -/
def adagrad (h : Option Ty) : TGT L := chain [scaleByRss, scaleByLearningRate h]
/-- `adam` (`alias.py:102-134`) -/
def adam (h : Option Ty) : TGT L := chain [scaleByAdam, scaleByLearningRate h]
/-- `adamw` (`alias.py:137-177`) -/
def adamw (h : Option Ty) : TGT L := chain [scaleByAdam, addDecayedWeights wflt, scaleByLearningRate h]
/-- `fromage` (`alias.py:180-209`); `mult` is a weak float (`jnp.sqrt` of a python float) -/
def fromage : TGT L := chain [scaleByTrustRatio, scale wflt, addDecayedWeights wflt]
/-- `lamb` (`alias.py:212-250`) -/
def lamb (h : Option Ty) : TGT L := chain [scaleByAdam, addDecayedWeights wflt, scaleByTrustRatio, scaleByLearningRate h]
/-- `noisy_sgd` (`alias.py:253-280`) -/
def noisySgd (h : Option Ty) : TGT L := chain [scaleByLearningRate h, addNoise]
/-- `radam` (`alias.py:283-319`) -/
def radam (h : Option Ty) : TGT L := chain [scaleByRadam, scaleByLearningRate h]
/-- `rmsprop` (`alias.py:322-374`) -/
def rmsprop (h : Option Ty) (centered momentum nesterov : Bool) : TGT L :=
  chain [if centered then scaleByStddev else scaleByRms, scaleByLearningRate h, momentumOrIdentity momentum nesterov]
/-- `sgd` (`alias.py:377-404`) -/
def sgd (h : Option Ty) (momentum nesterov : Bool) : TGT L :=
  chain [momentumOrIdentity momentum nesterov, scaleByLearningRate h]
/-- `sm3` (`alias.py:407-436`) -/
def sm3 : TGT L := chain [scaleBySm3, scale wflt]
/-- `yogi` (`alias.py:439-469`) -/
def yogi (h : Option Ty) : TGT L := chain [scaleByYogi, scaleByLearningRate h]

end Optax.Dt
