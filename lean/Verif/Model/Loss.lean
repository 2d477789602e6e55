import Verif.Model.Transform

/-!
# `loss.py`

`chex.assert_type(..., float)` is not modelled (entries are of the one number type `α`).
-/

namespace Optax

section
variable {α : Type} [Zero α] [One α] [Add α] [Sub α] [Mul α] [Div α] [Neg α] [JOps α]

/-- reversed shapes of `chex.assert_is_broadcastable` (not part of the repository): every axis of the first is 1 or
equal, and the first has no more axes -/
def broadcastableRev : List ℕ → List ℕ → Bool
  | [], _ => true
  | _ :: _, [] => false
  | a :: as, b :: bs => (a == 1 || a == b) && broadcastableRev as bs

/-- `chex.assert_is_broadcastable(a, b)`: AssertionError unless an array of shape `a` broadcasts to shape `b` -/
def assertBroadcastable (a b : List ℕ) : Res Unit :=
  if broadcastableRev a.reverse b.reverse then .ok () else .error .assertion

/-- `(predictions - targets) if (targets is not None) else predictions` (`loss.py:53`, `:79`) -/
def lossErrors (predictions : Tensor α) : Option (Tensor α) → Res (Tensor α)
  | none => .ok predictions
  | some t => Tensor.bop (fun p t => p - t) predictions t

/-- one entry of `l2_loss` (`loss.py:54`) -/
def l2Entry (e : α) : α := JOps.ofRat (1 / 2) * ipow e 2

/-- `l2_loss` (`loss.py:32-54`). -/
def l2Loss (predictions : Tensor α) (targets : Option (Tensor α)) : Res (Tensor α) := do
  let errors ← lossErrors predictions targets
  return errors.map l2Entry

/-- one entry of `huber_loss` (`loss.py:82-86`) -/
def huberEntry (delta e : α) : α :=
  let absErrors := JOps.abs e
  let quadratic := JOps.min absErrors delta
  let linear := absErrors - quadratic
  JOps.ofRat (1 / 2) * ipow quadratic 2 + delta * linear

/-- `huber_loss` (`loss.py:57-86`). -/
def huberLoss (predictions : Tensor α) (targets : Option (Tensor α)) (delta : α) : Res (Tensor α) := do
  let errors ← lossErrors predictions targets
  return errors.map (huberEntry delta)

/-- `x.shape[-1]`: IndexError on a rank-0 array -/
def Tensor.lastDim (t : Tensor α) : Res ℕ :=
  match t.shape.getLast? with
  | none => .error .index
  | some k => .ok k

/-- `alpha / num_categories`, python numbers: ZeroDivisionError on an empty axis -/
def smoothShare (alpha : α) (k : ℕ) : Res α := if k = 0 then .error .zeroDiv else .ok (alpha / JOps.ofInt k)

/-- `smooth_labels` (`loss.py:89-113`). -/
def smoothLabels (labels : Tensor α) (alpha : α) : Res (Tensor α) := do
  let numCategories ← labels.lastDim
  let share ← smoothShare alpha numCategories
  return labels.map (fun y => (1 - alpha) * y + share)

/-- `jnp.logaddexp` (jax, not part of the repository): `max(a,b) + log1p(exp(-|a-b|))`, and `a + b` when `a - b` is NaN -/
def logaddexp (a b : α) : α :=
  let amax := JOps.max a b
  let delta := a - b
  if JOps.isnan delta then a + b else amax + JOps.log (1 + JOps.exp (-(JOps.abs delta)))

/-- `jax.nn.log_sigmoid(x) = -softplus(-x) = -logaddexp(-x, 0)` (jax, not part of the repository) -/
def logSigmoid (x : α) : α := -(logaddexp (-x) 0)

/-- `sigmoid_binary_cross_entropy` (`loss.py:116-139`). -/
def sigmoidBCE (logits labels : Tensor α) : Res (Tensor α) := do
  let _ ← assertBroadcastable logits.shape labels.shape
  let logP := logits.map logSigmoid
  let logNotP := (logits.map (fun x => -x)).map logSigmoid
  let a ← Tensor.bop (fun y l => y * l) (labels.map (fun y => -y)) logP
  let b ← Tensor.bop (fun y l => y * l) (labels.map (fun y => 1 - y)) logNotP
  Tensor.bop (fun a b => a - b) a b

/-- row `r` along the last axis, of size `k` -/
def Tensor.lastRow (k : ℕ) (t : Tensor α) (r : ℕ) : List α := (List.range k).map (fun j => t.data.getD (r * k + j) 0)

/-- reduction over the last axis -/
def Tensor.reduceLast (f : List α → α) (t : Tensor α) : Res (Tensor α) := do
  let k ← t.lastDim
  return Tensor.tens t.shape.dropLast (fun r => f (t.lastRow k r))

/-- `x.max()` of a non-empty row -/
def rowMax : List α → α
  | [] => 0
  | a :: l => l.foldl JOps.max a

/-- `jax.nn.log_softmax` of one row (jax, not part of the repository): `(x - max) - log(sum(exp(x - max)))` -/
def logSoftmaxRow (row : List α) (x : α) : α :=
  let m := rowMax row
  (x - m) - JOps.log ((row.map (fun y => JOps.exp (y - m))).sum)

/-- `jax.nn.log_softmax(x, axis=-1)`; the maximum over an empty axis raises ValueError -/
def logSoftmax (x : Tensor α) : Res (Tensor α) := do
  let k ← x.lastDim
  if k = 0 then valueError
  else return Tensor.tens x.shape (fun i => logSoftmaxRow (x.lastRow k (i / k)) (x.data.getD i 0))

/-- `softmax_cross_entropy` (`loss.py:142-166`). -/
def softmaxCE (logits labels : Tensor α) : Res (Tensor α) := do
  let _ ← assertBroadcastable logits.shape labels.shape
  let ls ← logSoftmax logits
  let prod ← Tensor.bop (fun y l => y * l) labels ls
  let s ← prod.reduceLast List.sum
  return s.map (fun x => -x)

/-- `x / jnp.expand_dims(batched_norm_fn(x, epsilon), axis=-1)` (`loss.py:193-200`): every row divided by its
`safe_norm` -/
def unitRows (epsilon : α) (x : Tensor α) : Res (Tensor α) := do
  let k ← x.lastDim
  return Tensor.tens x.shape (fun i => x.data.getD i 0 / safeNorm ⟨[k], x.lastRow k (i / k)⟩ epsilon)

/-- `cosine_similarity` (`loss.py:169-202`). -/
def cosineSimilarity (predictions targets : Tensor α) (epsilon : α) : Res (Tensor α) := do
  let _ ← assertBroadcastable predictions.shape targets.shape
  let unitTargets ← unitRows epsilon targets
  let unitPredictions ← unitRows epsilon predictions
  let prod ← Tensor.bop (fun a b => a * b) unitTargets unitPredictions
  prod.reduceLast List.sum

/-- `cosine_distance` (`loss.py:205-229`). -/
def cosineDistance (predictions targets : Tensor α) (epsilon : α) : Res (Tensor α) := do
  let _ ← assertBroadcastable predictions.shape targets.shape
  let s ← cosineSimilarity predictions targets epsilon
  return s.map (fun x => 1 - x)

end
end Optax
