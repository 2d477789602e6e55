import Verif.Model.Transform

/-!
# `privacy.py`
-/

namespace Optax

section
variable {α : Type} [Zero α] [One α] [Add α] [Sub α] [Mul α] [Div α] [Neg α] [JOps α]

/-- `grads_flat[0].shape[0]` (`privacy.py:62`): IndexError without leaves, and on a first leaf of rank 0 -/
def leadingDim : List (Tensor α) → Res ℕ
  | [] => .error .index
  | t :: _ => match t.shape with
    | [] => .error .index
    | b :: _ => .ok b

/-- the check of the batch dimension (`privacy.py:64-68`) -/
def dpCheck (flat : List (Tensor α)) (bsize : ℕ) : Res Unit :=
  if flat.any (fun t => t.shape.isEmpty || decide (t.shape.head? ≠ some bsize)) then valueError else .ok ()

/-- row `b` along axis 0 -/
def Tensor.row (b : ℕ) (t : Tensor α) : Tensor α :=
  Tensor.tens t.shape.tail (fun i => t.data.getD (b * t.shape.tail.prod + i) 0)

/-- `divisors` (`privacy.py:71-72`), for example `b`; `vmap` of `global_norm` over axis 0 of the list of leaves -/
def dpDivisor (clip : α) (flat : List (Tensor α)) (b : ℕ) : α :=
  JOps.max (globalNorm (.node .list (flat.map (fun t => .leaf (t.row b)))) / clip) 1

/-- `clipped` (`privacy.py:73`): `(moveaxis(g, 0, -1) / divisors).sum(-1)` -/
def dpClipped (divisor : ℕ → α) (bsize : ℕ) (t : Tensor α) : Tensor α :=
  Tensor.tens t.shape.tail (fun i =>
    ((List.range bsize).map (fun b => t.data.getD (b * t.shape.tail.prod + i) 0 / divisor b)).sum)

/-- `noised` (`privacy.py:74-75`) -/
def dpNoised (normal : Normal α) (noiseStd : α) (bsize : ℕ) (t : Tensor α) (r : Key) : Tensor α :=
  Tensor.tens t.shape (fun i => (t.data.getD i 0 + noiseStd * normal r t.shape i) / JOps.ofInt bsize)

/-- `DifferentiallyPrivateAggregateState` (`privacy.py:25-27`). -/
structure DPState where
  key : Key

/-- `differentially_private_aggregate` (`privacy.py:30-79`).  `jax.random.normal` is uninterpreted. -/
@[reducible] def dpAggregate (normal : Normal α) (l2NormClip noiseMultiplier : α) (seed : ℤ) : GT α where
  State := DPState
  init _ := .ok ⟨.seed seed⟩
  update g s _ := do
    let noiseStd := l2NormClip * noiseMultiplier
    let bsize ← leadingDim g.leaves
    let _ ← dpCheck g.leaves bsize
    let keys := s.key.split (g.leaves.length + 1)
    let clipped := g.leaves.map (dpClipped (dpDivisor l2NormClip g.leaves) bsize)
    let noised := List.zipWith (dpNoised normal noiseStd bsize) clipped keys.tail
    let u ← PyTree.unflatten g noised
    let k0 ← headKey keys
    return (u, ⟨k0⟩)

end
end Optax
