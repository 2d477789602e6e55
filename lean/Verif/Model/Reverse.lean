import Verif.Model.Dual

/-!
# Reverse mode (back-propagation) through `clip_by_global_norm` and `scale_by_trust_ratio`

JAX differentiates in reverse by transposing the linearised program.  The transposed rules used here are those of the
primitives: `where(c, a, b)` sends the cotangent to the selected branch and a zero to the other, `x / y` sends
`ct / y` to `x` and `-(ct * y^-2 * x)` to `y`, `sqrt` multiplies by `0.5 / sqrt`, `square` by `2 x`, a broadcast scalar receives the
sum of the cotangents.
-/

namespace Optax

section
variable {α : Type} [Zero α] [One α] [Add α] [Sub α] [Mul α] [Div α] [Neg α] [JOps α]

/-- sum of all entries of a tree -/
def treeSum (t : Params α) : α := (t.leaves.map Tensor.sum).sum

/-- Reverse mode of the update function of `clip_by_global_norm` (`clipping.py:71-80`, with `global_norm`,
`linear_algebra.py:25-28`): the cotangent of the incoming updates `x` for the cotangent `ct` of the returned ones. -/
def clipGlobalVjp (maxNorm : α) (x ct : Params α) : Res (Params α) := do
  let gNorm := globalNorm x
  let trigger := JOps.lt gNorm maxNorm
  -- `jnp.where(trigger, t, (t / g_norm) * max_norm)`
  let ctDirect := tmap (fun c => if trigger then c else 0) ct
  let ctQuot := tmap (fun c => (if trigger then 0 else c) * maxNorm) ct
  -- `t / g_norm`
  let ctT := tmap (fun c => c / gNorm) ctQuot
  let ctNorm ← tzip (fun c t => -(c * (1 / (gNorm * gNorm)) * t)) ctQuot x
  -- `global_norm`
  let cs := treeSum ctNorm * (JOps.ofRat (1 / 2) / gNorm)
  let ctSq := tmap (fun t => cs * (JOps.ofInt 2 * t)) x
  let s ← tzip (fun a b => a + b) ctDirect ctT
  tzip (fun a b => a + b) s ctSq

/-- Reverse mode of the per-leaf function of `scale_by_trust_ratio` (`transform.py:581-594`): the cotangents of `update` and
of `param`. -/
def trustRatioVjp (minNorm : α) (update param ct : Tensor α) : Res (Tensor α × Tensor α) := do
  let paramNorm := safeNorm param minNorm
  let updateNorm := safeNorm update minNorm
  let trustRatio := paramNorm / updateNorm
  let zeroNorm := JOps.eqb paramNorm 0 || JOps.eqb updateNorm 0
  let safe := if zeroNorm then 1 else trustRatio
  -- `update * safe_trust_ratio`
  let ctSafe ← Tensor.bop (fun c u => c * u) ct update
  -- `jnp.where(zero_norm, 1.0, trust_ratio)`
  let ctRatio := if zeroNorm then 0 else ctSafe.sum
  -- `param_norm / update_norm`
  let ctParamNorm := ctRatio / updateNorm
  let ctUpdateNorm := -(ctRatio * (1 / (updateNorm * updateNorm)) * paramNorm)
  let viaNorm := safeNormVjp update minNorm ctUpdateNorm
  let ctUpdate ← Tensor.bop (fun c v => c * safe + v) ct viaNorm
  return (ctUpdate, safeNormVjp param minNorm ctParamNorm)

end
end Optax
