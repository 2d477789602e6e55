import Verif.Model.Transform

/-!
# Hyper-parameters as python floats

In `Transform.lean` the hyper-parameters are numbers of the same type as the arrays, which is faithful for exact reals.  In jax they are
python floats: `1 - decay` is evaluated by python in double precision, and each of `1 - decay` and `decay` is then converted
to the dtype of the array it multiplies.  For low precision arrays this matters, so here are the moment updates of
`scale_by_adam` with rational hyper-parameters that are rounded where they meet an array.  Simplification: python's own double
rounding of `1 - decay` is not modelled (the difference of the rationals is exact).
-/

namespace Optax

variable {α : Type} [Zero α] [One α] [Add α] [Sub α] [Mul α] [Div α] [Neg α] [JOps α]

/-- `_update_moment` (`transform.py:77-80`) with a python float `decay` -/
def updateMomentPy (updates moments : Params α) (decay : ℚ) (order : ℕ) : Res (Params α) :=
  tzip (fun g t => JOps.ofRat (1 - decay) * ipow g order + JOps.ofRat decay * t) updates moments

/-- `_bias_correction` (`transform.py:83-86`) with a python float `decay`: `1 - decay**count` is computed in the default precision and
then cast to the dtype of the moment.  Simplification: only the cast rounds. -/
def biasCorrectionPy (moment : Params α) (decay : ℚ) (count : BitVec 32) : Params α :=
  tmap (fun t => t / JOps.ofRat (1 - decay ^ count.toInt.toNat)) moment

/-- `scale_by_adam` (`transform.py:266-304`) with python float hyper-parameters -/
@[reducible] def scaleByAdamPy (b1 b2 eps epsRoot : ℚ) : GT α where
  State := AdamState α
  init p := .ok ⟨0#32, zerosLike p, zerosLike p⟩
  update g s _ := do
    let mu ← updateMomentPy g s.mu b1 1
    let nu ← updateMomentPy g s.nu b2 2
    let countInc := safeInt32Increment s.count
    let muHat := biasCorrectionPy mu b1 countInc
    let nuHat := biasCorrectionPy nu b2 countInc
    let u ← tzip (fun m v => m / (JOps.sqrt (v + JOps.ofRat epsRoot) + JOps.ofRat eps)) muHat nuHat
    return (u, ⟨countInc, mu, nu⟩)

end Optax
