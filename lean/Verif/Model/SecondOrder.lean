import Verif.Lemmas.Flat
import Mathlib.Analysis.Calculus.FDeriv.Basic

/-!
# `second_order.py`

Automatic differentiation is modelled by the exact derivative (Mathlib's `fderiv`) in the flat coordinates of
`ravel_pytree`. The structure `σ` of the parameters is an explicit argument (it is static under jax).
-/

namespace Optax

/-- number of entries of a tree with structure `σ`: `ravel(params).size` -/
def dim (σ : Spec) : ℕ := totalSize σ.leaves

/-- `ravel` (`second_order.py:40-41`): the concatenation of the ravelled leaves (`jax.flatten_util.ravel_pytree`) -/
def ravelP (σ : Spec) (p : Params ℝ) : Fin (dim σ) → ℝ :=
  fun j => ((p.leaves.map Tensor.data).flatten[(j : ℕ)]?).getD 0

/-- the second result of `ravel_pytree`: the inverse of `ravel` on trees of structure `σ` -/
noncomputable def unravelP (σ : Spec) (x : Fin (dim σ) → ℝ) : Params ℝ :=
  mk σ (fun k i => if h : offset σ.leaves k + i < dim σ then x ⟨offset σ.leaves k + i, h⟩ else 0)

/-- `jax.grad(L)(p)` (jax, not part of the repository): the tree of the partial derivatives -/
noncomputable def jaxGrad (σ : Spec) (L : Params ℝ → ℝ) (p : Params ℝ) : Params ℝ :=
  unravelP σ (fun i => fderiv ℝ (fun x => L (unravelP σ x)) (ravelP σ p) (Pi.single i 1))

/-- `jax.jvp(F, [p], [t])[1]` (jax, not part of the repository): the derivative of `F` at `p` in direction `t` -/
noncomputable def jaxJvp (σ : Spec) (F : Params ℝ → Params ℝ) (p t : Params ℝ) : Params ℝ :=
  unravelP σ (fderiv ℝ (fun x => ravelP σ (F (unravelP σ x))) (ravelP σ p) (ravelP σ t))

variable {I T : Type}

/-- `hvp` (`second_order.py:44-66`) -/
noncomputable def hvp (σ : Spec) (loss : Params ℝ → I → T → ℝ) (v : Fin (dim σ) → ℝ) (params : Params ℝ) (inputs : I)
    (targets : T) : Params ℝ :=
  jaxJvp σ (jaxGrad σ (fun p => loss p inputs targets)) params (unravelP σ v)

/-- `jnp.vdot` -/
def vdot {n : ℕ} (a b : Fin n → ℝ) : ℝ := ∑ i, a i * b i

/-- `hessian_diag` (`second_order.py:69-89`); row `i` of `jnp.eye` is `Pi.single i 1`. -/
noncomputable def hessianDiag (σ : Spec) (loss : Params ℝ → I → T → ℝ) (params : Params ℝ) (inputs : I) (targets : T) :
    Fin (dim σ) → ℝ :=
  fun i =>
    let v : Fin (dim σ) → ℝ := Pi.single i 1
    vdot v (ravelP σ (hvp σ loss v params inputs targets))

/-- `fisher_diag` (`second_order.py:92-111`) -/
noncomputable def fisherDiag (σ : Spec) (nll : Params ℝ → I → T → ℝ) (params : Params ℝ) (inputs : I) (targets : T) :
    Fin (dim σ) → ℝ :=
  fun i => ravelP σ (jaxGrad σ (fun p => nll p inputs targets) params) i ^ 2

end Optax
