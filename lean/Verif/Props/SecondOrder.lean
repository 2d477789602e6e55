import Verif.Model.SecondOrder
import Mathlib.Analysis.Calculus.ContDiff.Basic
import Mathlib.Analysis.Calculus.ContDiff.Operations
import Mathlib.Analysis.Calculus.Deriv.Pi
import Mathlib.Analysis.Calculus.Deriv.Comp
import Mathlib.Analysis.Calculus.FDeriv.Symmetric
import Mathlib.Analysis.Calculus.FDeriv.Pi

/-!
# C64: `hessian_diag`, `hvp`, `fisher_diag`
-/

set_option linter.unusedSectionVars false
set_option linter.unusedSimpArgs false

namespace Optax

variable {I T : Type}

/-! ## `ravel` and `unravel` are inverse to each other -/

theorem concatData_offset (L : List (List ℕ)) (f : ℕ → ℝ) :
    concatData L (fun k i => f (offset L k + i)) = (List.range (totalSize L)).map f := by
  induction L generalizing f with
  | nil => simp [concatData, totalSize]
  | cons s L ih =>
    rw [concatData_cons]
    have h1 : totalSize (s :: L) = s.prod + totalSize L := by simp [totalSize]
    rw [h1, List.range_add, List.map_append, List.map_map]
    congr 1
    · simp [offset_zero]
    · have h2 := ih (fun j => f (s.prod + j))
      have h3 : (fun k i => f (offset (s :: L) (k + 1) + i)) = fun k i => f (s.prod + (offset L k + i)) := by
        funext k i; rw [offset_succ, Nat.add_assoc]
      rw [h3, h2]
      rfl

theorem ravelP_unravelP (σ : Spec) (x : Fin (dim σ) → ℝ) : ravelP σ (unravelP σ x) = x := by
  funext j
  unfold ravelP unravelP
  rw [mk_data]
  have := concatData_offset σ.leaves (fun j => if h : j < dim σ then x ⟨j, h⟩ else 0)
  rw [this]
  have hj : (j : ℕ) < totalSize σ.leaves := j.2
  rw [List.getElem?_map, List.getElem?_range hj]
  simp

theorem unravelP_ravelP (p : Params ℝ) (h : WF p) : unravelP (spec p) (ravelP (spec p) p) = p := by
  conv_rhs => rw [eq_mk_of_WF p h]
  unfold unravelP
  apply mk_congr
  intro k s hk i hi
  have h1 : ((p.leaves.map Tensor.data).flatten) = concatData (spec p).leaves (coord p) := by
    conv_lhs => rw [eq_mk_of_WF p h]
    rw [mk_data]
  have h2 := concatData_get (spec p).leaves (coord p) k i s hk hi
  have h3 : offset (spec p).leaves k + i < dim (spec p) := by
    have := (List.getElem?_eq_some_iff.mp h2).1
    rwa [concatData_length] at this
  rw [dif_pos h3]
  unfold ravelP
  rw [h1]
  simp only
  rw [h2]
  rfl

/-! ## Theorems

`x` are the ravelled parameters; by `unravelP_ravelP` every tree of arrays is `unravelP σ x` for its own structure `σ`. -/

/-- the second partial derivative of `f` at `x`, first along coordinate `i` then along `j`, by one-dimensional derivatives -/
noncomputable def partial2 {d : ℕ} (f : (Fin d → ℝ) → ℝ) (i j : Fin d) (x : Fin d → ℝ) : ℝ :=
  deriv (fun t => deriv (fun s => f (Function.update (Function.update x j t) i s)) (Function.update x j t i)) (x j)

/-- the partial derivative of `f` at `x` along coordinate `i` -/
noncomputable def partial1 {d : ℕ} (f : (Fin d → ℝ) → ℝ) (i : Fin d) (x : Fin d → ℝ) : ℝ :=
  deriv (fun s => f (Function.update x i s)) (x i)

theorem partial1_eq {d : ℕ} {f : (Fin d → ℝ) → ℝ} {x : Fin d → ℝ} (hf : DifferentiableAt ℝ f x) (i : Fin d) :
    partial1 f i x = fderiv ℝ f x (Pi.single i 1) := by
  unfold partial1
  have h1 : HasDerivAt (Function.update x i) (Pi.single i (1 : ℝ)) (x i) := hasDerivAt_update x i (x i)
  have h2 : HasFDerivAt f (fderiv ℝ f x) (Function.update x i (x i)) := by
    rw [Function.update_eq_self]; exact hf.hasFDerivAt
  exact (h2.comp_hasDerivAt (x i) h1).deriv

/-- `f` is differentiable and its derivative is differentiable at `x` -/
def TwiceDiffAt {d : ℕ} (f : (Fin d → ℝ) → ℝ) (x : Fin d → ℝ) : Prop :=
  Differentiable ℝ f ∧ DifferentiableAt ℝ (fderiv ℝ f) x

theorem partial2_eq {d : ℕ} {f : (Fin d → ℝ) → ℝ} {x : Fin d → ℝ} (hf : TwiceDiffAt f x) (i j : Fin d) :
    partial2 f i j x = fderiv ℝ (fun y => fderiv ℝ f y (Pi.single i 1)) x (Pi.single j 1) := by
  have hd : Differentiable ℝ f := hf.1
  have h1 : ∀ y, partial1 f i y = fderiv ℝ f y (Pi.single i 1) := fun y => partial1_eq (hd y) i
  have hd' : DifferentiableAt ℝ (fun y => fderiv ℝ f y (Pi.single i 1)) x := hf.2.clm_apply (differentiableAt_const _)
  rw [← partial1_eq hd' j]
  unfold partial2
  show deriv (fun t => partial1 f i (Function.update x j t)) (x j) = _
  simp only [h1]
  rfl

theorem ravel_hvp (σ : Spec) (loss : Params ℝ → I → T → ℝ) (v x : Fin (dim σ) → ℝ) (inputs : I) (targets : T)
    (hf : TwiceDiffAt (fun y => loss (unravelP σ y) inputs targets) x) (i : Fin (dim σ)) :
    ravelP σ (hvp σ loss v (unravelP σ x) inputs targets) i =
      fderiv ℝ (fun y => fderiv ℝ (fun y => loss (unravelP σ y) inputs targets) y (Pi.single i 1)) x v := by
  unfold hvp jaxJvp
  simp only [ravelP_unravelP]
  unfold jaxGrad
  simp only [ravelP_unravelP]
  have hd : ∀ i : Fin (dim σ), DifferentiableAt ℝ
      (fun y => fderiv ℝ (fun y => loss (unravelP σ y) inputs targets) y (Pi.single i 1)) x := by
    intro i
    exact hf.2.clm_apply (differentiableAt_const _)
  rw [fderiv_pi hd]
  rfl

/-- **C64.** For a twice differentiable loss (as a function of the ravelled parameters) entry `i` of
`hessian_diag` is the second partial derivative with respect to the `i`-th ravelled parameter. -/
theorem C64_hessian_diag (σ : Spec) (loss : Params ℝ → I → T → ℝ) (x : Fin (dim σ) → ℝ) (inputs : I) (targets : T)
    (hf : TwiceDiffAt (fun y => loss (unravelP σ y) inputs targets) x) (i : Fin (dim σ)) :
    hessianDiag σ loss (unravelP σ x) inputs targets i =
      deriv (deriv (fun t => loss (unravelP σ (Function.update x i t)) inputs targets)) (x i) := by
  have h1 : hessianDiag σ loss (unravelP σ x) inputs targets i =
      ravelP σ (hvp σ loss (Pi.single i 1) (unravelP σ x) inputs targets) i := by
    unfold hessianDiag vdot
    simp [Pi.single_apply]
  rw [h1, ravel_hvp σ loss _ x inputs targets hf, ← partial2_eq hf]
  unfold partial2
  simp only [Function.update_idem, Function.update_self]

/-- **C64.** Entry `i` of the (ravelled) `hvp` is `Σ_j ∂²loss/∂x_i∂x_j v_j`: the Hessian, which is symmetric, times `v`. -/
theorem C64_hvp (σ : Spec) (loss : Params ℝ → I → T → ℝ) (v x : Fin (dim σ) → ℝ) (inputs : I) (targets : T)
    (hf : TwiceDiffAt (fun y => loss (unravelP σ y) inputs targets) x) (i : Fin (dim σ)) :
    ravelP σ (hvp σ loss v (unravelP σ x) inputs targets) i =
      ∑ j, partial2 (fun y => loss (unravelP σ y) inputs targets) i j x * v j ∧
    ∀ j, partial2 (fun y => loss (unravelP σ y) inputs targets) i j x =
      partial2 (fun y => loss (unravelP σ y) inputs targets) j i x := by
  constructor
  · rw [ravel_hvp σ loss v x inputs targets hf]
    generalize hg : fderiv ℝ (fun y => fderiv ℝ (fun y => loss (unravelP σ y) inputs targets) y (Pi.single i 1)) x = g
    have hv : v = ∑ j, v j • (Pi.single j (1 : ℝ) : Fin (dim σ) → ℝ) := by
      funext k; simp [Finset.sum_apply, Pi.single_apply]
    conv_lhs => rw [hv]
    rw [map_sum]
    apply Finset.sum_congr rfl
    intro j _
    rw [map_smul, smul_eq_mul, partial2_eq hf, hg, mul_comm]
  · intro j
    rw [partial2_eq hf, partial2_eq hf]
    generalize hF : (fun y => loss (unravelP σ y) inputs targets) = f at *
    have hd : DifferentiableAt ℝ (fderiv ℝ f) x := hf.2
    have e : ∀ i j : Fin (dim σ), fderiv ℝ (fun y => fderiv ℝ f y (Pi.single i 1)) x (Pi.single j 1) =
        fderiv ℝ (fderiv ℝ f) x (Pi.single j 1) (Pi.single i 1) := by
      intro i j
      rw [fderiv_clm_apply hd (differentiableAt_const _)]
      simp
    rw [e, e]
    exact second_derivative_symmetric (fun y => (hf.1 y).hasFDerivAt) hd.hasFDerivAt _ _

/-- **C64.** `hvp` is linear in `v`, for every loss. -/
theorem C64_hvp_linear (σ : Spec) (loss : Params ℝ → I → T → ℝ) (a b : ℝ) (v w : Fin (dim σ) → ℝ) (p : Params ℝ)
    (inputs : I) (targets : T) (i : Fin (dim σ)) :
    ravelP σ (hvp σ loss (fun j => a * v j + b * w j) p inputs targets) i =
      a * ravelP σ (hvp σ loss v p inputs targets) i + b * ravelP σ (hvp σ loss w p inputs targets) i := by
  have e : (fun j => a * v j + b * w j) = a • v + b • w := by funext j; simp
  unfold hvp jaxJvp
  simp only [ravelP_unravelP]
  rw [e, map_add, map_smul, map_smul]
  simp

/-- **C64.** For a differentiable loss `fisher_diag` is the entrywise square of the gradient, hence non-negative. -/
theorem C64_fisher_diag (σ : Spec) (nll : Params ℝ → I → T → ℝ) (x : Fin (dim σ) → ℝ) (inputs : I) (targets : T)
    (hf : Differentiable ℝ (fun y => nll (unravelP σ y) inputs targets)) (i : Fin (dim σ)) :
    fisherDiag σ nll (unravelP σ x) inputs targets i =
      deriv (fun t => nll (unravelP σ (Function.update x i t)) inputs targets) (x i) ^ 2 ∧
    0 ≤ fisherDiag σ nll (unravelP σ x) inputs targets i := by
  have h : fisherDiag σ nll (unravelP σ x) inputs targets i =
      partial1 (fun y => nll (unravelP σ y) inputs targets) i x ^ 2 := by
    unfold fisherDiag jaxGrad
    simp only [ravelP_unravelP]
    rw [partial1_eq (hf x)]
  exact ⟨h, by rw [h]; exact sq_nonneg _⟩

/-- a case that meets the hypotheses: a quadratic loss on a tree with a scalar and a vector leaf, whose Hessian
diagonal is then computed by the theorem -/
example : ∃ (σ : Spec) (loss : Params ℝ → Unit → Unit → ℝ), dim σ = 3 ∧
    (∀ x, TwiceDiffAt (fun y => loss (unravelP σ y) () ()) x) ∧
    ∀ x i, hessianDiag σ loss (unravelP σ x) () () i = 2 := by
  let σ : Spec := .node .tuple [.leaf [], .leaf [2]]
  let loss : Params ℝ → Unit → Unit → ℝ := fun p _ _ => ∑ i, ravelP σ p i ^ 2
  have hl : (fun y => loss (unravelP σ y) () ()) = fun y => ∑ i, y i ^ 2 := by
    funext y; simp only [loss, ravelP_unravelP]
  have hc : ∀ x, TwiceDiffAt (fun y => loss (unravelP σ y) () ()) x := by
    intro x
    rw [hl]
    have h2 : ContDiff ℝ 2 (fun y : Fin (dim σ) → ℝ => ∑ i, y i ^ 2) := by fun_prop
    exact ⟨h2.differentiable (by norm_num), (h2.fderiv_right (m := 1) (by norm_num)).differentiable (by norm_num) x⟩
  refine ⟨σ, loss, rfl, hc, fun x i => ?_⟩
  rw [C64_hessian_diag σ loss x () () (hc x) i]
  have h1 : (fun t => loss (unravelP σ (Function.update x i t)) () ()) =
      fun t => t ^ 2 + ∑ j ∈ Finset.univ.erase i, x j ^ 2 := by
    funext t
    have := congrFun hl (Function.update x i t)
    rw [this, ← Finset.add_sum_erase _ _ (Finset.mem_univ i)]
    congr 1
    · simp
    · apply Finset.sum_congr rfl
      intro j hj
      rw [Function.update_of_ne (Finset.ne_of_mem_erase hj)]
  rw [h1]
  have h2 : deriv (fun t : ℝ => t ^ 2 + ∑ j ∈ Finset.univ.erase i, x j ^ 2) = fun t => 2 * t := by
    funext t; simp
  rw [h2]
  simp

end Optax
