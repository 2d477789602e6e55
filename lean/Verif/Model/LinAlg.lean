import Mathlib.Data.Matrix.Mul
import Mathlib.Data.Matrix.Basic
import Mathlib.Analysis.Real.Sqrt
import Mathlib.Analysis.SpecialFunctions.Pow.Real
import Mathlib.Analysis.SpecialFunctions.Log.Base
import Mathlib.Algebra.Order.Round
import Mathlib.Data.Nat.Find

/-!
# `linear_algebra.py`: `power_iteration`, `matrix_inverse_pth_root`

Real arithmetic, square matrices (`Matrix (Fin n) (Fin n) ℝ`); float32 casts and the `precision` flag are dropped. A
division by the norm of a zero vector (NaN in the code) gives 0 here, so every theorem that goes through it assumes
that the vector is not zero.
-/

namespace Optax
open Matrix

/-- `lax.while_loop(cond, body, init)` (jax, not part of the repository): the number of iterations done, `none` if the
loop never stops -/
noncomputable def whileSteps {σ : Type} (cond : σ → Prop) (body : σ → σ) (s : σ) : Option ℕ :=
  open Classical in
  if h : ∃ n, ¬cond (body^[n] s) then some (Nat.find h) else none

/-- the final state of `lax.while_loop(cond, body, init)` -/
noncomputable def whileLoop {σ : Type} (cond : σ → Prop) (body : σ → σ) (s : σ) : Option σ :=
  (whileSteps cond body s).map (fun n => body^[n] s)

/-- `jnp.linalg.norm(v)` of a vector -/
noncomputable def vnorm {n : ℕ} (v : Fin n → ℝ) : ℝ := Real.sqrt (∑ i, v i ^ 2)

/-- the loop state of `power_iteration` (`linear_algebra.py:64`, `:75`) -/
structure PIState (n : ℕ) where
  i : ℤ
  v : Fin n → ℝ
  s : ℝ
  sv : Fin n → ℝ
  run : Prop

/-- `_iter_condition` (`linear_algebra.py:58-60`) -/
def piCond {n : ℕ} (numIters : ℤ) (st : PIState n) : Prop := st.i < numIters ∧ st.run

/-- `_iter_body` (`linear_algebra.py:62-70`) -/
noncomputable def piBody {n : ℕ} (A : Matrix (Fin n) (Fin n) ℝ) (tol : ℝ) (st : PIState n) : PIState n :=
  let newV := (vnorm st.v)⁻¹ • st.v
  let sv := A *ᵥ newV
  let sNew := newV ⬝ᵥ sv
  ⟨st.i + 1, sv, sNew, sv, |sNew - st.s| > tol⟩

/-- `init_state` (`linear_algebra.py:75`); the random start vector `v_0` (`:73`) is an argument -/
def piInit {n : ℕ} (v0 : Fin n → ℝ) : PIState n := ⟨0, v0, 0, v0, True⟩

/-- `power_iteration` (`linear_algebra.py:31-79`); the random start vector is an argument. `none` would mean that the
loop does not terminate. -/
noncomputable def powerIteration {n : ℕ} (A : Matrix (Fin n) (Fin n) ℝ) (numIters : ℤ) (tol : ℝ) (v0 : Fin n → ℝ) :
    Option ((Fin n → ℝ) × ℝ) :=
  (whileLoop (piCond numIters) (piBody A tol) (piInit v0)).map (fun st => ((vnorm st.v)⁻¹ • st.v, st.s))

/-- `jnp.max(jnp.abs(m))` -/
noncomputable def maxAbs {n : ℕ} (M : Matrix (Fin n) (Fin n) ℝ) : ℝ := ⨆ ij : Fin n × Fin n, |M ij.1 ij.2|

/-- `jnp.linalg.norm(m)` of a matrix: the Frobenius norm -/
noncomputable def frob {n : ℕ} (M : Matrix (Fin n) (Fin n) ℝ) : ℝ := Real.sqrt (∑ i, ∑ j, M i j ^ 2)

/-- `_unrolled_mat_pow_2` (`linear_algebra.py:129-131`) -/
def matPow2 {n : ℕ} (M : Matrix (Fin n) (Fin n) ℝ) : Matrix (Fin n) (Fin n) ℝ := M * M
/-- `_unrolled_mat_pow_4` (`linear_algebra.py:133-137`) -/
def matPow4 {n : ℕ} (M : Matrix (Fin n) (Fin n) ℝ) : Matrix (Fin n) (Fin n) ℝ := matPow2 M * matPow2 M
/-- `_unrolled_mat_pow_8` (`linear_algebra.py:139-143`) -/
def matPow8 {n : ℕ} (M : Matrix (Fin n) (Fin n) ℝ) : Matrix (Fin n) (Fin n) ℝ := matPow4 M * matPow4 M

/-- `lax.switch(index, [b0, b1, b2, b3], x)`: the index is clamped to the range of the branches -/
def switch4 {β : Type} (index : ℤ) (b0 b1 b2 b3 : β) : β :=
  if index ≤ 0 then b0 else if index = 1 then b1 else if index = 2 then b2 else b3

/-- `mat_power` (`linear_algebra.py:145-163`). `jnp.round` rounds halves to even, `round` up: they agree here, because
`log2 p` is never a half-integer for an integer `p`. -/
noncomputable def matPower {n : ℕ} (M : Matrix (Fin n) (Fin n) ℝ) (p : ℕ) : Matrix (Fin n) (Fin n) ℝ :=
  switch4 (round (Real.logb 2 p)) M (matPow2 M) (matPow4 M) (matPow8 M)

/-- the loop state of `matrix_inverse_pth_root` (`linear_algebra.py:173`, `:193-194`) -/
structure RootState (n : ℕ) where
  i : ℤ
  m : Matrix (Fin n) (Fin n) ℝ
  h : Matrix (Fin n) (Fin n) ℝ
  oldH : Matrix (Fin n) (Fin n) ℝ
  error : ℝ
  run : Prop

/-- `_iter_condition` (`linear_algebra.py:165-170`) -/
def rootCond {n : ℕ} (numIters : ℤ) (tol : ℝ) (st : RootState n) : Prop :=
  st.i < numIters ∧ (st.error > tol ∧ st.run)

/-- `mat_m_i = (1 - alpha) * identity + alpha * mat_m` (`linear_algebra.py:174`) -/
noncomputable def rootMi {n : ℕ} (alpha : ℝ) (m : Matrix (Fin n) (Fin n) ℝ) : Matrix (Fin n) (Fin n) ℝ :=
  (1 - alpha) • (1 : Matrix (Fin n) (Fin n) ℝ) + alpha • m

/-- `_iter_body` (`linear_algebra.py:172-181`) -/
noncomputable def rootBody {n : ℕ} (alpha : ℝ) (p : ℕ) (st : RootState n) : RootState n :=
  let mi := rootMi alpha st.m
  let newM := matPower mi p * st.m
  let newH := st.h * mi
  let newError := maxAbs (newM - 1)
  ⟨st.i + 1, newM, newH, st.h, newError, newError < st.error * (6 / 5)⟩

/-- `init_state` (`linear_algebra.py:189-194`) -/
noncomputable def rootInit {n : ℕ} (D : Matrix (Fin n) (Fin n) ℝ) (p : ℕ) : RootState n :=
  let z := (1 + p) / (2 * frob D)
  let m0 := z • D
  let h0 := (z ^ ((1 : ℝ) / p)) • (1 : Matrix (Fin n) (Fin n) ℝ)
  ⟨0, m0, h0, h0, maxAbs (m0 - 1), True⟩

/-- the result of `matrix_inverse_pth_root` computed from the final loop state (`linear_algebra.py:197-200`) -/
noncomputable def rootResult {n : ℕ} (st : RootState n) : Matrix (Fin n) (Fin n) ℝ × ℝ :=
  open Classical in
  let isConverged : ℝ := if st.run then 1 else 0
  (isConverged • st.h + (1 - isConverged) • st.oldH, maxAbs (st.m - 1))

/-- the amount added to the diagonal (`linear_algebra.py:123`) -/
noncomputable def ridge (ridgeEpsilon maxEv : ℝ) : ℝ := ridgeEpsilon * max maxEv (1 / 10 ^ 16)

/-- `matrix_inverse_pth_root` after the ridge has been computed (`linear_algebra.py:183-201`); `r` is the ridge. A
matrix of size 0 (an error in the code: maximum over an empty array) is not modelled. -/
noncomputable def rootFrom {n : ℕ} (A : Matrix (Fin n) (Fin n) ℝ) (p : ℕ) (numIters : ℤ) (r tol : ℝ) :
    Option (Matrix (Fin n) (Fin n) ℝ × ℝ) :=
  let alpha : ℝ := -1 / p
  if n = 1 then some (A.map (fun a => (a + r) ^ alpha), 0)
  else
    let D := A + r • (1 : Matrix (Fin n) (Fin n) ℝ)
    (whileLoop (rootCond numIters tol) (rootBody alpha p) (rootInit D p)).map rootResult

/-- `matrix_inverse_pth_root` (`linear_algebra.py:82-201`); `v0` is the random start vector of the power iteration. -/
noncomputable def matrixInversePthRoot {n : ℕ} (A : Matrix (Fin n) (Fin n) ℝ) (p : ℕ) (numIters : ℤ)
    (ridgeEpsilon tol : ℝ) (v0 : Fin n → ℝ) : Option (Matrix (Fin n) (Fin n) ℝ × ℝ) := do
  let (_, maxEv) ← powerIteration A 100 (1 / 10 ^ 6) v0
  rootFrom A p numIters (ridge ridgeEpsilon maxEv) tol

end Optax
