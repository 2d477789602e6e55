import Verif.Props.Equilibrium

/-!
# C170: layers that can be rescaled against each other stay balanced

If multiplying some parameters (`ε = 1`) and dividing others (`ε = -1`) by a factor does not change the loss, its gradients satisfy
`Σ ε p g = 0`.  The quantity `Σ ε p²` is conserved by gradient flow; this is what `sgd` makes of it.
-/

set_option linter.unusedSectionVars false
set_option linter.unusedSimpArgs false

namespace Optax
open Finset Filter Topology

variable (σ : Spec)

/-- the difference of the squared norms of the entries with `ε = 1` and `ε = -1` -/
noncomputable def balance (ε p : ℕ → ℕ → ℝ) : ℝ := ∑ x ∈ idx σ, ε x.1 x.2 * p x.1 x.2 ^ 2

theorem balance_step (ε p g : ℕ → ℕ → ℝ) (η w : ℝ) (hs : ∑ x ∈ idx σ, ε x.1 x.2 * (p x.1 x.2 * g x.1 x.2) = 0) :
    balance σ ε (fun k i => p k i - η * (g k i + w * p k i)) = (1 - η * w) ^ 2 * balance σ ε p + η ^ 2 * balance σ ε g := by
  have e : balance σ ε (fun k i => p k i - η * (g k i + w * p k i)) = (1 - η * w) ^ 2 * balance σ ε p + η ^ 2 * balance σ ε g -
      2 * η * (1 - η * w) * ∑ x ∈ idx σ, ε x.1 x.2 * (p x.1 x.2 * g x.1 x.2) := by
    unfold balance
    rw [Finset.mul_sum, Finset.mul_sum, Finset.mul_sum, ← Finset.sum_add_distrib, ← Finset.sum_sub_distrib]
    exact Finset.sum_congr rfl fun x _ => by ring
  rw [e, hs, mul_zero, sub_zero]

/-- **C170 (balance).** `sgd` with any learning rates on a loss with such a symmetry: the balance of the parameters changes in every step exactly by
the squared learning rate times the balance of the gradients. -/
theorem C170_balance (lr : LR ℝ) (nes : Bool) (ε : ℕ → ℕ → ℝ) (grad : ℕ → Params ℝ → Params ℝ)
    (G : ℕ → (ℕ → ℕ → ℝ) → ℕ → ℕ → ℝ) (hg : ∀ n p, grad n (mk σ p) = mk σ (G n p))
    (hs : ∀ n p, ∑ x ∈ idx σ, ε x.1 x.2 * (p x.1 x.2 * G n p x.1 x.2) = 0) (p0 : ℕ → ℕ → ℝ) :
    ∃ P, P 0 = p0 ∧ Visits (sgd lr none nes) grad σ P ∧
      (∀ n, balance σ ε (P (n + 1)) = balance σ ε (P n) + lr.at n ^ 2 * balance σ ε (G n (P n))) ∧
      ∀ h M : ℝ, (∀ n, 0 ≤ lr.at n ∧ lr.at n ≤ h) → (∀ n, |balance σ ε (G n (P n))| ≤ M) →
        ∀ N, |balance σ ε (P N) - balance σ ε p0| ≤ h * M * ∑ n ∈ range N, lr.at n := by
  have step : ∀ n, balance σ ε (plainSgd lr.at G p0 (n + 1)) =
      balance σ ε (plainSgd lr.at G p0 n) + lr.at n ^ 2 * balance σ ε (G n (plainSgd lr.at G p0 n)) := by
    intro n
    have := balance_step σ ε (plainSgd lr.at G p0 n) (G n (plainSgd lr.at G p0 n)) (lr.at n) 0 (hs n _)
    simp only [zero_mul, add_zero, mul_zero, sub_zero, one_pow, one_mul] at this
    exact this
  refine ⟨plainSgd lr.at G p0, rfl, sgd_visits σ lr nes grad G hg p0, step, fun h M hh hM N => ?_⟩
  induction N with
  | zero => simp [plainSgd]
  | succ n ih =>
    rw [step, Finset.sum_range_succ, mul_add]
    have a1 := hh n
    have a2 := hM n
    have a3 : |lr.at n ^ 2 * balance σ ε (G n (plainSgd lr.at G p0 n))| ≤ h * M * lr.at n := by
      rw [abs_mul, abs_of_nonneg (sq_nonneg _), sq]
      have b1 : lr.at n * |balance σ ε (G n (plainSgd lr.at G p0 n))| ≤ h * M :=
        mul_le_mul a1.2 a2 (abs_nonneg _) (a1.1.trans a1.2)
      nlinarith [mul_le_mul_of_nonneg_left b1 a1.1]
    calc |balance σ ε (plainSgd lr.at G p0 n) + lr.at n ^ 2 * balance σ ε (G n (plainSgd lr.at G p0 n)) - balance σ ε p0|
        = |(balance σ ε (plainSgd lr.at G p0 n) - balance σ ε p0) + lr.at n ^ 2 * balance σ ε (G n (plainSgd lr.at G p0 n))| := by
          congr 1; ring
      _ ≤ _ := (abs_add_le _ _).trans (add_le_add ih a3)

/-- **C170 (weight decay balances).** `chain(add_decayed_weights(w), sgd(η))` with `0 < η w < 2` on such a loss, the balance of the gradients being at
most `M` in absolute value: every initial imbalance is forgotten geometrically, down to `η M / (w (2 - η w))`. -/
theorem C170_decay (η w M : ℝ) (h0 : 0 < η * w) (h2 : η * w < 2) (nes : Bool) (ε : ℕ → ℕ → ℝ) (grad : ℕ → Params ℝ → Params ℝ)
    (G : ℕ → (ℕ → ℕ → ℝ) → ℕ → ℕ → ℝ) (hg : ∀ n p, grad n (mk σ p) = mk σ (G n p))
    (hs : ∀ n p, ∑ x ∈ idx σ, ε x.1 x.2 * (p x.1 x.2 * G n p x.1 x.2) = 0) (p0 : ℕ → ℕ → ℝ) :
    ∃ P, P 0 = p0 ∧ Visits (chain [addDecayedWeights w, sgd (.scalar η) none nes]) grad σ P ∧
      (∀ n, balance σ ε (P (n + 1)) = (1 - η * w) ^ 2 * balance σ ε (P n) + η ^ 2 * balance σ ε (G n (P n))) ∧
      ((∀ n, |balance σ ε (G n (P n))| ≤ M) →
        ∀ N, |balance σ ε (P N)| ≤ (1 - η * w) ^ (2 * N) * |balance σ ε p0| + η * M / (w * (2 - η * w))) := by
  set P := plainSgd (LR.scalar η).at (fun n p k i => G n p k i + w * p k i) p0 with hP
  have step : ∀ n, balance σ ε (P (n + 1)) = (1 - η * w) ^ 2 * balance σ ε (P n) + η ^ 2 * balance σ ε (G n (P n)) := fun n =>
    balance_step σ ε (P n) (G n (P n)) η w (hs n _)
  refine ⟨P, rfl, decayed_visits σ (.scalar η) w nes p0 G hg, step, fun hM N => ?_⟩
  have hw0 : w ≠ 0 := by rintro rfl; simp at h0
  have hη0 : η ≠ 0 := by rintro rfl; simp at h0
  have q1 : 2 - η * w ≠ 0 := by linarith
  have hM0 : 0 ≤ M := (abs_nonneg _).trans (hM 0)
  have fix : (1 - η * w) ^ 2 * (η * M / (w * (2 - η * w))) + η ^ 2 * M = η * M / (w * (2 - η * w)) := by
    field_simp
    ring
  have fl : 0 ≤ η * M / (w * (2 - η * w)) := by
    have : η * M / (w * (2 - η * w)) = η ^ 2 * M / (η * w * (2 - η * w)) := by field_simp
    rw [this]
    exact div_nonneg (by positivity) (mul_nonneg h0.le (by linarith))
  induction N with
  | zero =>
    simp only [Nat.mul_zero, pow_zero, one_mul]
    exact le_add_of_nonneg_right fl
  | succ n ih =>
    rw [step]
    calc |(1 - η * w) ^ 2 * balance σ ε (P n) + η ^ 2 * balance σ ε (G n (P n))|
        ≤ (1 - η * w) ^ 2 * |balance σ ε (P n)| + η ^ 2 * |balance σ ε (G n (P n))| := by
          refine (abs_add_le _ _).trans (le_of_eq ?_)
          rw [abs_mul, abs_mul, abs_of_nonneg (sq_nonneg _), abs_of_nonneg (sq_nonneg η)]
      _ ≤ (1 - η * w) ^ 2 * ((1 - η * w) ^ (2 * n) * |balance σ ε p0| + η * M / (w * (2 - η * w))) + η ^ 2 * M :=
          add_le_add (mul_le_mul_of_nonneg_left ih (sq_nonneg _)) (mul_le_mul_of_nonneg_left (hM n) (sq_nonneg _))
      _ = (1 - η * w) ^ (2 * (n + 1)) * |balance σ ε p0| + η * M / (w * (2 - η * w)) := by
          rw [mul_add, add_assoc, fix]
          ring

/-- A loss `f(a b)` of the product of two parameters, with gradient `(f'(a b) b, f'(a b) a)`, has the symmetry, whatever `f'` is; `η = 1/2`, `w = 1` are in range. -/
example (f' : ℝ → ℝ) (p : ℕ → ℕ → ℝ) :
    ∑ x ∈ idx (.leaf [2]), (if x.2 = 0 then (1 : ℝ) else -1) * (p x.1 x.2 * (f' (p 0 0 * p 0 1) * p 0 (1 - x.2))) = 0 ∧
      (0 : ℝ) < 1 / 2 * 1 ∧ (1 / 2 * 1 : ℝ) < 2 := by
  refine ⟨?_, by norm_num, by norm_num⟩
  have e : idx (.leaf [2]) = {⟨0, 0⟩, ⟨0, 1⟩} := by decide
  rw [e, Finset.sum_pair (by simp)]
  simp
  ring

end Optax
