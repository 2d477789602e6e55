import Verif.Props.Variance
import Verif.Props.StabilityEdge
import Verif.Props.DecaySchedules

/-!
# C160: the noise floor of SGD

Training runs with random gradients: at the outcome `ω` the loop calls `grad ω`.  Along the direction `v` the loss has constant
curvature `c` around `q` and the gradient carries noise: its component along `v` at step `n` and parameters `p` is
`c · component σ v p q + ξ n ω`, the noise `ξ` being centred, uncorrelated between steps (pairwise independent) and of variance `V`.
-/

set_option linter.unusedSectionVars false
set_option linter.unusedSimpArgs false

namespace Optax
open Finset MeasureTheory ProbabilityTheory Filter Topology

variable {Ω : Type*} [MeasurableSpace Ω] (μ : Measure Ω) [IsProbabilityMeasure μ] (σ : Spec)

/-- weight of the noise of step `j` in the parameters after `n` steps -/
noncomputable def noiseWeight (lr : ℕ → ℝ) (c : ℝ) : ℕ → ℕ → ℝ
  | 0, _ => 0
  | n + 1, j => if j = n then lr n else (1 - lr n * c) * noiseWeight lr c n j

theorem component_path (lr : ℕ → ℝ) (G : ℕ → (ℕ → ℕ → ℝ) → ℕ → ℕ → ℝ) (q v : ℕ → ℕ → ℝ) (c : ℝ) (ξ : ℕ → ℝ)
    (hv : ∀ n p, ∑ x ∈ idx σ, v x.1 x.2 * G n p x.1 x.2 = c * component σ v p q + ξ n) (p0 : ℕ → ℕ → ℝ) (n : ℕ) :
    component σ v (plainSgd lr G p0 n) q =
      (∏ j ∈ range n, (1 - lr j * c)) * component σ v p0 q - ∑ j ∈ range n, noiseWeight lr c n j * ξ j := by
  induction n with
  | zero => simp [plainSgd]
  | succ n ih =>
    have e : component σ v (plainSgd lr G p0 (n + 1)) q =
        component σ v (plainSgd lr G p0 n) q - lr n * ∑ x ∈ idx σ, v x.1 x.2 * G n (plainSgd lr G p0 n) x.1 x.2 := by
      unfold component
      rw [Finset.mul_sum, ← Finset.sum_sub_distrib]
      refine Finset.sum_congr rfl fun x _ => ?_
      simp only [plainSgd]
      ring
    rw [e, hv, ih, Finset.prod_range_succ, Finset.sum_range_succ]
    have e1 : ∑ j ∈ range n, noiseWeight lr c (n + 1) j * ξ j = (1 - lr n * c) * ∑ j ∈ range n, noiseWeight lr c n j * ξ j := by
      rw [Finset.mul_sum]
      refine Finset.sum_congr rfl fun j hj => ?_
      have : j ≠ n := (Finset.mem_range.mp hj).ne
      simp only [noiseWeight, if_neg this]
      ring
    have e2 : noiseWeight lr c (n + 1) n = lr n := by simp [noiseWeight]
    rw [e1, e2]
    ring

theorem noiseWeight_sq (lr : ℕ → ℝ) (c : ℝ) (n : ℕ) :
    ∑ j ∈ range (n + 1), noiseWeight lr c (n + 1) j ^ 2 =
      (1 - lr n * c) ^ 2 * ∑ j ∈ range n, noiseWeight lr c n j ^ 2 + lr n ^ 2 := by
  rw [Finset.sum_range_succ, Finset.mul_sum]
  congr 1
  · refine Finset.sum_congr rfl fun j hj => ?_
    have : j ≠ n := (Finset.mem_range.mp hj).ne
    simp only [noiseWeight, if_neg this]
    ring
  · simp [noiseWeight]

/-- **C160 (recursion).** `sgd` with any learning rate or schedule: the component of the error along a direction of curvature `c` has
the mean of the noise free run, and its variance follows `W (n+1) = (1 - lr_n c)² W n + lr_n² V` exactly. -/
theorem C160_recursion (lr : LR ℝ) (nes : Bool) (grad : Ω → ℕ → Params ℝ → Params ℝ)
    (G : Ω → ℕ → (ℕ → ℕ → ℝ) → ℕ → ℕ → ℝ) (hg : ∀ ω n p, grad ω n (mk σ p) = mk σ (G ω n p)) (q v : ℕ → ℕ → ℝ) (c V : ℝ)
    (ξ : ℕ → Ω → ℝ) (hξ : NoisyEntry μ 0 V ξ)
    (hv : ∀ ω n p, ∑ x ∈ idx σ, v x.1 x.2 * G ω n p x.1 x.2 = c * component σ v p q + ξ n ω) (p0 : ℕ → ℕ → ℝ) :
    ∃ P : Ω → ℕ → ℕ → ℕ → ℝ, (∀ ω, P ω 0 = p0 ∧ Visits (sgd lr none nes) (grad ω) σ (P ω)) ∧
      (∀ n, ∫ ω, component σ v (P ω n) q ∂μ = (∏ j ∈ range n, (1 - lr.at j * c)) * component σ v p0 q) ∧
      variance (fun ω => component σ v (P ω 0) q) μ = 0 ∧
      ∀ n, variance (fun ω => component σ v (P ω (n + 1)) q) μ =
        (1 - lr.at n * c) ^ 2 * variance (fun ω => component σ v (P ω n) q) μ + lr.at n ^ 2 * V := by
  have hp := fun ω n => component_path σ lr.at (G ω) q v c (fun n => ξ n ω) (hv ω) p0 n
  have hint : ∀ n, Integrable (fun ω => ∑ j ∈ range n, noiseWeight lr.at c n j * ξ j ω) μ := fun n =>
    integrable_finsetSum _ fun j _ => ((hξ.memLp j).integrable one_le_two).const_mul _
  have hvar : ∀ n, variance (fun ω => component σ v (plainSgd lr.at (G ω) p0 n) q) μ =
      V * ∑ j ∈ range n, noiseWeight lr.at c n j ^ 2 := by
    intro n
    simp only [hp]
    rw [variance_const_sub (hint n).aestronglyMeasurable]
    exact (hξ.weighted (range n) _).2
  refine ⟨fun ω => plainSgd lr.at (G ω) p0, fun ω => ⟨rfl, sgd_visits σ lr nes (grad ω) (G ω) (hg ω) p0⟩, fun n => ?_, ?_, fun n => ?_⟩
  · simp only [hp]
    rw [integral_sub (integrable_const _) (hint n), (hξ.weighted (range n) _).1]
    simp
  · rw [hvar]; simp
  · rw [hvar, hvar, noiseWeight_sq]; ring

/-- **C160 (the floor).** With a constant learning rate `η` the variance after `n` steps is `η² V (1 + ρ² + … + ρ^(2(n-1)))`, `ρ = 1 - η c`.
If `0 < η c < 2` the mean error tends to zero and the variance to `η V / (c (2 - η c))`; otherwise, unless `η = 0` or there is no noise, the
variance grows without bound. -/
theorem C160_floor (η : ℝ) (nes : Bool) (grad : Ω → ℕ → Params ℝ → Params ℝ)
    (G : Ω → ℕ → (ℕ → ℕ → ℝ) → ℕ → ℕ → ℝ) (hg : ∀ ω n p, grad ω n (mk σ p) = mk σ (G ω n p)) (q v : ℕ → ℕ → ℝ) (c V : ℝ)
    (ξ : ℕ → Ω → ℝ) (hξ : NoisyEntry μ 0 V ξ)
    (hv : ∀ ω n p, ∑ x ∈ idx σ, v x.1 x.2 * G ω n p x.1 x.2 = c * component σ v p q + ξ n ω) (p0 : ℕ → ℕ → ℝ) :
    ∃ P : Ω → ℕ → ℕ → ℕ → ℝ, (∀ ω, P ω 0 = p0 ∧ Visits (sgd (.scalar η) none nes) (grad ω) σ (P ω)) ∧
      (∀ n, ∫ ω, component σ v (P ω n) q ∂μ = (1 - η * c) ^ n * component σ v p0 q ∧
        variance (fun ω => component σ v (P ω n) q) μ = η ^ 2 * V * ∑ j ∈ range n, (1 - η * c) ^ (2 * j)) ∧
      (0 < η * c → η * c < 2 →
        Tendsto (fun n => ∫ ω, component σ v (P ω n) q ∂μ) atTop (𝓝 0) ∧
        Tendsto (fun n => variance (fun ω => component σ v (P ω n) q) μ) atTop (𝓝 (η * V / (c * (2 - η * c))))) ∧
      (η ≠ 0 → 0 < V → η * c ≤ 0 ∨ 2 ≤ η * c →
        Tendsto (fun n => variance (fun ω => component σ v (P ω n) q) μ) atTop atTop) := by
  obtain ⟨P, h1, h2, h3, h4⟩ := C160_recursion μ σ (.scalar η) nes grad G hg q v c V ξ hξ hv p0
  have hat : ∀ n, (LR.scalar η).at n = η := fun n => rfl
  simp only [hat, Finset.prod_const, Finset.card_range] at h2 h4
  have hvar : ∀ n, variance (fun ω => component σ v (P ω n) q) μ = η ^ 2 * V * ∑ j ∈ range n, (1 - η * c) ^ (2 * j) := by
    intro n
    induction n with
    | zero => simp [h3]
    | succ n ih =>
      rw [h4, ih, Finset.sum_range_succ', Nat.mul_zero, pow_zero]
      have : ∑ j ∈ range n, (1 - η * c) ^ (2 * (j + 1)) = (1 - η * c) ^ 2 * ∑ j ∈ range n, (1 - η * c) ^ (2 * j) := by
        rw [Finset.mul_sum]
        exact Finset.sum_congr rfl fun j _ => by ring
      rw [this]
      ring
  refine ⟨P, h1, fun n => ⟨h2 n, hvar n⟩, fun ha hb => ⟨?_, ?_⟩, fun hη hV hc => ?_⟩
  · simp only [h2]
    have : |1 - η * c| < 1 := by rw [abs_lt]; constructor <;> linarith
    simpa using (tendsto_pow_atTop_nhds_zero_of_abs_lt_one this).mul_const (component σ v p0 q)
  · simp only [hvar]
    have hsq : (1 - η * c) ^ 2 < 1 := by nlinarith
    have hs := (hasSum_geometric_of_lt_one (sq_nonneg (1 - η * c)) hsq).tendsto_sum_nat
    simp only [← pow_mul] at hs
    have := hs.const_mul (η ^ 2 * V)
    have hc0 : c ≠ 0 := by rintro rfl; simp at ha
    have hη0 : η ≠ 0 := by rintro rfl; simp at ha
    have h2' : 2 - η * c ≠ 0 := by linarith
    have e : η ^ 2 * V * (1 - (1 - η * c) ^ 2)⁻¹ = η * V / (c * (2 - η * c)) := by
      have : 1 - (1 - η * c) ^ 2 = η * (c * (2 - η * c)) := by ring
      rw [this]
      field_simp
    rw [e] at this
    exact this
  · simp only [hvar]
    have hge : ∀ j : ℕ, 1 ≤ (1 - η * c) ^ (2 * j) := by
      intro j
      rw [pow_mul]
      refine one_le_pow₀ ?_
      rcases hc with h | h <;> nlinarith
    have hpos : 0 < η ^ 2 * V := by positivity
    refine tendsto_atTop_mono (f := fun n : ℕ => η ^ 2 * V * (n : ℝ)) (fun n => ?_)
      (tendsto_natCast_atTop_atTop.const_mul_atTop hpos)
    refine mul_le_mul_of_nonneg_left ?_ hpos.le
    have := Finset.sum_le_sum (s := range n) (fun j _ => hge j)
    simpa using this

/-- **C160 (the floor is reached by a decaying rate only).** With the schedule `1 / (c (t + 1))` the component forgets the start after one
step and its variance is `V / (c² n)` after `n` steps, as long as the step counter has not saturated. -/
theorem C160_decay (f : Schedule ℝ) (nes : Bool) (grad : Ω → ℕ → Params ℝ → Params ℝ)
    (G : Ω → ℕ → (ℕ → ℕ → ℝ) → ℕ → ℕ → ℝ) (hg : ∀ ω n p, grad ω n (mk σ p) = mk σ (G ω n p)) (q v : ℕ → ℕ → ℝ) (c V : ℝ) (hc : 0 < c)
    (hf : ∀ n : ℕ, f n = 1 / (c * (n + 1)))
    (ξ : ℕ → Ω → ℝ) (hξ : NoisyEntry μ 0 V ξ)
    (hv : ∀ ω n p, ∑ x ∈ idx σ, v x.1 x.2 * G ω n p x.1 x.2 = c * component σ v p q + ξ n ω) (p0 : ℕ → ℕ → ℝ) :
    ∃ P : Ω → ℕ → ℕ → ℕ → ℝ, (∀ ω, P ω 0 = p0 ∧ Visits (sgd (.schedule f) none nes) (grad ω) σ (P ω)) ∧
      ∀ n : ℕ, 1 ≤ n → n ≤ 2147483648 → ∫ ω, component σ v (P ω n) q ∂μ = 0 ∧
        variance (fun ω => component σ v (P ω n) q) μ = V / (c ^ 2 * n) := by
  obtain ⟨P, h1, h2, h3, h4⟩ := C160_recursion μ σ (.schedule f) nes grad G hg q v c V ξ hξ hv p0
  refine ⟨P, h1, fun n hn hN => ⟨?_, ?_⟩⟩
  · rw [h2, Finset.prod_eq_zero (i := 0) (Finset.mem_range.mpr (by omega)), zero_mul]
    have := at_schedule f 0 (by norm_num)
    rw [this, hf]
    push_cast
    field_simp
    ring
  · induction n, hn using Nat.le_induction with
    | base =>
      rw [h4, h3, at_schedule f 0 (by norm_num), hf]
      push_cast
      field_simp
      ring
    | succ n hn ih =>
      have hn0 : (n : ℝ) ≠ 0 := by positivity
      have hn1 : (n : ℝ) + 1 ≠ 0 := by positivity
      rw [h4, ih (by omega), at_schedule f n (by omega), hf]
      push_cast
      field_simp
      ring

/-- The hypotheses are met by the loss `3/2 · x²` of one parameter with Gaussian gradient noise of variance 2. -/
example : ∃ (G : (ℕ → ℝ) → ℕ → (ℕ → ℕ → ℝ) → ℕ → ℕ → ℝ) (ξ : ℕ → (ℕ → ℝ) → ℝ),
    NoisyEntry (Measure.infinitePi (fun _ : ℕ => gaussianReal 0 2)) 0 2 ξ ∧
    (∀ ω n p, ∑ x ∈ idx (.leaf [1]), (1 : ℝ) * G ω n p x.1 x.2 = 3 * component (.leaf [1]) (fun _ _ => 1) p (fun _ _ => 0) + ξ n ω) := by
  refine ⟨fun ω n p l i => 3 * p l i + ω n, fun n ω => ω n, gaussian_noisyEntry 0 2, fun ω n p => ?_⟩
  have e : idx (.leaf [1]) = {⟨0, 0⟩} := by decide
  simp [component, e]

end Optax
