import Verif.Props.Stationary
import Verif.Props.TargetLag

/-!
# C163: averaging the parameters removes noise

The setting of C160: plain `sgd` with a constant rate on a direction of constant curvature, with gradient noise.  After every step the averaged
parameters are moved towards the parameters by `incremental_update` with step size `τ` (`polyak`, C138).
-/

set_option linter.unusedSectionVars false
set_option linter.unusedSimpArgs false

namespace Optax
open Finset MeasureTheory ProbabilityTheory Filter Topology

variable {Ω : Type*} [MeasurableSpace Ω] (μ : Measure Ω) [IsProbabilityMeasure μ] (σ : Spec)

/-- energy of the impulse response of a stable second order recurrence -/
theorem energy_of_rec (h : ℕ → ℝ) (s d : ℝ) (hrec : ∀ n, h (n + 2) = s * h (n + 1) - d * h n) (e1 : h 1 = s * h 0)
    (hd : d < 1) (hs1 : s < 1 + d) (hs2 : -(1 + d) < s) :
    Tendsto (fun n => ∑ k ∈ range n, h k ^ 2) atTop (𝓝 (h 0 ^ 2 * (1 + d) / ((1 - d) * ((1 + d) ^ 2 - s ^ 2)))) := by
  have ht : Tendsto h atTop (𝓝 0) := tendsto_of_schur h s d hrec hd hs1 hs2
  set κ := (1 - d) * ((1 + d) ^ 2 - s ^ 2) with hκ
  have hκ0 : 0 < κ := mul_pos (by linarith) (by nlinarith)
  have key : ∀ n, κ * ∑ k ∈ range (n + 1), h k ^ 2 =
      h 0 ^ 2 * (1 + d) - (d ^ 2 * (1 + d) * h n ^ 2 - 2 * (s * d) * h n * h (n + 1) + (1 + d) * h (n + 1) ^ 2) := by
    intro n
    induction n with
    | zero => simp only [Finset.sum_range_one, Nat.zero_add, e1, hκ]; ring
    | succ n ih => rw [Finset.sum_range_succ, mul_add, ih, hrec n, hκ]; ring
  have ht1 : Tendsto (fun n => h (n + 1)) atTop (𝓝 0) := ht.comp (tendsto_add_atTop_nat 1)
  have hlim : Tendsto (fun n => κ * ∑ k ∈ range (n + 1), h k ^ 2) atTop (𝓝 (h 0 ^ 2 * (1 + d))) := by
    simp only [key]
    have := (((ht.pow 2).const_mul (d ^ 2 * (1 + d))).sub ((ht.const_mul (2 * (s * d))).mul ht1)).add ((ht1.pow 2).const_mul (1 + d))
    simpa using this.const_sub (h 0 ^ 2 * (1 + d))
  have hdiv := hlim.const_mul κ⁻¹
  rw [show κ⁻¹ * (h 0 ^ 2 * (1 + d)) = h 0 ^ 2 * (1 + d) / κ by field_simp] at hdiv
  have : Tendsto (fun n => ∑ k ∈ range (n + 1), h k ^ 2) atTop (𝓝 (h 0 ^ 2 * (1 + d) / κ)) := by
    refine hdiv.congr fun n => ?_
    rw [← mul_assoc, inv_mul_cancel₀ hκ0.ne', one_mul]
  exact (tendsto_add_atTop_iff_nat 1).mp this

/-- parameter error and averaged error on one coordinate, without noise, from `s` -/
def avgPath (ρ τ : ℝ) (s : ℝ × ℝ) : ℕ → ℝ × ℝ
  | 0 => s
  | n + 1 => (ρ * (avgPath ρ τ s n).1, τ * (ρ * (avgPath ρ τ s n).1) + (1 - τ) * (avgPath ρ τ s n).2)

theorem avgPath_rec (ρ τ : ℝ) (s : ℝ × ℝ) (n : ℕ) :
    (avgPath ρ τ s (n + 2)).2 = (ρ + (1 - τ)) * (avgPath ρ τ s (n + 1)).2 - ρ * (1 - τ) * (avgPath ρ τ s n).2 := by
  simp only [avgPath]; ring

theorem averaged_component (η τ : ℝ) (G : ℕ → (ℕ → ℕ → ℝ) → ℕ → ℕ → ℝ) (q v : ℕ → ℕ → ℝ) (c : ℝ) (ξ : ℕ → ℝ)
    (hv : ∀ n p, ∑ x ∈ idx σ, v x.1 x.2 * G n p x.1 x.2 = c * component σ v p q + ξ n) (p0 a0 : ℕ → ℕ → ℝ) (n : ℕ) :
    component σ v (plainSgd (fun _ => η) G p0 n) q = (avgPath (1 - η * c) τ (component σ v p0 q, component σ v a0 q) n).1 +
        ∑ j ∈ range n, (avgPath (1 - η * c) τ (-η, -(τ * η)) (n - 1 - j)).1 * ξ j ∧
      component σ v (fun k i => slowAt (fun n => plainSgd (fun _ => η) G p0 (n + 1) k i) (a0 k i) τ n) q =
        (avgPath (1 - η * c) τ (component σ v p0 q, component σ v a0 q) n).2 +
        ∑ j ∈ range n, (avgPath (1 - η * c) τ (-η, -(τ * η)) (n - 1 - j)).2 * ξ j := by
  induction n with
  | zero => simp [plainSgd, avgPath, slowAt]
  | succ n ih =>
    have hx : component σ v (plainSgd (fun _ => η) G p0 (n + 1)) q =
        (1 - η * c) * component σ v (plainSgd (fun _ => η) G p0 n) q - η * ξ n := by
      have e : component σ v (plainSgd (fun _ => η) G p0 (n + 1)) q = component σ v (plainSgd (fun _ => η) G p0 n) q -
          η * ∑ x ∈ idx σ, v x.1 x.2 * G n (plainSgd (fun _ => η) G p0 n) x.1 x.2 := by
        unfold component
        rw [Finset.mul_sum, ← Finset.sum_sub_distrib]
        refine Finset.sum_congr rfl fun x _ => ?_
        simp only [plainSgd]
        ring
      rw [e, hv]; ring
    have hy : component σ v (fun k i => slowAt (fun n => plainSgd (fun _ => η) G p0 (n + 1) k i) (a0 k i) τ (n + 1)) q =
        τ * component σ v (plainSgd (fun _ => η) G p0 (n + 1)) q +
          (1 - τ) * component σ v (fun k i => slowAt (fun n => plainSgd (fun _ => η) G p0 (n + 1) k i) (a0 k i) τ n) q := by
      unfold component
      rw [Finset.mul_sum, Finset.mul_sum, ← Finset.sum_add_distrib]
      refine Finset.sum_congr rfl fun x _ => ?_
      simp only [slowAt]
      ring
    have hidx : ∀ j ∈ range n, n + 1 - 1 - j = n - 1 - j + 1 := fun j hj => by
      have := Finset.mem_range.mp hj; omega
    have s1 : ∑ j ∈ range (n + 1), (avgPath (1 - η * c) τ (-η, -(τ * η)) (n + 1 - 1 - j)).1 * ξ j =
        (1 - η * c) * (∑ j ∈ range n, (avgPath (1 - η * c) τ (-η, -(τ * η)) (n - 1 - j)).1 * ξ j) - η * ξ n := by
      rw [Finset.sum_range_succ, Finset.mul_sum, sub_eq_add_neg]
      congr 1
      · refine Finset.sum_congr rfl fun j hj => ?_
        rw [hidx j hj]; simp only [avgPath]; ring
      · simp [avgPath]
    have s2 : ∑ j ∈ range (n + 1), (avgPath (1 - η * c) τ (-η, -(τ * η)) (n + 1 - 1 - j)).2 * ξ j =
        τ * ((1 - η * c) * (∑ j ∈ range n, (avgPath (1 - η * c) τ (-η, -(τ * η)) (n - 1 - j)).1 * ξ j)) +
          (1 - τ) * (∑ j ∈ range n, (avgPath (1 - η * c) τ (-η, -(τ * η)) (n - 1 - j)).2 * ξ j) - τ * η * ξ n := by
      rw [Finset.sum_range_succ, Finset.mul_sum, Finset.mul_sum, Finset.mul_sum, ← Finset.sum_add_distrib, sub_eq_add_neg]
      congr 1
      · refine Finset.sum_congr rfl fun j hj => ?_
        rw [hidx j hj]; simp only [avgPath]; ring
      · simp [avgPath]
    constructor
    · rw [hx, ih.1, s1]; simp only [avgPath]; ring
    · rw [hy, hx, ih.1, ih.2, s2]; simp only [avgPath]; ring

/-- **C163.** Plain `sgd(η)` with gradient noise of variance `V` on a direction of curvature `c`, `0 < η c < 2`, and parameters averaged by
`incremental_update` with step size `0 < τ ≤ 1` after every step, from any initial average: the averaged parameters have mean error tending to zero and
a variance tending to that of the parameters themselves, `η V / (c (2 - η c))`, times `τ (1 + ρ (1 - τ)) / ((2 - τ) (1 - ρ (1 - τ)))`, `ρ = 1 - η c`. -/
theorem C163_averaged (η τ : ℝ) (hτ : 0 < τ) (hτ1 : τ ≤ 1) (nes : Bool) (grad : Ω → ℕ → Params ℝ → Params ℝ)
    (G : Ω → ℕ → (ℕ → ℕ → ℝ) → ℕ → ℕ → ℝ) (hg : ∀ ω n p, grad ω n (mk σ p) = mk σ (G ω n p)) (q v : ℕ → ℕ → ℝ) (c V : ℝ)
    (h0 : 0 < η * c) (h2 : η * c < 2) (ξ : ℕ → Ω → ℝ) (hξ : NoisyEntry μ 0 V ξ)
    (hv : ∀ ω n p, ∑ x ∈ idx σ, v x.1 x.2 * G ω n p x.1 x.2 = c * component σ v p q + ξ n ω) (p0 a0 : ℕ → ℕ → ℝ) :
    ∃ P A : Ω → ℕ → ℕ → ℕ → ℝ, (∀ ω, P ω 0 = p0 ∧ Visits (sgd (.scalar η) none nes) (grad ω) σ (P ω) ∧
        ∀ n, polyak σ (fun n => P ω (n + 1)) a0 τ n = .ok (mk σ (A ω n))) ∧
      Tendsto (fun n => ∫ ω, component σ v (A ω n) q ∂μ) atTop (𝓝 0) ∧
      Tendsto (fun n => variance (fun ω => component σ v (A ω n) q) μ) atTop
        (𝓝 (η * V / (c * (2 - η * c)) * (τ * (1 + (1 - η * c) * (1 - τ)) / ((2 - τ) * (1 - (1 - η * c) * (1 - τ)))))) := by
  have hp := fun ω n => (averaged_component σ η τ (G ω) q v c (fun n => ξ n ω) (hv ω) p0 a0 n).2
  set ρ := 1 - η * c with hρ
  have hint : ∀ n, Integrable (fun ω => ∑ j ∈ range n, (avgPath ρ τ (-η, -(τ * η)) (n - 1 - j)).2 * ξ j ω) μ := fun n =>
    integrable_finsetSum _ fun j _ => ((hξ.memLp j).integrable one_le_two).const_mul _
  have hu1 : ρ * (1 - τ) < 1 := by nlinarith
  have g1 : 1 + ρ * (1 - τ) - (ρ + (1 - τ)) = τ * (1 - ρ) := by ring
  have g2 : 1 + ρ * (1 - τ) + (ρ + (1 - τ)) = (1 + ρ) * (2 - τ) := by ring
  have q1 : 0 < τ * (1 - ρ) := mul_pos hτ (by linarith)
  have q2 : 0 < (1 + ρ) * (2 - τ) := mul_pos (by linarith) (by linarith)
  refine ⟨fun ω => plainSgd (fun _ => η) (G ω) p0, fun ω n k i => slowAt (fun n => plainSgd (fun _ => η) (G ω) p0 (n + 1) k i) (a0 k i) τ n,
    fun ω => ⟨rfl, sgd_visits σ (.scalar η) nes (grad ω) (G ω) (hg ω) p0, polyak_eq σ _ a0 τ⟩, ?_, ?_⟩
  · have : ∀ n, ∫ ω, component σ v (fun k i => slowAt (fun n => plainSgd (fun _ => η) (G ω) p0 (n + 1) k i) (a0 k i) τ n) q ∂μ =
        (avgPath ρ τ (component σ v p0 q, component σ v a0 q) n).2 := by
      intro n
      simp only [hp]
      rw [integral_add (integrable_const _) (hint n), (hξ.weighted (range n) _).1]
      simp
    simp only [this]
    exact tendsto_of_schur _ (ρ + (1 - τ)) (ρ * (1 - τ)) (avgPath_rec ρ τ _) hu1 (by linarith) (by linarith)
  · have : ∀ n, variance (fun ω => component σ v (fun k i => slowAt (fun n => plainSgd (fun _ => η) (G ω) p0 (n + 1) k i) (a0 k i) τ n) q) μ =
        (∑ k ∈ range n, (avgPath ρ τ (-η, -(τ * η)) k).2 ^ 2) * V := by
      intro n
      simp only [hp]
      rw [variance_const_add (hint n).aestronglyMeasurable, (hξ.weighted (range n) _).2,
        Finset.sum_range_reflect (fun k => (avgPath ρ τ (-η, -(τ * η)) k).2 ^ 2) n, mul_comm]
    simp only [this]
    have he := energy_of_rec (fun n => (avgPath ρ τ (-η, -(τ * η)) n).2) (ρ + (1 - τ)) (ρ * (1 - τ)) (avgPath_rec ρ τ _)
      (by simp only [avgPath]; ring) hu1 (by linarith) (by linarith)
    have hlim := he.mul_const V
    have hc0 : c ≠ 0 := by rintro rfl; simp at h0
    have hη0 : η ≠ 0 := by rintro rfl; simp at h0
    have q3 : 2 - η * c ≠ 0 := by linarith
    have q4 : 2 - τ ≠ 0 := by linarith
    have q5 : 1 - ρ * (1 - τ) ≠ 0 := by linarith
    have e : (avgPath ρ τ (-η, -(τ * η)) 0).2 ^ 2 * (1 + ρ * (1 - τ)) /
        ((1 - ρ * (1 - τ)) * ((1 + ρ * (1 - τ)) ^ 2 - (ρ + (1 - τ)) ^ 2)) * V =
        η * V / (c * (2 - η * c)) * (τ * (1 + ρ * (1 - τ)) / ((2 - τ) * (1 - ρ * (1 - τ)))) := by
      have e1 : (1 + ρ * (1 - τ)) ^ 2 - (ρ + (1 - τ)) ^ 2 = τ * (η * (c * ((2 - η * c) * (2 - τ)))) := by
        rw [sq_sub_sq, g1, g2, hρ]; ring
      rw [e1]
      simp only [avgPath]
      field_simp
    rw [e] at hlim
    exact hlim

/-- **C163 (averaging reduces the noise).** The factor is 1 for `τ = 1`, strictly between 0 and 1 for `τ < 1`, and at most `2 τ / (1 - |1 - η c|)`, so
averaging over long enough a time removes as much of the noise as one likes. -/
theorem C163_reduction (η c τ : ℝ) (hτ : 0 < τ) (hτ1 : τ ≤ 1) (h0 : 0 < η * c) (h2 : η * c < 2) :
    (τ = 1 → τ * (1 + (1 - η * c) * (1 - τ)) / ((2 - τ) * (1 - (1 - η * c) * (1 - τ))) = 1) ∧
    (τ < 1 → τ * (1 + (1 - η * c) * (1 - τ)) / ((2 - τ) * (1 - (1 - η * c) * (1 - τ))) < 1) ∧
    0 < τ * (1 + (1 - η * c) * (1 - τ)) / ((2 - τ) * (1 - (1 - η * c) * (1 - τ))) ∧
    τ * (1 + (1 - η * c) * (1 - τ)) / ((2 - τ) * (1 - (1 - η * c) * (1 - τ))) ≤ 2 * τ / (1 - |1 - η * c|) := by
  have hρ1 : 1 - η * c < 1 := by linarith
  have hρ2 : -1 < 1 - η * c := by linarith
  generalize 1 - η * c = ρ at *
  have hρa : |ρ| < 1 := abs_lt.mpr ⟨hρ2, hρ1⟩
  have hule : |ρ * (1 - τ)| ≤ |ρ| := by
    rw [abs_mul, abs_of_nonneg (show 0 ≤ 1 - τ by linarith)]
    exact mul_le_of_le_one_right (abs_nonneg _) (by linarith)
  obtain ⟨u1, u2⟩ := abs_le.mp hule
  have hd : 0 < (2 - τ) * (1 - ρ * (1 - τ)) := mul_pos (by linarith) (by linarith)
  refine ⟨?_, fun h => ?_, div_pos (mul_pos hτ (by linarith)) hd, ?_⟩
  · rintro rfl; norm_num
  · rw [div_lt_one hd]
    have : ρ * (1 - τ) < 1 * (1 - τ) := mul_lt_mul_of_pos_right hρ1 (by linarith)
    nlinarith
  · refine div_le_div₀ (by linarith) ?_ (by linarith) ?_
    · nlinarith
    · nlinarith [mul_nonneg (show 0 ≤ 1 - τ by linarith) (show 0 ≤ 1 - ρ * (1 - τ) by linarith)]

/-- `η = 1/2`, `c = 1`, `τ = 1/10`, the loss `x²/2` with Gaussian gradient noise of variance 2 meets the hypotheses. -/
example : ∃ (G : (ℕ → ℝ) → ℕ → (ℕ → ℕ → ℝ) → ℕ → ℕ → ℝ) (ξ : ℕ → (ℕ → ℝ) → ℝ),
    NoisyEntry (Measure.infinitePi (fun _ : ℕ => gaussianReal 0 2)) 0 2 ξ ∧
    (∀ ω n p, ∑ x ∈ idx (.leaf [1]), (1 : ℝ) * G ω n p x.1 x.2 = 1 * component (.leaf [1]) (fun _ _ => 1) p (fun _ _ => 0) + ξ n ω) ∧
    (0 : ℝ) < 1 / 2 * 1 ∧ (1 / 2 * 1 : ℝ) < 2 ∧ (0 : ℝ) < 1 / 10 ∧ (1 / 10 : ℝ) ≤ 1 := by
  refine ⟨fun ω n p l i => p l i + ω n, fun n ω => ω n, gaussian_noisyEntry 0 2, fun ω n p => ?_, by norm_num, by norm_num, by norm_num, by norm_num⟩
  have e : idx (.leaf [1]) = {⟨0, 0⟩} := by decide
  simp [component, e]

end Optax
