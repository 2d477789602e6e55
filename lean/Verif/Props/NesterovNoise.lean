import Verif.Props.MomentumNoise
import Verif.Props.ParameterAveraging

/-!
# C165: the noise floor of Nesterov momentum

The setting of C160 and C161 with `sgd(η, momentum=β, nesterov=True)`.
-/

set_option linter.unusedSectionVars false
set_option linter.unusedSimpArgs false

namespace Optax
open Finset MeasureTheory ProbabilityTheory Filter Topology

variable {Ω : Type*} [MeasurableSpace Ω] (μ : Measure Ω) [IsProbabilityMeasure μ] (σ : Spec)

/-- energy of a stable second order recurrence from arbitrary first values -/
theorem energy_of_rec_general (h : ℕ → ℝ) (s d : ℝ) (hrec : ∀ n, h (n + 2) = s * h (n + 1) - d * h n)
    (hd : d < 1) (hs1 : s < 1 + d) (hs2 : -(1 + d) < s) :
    Tendsto (fun n => ∑ k ∈ range n, h k ^ 2) atTop
      (𝓝 (((1 + d - (1 - d) * s ^ 2) * h 0 ^ 2 - 2 * (s * d) * h 0 * h 1 + (1 + d) * h 1 ^ 2) / ((1 - d) * ((1 + d) ^ 2 - s ^ 2)))) := by
  have ht : Tendsto h atTop (𝓝 0) := tendsto_of_schur h s d hrec hd hs1 hs2
  set κ := (1 - d) * ((1 + d) ^ 2 - s ^ 2) with hκ
  have hκ0 : 0 < κ := mul_pos (by linarith) (by nlinarith)
  set A := (1 + d - (1 - d) * s ^ 2) * h 0 ^ 2 - 2 * (s * d) * h 0 * h 1 + (1 + d) * h 1 ^ 2 with hA
  have key : ∀ n, κ * ∑ k ∈ range (n + 1), h k ^ 2 =
      A - (d ^ 2 * (1 + d) * h n ^ 2 - 2 * (s * d) * h n * h (n + 1) + (1 + d) * h (n + 1) ^ 2) := by
    intro n
    induction n with
    | zero => simp only [Finset.sum_range_one, Nat.zero_add, hA, hκ]; ring
    | succ n ih => rw [Finset.sum_range_succ, mul_add, ih, hrec n, hκ]; ring
  have ht1 : Tendsto (fun n => h (n + 1)) atTop (𝓝 0) := ht.comp (tendsto_add_atTop_nat 1)
  have hlim : Tendsto (fun n => κ * ∑ k ∈ range (n + 1), h k ^ 2) atTop (𝓝 A) := by
    simp only [key]
    have := (((ht.pow 2).const_mul (d ^ 2 * (1 + d))).sub ((ht.const_mul (2 * (s * d))).mul ht1)).add ((ht1.pow 2).const_mul (1 + d))
    simpa using this.const_sub A
  have hdiv := hlim.const_mul κ⁻¹
  rw [show κ⁻¹ * A = A / κ by field_simp] at hdiv
  have : Tendsto (fun n => ∑ k ∈ range (n + 1), h k ^ 2) atTop (𝓝 (A / κ)) := by
    refine hdiv.congr fun n => ?_
    rw [← mul_assoc, inv_mul_cancel₀ hκ0.ne', one_mul]
  exact (tendsto_add_atTop_iff_nat 1).mp this

/-- Nesterov momentum on one coordinate of a quadratic of curvature `c` without noise: parameter error and velocity, from `s` -/
def nesterovPath (η β c : ℝ) (s : ℝ × ℝ) : ℕ → ℝ × ℝ
  | 0 => s
  | n + 1 => ((nesterovPath η β c s n).1 - η * (c * (nesterovPath η β c s n).1 + β * (β * (nesterovPath η β c s n).2 + c * (nesterovPath η β c s n).1)),
      β * (nesterovPath η β c s n).2 + c * (nesterovPath η β c s n).1)

theorem nesterovPath_rec (η β c : ℝ) (s : ℝ × ℝ) (n : ℕ) :
    (nesterovPath η β c s (n + 2)).1 = (1 + β) * (1 - η * c) * (nesterovPath η β c s (n + 1)).1 -
      β * (1 - η * c) * (nesterovPath η β c s n).1 := by
  simp only [nesterovPath]; ring

theorem nesterovPath_tendsto (η β c : ℝ) (h0 : 0 ≤ β) (h1 : β < 1) (ha : 0 < η * c) (hb : η * c * (1 + 2 * β) < 2 * (1 + β)) (s : ℝ × ℝ) :
    Tendsto (fun n => (nesterovPath η β c s n).1) atTop (𝓝 0) :=
  tendsto_of_schur _ ((1 + β) * (1 - η * c)) (β * (1 - η * c)) (nesterovPath_rec η β c s) (by nlinarith) (by nlinarith) (by nlinarith)

/-- the noise gain of Nesterov momentum -/
theorem nesterov_energy (η β c : ℝ) (h0 : 0 ≤ β) (h1 : β < 1) (ha : 0 < η * c) (hb : η * c * (1 + 2 * β) < 2 * (1 + β)) :
    Tendsto (fun n => ∑ k ∈ range n, (nesterovPath η β c (-(η * (1 + β)), 1) k).1 ^ 2) atTop
      (𝓝 (η * (1 + β + β * (1 + 2 * β) * (η * c)) / ((1 - β + β * (η * c)) * (c * (2 * (1 + β) - (1 + 2 * β) * (η * c)))))) := by
  have hE := energy_of_rec_general (fun n => (nesterovPath η β c (-(η * (1 + β)), 1) n).1) ((1 + β) * (1 - η * c)) (β * (1 - η * c))
    (nesterovPath_rec η β c _) (by nlinarith) (by nlinarith) (by nlinarith)
  convert hE using 2
  have hη0 : η ≠ 0 := by rintro rfl; simp at ha
  have hc0 : c ≠ 0 := by rintro rfl; simp at ha
  have q1 : 1 - β + β * (η * c) ≠ 0 := by nlinarith
  have q2 : 2 * (1 + β) - (1 + 2 * β) * (η * c) ≠ 0 := by nlinarith
  have e : (1 - β * (1 - η * c)) * ((1 + β * (1 - η * c)) ^ 2 - ((1 + β) * (1 - η * c)) ^ 2) =
      (1 - β + β * (η * c)) * (η * (c * (2 * (1 + β) - (1 + 2 * β) * (η * c)))) := by ring
  rw [e]
  simp only [nesterovPath]
  rw [div_eq_div_iff (mul_ne_zero q1 (mul_ne_zero hc0 q2)) (mul_ne_zero q1 (mul_ne_zero hη0 (mul_ne_zero hc0 q2)))]
  ring

theorem nesterov_component (η β : ℝ) (G : ℕ → (ℕ → ℕ → ℝ) → ℕ → ℕ → ℝ) (q v : ℕ → ℕ → ℝ) (c : ℝ) (ξ : ℕ → ℝ)
    (hv : ∀ n p, ∑ x ∈ idx σ, v x.1 x.2 * G n p x.1 x.2 = c * component σ v p q + ξ n) (p0 : ℕ → ℕ → ℝ) (n : ℕ) :
    component σ v (momentumSgd (fun _ => η) β true G p0 n).1 q = (nesterovPath η β c (component σ v p0 q, 0) n).1 +
        ∑ j ∈ range n, (nesterovPath η β c (-(η * (1 + β)), 1) (n - 1 - j)).1 * ξ j ∧
      ∑ x ∈ idx σ, v x.1 x.2 * (momentumSgd (fun _ => η) β true G p0 n).2 x.1 x.2 = (nesterovPath η β c (component σ v p0 q, 0) n).2 +
        ∑ j ∈ range n, (nesterovPath η β c (-(η * (1 + β)), 1) (n - 1 - j)).2 * ξ j := by
  induction n with
  | zero => simp [momentumSgd, nesterovPath]
  | succ n ih =>
    set S := momentumSgd (fun _ => η) β true G p0 with hS
    have hu : ∑ x ∈ idx σ, v x.1 x.2 * (S (n + 1)).2 x.1 x.2 =
        β * (∑ x ∈ idx σ, v x.1 x.2 * (S n).2 x.1 x.2) + (c * component σ v (S n).1 q + ξ n) := by
      rw [← hv, Finset.mul_sum, ← Finset.sum_add_distrib]
      refine Finset.sum_congr rfl fun x _ => ?_
      rw [hS]
      simp only [momentumSgd]
      ring
    have hw : component σ v (S (n + 1)).1 q = component σ v (S n).1 q - η * ((c * component σ v (S n).1 q + ξ n) +
        β * ∑ x ∈ idx σ, v x.1 x.2 * (S (n + 1)).2 x.1 x.2) := by
      rw [← hv]
      unfold component
      rw [Finset.mul_sum, ← Finset.sum_add_distrib, Finset.mul_sum, ← Finset.sum_sub_distrib]
      refine Finset.sum_congr rfl fun x _ => ?_
      rw [hS]
      simp only [momentumSgd, if_true]
      ring
    have hidx : ∀ j ∈ range n, n + 1 - 1 - j = n - 1 - j + 1 := fun j hj => by
      have := Finset.mem_range.mp hj; omega
    have s1 : ∑ j ∈ range (n + 1), (nesterovPath η β c (-(η * (1 + β)), 1) (n + 1 - 1 - j)).2 * ξ j =
        β * (∑ j ∈ range n, (nesterovPath η β c (-(η * (1 + β)), 1) (n - 1 - j)).2 * ξ j) +
          c * (∑ j ∈ range n, (nesterovPath η β c (-(η * (1 + β)), 1) (n - 1 - j)).1 * ξ j) + ξ n := by
      rw [Finset.sum_range_succ, Finset.mul_sum, Finset.mul_sum, ← Finset.sum_add_distrib]
      congr 1
      · refine Finset.sum_congr rfl fun j hj => ?_
        rw [hidx j hj]; simp only [nesterovPath]; ring
      · simp [nesterovPath]
    have s2 : ∑ j ∈ range (n + 1), (nesterovPath η β c (-(η * (1 + β)), 1) (n + 1 - 1 - j)).1 * ξ j =
        (∑ j ∈ range n, (nesterovPath η β c (-(η * (1 + β)), 1) (n - 1 - j)).1 * ξ j) -
          η * ((c * (∑ j ∈ range n, (nesterovPath η β c (-(η * (1 + β)), 1) (n - 1 - j)).1 * ξ j) + ξ n) +
            β * (∑ j ∈ range (n + 1), (nesterovPath η β c (-(η * (1 + β)), 1) (n + 1 - 1 - j)).2 * ξ j)) := by
      rw [s1, Finset.sum_range_succ]
      have : ∑ j ∈ range n, (nesterovPath η β c (-(η * (1 + β)), 1) (n + 1 - 1 - j)).1 * ξ j =
          (1 - η * c - η * β * c) * (∑ j ∈ range n, (nesterovPath η β c (-(η * (1 + β)), 1) (n - 1 - j)).1 * ξ j) -
            η * β * β * ∑ j ∈ range n, (nesterovPath η β c (-(η * (1 + β)), 1) (n - 1 - j)).2 * ξ j := by
        rw [Finset.mul_sum, Finset.mul_sum, ← Finset.sum_sub_distrib]
        refine Finset.sum_congr rfl fun j hj => ?_
        rw [hidx j hj]; simp only [nesterovPath]; ring
      rw [this]
      simp [nesterovPath]
      ring
    have hu' : ∑ x ∈ idx σ, v x.1 x.2 * (S (n + 1)).2 x.1 x.2 = (nesterovPath η β c (component σ v p0 q, 0) (n + 1)).2 +
        ∑ j ∈ range (n + 1), (nesterovPath η β c (-(η * (1 + β)), 1) (n + 1 - 1 - j)).2 * ξ j := by
      rw [hu, s1, ih.1, ih.2]
      simp only [nesterovPath]
      ring
    refine ⟨?_, hu'⟩
    rw [hw, hu', s2, ih.1]
    simp only [nesterovPath]
    ring

/-- **C165.** `sgd(η, momentum=β, nesterov=True)` along a direction of curvature `c` with centred, pairwise independent gradient noise of
variance `V`: whenever `0 < η c` and `η c (1 + 2 β) < 2 (1 + β)` the mean error tends to zero and the variance rises to
`η (1 + β + β (1 + 2 β) η c) V / ((1 - β + β η c) c (2 (1 + β) - (1 + 2 β) η c))`, never above it. -/
theorem C165_floor (η β : ℝ) (h0 : 0 ≤ β) (h1 : β < 1) (grad : Ω → ℕ → Params ℝ → Params ℝ)
    (G : Ω → ℕ → (ℕ → ℕ → ℝ) → ℕ → ℕ → ℝ) (hg : ∀ ω n p, grad ω n (mk σ p) = mk σ (G ω n p)) (q v : ℕ → ℕ → ℝ) (c V : ℝ)
    (ha : 0 < η * c) (hb : η * c * (1 + 2 * β) < 2 * (1 + β))
    (ξ : ℕ → Ω → ℝ) (hξ : NoisyEntry μ 0 V ξ)
    (hv : ∀ ω n p, ∑ x ∈ idx σ, v x.1 x.2 * G ω n p x.1 x.2 = c * component σ v p q + ξ n ω) (p0 : ℕ → ℕ → ℝ) :
    ∃ P : Ω → ℕ → ℕ → ℕ → ℝ, (∀ ω, P ω 0 = p0 ∧ Visits (sgd (.scalar η) (some β) true) (grad ω) σ (P ω)) ∧
      Tendsto (fun n => ∫ ω, component σ v (P ω n) q ∂μ) atTop (𝓝 0) ∧
      Tendsto (fun n => variance (fun ω => component σ v (P ω n) q) μ) atTop
        (𝓝 (η * (1 + β + β * (1 + 2 * β) * (η * c)) / ((1 - β + β * (η * c)) * (c * (2 * (1 + β) - (1 + 2 * β) * (η * c)))) * V)) ∧
      Monotone (fun n => variance (fun ω => component σ v (P ω n) q) μ) := by
  have hV : 0 ≤ V := by rw [← hξ.var 0]; exact variance_nonneg _ _
  have hp := fun ω n => (nesterov_component σ η β (G ω) q v c (fun n => ξ n ω) (hv ω) p0 n).1
  have hint : ∀ n, Integrable (fun ω => ∑ j ∈ range n, (nesterovPath η β c (-(η * (1 + β)), 1) (n - 1 - j)).1 * ξ j ω) μ := fun n =>
    integrable_finsetSum _ fun j _ => ((hξ.memLp j).integrable one_le_two).const_mul _
  have hmean : ∀ n, ∫ ω, component σ v (momentumSgd (fun _ => η) β true (G ω) p0 n).1 q ∂μ =
      (nesterovPath η β c (component σ v p0 q, 0) n).1 := by
    intro n
    simp only [hp]
    rw [integral_add (integrable_const _) (hint n), (hξ.weighted (range n) _).1]
    simp
  have hvar : ∀ n, variance (fun ω => component σ v (momentumSgd (fun _ => η) β true (G ω) p0 n).1 q) μ =
      (∑ k ∈ range n, (nesterovPath η β c (-(η * (1 + β)), 1) k).1 ^ 2) * V := by
    intro n
    simp only [hp]
    rw [variance_const_add (hint n).aestronglyMeasurable, (hξ.weighted (range n) _).2,
      Finset.sum_range_reflect (fun k => (nesterovPath η β c (-(η * (1 + β)), 1) k).1 ^ 2) n, mul_comm]
  refine ⟨fun ω n => (momentumSgd (fun _ => η) β true (G ω) p0 n).1, fun ω => ⟨rfl, momentum_visits σ (.scalar η) β true (grad ω) (G ω) (hg ω) p0⟩,
    ?_, ?_, ?_⟩
  · simp only [hmean]
    exact nesterovPath_tendsto η β c h0 h1 ha hb _
  · simp only [hvar]
    exact (nesterov_energy η β c h0 h1 ha hb).mul_const V
  · intro m n hmn
    simp only [hvar]
    refine mul_le_mul_of_nonneg_right ?_ hV
    exact Finset.sum_le_sum_of_subset_of_nonneg (Finset.range_mono hmn) fun _ _ _ => sq_nonneg _

/-- **C165 (Nesterov against heavy ball).** With the same rate and the same momentum, where both are stable, the Nesterov variant has the lower
floor (C161's is the right-hand side) exactly when `β (1 + 2 β) η c < (1 + β)² (2 β - 1)`; in particular never for `β ≤ 1/2`. -/
theorem C165_against_heavy_ball (η β c V : ℝ) (h0 : 0 < β) (h1 : β < 1) (hc : 0 < c) (hη : 0 < η) (hV : 0 < V)
    (hb : η * c * (1 + 2 * β) < 2 * (1 + β)) :
    η * (1 + β + β * (1 + 2 * β) * (η * c)) / ((1 - β + β * (η * c)) * (c * (2 * (1 + β) - (1 + 2 * β) * (η * c)))) * V <
      η * (1 + β) / ((1 - β) * (c * (2 * (1 + β) - η * c))) * V ↔ β * (1 + 2 * β) * (η * c) < (1 + β) ^ 2 * (2 * β - 1) := by
  have e0 : 0 < η * c := mul_pos hη hc
  have p1 : 0 < 1 - β + β * (η * c) := by nlinarith
  have p2 : 0 < 2 * (1 + β) - (1 + 2 * β) * (η * c) := by nlinarith
  have p3 : 0 < 2 * (1 + β) - η * c := by nlinarith
  have p4 : 0 < 1 - β := by linarith
  rw [mul_lt_mul_iff_left₀ hV, div_lt_div_iff₀ (by positivity) (by positivity), ← sub_pos, ← sub_pos (b := β * (1 + 2 * β) * (η * c))]
  have e : η * (1 + β) * ((1 - β + β * (η * c)) * (c * (2 * (1 + β) - (1 + 2 * β) * (η * c)))) -
      η * (1 + β + β * (1 + 2 * β) * (η * c)) * ((1 - β) * (c * (2 * (1 + β) - η * c))) =
      (2 * β * (η * c) * (η * c)) * ((1 + β) ^ 2 * (2 * β - 1) - β * (1 + 2 * β) * (η * c)) := by ring
  rw [e]
  exact mul_pos_iff_of_pos_left (by positivity)

/-- `η = 1/2`, `β = 9/10`, `c = 1` meets the hypotheses, and Nesterov's floor is the lower one there; with `β = 2/5` it is not. -/
example : (0 : ℝ) < 1 / 2 * 1 ∧ (1 / 2 * 1 * (1 + 2 * (9 / 10)) : ℝ) < 2 * (1 + 9 / 10) ∧
    (9 / 10 * (1 + 2 * (9 / 10)) * (1 / 2 * 1) : ℝ) < (1 + 9 / 10) ^ 2 * (2 * (9 / 10) - 1) ∧
    ¬ (2 / 5 * (1 + 2 * (2 / 5)) * (1 / 2 * 1) : ℝ) < (1 + 2 / 5) ^ 2 * (2 * (2 / 5) - 1) := by norm_num

/-- A loss `x²/2` with Gaussian gradient noise of variance 2 meets the hypotheses on the noise. -/
example : ∃ (G : (ℕ → ℝ) → ℕ → (ℕ → ℕ → ℝ) → ℕ → ℕ → ℝ) (ξ : ℕ → (ℕ → ℝ) → ℝ),
    NoisyEntry (Measure.infinitePi (fun _ : ℕ => gaussianReal 0 2)) 0 2 ξ ∧
    (∀ ω n p, ∑ x ∈ idx (.leaf [1]), (1 : ℝ) * G ω n p x.1 x.2 = 1 * component (.leaf [1]) (fun _ _ => 1) p (fun _ _ => 0) + ξ n ω) := by
  refine ⟨fun ω n p l i => p l i + ω n, fun n ω => ω n, gaussian_noisyEntry 0 2, fun ω n p => ?_⟩
  have e : idx (.leaf [1]) = {⟨0, 0⟩} := by decide
  simp [component, e]

end Optax
