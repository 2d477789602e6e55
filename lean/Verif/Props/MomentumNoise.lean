import Verif.Props.Stationary
import Verif.Props.Momentum

/-!
# C161: the noise floor of heavy-ball momentum

The setting of C160 with `sgd(η, momentum=β)`.
-/

set_option linter.unusedSectionVars false
set_option linter.unusedSimpArgs false

namespace Optax
open Finset MeasureTheory ProbabilityTheory Filter Topology

variable {Ω : Type*} [MeasurableSpace Ω] (μ : Measure Ω) [IsProbabilityMeasure μ] (σ : Spec)

/-- heavy-ball on one coordinate of a quadratic of curvature `c` without noise: parameter error and velocity, from `s` -/
def heavyBall (η β c : ℝ) (s : ℝ × ℝ) : ℕ → ℝ × ℝ
  | 0 => s
  | n + 1 => ((heavyBall η β c s n).1 - η * (β * (heavyBall η β c s n).2 + c * (heavyBall η β c s n).1),
      β * (heavyBall η β c s n).2 + c * (heavyBall η β c s n).1)

theorem heavyBall_rec (η β c : ℝ) (s : ℝ × ℝ) (n : ℕ) :
    (heavyBall η β c s (n + 2)).1 = (1 + β - η * c) * (heavyBall η β c s (n + 1)).1 - β * (heavyBall η β c s n).1 := by
  simp only [heavyBall]; ring

theorem heavyBall_tendsto (η β c : ℝ) (h1 : β < 1) (ha : 0 < η * c) (hb : η * c < 2 * (1 + β)) (s : ℝ × ℝ) :
    Tendsto (fun n => (heavyBall η β c s n).1) atTop (𝓝 0) :=
  tendsto_of_schur _ (1 + β - η * c) β (heavyBall_rec η β c s) h1 (by linarith) (by linarith)

/-- the energy of the response to a single disturbance of the gradient -/
theorem impulse_energy (η β c : ℝ) (h0 : 0 ≤ β) (h1 : β < 1) (ha : 0 < η * c) (hb : η * c < 2 * (1 + β)) :
    Tendsto (fun n => ∑ k ∈ range n, (heavyBall η β c (-η, 1) k).1 ^ 2) atTop
      (𝓝 (η * (1 + β) / ((1 - β) * (c * (2 * (1 + β) - η * c))))) := by
  set h : ℕ → ℝ := fun n => (heavyBall η β c (-η, 1) n).1 with hh
  set s := 1 + β - η * c with hs
  have hrec : ∀ n, h (n + 2) = s * h (n + 1) - β * h n := heavyBall_rec η β c _
  have e0 : h 0 = -η := rfl
  have e1 : h 1 = -η * s := by simp only [hh, heavyBall, hs]; ring
  have ht : Tendsto h atTop (𝓝 0) := heavyBall_tendsto η β c h1 ha hb _
  set κ := (1 - β) * ((1 + β) ^ 2 - s ^ 2) with hκ
  have hκe : κ = (1 - β) * (η * (c * (2 * (1 + β) - η * c))) := by rw [hκ, hs]; ring
  have hκ0 : 0 < κ := by
    rw [hκe, ← mul_assoc η]
    exact mul_pos (by linarith) (mul_pos ha (by linarith))
  have key : ∀ n, κ * ∑ k ∈ range (n + 1), h k ^ 2 =
      η ^ 2 * (1 + β) - (β ^ 2 * (1 + β) * h n ^ 2 - 2 * (s * β) * h n * h (n + 1) + (1 + β) * h (n + 1) ^ 2) := by
    intro n
    induction n with
    | zero => simp only [Finset.sum_range_one, Nat.zero_add, e0, e1, hκ]; ring
    | succ n ih => rw [Finset.sum_range_succ, mul_add, ih, hrec n, hκ]; ring
  have ht1 : Tendsto (fun n => h (n + 1)) atTop (𝓝 0) := ht.comp (tendsto_add_atTop_nat 1)
  have hlim : Tendsto (fun n => κ * ∑ k ∈ range (n + 1), h k ^ 2) atTop (𝓝 (η ^ 2 * (1 + β))) := by
    simp only [key]
    have := (((ht.pow 2).const_mul (β ^ 2 * (1 + β))).sub ((ht.const_mul (2 * (s * β))).mul ht1)).add ((ht1.pow 2).const_mul (1 + β))
    simpa using this.const_sub (η ^ 2 * (1 + β))
  have hdiv := hlim.const_mul κ⁻¹
  have e : κ⁻¹ * (η ^ 2 * (1 + β)) = η * (1 + β) / ((1 - β) * (c * (2 * (1 + β) - η * c))) := by
    have hη0 : η ≠ 0 := by rintro rfl; simp at ha
    have hc0 : c ≠ 0 := by rintro rfl; simp at ha
    have q1 : 1 - β ≠ 0 := by linarith
    have q2 : 2 * (1 + β) - η * c ≠ 0 := by linarith
    rw [hκe]
    field_simp
  rw [e] at hdiv
  have : Tendsto (fun n => ∑ k ∈ range (n + 1), h k ^ 2) atTop (𝓝 (η * (1 + β) / ((1 - β) * (c * (2 * (1 + β) - η * c))))) := by
    refine hdiv.congr fun n => ?_
    rw [← mul_assoc, inv_mul_cancel₀ hκ0.ne', one_mul]
  exact (tendsto_add_atTop_iff_nat 1).mp this

theorem momentum_component (η β : ℝ) (G : ℕ → (ℕ → ℕ → ℝ) → ℕ → ℕ → ℝ) (q v : ℕ → ℕ → ℝ) (c : ℝ) (ξ : ℕ → ℝ)
    (hv : ∀ n p, ∑ x ∈ idx σ, v x.1 x.2 * G n p x.1 x.2 = c * component σ v p q + ξ n) (p0 : ℕ → ℕ → ℝ) (n : ℕ) :
    component σ v (momentumSgd (fun _ => η) β false G p0 n).1 q = (heavyBall η β c (component σ v p0 q, 0) n).1 +
        ∑ j ∈ range n, (heavyBall η β c (-η, 1) (n - 1 - j)).1 * ξ j ∧
      ∑ x ∈ idx σ, v x.1 x.2 * (momentumSgd (fun _ => η) β false G p0 n).2 x.1 x.2 = (heavyBall η β c (component σ v p0 q, 0) n).2 +
        ∑ j ∈ range n, (heavyBall η β c (-η, 1) (n - 1 - j)).2 * ξ j := by
  induction n with
  | zero => simp [momentumSgd, heavyBall]
  | succ n ih =>
    set S := momentumSgd (fun _ => η) β false G p0 with hS
    have hu : ∑ x ∈ idx σ, v x.1 x.2 * (S (n + 1)).2 x.1 x.2 =
        β * (∑ x ∈ idx σ, v x.1 x.2 * (S n).2 x.1 x.2) + (c * component σ v (S n).1 q + ξ n) := by
      rw [← hv, Finset.mul_sum, ← Finset.sum_add_distrib]
      refine Finset.sum_congr rfl fun x _ => ?_
      rw [hS]
      simp only [momentumSgd]
      ring
    have hw : component σ v (S (n + 1)).1 q = component σ v (S n).1 q - η * ∑ x ∈ idx σ, v x.1 x.2 * (S (n + 1)).2 x.1 x.2 := by
      unfold component
      rw [Finset.mul_sum, ← Finset.sum_sub_distrib]
      refine Finset.sum_congr rfl fun x _ => ?_
      rw [hS]
      simp only [momentumSgd, Bool.false_eq_true, if_false]
      ring
    have hidx : ∀ j ∈ range n, n + 1 - 1 - j = n - 1 - j + 1 := fun j hj => by
      have := Finset.mem_range.mp hj; omega
    have s1 : ∑ j ∈ range (n + 1), (heavyBall η β c (-η, 1) (n + 1 - 1 - j)).2 * ξ j =
        β * (∑ j ∈ range n, (heavyBall η β c (-η, 1) (n - 1 - j)).2 * ξ j) +
          c * (∑ j ∈ range n, (heavyBall η β c (-η, 1) (n - 1 - j)).1 * ξ j) + ξ n := by
      rw [Finset.sum_range_succ, Finset.mul_sum, Finset.mul_sum, ← Finset.sum_add_distrib]
      congr 1
      · refine Finset.sum_congr rfl fun j hj => ?_
        rw [hidx j hj]; simp only [heavyBall]; ring
      · simp [heavyBall]
    have s2 : ∑ j ∈ range (n + 1), (heavyBall η β c (-η, 1) (n + 1 - 1 - j)).1 * ξ j =
        (∑ j ∈ range n, (heavyBall η β c (-η, 1) (n - 1 - j)).1 * ξ j) -
          η * (∑ j ∈ range (n + 1), (heavyBall η β c (-η, 1) (n + 1 - 1 - j)).2 * ξ j) := by
      rw [Finset.sum_range_succ, Finset.sum_range_succ, mul_add, Finset.mul_sum]
      have : ∑ j ∈ range n, (heavyBall η β c (-η, 1) (n + 1 - 1 - j)).1 * ξ j =
          ∑ j ∈ range n, (heavyBall η β c (-η, 1) (n - 1 - j)).1 * ξ j - ∑ j ∈ range n, η * ((heavyBall η β c (-η, 1) (n + 1 - 1 - j)).2 * ξ j) := by
        rw [← Finset.sum_sub_distrib]
        refine Finset.sum_congr rfl fun j hj => ?_
        rw [hidx j hj]; simp only [heavyBall]; ring
      rw [this]
      simp [heavyBall]
      ring
    have hu' : ∑ x ∈ idx σ, v x.1 x.2 * (S (n + 1)).2 x.1 x.2 = (heavyBall η β c (component σ v p0 q, 0) (n + 1)).2 +
        ∑ j ∈ range (n + 1), (heavyBall η β c (-η, 1) (n + 1 - 1 - j)).2 * ξ j := by
      rw [hu, s1, ih.1, ih.2]
      simp only [heavyBall]
      ring
    refine ⟨?_, hu'⟩
    rw [hw, hu', s2, ih.1]
    simp only [heavyBall]
    ring

/-- **C161.** `sgd(η, momentum=β)` along a direction of curvature `c` with centred, pairwise independent gradient noise of variance `V`:
whenever `0 < η c < 2 (1 + β)` the mean error tends to zero and the variance rises to `η (1 + β) V / ((1 - β) c (2 (1 + β) - η c))`,
never above it. -/
theorem C161_floor (η β : ℝ) (h0 : 0 ≤ β) (h1 : β < 1) (grad : Ω → ℕ → Params ℝ → Params ℝ)
    (G : Ω → ℕ → (ℕ → ℕ → ℝ) → ℕ → ℕ → ℝ) (hg : ∀ ω n p, grad ω n (mk σ p) = mk σ (G ω n p)) (q v : ℕ → ℕ → ℝ) (c V : ℝ)
    (ha : 0 < η * c) (hb : η * c < 2 * (1 + β))
    (ξ : ℕ → Ω → ℝ) (hξ : NoisyEntry μ 0 V ξ)
    (hv : ∀ ω n p, ∑ x ∈ idx σ, v x.1 x.2 * G ω n p x.1 x.2 = c * component σ v p q + ξ n ω) (p0 : ℕ → ℕ → ℝ) :
    ∃ P : Ω → ℕ → ℕ → ℕ → ℝ, (∀ ω, P ω 0 = p0 ∧ Visits (sgd (.scalar η) (some β) false) (grad ω) σ (P ω)) ∧
      Tendsto (fun n => ∫ ω, component σ v (P ω n) q ∂μ) atTop (𝓝 0) ∧
      Tendsto (fun n => variance (fun ω => component σ v (P ω n) q) μ) atTop
        (𝓝 (η * (1 + β) / ((1 - β) * (c * (2 * (1 + β) - η * c))) * V)) ∧
      Monotone (fun n => variance (fun ω => component σ v (P ω n) q) μ) := by
  have hV : 0 ≤ V := by rw [← hξ.var 0]; exact variance_nonneg _ _
  have hp := fun ω n => (momentum_component σ η β (G ω) q v c (fun n => ξ n ω) (hv ω) p0 n).1
  have hint : ∀ n, Integrable (fun ω => ∑ j ∈ range n, (heavyBall η β c (-η, 1) (n - 1 - j)).1 * ξ j ω) μ := fun n =>
    integrable_finsetSum _ fun j _ => ((hξ.memLp j).integrable one_le_two).const_mul _
  have hmean : ∀ n, ∫ ω, component σ v (momentumSgd (fun _ => η) β false (G ω) p0 n).1 q ∂μ =
      (heavyBall η β c (component σ v p0 q, 0) n).1 := by
    intro n
    simp only [hp]
    rw [integral_add (integrable_const _) (hint n), (hξ.weighted (range n) _).1]
    simp
  have hvar : ∀ n, variance (fun ω => component σ v (momentumSgd (fun _ => η) β false (G ω) p0 n).1 q) μ =
      (∑ k ∈ range n, (heavyBall η β c (-η, 1) k).1 ^ 2) * V := by
    intro n
    simp only [hp]
    rw [variance_const_add (hint n).aestronglyMeasurable, (hξ.weighted (range n) _).2,
      Finset.sum_range_reflect (fun k => (heavyBall η β c (-η, 1) k).1 ^ 2) n, mul_comm]
  refine ⟨fun ω n => (momentumSgd (fun _ => η) β false (G ω) p0 n).1, fun ω => ⟨rfl, momentum_visits σ (.scalar η) β false (grad ω) (G ω) (hg ω) p0⟩,
    ?_, ?_, ?_⟩
  · simp only [hmean]
    exact heavyBall_tendsto η β c h1 ha hb _
  · simp only [hvar]
    exact (impulse_energy η β c h0 h1 ha hb).mul_const V
  · intro m n hmn
    simp only [hvar]
    refine mul_le_mul_of_nonneg_right ?_ hV
    exact Finset.sum_le_sum_of_subset_of_nonneg (Finset.range_mono hmn) fun _ _ _ => sq_nonneg _

/-- **C161 (momentum against plain steps).** At the same effective rate `η / (1 - β)` — the rate that matters for progress — momentum has
the lower floor: its variance is below that of `sgd(η / (1 - β))` whenever both are stable. -/
theorem C161_less_noise (η β c V : ℝ) (h0 : 0 < β) (h1 : β < 1) (hc : 0 < c) (hη : 0 < η) (hV : 0 < V)
    (hb : η / (1 - β) * c < 2) :
    η * (1 + β) / ((1 - β) * (c * (2 * (1 + β) - η * c))) * V < (η / (1 - β)) * V / (c * (2 - (η / (1 - β)) * c)) := by
  have q1 : 0 < 1 - β := by linarith
  have hb' : η * c < 2 * (1 - β) := by
    rw [div_mul_eq_mul_div, div_lt_iff₀ q1] at hb
    linarith
  have q2 : 0 < 2 * (1 + β) - η * c := by linarith
  have q3 : 0 < 2 * (1 - β) - η * c := by linarith
  have q4 : 0 < 2 - (η / (1 - β)) * c := by linarith
  have e : (η / (1 - β)) * V / (c * (2 - (η / (1 - β)) * c)) = η * V / (c * (2 * (1 - β) - η * c)) := by
    have : 2 - (η / (1 - β)) * c = (2 * (1 - β) - η * c) / (1 - β) := by field_simp
    rw [this]
    field_simp
  rw [e, div_mul_eq_mul_div, div_lt_div_iff₀ (by positivity) (by positivity)]
  have hβη : 0 < η * V * c * (2 * β * (η * c)) := by positivity
  nlinarith [hβη]

/-- `η = 1/2`, `β = 9/10`, `c = 1`, the loss `x²/2` with Gaussian gradient noise of variance 2 meets the hypotheses. -/
example : ∃ (G : (ℕ → ℝ) → ℕ → (ℕ → ℕ → ℝ) → ℕ → ℕ → ℝ) (ξ : ℕ → (ℕ → ℝ) → ℝ),
    NoisyEntry (Measure.infinitePi (fun _ : ℕ => gaussianReal 0 2)) 0 2 ξ ∧
    (∀ ω n p, ∑ x ∈ idx (.leaf [1]), (1 : ℝ) * G ω n p x.1 x.2 = 1 * component (.leaf [1]) (fun _ _ => 1) p (fun _ _ => 0) + ξ n ω) ∧
    (0 : ℝ) < 1 / 2 * 1 ∧ (1 / 2 * 1 : ℝ) < 2 * (1 + 9 / 10) := by
  refine ⟨fun ω n p l i => p l i + ω n, fun n ω => ω n, gaussian_noisyEntry 0 2, fun ω n p => ?_, by norm_num, by norm_num⟩
  have e : idx (.leaf [1]) = {⟨0, 0⟩} := by decide
  simp [component, e]

end Optax
