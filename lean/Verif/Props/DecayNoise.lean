import Verif.Props.AccumulationNoise
import Verif.Props.Equilibrium

/-!
# C168: weight decay trades bias for noise

The setting of C160 with `chain(add_decayed_weights(w), sgd(η))`.
-/

set_option linter.unusedSectionVars false
set_option linter.unusedSimpArgs false

namespace Optax
open Finset MeasureTheory ProbabilityTheory Filter Topology

variable {Ω : Type*} [MeasurableSpace Ω] (μ : Measure Ω) [IsProbabilityMeasure μ] (σ : Spec)

/-- **C168.** `chain(add_decayed_weights(w), sgd(η))` along a direction `v` of curvature `c` around `q`, with centred, pairwise independent gradient
noise of variance `V` and `0 < η (c + w) < 2`: the mean error tends to `-w / (c + w)` times the component of `q`, the variance to
`η V / ((c + w) (2 - η (c + w)))` and the mean squared error to the sum of the variance and the squared bias. -/
theorem C168_bias_and_noise (η w : ℝ) (nes : Bool) (grad : Ω → ℕ → Params ℝ → Params ℝ)
    (G : Ω → ℕ → (ℕ → ℕ → ℝ) → ℕ → ℕ → ℝ) (hg : ∀ ω n p, grad ω n (mk σ p) = mk σ (G ω n p)) (q v : ℕ → ℕ → ℝ) (c V : ℝ)
    (h0 : 0 < η * (c + w)) (h2 : η * (c + w) < 2) (ξ : ℕ → Ω → ℝ) (hξ : NoisyEntry μ 0 V ξ)
    (hv : ∀ ω n p, ∑ x ∈ idx σ, v x.1 x.2 * G ω n p x.1 x.2 = c * component σ v p q + ξ n ω) (p0 : ℕ → ℕ → ℝ) :
    ∃ P : Ω → ℕ → ℕ → ℕ → ℝ, (∀ ω, P ω 0 = p0 ∧ Visits (chain [addDecayedWeights w, sgd (.scalar η) none nes]) (grad ω) σ (P ω)) ∧
      Tendsto (fun n => ∫ ω, component σ v (P ω n) q ∂μ) atTop (𝓝 (-(w / (c + w)) * ∑ x ∈ idx σ, v x.1 x.2 * q x.1 x.2)) ∧
      Tendsto (fun n => variance (fun ω => component σ v (P ω n) q) μ) atTop (𝓝 (η * V / ((c + w) * (2 - η * (c + w))))) ∧
      Tendsto (fun n => ∫ ω, component σ v (P ω n) q ^ 2 ∂μ) atTop
        (𝓝 (η * V / ((c + w) * (2 - η * (c + w))) + (w / (c + w) * ∑ x ∈ idx σ, v x.1 x.2 * q x.1 x.2) ^ 2)) := by
  set C := c + w with hC
  set a := ∑ x ∈ idx σ, v x.1 x.2 * q x.1 x.2 with ha
  have hC0 : C ≠ 0 := by intro h; rw [h] at h0; simp at h0
  have hη0 : η ≠ 0 := by intro h; rw [h] at h0; simp at h0
  let q' : ℕ → ℕ → ℝ := fun k i => c / C * q k i
  let G' : Ω → ℕ → (ℕ → ℕ → ℝ) → ℕ → ℕ → ℝ := fun ω n p k i => G ω n p k i + w * p k i
  have hq : ∀ p, component σ v p q = component σ v p q' - w / C * a := by
    intro p
    rw [ha, Finset.mul_sum]
    unfold component
    rw [← Finset.sum_sub_distrib]
    refine Finset.sum_congr rfl fun x _ => ?_
    simp only [q']
    field_simp
    rw [hC]
    ring
  have hv' : ∀ ω n p, ∑ x ∈ idx σ, v x.1 x.2 * G' ω n p x.1 x.2 = C * component σ v p q' + ξ n ω := by
    intro ω n p
    have e1 : ∑ x ∈ idx σ, v x.1 x.2 * G' ω n p x.1 x.2 = ∑ x ∈ idx σ, v x.1 x.2 * G ω n p x.1 x.2 + w * ∑ x ∈ idx σ, v x.1 x.2 * p x.1 x.2 := by
      rw [Finset.mul_sum, ← Finset.sum_add_distrib]
      exact Finset.sum_congr rfl fun x _ => by simp only [G']; ring
    have e2 : component σ v p q = ∑ x ∈ idx σ, v x.1 x.2 * p x.1 x.2 - a := by
      rw [ha, ← Finset.sum_sub_distrib]
      exact Finset.sum_congr rfl fun x _ => by ring
    have e3 := hq p
    rw [e1, hv]
    have e4 : C * component σ v p q' = C * component σ v p q + w * a := by rw [e3]; field_simp; ring
    rw [e4, e2, hC]
    ring
  have hp := fun ω n => component_path σ (fun _ => η) (G' ω) q' v C (fun n => ξ n ω) (hv' ω) p0 n
  set P : Ω → ℕ → ℕ → ℕ → ℝ := fun ω => plainSgd (fun _ => η) (G' ω) p0 with hP
  have hL : ∀ n, MemLp (fun ω => ∑ j ∈ range n, noiseWeight (fun _ => η) C n j * ξ j ω) 2 μ := fun n =>
    memLp_finsetSum _ fun j _ => (hξ.memLp j).const_mul _
  have hform : ∀ ω n, component σ v (P ω n) q = ((1 - η * C) ^ n * component σ v p0 q' - w / C * a) -
      ∑ j ∈ range n, noiseWeight (fun _ => η) C n j * ξ j ω := by
    intro ω n
    rw [hq, hP]
    simp only [hp, Finset.prod_const, Finset.card_range]
    ring
  have hX : ∀ n, MemLp (fun ω => component σ v (P ω n) q) 2 μ := fun n => by
    simp only [hform]
    have h3 : MemLp (fun _ : Ω => (1 - η * C) ^ n * component σ v p0 q' - w / C * a) 2 μ := memLp_const _
    exact h3.sub (hL n)
  have hm : ∀ n, ∫ ω, component σ v (P ω n) q ∂μ = (1 - η * C) ^ n * component σ v p0 q' - w / C * a := fun n => by
    simp only [hform]
    rw [integral_sub (integrable_const _) ((hL n).integrable one_le_two), (hξ.weighted (range n) _).1]
    simp
  have hw := noiseWeight_energy η C
  have hvar : ∀ n, variance (fun ω => component σ v (P ω n) q) μ = V * (η ^ 2 * ∑ j ∈ range n, ((1 - η * C) ^ 2) ^ j) := fun n => by
    simp only [hform]
    rw [variance_const_sub (hL n).1, (hξ.weighted (range n) _).2, hw]
  have hab : |1 - η * C| < 1 := by rw [abs_lt]; constructor <;> linarith
  have tm : Tendsto (fun n => (1 - η * C) ^ n * component σ v p0 q' - w / C * a) atTop (𝓝 (-(w / C) * a)) := by
    have := ((tendsto_pow_atTop_nhds_zero_of_abs_lt_one hab).mul_const (component σ v p0 q')).sub_const (w / C * a)
    convert this using 2
    ring
  have hsq : (1 - η * C) ^ 2 < 1 := by nlinarith
  have hs := (hasSum_geometric_of_lt_one (sq_nonneg (1 - η * C)) hsq).tendsto_sum_nat
  have tv : Tendsto (fun n => V * (η ^ 2 * ∑ j ∈ range n, ((1 - η * C) ^ 2) ^ j)) atTop (𝓝 (η * V / (C * (2 - η * C)))) := by
    have := (hs.const_mul (η ^ 2)).const_mul V
    have q1 : 2 - η * C ≠ 0 := by linarith
    have e : V * (η ^ 2 * (1 - (1 - η * C) ^ 2)⁻¹) = η * V / (C * (2 - η * C)) := by
      have : 1 - (1 - η * C) ^ 2 = η * (C * (2 - η * C)) := by ring
      rw [this]
      field_simp
    rw [e] at this
    exact this
  have h2m : ∀ n, ∫ ω, component σ v (P ω n) q ^ 2 ∂μ =
      V * (η ^ 2 * ∑ j ∈ range n, ((1 - η * C) ^ 2) ^ j) + ((1 - η * C) ^ n * component σ v p0 q' - w / C * a) ^ 2 := fun n => by
    have := variance_eq_sub (hX n)
    rw [hvar, hm] at this
    have e : ∫ ω, component σ v (P ω n) q ^ 2 ∂μ = ∫ ω, ((fun ω => component σ v (P ω n) q) ^ 2) ω ∂μ := rfl
    rw [e]
    linarith
  refine ⟨P, fun ω => ⟨rfl, decayed_visits σ (.scalar η) w nes p0 (G ω) (hg ω)⟩, ?_, ?_, ?_⟩
  · simp only [hm]; exact tm
  · simp only [hvar]; exact tv
  · simp only [h2m]
    have := tv.add (tm.pow 2)
    rw [neg_mul, neg_sq] at this
    exact this

/-- **C168 (some weight decay helps).** Below half of the stability limit, `η c < 1`, and with any noise at all, whatever the minimiser: a small
positive weight decay gives a smaller limit of the mean squared error than none (C160's floor). -/
theorem C168_decay_helps (η c V a : ℝ) (hη : 0 < η) (hc : 0 < c) (h1 : η * c < 1) (hV : 0 < V) :
    ∃ w > 0, 0 < η * (c + w) ∧ η * (c + w) < 2 ∧
      η * V / ((c + w) * (2 - η * (c + w))) + (w / (c + w) * a) ^ 2 < η * V / (c * (2 - η * c)) := by
  let h : ℝ → ℝ := fun w => η * V * (2 - 2 * (η * c) - η * w) * (c + w) - w * a ^ 2 * (c * (2 - η * c)) * (2 - η * (c + w))
  have hcont : Continuous h := by fun_prop
  have hpos : 0 < h 0 := by
    have : h 0 = η * V * (2 * (1 - η * c)) * c := by simp only [h]; ring
    rw [this]
    have : 0 < 1 - η * c := by linarith
    positivity
  have ev1 : ∀ᶠ w in 𝓝 (0 : ℝ), 0 < h w := hcont.continuousAt.eventually (lt_mem_nhds hpos)
  have hc2 : Continuous fun w : ℝ => η * (c + w) := by fun_prop
  have ev2 : ∀ᶠ w in 𝓝 (0 : ℝ), η * (c + w) < 2 :=
    hc2.continuousAt.eventually (gt_mem_nhds (by simp only [add_zero]; linarith))
  obtain ⟨w, ⟨hw1, hw2⟩, hw0⟩ := (((ev1.and ev2).filter_mono nhdsWithin_le_nhds).and (self_mem_nhdsWithin (a := (0 : ℝ)) (s := Set.Ioi 0))).exists
  have hw0' : 0 < w := hw0
  refine ⟨w, hw0', by positivity, hw2, ?_⟩
  have q1 : 0 < 2 - η * (c + w) := by linarith
  have q2 : 0 < 2 - η * c := by linarith
  have q3 : 0 < c + w := by linarith
  rw [← sub_pos]
  have e : η * V / (c * (2 - η * c)) - (η * V / ((c + w) * (2 - η * (c + w))) + (w / (c + w) * a) ^ 2) =
      w * h w / (c * (2 - η * c) * (c + w) ^ 2 * (2 - η * (c + w))) := by
    simp only [h]
    field_simp
    ring
  rw [e]
  positivity

/-- `η = 1/2`, `w = 1`, curvature 1 around 2 and Gaussian gradient noise of variance 2 meet the hypotheses. -/
example : ∃ (G : (ℕ → ℝ) → ℕ → (ℕ → ℕ → ℝ) → ℕ → ℕ → ℝ) (ξ : ℕ → (ℕ → ℝ) → ℝ),
    NoisyEntry (Measure.infinitePi (fun _ : ℕ => gaussianReal 0 2)) 0 2 ξ ∧ (0 : ℝ) < 1 / 2 * (1 + 1) ∧ (1 / 2 * (1 + 1) : ℝ) < 2 ∧ (1 / 2 * 1 : ℝ) < 1 ∧
    (∀ ω n p, ∑ x ∈ idx (.leaf [1]), (1 : ℝ) * G ω n p x.1 x.2 = 1 * component (.leaf [1]) (fun _ _ => 1) p (fun _ _ => 2) + ξ n ω) := by
  refine ⟨fun ω n p l i => p l i - 2 + ω n, fun n ω => ω n, gaussian_noisyEntry 0 2, by norm_num, by norm_num, by norm_num, fun ω n p => ?_⟩
  have e : idx (.leaf [1]) = {⟨0, 0⟩} := by decide
  simp [component, e]

end Optax
