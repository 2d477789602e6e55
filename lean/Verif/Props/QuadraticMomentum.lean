import Verif.Props.QuadraticFloor
import Verif.Props.NesterovNoise

/-!
# C166: the noise floor of momentum on a quadratic loss

The setting of C164 (`quadraticLoss`, `IsotropicNoise`) with the two variants of momentum of C161 and C165.
-/

set_option linter.unusedSectionVars false
set_option linter.unusedSimpArgs false

namespace Optax
open Finset MeasureTheory ProbabilityTheory Filter Topology

variable {Ω : Type*} [MeasurableSpace Ω] (μ : Measure Ω) [IsProbabilityMeasure μ] (σ : Spec)

/-- second moments of a vanishing mean plus filtered noise -/
theorem filtered_second_moment (V : ℝ) (ξ : ℕ → Ω → ℝ) (hξ : NoisyEntry μ 0 V ξ) (X : ℕ → Ω → ℝ) (a w : ℕ → ℝ) (E : ℝ)
    (hX : ∀ n ω, X n ω = a n + ∑ j ∈ range n, w (n - 1 - j) * ξ j ω) (ha : Tendsto a atTop (𝓝 0))
    (hw : Tendsto (fun n => ∑ k ∈ range n, w k ^ 2) atTop (𝓝 E)) :
    (∀ n, Integrable (fun ω => X n ω ^ 2) μ) ∧ Tendsto (fun n => ∫ ω, X n ω ^ 2 ∂μ) atTop (𝓝 (E * V)) := by
  have hL : ∀ n, MemLp (fun ω => ∑ j ∈ range n, w (n - 1 - j) * ξ j ω) 2 μ := fun n =>
    memLp_finsetSum _ fun j _ => (hξ.memLp j).const_mul _
  have hM : ∀ n, MemLp (X n) 2 μ := fun n => by
    have e : X n = fun ω => a n + ∑ j ∈ range n, w (n - 1 - j) * ξ j ω := funext (hX n)
    rw [e]
    have h3 : MemLp (fun _ : Ω => a n) 2 μ := memLp_const (a n)
    exact h3.add (hL n)
  have hm : ∀ n, ∫ ω, X n ω ∂μ = a n := fun n => by
    simp only [hX]
    rw [integral_add (integrable_const _) ((hL n).integrable one_le_two), (hξ.weighted (range n) _).1]
    simp
  have hv : ∀ n, variance (X n) μ = (∑ k ∈ range n, w k ^ 2) * V := fun n => by
    have e : X n = fun ω => a n + ∑ j ∈ range n, w (n - 1 - j) * ξ j ω := funext (hX n)
    rw [e, variance_const_add (hL n).1, (hξ.weighted (range n) _).2, Finset.sum_range_reflect (fun k => w k ^ 2) n, mul_comm]
  refine ⟨fun n => (hM n).integrable_sq, ?_⟩
  have h2 : ∀ n, ∫ ω, X n ω ^ 2 ∂μ = (∑ k ∈ range n, w k ^ 2) * V + a n ^ 2 := fun n => by
    have h1 := variance_eq_sub (hM n)
    rw [hv, hm] at h1
    have e : ∫ ω, X n ω ^ 2 ∂μ = ∫ ω, (X n ^ 2) ω ∂μ := rfl
    rw [e]
    linarith
  simp only [h2]
  simpa using (hw.mul_const V).add (ha.pow 2)

/-- from the second moment along every eigenvector to the squared distance and the loss -/
theorem quadratic_second_moment (V : ℝ) (M : Matrix (idx σ) (idx σ) ℝ) (hM : M.IsHermitian)
    (G : Ω → ℕ → (ℕ → ℕ → ℝ) → ℕ → ℕ → ℝ) (q : ℕ → ℕ → ℝ) (Ξ : ℕ → Ω → ℕ → ℕ → ℝ) (hΞ : IsotropicNoise μ σ V Ξ)
    (hG : ∀ ω n p (x : idx σ), G ω n p x.1.1 x.1.2 = ∑ y : idx σ, M x y * (p y.1.1 y.1.2 - q y.1.1 y.1.2) + Ξ n ω x.1.1 x.1.2)
    (P : Ω → ℕ → ℕ → ℕ → ℝ) (f : ℝ → ℝ)
    (hP : ∀ j (v : ℕ → ℕ → ℝ) (ξ : ℕ → Ω → ℝ), NoisyEntry μ 0 V ξ →
      (∀ ω n p, ∑ x ∈ idx σ, v x.1 x.2 * G ω n p x.1 x.2 = hM.eigenvalues j * component σ v p q + ξ n ω) →
      (∀ n, Integrable (fun ω => component σ v (P ω n) q ^ 2) μ) ∧
        Tendsto (fun n => ∫ ω, component σ v (P ω n) q ^ 2 ∂μ) atTop (𝓝 (f (hM.eigenvalues j)))) :
    Tendsto (fun n => ∫ ω, treeDist σ (P ω n) q ^ 2 ∂μ) atTop (𝓝 (∑ j, f (hM.eigenvalues j))) ∧
      Tendsto (fun n => ∫ ω, quadraticLoss σ M q (P ω n) ∂μ) atTop (𝓝 (∑ j, hM.eigenvalues j / 2 * f (hM.eigenvalues j))) := by
  let b : idx σ → ℕ → ℕ → ℝ := fun j k i => if h : (⟨k, i⟩ : Σ _ : ℕ, ℕ) ∈ idx σ then hM.eigenvectorBasis j ⟨⟨k, i⟩, h⟩ else 0
  have hb : ∀ j (x : idx σ), b j x.1.1 x.1.2 = hM.eigenvectorBasis j x := by
    intro j x
    simp only [b]
    rw [dif_pos x.2]
  have hsum : ∀ (f : (Σ _ : ℕ, ℕ) → ℝ), ∑ x ∈ idx σ, f x = ∑ x : idx σ, f x.1 := fun f => (Finset.sum_coe_sort (idx σ) f).symm
  have hnorm : ∀ j, ∑ x ∈ idx σ, b j x.1 x.2 ^ 2 = 1 := by
    intro j
    have h1 := hM.eigenvectorBasis.orthonormal.1 j
    have h2 : ‖hM.eigenvectorBasis j‖ ^ 2 = 1 := by rw [h1]; norm_num
    rw [EuclideanSpace.real_norm_sq_eq] at h2
    rw [hsum, ← h2]
    exact Finset.sum_congr rfl fun x _ => by rw [hb]
  have hsym : ∀ x y, M x y = M y x := fun x y => by
    have := hM.apply x y
    simpa using this.symm
  have heig : ∀ j (x : idx σ), ∑ y : idx σ, M x y * hM.eigenvectorBasis j y = hM.eigenvalues j * hM.eigenvectorBasis j x := by
    intro j x
    have h1 := congrFun (hM.mulVec_eigenvectorBasis j) x
    simp only [Matrix.mulVec, dotProduct, Pi.smul_apply, smul_eq_mul] at h1
    exact h1
  have hcomp : ∀ j p, component σ (b j) p q = ∑ x : idx σ, hM.eigenvectorBasis j x * (p x.1.1 x.1.2 - q x.1.1 x.1.2) := by
    intro j p
    unfold component
    rw [hsum]
    exact Finset.sum_congr rfl fun x _ => by rw [hb]
  have hdir : ∀ j p, ∑ x : idx σ, hM.eigenvectorBasis j x * ∑ y : idx σ, M x y * (p y.1.1 y.1.2 - q y.1.1 y.1.2) =
      hM.eigenvalues j * component σ (b j) p q := by
    intro j p
    rw [hcomp, Finset.mul_sum]
    calc ∑ x : idx σ, hM.eigenvectorBasis j x * ∑ y : idx σ, M x y * (p y.1.1 y.1.2 - q y.1.1 y.1.2)
        = ∑ x : idx σ, ∑ y : idx σ, hM.eigenvectorBasis j x * (M x y * (p y.1.1 y.1.2 - q y.1.1 y.1.2)) :=
          Finset.sum_congr rfl fun x _ => Finset.mul_sum _ _ _
      _ = ∑ y : idx σ, ∑ x : idx σ, hM.eigenvectorBasis j x * (M x y * (p y.1.1 y.1.2 - q y.1.1 y.1.2)) := Finset.sum_comm
      _ = ∑ y : idx σ, hM.eigenvalues j * (hM.eigenvectorBasis j y * (p y.1.1 y.1.2 - q y.1.1 y.1.2)) := by
          refine Finset.sum_congr rfl fun y _ => ?_
          rw [← mul_assoc, ← heig, Finset.sum_mul]
          exact Finset.sum_congr rfl fun x _ => by rw [hsym x y]; ring
  -- Parseval
  have hinner : ∀ (j : idx σ) (a : idx σ → ℝ), inner ℝ (hM.eigenvectorBasis j) (WithLp.toLp 2 a : EuclideanSpace ℝ (idx σ)) = ∑ x : idx σ, hM.eigenvectorBasis j x * a x := by
    intro j a
    rw [PiLp.inner_apply]
    refine Finset.sum_congr rfl fun x _ => ?_
    simp [mul_comm]
  have hpars : ∀ a d : idx σ → ℝ, ∑ x, a x * d x = ∑ j, (∑ x, hM.eigenvectorBasis j x * a x) * (∑ x, hM.eigenvectorBasis j x * d x) := by
    intro a d
    have h1 := hM.eigenvectorBasis.sum_inner_mul_inner (WithLp.toLp 2 a) (WithLp.toLp 2 d)
    have h2 : inner ℝ (WithLp.toLp 2 a : EuclideanSpace ℝ (idx σ)) (WithLp.toLp 2 d) = ∑ x, a x * d x := by
      rw [PiLp.inner_apply]
      exact Finset.sum_congr rfl fun x _ => by simp [mul_comm]
    rw [← h2, ← h1]
    refine Finset.sum_congr rfl fun j _ => ?_
    rw [real_inner_comm, hinner, hinner]
  have hdist : ∀ p, treeDist σ p q ^ 2 = ∑ j, component σ (b j) p q ^ 2 := by
    intro p
    rw [← sqDist_eq, sqDist, hsum]
    have := hpars (fun x => p x.1.1 x.1.2 - q x.1.1 x.1.2) (fun x => p x.1.1 x.1.2 - q x.1.1 x.1.2)
    simp only [← hcomp, ← sq] at this
    exact this
  have hloss : ∀ p, quadraticLoss σ M q p = ∑ j, hM.eigenvalues j / 2 * component σ (b j) p q ^ 2 := by
    intro p
    unfold quadraticLoss
    rw [hpars (fun x => p x.1.1 x.1.2 - q x.1.1 x.1.2) (fun x => ∑ y : idx σ, M x y * (p y.1.1 y.1.2 - q y.1.1 y.1.2)), Finset.sum_div]
    refine Finset.sum_congr rfl fun j _ => ?_
    rw [hdir, ← hcomp]
    ring
  have hnoise : ∀ j, _ := fun j => hP j (b j) (fun n ω => ∑ x ∈ idx σ, b j x.1 x.2 * Ξ n ω x.1 x.2) (hΞ.along (b j) (hnorm j)) (by
      intro ω n p
      rw [← hdir, hsum, hsum, ← Finset.sum_add_distrib]
      refine Finset.sum_congr rfl fun x _ => ?_
      rw [hG, hb]
      ring)
  refine ⟨?_, ?_⟩
  · simp only [hdist]
    have : ∀ n, ∫ ω, ∑ j, component σ (b j) (P ω n) q ^ 2 ∂μ = ∑ j, ∫ ω, component σ (b j) (P ω n) q ^ 2 ∂μ := fun n =>
      integral_finsetSum _ fun j _ => (hnoise j).1 n
    simp only [this]
    exact tendsto_finsetSum _ fun j _ => (hnoise j).2
  · simp only [hloss]
    have : ∀ n, ∫ ω, ∑ j, hM.eigenvalues j / 2 * component σ (b j) (P ω n) q ^ 2 ∂μ =
        ∑ j, hM.eigenvalues j / 2 * ∫ ω, component σ (b j) (P ω n) q ^ 2 ∂μ := fun n => by
      rw [integral_finsetSum _ fun j _ => ((hnoise j).1 n).const_mul _]
      exact Finset.sum_congr rfl fun j _ => integral_const_mul _ _
    simp only [this]
    exact tendsto_finsetSum _ fun j _ => (hnoise j).2.const_mul _

/-- **C166 (heavy ball).** `sgd(η, momentum=β)` on a quadratic loss with isotropic gradient noise of variance `V`, `0 < η cⱼ < 2 (1 + β)` for all eigenvalues:
the mean squared distance and the expected loss tend to the sums of the floors of the directions, and the latter is at least that of plain steps of the
effective rate `η / (1 - β)` in the limit of small curvature, `η V / (4 (1 - β))` for each parameter. -/
theorem C166_heavy_ball (η β V : ℝ) (h0 : 0 ≤ β) (h1 : β < 1) (M : Matrix (idx σ) (idx σ) ℝ) (hM : M.IsHermitian) (hη : 0 ≤ η)
    (hc : ∀ j, 0 < η * hM.eigenvalues j ∧ η * hM.eigenvalues j < 2 * (1 + β))
    (grad : Ω → ℕ → Params ℝ → Params ℝ) (G : Ω → ℕ → (ℕ → ℕ → ℝ) → ℕ → ℕ → ℝ) (hg : ∀ ω n p, grad ω n (mk σ p) = mk σ (G ω n p))
    (q : ℕ → ℕ → ℝ) (Ξ : ℕ → Ω → ℕ → ℕ → ℝ) (hΞ : IsotropicNoise μ σ V Ξ)
    (hG : ∀ ω n p (x : idx σ), G ω n p x.1.1 x.1.2 = ∑ y : idx σ, M x y * (p y.1.1 y.1.2 - q y.1.1 y.1.2) + Ξ n ω x.1.1 x.1.2)
    (p0 : ℕ → ℕ → ℝ) :
    ∃ P : Ω → ℕ → ℕ → ℕ → ℝ, (∀ ω, P ω 0 = p0 ∧ Visits (sgd (.scalar η) (some β) false) (grad ω) σ (P ω)) ∧
      Tendsto (fun n => ∫ ω, treeDist σ (P ω n) q ^ 2 ∂μ) atTop (𝓝 (∑ j, η * (1 + β) / ((1 - β) * (hM.eigenvalues j * (2 * (1 + β) - η * hM.eigenvalues j))) * V)) ∧
      Tendsto (fun n => ∫ ω, quadraticLoss σ M q (P ω n) ∂μ) atTop (𝓝 (∑ j, η * (1 + β) * V / (2 * (1 - β) * (2 * (1 + β) - η * hM.eigenvalues j)))) ∧
      (0 ≤ V → η * V / (4 * (1 - β)) * (idx σ).card ≤ ∑ j, η * (1 + β) * V / (2 * (1 - β) * (2 * (1 + β) - η * hM.eigenvalues j))) := by
  have key := quadratic_second_moment μ σ V M hM G q Ξ hΞ hG (fun ω n => (momentumSgd (fun _ => η) β false (G ω) p0 n).1)
    (fun c => η * (1 + β) / ((1 - β) * (c * (2 * (1 + β) - η * c))) * V) (by
      intro j v ξ hξ hv
      exact filtered_second_moment μ V ξ hξ _ (fun n => (heavyBall η β (hM.eigenvalues j) (component σ v p0 q, 0) n).1)
        (fun n => (heavyBall η β (hM.eigenvalues j) (-η, 1) n).1) _
        (fun n ω => (momentum_component σ η β (G ω) q v _ (fun n => ξ n ω) (hv ω) p0 n).1) (heavyBall_tendsto η β _ h1 (hc j).1 (hc j).2 _)
        (impulse_energy η β _ h0 h1 (hc j).1 (hc j).2))
  refine ⟨fun ω n => (momentumSgd (fun _ => η) β false (G ω) p0 n).1, fun ω => ⟨rfl, momentum_visits σ (.scalar η) β false (grad ω) (G ω) (hg ω) p0⟩,
    key.1, ?_, fun hV => ?_⟩
  · have e : ∀ j, hM.eigenvalues j / 2 * (η * (1 + β) / ((1 - β) * (hM.eigenvalues j * (2 * (1 + β) - η * hM.eigenvalues j))) * V) = η * (1 + β) * V / (2 * (1 - β) * (2 * (1 + β) - η * hM.eigenvalues j)) := fun j => by
      have hc0 : hM.eigenvalues j ≠ 0 := by
        intro h; have := (hc j).1; rw [h, mul_zero] at this; exact lt_irrefl _ this
      obtain ⟨a1, a2⟩ := hc j
      have q1 : 1 - β ≠ 0 := by linarith
      have q2 : 2 * (1 + β) - η * hM.eigenvalues j ≠ 0 := by linarith
      field_simp
    have := key.2
    simp only [e] at this
    exact this
  · have hle : ∀ j, η * V / (4 * (1 - β)) ≤ η * (1 + β) * V / (2 * (1 - β) * (2 * (1 + β) - η * hM.eigenvalues j)) := fun j => by
      obtain ⟨a1, a2⟩ := hc j
      have q1 : 0 < 1 - β := by linarith
      have q2 : 0 < 2 * (1 + β) - η * hM.eigenvalues j := by linarith
      rw [div_le_div_iff₀ (by positivity) (by positivity)]
      have : 0 ≤ η * V * (1 - β) * (η * hM.eigenvalues j) := mul_nonneg (mul_nonneg (mul_nonneg hη hV) q1.le) a1.le
      nlinarith
    have := Finset.sum_le_sum (s := (Finset.univ : Finset (idx σ))) fun j _ => hle j
    rw [Finset.sum_const, Finset.card_univ, Fintype.card_coe, nsmul_eq_mul] at this
    linarith

/-- **C166 (Nesterov).** The same with `nesterov=True`, whenever `0 < η cⱼ` and `η cⱼ (1 + 2 β) < 2 (1 + β)` for all eigenvalues. -/
theorem C166_nesterov (η β V : ℝ) (h0 : 0 ≤ β) (h1 : β < 1) (M : Matrix (idx σ) (idx σ) ℝ) (hM : M.IsHermitian) 
    (hc : ∀ j, 0 < η * hM.eigenvalues j ∧ η * hM.eigenvalues j * (1 + 2 * β) < 2 * (1 + β))
    (grad : Ω → ℕ → Params ℝ → Params ℝ) (G : Ω → ℕ → (ℕ → ℕ → ℝ) → ℕ → ℕ → ℝ) (hg : ∀ ω n p, grad ω n (mk σ p) = mk σ (G ω n p))
    (q : ℕ → ℕ → ℝ) (Ξ : ℕ → Ω → ℕ → ℕ → ℝ) (hΞ : IsotropicNoise μ σ V Ξ)
    (hG : ∀ ω n p (x : idx σ), G ω n p x.1.1 x.1.2 = ∑ y : idx σ, M x y * (p y.1.1 y.1.2 - q y.1.1 y.1.2) + Ξ n ω x.1.1 x.1.2)
    (p0 : ℕ → ℕ → ℝ) :
    ∃ P : Ω → ℕ → ℕ → ℕ → ℝ, (∀ ω, P ω 0 = p0 ∧ Visits (sgd (.scalar η) (some β) true) (grad ω) σ (P ω)) ∧
      Tendsto (fun n => ∫ ω, treeDist σ (P ω n) q ^ 2 ∂μ) atTop (𝓝 (∑ j, η * (1 + β + β * (1 + 2 * β) * (η * hM.eigenvalues j)) / ((1 - β + β * (η * hM.eigenvalues j)) * (hM.eigenvalues j * (2 * (1 + β) - (1 + 2 * β) * (η * hM.eigenvalues j)))) * V)) ∧
      Tendsto (fun n => ∫ ω, quadraticLoss σ M q (P ω n) ∂μ) atTop (𝓝 (∑ j, η * (1 + β + β * (1 + 2 * β) * (η * hM.eigenvalues j)) * V / (2 * (1 - β + β * (η * hM.eigenvalues j)) * (2 * (1 + β) - (1 + 2 * β) * (η * hM.eigenvalues j))))) := by
  have key := quadratic_second_moment μ σ V M hM G q Ξ hΞ hG (fun ω n => (momentumSgd (fun _ => η) β true (G ω) p0 n).1)
    (fun c => η * (1 + β + β * (1 + 2 * β) * (η * c)) / ((1 - β + β * (η * c)) * (c * (2 * (1 + β) - (1 + 2 * β) * (η * c)))) * V) (by
      intro j v ξ hξ hv
      exact filtered_second_moment μ V ξ hξ _ (fun n => (nesterovPath η β (hM.eigenvalues j) (component σ v p0 q, 0) n).1)
        (fun n => (nesterovPath η β (hM.eigenvalues j) (-(η * (1 + β)), 1) n).1) _
        (fun n ω => (nesterov_component σ η β (G ω) q v _ (fun n => ξ n ω) (hv ω) p0 n).1) (nesterovPath_tendsto η β _ h0 h1 (hc j).1 (hc j).2 _)
        (nesterov_energy η β _ h0 h1 (hc j).1 (hc j).2))
  refine ⟨fun ω n => (momentumSgd (fun _ => η) β true (G ω) p0 n).1, fun ω => ⟨rfl, momentum_visits σ (.scalar η) β true (grad ω) (G ω) (hg ω) p0⟩,
    key.1, ?_⟩
  · have e : ∀ j, hM.eigenvalues j / 2 * (η * (1 + β + β * (1 + 2 * β) * (η * hM.eigenvalues j)) / ((1 - β + β * (η * hM.eigenvalues j)) * (hM.eigenvalues j * (2 * (1 + β) - (1 + 2 * β) * (η * hM.eigenvalues j)))) * V) = η * (1 + β + β * (1 + 2 * β) * (η * hM.eigenvalues j)) * V / (2 * (1 - β + β * (η * hM.eigenvalues j)) * (2 * (1 + β) - (1 + 2 * β) * (η * hM.eigenvalues j))) := fun j => by
      have hc0 : hM.eigenvalues j ≠ 0 := by
        intro h; have := (hc j).1; rw [h, mul_zero] at this; exact lt_irrefl _ this
      obtain ⟨a1, a2⟩ := hc j
      have q1 : 1 - β + β * (η * hM.eigenvalues j) ≠ 0 := by nlinarith
      have q2 : 2 * (1 + β) - (1 + 2 * β) * (η * hM.eigenvalues j) ≠ 0 := by nlinarith
      field_simp
    have := key.2
    simp only [e] at this
    exact this

/-- The hypotheses are met on every tree by the loss `3/2 · ‖p - q‖²` with `η = 2/5`, `β = 9/10` and Gaussian noise (`isotropic_gaussian`). -/
example (q : ℕ → ℕ → ℝ) : ∃ (M : Matrix (idx σ) (idx σ) ℝ) (hM : M.IsHermitian) (G : (ℕ × (Σ _ : ℕ, ℕ) → ℝ) → ℕ → (ℕ → ℕ → ℝ) → ℕ → ℕ → ℝ),
    (∀ j, 0 < 2 / 5 * hM.eigenvalues j ∧ 2 / 5 * hM.eigenvalues j * (1 + 2 * (9 / 10)) < 2 * (1 + 9 / 10) ∧
      2 / 5 * hM.eigenvalues j < 2 * (1 + 9 / 10)) ∧
    (∀ ω n p (x : idx σ), G ω n p x.1.1 x.1.2 = ∑ y : idx σ, M x y * (p y.1.1 y.1.2 - q y.1.1 y.1.2) + ω (n, ⟨x.1.1, x.1.2⟩)) := by
  have hM : (Matrix.diagonal (fun _ => 3) : Matrix (idx σ) (idx σ) ℝ).IsHermitian := Matrix.isHermitian_diagonal _
  refine ⟨_, hM, fun ω n p k i => 3 * (p k i - q k i) + ω (n, ⟨k, i⟩), fun j => ?_, fun ω n p x => ?_⟩
  · have h1 := hM.mulVec_eigenvectorBasis j
    have h2 : ∃ x, hM.eigenvectorBasis j x ≠ 0 := by
      by_contra hc
      push Not at hc
      have h3 := hM.eigenvectorBasis.orthonormal.1 j
      have h4 : hM.eigenvectorBasis j = 0 := by ext x; exact hc x
      rw [h4, norm_zero] at h3
      exact zero_ne_one h3
    obtain ⟨x, hx⟩ := h2
    have h5 := congrFun h1 x
    simp only [Matrix.mulVec_diagonal, Pi.smul_apply, smul_eq_mul] at h5
    have h6 := mul_right_cancel₀ hx h5
    rw [← h6]
    norm_num
  · simp [Matrix.diagonal_apply, ite_mul]

end Optax
