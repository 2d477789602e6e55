import Verif.Props.Stationary
import Verif.Props.Acceleration

/-!
# C164: the expected loss floor of SGD on a quadratic

The loss is `(p - q)ᵀ M (p - q) / 2` over all parameter entries, `M` symmetric; the gradients are `M (p - q) + Ξ`, the noise `Ξ` being centred,
independent between steps and between entries, and of variance `V` at every entry.
-/

set_option linter.unusedSectionVars false
set_option linter.unusedSimpArgs false

namespace Optax
open Finset MeasureTheory ProbabilityTheory Filter Topology

variable {Ω : Type*} [MeasurableSpace Ω] (μ : Measure Ω) [IsProbabilityMeasure μ] (σ : Spec)

/-- isotropic gradient noise: centred, of variance `V` at every entry, pairwise independent between the entries of one step, the steps pairwise independent -/
structure IsotropicNoise (V : ℝ) (Ξ : ℕ → Ω → ℕ → ℕ → ℝ) : Prop where
  memLp : ∀ n, ∀ x ∈ idx σ, MemLp (fun ω => Ξ n ω x.1 x.2) 2 μ
  steps : ∀ n m, n ≠ m → IndepFun (fun ω (x : idx σ) => Ξ n ω x.1.1 x.1.2) (fun ω (x : idx σ) => Ξ m ω x.1.1 x.1.2) μ
  entries : ∀ n, ∀ x ∈ idx σ, ∀ y ∈ idx σ, x ≠ y → IndepFun (fun ω => Ξ n ω x.1 x.2) (fun ω => Ξ n ω y.1 y.2) μ
  mean : ∀ n, ∀ x ∈ idx σ, ∫ ω, Ξ n ω x.1 x.2 ∂μ = 0
  var : ∀ n, ∀ x ∈ idx σ, variance (fun ω => Ξ n ω x.1 x.2) μ = V

variable {μ σ} in
theorem IsotropicNoise.along {V : ℝ} {Ξ : ℕ → Ω → ℕ → ℕ → ℝ} (h : IsotropicNoise μ σ V Ξ) (v : ℕ → ℕ → ℝ)
    (hv : ∑ x ∈ idx σ, v x.1 x.2 ^ 2 = 1) : NoisyEntry μ 0 V (fun n ω => ∑ x ∈ idx σ, v x.1 x.2 * Ξ n ω x.1 x.2) := by
  refine ⟨fun n => ?_, fun n m hnm => ?_, fun n => ?_, fun n => ?_⟩
  · exact memLp_finsetSum (idx σ) fun x hx => (h.memLp n x hx).const_mul _
  · have hm : Measurable (fun z : idx σ → ℝ => ∑ x : idx σ, v x.1.1 x.1.2 * z x) := by fun_prop
    have := (h.steps n m hnm).comp hm hm
    have e : ∀ n, (fun ω => ∑ x ∈ idx σ, v x.1 x.2 * Ξ n ω x.1 x.2) =
        (fun z : idx σ → ℝ => ∑ x : idx σ, v x.1.1 x.1.2 * z x) ∘ (fun ω (x : idx σ) => Ξ n ω x.1.1 x.1.2) := by
      intro n
      funext ω
      exact (Finset.sum_coe_sort (idx σ) (fun x => v x.1 x.2 * Ξ n ω x.1 x.2)).symm
    rw [e n, e m]
    exact this
  · rw [integral_finsetSum _ fun x hx => ((h.memLp n x hx).integrable one_le_two).const_mul _]
    refine Finset.sum_eq_zero fun x hx => ?_
    rw [integral_const_mul, h.mean n x hx, mul_zero]
  · have e : (fun ω => ∑ x ∈ idx σ, v x.1 x.2 * Ξ n ω x.1 x.2) = ∑ x ∈ idx σ, fun ω => v x.1 x.2 * Ξ n ω x.1 x.2 := by
      funext ω; simp
    rw [e, IndepFun.variance_sum (fun x hx => (h.memLp n x hx).const_mul _)]
    · have : ∀ x ∈ idx σ, variance (fun ω => v x.1 x.2 * Ξ n ω x.1 x.2) μ = v x.1 x.2 ^ 2 * V := fun x hx => by
        rw [variance_const_mul, h.var n x hx]
      rw [Finset.sum_congr rfl this, ← Finset.sum_mul, hv, one_mul]
    · intro x hx y hy hxy
      exact (h.entries n x hx y hy hxy).comp (measurable_const_mul (v x.1 x.2)) (measurable_const_mul (v y.1 y.2))

/-- second moment of a component: square integrable, and tending to the variance floor -/
theorem component_second_moment (η : ℝ) (G : Ω → ℕ → (ℕ → ℕ → ℝ) → ℕ → ℕ → ℝ) (q v : ℕ → ℕ → ℝ) (c V : ℝ)
    (h0 : 0 < η * c) (h2 : η * c < 2) (ξ : ℕ → Ω → ℝ) (hξ : NoisyEntry μ 0 V ξ)
    (hv : ∀ ω n p, ∑ x ∈ idx σ, v x.1 x.2 * G ω n p x.1 x.2 = c * component σ v p q + ξ n ω) (p0 : ℕ → ℕ → ℝ) :
    (∀ n, Integrable (fun ω => component σ v (plainSgd (fun _ => η) (G ω) p0 n) q ^ 2) μ) ∧
      Tendsto (fun n => ∫ ω, component σ v (plainSgd (fun _ => η) (G ω) p0 n) q ^ 2 ∂μ) atTop (𝓝 (η * V / (c * (2 - η * c)))) := by
  have hp := fun ω n => component_path σ (fun _ => η) (G ω) q v c (fun n => ξ n ω) (hv ω) p0 n
  have hL : ∀ n, MemLp (fun ω => ∑ j ∈ range n, noiseWeight (fun _ => η) c n j * ξ j ω) 2 μ := fun n =>
    memLp_finsetSum _ fun j _ => (hξ.memLp j).const_mul _
  have hX : ∀ n, MemLp (fun ω => component σ v (plainSgd (fun _ => η) (G ω) p0 n) q) 2 μ := fun n => by
    simp only [hp]
    exact (memLp_const _).sub (hL n)
  have hm : ∀ n, ∫ ω, component σ v (plainSgd (fun _ => η) (G ω) p0 n) q ∂μ = (1 - η * c) ^ n * component σ v p0 q := fun n => by
    simp only [hp]
    rw [integral_sub (integrable_const _) ((hL n).integrable one_le_two), (hξ.weighted (range n) _).1]
    simp
  have hw : ∀ n, ∑ j ∈ range n, noiseWeight (fun _ => η) c n j ^ 2 = η ^ 2 * ∑ j ∈ range n, ((1 - η * c) ^ 2) ^ j := by
    intro n
    induction n with
    | zero => simp
    | succ n ih => rw [noiseWeight_sq, ih, Finset.sum_range_succ', pow_zero, mul_add, mul_one]
                   congr 1
                   rw [Finset.mul_sum, Finset.mul_sum, Finset.mul_sum]
                   exact Finset.sum_congr rfl fun j _ => by ring
  have hvar : ∀ n, variance (fun ω => component σ v (plainSgd (fun _ => η) (G ω) p0 n) q) μ =
      V * (η ^ 2 * ∑ j ∈ range n, ((1 - η * c) ^ 2) ^ j) := fun n => by
    simp only [hp]
    rw [variance_const_sub (hL n).1, (hξ.weighted (range n) _).2, hw]
  have h2m : ∀ n, ∫ ω, component σ v (plainSgd (fun _ => η) (G ω) p0 n) q ^ 2 ∂μ =
      V * (η ^ 2 * ∑ j ∈ range n, ((1 - η * c) ^ 2) ^ j) + ((1 - η * c) ^ n * component σ v p0 q) ^ 2 := fun n => by
    have := variance_eq_sub (hX n)
    rw [hvar, hm] at this
    have e : ∫ ω, component σ v (plainSgd (fun _ => η) (G ω) p0 n) q ^ 2 ∂μ =
        ∫ ω, ((fun ω => component σ v (plainSgd (fun _ => η) (G ω) p0 n) q) ^ 2) ω ∂μ := rfl
    rw [e]
    linarith
  refine ⟨fun n => (hX n).integrable_sq, ?_⟩
  simp only [h2m]
  have hsq : (1 - η * c) ^ 2 < 1 := by nlinarith
  have hs := (hasSum_geometric_of_lt_one (sq_nonneg (1 - η * c)) hsq).tendsto_sum_nat
  have hab : |1 - η * c| < 1 := by rw [abs_lt]; constructor <;> linarith
  have ht := ((tendsto_pow_atTop_nhds_zero_of_abs_lt_one hab).mul_const (component σ v p0 q)).pow 2
  have := ((hs.const_mul (η ^ 2)).const_mul V).add ht
  have hc0 : c ≠ 0 := by rintro rfl; simp at h0
  have hη0 : η ≠ 0 := by rintro rfl; simp at h0
  have q1 : 2 - η * c ≠ 0 := by linarith
  have e : V * (η ^ 2 * (1 - (1 - η * c) ^ 2)⁻¹) + (0 * component σ v p0 q) ^ 2 = η * V / (c * (2 - η * c)) := by
    have : 1 - (1 - η * c) ^ 2 = η * (c * (2 - η * c)) := by ring
    rw [this]
    field_simp
    ring
  rw [e] at this
  exact this

/-- the loss `(p - q)ᵀ M (p - q) / 2` -/
noncomputable def quadraticLoss (M : Matrix (idx σ) (idx σ) ℝ) (q p : ℕ → ℕ → ℝ) : ℝ :=
  (∑ x : idx σ, (p x.1.1 x.1.2 - q x.1.1 x.1.2) * ∑ y : idx σ, M x y * (p y.1.1 y.1.2 - q y.1.1 y.1.2)) / 2

/-- **C164.** `sgd(η)` on a quadratic loss whose matrix has the eigenvalues `c₁, c₂, …` (with multiplicity), `0 < η cⱼ < 2` for all of them, and isotropic
gradient noise of variance `V`: from every start the mean squared distance to the minimiser tends to `Σⱼ η V / (cⱼ (2 - η cⱼ))` and the expected loss to
`Σⱼ η V / (2 (2 - η cⱼ))`, which is at least `η V / 4` times the number of parameters. -/
theorem C164_floor (η V : ℝ) (nes : Bool) (M : Matrix (idx σ) (idx σ) ℝ) (hM : M.IsHermitian) (hη : 0 ≤ η)
    (hc : ∀ j, 0 < η * hM.eigenvalues j ∧ η * hM.eigenvalues j < 2)
    (grad : Ω → ℕ → Params ℝ → Params ℝ) (G : Ω → ℕ → (ℕ → ℕ → ℝ) → ℕ → ℕ → ℝ) (hg : ∀ ω n p, grad ω n (mk σ p) = mk σ (G ω n p))
    (q : ℕ → ℕ → ℝ) (Ξ : ℕ → Ω → ℕ → ℕ → ℝ) (hΞ : IsotropicNoise μ σ V Ξ)
    (hG : ∀ ω n p (x : idx σ), G ω n p x.1.1 x.1.2 = ∑ y : idx σ, M x y * (p y.1.1 y.1.2 - q y.1.1 y.1.2) + Ξ n ω x.1.1 x.1.2)
    (p0 : ℕ → ℕ → ℝ) :
    ∃ P : Ω → ℕ → ℕ → ℕ → ℝ, (∀ ω, P ω 0 = p0 ∧ Visits (sgd (.scalar η) none nes) (grad ω) σ (P ω)) ∧
      Tendsto (fun n => ∫ ω, treeDist σ (P ω n) q ^ 2 ∂μ) atTop
        (𝓝 (∑ j, η * V / (hM.eigenvalues j * (2 - η * hM.eigenvalues j)))) ∧
      Tendsto (fun n => ∫ ω, quadraticLoss σ M q (P ω n) ∂μ) atTop (𝓝 (∑ j, η * V / (2 * (2 - η * hM.eigenvalues j)))) ∧
      (0 ≤ V → η * V / 4 * (idx σ).card ≤ ∑ j, η * V / (2 * (2 - η * hM.eigenvalues j))) := by
  let b : idx σ → ℕ → ℕ → ℝ := fun j k i => if h : (⟨k, i⟩ : Σ _ : ℕ, ℕ) ∈ idx σ then hM.eigenvectorBasis j ⟨⟨k, i⟩, h⟩ else 0
  have hb : ∀ j (x : idx σ), b j x.1.1 x.1.2 = hM.eigenvectorBasis j x := by
    intro j x
    simp only [b]
    rw [dif_pos x.2]
  have hsum : ∀ (f : (Σ _ : ℕ, ℕ) → ℝ), ∑ x ∈ idx σ, f x = ∑ x : idx σ, f x.1 := fun f => (Finset.sum_coe_sort (idx σ) f).symm
  have hnorm : ∀ j, ∑ x ∈ idx σ, b j x.1 x.2 ^ 2 = 1 := by
    intro j
    have h1 := hM.eigenvectorBasis.orthonormal.1 j
    have h2 : ‖hM.eigenvectorBasis j‖ ^ 2 = 1 := by rw [h1]; norm_num
    rw [EuclideanSpace.real_norm_sq_eq] at h2
    rw [hsum, ← h2]
    exact Finset.sum_congr rfl fun x _ => by rw [hb]
  have hsym : ∀ x y, M x y = M y x := fun x y => by
    have := hM.apply x y
    simpa using this.symm
  have heig : ∀ j (x : idx σ), ∑ y : idx σ, M x y * hM.eigenvectorBasis j y = hM.eigenvalues j * hM.eigenvectorBasis j x := by
    intro j x
    have h1 := congrFun (hM.mulVec_eigenvectorBasis j) x
    simp only [Matrix.mulVec, dotProduct, Pi.smul_apply, smul_eq_mul] at h1
    exact h1
  have hcomp : ∀ j p, component σ (b j) p q = ∑ x : idx σ, hM.eigenvectorBasis j x * (p x.1.1 x.1.2 - q x.1.1 x.1.2) := by
    intro j p
    unfold component
    rw [hsum]
    exact Finset.sum_congr rfl fun x _ => by rw [hb]
  have hdir : ∀ j p, ∑ x : idx σ, hM.eigenvectorBasis j x * ∑ y : idx σ, M x y * (p y.1.1 y.1.2 - q y.1.1 y.1.2) =
      hM.eigenvalues j * component σ (b j) p q := by
    intro j p
    rw [hcomp, Finset.mul_sum]
    calc ∑ x : idx σ, hM.eigenvectorBasis j x * ∑ y : idx σ, M x y * (p y.1.1 y.1.2 - q y.1.1 y.1.2)
        = ∑ x : idx σ, ∑ y : idx σ, hM.eigenvectorBasis j x * (M x y * (p y.1.1 y.1.2 - q y.1.1 y.1.2)) :=
          Finset.sum_congr rfl fun x _ => Finset.mul_sum _ _ _
      _ = ∑ y : idx σ, ∑ x : idx σ, hM.eigenvectorBasis j x * (M x y * (p y.1.1 y.1.2 - q y.1.1 y.1.2)) := Finset.sum_comm
      _ = ∑ y : idx σ, hM.eigenvalues j * (hM.eigenvectorBasis j y * (p y.1.1 y.1.2 - q y.1.1 y.1.2)) := by
          refine Finset.sum_congr rfl fun y _ => ?_
          rw [← mul_assoc, ← heig, Finset.sum_mul]
          exact Finset.sum_congr rfl fun x _ => by rw [hsym x y]; ring
  -- Parseval
  have hinner : ∀ (j : idx σ) (a : idx σ → ℝ), inner ℝ (hM.eigenvectorBasis j) (WithLp.toLp 2 a : EuclideanSpace ℝ (idx σ)) = ∑ x : idx σ, hM.eigenvectorBasis j x * a x := by
    intro j a
    rw [PiLp.inner_apply]
    refine Finset.sum_congr rfl fun x _ => ?_
    simp [mul_comm]
  have hpars : ∀ a d : idx σ → ℝ, ∑ x, a x * d x = ∑ j, (∑ x, hM.eigenvectorBasis j x * a x) * (∑ x, hM.eigenvectorBasis j x * d x) := by
    intro a d
    have h1 := hM.eigenvectorBasis.sum_inner_mul_inner (WithLp.toLp 2 a) (WithLp.toLp 2 d)
    have h2 : inner ℝ (WithLp.toLp 2 a : EuclideanSpace ℝ (idx σ)) (WithLp.toLp 2 d) = ∑ x, a x * d x := by
      rw [PiLp.inner_apply]
      exact Finset.sum_congr rfl fun x _ => by simp [mul_comm]
    rw [← h2, ← h1]
    refine Finset.sum_congr rfl fun j _ => ?_
    rw [real_inner_comm, hinner, hinner]
  have hdist : ∀ p, treeDist σ p q ^ 2 = ∑ j, component σ (b j) p q ^ 2 := by
    intro p
    rw [← sqDist_eq, sqDist, hsum]
    have := hpars (fun x => p x.1.1 x.1.2 - q x.1.1 x.1.2) (fun x => p x.1.1 x.1.2 - q x.1.1 x.1.2)
    simp only [← hcomp, ← sq] at this
    exact this
  have hloss : ∀ p, quadraticLoss σ M q p = ∑ j, hM.eigenvalues j / 2 * component σ (b j) p q ^ 2 := by
    intro p
    unfold quadraticLoss
    rw [hpars (fun x => p x.1.1 x.1.2 - q x.1.1 x.1.2) (fun x => ∑ y : idx σ, M x y * (p y.1.1 y.1.2 - q y.1.1 y.1.2)), Finset.sum_div]
    refine Finset.sum_congr rfl fun j _ => ?_
    rw [hdir, ← hcomp]
    ring
  have hnoise : ∀ j, _ := fun j => component_second_moment μ σ η G q (b j) (hM.eigenvalues j) V (hc j).1 (hc j).2
    (fun n ω => ∑ x ∈ idx σ, b j x.1 x.2 * Ξ n ω x.1 x.2) (hΞ.along (b j) (hnorm j)) (by
      intro ω n p
      rw [← hdir, hsum, hsum, ← Finset.sum_add_distrib]
      refine Finset.sum_congr rfl fun x _ => ?_
      rw [hG, hb]
      ring) p0
  refine ⟨fun ω => plainSgd (fun _ => η) (G ω) p0, fun ω => ⟨rfl, sgd_visits σ (.scalar η) nes (grad ω) (G ω) (hg ω) p0⟩, ?_, ?_, fun hV => ?_⟩
  · simp only [hdist]
    have : ∀ n, ∫ ω, ∑ j, component σ (b j) (plainSgd (fun _ => η) (G ω) p0 n) q ^ 2 ∂μ =
        ∑ j, ∫ ω, component σ (b j) (plainSgd (fun _ => η) (G ω) p0 n) q ^ 2 ∂μ := fun n =>
      integral_finsetSum _ fun j _ => (hnoise j).1 n
    simp only [this]
    exact tendsto_finsetSum _ fun j _ => (hnoise j).2
  · simp only [hloss]
    have : ∀ n, ∫ ω, ∑ j, hM.eigenvalues j / 2 * component σ (b j) (plainSgd (fun _ => η) (G ω) p0 n) q ^ 2 ∂μ =
        ∑ j, hM.eigenvalues j / 2 * ∫ ω, component σ (b j) (plainSgd (fun _ => η) (G ω) p0 n) q ^ 2 ∂μ := fun n => by
      rw [integral_finsetSum _ fun j _ => ((hnoise j).1 n).const_mul _]
      exact Finset.sum_congr rfl fun j _ => integral_const_mul _ _
    simp only [this]
    refine tendsto_finsetSum _ fun j _ => ?_
    have h1 := (hnoise j).2.const_mul (hM.eigenvalues j / 2)
    have hc0 : hM.eigenvalues j ≠ 0 := by
      intro h; have := (hc j).1; rw [h, mul_zero] at this; exact lt_irrefl _ this
    have q1 : 2 - η * hM.eigenvalues j ≠ 0 := by have := (hc j).2; linarith
    have e : hM.eigenvalues j / 2 * (η * V / (hM.eigenvalues j * (2 - η * hM.eigenvalues j))) = η * V / (2 * (2 - η * hM.eigenvalues j)) := by
      field_simp
    rw [e] at h1
    exact h1
  · have hle : ∀ j, η * V / 4 ≤ η * V / (2 * (2 - η * hM.eigenvalues j)) := fun j => by
      obtain ⟨a1, a2⟩ := hc j
      exact div_le_div_of_nonneg_left (mul_nonneg hη hV) (by linarith) (by linarith)
    have := Finset.sum_le_sum (s := (Finset.univ : Finset (idx σ))) fun j _ => hle j
    rw [Finset.sum_const, Finset.card_univ, Fintype.card_coe, nsmul_eq_mul] at this
    linarith

/-- Independent Gaussian draws for all steps and entries are isotropic noise. -/
theorem isotropic_gaussian (v : NNReal) :
    IsotropicNoise (Measure.infinitePi (fun _ : ℕ × (Σ _ : ℕ, ℕ) => gaussianReal 0 v)) σ v (fun n ω k i => ω (n, ⟨k, i⟩)) := by
  set ν := Measure.infinitePi (fun _ : ℕ × (Σ _ : ℕ, ℕ) => gaussianReal 0 v) with hν
  have mp := fun j => measurePreserving_eval_infinitePi (fun _ : ℕ × (Σ _ : ℕ, ℕ) => gaussianReal 0 v) j
  have hind : iIndepFun (fun (j : ℕ × (Σ _ : ℕ, ℕ)) (ω : ℕ × (Σ _ : ℕ, ℕ) → ℝ) => ω j) ν :=
    iIndepFun_infinitePi (P := fun _ : ℕ × (Σ _ : ℕ, ℕ) => gaussianReal 0 v) (X := fun _ x => x) (fun _ => measurable_id)
  refine ⟨fun n x _ => ?_, fun n m h => ?_, fun n x _ y _ h => ?_, fun n x _ => ?_, fun n x _ => ?_⟩
  · exact (memLp_id_gaussianReal' 2 (by simp)).comp_measurePreserving (mp (n, x))
  · let S : ℕ → Finset (ℕ × (Σ _ : ℕ, ℕ)) := fun n => (idx σ).image (fun x => (n, x))
    have hd : Disjoint (S n) (S m) := by
      rw [Finset.disjoint_left]
      intro z hz hz'
      obtain ⟨x, -, rfl⟩ := Finset.mem_image.mp hz
      obtain ⟨y, -, e⟩ := Finset.mem_image.mp hz'
      exact h (congrArg Prod.fst e).symm
    have hi := hind.indepFun_finset (S n) (S m) hd (fun j => measurable_pi_apply j)
    let φ : ∀ n, (S n → ℝ) → (idx σ → ℝ) := fun n z x => z ⟨(n, x.1), Finset.mem_image_of_mem _ x.2⟩
    have hφ : ∀ n, Measurable (φ n) := fun n => measurable_pi_lambda _ fun x => measurable_pi_apply _
    exact hi.comp (hφ n) (hφ m)
  · exact hind.indepFun (show (n, x) ≠ (n, y) from fun e => h (congrArg Prod.snd e))
  · have e := integral_map (μ := ν) (mp (n, x)).measurable.aemeasurable (f := fun x : ℝ => x) (by fun_prop)
    rw [(mp (n, x)).map_eq, integral_id_gaussianReal] at e
    exact e.symm
  · have e := variance_map (μ := ν) (X := fun x : ℝ => x) (Y := fun ω : ℕ × (Σ _ : ℕ, ℕ) → ℝ => ω (n, x)) (by fun_prop) (mp (n, x)).measurable.aemeasurable
    rw [(mp (n, x)).map_eq, variance_fun_id_gaussianReal] at e
    exact e.symm.trans rfl

/-- The hypotheses are met on every tree by the loss `3/2 · ‖p - q‖²` with `η = 1/2` and Gaussian noise of variance 2. -/
example (q : ℕ → ℕ → ℝ) : ∃ (M : Matrix (idx σ) (idx σ) ℝ) (hM : M.IsHermitian) (G : (ℕ × (Σ _ : ℕ, ℕ) → ℝ) → ℕ → (ℕ → ℕ → ℝ) → ℕ → ℕ → ℝ),
    (∀ j, 0 < 1 / 2 * hM.eigenvalues j ∧ 1 / 2 * hM.eigenvalues j < 2) ∧
    (∀ ω n p (x : idx σ), G ω n p x.1.1 x.1.2 = ∑ y : idx σ, M x y * (p y.1.1 y.1.2 - q y.1.1 y.1.2) + ω (n, ⟨x.1.1, x.1.2⟩)) := by
  have hM : (Matrix.diagonal (fun _ => 3) : Matrix (idx σ) (idx σ) ℝ).IsHermitian := Matrix.isHermitian_diagonal _
  refine ⟨_, hM, fun ω n p k i => 3 * (p k i - q k i) + ω (n, ⟨k, i⟩), fun j => ?_, fun ω n p x => ?_⟩
  · have h1 := hM.mulVec_eigenvectorBasis j
    have h2 : ∃ x, hM.eigenvectorBasis j x ≠ 0 := by
      by_contra hc
      push Not at hc
      have h3 := hM.eigenvectorBasis.orthonormal.1 j
      have h4 : hM.eigenvectorBasis j = 0 := by ext x; exact hc x
      rw [h4, norm_zero] at h3
      exact zero_ne_one h3
    obtain ⟨x, hx⟩ := h2
    have h5 := congrFun h1 x
    simp only [Matrix.mulVec_diagonal, Pi.smul_apply, smul_eq_mul] at h5
    have h6 := mul_right_cancel₀ hx h5
    rw [← h6]
    norm_num
  · simp [Matrix.diagonal_apply, ite_mul]

end Optax
