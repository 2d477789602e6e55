import Verif.Props.Stationary
import Verif.Props.Accumulation

/-!
# C167: gradient accumulation divides the noise floor by the number of micro-batches

The setting of C160 with `MultiSteps(sgd(η), K)`.
-/

set_option linter.unusedSectionVars false
set_option linter.unusedSimpArgs false

namespace Optax
open Finset MeasureTheory ProbabilityTheory Filter Topology

variable {Ω : Type*} [MeasurableSpace Ω] (μ : Measure Ω) [IsProbabilityMeasure μ] (σ : Spec)

theorem group_weighted (K : ℕ) (hK : 1 ≤ K) (w ξ : ℕ → ℝ) (j : ℕ) :
    ∑ i ∈ range j, w i * ∑ n ∈ Ico (i * K) ((i + 1) * K), ξ n = ∑ n ∈ range (j * K), w (n / K) * ξ n := by
  induction j with
  | zero => simp
  | succ j ih =>
    rw [Finset.sum_range_succ, ih, Finset.range_eq_Ico, Finset.range_eq_Ico,
      ← Finset.sum_Ico_consecutive _ (Nat.zero_le (j * K)) (show j * K ≤ (j + 1) * K by nlinarith), Finset.mul_sum]
    congr 1
    refine Finset.sum_congr rfl fun n hn => ?_
    rw [Finset.mem_Ico] at hn
    have : n / K = j := by
      rw [Nat.div_eq_iff (by omega)]
      have h2 := hn.2
      rw [Nat.add_mul, Nat.one_mul] at h2
      omega
    rw [this]

theorem component_mk_congr (v p p' q : ℕ → ℕ → ℝ) (h : mk σ p = mk σ p') : component σ v p q = component σ v p' q := by
  unfold component
  refine Finset.sum_congr rfl fun x hx => ?_
  obtain ⟨s, hs, hi⟩ := mem_idx.mp hx
  rw [mk_inj h x.1 s hs x.2 hi]

theorem accumulated_component (η : ℝ) (nes mean : Bool) (K : ℕ) (hK : 1 ≤ K) (grad : ℕ → Params ℝ → Params ℝ)
    (G : ℕ → (ℕ → ℕ → ℝ) → ℕ → ℕ → ℝ) (hg : ∀ n p, grad n (mk σ p) = mk σ (G n p)) (q v : ℕ → ℕ → ℝ) (c : ℝ) (ξ : ℕ → ℝ)
    (hv : ∀ n p, ∑ x ∈ idx σ, v x.1 x.2 * G n p x.1 x.2 = c * component σ v p q + ξ n) (p0 : ℕ → ℕ → ℝ) :
    ∃ P : ℕ → ℕ → ℕ → ℝ, P 0 = p0 ∧ Visits (multiSteps (sgd (.scalar η) none nes) (fun _ => (K : ℤ)) mean) grad σ P ∧
      ∀ j r : ℕ, r < K → j * K + r < 2 ^ 31 → component σ v (P (j * K + r)) q =
        (1 - η * ((if mean then 1 else (K : ℝ)) * c)) ^ j * component σ v p0 q -
          ∑ n ∈ range (j * K), (noiseWeight (fun _ => η) ((if mean then 1 else (K : ℝ)) * c) j (n / K) * (if mean then 1 / (K : ℝ) else 1)) * ξ n := by
  have hK0 : (K : ℝ) ≠ 0 := by positivity
  let F : ℕ → (ℕ → ℕ → ℝ) → ℕ → ℕ → ℝ := fun j p => groupGrad (fun _ => K) mean (fun n => G n p) j
  let big : ℕ → Params ℝ → Params ℝ := fun j t => mk σ (F j (coord t))
  have hF : ∀ j a b, mk σ a = mk σ b → mk σ (F j a) = mk σ (F j b) := by
    intro j a b h
    have e : ∀ n, mk σ (G n a) = mk σ (G n b) := fun n => by rw [← hg, ← hg, h]
    refine mk_congr fun l s hl i hi => ?_
    simp only [F, groupGrad]
    rw [Finset.sum_congr rfl fun n _ => mk_inj (e n) l s hl i hi]
  have hb : ∀ j p, big j (mk σ p) = mk σ (F j p) := fun j p =>
    hF _ _ _ (mk_congr fun l s hl i hi => coord_mk _ _ l i s hl hi)
  obtain ⟨P, Q, hP0, hQ0, hvP, hvQ, heq⟩ := C117_accumulation σ (sgd (.scalar η) none nes) (preserves_sgd_any _ _ _)
    (C117_optimisers (.scalar η) 0 0 0 0 0 none nes _ (.inr (.inl rfl))).2 (fun _ => (K : ℤ)) mean (fun _ => K) (fun _ => hK)
    (fun _ => rfl) grad big G hg hb p0
  refine ⟨P, hP0, hvP, fun j r hr hlt => ?_⟩
  have h1 := heq j (j * K + r) (by rw [groupStart_const]; omega) (by rw [groupStart_const]; nlinarith) hlt
  have h2 := visits_unique σ hvQ (sgd_visits σ (.scalar η) nes big F hb p0) (by rw [hQ0]; rfl) j
  rw [component_mk_congr σ v _ _ q (h1.trans h2)]
  have hdir : ∀ j p, ∑ x ∈ idx σ, v x.1 x.2 * F j p x.1 x.2 = (if mean then 1 else (K : ℝ)) * c * component σ v p q +
      (if mean then 1 / (K : ℝ) else 1) * ∑ n ∈ Ico (j * K) ((j + 1) * K), ξ n := by
    intro j p
    have e1 : ∑ n ∈ Ico (j * K) ((j + 1) * K), ∑ x ∈ idx σ, v x.1 x.2 * G n p x.1 x.2 =
        K * (c * component σ v p q) + ∑ n ∈ Ico (j * K) ((j + 1) * K), ξ n := by
      rw [Finset.sum_congr rfl fun n _ => hv n p, Finset.sum_add_distrib, Finset.sum_const, Nat.card_Ico, nsmul_eq_mul]
      rw [show (j + 1) * K - j * K = K by rw [Nat.add_mul, Nat.one_mul]; omega]
    have e2 : ∑ x ∈ idx σ, v x.1 x.2 * F j p x.1 x.2 = (if mean then 1 / (K : ℝ) else 1) *
        ∑ n ∈ Ico (j * K) ((j + 1) * K), ∑ x ∈ idx σ, v x.1 x.2 * G n p x.1 x.2 := by
      rw [Finset.sum_comm, Finset.mul_sum]
      refine Finset.sum_congr rfl fun x _ => ?_
      rw [← Finset.mul_sum]
      simp only [F, groupGrad, groupStart_const]
      split <;> ring
    rw [e2, e1]
    split <;> field_simp
  have hp := component_path σ (fun _ => η) F q v ((if mean then 1 else (K : ℝ)) * c)
    (fun j => (if mean then 1 / (K : ℝ) else 1) * ∑ n ∈ Ico (j * K) ((j + 1) * K), ξ n) hdir p0 j
  have hat : (LR.scalar η).at = fun _ => η := rfl
  rw [hat, hp, Finset.prod_const, Finset.card_range]
  congr 1
  have := group_weighted K hK (fun i => noiseWeight (fun _ => η) ((if mean then 1 else (K : ℝ)) * c) j i * (if mean then 1 / (K : ℝ) else 1)) ξ j
  rw [← this]
  exact Finset.sum_congr rfl fun i _ => by ring

theorem noiseWeight_energy (η c : ℝ) (n : ℕ) :
    ∑ j ∈ range n, noiseWeight (fun _ => η) c n j ^ 2 = η ^ 2 * ∑ j ∈ range n, ((1 - η * c) ^ 2) ^ j := by
  induction n with
  | zero => simp
  | succ n ih =>
    rw [noiseWeight_sq, ih, Finset.sum_range_succ', pow_zero, mul_add, mul_one]
    congr 1
    rw [Finset.mul_sum, Finset.mul_sum, Finset.mul_sum]
    exact Finset.sum_congr rfl fun j _ => by ring

/-- **C167.** `MultiSteps(sgd(η), K)`, the gradients' component along `v` having constant curvature `c` and centred, pairwise independent noise of
variance `V`: at every micro-step `jK + r` of group `j` the mean error is that of `j` noise free steps and the variance is that of `j` steps with
noise of variance `V / K` (mean of the gradients); with their sum, of steps with curvature `K c` and noise of variance `K V`. -/
theorem C167_accumulated (η : ℝ) (nes mean : Bool) (K : ℕ) (hK : 1 ≤ K) (grad : Ω → ℕ → Params ℝ → Params ℝ)
    (G : Ω → ℕ → (ℕ → ℕ → ℝ) → ℕ → ℕ → ℝ) (hg : ∀ ω n p, grad ω n (mk σ p) = mk σ (G ω n p)) (q v : ℕ → ℕ → ℝ) (c V : ℝ)
    (ξ : ℕ → Ω → ℝ) (hξ : NoisyEntry μ 0 V ξ)
    (hv : ∀ ω n p, ∑ x ∈ idx σ, v x.1 x.2 * G ω n p x.1 x.2 = c * component σ v p q + ξ n ω) (p0 : ℕ → ℕ → ℝ) :
    ∃ P : Ω → ℕ → ℕ → ℕ → ℝ,
      (∀ ω, P ω 0 = p0 ∧ Visits (multiSteps (sgd (.scalar η) none nes) (fun _ => (K : ℤ)) mean) (grad ω) σ (P ω)) ∧
      ∀ j r : ℕ, r < K → j * K + r < 2 ^ 31 →
        (mean = true → ∫ ω, component σ v (P ω (j * K + r)) q ∂μ = (1 - η * c) ^ j * component σ v p0 q ∧
          variance (fun ω => component σ v (P ω (j * K + r)) q) μ = η ^ 2 * (V / K) * ∑ i ∈ range j, (1 - η * c) ^ (2 * i)) ∧
        (mean = false → ∫ ω, component σ v (P ω (j * K + r)) q ∂μ = (1 - η * (K * c)) ^ j * component σ v p0 q ∧
          variance (fun ω => component σ v (P ω (j * K + r)) q) μ = η ^ 2 * (K * V) * ∑ i ∈ range j, (1 - η * (K * c)) ^ (2 * i)) := by
  choose P hP0 hvP hcomp using fun ω => accumulated_component σ η nes mean K hK (grad ω) (G ω) (hg ω) q v c (fun n => ξ n ω) (hv ω) p0
  have hK0 : (K : ℝ) ≠ 0 := by positivity
  refine ⟨P, fun ω => ⟨hP0 ω, hvP ω⟩, fun j r hr hlt => ?_⟩
  set κ : ℝ := if mean then 1 else (K : ℝ) with hκ
  set s : ℝ := if mean then 1 / (K : ℝ) else 1 with hs
  have hc := fun ω => hcomp ω j r hr hlt
  have hL : MemLp (fun ω => ∑ n ∈ range (j * K), (noiseWeight (fun _ => η) (κ * c) j (n / K) * s) * ξ n ω) 2 μ :=
    memLp_finsetSum _ fun n _ => (hξ.memLp n).const_mul _
  have hm : ∫ ω, component σ v (P ω (j * K + r)) q ∂μ = (1 - η * (κ * c)) ^ j * component σ v p0 q := by
    simp only [hc]
    rw [integral_sub (integrable_const _) (hL.integrable one_le_two), (hξ.weighted (range (j * K)) _).1]
    simp
  have hw : ∑ n ∈ range (j * K), (noiseWeight (fun _ => η) (κ * c) j (n / K) * s) ^ 2 =
      s ^ 2 * K * (η ^ 2 * ∑ i ∈ range j, ((1 - η * (κ * c)) ^ 2) ^ i) := by
    have := group_weighted K hK (fun i => (noiseWeight (fun _ => η) (κ * c) j i * s) ^ 2) (fun _ => 1) j
    simp only [mul_one, Finset.sum_const, Nat.card_Ico, nsmul_eq_mul] at this
    rw [← this, ← noiseWeight_energy, Finset.mul_sum]
    refine Finset.sum_congr rfl fun i _ => ?_
    rw [show (i + 1) * K - i * K = K by rw [Nat.add_mul, Nat.one_mul]; omega]
    ring
  have hvar : variance (fun ω => component σ v (P ω (j * K + r)) q) μ =
      V * (s ^ 2 * K * (η ^ 2 * ∑ i ∈ range j, ((1 - η * (κ * c)) ^ 2) ^ i)) := by
    simp only [hc]
    rw [variance_const_sub hL.1, (hξ.weighted (range (j * K)) _).2, hw]
  refine ⟨fun h => ?_, fun h => ?_⟩
  · have k1 : κ = 1 := by rw [hκ, h]; simp
    have s1 : s = 1 / K := by rw [hs, h]; simp
    rw [k1, one_mul] at hm hvar
    refine ⟨hm, ?_⟩
    rw [hvar, s1]
    simp only [pow_mul]
    field_simp
  · have k1 : κ = K := by rw [hκ, h]; simp
    have s1 : s = 1 := by rw [hs, h]; simp
    rw [k1] at hm hvar
    refine ⟨hm, ?_⟩
    rw [hvar, s1]
    simp only [pow_mul]
    ring

/-- **C167 (floor).** With the mean of the gradients and `0 < η c < 2` the variance stays below the floor `η (V / K) / (c (2 - η c))`, a `K`-th of
that of `sgd(η)` without accumulation (C160). -/
theorem C167_floor (η : ℝ) (nes : Bool) (K : ℕ) (hK : 1 ≤ K) (grad : Ω → ℕ → Params ℝ → Params ℝ)
    (G : Ω → ℕ → (ℕ → ℕ → ℝ) → ℕ → ℕ → ℝ) (hg : ∀ ω n p, grad ω n (mk σ p) = mk σ (G ω n p)) (q v : ℕ → ℕ → ℝ) (c V : ℝ)
    (h0 : 0 < η * c) (h2 : η * c < 2) (ξ : ℕ → Ω → ℝ) (hξ : NoisyEntry μ 0 V ξ)
    (hv : ∀ ω n p, ∑ x ∈ idx σ, v x.1 x.2 * G ω n p x.1 x.2 = c * component σ v p q + ξ n ω) (p0 : ℕ → ℕ → ℝ) :
    ∃ P : Ω → ℕ → ℕ → ℕ → ℝ,
      (∀ ω, P ω 0 = p0 ∧ Visits (multiSteps (sgd (.scalar η) none nes) (fun _ => (K : ℤ)) true) (grad ω) σ (P ω)) ∧
      ∀ n, n < 2 ^ 31 → variance (fun ω => component σ v (P ω n) q) μ ≤ 1 / K * (η * V / (c * (2 - η * c))) := by
  obtain ⟨P, h1, h3⟩ := C167_accumulated μ σ η nes true K hK grad G hg q v c V ξ hξ hv p0
  have hV : 0 ≤ V := by rw [← hξ.var 0]; exact variance_nonneg _ _
  refine ⟨P, h1, fun n hn => ?_⟩
  have e : n / K * K + n % K = n := Nat.div_add_mod' n K
  have := ((h3 (n / K) (n % K) (Nat.mod_lt _ (by omega)) (by rw [e]; exact hn)).1 rfl).2
  rw [e] at this
  rw [this]
  have hsq : (1 - η * c) ^ 2 < 1 := by nlinarith
  have hsum : ∑ i ∈ range (n / K), (1 - η * c) ^ (2 * i) ≤ 1 / (1 - (1 - η * c) ^ 2) := by
    simp only [pow_mul]
    have hg := (hasSum_geometric_of_lt_one (sq_nonneg (1 - η * c)) hsq)
    rw [one_div, ← hg.tsum_eq]
    exact hg.summable.sum_le_tsum _ fun i _ => pow_nonneg (sq_nonneg _) i
  have hη0 : η ≠ 0 := by rintro rfl; simp at h0
  have hc0 : c ≠ 0 := by rintro rfl; simp at h0
  have q1 : 2 - η * c ≠ 0 := by linarith
  have hK0 : (K : ℝ) ≠ 0 := by positivity
  have hKV : 0 ≤ η ^ 2 * (V / K) := by positivity
  calc η ^ 2 * (V / K) * ∑ i ∈ range (n / K), (1 - η * c) ^ (2 * i)
      ≤ η ^ 2 * (V / K) * (1 / (1 - (1 - η * c) ^ 2)) := mul_le_mul_of_nonneg_left hsum hKV
    _ = 1 / K * (η * V / (c * (2 - η * c))) := by
        have : 1 - (1 - η * c) ^ 2 = η * (c * (2 - η * c)) := by ring
        rw [this]
        field_simp

/-- `η = 1/2`, curvature 3 and Gaussian gradient noise of variance 2 meet the hypotheses. -/
example : ∃ (G : (ℕ → ℝ) → ℕ → (ℕ → ℕ → ℝ) → ℕ → ℕ → ℝ) (ξ : ℕ → (ℕ → ℝ) → ℝ),
    NoisyEntry (Measure.infinitePi (fun _ : ℕ => gaussianReal 0 2)) 0 2 ξ ∧ (0 : ℝ) < 1 / 2 * 3 ∧ (1 / 2 * 3 : ℝ) < 2 ∧
    (∀ ω n p, ∑ x ∈ idx (.leaf [1]), (1 : ℝ) * G ω n p x.1 x.2 = 3 * component (.leaf [1]) (fun _ _ => 1) p (fun _ _ => 0) + ξ n ω) := by
  refine ⟨fun ω n p l i => 3 * p l i + ω n, fun n ω => ω n, gaussian_noisyEntry 0 2, by norm_num, by norm_num, fun ω n p => ?_⟩
  have e : idx (.leaf [1]) = {⟨0, 0⟩} := by decide
  simp [component, e]

end Optax
