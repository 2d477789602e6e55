import Verif.Props.Stationary
import Verif.Props.LookaheadEdge

/-!
# C162: the noise floor of lookahead

The setting of C160 with `lookahead(sgd(η), k, a)`, gradients taken at the fast parameters.
-/

set_option linter.unusedSectionVars false
set_option linter.unusedSimpArgs false

namespace Optax
open Finset MeasureTheory ProbabilityTheory Filter Topology

variable {Ω : Type*} [MeasurableSpace Ω] (μ : Measure Ω) [IsProbabilityMeasure μ] (σ : Spec)

/-- fast and slow parameters of lookahead around plain gradient steps with the gradient functions `G n` -/
noncomputable def noisyLookahead (η : ℝ) (k : ℕ) (a : ℝ) (G : ℕ → (ℕ → ℕ → ℝ) → ℕ → ℕ → ℝ) (p0 : ℕ → ℕ → ℝ) : ℕ → (ℕ → ℕ → ℝ) × (ℕ → ℕ → ℝ)
  | 0 => (p0, p0)
  | n + 1 =>
    let f := (noisyLookahead η k a G p0 n).1
    let s := (noisyLookahead η k a G p0 n).2
    if (n + 1) % k = 0 then (fun x y => s x y + a * (f x y - η * G n f x y - s x y), fun x y => s x y + a * (f x y - η * G n f x y - s x y))
    else (fun x y => f x y - η * G n f x y, s)

theorem noisyLookahead_path (η : ℝ) (nes : Bool) (k : ℕ) (hk : 1 ≤ k) (hk' : k < 2 ^ 31) (a : ℝ) (grad : ℕ → Params ℝ → Params ℝ)
    (G : ℕ → (ℕ → ℕ → ℝ) → ℕ → ℕ → ℝ)
    (hg : ∀ n f s, grad n (lookaheadParams (mk σ f) (mk σ s)) = mk σ (G n f)) (p0 : ℕ → ℕ → ℝ)
    (s0 : (lookahead (sgd (.scalar η) none nes) k a none).State)
    (hs0 : (lookahead (sgd (.scalar η) none nes) k a none).init (initSynced (mk σ p0)) = .ok s0) (n : ℕ) : ∃ s,
      trainLoop (lookahead (sgd (.scalar η) none nes) k a none) grad n s0 (initSynced (mk σ p0)) =
        .ok (lookaheadParams (mk σ (noisyLookahead η k a G p0 n).1) (mk σ (noisyLookahead η k a G p0 n).2), s) := by
  set ss : (sgd (.scalar η) none nes : GT ℝ).State := some ((⟨⟩ : EmptyState), some ((⟨⟩ : EmptyState), (0 : ℕ))) with hss
  have h0 : (lookahead (sgd (.scalar η) none nes) k a none).init (initSynced (mk σ p0)) = .ok ⟨ss, ctr 0⟩ := rfl
  rw [h0] at hs0
  obtain rfl : (⟨ss, ctr 0⟩ : (lookahead (sgd (.scalar η) none nes) k a none).State) = s0 := by
    injection hs0
  refine ⟨⟨ss, ctr (n % k)⟩, ?_⟩
  induction n with
  | zero => rw [Nat.zero_mod]; rfl
  | succ n ih =>
    set f := (noisyLookahead η k a G p0 n).1 with hf
    set sl := (noisyLookahead η k a G p0 n).2 with hsl
    obtain ⟨U, h1, h2⟩ := C19_step (sgd (.scalar η) none nes) k a σ hk hk' (n % k) (Nat.mod_lt _ hk) (G n f) f sl _ ss ss
      (sgdR_update σ η nes (G n f) _)
    have h3 := trainLoop_succ _ grad n _ _ _ _ _ _ U ih (by rw [hg]; exact h1) h2
    refine h3.trans ?_
    have e : (n % k + 1) % k = (n + 1) % k := by rw [Nat.mod_add_mod]
    have e2 : n % k + 1 = k ↔ (n + 1) % k = 0 := by
      have := Nat.mod_lt n hk
      rw [← e]
      constructor
      · intro h; rw [h, Nat.mod_self]
      · intro h
        by_contra hne
        rw [Nat.mod_eq_of_lt (by omega)] at h
        omega
    rw [e]
    have hp : noisyLookahead η k a G p0 (n + 1) = if (n + 1) % k = 0 then (fun x y => sl x y + a * (f x y - η * G n f x y - sl x y), fun x y => sl x y + a * (f x y - η * G n f x y - sl x y))
      else (fun x y => f x y - η * G n f x y, sl) := rfl
    rw [hp]
    simp only [e2]
    split_ifs
    · simp only [neg_mul, ← sub_eq_add_neg]
    · simp only [neg_mul, ← sub_eq_add_neg]

/-- weight of the noise of step `t` in the slow parameters after `j` periods -/
noncomputable def slowWeight (η : ℝ) (k : ℕ) (a ρ : ℝ) (j t : ℕ) : ℝ :=
  a * η * (periodFactor k a (1 - ρ) ^ (j - 1 - t / k) * ρ ^ (k - 1 - t % k))

theorem noisyLookahead_component (η : ℝ) (k : ℕ) (hk : 1 ≤ k) (a : ℝ) (G : ℕ → (ℕ → ℕ → ℝ) → ℕ → ℕ → ℝ) (q v : ℕ → ℕ → ℝ) (c : ℝ) (ξ : ℕ → ℝ)
    (hv : ∀ n p, ∑ x ∈ idx σ, v x.1 x.2 * G n p x.1 x.2 = c * component σ v p q + ξ n) (p0 : ℕ → ℕ → ℝ) (j : ℕ) :
    (∀ r < k, component σ v (noisyLookahead η k a G p0 (j * k + r)).2 q =
        periodFactor k a (η * c) ^ j * component σ v p0 q - ∑ t ∈ range (j * k), slowWeight η k a (1 - η * c) j t * ξ t) ∧
    (∀ r < k, component σ v (noisyLookahead η k a G p0 (j * k + r)).1 q =
        (1 - η * c) ^ r * component σ v (noisyLookahead η k a G p0 (j * k)).2 q -
          ∑ i ∈ range r, η * (1 - η * c) ^ (r - 1 - i) * ξ (j * k + i)) := by
  have hstep : ∀ n (f : ℕ → ℕ → ℝ), component σ v (fun x y => f x y - η * G n f x y) q = (1 - η * c) * component σ v f q - η * ξ n := fun n f => by
    have h1 : component σ v (fun x y => f x y - η * G n f x y) q = component σ v f q - η * ∑ x ∈ idx σ, v x.1 x.2 * G n f x.1 x.2 := by
      unfold component
      rw [Finset.mul_sum, ← Finset.sum_sub_distrib]
      exact Finset.sum_congr rfl fun x _ => by ring
    rw [h1, hv]; ring
  have hblend : ∀ s f : ℕ → ℕ → ℝ, component σ v (fun x y => s x y + a * (f x y - s x y)) q = (1 - a) * component σ v s q + a * component σ v f q := fun s f => by
    unfold component
    rw [Finset.mul_sum, Finset.mul_sum, ← Finset.sum_add_distrib]
    exact Finset.sum_congr rfl fun x _ => by ring
  have hp : ∀ n, noisyLookahead η k a G p0 (n + 1) = if (n + 1) % k = 0 then
      (fun x y => (noisyLookahead η k a G p0 n).2 x y + a * ((noisyLookahead η k a G p0 n).1 x y - η * G n (noisyLookahead η k a G p0 n).1 x y - (noisyLookahead η k a G p0 n).2 x y),
       fun x y => (noisyLookahead η k a G p0 n).2 x y + a * ((noisyLookahead η k a G p0 n).1 x y - η * G n (noisyLookahead η k a G p0 n).1 x y - (noisyLookahead η k a G p0 n).2 x y))
      else (fun x y => (noisyLookahead η k a G p0 n).1 x y - η * G n (noisyLookahead η k a G p0 n).1 x y, (noisyLookahead η k a G p0 n).2) := fun _ => rfl
  -- inside a period
  have inner : ∀ j, (noisyLookahead η k a G p0 (j * k)).1 = (noisyLookahead η k a G p0 (j * k)).2 → ∀ r < k,
      (noisyLookahead η k a G p0 (j * k + r)).2 = (noisyLookahead η k a G p0 (j * k)).2 ∧
      component σ v (noisyLookahead η k a G p0 (j * k + r)).1 q =
        (1 - η * c) ^ r * component σ v (noisyLookahead η k a G p0 (j * k)).2 q -
          ∑ i ∈ range r, η * (1 - η * c) ^ (r - 1 - i) * ξ (j * k + i) := by
    intro j hsync r
    induction r with
    | zero => intro _; simp [hsync]
    | succ r ih =>
      intro hr
      obtain ⟨i1, i2⟩ := ih (by omega)
      have hne : (j * k + r + 1) % k ≠ 0 := by
        rw [show j * k + r + 1 = (r + 1) + j * k by ring, Nat.add_mul_mod_self_right, Nat.mod_eq_of_lt hr]
        omega
      rw [← Nat.add_assoc, hp (j * k + r), if_neg hne]
      refine ⟨i1, ?_⟩
      show component σ v (fun x y => _ - _) q = _
      rw [hstep, i2, Finset.sum_range_succ, mul_sub, Finset.mul_sum, ← mul_assoc, ← pow_succ']
      have : ∑ i ∈ range r, (1 - η * c) * (η * (1 - η * c) ^ (r - 1 - i) * ξ (j * k + i)) =
          ∑ i ∈ range r, η * (1 - η * c) ^ (r + 1 - 1 - i) * ξ (j * k + i) := by
        refine Finset.sum_congr rfl fun i hi => ?_
        have := Finset.mem_range.mp hi
        rw [show r + 1 - 1 - i = r - 1 - i + 1 by omega, pow_succ]
        ring
      rw [this]
      simp
      ring
  have main : ∀ j, (noisyLookahead η k a G p0 (j * k)).1 = (noisyLookahead η k a G p0 (j * k)).2 ∧
      component σ v (noisyLookahead η k a G p0 (j * k)).2 q =
        periodFactor k a (η * c) ^ j * component σ v p0 q - ∑ t ∈ range (j * k), slowWeight η k a (1 - η * c) j t * ξ t := by
    intro j
    induction j with
    | zero => simp [noisyLookahead]
    | succ j ih =>
      obtain ⟨hs, hc⟩ := ih
      obtain ⟨i1, i2⟩ := inner j hs (k - 1) (by omega)
      have hidx : (j + 1) * k = j * k + (k - 1) + 1 := by rw [Nat.succ_mul]; omega
      have hz : (j * k + (k - 1) + 1) % k = 0 := by rw [← hidx]; exact Nat.mul_mod_left _ _
      have hpe := hp (j * k + (k - 1))
      rw [if_pos hz, ← hidx] at hpe
      rw [hpe]
      refine ⟨rfl, ?_⟩
      show component σ v (fun x y => _ + a * (_ - _)) q = _
      rw [hblend _ (fun x y => (noisyLookahead η k a G p0 (j * k + (k - 1))).1 x y - η * G (j * k + (k - 1)) (noisyLookahead η k a G p0 (j * k + (k - 1))).1 x y),
        hstep, i1, i2, hc, show (j + 1) * k = j * k + k by ring, Finset.sum_range_add]
      have s1 : ∑ t ∈ range (j * k), slowWeight η k a (1 - η * c) (j + 1) t * ξ t =
          periodFactor k a (η * c) * ∑ t ∈ range (j * k), slowWeight η k a (1 - η * c) j t * ξ t := by
        rw [Finset.mul_sum]
        refine Finset.sum_congr rfl fun t ht => ?_
        have htl : t / k < j := Nat.div_lt_of_lt_mul (by rw [Nat.mul_comm]; exact Finset.mem_range.mp ht)
        unfold slowWeight
        rw [show j + 1 - 1 - t / k = j - 1 - t / k + 1 by omega, pow_succ, sub_sub_cancel]
        ring
      have s2 : ∑ i ∈ range k, slowWeight η k a (1 - η * c) (j + 1) (j * k + i) * ξ (j * k + i) =
          a * ((1 - η * c) * (∑ i ∈ range (k - 1), η * (1 - η * c) ^ (k - 1 - 1 - i) * ξ (j * k + i)) + η * ξ (j * k + (k - 1))) := by
        obtain ⟨k', rfl⟩ : ∃ k', k = k' + 1 := ⟨k - 1, by omega⟩
        have hw : ∀ i < k' + 1, slowWeight η (k' + 1) a (1 - η * c) (j + 1) (j * (k' + 1) + i) = a * η * (1 - η * c) ^ (k' - i) := by
          intro i hi
          unfold slowWeight
          rw [show j * (k' + 1) + i = i + j * (k' + 1) by ring, Nat.add_mul_div_right _ _ (by omega), Nat.add_mul_mod_self_right,
            Nat.div_eq_of_lt hi, Nat.mod_eq_of_lt hi]
          simp
        rw [Finset.sum_range_succ, mul_add a, Finset.mul_sum, Finset.mul_sum]
        congr 1
        · refine Finset.sum_congr rfl fun i hi => ?_
          have hi' := Finset.mem_range.mp hi
          rw [hw i (by omega)]
          rw [show k' - i = k' + 1 - 1 - 1 - i + 1 by simp at hi'; omega, pow_succ]
          ring
        · rw [hw k' (by omega)]
          simp
          ring
      rw [s1, s2]
      have e3 : (1 - η * c) ^ k = (1 - η * c) * (1 - η * c) ^ (k - 1) := by
        rw [← pow_succ', show k - 1 + 1 = k by omega]
      have e4 : periodFactor k a (η * c) = 1 - a + a * ((1 - η * c) * (1 - η * c) ^ (k - 1)) := by
        unfold periodFactor; rw [e3]
      rw [pow_succ', e4]
      ring
  refine ⟨fun r hr => ?_, fun r hr => (inner j (main j).1 r hr).2⟩
  rw [(inner j (main j).1 r hr).1]
  exact (main j).2

theorem slowWeight_sq (η : ℝ) (k : ℕ) (hk : 1 ≤ k) (a ρ : ℝ) (j : ℕ) :
    ∑ t ∈ range (j * k), slowWeight η k a ρ j t ^ 2 =
      a ^ 2 * η ^ 2 * (∑ i ∈ range k, ρ ^ (2 * i)) * ∑ i ∈ range j, periodFactor k a (1 - ρ) ^ (2 * i) := by
  induction j with
  | zero => simp
  | succ j ih =>
    rw [show (j + 1) * k = j * k + k by ring, Finset.sum_range_add]
    have s1 : ∑ t ∈ range (j * k), slowWeight η k a ρ (j + 1) t ^ 2 =
        periodFactor k a (1 - ρ) ^ 2 * ∑ t ∈ range (j * k), slowWeight η k a ρ j t ^ 2 := by
      rw [Finset.mul_sum]
      refine Finset.sum_congr rfl fun t ht => ?_
      have htl : t / k < j := Nat.div_lt_of_lt_mul (by rw [Nat.mul_comm]; exact Finset.mem_range.mp ht)
      unfold slowWeight
      rw [show j + 1 - 1 - t / k = j - 1 - t / k + 1 by omega, pow_succ]
      ring
    have s2 : ∑ i ∈ range k, slowWeight η k a ρ (j + 1) (j * k + i) ^ 2 = a ^ 2 * η ^ 2 * ∑ i ∈ range k, ρ ^ (2 * i) := by
      rw [← Finset.sum_range_reflect, Finset.mul_sum]
      refine Finset.sum_congr rfl fun i hi => ?_
      have hi' := Finset.mem_range.mp hi
      unfold slowWeight
      rw [show j * k + (k - 1 - i) = (k - 1 - i) + j * k by ring, Nat.add_mul_div_right _ _ (by omega), Nat.add_mul_mod_self_right,
        Nat.div_eq_of_lt (by omega), Nat.mod_eq_of_lt (show k - 1 - i < k by omega), show k - 1 - (k - 1 - i) = i by omega]
      simp
      ring
    rw [s1, s2, ih, Finset.sum_range_succ' (fun i => periodFactor k a (1 - ρ) ^ (2 * i)), Nat.mul_zero, pow_zero]
    have : ∑ i ∈ range j, periodFactor k a (1 - ρ) ^ (2 * (i + 1)) = periodFactor k a (1 - ρ) ^ 2 * ∑ i ∈ range j, periodFactor k a (1 - ρ) ^ (2 * i) := by
      rw [Finset.mul_sum]
      exact Finset.sum_congr rfl fun i _ => by ring
    rw [this]
    ring

/-- **C162.** Train with `lookahead(sgd(η), k, a)`, `0 < a ≤ 1`, with centred, pairwise independent noise of variance `V` on the gradient's component
along a direction of curvature `c`. After `j` periods and `r < k` further steps the slow parameters have mean error `(1 - a + a ρ^k)^j` times the
initial one, `ρ = 1 - η c`, and variance `a² η² V (Σ_{i<k} ρ^(2i)) (Σ_{i<j} (1 - a + a ρ^k)^(2i))`. If `0 < η c < 2`, the variance tends to that of plain
`sgd(η)`, `η V / (c (2 - η c))`, times `a (1 + ρ^k) / (2 - a (1 - ρ^k))`. -/
theorem C162_floor (η : ℝ) (nes : Bool) (k : ℕ) (hk : 1 ≤ k) (hk' : k < 2 ^ 31) (a : ℝ) (ha : 0 < a) (ha1 : a ≤ 1) (grad : Ω → ℕ → Params ℝ → Params ℝ)
    (G : Ω → ℕ → (ℕ → ℕ → ℝ) → ℕ → ℕ → ℝ) (hg : ∀ ω n f s, grad ω n (lookaheadParams (mk σ f) (mk σ s)) = mk σ (G ω n f))
    (q v : ℕ → ℕ → ℝ) (c V : ℝ) (ξ : ℕ → Ω → ℝ) (hξ : NoisyEntry μ 0 V ξ)
    (hv : ∀ ω n p, ∑ x ∈ idx σ, v x.1 x.2 * G ω n p x.1 x.2 = c * component σ v p q + ξ n ω) (p0 : ℕ → ℕ → ℝ) :
    ∃ (f sl : Ω → ℕ → ℕ → ℕ → ℝ), (∃ s0, (lookahead (sgd (.scalar η) none nes) k a none).init (initSynced (mk σ p0)) = .ok s0 ∧
        ∀ ω n, ∃ s, trainLoop (lookahead (sgd (.scalar η) none nes) k a none) (grad ω) n s0 (initSynced (mk σ p0)) =
          .ok (lookaheadParams (mk σ (f ω n)) (mk σ (sl ω n)), s)) ∧
      (∀ j r, r < k → ∫ ω, component σ v (sl ω (j * k + r)) q ∂μ = (1 - a + a * (1 - η * c) ^ k) ^ j * component σ v p0 q ∧
        variance (fun ω => component σ v (sl ω (j * k + r)) q) μ =
          a ^ 2 * η ^ 2 * V * (∑ i ∈ range k, (1 - η * c) ^ (2 * i)) * ∑ i ∈ range j, (1 - a + a * (1 - η * c) ^ k) ^ (2 * i)) ∧
      (0 < η * c → η * c < 2 → Tendsto (fun n => variance (fun ω => component σ v (sl ω n) q) μ) atTop
        (𝓝 (η * V / (c * (2 - η * c)) * (a * (1 + (1 - η * c) ^ k) / (2 - a * (1 - (1 - η * c) ^ k)))))) := by
  have hint : ∀ j, Integrable (fun ω => ∑ t ∈ range (j * k), slowWeight η k a (1 - η * c) j t * ξ t ω) μ := fun j =>
    integrable_finsetSum _ fun t _ => ((hξ.memLp t).integrable one_le_two).const_mul _
  have key : ∀ j r, r < k → ∫ ω, component σ v (noisyLookahead η k a (G ω) p0 (j * k + r)).2 q ∂μ = (1 - a + a * (1 - η * c) ^ k) ^ j * component σ v p0 q ∧
        variance (fun ω => component σ v (noisyLookahead η k a (G ω) p0 (j * k + r)).2 q) μ =
          a ^ 2 * η ^ 2 * V * (∑ i ∈ range k, (1 - η * c) ^ (2 * i)) * ∑ i ∈ range j, (1 - a + a * (1 - η * c) ^ k) ^ (2 * i) := by
    intro j r hr
    have hp := fun ω => (noisyLookahead_component σ η k hk a (G ω) q v c (fun n => ξ n ω) (hv ω) p0 j).1 r hr
    simp only [hp]
    constructor
    · rw [integral_sub (integrable_const _) (hint j), (hξ.weighted (range (j * k)) _).1]
      simp [periodFactor]
    · rw [variance_const_sub (hint j).aestronglyMeasurable, (hξ.weighted (range (j * k)) _).2, slowWeight_sq η k hk]
      simp only [periodFactor, sub_sub_cancel]
      ring
  refine ⟨fun ω n => (noisyLookahead η k a (G ω) p0 n).1, fun ω n => (noisyLookahead η k a (G ω) p0 n).2,
    ⟨_, rfl, fun ω n => noisyLookahead_path σ η nes k hk hk' a (grad ω) (G ω) (hg ω) p0 _ rfl n⟩, key, fun h0 h2 => ?_⟩
  set ρ := 1 - η * c with hρ
  have hρ2 : ρ ^ 2 < 1 := by rw [hρ]; nlinarith
  have hρa : |ρ| < 1 := by rw [abs_lt, hρ]; constructor <;> linarith
  have hρk : |ρ ^ k| < 1 := by rw [abs_pow]; exact pow_lt_one₀ (abs_nonneg _) hρa (by omega)
  obtain ⟨hk1, hk2⟩ := abs_lt.mp hρk
  set R := ρ ^ k with hR
  have hφ : (1 - a + a * R) ^ 2 < 1 := by
    have : |1 - a + a * R| < 1 := by rw [abs_lt]; constructor <;> nlinarith
    rw [← sq_abs]; nlinarith [abs_nonneg (1 - a + a * R)]
  have hj : Tendsto (fun j => a ^ 2 * η ^ 2 * V * (∑ i ∈ range k, ρ ^ (2 * i)) * ∑ i ∈ range j, (1 - a + a * R) ^ (2 * i)) atTop
      (𝓝 (η * V / (c * (2 - η * c)) * (a * (1 + R) / (2 - a * (1 - R))))) := by
    have hs := (hasSum_geometric_of_lt_one (sq_nonneg (1 - a + a * R)) hφ).tendsto_sum_nat
    simp only [← pow_mul] at hs
    have hlim := hs.const_mul (a ^ 2 * η ^ 2 * V * (∑ i ∈ range k, ρ ^ (2 * i)))
    have hgeo : (1 - ρ ^ 2) * ∑ i ∈ range k, ρ ^ (2 * i) = 1 - R ^ 2 := by
      have := geom_sum_mul_neg (ρ ^ 2) k
      simp only [← pow_mul] at this
      rw [mul_comm, this, hR, ← pow_mul, Nat.mul_comm]
    have hc0 : c ≠ 0 := by rintro rfl; simp at h0
    have hη0 : η ≠ 0 := by rintro rfl; simp at h0
    have q1 : 2 - η * c ≠ 0 := by linarith
    have q2 : 2 - a * (1 - R) ≠ 0 := by nlinarith
    have q3 : 1 - R ≠ 0 := by linarith
    have e1 : 1 - ρ ^ 2 = η * (c * (2 - η * c)) := by rw [hρ]; ring
    have e2 : 1 - (1 - a + a * R) ^ 2 = a * (1 - R) * (2 - a * (1 - R)) := by ring
    have hsum : ∑ i ∈ range k, ρ ^ (2 * i) = (1 - R ^ 2) / (η * (c * (2 - η * c))) := by
      rw [eq_div_iff (by rw [← e1]; linarith), ← e1, mul_comm, hgeo]
    have e : a ^ 2 * η ^ 2 * V * (∑ i ∈ range k, ρ ^ (2 * i)) * (1 - (1 - a + a * R) ^ 2)⁻¹ =
        η * V / (c * (2 - η * c)) * (a * (1 + R) / (2 - a * (1 - R))) := by
      rw [hsum, e2, show 1 - R ^ 2 = (1 - R) * (1 + R) by ring]
      field_simp
    rw [e] at hlim
    exact hlim
  have hcomp := hj.comp (Nat.tendsto_div_const_atTop (n := k) (by omega))
  refine hcomp.congr fun n => ?_
  have := (key (n / k) (n % k) (Nat.mod_lt _ hk)).2
  rw [show n / k * k + n % k = n by rw [Nat.mul_comm]; exact Nat.div_add_mod n k] at this
  rw [this]
  rfl

/-- **C162 (lookahead reduces the noise).** The factor is 1 for `a = 1` and strictly between 0 and 1 for `a < 1`. -/
theorem C162_reduction (η c : ℝ) (k : ℕ) (hk : 1 ≤ k) (a : ℝ) (ha : 0 < a) (h0 : 0 < η * c) (h2 : η * c < 2) :
    (a = 1 → a * (1 + (1 - η * c) ^ k) / (2 - a * (1 - (1 - η * c) ^ k)) = 1) ∧
    (a < 1 → 0 < a * (1 + (1 - η * c) ^ k) / (2 - a * (1 - (1 - η * c) ^ k)) ∧
      a * (1 + (1 - η * c) ^ k) / (2 - a * (1 - (1 - η * c) ^ k)) < 1) := by
  have hρa : |1 - η * c| < 1 := by rw [abs_lt]; constructor <;> linarith
  have hρk : |(1 - η * c) ^ k| < 1 := by rw [abs_pow]; exact pow_lt_one₀ (abs_nonneg _) hρa (by omega)
  obtain ⟨hk1, hk2⟩ := abs_lt.mp hρk
  generalize (1 - η * c) ^ k = R at *
  refine ⟨?_, fun h1 => ?_⟩
  · rintro rfl
    rw [div_eq_one_iff_eq (by linarith)]
    ring
  · have hpos : 0 < 2 - a * (1 - R) := by nlinarith
    refine ⟨div_pos (mul_pos ha (by linarith)) hpos, ?_⟩
    rw [div_lt_one hpos]
    nlinarith

/-- `lookahead(sgd(1/2), 5, 1/2)` on `x²/2` with Gaussian noise of variance 2 meets the hypotheses. -/
example : ∃ (grad : (ℕ → ℝ) → ℕ → Params ℝ → Params ℝ) (G : (ℕ → ℝ) → ℕ → (ℕ → ℕ → ℝ) → ℕ → ℕ → ℝ) (ξ : ℕ → (ℕ → ℝ) → ℝ),
    NoisyEntry (Measure.infinitePi (fun _ : ℕ => gaussianReal 0 2)) 0 2 ξ ∧
    (∀ ω n f s, grad ω n (lookaheadParams (mk (.leaf [1]) f) (mk (.leaf [1]) s)) = mk (.leaf [1]) (G ω n f)) ∧
    (∀ ω n p, ∑ x ∈ idx (.leaf [1]), (1 : ℝ) * G ω n p x.1 x.2 = 1 * component (.leaf [1]) (fun _ _ => 1) p (fun _ _ => 0) + ξ n ω) ∧
    (0 : ℝ) < 1 / 2 * 1 ∧ (1 / 2 * 1 : ℝ) < 2 := by
  refine ⟨fun ω n t => mk (.leaf [1]) (fun l i => coord t 0 0 + ω n), fun ω n p l i => p 0 0 + ω n, fun n ω => ω n,
    gaussian_noisyEntry 0 2, fun ω n f s => ?_, fun ω n p => ?_, by norm_num, by norm_num⟩
  · refine mk_congr fun l s' hl i hi => ?_
    rfl
  · have e : idx (.leaf [1]) = {⟨0, 0⟩} := by decide
    simp [component, e]

end Optax
