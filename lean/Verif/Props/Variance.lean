import Verif.Props.ApplyEvery
import Verif.Props.Moments
import Verif.Props.MultiSteps
import Mathlib.Probability.Moments.Variance
import Mathlib.Probability.Distributions.Gaussian.Real
import Mathlib.Probability.Independence.InfinitePi

/-!
# C159: what averaging does to gradient noise

The gradients of a run are random: `g ω` is the history of gradients that the transformation is given at the outcome `ω`, and
the transformation is run on it.  `NoisyEntry μ m V X` says that the values `X 0, X 1, …` of one entry over time are square
integrable, pairwise independent, and each has mean `m` and variance `V`.
-/

set_option linter.unusedSectionVars false
set_option linter.unusedSimpArgs false

namespace Optax
open Finset MeasureTheory ProbabilityTheory Filter Topology

variable {Ω : Type*} [MeasurableSpace Ω] (μ : Measure Ω) [IsProbabilityMeasure μ]

/-- pairwise independent square integrable values, each of mean `m` and variance `V` -/
structure NoisyEntry (m V : ℝ) (X : ℕ → Ω → ℝ) : Prop where
  memLp : ∀ j, MemLp (X j) 2 μ
  indep : ∀ j l, j ≠ l → IndepFun (X j) (X l) μ
  mean : ∀ j, ∫ ω, X j ω ∂μ = m
  var : ∀ j, variance (X j) μ = V

variable {μ} in
theorem NoisyEntry.weighted {m V : ℝ} {X : ℕ → Ω → ℝ} (h : NoisyEntry μ m V X) (s : Finset ℕ) (w : ℕ → ℝ) :
    ∫ ω, ∑ j ∈ s, w j * X j ω ∂μ = m * ∑ j ∈ s, w j ∧
    variance (fun ω => ∑ j ∈ s, w j * X j ω) μ = V * ∑ j ∈ s, w j ^ 2 := by
  constructor
  · rw [integral_finsetSum _ (fun j _ => ((h.memLp j).integrable one_le_two).const_mul _), Finset.mul_sum]
    refine Finset.sum_congr rfl fun j _ => ?_
    rw [integral_const_mul, h.mean j, mul_comm]
  · have e : (fun ω => ∑ j ∈ s, w j * X j ω) = ∑ j ∈ s, (fun ω => w j * X j ω) := by
      funext ω; simp
    rw [e, IndepFun.variance_sum (fun j _ => (h.memLp j).const_mul _), Finset.mul_sum]
    · refine Finset.sum_congr rfl fun j _ => ?_
      rw [variance_const_mul, h.var j, mul_comm]
    · intro j _ l _ hjl
      exact (h.indep j l hjl).comp (measurable_const_mul (w j)) (measurable_const_mul (w l))

theorem sum_rev_pow (d : ℝ) (n : ℕ) : (1 - d) * ∑ j ∈ range n, d ^ (n - 1 - j) = 1 - d ^ n := by
  rw [Finset.sum_range_reflect (fun j => d ^ j) n, mul_comm]
  have := geom_sum_mul_neg d n
  linarith

theorem sum_rev_pow_sq (d : ℝ) (n : ℕ) : (1 - d ^ 2) * ∑ j ∈ range n, (d ^ (n - 1 - j)) ^ 2 = 1 - d ^ (2 * n) := by
  have := sum_rev_pow (d ^ 2) n
  rw [pow_mul, ← this]
  congr 1
  refine Finset.sum_congr rfl fun j _ => ?_
  rw [← pow_mul, ← pow_mul, mul_comm]

variable (σ : Spec) (p0 : ℕ → ℕ → ℝ) (g : Ω → ℕ → ℕ → ℕ → ℝ) (pp : ℕ → Option (Params ℝ)) (N : ℕ)

/-- **C159.** `trace(d)`: an entry whose gradients have mean `m`, variance `V` has at call `n` an update of mean
`m (1 - d^(n+1)) / (1 - d)` and variance `V (1 - d^(2 (n+1))) / (1 - d²)`; the mean tends to `m / (1 - d)` and the variance to
`V / (1 - d²)`: momentum multiplies the signal by more than it multiplies the noise. -/
theorem C159_trace (d : ℝ) (h0 : 0 ≤ d) (h1 : d < 1) :
    ∃ U : Ω → ℕ → ℕ → ℕ → ℝ, (∀ ω, (trace d false).outs (mk σ p0) (hist σ (g ω) pp N) =
        .ok ((List.range N).map (fun n => mk σ (U ω n)))) ∧
      ∀ k i m V, NoisyEntry μ m V (fun j ω => g ω j k i) →
        (∀ n, ∫ ω, U ω n k i ∂μ = m * ((1 - d ^ (n + 1)) / (1 - d)) ∧
          variance (fun ω => U ω n k i) μ = V * ((1 - d ^ (2 * (n + 1))) / (1 - d ^ 2))) ∧
        Tendsto (fun n => ∫ ω, U ω n k i ∂μ) atTop (𝓝 (m / (1 - d))) ∧
        Tendsto (fun n => variance (fun ω => U ω n k i) μ) atTop (𝓝 (V / (1 - d ^ 2))) := by
  have hd : 1 - d ≠ 0 := by linarith
  have hd2 : 1 - d ^ 2 ≠ 0 := by nlinarith
  refine ⟨fun ω n k i => geoSum d (fun j => g ω j k i) (n + 1), fun ω => ?_, fun k i m V h => ?_⟩
  · unfold GT.outs
    rw [C21_trace]
    simp
  · have key : ∀ n : ℕ, ∫ ω, geoSum d (fun j => g ω j k i) (n + 1) ∂μ = m * ((1 - d ^ (n + 1)) / (1 - d)) ∧
        variance (fun ω => geoSum d (fun j => g ω j k i) (n + 1)) μ = V * ((1 - d ^ (2 * (n + 1))) / (1 - d ^ 2)) := by
      intro n
      have hw := h.weighted (range (n + 1)) (fun j => d ^ (n + 1 - 1 - j))
      have a1 : ∑ j ∈ range (n + 1), d ^ (n + 1 - 1 - j) = (1 - d ^ (n + 1)) / (1 - d) := by
        rw [eq_div_iff hd, mul_comm, sum_rev_pow]
      have a2 : ∑ j ∈ range (n + 1), (d ^ (n + 1 - 1 - j)) ^ 2 = (1 - d ^ (2 * (n + 1))) / (1 - d ^ 2) := by
        rw [eq_div_iff hd2, mul_comm, sum_rev_pow_sq]
      rw [a1, a2] at hw
      exact hw
    have t1 : Tendsto (fun n : ℕ => d ^ (n + 1)) atTop (𝓝 0) :=
      (tendsto_pow_atTop_nhds_zero_of_lt_one h0 h1).comp (tendsto_add_atTop_nat 1)
    have t2 : Tendsto (fun n : ℕ => d ^ (2 * (n + 1))) atTop (𝓝 0) := by
      have : (fun n : ℕ => d ^ (2 * (n + 1))) = fun n : ℕ => d ^ (n + 1) * d ^ (n + 1) := by
        funext n; rw [two_mul, pow_add]
      rw [this]
      simpa using t1.mul t1
    refine ⟨key, ?_, ?_⟩
    · simp only [(key _).1]
      have := ((t1.const_sub 1).div_const (1 - d)).const_mul m
      simpa [div_eq_mul_inv] using this
    · simp only [(key _).2]
      have := ((t2.const_sub 1).div_const (1 - d ^ 2)).const_mul V
      simpa [div_eq_mul_inv] using this

/-- **C159.** `ema(d)` with bias correction: the update is an unbiased estimate of the mean gradient from the first call on, its
variance at call `n` is `V (1 - d) (1 + d^(n+1)) / ((1 + d) (1 - d^(n+1)))`, never more than `V`, strictly less from the second call on
when `0 < d` and the gradients are not constant, and in the limit `V (1 - d) / (1 + d)`. -/
theorem C159_ema (d : ℝ) (h0 : 0 ≤ d) (h1 : d < 1) (hN : N ≤ 2147483647) :
    ∃ U : Ω → ℕ → ℕ → ℕ → ℝ, (∀ ω, (ema d true).outs (mk σ p0) (hist σ (g ω) pp N) =
        .ok ((List.range N).map (fun n => mk σ (U ω n)))) ∧
      ∀ k i m V, NoisyEntry μ m V (fun j ω => g ω j k i) →
        (∀ n, ∫ ω, U ω n k i ∂μ = m ∧
          variance (fun ω => U ω n k i) μ = V * ((1 - d) * (1 + d ^ (n + 1)) / ((1 + d) * (1 - d ^ (n + 1)))) ∧
          variance (fun ω => U ω n k i) μ ≤ V ∧
          (0 < d → 1 ≤ n → 0 < V → variance (fun ω => U ω n k i) μ < V)) ∧
        Tendsto (fun n => variance (fun ω => U ω n k i) μ) atTop (𝓝 (V * ((1 - d) / (1 + d)))) := by
  have hd : 0 < 1 - d := by linarith
  have hd' : 0 < 1 + d := by linarith
  refine ⟨fun ω n k i => ∑ j ∈ range (n + 1), emaWeight d (n + 1) j * g ω j k i, fun ω => ?_, fun k i m V h => ?_⟩
  · unfold GT.outs
    rw [C22_ema_partial σ p0 (g ω) pp N d true hN]
    simp
  · have hV : 0 ≤ V := by rw [← h.var 0]; exact variance_nonneg _ _
    have key : ∀ n : ℕ, ∫ ω, ∑ j ∈ range (n + 1), emaWeight d (n + 1) j * g ω j k i ∂μ = m ∧
        variance (fun ω => ∑ j ∈ range (n + 1), emaWeight d (n + 1) j * g ω j k i) μ =
          V * ((1 - d) * (1 + d ^ (n + 1)) / ((1 + d) * (1 - d ^ (n + 1)))) := by
      intro n
      have hp := one_sub_pow_pos h0 h1 (Nat.succ_ne_zero n)
      have hw := h.weighted (range (n + 1)) (fun j => emaWeight d (n + 1) j)
      have a2 : ∑ j ∈ range (n + 1), emaWeight d (n + 1) j ^ 2 =
          (1 - d) * (1 + d ^ (n + 1)) / ((1 + d) * (1 - d ^ (n + 1))) := by
        have e : ∀ j, emaWeight d (n + 1) j ^ 2 = ((1 - d) / (1 - d ^ (n + 1))) ^ 2 * (d ^ (n + 1 - 1 - j)) ^ 2 := by
          intro j; unfold emaWeight; ring
        simp only [e]
        rw [← Finset.mul_sum]
        have hs := sum_rev_pow_sq d (n + 1)
        have hd2 : 1 - d ^ 2 ≠ 0 := by nlinarith
        have hs' : ∑ j ∈ range (n + 1), (d ^ (n + 1 - 1 - j)) ^ 2 = (1 - d ^ (2 * (n + 1))) / (1 - d ^ 2) := by
          rw [eq_div_iff hd2, mul_comm, hs]
        rw [hs', show d ^ (2 * (n + 1)) = d ^ (n + 1) * d ^ (n + 1) by rw [two_mul, pow_add],
          show (1 : ℝ) - d ^ 2 = (1 - d) * (1 + d) by ring]
        generalize d ^ (n + 1) = q at *
        have hq : (1 - q) ≠ 0 := by linarith
        field_simp
        ring
      rw [emaWeight_sum h0 h1 (Nat.succ_ne_zero n), mul_one, a2] at hw
      exact hw
    refine ⟨fun n => ⟨(key n).1, (key n).2, ?_, ?_⟩, ?_⟩
    · rw [(key n).2]
      have hp : 0 < 1 - d ^ (n + 1) := one_sub_pow_pos h0 h1 (Nat.succ_ne_zero n)
      refine mul_le_of_le_one_right hV ?_
      have hle : d ^ (n + 1) ≤ d := by
        rw [pow_succ]; exact mul_le_of_le_one_left h0 (pow_le_one₀ h0 h1.le)
      rw [div_le_one (mul_pos hd' hp)]
      nlinarith
    · intro hd0 hn hV0
      show variance (fun ω => ∑ j ∈ range (n + 1), emaWeight d (n + 1) j * g ω j k i) μ < V
      rw [(key n).2]
      have hp : 0 < 1 - d ^ (n + 1) := one_sub_pow_pos h0 h1 (Nat.succ_ne_zero n)
      refine mul_lt_of_lt_one_right hV0 ?_
      have hle : d ^ (n + 1) < d := by
        rw [pow_succ]; exact mul_lt_of_lt_one_left hd0 (pow_lt_one₀ h0 h1 (by omega))
      rw [div_lt_one (mul_pos hd' hp)]
      nlinarith
    · simp only [(key _).2]
      have t1 : Tendsto (fun n : ℕ => d ^ (n + 1)) atTop (𝓝 0) :=
        (tendsto_pow_atTop_nhds_zero_of_lt_one h0 h1).comp (tendsto_add_atTop_nat 1)
      have tn := (t1.const_add 1).const_mul (1 - d)
      have td := (t1.const_sub 1).const_mul (1 + d)
      have := (tn.div td (by simpa using hd'.ne')).const_mul V
      simpa using this

/-- **C159.** `apply_every(k)` adds up `k` gradients: at the end of a period its update has mean `k m` and variance `k V`. -/
theorem C159_apply_every (k : ℕ) (hk : 1 ≤ k) (hk' : k ≤ 2147483647) :
    ∃ U : Ω → ℕ → ℕ → ℕ → ℝ, (∀ ω, (applyEvery (k : ℤ)).outs (mk σ p0) (hist σ (g ω) pp N) =
        .ok ((List.range N).map (fun n => mk σ (U ω n)))) ∧
      ∀ l i m V, NoisyEntry μ m V (fun j ω => g ω j l i) → ∀ n, k ∣ n + 1 →
        ∫ ω, U ω n l i ∂μ = k * m ∧ variance (fun ω => U ω n l i) μ = k * V := by
  refine ⟨_, fun ω => C33_apply_every σ p0 (g ω) pp N k hk hk', fun l i m V h n hn => ?_⟩
  have hw := h.weighted (Ico (n + 1 - k) (n + 1)) (fun _ => 1)
  have hkn : k ≤ n + 1 := Nat.le_of_dvd (Nat.succ_pos n) hn
  simp only [one_mul, one_pow, Finset.sum_const, Nat.card_Ico, nsmul_eq_mul, mul_one,
    show n + 1 - (n + 1 - k) = k by omega] at hw
  simp only [if_pos hn]
  exact ⟨by rw [hw.1]; ring, by rw [hw.2]; ring⟩

theorem multiSteps_identity_outs (h : ℕ → ℕ → ℕ → ℝ) (mean : Bool) (k : ℕ) (hk : 1 ≤ k) (hN : N < 2 ^ 31) :
    (multiSteps identity (fun _ => (k : ℤ)) mean).outs (mk σ p0) (hist σ h pp N) =
      .ok ((List.range N).map (fun n => mk σ (fun l i => if k ∣ n + 1 then
        (∑ j ∈ Ico (n + 1 - k) (n + 1), h j l i) / (if mean then (k : ℝ) else 1) else 0))) := by
  obtain ⟨U, hU⟩ := (C15_preserves identity (fun _ => (k : ℤ)) mean (preserves_identity (α := ℝ)).any).outs σ N p0 h pp
    (fun _ => trivial)
  rw [hU]
  unfold GT.outs at hU
  cases he : (multiSteps identity (fun _ => (k : ℤ)) mean).exec (mk σ p0) (hist σ h pp N) with
  | error e => rw [he] at hU; cases hU
  | ok r =>
    obtain ⟨us, s⟩ := r
    rw [he] at hU
    obtain ⟨J, vs, hJ1, hJ2, hin, -, hend, hmid, -⟩ := C15_multi_steps identity (fun _ => (k : ℤ)) mean σ p0 h pp (fun _ => k)
      (fun _ => hk) (fun _ => rfl) N hN us s he
    have hus : us = (List.range N).map (fun n => mk σ (U n)) := by
      simpa using hU
    have hid : (identity : GT ℝ).exec (mk σ p0) (hist σ (groupGrad (fun _ => k) mean h) (fun _ => none) J) =
        .ok ((List.range J).map (fun j => mk σ (groupGrad (fun _ => k) mean h j)), ⟨⟩) :=
      exec_hist identity (mk σ p0) σ _ _ J (fun _ => ⟨⟩) _ rfl (fun _ _ => rfl)
    rw [hid] at hin
    have hvs : vs = (List.range J).map (fun j => mk σ (groupGrad (fun _ => k) mean h j)) := by
      simp only [Except.ok.injEq, Prod.mk.injEq] at hin
      exact hin.1.symm
    have hgs : ∀ j, groupStart (fun _ => k) j = j * k := fun j => by simp [groupStart]
    simp only [hgs] at hJ1 hJ2 hend hmid
    congr 1
    refine List.map_congr_left fun n hn => ?_
    have hn' : n < N := List.mem_range.mp hn
    have hget : us[n]? = some (mk σ (U n)) := by rw [hus]; simp [hn']
    by_cases hdv : k ∣ n + 1
    · obtain ⟨j1, hj1⟩ := hdv
      obtain ⟨j, rfl⟩ : ∃ j, j1 = j + 1 := ⟨j1 - 1, by rcases j1 with _ | j1 <;> simp at hj1 ⊢⟩
      have hjJ : j < J := by
        by_contra hc
        have : (J + 1) * k ≤ (j + 1) * k := Nat.mul_le_mul_right _ (by omega)
        have : (j + 1) * k = k * (j + 1) := Nat.mul_comm _ _
        omega
      have e := hend n hn' j (by rw [hj1, Nat.mul_comm])
      rw [hget, hvs] at e
      simp only [List.getElem?_map, List.getElem?_range hjJ, Option.map_some, Option.some.injEq] at e
      rw [e]
      refine mk_congr fun l s' hl i hi => ?_
      have hdv' : k ∣ n + 1 := ⟨_, hj1⟩
      have a1 : n + 1 - k = j * k := by rw [hj1]; rw [Nat.mul_comm, Nat.succ_mul]; omega
      have a2 : n + 1 = (j + 1) * k := by rw [hj1, Nat.mul_comm]
      unfold groupGrad
      rw [if_pos hdv', hgs, hgs, a1, a2]
      cases mean <;> simp
    · have e := hmid n hn' (fun j hj => hdv ⟨j + 1, by rw [hj, Nat.mul_comm]⟩)
      rw [hget] at e
      simp only [Option.some.injEq] at e
      rw [e]
      simp only [if_neg hdv]

/-- **C159.** `MultiSteps` around the identity: at the end of a group of `k` mini steps the averaged update (`use_grad_mean=True`) has the
mean `m` of the mini batch gradients and `1 / k` of their variance; without averaging, `k m` and `k V`. -/
theorem C159_multi_steps (mean : Bool) (k : ℕ) (hk : 1 ≤ k) (hN : N < 2 ^ 31) :
    ∃ U : Ω → ℕ → ℕ → ℕ → ℝ, (∀ ω, (multiSteps identity (fun _ => (k : ℤ)) mean).outs (mk σ p0) (hist σ (g ω) pp N) =
        .ok ((List.range N).map (fun n => mk σ (U ω n)))) ∧
      ∀ l i m V, NoisyEntry μ m V (fun j ω => g ω j l i) → ∀ n, k ∣ n + 1 →
        ∫ ω, U ω n l i ∂μ = (if mean then m else k * m) ∧
          variance (fun ω => U ω n l i) μ = (if mean then V / k else k * V) := by
  refine ⟨_, fun ω => multiSteps_identity_outs σ p0 pp N (g ω) mean k hk hN, fun l i m V h n hn => ?_⟩
  have hk0 : (k : ℝ) ≠ 0 := by positivity
  have hw := h.weighted (Ico (n + 1 - k) (n + 1)) (fun _ => if mean then 1 / (k : ℝ) else 1)
  have hkn : k ≤ n + 1 := Nat.le_of_dvd (Nat.succ_pos n) hn
  simp only [Finset.sum_const, Nat.card_Ico, nsmul_eq_mul, show n + 1 - (n + 1 - k) = k by omega] at hw
  simp only [if_pos hn]
  have e : ∀ ω, (∑ j ∈ Ico (n + 1 - k) (n + 1), g ω j l i) / (if mean = true then (k : ℝ) else 1) =
      ∑ j ∈ Ico (n + 1 - k) (n + 1), (if mean = true then 1 / (k : ℝ) else 1) * g ω j l i := by
    intro ω
    rw [Finset.sum_div]
    refine Finset.sum_congr rfl fun j _ => ?_
    cases mean
    · simp
    · simp [div_eq_inv_mul]
  simp only [e]
  rw [hw.1, hw.2]
  cases mean
  · simp [mul_comm]
  · simp only [if_true]
    constructor <;> field_simp

/-- The hypothesis is met: independent Gaussian gradients at every step, on the product space. -/
theorem gaussian_noisyEntry (m : ℝ) (v : NNReal) : NoisyEntry (Measure.infinitePi (fun _ : ℕ => gaussianReal m v)) m v (fun j ω => ω j) := by
  have mp := fun j => measurePreserving_eval_infinitePi (fun _ : ℕ => gaussianReal m v) j
  refine ⟨fun j => ?_, fun j l h => ?_, fun j => ?_, fun j => ?_⟩
  · exact (memLp_id_gaussianReal' 2 (by simp)).comp_measurePreserving (mp j)
  · exact (iIndepFun_infinitePi (P := fun _ : ℕ => gaussianReal m v) (X := fun _ x => x)
      (fun _ => measurable_id)).indepFun h
  · have := (mp j).map_eq
    have e := integral_map (μ := Measure.infinitePi (fun _ : ℕ => gaussianReal m v)) (mp j).measurable.aemeasurable
      (f := fun x : ℝ => x) (by fun_prop)
    rw [this, integral_id_gaussianReal] at e
    exact e.symm
  · have e := variance_map (μ := Measure.infinitePi (fun _ : ℕ => gaussianReal m v)) (X := fun x : ℝ => x) (Y := fun ω : ℕ → ℝ => ω j) (by fun_prop) (mp j).measurable.aemeasurable
    rw [(mp j).map_eq, variance_fun_id_gaussianReal] at e
    exact e.symm.trans rfl

example : NoisyEntry (Measure.infinitePi (fun _ : ℕ => gaussianReal 3 2)) 3 2 (fun j ω => ω j) := gaussian_noisyEntry 3 2

end Optax
