import Verif.Model.Estimators
import Mathlib.Analysis.SpecificLimits.Basic

/-!
# C68: `moving_avg_baseline` over arbitrary histories of sample batches
-/

set_option linter.unusedSectionVars false
set_option linter.unusedSimpArgs false

namespace Optax

open Filter Topology

variable {P D : ℕ}

/-- The state after `k` updates, from the documented initial state `(0, 0)`, on the given batches of samples. -/
noncomputable def baselineRun (decay : ℝ) (zd heur : Bool) (f : Vec D → ℝ) (params : Fin P → Vec D)
    (batches : ℕ → Σ N : ℕ, Fin N → Vec D) : ℕ → ℝ × ℕ
  | 0 => (0, 0)
  | k + 1 => (movingAvgBaseline decay zd heur f).update params (batches k).2 (baselineRun decay zd heur f params batches k)

/-- the mean function value of a batch -/
noncomputable def batchMean (f : Vec D → ℝ) (b : Σ N : ℕ, Fin N → Vec D) : ℝ := (∑ n, f (b.2 n)) / b.1

/-- The full property: on samples whose function value is always `c`, the zero-debiased baseline is `c` after any positive
number of updates. -/
def C68Statement : Prop :=
  ∀ (D P : ℕ) (decay : ℝ) (heur : Bool) (f : Vec D → ℝ) (params : Fin P → Vec D) (batches : ℕ → Σ N : ℕ, Fin N → Vec D) (c : ℝ),
    0 ≤ decay → decay < 1 → (∀ k, 0 < (batches k).1) → (∀ k n, f ((batches k).2 n) = c) →
    ∀ k, 0 < k → (baselineRun decay true heur f params batches k).1 = c

variable (decay : ℝ) (zd heur : Bool) (f : Vec D → ℝ) (params : Fin P → Vec D) (batches : ℕ → Σ N : ℕ, Fin N → Vec D)

theorem baselineRun_count (k : ℕ) : (baselineRun decay zd heur f params batches k).2 = k := by
  induction k with
  | zero => rfl
  | succ k ih => simp only [baselineRun, movingAvgBaseline, ih]

theorem baselineRun_succ (k : ℕ) : (baselineRun decay zd heur f params batches (k + 1)).1 =
    baselineValue decay zd heur (baselineRun decay zd heur f params batches k).1 k (batchMean f (batches k)) := by
  simp only [baselineRun, movingAvgBaseline, baselineRun_count, meanOf, batchMean]

theorem batchMean_const (c : ℝ) (b : Σ N : ℕ, Fin N → Vec D) (hN : 0 < b.1) (h : ∀ n, f (b.2 n) = c) : batchMean f b = c := by
  unfold batchMean
  simp only [h, Finset.sum_const, Finset.card_univ, Fintype.card_fin, nsmul_eq_mul]
  have : (b.1 : ℝ) ≠ 0 := by exact_mod_cast hN.ne'
  field_simp

/-- **C68 (state).** The second component counts the updates and the value stored is what both the control variate and its
expected value return, whatever the sample or the parameters. -/
theorem C68_state (k : ℕ) (q : Fin P → Vec D) (x : Vec D) :
    (baselineRun decay zd heur f params batches k).2 = k ∧
    ((movingAvgBaseline decay zd heur f).stochastic q x (baselineRun decay zd heur f params batches k) =
      (movingAvgBaseline decay zd heur f).expected q (baselineRun decay zd heur f params batches k)) :=
  ⟨baselineRun_count decay zd heur f params batches k, rfl⟩

/-- **C68 (first update).** After the first update the zero-debiased baseline is the mean of the first batch, with or
without the early-training heuristic. -/
theorem C68_first_step (hd : decay < 1) :
    (baselineRun decay true heur f params batches 1).1 = batchMean f (batches 0) := by
  rw [show (1 : ℕ) = 0 + 1 from rfl, baselineRun_succ]
  simp only [baselineRun, baselineValue, if_true, mul_zero, zero_add, pow_one]
  have hlt : iterationDecay decay heur 0 < 1 := by
    unfold iterationDecay
    split
    · exact lt_of_le_of_lt (min_le_left _ _) hd
    · exact hd
  rw [mul_comm, mul_div_assoc, div_self (by linarith), mul_one]

/-- The full statement fails: with decay `1/2`, no heuristic and values constantly 1 the second baseline is `4/3`. -/
theorem C68_fails : ¬ C68Statement := by
  intro h
  have h2 := h 1 0 (1 / 2) false (fun _ => 1) (fun i => i.elim0) (fun _ => ⟨1, fun _ _ => 0⟩) 1 (by norm_num) (by norm_num)
    (fun _ => Nat.one_pos) (fun _ _ => rfl) 2 (by norm_num)
  rw [show (2 : ℕ) = 1 + 1 from rfl, baselineRun_succ, C68_first_step (hd := by norm_num)] at h2
  simp [baselineValue, iterationDecay, batchMean] at h2

/-- **C68 (no debiasing).** Without `zero_debias` the baseline always lies between 0 and the batch means seen so far: every
update is a convex combination. -/
theorem C68_range_partial (hd0 : 0 ≤ decay) (hd1 : decay ≤ 1) (lo hi : ℝ) (hlo : lo ≤ 0) (hhi : 0 ≤ hi) (k : ℕ)
    (hb : ∀ j < k, lo ≤ batchMean f (batches j) ∧ batchMean f (batches j) ≤ hi) :
    lo ≤ (baselineRun decay false heur f params batches k).1 ∧ (baselineRun decay false heur f params batches k).1 ≤ hi := by
  induction k with
  | zero => exact ⟨hlo, hhi⟩
  | succ k ih =>
    obtain ⟨a, b⟩ := ih (fun j hj => hb j (by omega))
    obtain ⟨c, d⟩ := hb k (by omega)
    rw [baselineRun_succ]
    simp only [baselineValue, Bool.false_eq_true, if_false]
    have h0 : 0 ≤ iterationDecay decay heur k := by
      unfold iterationDecay
      split
      · exact le_min hd0 (by positivity)
      · exact hd0
    have h1 : iterationDecay decay heur k ≤ 1 := by
      unfold iterationDecay
      split
      · exact le_trans (min_le_left _ _) hd1
      · exact hd1
    generalize iterationDecay decay heur k = t at *
    constructor <;> nlinarith

/-- **C68 (no debiasing, closed form).** Without `zero_debias` and the heuristic the baseline is the exponential moving
average `Σ_j (1-decay) decay^(k-1-j) mean_j`; on constant values `c` it is `(1 - decay^k) c`. -/
theorem C68_ema (k : ℕ) : (baselineRun decay false false f params batches k).1 =
    ∑ j ∈ Finset.range k, (1 - decay) * decay ^ (k - 1 - j) * batchMean f (batches j) := by
  induction k with
  | zero => simp [baselineRun]
  | succ k ih =>
    rw [baselineRun_succ, Finset.sum_range_succ, ih]
    simp only [baselineValue, iterationDecay, Bool.false_eq_true, if_false]
    rw [Finset.mul_sum]
    congr 1
    · apply Finset.sum_congr rfl
      intro j hj
      have hj := Finset.mem_range.mp hj
      have : k + 1 - 1 - j = (k - 1 - j) + 1 := by omega
      rw [this, pow_succ]; ring
    · simp

/-- The error `baseline - c` on constant values, one step (no heuristic). -/
theorem baseline_error (hd0 : 0 ≤ decay) (hd1 : decay < 1) (c : ℝ) (hN : ∀ k, 0 < (batches k).1)
    (hc : ∀ k n, f ((batches k).2 n) = c) (k : ℕ) :
    ((baselineRun decay true false f params batches (k + 1)).1 - c) * (1 - decay ^ (k + 1)) =
      decay * ((baselineRun decay true false f params batches k).1 - c) + c * decay ^ (k + 1) := by
  rw [baselineRun_succ, batchMean_const f c _ (hN k) (hc k)]
  simp only [baselineValue, iterationDecay, Bool.false_eq_true, if_false, if_true]
  have hp : 1 - decay ^ (k + 1) ≠ 0 := by
    have := pow_lt_one₀ hd0 hd1 (show k + 1 ≠ 0 by omega)
    linarith
  rw [sub_mul, div_mul_cancel₀ _ hp]
  ring

/-- **C68 (debiased, constant values: first update exact, then an overestimate).** On samples with constant value `c > 0`
and `0 < decay < 1` the zero-debiased baseline is at least `c`, and strictly more from the second update on: the code divides
the *stored* average, so the corrections compound. -/
theorem C68_overestimates_partial (hd0 : 0 < decay) (hd1 : decay < 1) (c : ℝ) (hcpos : 0 < c) (hN : ∀ k, 0 < (batches k).1)
    (hc : ∀ k n, f ((batches k).2 n) = c) :
    (baselineRun decay true false f params batches 1).1 = c ∧
    ∀ k, 2 ≤ k → c < (baselineRun decay true false f params batches k).1 := by
  have first : (baselineRun decay true false f params batches 1).1 = c := by
    rw [C68_first_step decay false f params batches hd1, batchMean_const f c _ (hN 0) (hc 0)]
  have step : ∀ k, c ≤ (baselineRun decay true false f params batches k).1 →
      c < (baselineRun decay true false f params batches (k + 1)).1 := by
    intro k h
    have e := baseline_error decay f params batches hd0.le hd1 c hN hc k
    have hp : 0 < 1 - decay ^ (k + 1) := by
      have := pow_lt_one₀ hd0.le hd1 (show k + 1 ≠ 0 by omega); linarith
    have hr : 0 < decay * ((baselineRun decay true false f params batches k).1 - c) + c * decay ^ (k + 1) := by
      have := mul_nonneg hd0.le (sub_nonneg.mpr h)
      have := mul_pos hcpos (pow_pos hd0 (k + 1))
      linarith
    rw [← e] at hr
    have := (pos_iff_pos_of_mul_pos hr).mpr hp
    linarith
  refine ⟨first, fun k hk => ?_⟩
  induction k, hk using Nat.le_induction with
  | base => exact step 1 first.ge
  | succ k _ ih => exact step k ih.le

/-- **C68 (debiased, constant values: the limit).** The error of the zero-debiased baseline on constant values vanishes: it
tends to `c` as the number of updates grows. -/
theorem C68_converges_partial (hd0 : 0 ≤ decay) (hd1 : decay < 1) (c : ℝ) (hN : ∀ k, 0 < (batches k).1)
    (hc : ∀ k n, f ((batches k).2 n) = c) :
    Tendsto (fun k => (baselineRun decay true false f params batches k).1) atTop (𝓝 c) := by
  set e : ℕ → ℝ := fun k => (baselineRun decay true false f params batches k).1 - c with he
  have hstep : ∀ k, |e (k + 1)| * (1 - decay ^ (k + 1)) ≤ decay * |e k| + |c| * decay ^ (k + 1) := by
    intro k
    have h := baseline_error decay f params batches hd0 hd1 c hN hc k
    have hp : 0 < 1 - decay ^ (k + 1) := by
      have := pow_lt_one₀ hd0 hd1 (show k + 1 ≠ 0 by omega); linarith
    calc |e (k + 1)| * (1 - decay ^ (k + 1)) = |e (k + 1) * (1 - decay ^ (k + 1))| := by rw [abs_mul, abs_of_pos hp]
      _ = |decay * e k + c * decay ^ (k + 1)| := by rw [he]; exact congrArg abs h
      _ ≤ |decay * e k| + |c * decay ^ (k + 1)| := abs_add_le _ _
      _ = _ := by rw [abs_mul, abs_mul, abs_of_nonneg hd0, abs_of_nonneg (pow_nonneg hd0 _)]
  -- choose a rate between `decay` and 1
  obtain ⟨r, hr0, hr1⟩ := exists_between hd1
  have hrpos : 0 < r := lt_of_le_of_lt hd0 hr0
  -- eventually `decay / (1 - decay^(k+1)) ≤ r`
  have hpow : Tendsto (fun k : ℕ => decay ^ (k + 1)) atTop (𝓝 0) :=
    (tendsto_pow_atTop_nhds_zero_of_lt_one hd0 hd1).comp (tendsto_add_atTop_nat 1)
  have hev : ∀ᶠ k : ℕ in atTop, decay ^ (k + 1) < 1 - decay / r :=
    hpow.eventually (gt_mem_nhds (by rw [sub_pos, div_lt_one hrpos]; exact hr0))
  obtain ⟨K, hK⟩ := eventually_atTop.mp hev
  have hrate : ∀ k, K ≤ k → |e (k + 1)| ≤ r * (|e k| + |c| * r ^ k) := by
    intro k hk
    have hlt := hK k hk
    have hp : 0 < 1 - decay ^ (k + 1) := by
      have := pow_lt_one₀ hd0 hd1 (show k + 1 ≠ 0 by omega); linarith
    have hdr : decay ≤ r * (1 - decay ^ (k + 1)) := by
      have : decay / r ≤ 1 - decay ^ (k + 1) := by linarith
      rw [div_le_iff₀ hrpos] at this; linarith
    have hk' : decay ^ k ≤ r ^ k := pow_le_pow_left₀ hd0 hr0.le k
    have h1 : decay * |e k| + |c| * decay ^ (k + 1) = decay * (|e k| + |c| * decay ^ k) := by rw [pow_succ]; ring
    have h2 : |e k| + |c| * decay ^ k ≤ |e k| + |c| * r ^ k := by
      have := mul_le_mul_of_nonneg_left hk' (abs_nonneg c); linarith
    have h3 : 0 ≤ |e k| + |c| * decay ^ k := by positivity
    have h4 : |e (k + 1)| * (1 - decay ^ (k + 1)) ≤ (r * (|e k| + |c| * r ^ k)) * (1 - decay ^ (k + 1)) :=
      calc |e (k + 1)| * (1 - decay ^ (k + 1)) ≤ decay * (|e k| + |c| * decay ^ k) := by rw [← h1]; exact hstep k
        _ ≤ (r * (1 - decay ^ (k + 1))) * (|e k| + |c| * r ^ k) := mul_le_mul hdr h2 h3 (by positivity)
        _ = _ := by ring
    exact le_of_mul_le_mul_right h4 hp
  have hbound : ∀ m, |e (K + m)| ≤ r ^ m * (|e K| + m * |c|) := by
    intro m
    induction m with
    | zero => simp
    | succ m ih =>
      have h := hrate (K + m) (by omega)
      have hle : r ^ (K + m) ≤ r ^ m := pow_le_pow_of_le_one hrpos.le hr1.le (by omega)
      have h1 : |c| * r ^ (K + m) ≤ |c| * r ^ m := mul_le_mul_of_nonneg_left hle (abs_nonneg c)
      calc |e (K + (m + 1))| ≤ r * (|e (K + m)| + |c| * r ^ (K + m)) := h
        _ ≤ r * (r ^ m * (|e K| + m * |c|) + |c| * r ^ m) := by
            apply mul_le_mul_of_nonneg_left _ hrpos.le; linarith
        _ = _ := by push_cast; rw [pow_succ]; ring
  have hlim : Tendsto (fun m : ℕ => r ^ m * (|e K| + m * |c|)) atTop (𝓝 0) := by
    have t1 := (tendsto_pow_atTop_nhds_zero_of_lt_one hrpos.le hr1).mul_const (|e K|)
    have t2 := (tendsto_self_mul_const_pow_of_lt_one hrpos.le hr1).mul_const (|c|)
    have t3 := t1.add t2
    simp only [zero_mul, add_zero] at t3
    refine t3.congr (fun m => ?_)
    ring
  have habs : Tendsto (fun m => |e (K + m)|) atTop (𝓝 0) :=
    squeeze_zero (fun m => abs_nonneg _) hbound hlim
  have he0 : Tendsto e atTop (𝓝 0) := by
    rw [← tendsto_add_atTop_iff_nat K]
    have := (tendsto_zero_iff_abs_tendsto_zero _).mpr habs
    refine this.congr (fun m => ?_)
    rw [Nat.add_comm]
  have := he0.add_const c
  simp only [zero_add] at this
  refine this.congr (fun k => ?_)
  rw [he]; ring

/-- a concrete history for the theorems above: batches of one sample, function constantly 3 -/
example : (∀ k, 0 < ((fun _ => ⟨1, fun _ _ => 0⟩ : ℕ → Σ N : ℕ, Fin N → Vec 1) k).1) ∧
    (∀ k n, (fun _ : Vec 1 => (3 : ℝ)) (((fun _ => ⟨1, fun _ _ => 0⟩ : ℕ → Σ N : ℕ, Fin N → Vec 1) k).2 n) = 3) :=
  ⟨fun _ => Nat.one_pos, fun _ _ => rfl⟩

end Optax
