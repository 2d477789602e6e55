import Verif.Props.Update
import Mathlib.Analysis.SpecificLimits.Basic
import Mathlib.Analysis.SpecialFunctions.Exp

/-!
# C138: how far a target network lags behind

`incremental_update` and `periodic_update` keep a slow copy of parameters that move.  How far behind is it?
-/

set_option linter.unusedSectionVars false
set_option linter.unusedSimpArgs false

namespace Optax
open Filter Topology

/-- **Specification.** the loop `for n in 0..N-1: slow = incremental_update(new_n, slow, step_size)` -/
def polyak (σ : Spec) (new : ℕ → ℕ → ℕ → ℝ) (slow0 : ℕ → ℕ → ℝ) (s : ℝ) (N : ℕ) : Res (Params ℝ) :=
  (List.range N).foldlM (fun slow n => incrementalUpdate (mk σ (new n)) slow s) (mk σ slow0)

/-- **Specification.** the loop `for n in 1..N: slow = periodic_update(new_n, slow, n, period)` -/
def copyEvery (σ : Spec) (new : ℕ → ℕ → ℕ → ℝ) (slow0 : ℕ → ℕ → ℝ) (period N : ℕ) : Res (Params ℝ) :=
  (List.range N).foldlM (fun slow n => periodicUpdate (mk σ (new (n + 1))) slow ((n : ℤ) + 1) period) (mk σ slow0)

/-- the slow entries -/
noncomputable def slowAt (new : ℕ → ℝ) (x0 s : ℝ) : ℕ → ℝ
  | 0 => x0
  | n + 1 => s * new n + (1 - s) * slowAt new x0 s n

theorem polyak_eq (σ : Spec) (new : ℕ → ℕ → ℕ → ℝ) (slow0 : ℕ → ℕ → ℝ) (s : ℝ) (N : ℕ) :
    polyak σ new slow0 s N = .ok (mk σ (fun k i => slowAt (fun n => new n k i) (slow0 k i) s N)) := by
  unfold polyak
  induction N with
  | zero => rfl
  | succ N ih =>
    rw [List.range_succ, List.foldlM_append, ih]
    simp only [Res.ok_bind, List.foldlM_cons, List.foldlM_nil, incrementalUpdate, tzip_mk, Res.pure_eq]
    rfl

/-- bounded lag -/
theorem slowAt_lag {new : ℕ → ℝ} {x0 s δ : ℝ} (hs : 0 < s) (hs1 : s ≤ 1) (hδ : ∀ n, |new (n + 1) - new n| ≤ δ) (N : ℕ) :
    |slowAt new x0 s (N + 1) - new N| ≤ (1 - s) ^ (N + 1) * |x0 - new 0| + δ * ((1 - s) / s) * (1 - (1 - s) ^ N) := by
  induction N with
  | zero =>
    have : slowAt new x0 s 1 - new 0 = (1 - s) * (x0 - new 0) := by simp only [slowAt]; ring
    rw [zero_add, this, abs_mul, abs_of_nonneg (by linarith)]
    simp
  | succ N ih =>
    have h1 : slowAt new x0 s (N + 1 + 1) - new (N + 1) = (1 - s) * ((slowAt new x0 s (N + 1) - new N) - (new (N + 1) - new N)) := by
      rw [show slowAt new x0 s (N + 1 + 1) = s * new (N + 1) + (1 - s) * slowAt new x0 s (N + 1) from rfl]; ring
    rw [h1, abs_mul, abs_of_nonneg (by linarith : (0 : ℝ) ≤ 1 - s)]
    have h2 := abs_sub (slowAt new x0 s (N + 1) - new N) (new (N + 1) - new N)
    have h3 := hδ N
    have h4 : |(slowAt new x0 s (N + 1) - new N) - (new (N + 1) - new N)| ≤
        (1 - s) ^ (N + 1) * |x0 - new 0| + δ * ((1 - s) / s) * (1 - (1 - s) ^ N) + δ := by linarith
    refine (mul_le_mul_of_nonneg_left h4 (by linarith)).trans (le_of_eq ?_)
    field_simp
    ring

/-- forgetting -/
theorem slowAt_sub (a b : ℕ → ℝ) (x0 y0 s : ℝ) (N : ℕ) :
    slowAt a x0 s N - slowAt b y0 s N = slowAt (fun n => a n - b n) (x0 - y0) s N := by
  induction N with
  | zero => rfl
  | succ N ih => simp only [slowAt, ← ih]; ring

/-- convergence of the slow copy -/
theorem slowAt_tendsto {new : ℕ → ℝ} {x0 s L : ℝ} (hs : 0 < s) (hs1 : s ≤ 1) (h : Tendsto new atTop (𝓝 L)) :
    Tendsto (slowAt new x0 s) atTop (𝓝 L) := by
  rw [Metric.tendsto_atTop] at h ⊢
  intro ε hε
  obtain ⟨n0, hn0⟩ := h (ε / 2) (by linarith)
  have hr0 : 0 ≤ 1 - s := by linarith
  have hr1 : 1 - s < 1 := by linarith
  have key : ∀ n, |slowAt new x0 s (n0 + n) - L| ≤ (1 - s) ^ n * |slowAt new x0 s n0 - L| + ε / 2 * (1 - (1 - s) ^ n) := by
    intro n
    induction n with
    | zero => simp
    | succ n ih =>
      have h1 : slowAt new x0 s (n0 + (n + 1)) - L = s * (new (n0 + n) - L) + (1 - s) * (slowAt new x0 s (n0 + n) - L) := by
        rw [show slowAt new x0 s (n0 + (n + 1)) = s * new (n0 + n) + (1 - s) * slowAt new x0 s (n0 + n) from rfl]; ring
      have h2 := (hn0 (n0 + n) (by omega)).le
      rw [Real.dist_eq] at h2
      rw [h1]
      refine (abs_add_le _ _).trans ?_
      rw [abs_mul, abs_mul, abs_of_pos hs, abs_of_nonneg hr0]
      have h3 := mul_le_mul_of_nonneg_left ih hr0
      have h4 := mul_le_mul_of_nonneg_left h2 hs.le
      rw [pow_succ]
      nlinarith
  have hlim := (tendsto_pow_atTop_nhds_zero_of_lt_one hr0 hr1).mul_const |slowAt new x0 s n0 - L|
  rw [zero_mul, Metric.tendsto_atTop] at hlim
  obtain ⟨n1, hn1⟩ := hlim (ε / 2) (by linarith)
  refine ⟨n0 + n1, fun n hn => ?_⟩
  obtain ⟨d, rfl⟩ := Nat.exists_eq_add_of_le (le_trans (Nat.le_add_right _ _) hn)
  have h1 := key d
  have h2 := hn1 d (by omega)
  rw [Real.dist_eq, sub_zero] at h2
  rw [Real.dist_eq]
  have h3 := le_abs_self ((1 - s) ^ d * |slowAt new x0 s n0 - L|)
  have h4 : 0 ≤ (1 - s) ^ d := pow_nonneg hr0 d
  nlinarith

/-- **C138 (Polyak averaging).** If no entry of the online parameters moves by more than `δ` per step, the target lags behind by at most `δ (1-s)/s`, plus what is left of
the initial difference, which decays at least as fast as `exp(-s n)`. -/
theorem C138_incremental_lag (σ : Spec) (new : ℕ → ℕ → ℕ → ℝ) (slow0 : ℕ → ℕ → ℝ) (s δ : ℝ) (hs : 0 < s) (hs1 : s ≤ 1) (k i : ℕ)
    (hδ : ∀ n, |new (n + 1) k i - new n k i| ≤ δ) (N : ℕ) :
    ∃ slow, polyak σ new slow0 s (N + 1) = .ok (mk σ slow) ∧
      |slow k i - new N k i| ≤ δ * ((1 - s) / s) + Real.exp (-(s * (N + 1))) * |slow0 k i - new 0 k i| := by
  refine ⟨_, polyak_eq σ new slow0 s (N + 1), ?_⟩
  have h := slowAt_lag (new := fun n => new n k i) (x0 := slow0 k i) hs hs1 hδ N
  have hr0 : 0 ≤ 1 - s := by linarith
  have hd : 0 ≤ δ := (abs_nonneg _).trans (hδ 0)
  have h1 : (1 - s) ^ (N + 1) ≤ Real.exp (-(s * (N + 1))) := by
    have := pow_le_pow_left₀ hr0 (Real.one_sub_le_exp_neg s) (N + 1)
    rw [← Real.exp_nat_mul] at this
    refine this.trans (le_of_eq ?_)
    congr 1; push_cast; ring
  have h2 : 0 ≤ δ * ((1 - s) / s) := mul_nonneg hd (div_nonneg hr0 hs.le)
  have h3 : 0 ≤ (1 - s) ^ N := pow_nonneg hr0 N
  have h4 := mul_le_mul_of_nonneg_right h1 (abs_nonneg (slow0 k i - new 0 k i))
  nlinarith

/-- **C138 (tight).** The bound is attained in the limit: behind parameters moving at the constant speed `δ` the target lags by `δ (1-s)/s` exactly, up to the vanishing
influence of the start. -/
theorem C138_incremental_ramp (σ : Spec) (a δ s : ℝ) (hs : 0 < s) (slow0 : ℕ → ℕ → ℝ) (N : ℕ) :
    ∃ slow, polyak σ (fun n _ _ => a + δ * n) slow0 s (N + 1) = .ok (mk σ slow) ∧
      ∀ k i, (a + δ * N) - slow k i = δ * ((1 - s) / s) - (1 - s) ^ (N + 1) * (slow0 k i - a + δ / s) := by
  refine ⟨_, polyak_eq σ _ slow0 s (N + 1), fun k i => ?_⟩
  induction N with
  | zero => simp only [slowAt]; push_cast; field_simp; ring
  | succ N ih =>
    rw [show slowAt (fun n : ℕ => a + δ * n) (slow0 k i) s (N + 1 + 1) = s * (a + δ * ((N + 1 : ℕ) : ℝ)) + (1 - s) * slowAt (fun n : ℕ => a + δ * n) (slow0 k i) s (N + 1) from rfl]
    have : slowAt (fun n : ℕ => a + δ * n) (slow0 k i) s (N + 1) =
      (a + δ * N) - (δ * ((1 - s) / s) - (1 - s) ^ (N + 1) * (slow0 k i - a + δ / s)) := by linarith
    rw [this]
    push_cast
    field_simp
    ring

/-- **C138 (convergence).** If the online parameters converge, so does the target, to the same limit, whatever it started from. -/
theorem C138_incremental_limit (σ : Spec) (new : ℕ → ℕ → ℕ → ℝ) (slow0 : ℕ → ℕ → ℝ) (s : ℝ) (hs : 0 < s) (hs1 : s ≤ 1) :
    ∃ slow : ℕ → ℕ → ℕ → ℝ, (∀ N, polyak σ new slow0 s N = .ok (mk σ (slow N))) ∧
      ∀ k i L, Tendsto (fun n => new n k i) atTop (𝓝 L) → Tendsto (fun n => slow n k i) atTop (𝓝 L) :=
  ⟨fun N k i => slowAt (fun n => new n k i) (slow0 k i) s N, polyak_eq σ new slow0 s, fun _ _ _ h => slowAt_tendsto hs hs1 h⟩

/-- **C138 (periodic copies).** If no entry of the online parameters moves by more than `δ` per step and the target starts as a copy, it is never further behind than `δ` times
the number of steps since the last copy, less than the period. -/
theorem C138_periodic_lag (σ : Spec) (new : ℕ → ℕ → ℕ → ℝ) (δ : ℝ) (period : ℕ) (hp : 0 < period) (k i : ℕ)
    (hδ : ∀ n, |new (n + 1) k i - new n k i| ≤ δ) (N : ℕ) :
    ∃ slow, copyEvery σ new (new 0) period N = .ok (mk σ slow) ∧
      |slow k i - new N k i| ≤ δ * ((N % period : ℕ) : ℝ) ∧ |slow k i - new N k i| ≤ δ * (period - 1) := by
  have hd : 0 ≤ δ := (abs_nonneg _).trans (hδ 0)
  have lip : ∀ m d : ℕ, |new m k i - new (m + d) k i| ≤ δ * d := by
    intro m d
    induction d with
    | zero => simp
    | succ d ih =>
      have h1 := hδ (m + d)
      have h2 := abs_sub_le (new m k i) (new (m + d) k i) (new (m + d + 1) k i)
      rw [abs_sub_comm (new (m + d) k i)] at h2
      push_cast
      rw [← add_assoc]
      linarith
  have h1 : copyEvery σ new (new 0) period N = .ok (mk σ (new (N / period * period))) := by
    unfold copyEvery
    rw [C08_periodic_loop σ new (new 0) period hp N]
    split
    · rename_i h; rw [Nat.div_eq_of_lt h, zero_mul]
    · rfl
  have h2 : |new (N / period * period) k i - new N k i| ≤ δ * ((N % period : ℕ) : ℝ) := by
    have := lip (N / period * period) (N % period)
    rwa [Nat.div_add_mod'] at this
  refine ⟨_, h1, h2, h2.trans ?_⟩
  refine mul_le_mul_of_nonneg_left ?_ hd
  have : N % period + 1 ≤ period := Nat.mod_lt N hp
  have : ((N % period : ℕ) : ℝ) + 1 ≤ period := by exact_mod_cast this
  linarith

/-- a case: parameters moving at speed 1/10 and `step_size` 1/100 lag behind by up to 9.9 -/
example : (∀ n : ℕ, |((n + 1 : ℕ) : ℝ) / 10 - (n : ℝ) / 10| ≤ 1 / 10) ∧ (1 / 10 : ℝ) * ((1 - 1 / 100) / (1 / 100)) = 99 / 10 := by
  refine ⟨fun n => ?_, by norm_num⟩
  rw [show ((n + 1 : ℕ) : ℝ) / 10 - (n : ℝ) / 10 = 1 / 10 by push_cast; ring, abs_of_pos (by norm_num)]

end Optax
