import Verif.Props.Forgetting

/-!
# C126 for rmsprop and averages
-/

set_option linter.unusedSectionVars false
set_option linter.unusedSimpArgs false

namespace Optax
open Finset
variable (σ : Spec)

theorem inv_sqrt_diff {x y eps : ℝ} (hx : 0 ≤ x) (hy : 0 ≤ y) (he : 0 < eps) :
    |1 / Real.sqrt (x + eps) - 1 / Real.sqrt (y + eps)| ≤ |x - y| / (2 * (eps * Real.sqrt eps)) := by
  have ha : 0 < x + eps := by linarith
  have hb : 0 < y + eps := by linarith
  have hse := Real.sqrt_pos.2 he
  have h1 : Real.sqrt eps ≤ Real.sqrt (x + eps) := Real.sqrt_le_sqrt (by linarith)
  have h2 : Real.sqrt eps ≤ Real.sqrt (y + eps) := Real.sqrt_le_sqrt (by linarith)
  have e1 := Real.mul_self_sqrt ha.le
  have e2 := Real.mul_self_sqrt hb.le
  have e3 := Real.mul_self_sqrt he.le
  set A := Real.sqrt (x + eps)
  set B := Real.sqrt (y + eps)
  set S := Real.sqrt eps
  have hA : 0 < A := lt_of_lt_of_le hse h1
  have hB : 0 < B := lt_of_lt_of_le hse h2
  have e : 1 / A - 1 / B = (y - x) / (A * B * (A + B)) := by
    have : y - x = (B - A) * (A + B) := by ring_nf; nlinarith
    rw [this]
    field_simp
  rw [e, abs_div, abs_of_pos (by positivity : 0 < A * B * (A + B)), abs_sub_comm]
  refine div_le_div_of_nonneg_left (abs_nonneg _) (by positivity) ?_
  have h3 : eps ≤ A * B := by rw [← e3]; exact mul_le_mul h1 h2 hse.le hA.le
  calc 2 * (eps * S) = eps * (2 * S) := by ring
    _ ≤ A * B * (A + B) := mul_le_mul h3 (by linarith) (by positivity) (by positivity)

/-- **C126 (rmsprop).** Run `scale_by_rms` from two arbitrary accumulators `≥ 0` on the same gradients: after `n` calls they differ by exactly `decay^n` times the initial difference, and the
update number `n` (from 0) by at most `decay^(n+1)` times it times the gradient over `2 eps^(3/2)`. -/
theorem C126_rms (d eps a : ℝ) (h0 : 0 ≤ d) (h1 : d ≤ 1) (he : 0 < eps) (m m' : ℕ → ℕ → ℝ) (hm : ∀ k i, 0 ≤ m k i) (hm' : ∀ k i, 0 ≤ m' k i) (g : ℕ → ℕ → ℕ → ℝ)
    (pp : ℕ → Option (Params ℝ)) (N : ℕ) :
    ∃ (U U' : ℕ → ℕ → ℕ → ℝ) (t t' : ℕ → ℕ → ℝ),
      (scaleByRms d eps a).run ⟨mk σ m⟩ (hist σ g pp N) = .ok ((List.range N).map (fun n => mk σ (U n)), ⟨mk σ t⟩) ∧
      (scaleByRms d eps a).run ⟨mk σ m'⟩ (hist σ g pp N) = .ok ((List.range N).map (fun n => mk σ (U' n)), ⟨mk σ t'⟩) ∧
      (∀ k i, t k i - t' k i = d ^ N * (m k i - m' k i)) ∧
      ∀ n k i, |U n k i - U' n k i| ≤ |g n k i| * (d ^ (n + 1) * |m k i - m' k i| / (2 * (eps * Real.sqrt eps))) := by
  let acc : (ℕ → ℕ → ℝ) → ℕ → ℕ → ℕ → ℝ := fun m n k i => geoSum d (fun j => (1 - d) * g j k i ^ 2) n + d ^ n * m k i
  have hacc : ∀ m n k i, (1 - d) * g n k i ^ 2 + d * acc m n k i = acc m (n + 1) k i := fun m n k i => geo_from d (m k i) (fun j => (1 - d) * g j k i ^ 2) n
  have hpos : ∀ m : ℕ → ℕ → ℝ, (∀ k i, 0 ≤ m k i) → ∀ n k i, 0 ≤ acc m n k i := by
    intro m hm n
    induction n with
    | zero => intro k i; simpa [acc, geoSum] using hm k i
    | succ n ih =>
      intro k i
      rw [← hacc]
      have := ih k i
      have : 0 ≤ 1 - d := by linarith
      positivity
  have run : ∀ m : ℕ → ℕ → ℝ, (scaleByRms d eps a).run ⟨mk σ m⟩ (hist σ g pp N) =
      .ok ((List.range N).map (fun n => mk σ (fun k i => g n k i * (1 / Real.sqrt (acc m (n + 1) k i + eps)))), ⟨mk σ (acc m N)⟩) := by
    intro m
    have h := run_hist σ (scaleByRms d eps a) g pp N (fun n => ⟨mk σ (acc m n)⟩) (fun n => mk σ (fun k i => g n k i * (1 / Real.sqrt (acc m (n + 1) k i + eps)))) (fun n _ => by
        rw [rms_update_mk]
        simp only [ipow_eq_pow, jrsqrt_real, hacc])
    have e : acc m 0 = m := by funext k i; simp [acc, geoSum]
    rw [e] at h
    exact h
  refine ⟨_, _, _, _, run m, run m', fun k i => by simp only [acc]; ring, fun n k i => ?_⟩
  rw [← mul_sub, abs_mul]
  refine mul_le_mul_of_nonneg_left ((inv_sqrt_diff (hpos m hm _ k i) (hpos m' hm' _ k i) he).trans (le_of_eq ?_)) (abs_nonneg _)
  have e : acc m (n + 1) k i - acc m' (n + 1) k i = d ^ (n + 1) * (m k i - m' k i) := by simp only [acc]; ring
  rw [e, abs_mul, abs_of_nonneg (pow_nonneg h0 _)]

/-- **C126 (ema).** Likewise the average kept by `ema`: `decay^n` times the initial difference remains after `n` calls; a debiased update differs by `decay^(n+1)` times it over the bias correction
(`2147483647` is where the counter saturates). -/
theorem C126_ema (d : ℝ) (a : ℕ) (m m' : ℕ → ℕ → ℝ) (g : ℕ → ℕ → ℕ → ℝ) (pp : ℕ → Option (Params ℝ)) (N : ℕ) :
    ∃ (U U' : ℕ → ℕ → ℕ → ℝ) (t t' : ℕ → ℕ → ℝ),
      (ema d true).run ⟨cntAt a, mk σ m⟩ (hist σ g pp N) = .ok ((List.range N).map (fun n => mk σ (U n)), ⟨cntAt (a + N), mk σ t⟩) ∧
      (ema d true).run ⟨cntAt a, mk σ m'⟩ (hist σ g pp N) = .ok ((List.range N).map (fun n => mk σ (U' n)), ⟨cntAt (a + N), mk σ t'⟩) ∧
      (∀ k i, t k i - t' k i = d ^ N * (m k i - m' k i)) ∧
      ∀ n k i, U n k i - U' n k i = d ^ (n + 1) * (m k i - m' k i) / (1 - d ^ (min (a + n + 1) 2147483647)) := by
  let acc : (ℕ → ℕ → ℝ) → ℕ → ℕ → ℕ → ℝ := fun m n k i => geoSum d (fun j => (1 - d) * g j k i) n + d ^ n * m k i
  have hacc : ∀ m n k i, (1 - d) * g n k i + d * acc m n k i = acc m (n + 1) k i := fun m n k i => geo_from d (m k i) (fun j => (1 - d) * g j k i) n
  have run : ∀ m : ℕ → ℕ → ℝ, (ema d true).run ⟨cntAt a, mk σ m⟩ (hist σ g pp N) =
      .ok ((List.range N).map (fun n => mk σ (fun k i => acc m (n + 1) k i / (1 - d ^ (min (a + n + 1) 2147483647)))), ⟨cntAt (a + N), mk σ (acc m N)⟩) := by
    intro m
    have h := run_hist σ (ema d true) g pp N (fun n => ⟨cntAt (a + n), mk σ (acc m n)⟩) (fun n => mk σ (fun k i => acc m (n + 1) k i / (1 - d ^ (min (a + n + 1) 2147483647)))) (fun n _ => by
        refine (ema_update_mk σ (g n) (acc m n) (pp n) d true none (cntAt (a + n))).trans ?_
        rw [safeInt32Increment_cntAt]
        simp only [ipow_eq_pow, pow_one, jpow_real, hacc, if_true, Option.getD_none, id]
        simp only [cnt_cntAt', Real.rpow_natCast, Nat.add_assoc])
    have e : acc m 0 = m := by funext k i; simp [acc, geoSum]
    rw [e] at h
    exact h
  refine ⟨_, _, _, _, run m, run m', fun k i => by simp only [acc]; ring, fun n k i => ?_⟩
  simp only [acc]
  ring

/-- the factors vanish: with the default decay, `0.9^n` times any initial difference is below any tolerance eventually -/
example (D tol : ℝ) (ht : 0 < tol) : ∃ n0, ∀ n ≥ n0, (9 / 10 : ℝ) ^ n * |D| < tol := by
  have h : Filter.Tendsto (fun n : ℕ => (9 / 10 : ℝ) ^ n * |D|) Filter.atTop (nhds (0 * |D|)) := (tendsto_pow_atTop_nhds_zero_of_lt_one (by norm_num) (by norm_num)).mul_const _
  rw [zero_mul] at h
  exact Filter.eventually_atTop.1 (h.eventually (gt_mem_nhds ht))

end Optax
