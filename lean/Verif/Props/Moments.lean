import Verif.Lemmas.Counter
import Verif.Spec.Geo

/-!
# C21 (`trace`), C22 (`ema`), C23 (`scale_by_rss`), C24 (`scale_by_rms`), C25 (`scale_by_stddev`)

Histories are `hist σ g pp N` (`Spec/History.lean`): call number `n` (from 0) has gradients `mk σ (g n)` and
arbitrary params `pp n`.  `geoSum d x n = Σ_{j<n} d^(n-1-j) x j` (`Spec/Geo.lean`).
-/

set_option linter.unusedSectionVars false
set_option linter.unusedSimpArgs false

namespace Optax
open Finset

variable (σ : Spec) (p0 : ℕ → ℕ → ℝ) (g : ℕ → ℕ → ℕ → ℝ) (pp : ℕ → Option (Params ℝ)) (N : ℕ)

/-! ## C21 -/

/-- **C21.** Closed form of `trace`: the `n`-th output (from 0) and the final state. -/
theorem C21_trace (d : ℝ) (nes : Bool) :
    (trace d nes).exec (mk σ p0) (hist σ g pp N) =
      .ok ((List.range N).map (fun n => mk σ (fun k i =>
          if nes then g n k i + d * geoSum d (fun j => g j k i) (n + 1)
          else geoSum d (fun j => g j k i) (n + 1))),
        ⟨mk σ (fun k i => geoSum d (fun j => g j k i) N)⟩) := by
  refine exec_hist (trace d nes) (mk σ p0) σ g pp N
    (fun n => ⟨mk σ (fun k i => geoSum d (fun j => g j k i) n)⟩) _ ?_ ?_
  · rw [trace_init_mk]; simp
  · intro n _
    rw [trace_update_mk]
    simp only [geoSum_succ, Option.getD_none, id]

/-- **C21.** With `|decay| < 1` and gradients bounded by `G` the outputs (with or without
Nesterov) are bounded by `G / (1 - |decay|)`, for ever. -/
theorem C21_bounded (d G : ℝ) (nes : Bool) (hd : |d| < 1) (hG : 0 ≤ G)
    (hg : ∀ n k i, |g n k i| ≤ G) :
    ∃ U : ℕ → ℕ → ℕ → ℝ, (trace d nes).outs (mk σ p0) (hist σ g pp N) =
        .ok ((List.range N).map (fun n => mk σ (U n))) ∧
      ∀ n k i, |U n k i| ≤ G / (1 - |d|) := by
  refine ⟨_, by unfold GT.outs; rw [C21_trace]; rfl, ?_⟩
  intro n k i
  have h1 : 0 < 1 - |d| := by linarith
  have hb := abs_geoSum_le hd hG (n + 1) (x := fun j => g j k i) (fun j _ => hg j k i)
  cases nes with
  | false => simpa using hb
  | true =>
    simp only [if_true]
    calc |g n k i + d * geoSum d (fun j => g j k i) (n + 1)|
        ≤ |g n k i| + |d| * |geoSum d (fun j => g j k i) (n + 1)| := by
          rw [← abs_mul]; exact abs_add_le _ _
      _ ≤ G + |d| * (G / (1 - |d|)) := by
          have := hg n k i
          have := mul_le_mul_of_nonneg_left hb (abs_nonneg d)
          linarith
      _ = G / (1 - |d|) := by field_simp; ring

/-- **C21.** `decay = 0` is the identity. -/
theorem C21_zero_decay (nes : Bool) :
    (trace (0 : ℝ) nes).outs (mk σ p0) (hist σ g pp N) =
      .ok ((List.range N).map (fun n => mk σ (g n))) := by
  unfold GT.outs; rw [C21_trace]
  simp only [geoSum_succ, zero_mul, add_zero, ite_self, Res.ok_bind, Res.pure_eq]

/-- **C21.** The outputs are linear in the gradient history. -/
theorem C21_linear (d a b : ℝ) (nes : Bool) (g' : ℕ → ℕ → ℕ → ℝ) :
    ∃ U U' : ℕ → ℕ → ℕ → ℝ,
      (trace d nes).outs (mk σ p0) (hist σ g pp N) =
        .ok ((List.range N).map (fun n => mk σ (U n))) ∧
      (trace d nes).outs (mk σ p0) (hist σ g' pp N) =
        .ok ((List.range N).map (fun n => mk σ (U' n))) ∧
      (trace d nes).outs (mk σ p0) (hist σ (fun n k i => a * g n k i + b * g' n k i) pp N) =
        .ok ((List.range N).map (fun n => mk σ (fun k i => a * U n k i + b * U' n k i))) := by
  refine ⟨_, _, by unfold GT.outs; rw [C21_trace]; rfl, by unfold GT.outs; rw [C21_trace]; rfl, ?_⟩
  unfold GT.outs; rw [C21_trace]
  simp only [Res.ok_bind, Res.pure_eq, Except.ok.injEq]
  apply List.map_congr_left
  intro n _
  apply mk_congr
  intro k _ _ i _
  rw [geoSum_add, geoSum_smul, geoSum_smul]
  cases nes <;> simp
  ring

example : |(0.9 : ℝ)| < 1 ∧ (0:ℝ) ≤ 3 ∧ ∀ n k i : ℕ, |((fun _ _ _ => -3 : ℕ → ℕ → ℕ → ℝ)) n k i| ≤ 3 := by
  refine ⟨by rw [abs_of_pos] <;> norm_num, by norm_num, fun _ _ _ => by norm_num⟩

/-! ## C22 -/

/-- **C22** (all but the `debias=False` output).  The state holds the moving average and the number of calls;
with `debias=True`, `0 ≤ decay < 1`, output number `n` is `Σ_j w j * g j` with non-negative weights
`w j = (1-decay) decay^(n-j) / (1 - decay^(n+1))` summing to 1; with `debias=False` **the raw gradient** is
returned.  (Fewer than 2^31 calls.) -/
theorem C22_ema_partial (d : ℝ) (deb : Bool) (hN : N ≤ 2147483647) :
    (ema d deb).exec (mk σ p0) (hist σ g pp N) =
      .ok ((List.range N).map (fun n => mk σ (fun k i =>
          if deb then ∑ j ∈ range (n + 1), emaWeight d (n + 1) j * g j k i else g n k i)),
        ⟨cntAt N, mk σ (fun k i => (1 - d) * geoSum d (fun j => g j k i) N)⟩) := by
  refine exec_hist (ema d deb) (mk σ p0) σ g pp N
    (fun n => ⟨cntAt n, mk σ (fun k i => (1 - d) * geoSum d (fun j => g j k i) n)⟩) _ ?_ ?_
  · rw [ema_init_mk]; simp [cntAt_zero]
  · intro n hn
    rw [ema_update_mk]
    simp only [safeInt32Increment_cntAt, Option.getD_none, id, ipow_eq_pow, pow_one, jpow_real]
    rw [cnt_cntAt (n + 1) (by omega), Real.rpow_natCast]
    have e : ∀ k i, (1 - d) * g n k i + d * ((1 - d) * geoSum d (fun j => g j k i) n) =
        (1 - d) * geoSum d (fun j => g j k i) (n + 1) := by
      intro k i; rw [geoSum_succ]; ring
    simp only [e, geoSum_emaWeight]

/-- **C22.** The weights of the de-biased average are non-negative and sum to 1. -/
theorem C22_weights (d : ℝ) (h0 : 0 ≤ d) (h1 : d < 1) (n : ℕ) :
    (∀ j, 0 ≤ emaWeight d (n + 1) j) ∧ ∑ j ∈ range (n + 1), emaWeight d (n + 1) j = 1 :=
  ⟨emaWeight_nonneg h0 h1 (by omega), emaWeight_sum h0 h1 (by omega)⟩

/-- **C22.** With de-biasing the output lies between the extremes seen so far. -/
theorem C22_between (d : ℝ) (h0 : 0 ≤ d) (h1 : d < 1) (hN : N ≤ 2147483647) :
    ∃ U : ℕ → ℕ → ℕ → ℝ, (ema d true).outs (mk σ p0) (hist σ g pp N) =
        .ok ((List.range N).map (fun n => mk σ (U n))) ∧
      ∀ n k i lo hi, (∀ j ≤ n, lo ≤ g j k i ∧ g j k i ≤ hi) → lo ≤ U n k i ∧ U n k i ≤ hi := by
  refine ⟨_, by unfold GT.outs; rw [C22_ema_partial σ p0 g pp N d true hN]; rfl, ?_⟩
  intro n k i lo hi h
  simp only [if_true]
  exact convex_bounds _ _ lo hi (C22_weights d h0 h1 n).1 (C22_weights d h0 h1 n).2
    (fun j hj => h j (by omega))

/-- **C22.** A constant gradient is returned unchanged by the de-biased average. -/
theorem C22_constant (d : ℝ) (h0 : 0 ≤ d) (h1 : d < 1) (hN : N ≤ 2147483647) (c : ℕ → ℕ → ℝ) :
    (ema d true).outs (mk σ p0) (hist σ (fun _ => c) pp N) =
        .ok ((List.range N).map (fun _ => mk σ c)) := by
  unfold GT.outs
  rw [C22_ema_partial σ p0 _ pp N d true hN]
  simp only [if_true, ← Finset.sum_mul, (C22_weights d h0 h1 _).2, one_mul, Res.ok_bind,
    Res.pure_eq]

/-- The part of C22 that the code violates: "with `debias=False` the update is the moving
average". -/
def C22NoDebias : Prop :=
  ∀ (d : ℝ) (σ : Spec) (p0 : ℕ → ℕ → ℝ) (g : ℕ → ℕ → ℕ → ℝ) (N : ℕ), 0 ≤ d → d < 1 →
    (ema d false).outs (mk σ p0) (hist σ g (fun _ => none) N) =
      .ok ((List.range N).map (fun n => mk σ (fun k i =>
        (1 - d) * geoSum d (fun j => g j k i) (n + 1))))

/-- Finding: `ema(decay, debias=False)` does not return the moving average (it returns the
gradients, `transform.py:128-131`). -/
theorem C22_no_debias_false : ¬ C22NoDebias := by
  intro h
  have h1 := h (1 / 2) (.leaf [1]) (fun _ _ => 0) (fun _ _ _ => 1) 1 (by norm_num) (by norm_num)
  unfold GT.outs at h1
  rw [C22_ema_partial _ _ _ _ _ _ _ (by norm_num)] at h1
  simp only [Res.ok_bind, Res.pure_eq, Except.ok.injEq, List.range_one, List.map_cons,
    List.map_nil, List.cons.injEq, and_true] at h1
  have := mk_inj h1 0 [1] (by simp [PyTree.leaves]) 0 (by simp)
  simp [geoSum_succ] at this
  norm_num at this

/-! ## C23 -/

/-- the Adagrad accumulator after the first `n` gradients -/
noncomputable def rssAcc (a : ℝ) (x : ℕ → ℝ) (n : ℕ) : ℝ := a + ∑ j ∈ range n, x j ^ 2

/-- **C23.** The accumulator is `initial + Σ g²`; the output is `g/sqrt(acc+eps)`, or 0 where the
accumulator is not positive. -/
theorem C23_rss (a eps : ℝ) :
    (scaleByRss a eps).exec (mk σ p0) (hist σ g pp N) =
      .ok ((List.range N).map (fun n => mk σ (fun k i =>
          if 0 < rssAcc a (fun j => g j k i) (n + 1) then
            g n k i / Real.sqrt (rssAcc a (fun j => g j k i) (n + 1) + eps) else 0)),
        ⟨mk σ (fun k i => rssAcc a (fun j => g j k i) N)⟩) := by
  refine exec_hist (scaleByRss a eps) (mk σ p0) σ g pp N
    (fun n => ⟨mk σ (fun k i => rssAcc a (fun j => g j k i) n)⟩) _ ?_ ?_
  · rw [rss_init_mk]; simp [rssAcc]
  · intro n _
    rw [rss_update_mk]
    have e : ∀ k i, g n k i * g n k i + rssAcc a (fun j => g j k i) n =
        rssAcc a (fun j => g j k i) (n + 1) := by
      intro k i; unfold rssAcc; rw [Finset.sum_range_succ]; ring
    simp only [e, invSqrtPos, jlt_real, jrsqrt_real]
    congr 3
    funext k i
    split
    · ring
    · simp

theorem rssAcc_mono (a : ℝ) (x : ℕ → ℝ) {n m : ℕ} (h : n ≤ m) : rssAcc a x n ≤ rssAcc a x m := by
  unfold rssAcc
  have := Finset.sum_le_sum_of_subset_of_nonneg (Finset.range_subset_range.mpr h)
    (fun j _ _ => sq_nonneg (x j)) (f := fun j => x j ^ 2)
  linarith

theorem sq_le_rssAcc {a : ℝ} (ha : 0 ≤ a) (x : ℕ → ℝ) (n : ℕ) : x n ^ 2 ≤ rssAcc a x (n + 1) := by
  unfold rssAcc
  rw [Finset.sum_range_succ]
  have := Finset.sum_nonneg (fun j (_ : j ∈ range n) => sq_nonneg (x j))
  linarith

theorem rss_abs {a eps : ℝ} (ha : 0 ≤ a) (he : 0 ≤ eps) (x : ℕ → ℝ) (n : ℕ) :
    |if 0 < rssAcc a x (n + 1) then x n / Real.sqrt (rssAcc a x (n + 1) + eps) else 0| =
      |x n| / Real.sqrt (rssAcc a x (n + 1) + eps) := by
  split
  · rename_i h
    rw [abs_div, abs_of_pos (Real.sqrt_pos.mpr (by linarith))]
  · rename_i h
    have h1 := sq_le_rssAcc ha x n
    have h2 : x n = 0 := by
      have := not_lt.mp h
      have h3 := sq_nonneg (x n)
      exact pow_eq_zero_iff (two_ne_zero) |>.mp (le_antisymm (by linarith) h3)
    simp [h2]

/-- **C23.** Accumulators never decrease; every output entry has the sign of the gradient and absolute value at
most 1; for equal gradients, later steps are never larger. -/
theorem C23_bounds (a eps : ℝ) (ha : 0 ≤ a) (he : 0 ≤ eps) :
    ∃ (U A : ℕ → ℕ → ℕ → ℝ),
      (∀ N, (scaleByRss a eps).exec (mk σ p0) (hist σ g pp N) =
        .ok ((List.range N).map (fun n => mk σ (U n)), ⟨mk σ (A N)⟩)) ∧
      (∀ n m k i, n ≤ m → A n k i ≤ A m k i) ∧
      (∀ n k i, |U n k i| ≤ 1) ∧
      (∀ n k i, 0 < g n k i → 0 < U n k i) ∧ (∀ n k i, g n k i < 0 → U n k i < 0) ∧
      (∀ n k i, g n k i = 0 → U n k i = 0) ∧
      (∀ n m k i, n ≤ m → g n k i = g m k i → |U m k i| ≤ |U n k i|) := by
  refine ⟨_, _, fun N => C23_rss σ p0 g pp N a eps, ?_, ?_, ?_, ?_, ?_, ?_⟩
  · intro n m k i h; exact rssAcc_mono a _ h
  · intro n k i
    rw [rss_abs ha he (fun j => g j k i) n]
    apply div_le_one_of_le₀ _ (Real.sqrt_nonneg _)
    apply Real.le_sqrt_of_sq_le
    rw [sq_abs]
    have := sq_le_rssAcc ha (fun j => g j k i) n
    linarith
  · intro n k i h
    have hp : 0 < rssAcc a (fun j => g j k i) (n + 1) :=
      lt_of_lt_of_le (by positivity) (sq_le_rssAcc ha (fun j => g j k i) n)
    rw [if_pos hp]
    exact div_pos h (Real.sqrt_pos.mpr (by linarith))
  · intro n k i h
    have hp : 0 < rssAcc a (fun j => g j k i) (n + 1) :=
      lt_of_lt_of_le (by have := sq_pos_of_neg h; simpa using this) (sq_le_rssAcc ha (fun j => g j k i) n)
    rw [if_pos hp]
    exact div_neg_of_neg_of_pos h (Real.sqrt_pos.mpr (by linarith))
  · intro n k i h
    simp [h]
  · intro n m k i hnm h
    rw [rss_abs ha he (fun j => g j k i) n, rss_abs ha he (fun j => g j k i) m]
    simp only [← h]
    by_cases hz : g n k i = 0
    · simp [hz]
    have hp : 0 < rssAcc a (fun j => g j k i) (n + 1) :=
      lt_of_lt_of_le (by positivity) (sq_le_rssAcc ha (fun j => g j k i) n)
    apply div_le_div_of_nonneg_left (abs_nonneg _) (Real.sqrt_pos.mpr (by linarith))
    apply Real.sqrt_le_sqrt
    have := rssAcc_mono a (fun j => g j k i) (show n + 1 ≤ m + 1 by omega)
    linarith

/-! ## C24 -/

/-- the RMSProp accumulator after the first `n` gradients -/
noncomputable def rmsAcc (d a : ℝ) (x : ℕ → ℝ) (n : ℕ) : ℝ :=
  d ^ n * a + (1 - d) * geoSum d (fun j => x j ^ 2) n

/-- **C24.** Closed form of the accumulator and the output. -/
theorem C24_rms (d eps a : ℝ) :
    (scaleByRms d eps a).exec (mk σ p0) (hist σ g pp N) =
      .ok ((List.range N).map (fun n => mk σ (fun k i =>
          g n k i / Real.sqrt (rmsAcc d a (fun j => g j k i) (n + 1) + eps))),
        ⟨mk σ (fun k i => rmsAcc d a (fun j => g j k i) N)⟩) := by
  refine exec_hist (scaleByRms d eps a) (mk σ p0) σ g pp N
    (fun n => ⟨mk σ (fun k i => rmsAcc d a (fun j => g j k i) n)⟩) _ ?_ ?_
  · rw [rms_init_mk]; simp [rmsAcc]
  · intro n _
    rw [rms_update_mk]
    have e : ∀ k i, (1 - d) * ipow (g n k i) 2 + d * rmsAcc d a (fun j => g j k i) n =
        rmsAcc d a (fun j => g j k i) (n + 1) := by
      intro k i; unfold rmsAcc; rw [geoSum_succ, ipow_eq_pow]; ring
    simp only [e, jrsqrt_real, mul_one_div]

theorem rmsAcc_nonneg {d a : ℝ} (h0 : 0 ≤ d) (h1 : d ≤ 1) (ha : 0 ≤ a) (x : ℕ → ℝ) (n : ℕ) :
    0 ≤ rmsAcc d a x n := by
  unfold rmsAcc
  have := geoSum_nonneg h0 (x := fun j => x j ^ 2) (fun j => sq_nonneg _) n
  have h2 : 0 ≤ 1 - d := by linarith
  positivity

theorem sq_le_rmsAcc {d a : ℝ} (h0 : 0 ≤ d) (h1 : d ≤ 1) (ha : 0 ≤ a) (x : ℕ → ℝ) (n : ℕ) :
    (1 - d) * x n ^ 2 ≤ rmsAcc d a x (n + 1) := by
  unfold rmsAcc
  rw [geoSum_succ]
  have := geoSum_nonneg h0 (x := fun j => x j ^ 2) (fun j => sq_nonneg _) n
  have h2 : 0 ≤ 1 - d := by linarith
  have h3 : 0 ≤ d ^ (n + 1) * a := by positivity
  have h4 : 0 ≤ (1 - d) * (d * geoSum d (fun j => x j ^ 2) n) := by positivity
  nlinarith

/-- **C24.** The accumulator is never negative (so with `eps > 0` the argument of rsqrt is at
least `eps`) and every output entry is at most `1/sqrt(1-decay)` in absolute value, whatever the
gradients. -/
theorem C24_bounds (d eps a : ℝ) (h0 : 0 ≤ d) (h1 : d < 1) (ha : 0 ≤ a) (he : 0 ≤ eps) :
    ∃ (U A : ℕ → ℕ → ℕ → ℝ),
      (∀ N, (scaleByRms d eps a).exec (mk σ p0) (hist σ g pp N) =
        .ok ((List.range N).map (fun n => mk σ (U n)), ⟨mk σ (A N)⟩)) ∧
      (∀ n k i, 0 ≤ A n k i ∧ eps ≤ A n k i + eps) ∧
      (∀ n k i, U n k i = g n k i / Real.sqrt (A (n + 1) k i + eps)) ∧
      (∀ n k i, |U n k i| ≤ 1 / Real.sqrt (1 - d)) := by
  refine ⟨_, _, fun N => C24_rms σ p0 g pp N d eps a, ?_, ?_, ?_⟩
  · intro n k i
    have := rmsAcc_nonneg h0 h1.le ha (fun j => g j k i) n
    exact ⟨this, by linarith⟩
  · intro n k i; rfl
  · intro n k i
    have hp : 0 < 1 - d := by linarith
    by_cases hz : g n k i = 0
    · simp [hz]
    have h2 := sq_le_rmsAcc h0 h1.le ha (fun j => g j k i) n
    have hg : 0 < g n k i ^ 2 := by positivity
    have h3 : 0 < rmsAcc d a (fun j => g j k i) (n + 1) + eps := by
      have : 0 < (1 - d) * g n k i ^ 2 := by positivity
      linarith
    rw [abs_div, abs_of_pos (Real.sqrt_pos.mpr h3), div_le_div_iff₀ (Real.sqrt_pos.mpr h3)
      (Real.sqrt_pos.mpr hp), one_mul]
    apply Real.le_sqrt_of_sq_le
    rw [mul_pow, sq_abs, Real.sq_sqrt hp.le]
    linarith

/-- **C24.** In IEEE special-value arithmetic the update from any state with a
non-negative accumulator is finite (no division by zero, no negative root) when `eps > 0`. -/
theorem C24_finite (d eps a : ℝ) (h0 : 0 ≤ d) (h1 : d ≤ 1) (he : 0 < eps) (x nu : ℕ → ℕ → ℝ)
    (hn : ∀ k i, 0 ≤ nu k i) (ppx : Option (Params XReal)) :
    ∃ u nu' : ℕ → ℕ → ℝ, (scaleByRms (XReal.fin d) (.fin eps) (.fin a)).update
        (mk σ (fun k i => .fin (x k i))) ⟨mk σ (fun k i => .fin (nu k i))⟩ ppx =
      .ok (mk σ (fun k i => .fin (u k i)), ⟨mk σ (fun k i => .fin (nu' k i))⟩) ∧
      (∀ k i, 0 ≤ nu' k i) := by
  refine ⟨fun k i => x k i * (1 / Real.sqrt ((1 - d) * x k i ^ 2 + d * nu k i + eps)),
    fun k i => (1 - d) * x k i ^ 2 + d * nu k i, ?_, ?_⟩
  · rw [rms_update_mk]
    have e : ∀ k i, (1 - XReal.fin d) * ipow (XReal.fin (x k i)) 2 + XReal.fin d * XReal.fin (nu k i) =
        XReal.fin ((1 - d) * x k i ^ 2 + d * nu k i) := by
      intro k i
      simp [ipow, pow_two]
    simp only [e]
    have e2 : ∀ k i, JOps.rsqrt (XReal.fin ((1 - d) * x k i ^ 2 + d * nu k i) + XReal.fin eps) =
        XReal.fin (1 / Real.sqrt ((1 - d) * x k i ^ 2 + d * nu k i + eps)) := by
      intro k i
      have hp : 0 < (1 - d) * x k i ^ 2 + d * nu k i + eps := by
        have h2 : 0 ≤ 1 - d := by linarith
        have := hn k i
        positivity
      show (if _ < (0 : ℝ) then XReal.nan else if _ = (0 : ℝ) then XReal.pinf else XReal.fin _) = _
      rw [if_neg (not_lt.mpr hp.le), if_neg hp.ne']
    simp only [e2, XReal.fin_mul]
  · intro k i
    have h2 : 0 ≤ 1 - d := by linarith
    have := hn k i
    positivity

example : (0:ℝ) ≤ 0.9 ∧ (0.9:ℝ) < 1 ∧ (0:ℝ) ≤ 0 ∧ (0:ℝ) ≤ 1e-8 := by norm_num

/-! ## C25 -/

/-- **C25.** The centred second moment `nu - mu²` held in the state of `scale_by_stddev` is
non-negative after every history (`0 ≤ decay ≤ 1`, `initial_scale ≥ 0`), so the argument of rsqrt is
at least `eps`; the output is `g / sqrt(nu - mu² + eps)`. -/
theorem C25_stddev (d eps a : ℝ) (h0 : 0 ≤ d) (h1 : d ≤ 1) (ha : 0 ≤ a) :
    ∃ (U M V : ℕ → ℕ → ℕ → ℝ),
      (∀ N, (scaleByStddev d eps a).exec (mk σ p0) (hist σ g pp N) =
        .ok ((List.range N).map (fun n => mk σ (U n)), ⟨mk σ (M N), mk σ (V N)⟩)) ∧
      (∀ n k i, M n k i = (1 - d) * geoSum d (fun j => g j k i) n) ∧
      (∀ n k i, V n k i = d ^ n * a + (1 - d) * geoSum d (fun j => g j k i ^ 2) n) ∧
      (∀ n k i, 0 ≤ V n k i - M n k i ^ 2) ∧
      (∀ n k i, U n k i = g n k i / Real.sqrt (V (n + 1) k i - M (n + 1) k i ^ 2 + eps)) := by
  refine ⟨_, _, _, fun N => exec_hist (scaleByStddev d eps a) (mk σ p0) σ g pp N
    (fun n => ⟨mk σ (fun k i => (1 - d) * geoSum d (fun j => g j k i) n),
      mk σ (fun k i => rmsAcc d a (fun j => g j k i) n)⟩)
    (fun n => mk σ (fun k i => g n k i / Real.sqrt (rmsAcc d a (fun j => g j k i) (n + 1) -
      ((1 - d) * geoSum d (fun j => g j k i) (n + 1)) ^ 2 + eps))) ?_ ?_,
    fun _ _ _ => rfl, fun _ _ _ => rfl, ?_, fun _ _ _ => rfl⟩
  · rw [stddev_init_mk]; simp [rmsAcc]
  · intro n _
    rw [stddev_update_mk]
    have e : ∀ k i, (1 - d) * ipow (g n k i) 2 + d * rmsAcc d a (fun j => g j k i) n =
        rmsAcc d a (fun j => g j k i) (n + 1) := by
      intro k i; unfold rmsAcc; rw [geoSum_succ, ipow_eq_pow]; ring
    have e' : ∀ k i, (1 - d) * ipow (g n k i) 1 + d * ((1 - d) * geoSum d (fun j => g j k i) n) =
        (1 - d) * geoSum d (fun j => g j k i) (n + 1) := by
      intro k i; rw [geoSum_succ, ipow_eq_pow]; ring
    simp only [e, e', jrsqrt_real, mul_one_div, pow_two]
  · intro n k i
    induction n with
    | zero => simp [rmsAcc]; exact ha
    | succ n ih =>
      have e : rmsAcc d a (fun j => g j k i) (n + 1) =
          (1 - d) * g n k i ^ 2 + d * rmsAcc d a (fun j => g j k i) n := by
        unfold rmsAcc; rw [geoSum_succ]; ring
      rw [e, geoSum_succ]
      generalize rmsAcc d a (fun j => g j k i) n = v at *
      generalize geoSum d (fun j => g j k i) n = s at *
      generalize g n k i = x at *
      have h2 : 0 ≤ 1 - d := by linarith
      have key : (1 - d) * x ^ 2 + d * v - ((1 - d) * (x + d * s)) ^ 2 =
          d * (v - ((1 - d) * s) ^ 2) + d * (1 - d) * (x - (1 - d) * s) ^ 2 := by ring
      rw [key]
      positivity

/-- **C25.** In IEEE special-value arithmetic the update from any reachable kind of state
(`mu² ≤ nu`) is finite when `eps > 0`, and keeps `mu² ≤ nu`. -/
theorem C25_finite (d eps a : ℝ) (h0 : 0 ≤ d) (h1 : d ≤ 1) (he : 0 < eps) (x mu nu : ℕ → ℕ → ℝ)
    (hn : ∀ k i, mu k i ^ 2 ≤ nu k i) (ppx : Option (Params XReal)) :
    ∃ u mu' nu' : ℕ → ℕ → ℝ, (scaleByStddev (XReal.fin d) (.fin eps) (.fin a)).update
        (mk σ (fun k i => .fin (x k i)))
        ⟨mk σ (fun k i => .fin (mu k i)), mk σ (fun k i => .fin (nu k i))⟩ ppx =
      .ok (mk σ (fun k i => .fin (u k i)),
        ⟨mk σ (fun k i => .fin (mu' k i)), mk σ (fun k i => .fin (nu' k i))⟩) ∧
      (∀ k i, mu' k i ^ 2 ≤ nu' k i) := by
  have h2 : 0 ≤ 1 - d := by linarith
  have hkey : ∀ k i, 0 ≤ (1 - d) * x k i ^ 2 + d * nu k i - ((1 - d) * x k i + d * mu k i) ^ 2 := by
    intro k i
    have key : (1 - d) * x k i ^ 2 + d * nu k i - ((1 - d) * x k i + d * mu k i) ^ 2 =
          d * (nu k i - mu k i ^ 2) + d * (1 - d) * (x k i - mu k i) ^ 2 := by ring
    rw [key]
    have : 0 ≤ nu k i - mu k i ^ 2 := by linarith [hn k i]
    positivity
  refine ⟨fun k i => x k i * (1 / Real.sqrt ((1 - d) * x k i ^ 2 + d * nu k i -
      ((1 - d) * x k i + d * mu k i) ^ 2 + eps)),
    fun k i => (1 - d) * x k i + d * mu k i,
    fun k i => (1 - d) * x k i ^ 2 + d * nu k i, ?_, ?_⟩
  · rw [stddev_update_mk]
    have e : ∀ k i, (1 - XReal.fin d) * ipow (XReal.fin (x k i)) 2 + XReal.fin d * XReal.fin (nu k i) =
        XReal.fin ((1 - d) * x k i ^ 2 + d * nu k i) := by
      intro k i
      simp [ipow, pow_two]
    have e' : ∀ k i, (1 - XReal.fin d) * ipow (XReal.fin (x k i)) 1 + XReal.fin d * XReal.fin (mu k i) =
        XReal.fin ((1 - d) * x k i + d * mu k i) := by
      intro k i
      simp [ipow]
    simp only [e, e']
    have e2 : ∀ k i, JOps.rsqrt (XReal.fin ((1 - d) * x k i ^ 2 + d * nu k i) -
        XReal.fin ((1 - d) * x k i + d * mu k i) * XReal.fin ((1 - d) * x k i + d * mu k i) +
        XReal.fin eps) =
        XReal.fin (1 / Real.sqrt ((1 - d) * x k i ^ 2 + d * nu k i -
          ((1 - d) * x k i + d * mu k i) ^ 2 + eps)) := by
      intro k i
      rw [XReal.fin_mul, XReal.fin_sub, XReal.fin_add, ← pow_two]
      have hp : 0 < (1 - d) * x k i ^ 2 + d * nu k i - ((1 - d) * x k i + d * mu k i) ^ 2 + eps := by
        linarith [hkey k i]
      show (if _ < (0 : ℝ) then XReal.nan else if _ = (0 : ℝ) then XReal.pinf else XReal.fin _) = _
      rw [if_neg (not_lt.mpr hp.le), if_neg hp.ne']
    simp only [e2]
    simp only [XReal.fin_mul]
  · intro k i
    linarith [hkey k i]

end Optax
