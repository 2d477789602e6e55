import Verif.Props.Adam
import Verif.Props.Update
import Verif.Props.Wrappers
import Verif.Props.FloatSgd
import Mathlib.Analysis.SpecificLimits.Basic

/-!
# C126: how long old state matters
-/

set_option linter.unusedSectionVars false

namespace Optax
open Finset
variable (σ : Spec)

/-- run rule from an arbitrary state -/
theorem run_hist {α : Type} (t : GT α) (g : ℕ → ℕ → ℕ → α) (pp : ℕ → Option (Params α)) (N : ℕ) (S : ℕ → t.State) (U : ℕ → Params α)
    (hs : ∀ n < N, t.update (mk σ (g n)) (S n) (pp n) = .ok (U n, S (n + 1))) :
    t.run (S 0) (hist σ g pp N) = .ok ((List.range N).map U, S N) := by
  induction N with
  | zero => simp [hist]
  | succ N ih =>
    rw [hist_succ, GT.run_append, ih (fun n hn => hs n (by omega))]
    simp only [Res.ok_bind]
    rw [GT.run_cons]
    have := hs N (by omega)
    simp only [this, Res.ok_bind, GT.run_nil, List.range_succ, List.map_append, List.map_cons,
      List.map_nil]

/-- an accumulator `m ← a + d m` started at `m0` -/
theorem geo_from (d m0 : ℝ) (a : ℕ → ℝ) (n : ℕ) :
    a n + d * (geoSum d a n + d ^ n * m0) = geoSum d a (n + 1) + d ^ (n + 1) * m0 := by
  rw [geoSum_succ]; ring

/-- **C126.** Momentum forgets: run `trace(decay)` from two arbitrary states on the same gradients.  After `n` calls the
accumulators differ by exactly `decay^n` times their initial difference, and the update number `n` (from 0) by `decay^(n+1)`
times it (one power more with `nesterov`). -/
theorem C126_trace (d : ℝ) (nes : Bool) (m m' : ℕ → ℕ → ℝ) (g : ℕ → ℕ → ℕ → ℝ) (pp : ℕ → Option (Params ℝ)) (N : ℕ) :
    ∃ (U U' : ℕ → ℕ → ℕ → ℝ) (t t' : ℕ → ℕ → ℝ),
      (trace d nes).run ⟨mk σ m⟩ (hist σ g pp N) = .ok ((List.range N).map (fun n => mk σ (U n)), ⟨mk σ t⟩) ∧
      (trace d nes).run ⟨mk σ m'⟩ (hist σ g pp N) = .ok ((List.range N).map (fun n => mk σ (U' n)), ⟨mk σ t'⟩) ∧
      (∀ k i, t k i - t' k i = d ^ N * (m k i - m' k i)) ∧
      ∀ n k i, U n k i - U' n k i = d ^ (n + if nes then 2 else 1) * (m k i - m' k i) := by
  have run : ∀ m : ℕ → ℕ → ℝ, (trace d nes).run ⟨mk σ m⟩ (hist σ g pp N) =
      .ok ((List.range N).map (fun n => mk σ (fun k i =>
          if nes then g n k i + d * (geoSum d (fun j => g j k i) (n + 1) + d ^ (n + 1) * m k i)
          else geoSum d (fun j => g j k i) (n + 1) + d ^ (n + 1) * m k i)),
        ⟨mk σ (fun k i => geoSum d (fun j => g j k i) N + d ^ N * m k i)⟩) := by
    intro m
    have h := run_hist σ (trace d nes) g pp N (fun n => ⟨mk σ (fun k i => geoSum d (fun j => g j k i) n + d ^ n * m k i)⟩)
      (fun n => mk σ (fun k i =>
          if nes then g n k i + d * (geoSum d (fun j => g j k i) (n + 1) + d ^ (n + 1) * m k i)
          else geoSum d (fun j => g j k i) (n + 1) + d ^ (n + 1) * m k i)) (fun n _ => by
        rw [trace_update_mk]
        simp only [← geo_from, Option.getD_none, id])
    simpa using h
  refine ⟨_, _, _, _, run m, run m', fun k i => by ring, fun n k i => ?_⟩
  cases nes
  · simp only [Bool.false_eq_true, if_false]; ring
  · simp only [if_true]; ring

/-- the update of `scale_by_adam` number `n` (from 0) after `a` earlier calls that left the moments `m`, `v` -/
noncomputable def adamFrom (b1 b2 eps er : ℝ) (a : ℕ) (m v : ℝ) (g : ℕ → ℝ) (n : ℕ) : ℝ :=
  (((1 - b1) * geoSum b1 g (n + 1) + b1 ^ (n + 1) * m) / (1 - b1 ^ min (a + n + 1) 2147483647)) /
    (Real.sqrt (((1 - b2) * geoSum b2 (fun j => g j ^ 2) (n + 1) + b2 ^ (n + 1) * v) / (1 - b2 ^ min (a + n + 1) 2147483647) + er) + eps)

theorem adam_run_from (b1 b2 eps er : ℝ) (a : ℕ) (m v : ℕ → ℕ → ℝ) (g : ℕ → ℕ → ℕ → ℝ) (pp : ℕ → Option (Params ℝ)) (N : ℕ) :
    (scaleByAdam b1 b2 eps er).run ⟨cntAt a, mk σ m, mk σ v⟩ (hist σ g pp N) =
      .ok ((List.range N).map (fun n => mk σ (fun k i => adamFrom b1 b2 eps er a (m k i) (v k i) (fun j => g j k i) n)),
        ⟨cntAt (a + N), mk σ (fun k i => (1 - b1) * geoSum b1 (fun j => g j k i) N + b1 ^ N * m k i),
          mk σ (fun k i => (1 - b2) * geoSum b2 (fun j => g j k i ^ 2) N + b2 ^ N * v k i)⟩) := by
  have h := run_hist σ (scaleByAdam b1 b2 eps er) g pp N
    (fun n => ⟨cntAt (a + n), mk σ (fun k i => (1 - b1) * geoSum b1 (fun j => g j k i) n + b1 ^ n * m k i),
      mk σ (fun k i => (1 - b2) * geoSum b2 (fun j => g j k i ^ 2) n + b2 ^ n * v k i)⟩)
    (fun n => mk σ (fun k i => adamFrom b1 b2 eps er a (m k i) (v k i) (fun j => g j k i) n)) (fun n _ => by
      rw [adam_update_mk]
      simp only [safeInt32Increment_cntAt, ipow_eq_pow, pow_one, jpow_real, jsqrt_real]
      rw [cnt_cntAt', Real.rpow_natCast, Real.rpow_natCast]
      have e : ∀ (b m : ℝ) (x : ℕ → ℝ), (1 - b) * x n + b * ((1 - b) * geoSum b x n + b ^ n * m) =
          (1 - b) * geoSum b x (n + 1) + b ^ (n + 1) * m := by
        intro b m x; rw [geoSum_succ]; ring
      simp only [adamFrom, ← e]
      rfl)
  simpa using h

/-- **C126.** Adam forgets: run `scale_by_adam` from two states with the same step count and arbitrary moments on the same
gradients.  The first moments differ by exactly `b1^n`, the second by `b2^n` times their initial difference. -/
theorem C126_adam_state (b1 b2 eps er : ℝ) (a : ℕ) (m m' v v' : ℕ → ℕ → ℝ) (g : ℕ → ℕ → ℕ → ℝ)
    (pp : ℕ → Option (Params ℝ)) (N : ℕ) :
    ∃ (us us' : List (Params ℝ)) (c : BitVec 32) (M M' V V' : ℕ → ℕ → ℝ),
      (scaleByAdam b1 b2 eps er).run ⟨cntAt a, mk σ m, mk σ v⟩ (hist σ g pp N) = .ok (us, ⟨c, mk σ M, mk σ V⟩) ∧
      (scaleByAdam b1 b2 eps er).run ⟨cntAt a, mk σ m', mk σ v'⟩ (hist σ g pp N) = .ok (us', ⟨c, mk σ M', mk σ V'⟩) ∧
      ∀ k i, M k i - M' k i = b1 ^ N * (m k i - m' k i) ∧ V k i - V' k i = b2 ^ N * (v k i - v' k i) :=
  ⟨_, _, _, _, _, _, _, adam_run_from σ b1 b2 eps er a m v g pp N, adam_run_from σ b1 b2 eps er a m' v' g pp N,
    fun k i => ⟨by ring, by ring⟩⟩

theorem abs_sqrt_sub_le {p q : ℝ} (hp : 0 ≤ p) (hq : 0 ≤ q) : |Real.sqrt p - Real.sqrt q| ≤ Real.sqrt |p - q| := by
  apply Real.le_sqrt_of_sq_le
  have a := Real.sqrt_nonneg p
  have b := Real.sqrt_nonneg q
  have h1 := Real.mul_self_sqrt hp
  have h2 := Real.mul_self_sqrt hq
  have e : |p - q| = |Real.sqrt p - Real.sqrt q| * (Real.sqrt p + Real.sqrt q) := by
    rw [← abs_of_nonneg (show 0 ≤ Real.sqrt p + Real.sqrt q by linarith), ← abs_mul]
    congr 1
    linear_combination (-1 : ℝ) * h1 + h2
  rw [e, pow_two]
  refine mul_le_mul_of_nonneg_left ?_ (abs_nonneg _)
  rw [abs_le]; constructor <;> linarith

theorem ratio_diff {x x' p q eps C : ℝ} (hp : 0 ≤ p) (hq : 0 ≤ q) (he : 0 < eps) (hx : |x'| ≤ C) :
    |x / (Real.sqrt p + eps) - x' / (Real.sqrt q + eps)| ≤ |x - x'| / eps + C / eps ^ 2 * Real.sqrt |p - q| := by
  have a := Real.sqrt_nonneg p
  have b := Real.sqrt_nonneg q
  have hp' : 0 < Real.sqrt p + eps := by linarith
  have hq' : 0 < Real.sqrt q + eps := by linarith
  have e : x / (Real.sqrt p + eps) - x' / (Real.sqrt q + eps) =
      (x - x') / (Real.sqrt p + eps) + x' * (Real.sqrt q - Real.sqrt p) / ((Real.sqrt p + eps) * (Real.sqrt q + eps)) := by
    field_simp; ring
  rw [e]
  refine (abs_add_le _ _).trans (add_le_add ?_ ?_)
  · rw [abs_div, abs_of_pos hp']
    exact div_le_div_of_nonneg_left (abs_nonneg _) he (by linarith)
  · rw [abs_div, abs_mul, abs_of_pos (mul_pos hp' hq'), div_mul_eq_mul_div]
    have h1 : |Real.sqrt q - Real.sqrt p| ≤ Real.sqrt |p - q| := by rw [abs_sub_comm]; exact abs_sqrt_sub_le hp hq
    have hC : 0 ≤ C := (abs_nonneg _).trans hx
    have h2 : |x'| * |Real.sqrt q - Real.sqrt p| ≤ C * Real.sqrt |p - q| := mul_le_mul hx h1 (abs_nonneg _) hC
    have h3 : eps ^ 2 ≤ (Real.sqrt p + eps) * (Real.sqrt q + eps) := by nlinarith
    exact (div_le_div_of_nonneg_left (by positivity) (by positivity) h3).trans (div_le_div_of_nonneg_right h2 (by positivity))

/-- **C126.** … and so are the updates: with gradients and first moments bounded by `G`, non-negative second moments and
`eps > 0`, the two updates number `n` differ entrywise by at most a constant times `b1^(n+1)` plus a constant times the square
root of `b2^(n+1)`. -/
theorem C126_adam (b1 b2 eps er : ℝ) (h10 : 0 ≤ b1) (h11 : b1 < 1) (h20 : 0 ≤ b2) (h21 : b2 < 1) (he : 0 < eps) (her : 0 ≤ er)
    (a : ℕ) (m m' v v' : ℕ → ℕ → ℝ) (hv : ∀ k i, 0 ≤ v k i) (hv' : ∀ k i, 0 ≤ v' k i) (g : ℕ → ℕ → ℕ → ℝ) (G : ℝ)
    (hg : ∀ n k i, |g n k i| ≤ G) (hm' : ∀ k i, |m' k i| ≤ G) (pp : ℕ → Option (Params ℝ)) (N : ℕ) :
    ∃ (U U' : ℕ → ℕ → ℕ → ℝ) (s s' : AdamState ℝ),
      (scaleByAdam b1 b2 eps er).run ⟨cntAt a, mk σ m, mk σ v⟩ (hist σ g pp N) = .ok ((List.range N).map fun n => mk σ (U n), s) ∧
      (scaleByAdam b1 b2 eps er).run ⟨cntAt a, mk σ m', mk σ v'⟩ (hist σ g pp N) = .ok ((List.range N).map fun n => mk σ (U' n), s') ∧
      ∀ n k i, |U n k i - U' n k i| ≤ b1 ^ (n + 1) * |m k i - m' k i| / ((1 - b1) * eps) +
        G / ((1 - b1) * eps ^ 2) * Real.sqrt (b2 ^ (n + 1) * |v k i - v' k i| / (1 - b2)) := by
  refine ⟨_, _, _, _, adam_run_from σ b1 b2 eps er a m v g pp N, adam_run_from σ b1 b2 eps er a m' v' g pp N, fun n k i => ?_⟩
  have hG : 0 ≤ G := (abs_nonneg _).trans (hg 0 k i)
  have p1 : 0 < 1 - b1 := by linarith
  have p2 : 0 < 1 - b2 := by linarith
  unfold adamFrom
  obtain ⟨w, hw⟩ : ∃ w, w = min (a + n + 1) 2147483647 := ⟨_, rfl⟩
  rw [← hw]
  have hw1 : 1 ≤ w := by omega
  have bias : ∀ b : ℝ, 0 ≤ b → b < 1 → 1 - b ≤ 1 - b ^ w := fun b h0 h1 => by
    have := pow_le_pow_of_le_one h0 h1.le hw1
    rw [pow_one] at this; linarith
  have w1 := bias b1 h10 h11
  have w2 := bias b2 h20 h21
  have q1 : 0 < 1 - b1 ^ w := by linarith
  have q2 : 0 < 1 - b2 ^ w := by linarith
  have hs2 : ∀ v : ℝ, 0 ≤ v → 0 ≤ ((1 - b2) * geoSum b2 (fun j => g j k i ^ 2) (n + 1) + b2 ^ (n + 1) * v) / (1 - b2 ^ w) + er := by
    intro v hv
    have := geoSum_nonneg h20 (x := fun j => g j k i ^ 2) (fun j => sq_nonneg _) (n + 1)
    have : 0 ≤ (1 - b2) * geoSum b2 (fun j => g j k i ^ 2) (n + 1) := mul_nonneg p2.le this
    have : 0 ≤ b2 ^ (n + 1) * v := by positivity
    have : 0 ≤ ((1 - b2) * geoSum b2 (fun j => g j k i ^ 2) (n + 1) + b2 ^ (n + 1) * v) / (1 - b2 ^ w) := by positivity
    linarith
  have hC : |((1 - b1) * geoSum b1 (fun j => g j k i) (n + 1) + b1 ^ (n + 1) * m' k i) / (1 - b1 ^ w)| ≤ G / (1 - b1) := by
    have hnum : ∀ n : ℕ, |(1 - b1) * geoSum b1 (fun j => g j k i) n + b1 ^ n * m' k i| ≤ G := by
      intro n
      induction n with
      | zero => simpa using hm' k i
      | succ n ih =>
        have e : (1 - b1) * geoSum b1 (fun j => g j k i) (n + 1) + b1 ^ (n + 1) * m' k i =
            (1 - b1) * g n k i + b1 * ((1 - b1) * geoSum b1 (fun j => g j k i) n + b1 ^ n * m' k i) := by
          rw [geoSum_succ]; ring
        rw [e]
        refine (abs_add_le _ _).trans ?_
        rw [abs_mul, abs_mul b1, abs_of_pos p1, abs_of_nonneg h10]
        have := mul_le_mul_of_nonneg_left (hg n k i) p1.le
        have := mul_le_mul_of_nonneg_left ih h10
        linarith
    rw [abs_div, abs_of_pos q1]
    exact (div_le_div_of_nonneg_right (hnum _) q1.le).trans (div_le_div_of_nonneg_left hG p1 w1)
  refine (ratio_diff (hs2 _ (hv k i)) (hs2 _ (hv' k i)) he hC).trans (add_le_add ?_ ?_)
  · rw [← sub_div, abs_div, abs_of_pos q1, add_sub_add_left_eq_sub, ← mul_sub, abs_mul, abs_of_nonneg (by positivity), div_div]
    exact div_le_div_of_nonneg_left (by positivity) (by positivity) (mul_le_mul_of_nonneg_right w1 he.le)
  · rw [div_div]
    refine mul_le_mul_of_nonneg_left (Real.sqrt_le_sqrt ?_) (by positivity)
    rw [add_sub_add_right_eq_sub, ← sub_div, abs_div, abs_of_pos q2, add_sub_add_left_eq_sub, ← mul_sub, abs_mul,
      abs_of_nonneg (show 0 ≤ b2 ^ (n + 1) by positivity)]
    exact div_le_div_of_nonneg_left (by positivity) p2 w2

/-- the bound of `C126_adam` tends to zero -/
theorem C126_adam_limit (b1 b2 eps A B C : ℝ) (h10 : 0 ≤ b1) (h11 : b1 < 1) (h20 : 0 ≤ b2) (h21 : b2 < 1) :
    Filter.Tendsto (fun n : ℕ => b1 ^ (n + 1) * A / ((1 - b1) * eps) + C * Real.sqrt (b2 ^ (n + 1) * B / (1 - b2)))
      Filter.atTop (nhds 0) := by
  have t1 := (tendsto_pow_atTop_nhds_zero_of_lt_one h10 h11).comp (Filter.tendsto_add_atTop_nat 1)
  have t2 := (tendsto_pow_atTop_nhds_zero_of_lt_one h20 h21).comp (Filter.tendsto_add_atTop_nat 1)
  have u1 := (t1.mul_const A).div_const ((1 - b1) * eps)
  have u2 := ((Real.continuous_sqrt.tendsto _).comp ((t2.mul_const B).div_const (1 - b2))).const_mul C
  simpa [Function.comp_def] using u1.add u2

/-- **C126.** AdaGrad never forgets: with `scale_by_rss` the accumulators keep their difference for ever. -/
theorem C126_rss (a eps : ℝ) (m m' : ℕ → ℕ → ℝ) (g : ℕ → ℕ → ℕ → ℝ) (pp : ℕ → Option (Params ℝ)) (N : ℕ) :
    ∃ (us us' : List (Params ℝ)) (t t' : ℕ → ℕ → ℝ),
      (scaleByRss a eps).run ⟨mk σ m⟩ (hist σ g pp N) = .ok (us, ⟨mk σ t⟩) ∧
      (scaleByRss a eps).run ⟨mk σ m'⟩ (hist σ g pp N) = .ok (us', ⟨mk σ t'⟩) ∧
      ∀ k i, t k i - t' k i = m k i - m' k i := by
  have run : ∀ m : ℕ → ℕ → ℝ, ∃ us, (scaleByRss a eps).run ⟨mk σ m⟩ (hist σ g pp N) =
      .ok (us, ⟨mk σ (fun k i => ∑ j ∈ range N, g j k i ^ 2 + m k i)⟩) := by
    intro m
    have h := run_hist σ (scaleByRss a eps) g pp N (fun n => ⟨mk σ (fun k i => ∑ j ∈ range n, g j k i ^ 2 + m k i)⟩)
      (fun n => mk σ (fun k i => invSqrtPos eps (g n k i * g n k i + (∑ j ∈ range n, g j k i ^ 2 + m k i)) * g n k i)) (fun n _ => by
        rw [rss_update_mk]
        have e : ∀ k i, g n k i * g n k i + (∑ j ∈ range n, g j k i ^ 2 + m k i) = ∑ j ∈ range (n + 1), g j k i ^ 2 + m k i :=
          fun k i => by rw [sum_range_succ]; ring
        simp only [← e])
    simp only [range_zero, sum_empty, zero_add] at h
    exact ⟨_, h⟩
  obtain ⟨us, h⟩ := run m
  obtain ⟨us', h'⟩ := run m'
  exact ⟨us, us', _, _, h, h', fun k i => by ring⟩

/-- **C126.** Target networks lag: if the parameters move by at most `δ` (in Euclidean distance over all entries) between calls,
the copy maintained by `incremental_update(params, target, step_size)` is, after `N + 1` calls, within
`(1 - step_size)^(N+1) · d₀ + δ (1 - step_size) / step_size` of the parameters it tracks, `d₀` the initial distance. -/
theorem C126_target_lag (s δ : ℝ) (hs0 : 0 < s) (hs1 : s ≤ 1) (new : ℕ → ℕ → ℕ → ℝ) (old0 : ℕ → ℕ → ℝ)
    (hmove : ∀ n, treeDist σ (new n) (new (n + 1)) ≤ δ) (N : ℕ) :
    ∃ tgt : ℕ → ℕ → ℝ,
      (List.range (N + 1)).foldlM (fun old n => incrementalUpdate (mk σ (new n)) old s) (mk σ old0) = .ok (mk σ tgt) ∧
      treeDist σ tgt (new N) ≤ (1 - s) ^ (N + 1) * treeDist σ old0 (new 0) + δ * (1 - s) / s := by
  have hδ : 0 ≤ δ := (show 0 ≤ treeDist σ (new 0) (new 1) by rw [treeDist_l2]; exact l2_nonneg _ _).trans (hmove 0)
  have contract : ∀ p t : ℕ → ℕ → ℝ, treeDist σ (fun k i => s * p k i + (1 - s) * t k i) p = (1 - s) * treeDist σ t p := by
    intro p t
    rw [treeDist_l2, treeDist_l2]
    have e : ∀ z ∈ idx σ, s * p z.1 z.2 + (1 - s) * t z.1 z.2 - p z.1 z.2 = (1 - s) * (t z.1 z.2 - p z.1 z.2) := fun z _ => by ring
    rw [l2_congr _ e, l2_smul, abs_of_nonneg (by linarith)]
  induction N with
  | zero =>
    refine ⟨fun k i => s * new 0 k i + (1 - s) * old0 k i, by simp [incrementalUpdate], ?_⟩
    rw [contract]
    have : 0 ≤ δ * (1 - s) / s := div_nonneg (mul_nonneg hδ (by linarith)) hs0.le
    simp only [zero_add, pow_one]
    linarith
  | succ N ih =>
    obtain ⟨tgt, h1, h2⟩ := ih
    refine ⟨fun k i => s * new (N + 1) k i + (1 - s) * tgt k i, ?_, ?_⟩
    · rw [List.range_succ, List.foldlM_append, h1]
      simp [incrementalUpdate]
    · rw [contract]
      have tri : treeDist σ tgt (new (N + 1)) ≤ treeDist σ tgt (new N) + treeDist σ (new N) (new (N + 1)) := by
        simp only [treeDist_l2]
        have e : ∀ z ∈ idx σ, tgt z.1 z.2 - new (N + 1) z.1 z.2 =
            (tgt z.1 z.2 - new N z.1 z.2) + (new N z.1 z.2 - new (N + 1) z.1 z.2) := fun z _ => by ring
        rw [l2_congr _ e]
        exact l2_add_le _ _ _
      have h3 := mul_le_mul_of_nonneg_left (tri.trans (add_le_add h2 (hmove N))) (show 0 ≤ 1 - s by linarith)
      refine h3.trans (le_of_eq ?_)
      rw [pow_succ]
      field_simp
      ring

/-- hypotheses of `C126_adam` and `C126_target_lag` are met by non-trivial data -/
example : (∀ n : ℕ, |(if n % 2 = 0 then (1 : ℝ) else -1)| ≤ 1) ∧
    ∀ n : ℕ, treeDist (.leaf []) (fun _ _ => (n : ℝ)) (fun _ _ => ((n + 1 : ℕ) : ℝ)) ≤ 1 := by
  refine ⟨fun n => by split <;> simp, fun n => ?_⟩
  have e : idx (.leaf []) = {⟨0, 0⟩} := by decide
  rw [treeDist_l2]; unfold l2; rw [e]; simp

end Optax
