import Verif.Lemmas.Counter
import Verif.Spec.Geo

/-!
# C26, C27 (`scale_by_adam`), C28 (`scale_by_belief`), C29 (`scale_by_yogi`), C30 (`scale_by_radam`)
-/

set_option linter.unusedSectionVars false
set_option linter.unusedSimpArgs false

namespace Optax
open Finset

variable (σ : Spec) (p0 : ℕ → ℕ → ℝ) (g : ℕ → ℕ → ℕ → ℝ) (pp : ℕ → Option (Params ℝ)) (N : ℕ)

/-! ## C26 -/

/-- de-biased weighted average of the first `n` values, weights `∝ d^(n-1-j)` -/
noncomputable def debiased (d : ℝ) (x : ℕ → ℝ) (n : ℕ) : ℝ := ∑ j ∈ range n, emaWeight d n j * x j

theorem debiased_eq (d : ℝ) (x : ℕ → ℝ) (n : ℕ) :
    debiased d x n = (1 - d) * geoSum d x n / (1 - d ^ n) := (geoSum_emaWeight d x n).symm

/-- **C26.** Closed form of `scale_by_adam` over every history of fewer than 2^31 calls: output number `n`
is `mhat / (sqrt(vhat + eps_root) + eps)` with `mhat`, `vhat` the de-biased averages of the `g_j` and `g_j²`,
and the state holds the two moving averages. -/
theorem C26_adam (b1 b2 eps er : ℝ) (hN : N ≤ 2147483647) :
    (scaleByAdam b1 b2 eps er).exec (mk σ p0) (hist σ g pp N) =
      .ok ((List.range N).map (fun n => mk σ (fun k i =>
          debiased b1 (fun j => g j k i) (n + 1) /
            (Real.sqrt (debiased b2 (fun j => g j k i ^ 2) (n + 1) + er) + eps))),
        ⟨cntAt N, mk σ (fun k i => (1 - b1) * geoSum b1 (fun j => g j k i) N),
          mk σ (fun k i => (1 - b2) * geoSum b2 (fun j => g j k i ^ 2) N)⟩) := by
  refine exec_hist (scaleByAdam b1 b2 eps er) (mk σ p0) σ g pp N
    (fun n => ⟨cntAt n, mk σ (fun k i => (1 - b1) * geoSum b1 (fun j => g j k i) n),
      mk σ (fun k i => (1 - b2) * geoSum b2 (fun j => g j k i ^ 2) n)⟩) _ ?_ ?_
  · rw [adam_init_mk]; simp [cntAt_zero]
  · intro n hn
    rw [adam_update_mk]
    simp only [safeInt32Increment_cntAt, ipow_eq_pow, pow_one, jpow_real, jsqrt_real]
    rw [cnt_cntAt (n + 1) (by omega), Real.rpow_natCast, Real.rpow_natCast]
    have e1 : ∀ k i, (1 - b1) * g n k i + b1 * ((1 - b1) * geoSum b1 (fun j => g j k i) n) =
        (1 - b1) * geoSum b1 (fun j => g j k i) (n + 1) := by
      intro k i; rw [geoSum_succ]; ring
    have e2 : ∀ k i, (1 - b2) * g n k i ^ 2 + b2 * ((1 - b2) * geoSum b2 (fun j => g j k i ^ 2) n) =
        (1 - b2) * geoSum b2 (fun j => g j k i ^ 2) (n + 1) := by
      intro k i; rw [geoSum_succ]; ring
    simp only [e1, e2, debiased_eq]

/-- the output of `scale_by_adam` at step `n`, for one entry with gradients `g`, including the saturation of the counter -/
noncomputable def adamStep (b1 b2 eps er : ℝ) (g : ℕ → ℝ) (n : ℕ) : ℝ :=
  ((1 - b1) * geoSum b1 g (n + 1) / (1 - b1 ^ min (n + 1) 2147483647)) /
    (Real.sqrt ((1 - b2) * geoSum b2 (fun j => g j ^ 2) (n + 1) / (1 - b2 ^ min (n + 1) 2147483647) + er) + eps)

/-- **C26 (any number of calls).** The same without a bound on the number of calls: the step counter saturates at
`2^31 - 1`, so from then on the two moving averages are still exact and the bias correction keeps using `b^(2^31 - 1)`. -/
theorem C26_saturated (b1 b2 eps er : ℝ) :
    (scaleByAdam b1 b2 eps er).exec (mk σ p0) (hist σ g pp N) =
      .ok ((List.range N).map (fun n => mk σ (fun k i => adamStep b1 b2 eps er (fun j => g j k i) n)),
        ⟨cntAt N, mk σ (fun k i => (1 - b1) * geoSum b1 (fun j => g j k i) N),
          mk σ (fun k i => (1 - b2) * geoSum b2 (fun j => g j k i ^ 2) N)⟩) := by
  refine exec_hist (scaleByAdam b1 b2 eps er) (mk σ p0) σ g pp N
    (fun n => ⟨cntAt n, mk σ (fun k i => (1 - b1) * geoSum b1 (fun j => g j k i) n),
      mk σ (fun k i => (1 - b2) * geoSum b2 (fun j => g j k i ^ 2) n)⟩) _ ?_ ?_
  · rw [adam_init_mk]; simp [cntAt_zero]
  · intro n hn
    rw [adam_update_mk]
    simp only [safeInt32Increment_cntAt, ipow_eq_pow, pow_one, jpow_real, jsqrt_real]
    rw [cnt_cntAt', Real.rpow_natCast, Real.rpow_natCast]
    have e : ∀ (b : ℝ) (x : ℕ → ℝ), (1 - b) * x n + b * ((1 - b) * geoSum b x n) = (1 - b) * geoSum b x (n + 1) := by
      intro b x; rw [geoSum_succ]; ring
    simp only [adamStep, ← e]

/-- **C26.** The averages are convex combinations: non-negative weights that sum to exactly 1. -/
theorem C26_weights (b : ℝ) (h0 : 0 ≤ b) (h1 : b < 1) (n : ℕ) :
    (∀ j, 0 ≤ emaWeight b (n + 1) j) ∧ ∑ j ∈ range (n + 1), emaWeight b (n + 1) j = 1 ∧
    ∀ j ≤ n, emaWeight b (n + 1) j = b ^ (n - j) * emaWeight b (n + 1) n := by
  refine ⟨emaWeight_nonneg h0 h1 (by omega), emaWeight_sum h0 h1 (by omega), ?_⟩
  intro j hj
  unfold emaWeight
  simp only [Nat.add_sub_cancel, Nat.sub_self, pow_zero]
  ring

theorem debiased_const {d : ℝ} (h0 : 0 ≤ d) (h1 : d < 1) (c : ℝ) (n : ℕ) :
    debiased d (fun _ => c) (n + 1) = c := by
  unfold debiased
  rw [← Finset.sum_mul, emaWeight_sum h0 h1 (by omega), one_mul]

theorem debiased_abs_le {d : ℝ} (h0 : 0 ≤ d) (h1 : d < 1) (x : ℕ → ℝ) (n : ℕ) (G : ℝ)
    (h : ∀ j ≤ n, |x j| ≤ G) : |debiased d x (n + 1)| ≤ G := by
  rw [abs_le]
  exact convex_bounds _ _ (-G) G (emaWeight_nonneg h0 h1 (by omega)) (emaWeight_sum h0 h1 (by omega))
    (fun j hj => abs_le.mp (h j (by omega)))

theorem debiased_nonneg {d : ℝ} (h0 : 0 ≤ d) (h1 : d < 1) (x : ℕ → ℝ) (n : ℕ)
    (h : ∀ j, 0 ≤ x j) : 0 ≤ debiased d x (n + 1) :=
  Finset.sum_nonneg (fun j _ => mul_nonneg (emaWeight_nonneg h0 h1 (by omega) j) (h j))

/-- **C26.** With a constant gradient `c` the update is `c / (sqrt(c²+eps_root) + eps)` at every step. -/
theorem C26_constant (b1 b2 eps er : ℝ) (h1 : 0 ≤ b1) (h1' : b1 < 1) (h2 : 0 ≤ b2) (h2' : b2 < 1)
    (hN : N ≤ 2147483647) (c : ℕ → ℕ → ℝ) :
    (scaleByAdam b1 b2 eps er).outs (mk σ p0) (hist σ (fun _ => c) pp N) =
      .ok ((List.range N).map (fun _ => mk σ (fun k i =>
        c k i / (Real.sqrt (c k i ^ 2 + er) + eps)))) := by
  unfold GT.outs
  rw [C26_adam _ _ _ _ _ _ _ _ _ hN]
  simp only [debiased_const h1 h1', debiased_const h2 h2', Res.ok_bind, Res.pure_eq]

/-- **C26.** The first-moment estimate never exceeds the largest gradient seen: with `eps ≥ 1` or not, the
numerator is bounded by `max |g_j|`, the second-moment estimate is non-negative, and the denominator
is at least `sqrt(eps_root) + eps`. -/
theorem C26_numerator (b1 b2 eps er : ℝ) (h1 : 0 ≤ b1) (h1' : b1 < 1) (h2 : 0 ≤ b2) (h2' : b2 < 1)
    (hN : N ≤ 2147483647) :
    ∃ M V : ℕ → ℕ → ℕ → ℝ,
      (scaleByAdam b1 b2 eps er).outs (mk σ p0) (hist σ g pp N) =
        .ok ((List.range N).map (fun n => mk σ (fun k i =>
          M n k i / (Real.sqrt (V n k i + er) + eps)))) ∧
      (∀ n k i G, (∀ j ≤ n, |g j k i| ≤ G) → |M n k i| ≤ G) ∧
      (∀ n k i, 0 ≤ V n k i) ∧
      (∀ n k i, Real.sqrt er + eps ≤ Real.sqrt (V n k i + er) + eps) := by
  have hv : ∀ n k i, 0 ≤ debiased b2 (fun j => g j k i ^ 2) (n + 1) := fun n k i =>
    debiased_nonneg h2 h2' _ n (fun j => sq_nonneg _)
  refine ⟨fun n k i => debiased b1 (fun j => g j k i) (n + 1),
    fun n k i => debiased b2 (fun j => g j k i ^ 2) (n + 1), ?_, ?_, hv, ?_⟩
  · unfold GT.outs; rw [C26_adam _ _ _ _ _ _ _ _ _ hN]; rfl
  · intro n k i G h
    exact debiased_abs_le h1 h1' _ n G h
  · intro n k i
    have := Real.sqrt_le_sqrt (show er ≤ debiased b2 (fun j => g j k i ^ 2) (n + 1) + er by
      linarith [hv n k i])
    linarith

section
variable {σ}

/-- One Adam step in IEEE special-value arithmetic on finite inputs. -/
theorem adam_fin (b1 b2 eps er : ℝ) (c : BitVec 32) (x m v : ℕ → ℕ → ℝ) (ppx : Option (Params XReal))
    (hb1 : 1 - b1 ^ (cnt (safeInt32Increment c) : ℝ) ≠ 0)
    (hb2 : 1 - b2 ^ (cnt (safeInt32Increment c) : ℝ) ≠ 0)
    (hr : ∀ k i, 0 ≤ ((1 - b2) * x k i ^ 2 + b2 * v k i) /
      (1 - b2 ^ (cnt (safeInt32Increment c) : ℝ)) + er)
    (hd : ∀ k i, Real.sqrt (((1 - b2) * x k i ^ 2 + b2 * v k i) /
      (1 - b2 ^ (cnt (safeInt32Increment c) : ℝ)) + er) + eps ≠ 0) :
    (scaleByAdam (XReal.fin b1) (.fin b2) (.fin eps) (.fin er)).update
        (mk σ (fun k i => .fin (x k i)))
        ⟨c, mk σ (fun k i => .fin (m k i)), mk σ (fun k i => .fin (v k i))⟩ ppx =
      .ok (mk σ (fun k i => .fin (((1 - b1) * x k i + b1 * m k i) /
            (1 - b1 ^ (cnt (safeInt32Increment c) : ℝ)) /
            (Real.sqrt (((1 - b2) * x k i ^ 2 + b2 * v k i) /
              (1 - b2 ^ (cnt (safeInt32Increment c) : ℝ)) + er) + eps))),
        ⟨safeInt32Increment c, mk σ (fun k i => .fin ((1 - b1) * x k i + b1 * m k i)),
          mk σ (fun k i => .fin ((1 - b2) * x k i ^ 2 + b2 * v k i))⟩) := by
  rw [adam_update_mk]
  have e1 : ∀ k i, (1 - XReal.fin b1) * ipow (XReal.fin (x k i)) 1 + XReal.fin b1 * XReal.fin (m k i) =
      XReal.fin ((1 - b1) * x k i + b1 * m k i) := by
    intro k i; simp [ipow]
  have e2 : ∀ k i, (1 - XReal.fin b2) * ipow (XReal.fin (x k i)) 2 + XReal.fin b2 * XReal.fin (v k i) =
      XReal.fin ((1 - b2) * x k i ^ 2 + b2 * v k i) := by
    intro k i; simp [ipow, pow_two]
  have e3 : ∀ b : ℝ, (1 - JOps.pow (XReal.fin b) (cnt (safeInt32Increment c)) : XReal) =
      XReal.fin (1 - b ^ (cnt (safeInt32Increment c) : ℝ)) := by
    intro b
    show (1 : XReal) - XReal.fin _ = _
    rw [XReal.one_def, XReal.fin_sub]; rfl
  simp only [e1, e2, e3, XReal.fin_div _ _ hb1, XReal.fin_div _ _ hb2, XReal.fin_add]
  congr 3
  funext k i
  have e4 : (JOps.sqrt (XReal.fin (((1 - b2) * x k i ^ 2 + b2 * v k i) /
      (1 - b2 ^ (cnt (safeInt32Increment c) : ℝ)) + er)) : XReal) =
      XReal.fin (Real.sqrt (((1 - b2) * x k i ^ 2 + b2 * v k i) /
      (1 - b2 ^ (cnt (safeInt32Increment c) : ℝ)) + er)) := by
    show (if _ < (0:ℝ) then XReal.nan else XReal.fin _) = _
    rw [if_neg (not_lt.mpr (hr k i))]
  rw [e4, XReal.fin_add, XReal.fin_div _ _ (hd k i)]
end

/-- **C26.** No NaN or infinity arises from finite gradients (`b1, b2 ∈ [0,1)`, `eps > 0`, `eps_root ≥ 0`): run
in IEEE special-value arithmetic, every output is finite and equal to the exact one of `C26_adam`. -/
theorem C26_finite (b1 b2 eps er : ℝ) (h1 : 0 ≤ b1) (h1' : b1 < 1) (h2 : 0 ≤ b2) (h2' : b2 < 1)
    (he : 0 < eps) (her : 0 ≤ er) (ppx : ℕ → Option (Params XReal)) (hN : N ≤ 2147483647) :
    (scaleByAdam (XReal.fin b1) (.fin b2) (.fin eps) (.fin er)).outs
        (mk σ (fun k i => .fin (p0 k i))) (hist σ (fun n k i => .fin (g n k i)) ppx N) =
      .ok ((List.range N).map (fun n => mk σ (fun k i => .fin (
          debiased b1 (fun j => g j k i) (n + 1) /
            (Real.sqrt (debiased b2 (fun j => g j k i ^ 2) (n + 1) + er) + eps))))) := by
  refine outs_hist (scaleByAdam (XReal.fin b1) (.fin b2) (.fin eps) (.fin er)) _ σ _ ppx N
    (fun n => ⟨cntAt n, mk σ (fun k i => .fin ((1 - b1) * geoSum b1 (fun j => g j k i) n)),
      mk σ (fun k i => .fin ((1 - b2) * geoSum b2 (fun j => g j k i ^ 2) n))⟩) _ ?_ ?_
  · rw [adam_init_mk]; simp [cntAt_zero]
  · intro n hn
    have hc : (cnt (safeInt32Increment (cntAt n)) : ℝ) = ((n + 1 : ℕ) : ℝ) := by
      rw [safeInt32Increment_cntAt, cnt_cntAt (n + 1) (by omega)]
    have e1 : ∀ k i, (1 - b1) * g n k i + b1 * ((1 - b1) * geoSum b1 (fun j => g j k i) n) =
        (1 - b1) * geoSum b1 (fun j => g j k i) (n + 1) := by
      intro k i; rw [geoSum_succ]; ring
    have e2 : ∀ k i, (1 - b2) * g n k i ^ 2 + b2 * ((1 - b2) * geoSum b2 (fun j => g j k i ^ 2) n) =
        (1 - b2) * geoSum b2 (fun j => g j k i ^ 2) (n + 1) := by
      intro k i; rw [geoSum_succ]; ring
    have hp1 := one_sub_pow_pos h1 h1' (show n + 1 ≠ 0 by omega)
    have hp2 := one_sub_pow_pos h2 h2' (show n + 1 ≠ 0 by omega)
    have hv : ∀ k i, 0 ≤ debiased b2 (fun j => g j k i ^ 2) (n + 1) := fun k i =>
      debiased_nonneg h2 h2' _ n (fun j => sq_nonneg _)
    rw [adam_fin]
    · simp only [hc]
      simp only [Real.rpow_natCast, e1, e2, ← debiased_eq, safeInt32Increment_cntAt]
    · rw [hc, Real.rpow_natCast]; exact hp1.ne'
    · rw [hc, Real.rpow_natCast]; exact hp2.ne'
    · intro k i
      rw [hc, Real.rpow_natCast, e2, ← debiased_eq]
      linarith [hv k i]
    · intro k i
      have := Real.sqrt_nonneg (((1 - b2) * g n k i ^ 2 + b2 * ((1 - b2) *
        geoSum b2 (fun j => g j k i ^ 2) n)) / (1 - b2 ^ (cnt (safeInt32Increment (cntAt n)) : ℝ)) + er)
      linarith

example : (0:ℝ) ≤ 0.9 ∧ (0.9:ℝ) < 1 ∧ (0:ℝ) ≤ 0.999 ∧ (0.999:ℝ) < 1 ∧ (0:ℝ) < 1e-8 ∧ 3 ≤ 2147483647 := by
  norm_num

/-! ## C27 -/

/-- the explicit constant of C27 after `n` steps -/
noncomputable def adamBound (b1 b2 : ℝ) (n : ℕ) : ℝ :=
  (1 - b1) / (1 - b1 ^ n) *
    Real.sqrt ((1 - b2 ^ n) / (1 - b2) * ∑ i ∈ range n, (b1 ^ 2 / b2) ^ i)

/-- the first moment estimate is at most a constant times the root of the second one -/
theorem debiased_abs_le_sqrt {b1 b2 : ℝ} (h1 : 0 ≤ b1) (h1' : b1 < 1) (h2 : 0 < b2) (h2' : b2 < 1) (x : ℕ → ℝ) (n : ℕ) :
    |debiased b1 x (n + 1)| ≤ adamBound b1 b2 (n + 1) * Real.sqrt (debiased b2 (fun j => x j ^ 2) (n + 1)) := by
  have hp1 := one_sub_pow_pos h1 h1' (show n + 1 ≠ 0 by omega)
  have hp2 := one_sub_pow_pos h2.le h2' (show n + 1 ≠ 0 by omega)
  have hq1 : 0 < 1 - b1 := by linarith
  have hq2 : 0 < 1 - b2 := by linarith
  set v := debiased b2 (fun j => x j ^ 2) (n + 1) with hv
  have hv0 : 0 ≤ v := debiased_nonneg h2.le h2' _ n (fun j => sq_nonneg _)
  set K := ∑ i ∈ range (n + 1), (b1 ^ 2 / b2) ^ i with hK
  have hK0 : 0 ≤ K := Finset.sum_nonneg (fun i _ => by positivity)
  have hcs := geoSum_cauchy (b1 := b1) h2 x (n + 1)
  have hvs : geoSum b2 (fun j => x j ^ 2) (n + 1) = v * (1 - b2 ^ (n + 1)) / (1 - b2) := by
    rw [hv, debiased_eq]; field_simp
  rw [hvs, ← hK] at hcs
  have h3 : |geoSum b1 x (n + 1)| ≤ Real.sqrt ((1 - b2 ^ (n + 1)) / (1 - b2) * K) * Real.sqrt v := by
    rw [← Real.sqrt_mul (by positivity)]
    apply Real.le_sqrt_of_sq_le
    rw [sq_abs]
    refine le_trans hcs (le_of_eq ?_)
    ring
  rw [debiased_eq, abs_div, abs_mul, abs_of_pos hq1, abs_of_pos hp1]
  unfold adamBound
  calc (1 - b1) * |geoSum b1 x (n + 1)| / (1 - b1 ^ (n + 1))
      = (1 - b1) / (1 - b1 ^ (n + 1)) * |geoSum b1 x (n + 1)| := by ring
    _ ≤ (1 - b1) / (1 - b1 ^ (n + 1)) *
        (Real.sqrt ((1 - b2 ^ (n + 1)) / (1 - b2) * K) * Real.sqrt v) :=
      mul_le_mul_of_nonneg_left h3 (by positivity)
    _ = _ := by ring

theorem adamBound_nonneg {b1 b2 : ℝ} (h1 : 0 ≤ b1) (h1' : b1 < 1) (h2 : 0 < b2) (n : ℕ) : 0 ≤ adamBound b1 b2 (n + 1) := by
  have hp1 := one_sub_pow_pos h1 h1' (show n + 1 ≠ 0 by omega)
  have hq1 : 0 < 1 - b1 := by linarith
  unfold adamBound; positivity

theorem adam_ratio_le {b1 b2 eps er : ℝ} (h1 : 0 ≤ b1) (h1' : b1 < 1) (h2 : 0 < b2) (h2' : b2 < 1)
    (he : 0 ≤ eps) (her : 0 ≤ er) (x : ℕ → ℝ) (n : ℕ) :
    |debiased b1 x (n + 1) / (Real.sqrt (debiased b2 (fun j => x j ^ 2) (n + 1) + er) + eps)| ≤
      adamBound b1 b2 (n + 1) := by
  have hB := adamBound_nonneg h1 h1' h2 n
  have hm := debiased_abs_le_sqrt h1 h1' h2 h2' x n
  set v := debiased b2 (fun j => x j ^ 2) (n + 1) with hv
  have hs : Real.sqrt v ≤ Real.sqrt (v + er) + eps := by
    have := Real.sqrt_le_sqrt (show v ≤ v + er by linarith)
    linarith
  have hd0 : 0 ≤ Real.sqrt (v + er) + eps := by
    have := Real.sqrt_nonneg (v + er); linarith
  rw [abs_div, abs_of_nonneg hd0]
  apply div_le_of_le_mul₀ hd0 hB
  exact le_trans hm (mul_le_mul_of_nonneg_left hs hB)

theorem adamBound_le {b1 b2 : ℝ} (h1 : 0 ≤ b1) (h2 : b1 ^ 2 < b2) (h2' : b2 < 1) (n : ℕ) :
    adamBound b1 b2 (n + 1) ≤ 1 / Real.sqrt ((1 - b2) * (1 - b1 ^ 2 / b2)) := by
  have hb2 : 0 < b2 := lt_of_le_of_lt (sq_nonneg b1) h2
  have h1' : b1 < 1 := by nlinarith
  have hp1 := one_sub_pow_pos h1 h1' (show n + 1 ≠ 0 by omega)
  have hp2 := one_sub_pow_pos hb2.le h2' (show n + 1 ≠ 0 by omega)
  have hq2 : 0 < 1 - b2 := by linarith
  have hr0 : 0 ≤ b1 ^ 2 / b2 := by positivity
  have hr1 : b1 ^ 2 / b2 < 1 := (div_lt_one hb2).mpr h2
  have hr : 0 < 1 - b1 ^ 2 / b2 := by linarith
  have hsum : ∑ i ∈ range (n + 1), (b1 ^ 2 / b2) ^ i ≤ 1 / (1 - b1 ^ 2 / b2) := by
    rw [le_div_iff₀ hr, mul_comm]
    have := mul_neg_geom_sum (b1 ^ 2 / b2) (n + 1)
    rw [this]
    have := pow_nonneg hr0 (n + 1)
    linarith
  have ha : (1 - b1) / (1 - b1 ^ (n + 1)) ≤ 1 := by
    rw [div_le_one hp1]
    have := pow_le_of_le_one h1 h1'.le (show n + 1 ≠ 0 by omega)
    linarith
  have hs0 : 0 ≤ ∑ i ∈ range (n + 1), (b1 ^ 2 / b2) ^ i :=
    Finset.sum_nonneg (fun i _ => pow_nonneg hr0 i)
  have hb : (1 - b2 ^ (n + 1)) / (1 - b2) * ∑ i ∈ range (n + 1), (b1 ^ 2 / b2) ^ i ≤
      1 / ((1 - b2) * (1 - b1 ^ 2 / b2)) := by
    have h3 : (1 - b2 ^ (n + 1)) / (1 - b2) ≤ 1 / (1 - b2) := by
      apply div_le_div_of_nonneg_right _ hq2.le
      have := pow_pos hb2 (n + 1); linarith
    calc _ ≤ 1 / (1 - b2) * (1 / (1 - b1 ^ 2 / b2)) :=
          mul_le_mul h3 hsum hs0 (by positivity)
      _ = _ := by field_simp
  unfold adamBound
  calc _ ≤ 1 * Real.sqrt (1 / ((1 - b2) * (1 - b1 ^ 2 / b2))) :=
        mul_le_mul ha (Real.sqrt_le_sqrt hb) (Real.sqrt_nonneg _) zero_le_one
    _ = _ := by rw [one_mul, Real.sqrt_div zero_le_one, Real.sqrt_one]

/-- **C27.** For `0 ≤ b1`, `b1² < b2 < 1`, `eps, eps_root ≥ 0`: every entry of every `scale_by_adam` update is bounded by
the explicit constant `adamBound b1 b2 (n+1)`, itself bounded by
`1/sqrt((1-b2)(1-b1²/b2))` for all `n`, whatever the gradients; the first update is bounded by 1
and has the sign of the first gradient. -/
theorem C27_bounded (b1 b2 eps er : ℝ) (h1 : 0 ≤ b1) (h2 : b1 ^ 2 < b2) (h2' : b2 < 1)
    (he : 0 ≤ eps) (her : 0 ≤ er) (hN : N ≤ 2147483647) :
    ∃ U : ℕ → ℕ → ℕ → ℝ, (scaleByAdam b1 b2 eps er).outs (mk σ p0) (hist σ g pp N) =
        .ok ((List.range N).map (fun n => mk σ (U n))) ∧
      (∀ n k i, |U n k i| ≤ adamBound b1 b2 (n + 1)) ∧
      (∀ n k i, |U n k i| ≤ 1 / Real.sqrt ((1 - b2) * (1 - b1 ^ 2 / b2))) ∧
      (∀ k i, |U 0 k i| ≤ 1) ∧
      (∀ k i, 0 < g 0 k i → 0 < U 0 k i) ∧ (∀ k i, g 0 k i < 0 → U 0 k i < 0) := by
  have hb2 : 0 < b2 := lt_of_le_of_lt (sq_nonneg b1) h2
  have h1' : b1 < 1 := by nlinarith
  have hbd := fun n k i => adam_ratio_le h1 h1' hb2 h2' he her (fun j => g j k i) n
  have hone : ∀ b : ℝ, 0 ≤ b → b < 1 → ∀ x : ℕ → ℝ, debiased b x 1 = x 0 := by
    intro b hb hb' x
    rw [debiased_eq, geoSum_one, pow_one, mul_comm, mul_div_assoc, div_self (by linarith), mul_one]
  have hden : ∀ k i, g 0 k i ≠ 0 → 0 < Real.sqrt (g 0 k i ^ 2 + er) + eps := by
    intro k i h
    have : 0 < Real.sqrt (g 0 k i ^ 2 + er) := Real.sqrt_pos.mpr (by positivity)
    linarith
  refine ⟨_, by unfold GT.outs; rw [C26_adam _ _ _ _ _ _ _ _ _ hN]; rfl, hbd,
    fun n k i => le_trans (hbd n k i) (adamBound_le h1 h2 h2' n), ?_, ?_, ?_⟩
  · intro k i
    refine le_trans (hbd 0 k i) (le_of_eq ?_)
    unfold adamBound
    have hq1 : 1 - b1 ≠ 0 := by linarith
    have hq2 : 1 - b2 ≠ 0 := by linarith
    simp [div_self hq1, div_self hq2]
  · intro k i h
    simp only [zero_add, hone b1 h1 h1', hone b2 hb2.le h2']
    exact div_pos h (hden k i h.ne')
  · intro k i h
    simp only [zero_add, hone b1 h1 h1', hone b2 hb2.le h2']
    exact div_neg_of_neg_of_pos h (hden k i h.ne)

theorem adamStep_le (b1 b2 eps er : ℝ) (h1 : 0 ≤ b1) (h2 : b1 ^ 2 < b2) (h2' : b2 < 1) (he : 0 ≤ eps) (her : 0 ≤ er)
    (x : ℕ → ℝ) (n : ℕ) : |adamStep b1 b2 eps er x n| ≤ 1 / Real.sqrt ((1 - b2) * (1 - b1 ^ 2 / b2)) := by
  unfold adamStep
  have hmn : min (n + 1) 2147483647 ≠ 0 := by omega
  generalize min (n + 1) 2147483647 = m at hmn
  have hb2 : 0 < b2 := lt_of_le_of_lt (sq_nonneg b1) h2
  have h1' : b1 < 1 := by nlinarith
  have hw1 := one_sub_pow_pos h1 h1' hmn
  have hw2 := one_sub_pow_pos hb2.le h2' hmn
  have hr0 : 0 ≤ b1 ^ 2 / b2 := by positivity
  have hr1 : b1 ^ 2 / b2 < 1 := (div_lt_one hb2).mpr h2
  have hc := geoSum_cauchy (b1 := b1) hb2 x (n + 1)
  have hv0 : 0 ≤ geoSum b2 (fun j => x j ^ 2) (n + 1) := geoSum_nonneg hb2.le (fun j => sq_nonneg _) _
  have hgeo : ∑ i ∈ range (n + 1), (b1 ^ 2 / b2) ^ i ≤ 1 / (1 - b1 ^ 2 / b2) := by
    rw [geom_sum_eq hr1.ne, le_div_iff₀ (by linarith)]
    rw [show ((b1 ^ 2 / b2) ^ (n + 1) - 1) / (b1 ^ 2 / b2 - 1) * (1 - b1 ^ 2 / b2) = 1 - (b1 ^ 2 / b2) ^ (n + 1) by
      rw [div_mul_eq_mul_div, div_eq_iff (by linarith)]; ring]
    have := pow_nonneg hr0 (n + 1); linarith
  set V := geoSum b2 (fun j => x j ^ 2) (n + 1) with hV
  set m1 := geoSum b1 x (n + 1) with hm1
  have hm : |(1 - b1) * m1 / (1 - b1 ^ m)| ≤ |m1| := by
    have e : (1 - b1) / (1 - b1 ^ m) ≤ 1 := by
      rw [div_le_one hw1]
      have : b1 ^ m ≤ b1 ^ 1 := pow_le_pow_of_le_one h1 h1'.le (by omega)
      rw [pow_one] at this; linarith
    rw [mul_div_right_comm, abs_mul, abs_of_nonneg (div_nonneg (by linarith) hw1.le)]
    exact mul_le_of_le_one_left (abs_nonneg _) e
  have hs : Real.sqrt ((1 - b2) * V) ≤ Real.sqrt ((1 - b2) * V / (1 - b2 ^ m) + er) + eps := by
    have e : (1 - b2) * V ≤ (1 - b2) * V / (1 - b2 ^ m) + er := by
      have hpos : 0 ≤ (1 - b2) * V := mul_nonneg (by linarith) hv0
      have : (1 - b2) * V ≤ (1 - b2) * V / (1 - b2 ^ m) := by
        rw [le_div_iff₀ hw2]
        have := pow_nonneg hb2.le m
        nlinarith
      linarith
    have := Real.sqrt_le_sqrt e
    linarith
  have hd0 : 0 ≤ Real.sqrt ((1 - b2) * V / (1 - b2 ^ m) + er) + eps := by positivity
  have hq : 0 < (1 - b2) * (1 - b1 ^ 2 / b2) := mul_pos (by linarith) (by linarith)
  rw [abs_div, abs_of_nonneg hd0]
  refine div_le_of_le_mul₀ hd0 (by positivity) ?_
  have hkey : |m1| ≤ 1 / Real.sqrt ((1 - b2) * (1 - b1 ^ 2 / b2)) * Real.sqrt ((1 - b2) * V) := by
    rw [div_mul_eq_mul_div, one_mul, ← Real.sqrt_div' _ hq.le, show (1 - b2) * V / ((1 - b2) * (1 - b1 ^ 2 / b2)) = V / (1 - b1 ^ 2 / b2) from
      mul_div_mul_left _ _ (by linarith)]
    apply Real.abs_le_sqrt
    calc m1 ^ 2 ≤ _ := hc
      _ ≤ 1 / (1 - b1 ^ 2 / b2) * V := mul_le_mul_of_nonneg_right hgeo hv0
      _ = _ := by ring
  exact hm.trans (hkey.trans (mul_le_mul_of_nonneg_left hs (by positivity)))

/-- **C27 (any number of calls).** The bound `1/sqrt((1-b2)(1-b1²/b2))` without a limit on the number of calls: it also holds after
the step counter has saturated. -/
theorem C27_bounded_forever (b1 b2 eps er : ℝ) (h1 : 0 ≤ b1) (h2 : b1 ^ 2 < b2) (h2' : b2 < 1) (he : 0 ≤ eps) (her : 0 ≤ er) :
    ∃ U : ℕ → ℕ → ℕ → ℝ, (scaleByAdam b1 b2 eps er).outs (mk σ p0) (hist σ g pp N) =
        .ok ((List.range N).map (fun n => mk σ (U n))) ∧
      ∀ n k i, |U n k i| ≤ 1 / Real.sqrt ((1 - b2) * (1 - b1 ^ 2 / b2)) := by
  refine ⟨fun n k i => adamStep b1 b2 eps er (fun j => g j k i) n, ?_, fun n k i => adamStep_le b1 b2 eps er h1 h2 h2' he her _ n⟩
  unfold GT.outs
  rw [C26_saturated]; rfl

/-- **C27.** With `eps = eps_root = 0`, rescaling all gradients by `c > 0` changes no update. -/
theorem C27_scale_invariant (b1 b2 c : ℝ) (hc : 0 < c) :
    (scaleByAdam b1 b2 0 0).outs (mk σ p0) (hist σ (fun n k i => c * g n k i) pp N) =
      (scaleByAdam b1 b2 0 0).outs (mk σ p0) (hist σ g pp N) := by
  unfold GT.outs
  rw [C26_saturated, C26_saturated]
  simp only [Res.ok_bind, Res.pure_eq, Except.ok.injEq]
  apply List.map_congr_left
  intro n _
  apply mk_congr
  intro k _ _ i _
  simp only [adamStep, mul_pow, geoSum_smul, add_zero]
  rw [mul_left_comm, mul_div_assoc c, mul_left_comm (1 - b2), mul_div_assoc (c ^ 2), Real.sqrt_mul (sq_nonneg c),
    Real.sqrt_sq hc.le, mul_div_mul_left _ _ hc.ne']

example : (0:ℝ) ≤ 0.9 ∧ (0.9:ℝ) ^ 2 < 0.999 ∧ (0.999:ℝ) < 1 := by norm_num

/-! ## C28 -/

/-- **C28.** `scale_by_belief`: the state's first moment `M` is the moving average of the gradients, the second
moment `V` the moving average of the squared prediction errors `(g_j - M_j)²`, where `M_j` is the first moment *before*
seeing `g_j`; the output is `mhat/(sqrt(vhat+eps_root)+eps)`. -/
theorem C28_belief (b1 b2 eps er : ℝ) :
    ∃ U M V : ℕ → ℕ → ℕ → ℝ,
      (∀ N ≤ 2147483647, (scaleByBelief b1 b2 eps er).exec (mk σ p0) (hist σ g pp N) =
        .ok ((List.range N).map (fun n => mk σ (U n)), ⟨cntAt N, mk σ (M N), mk σ (V N)⟩)) ∧
      (∀ n k i, M n k i = (1 - b1) * geoSum b1 (fun j => g j k i) n) ∧
      (∀ n k i, V n k i = (1 - b2) * geoSum b2 (fun j => (g j k i - M j k i) ^ 2) n) ∧
      (∀ n k i, U n k i = M (n + 1) k i / (1 - b1 ^ (n + 1)) /
        (Real.sqrt (V (n + 1) k i / (1 - b2 ^ (n + 1)) + er) + eps)) := by
  refine ⟨_, fun n k i => (1 - b1) * geoSum b1 (fun j => g j k i) n,
    fun n k i => (1 - b2) * geoSum b2 (fun j => (g j k i - (1 - b1) * geoSum b1 (fun j => g j k i) j) ^ 2) n,
    fun N hN => exec_hist (scaleByBelief b1 b2 eps er) (mk σ p0) σ g pp N
    (fun n => ⟨cntAt n, mk σ (fun k i => (1 - b1) * geoSum b1 (fun j => g j k i) n),
      mk σ (fun k i => (1 - b2) * geoSum b2 (fun j => (g j k i - (1 - b1) * geoSum b1 (fun j => g j k i) j) ^ 2) n)⟩)
    (fun n => mk σ (fun k i => (1 - b1) * geoSum b1 (fun j => g j k i) (n + 1) / (1 - b1 ^ (n + 1)) /
        (Real.sqrt ((1 - b2) * geoSum b2 (fun j => (g j k i - (1 - b1) * geoSum b1 (fun j => g j k i) j) ^ 2) (n + 1)
          / (1 - b2 ^ (n + 1)) + er) + eps))) ?_ ?_,
    fun _ _ _ => rfl, fun _ _ _ => rfl, fun _ _ _ => rfl⟩
  · rw [belief_init_mk]; simp [cntAt_zero]
  · intro n hn
    rw [belief_update_mk]
    simp only [safeInt32Increment_cntAt, ipow_eq_pow, pow_one, jpow_real, jsqrt_real]
    rw [cnt_cntAt (n + 1) (by omega), Real.rpow_natCast, Real.rpow_natCast]
    simp only [geoSum_succ]
    have e : ∀ a b c : ℝ, (1 - a) * b + a * ((1 - a) * c) = (1 - a) * (b + a * c) := by
      intros; ring
    simp only [e]

/-- **C28 (any number of calls).** The same without a bound on the number of calls: the moments are exact, the bias
correction uses the saturated counter. -/
theorem C28_saturated (b1 b2 eps er : ℝ) :
    ∃ U M V : ℕ → ℕ → ℕ → ℝ,
      (∀ N, (scaleByBelief b1 b2 eps er).exec (mk σ p0) (hist σ g pp N) =
        .ok ((List.range N).map (fun n => mk σ (U n)), ⟨cntAt N, mk σ (M N), mk σ (V N)⟩)) ∧
      (∀ n k i, M n k i = (1 - b1) * geoSum b1 (fun j => g j k i) n) ∧
      (∀ n k i, V n k i = (1 - b2) * geoSum b2 (fun j => (g j k i - M j k i) ^ 2) n) ∧
      (∀ n k i, U n k i = M (n + 1) k i / (1 - b1 ^ min (n + 1) 2147483647) /
        (Real.sqrt (V (n + 1) k i / (1 - b2 ^ min (n + 1) 2147483647) + er) + eps)) := by
  refine ⟨_, fun n k i => (1 - b1) * geoSum b1 (fun j => g j k i) n,
    fun n k i => (1 - b2) * geoSum b2 (fun j => (g j k i - (1 - b1) * geoSum b1 (fun j => g j k i) j) ^ 2) n,
    fun N => exec_hist (scaleByBelief b1 b2 eps er) (mk σ p0) σ g pp N
    (fun n => ⟨cntAt n, mk σ (fun k i => (1 - b1) * geoSum b1 (fun j => g j k i) n),
      mk σ (fun k i => (1 - b2) * geoSum b2 (fun j => (g j k i - (1 - b1) * geoSum b1 (fun j => g j k i) j) ^ 2) n)⟩)
    (fun n => mk σ (fun k i => (1 - b1) * geoSum b1 (fun j => g j k i) (n + 1) / (1 - b1 ^ min (n + 1) 2147483647) /
        (Real.sqrt ((1 - b2) * geoSum b2 (fun j => (g j k i - (1 - b1) * geoSum b1 (fun j => g j k i) j) ^ 2) (n + 1)
          / (1 - b2 ^ min (n + 1) 2147483647) + er) + eps))) ?_ ?_,
    fun _ _ _ => rfl, fun _ _ _ => rfl, fun _ _ _ => rfl⟩
  · rw [belief_init_mk]; simp [cntAt_zero]
  · intro n hn
    rw [belief_update_mk]
    simp only [safeInt32Increment_cntAt, ipow_eq_pow, pow_one, jpow_real, jsqrt_real]
    rw [cnt_cntAt', Real.rpow_natCast, Real.rpow_natCast]
    simp only [geoSum_succ]
    have e : ∀ a b c : ℝ, (1 - a) * b + a * ((1 - a) * c) = (1 - a) * (b + a * c) := by
      intros; ring
    simp only [e]

/-- **C28.** For `0 ≤ b2 < 1` the de-biased second moment is non-negative, so the root's argument is at least
`eps_root`; and while all gradients are 0 both moments stay 0. -/
theorem C28_nonneg (b1 b2 eps er : ℝ) (h2 : 0 ≤ b2) (h2' : b2 < 1) :
    ∃ U M V : ℕ → ℕ → ℕ → ℝ,
      (∀ N ≤ 2147483647, (scaleByBelief b1 b2 eps er).exec (mk σ p0) (hist σ g pp N) =
        .ok ((List.range N).map (fun n => mk σ (U n)), ⟨cntAt N, mk σ (M N), mk σ (V N)⟩)) ∧
      (∀ n k i, 0 ≤ V n k i) ∧ (∀ n k i, er ≤ V (n + 1) k i / (1 - b2 ^ (n + 1)) + er) ∧
      (∀ n k i, (∀ j < n, g j k i = 0) → M n k i = 0 ∧ V n k i = 0) := by
  obtain ⟨U, M, V, h1, hM, hV, -⟩ := C28_belief σ p0 g pp b1 b2 eps er
  have hV0 : ∀ n k i, 0 ≤ V n k i := fun n k i => by
    rw [hV]
    exact mul_nonneg (by linarith) (geoSum_nonneg h2 (fun j => sq_nonneg _) n)
  refine ⟨U, M, V, h1, hV0, ?_, ?_⟩
  · intro n k i
    have := div_nonneg (hV0 (n + 1) k i) (one_sub_pow_pos h2 h2' (show n + 1 ≠ 0 by omega)).le
    linarith
  · intro n k i h
    have hm : ∀ m ≤ n, M m k i = 0 := by
      intro m hm
      rw [hM]
      have : geoSum b1 (fun j => g j k i) m = 0 := by
        unfold geoSum
        apply Finset.sum_eq_zero
        intro j hj
        have hj' := Finset.mem_range.mp hj
        simp only []
        rw [h j (by omega), mul_zero]
      rw [this, mul_zero]
    refine ⟨hm n le_rfl, ?_⟩
    rw [hV]
    have : geoSum b2 (fun j => (g j k i - M j k i) ^ 2) n = 0 := by
      unfold geoSum
      apply Finset.sum_eq_zero
      intro j hj
      have hj' := Finset.mem_range.mp hj
      simp only []
      rw [h j hj', hm j (by omega)]; simp
    rw [this, mul_zero]

/-! ## C29 -/

/-- The property C29: one step changes the second moment by at most `(1-b2) g²`, in the direction
of `sign(g² - v)`. -/
def C29Statement : Prop :=
  ∀ (b1 b2 eps er a : ℝ) (σ : Spec) (x m v : ℕ → ℕ → ℝ) (c : BitVec 32), 0 ≤ b2 → b2 < 1 →
    ∃ u m' v' c', (scaleByYogi b1 b2 eps er a).update (mk σ x) ⟨c, mk σ m, mk σ v⟩ none =
        .ok (mk σ u, ⟨c', mk σ m', mk σ v'⟩) ∧
      (∀ k s i, σ.leaves[k]? = some s → i < s.prod →
        |v' k i - v k i| ≤ (1 - b2) * x k i ^ 2 ∧
        (v k i < x k i ^ 2 → v k i ≤ v' k i) ∧ (x k i ^ 2 < v k i → v' k i ≤ v k i))

/-- Finding: `scale_by_yogi` does not satisfy it; the signed square is squared again and decayed with `b2`
(`transform.py:416-418`).  With `g = 3`, `v = 0`, `b2 = 0`, the second moment jumps to `81 > 9`. -/
theorem C29_false : ¬ C29Statement := by
  intro h
  obtain ⟨u, m', v', c', h1, h2⟩ := h 0 0 0 0 0 (.leaf [1]) (fun _ _ => 3) (fun _ _ => 0)
    (fun _ _ => 0) 0#32 le_rfl one_pos
  rw [yogi_update_mk] at h1
  simp only [Except.ok.injEq, Prod.mk.injEq, AdamState.mk.injEq] at h1
  have h3 := mk_inj h1.2.2.2 0 [1] (by simp [PyTree.leaves]) 0 (by simp)
  have h4 := (h2 0 [1] 0 (by simp [PyTree.leaves]) (by simp)).1
  rw [← h3] at h4
  simp only [jsign_real, ipow_eq_pow] at h4
  norm_num at h4

/-- **C29**, what the code does instead: the new second moment is `b2 v + (1-b2) g⁴` where `g² ≠ v` and `b2 v`
where `g² = v`.  Missing from C29: the additive, sign-controlled update (false, `C29_false`). -/
theorem C29_yogi_step_partial (b1 b2 eps er a : ℝ) (x m v : ℕ → ℕ → ℝ) (c : BitVec 32)
    (ppx : Option (Params ℝ)) :
    ∃ u m' v', (scaleByYogi b1 b2 eps er a).update (mk σ x) ⟨c, mk σ m, mk σ v⟩ ppx =
        .ok (mk σ u, ⟨safeInt32Increment c, mk σ m', mk σ v'⟩) ∧
      (∀ k i, m' k i = (1 - b1) * x k i + b1 * m k i) ∧
      (∀ k i, v k i ≠ x k i ^ 2 → v' k i = b2 * v k i + (1 - b2) * x k i ^ 4) ∧
      (∀ k i, v k i = x k i ^ 2 → v' k i = b2 * v k i) := by
  refine ⟨_, _, _, yogi_update_mk σ x m v ppx b1 b2 eps er a c, ?_, ?_, ?_⟩
  · intro k i; simp
  · intro k i h
    have h' : v k i - x k i ^ 2 ≠ 0 := sub_ne_zero.mpr h
    simp only [jsign_real, ipow_eq_pow]
    rcases lt_or_gt_of_ne h' with h1 | h1
    · rw [if_pos h1]; ring
    · rw [if_neg (not_lt.mpr h1.le), if_pos h1]; ring
  · intro k i h
    simp [jsign_real, ipow_eq_pow, h]

/-- **C29** (partial): the second moment nevertheless stays non-negative along every history when the initial
accumulator is, so with `eps_root ≥ 0` the root is well defined. -/
theorem C29_yogi_nonneg_partial (b1 b2 eps er a : ℝ) (h2 : 0 ≤ b2) (h2' : b2 ≤ 1) (ha : 0 ≤ a) :
    ∃ U M V : ℕ → ℕ → ℕ → ℝ,
      (∀ N ≤ 2147483647, (scaleByYogi b1 b2 eps er a).exec (mk σ p0) (hist σ g pp N) =
        .ok ((List.range N).map (fun n => mk σ (U n)), ⟨cntAt N, mk σ (M N), mk σ (V N)⟩)) ∧
      (∀ n k i, 0 ≤ V n k i) ∧
      (∀ n k i, M n k i = b1 ^ n * a + (1 - b1) * geoSum b1 (fun j => g j k i) n) ∧
      (∀ n k i, U n k i = M (n + 1) k i / (1 - b1 ^ (n + 1)) /
        (Real.sqrt (V (n + 1) k i / (1 - b2 ^ (n + 1)) + er) + eps)) := by
  let V : ℕ → ℕ → ℕ → ℝ := fun n => Nat.rec (fun _ _ => a) (fun n v k i =>
    (1 - b2) * ipow (JOps.sign (v k i - ipow (g n k i) 2) * ipow (g n k i) 2) 2 + b2 * v k i) n
  let M : ℕ → ℕ → ℕ → ℝ := fun n k i => b1 ^ n * a + (1 - b1) * geoSum b1 (fun j => g j k i) n
  refine ⟨fun n k i => M (n + 1) k i / (1 - b1 ^ (n + 1)) /
        (Real.sqrt (V (n + 1) k i / (1 - b2 ^ (n + 1)) + er) + eps), M, V,
    fun N hN => exec_hist (scaleByYogi b1 b2 eps er a) (mk σ p0) σ g pp N
      (fun n => ⟨cntAt n, mk σ (M n), mk σ (V n)⟩) _ ?_ ?_, ?_, fun _ _ _ => rfl, fun _ _ _ => rfl⟩
  · rw [yogi_init_mk]
    simp [cntAt_zero, V, M]
  · intro n hn
    have eM : ∀ k i, (1 - b1) * g n k i + b1 * M n k i = M (n + 1) k i := by
      intro k i; simp only [M]; rw [geoSum_succ]; ring
    have eV : ∀ k i, (1 - b2) * ipow (JOps.sign (V n k i - ipow (g n k i) 2) * ipow (g n k i) 2) 2 +
      b2 * V n k i = V (n + 1) k i := fun k i => rfl
    rw [yogi_update_mk, safeInt32Increment_cntAt]
    simp only [eV]
    simp only [ipow_eq_pow, pow_one, eM, jpow_real, jsqrt_real]
    rw [cnt_cntAt (n + 1) (by omega), Real.rpow_natCast, Real.rpow_natCast]
  · intro n k i
    induction n with
    | zero => exact ha
    | succ n ih =>
      show 0 ≤ (1 - b2) * ipow (JOps.sign (V n k i - ipow (g n k i) 2) * ipow (g n k i) 2) 2 + b2 * V n k i
      rw [ipow_eq_pow]
      have : 0 ≤ 1 - b2 := by linarith
      have := sq_nonneg (JOps.sign (V n k i - ipow (g n k i) 2) * ipow (g n k i) 2)
      positivity

/-! ## C30 -/

theorem radamRo_eq (b2 : ℝ) (t : ℕ) (ht : t < 2 ^ 30) :
    radamRo b2 (cntAt t) = radamRoInf b2 - 2 * t * b2 ^ t / (1 - b2 ^ t) := by
  unfold radamRo
  have h1 : (cnt (2#32 * cntAt t) : ℝ) = 2 * t := by
    simp only [cnt, jofInt_real]
    have : (2#32 * cntAt t).toInt = 2 * (t : ℤ) := by
      rw [BitVec.toInt_mul, cntAt_toInt]
      have h2 : (2#32).toInt = 2 := by decide
      rw [h2, min_eq_left (by omega), Int.bmod_def]
      split <;> omega
    rw [this]; push_cast; ring
  have h2 : (cnt (cntAt t) : ℝ) = t := cnt_cntAt t (by omega)
  simp only [jpow_real, h1, h2, Real.rpow_natCast]

/-- **C30.** For `0 < b2 < 1` and every step `1 ≤ t < 2^30`: `ro_t < ro_inf`. -/
theorem C30_ro_lt (b2 : ℝ) (h0 : 0 < b2) (h1 : b2 < 1) (t : ℕ) (ht : 1 ≤ t) (ht' : t < 2 ^ 30) :
    radamRo b2 (cntAt t) < 2 / (1 - b2) - 1 := by
  rw [radamRo_eq b2 t ht']
  have hp := one_sub_pow_pos h0.le h1 (show t ≠ 0 by omega)
  have ht0 : (0 : ℝ) < t := by exact_mod_cast ht
  have : 0 < 2 * t * b2 ^ t / (1 - b2 ^ t) := by positivity
  have e : radamRoInf b2 = 2 / (1 - b2) - 1 := by simp [radamRoInf]
  rw [e]; linarith

/-- Finding: at step 2^30 the int32 product `2 * count` wraps, and (in exact arithmetic) `ro_t > ro_inf`. (In floating
point `b2^t` underflows to 0 there, so the wrap is harmless in practice.) -/
theorem C30_ro_wraps (b2 : ℝ) (h0 : 0 < b2) (h1 : b2 < 1) :
    2 / (1 - b2) - 1 < radamRo b2 (cntAt (2 ^ 30)) := by
  unfold radamRo
  have h3 : (cnt (2#32 * cntAt (2 ^ 30)) : ℝ) = -2147483648 := by
    simp only [cnt, jofInt_real]
    have : (2#32 * cntAt (2 ^ 30)).toInt = -2147483648 := by decide
    rw [this]; norm_num
  have h2 : (cnt (cntAt (2 ^ 30)) : ℝ) = ((2 ^ 30 : ℕ) : ℝ) := cnt_cntAt _ (by norm_num)
  simp only [jpow_real, h3, h2, Real.rpow_natCast]
  have hp := one_sub_pow_pos h0.le h1 (n := 2 ^ 30) (by norm_num)
  have hq : 0 < b2 ^ (2 ^ 30) := pow_pos h0 _
  have e : radamRoInf b2 = 2 / (1 - b2) - 1 := by simp [radamRoInf]
  rw [e]
  generalize b2 ^ (2 ^ 30) = y at *
  have : 0 < 2147483648 * y / (1 - y) := by positivity
  have e2 : -2147483648 * y / (1 - y) = - (2147483648 * y / (1 - y)) := by ring
  rw [e2]; linarith

/-- **C30.** Whenever `4 ≤ ro < ro_inf` the radicand is non-negative and the rectification
factor is in `[0, 1]`. -/
theorem C30_r_unit (b2 ro : ℝ) (h4 : 4 ≤ ro) (hlt : ro < 2 / (1 - b2) - 1) :
    0 ≤ (ro - 4) * (ro - 2) * (2 / (1 - b2) - 1) /
      ((2 / (1 - b2) - 1 - 4) * (2 / (1 - b2) - 1 - 2) * ro) ∧
    0 ≤ radamR b2 ro ∧ radamR b2 ro ≤ 1 ∧
    radamR b2 ro = Real.sqrt ((ro - 4) * (ro - 2) * (2 / (1 - b2) - 1) /
      ((2 / (1 - b2) - 1 - 4) * (2 / (1 - b2) - 1 - 2) * ro)) := by
  have e : radamR b2 ro = Real.sqrt ((ro - 4) * (ro - 2) * (2 / (1 - b2) - 1) /
      ((2 / (1 - b2) - 1 - 4) * (2 / (1 - b2) - 1 - 2) * ro)) := by
    simp [radamR, radamRoInf]
  rw [e]
  generalize 2 / (1 - b2) - 1 = R at *
  have h1 : 0 ≤ ro - 4 := by linarith
  have h2 : 0 < ro - 2 := by linarith
  have h3 : 0 < R - 4 := by linarith
  have h5 : 0 < R - 2 := by linarith
  have h6 : 0 < R := by linarith
  have h7 : 0 < ro := by linarith
  refine ⟨by positivity, Real.sqrt_nonneg _, ?_, rfl⟩
  rw [Real.sqrt_le_one, div_le_one (by positivity)]
  have : 0 ≤ (R - ro) * (ro * R - 8) := mul_nonneg (by linarith) (by nlinarith)
  nlinarith

/-- **C30.** `scale_by_radam` over every history of fewer than 2^30 calls, `0 < b2 < 1`, `threshold ≥ 4`: with
`ro_t` the approximated SMA length, at each step either `ro_t ≥ threshold` and the output is
`r * mhat / (sqrt(vhat+eps_root)+eps)` with `0 ≤ r ≤ 1`, or the bias-corrected momentum is returned; and when
`ro_inf < threshold` (indeed `≤`) it is always the latter. -/
theorem C30_radam_partial (b1 b2 eps er th : ℝ) (h0 : 0 < b2) (h1 : b2 < 1) (hth : 4 ≤ th)
    (hN : N < 2 ^ 30) :
    ∃ (U : ℕ → ℕ → ℕ → ℝ) (ro r : ℕ → ℝ),
      (scaleByRadam b1 b2 eps er th).outs (mk σ p0) (hist σ g pp N) =
        .ok ((List.range N).map (fun n => mk σ (U n))) ∧
      (∀ n < N, ro n = 2 / (1 - b2) - 1 - 2 * (n + 1) * b2 ^ (n + 1) / (1 - b2 ^ (n + 1))) ∧
      (∀ n < N, ro n < 2 / (1 - b2) - 1) ∧
      (∀ n < N, th ≤ ro n → 0 ≤ r n ∧ r n ≤ 1 ∧
        r n = Real.sqrt ((ro n - 4) * (ro n - 2) * (2 / (1 - b2) - 1) /
          ((2 / (1 - b2) - 1 - 4) * (2 / (1 - b2) - 1 - 2) * ro n)) ∧
        ∀ k i, U n k i = r n * debiased b1 (fun j => g j k i) (n + 1) /
          (Real.sqrt (debiased b2 (fun j => g j k i ^ 2) (n + 1) + er) + eps)) ∧
      (∀ n < N, ro n < th → ∀ k i, U n k i = debiased b1 (fun j => g j k i) (n + 1)) ∧
      (2 / (1 - b2) - 1 ≤ th → ∀ n < N, ∀ k i, U n k i = debiased b1 (fun j => g j k i) (n + 1)) := by
  have hro : ∀ n < N, radamRo b2 (cntAt (n + 1)) < 2 / (1 - b2) - 1 := fun n hn =>
    C30_ro_lt b2 h0 h1 (n + 1) (by omega) (by omega)
  refine ⟨fun n k i => if th ≤ radamRo b2 (cntAt (n + 1)) then
      radamR b2 (radamRo b2 (cntAt (n + 1))) * debiased b1 (fun j => g j k i) (n + 1) /
          (Real.sqrt (debiased b2 (fun j => g j k i ^ 2) (n + 1) + er) + eps)
      else debiased b1 (fun j => g j k i) (n + 1),
    fun n => radamRo b2 (cntAt (n + 1)), fun n => radamR b2 (radamRo b2 (cntAt (n + 1))),
    ?_, ?_, hro, ?_, ?_, ?_⟩
  · refine outs_hist (scaleByRadam b1 b2 eps er th) (mk σ p0) σ g pp N
      (fun n => ⟨cntAt n, mk σ (fun k i => (1 - b1) * geoSum b1 (fun j => g j k i) n),
        mk σ (fun k i => (1 - b2) * geoSum b2 (fun j => g j k i ^ 2) n)⟩) _ ?_ ?_
    · rw [radam_init_mk]; simp [cntAt_zero]
    · intro n hn
      rw [radam_update_mk]
      simp only [safeInt32Increment_cntAt, ipow_eq_pow, pow_one, jpow_real, jsqrt_real, jle_real]
      rw [cnt_cntAt (n + 1) (by omega), Real.rpow_natCast, Real.rpow_natCast]
      have e1 : ∀ k i, (1 - b1) * g n k i + b1 * ((1 - b1) * geoSum b1 (fun j => g j k i) n) =
          (1 - b1) * geoSum b1 (fun j => g j k i) (n + 1) := by
        intro k i; rw [geoSum_succ]; ring
      have e2 : ∀ k i, (1 - b2) * g n k i ^ 2 + b2 * ((1 - b2) * geoSum b2 (fun j => g j k i ^ 2) n) =
          (1 - b2) * geoSum b2 (fun j => g j k i ^ 2) (n + 1) := by
        intro k i; rw [geoSum_succ]; ring
      simp only [e1, e2, debiased_eq]
  · intro n hn
    simp only []
    rw [radamRo_eq b2 (n + 1) (by omega)]
    simp [radamRoInf]
  · intro n hn h
    obtain ⟨-, h2, h3, h4⟩ := C30_r_unit b2 (radamRo b2 (cntAt (n + 1))) (le_trans hth h) (hro n hn)
    refine ⟨h2, h3, h4, ?_⟩
    intro k i
    simp only [h, if_true]
  · intro n hn h k i
    simp only [not_le.mpr h, if_false]
  · intro h n hn k i
    have h2 := hro n hn
    have : ¬ th ≤ radamRo b2 (cntAt (n + 1)) := by linarith
    simp only [this, if_false]

/-- The rectified branch is really taken: `b2 = 0.99`, threshold 5, step 100 (`ro ≈ 83`). -/
example : (5 : ℝ) ≤ radamRo 0.99 (cntAt 100) := by
  rw [radamRo_eq _ _ (by norm_num)]
  simp only [radamRoInf, jofInt_real]
  norm_num

end Optax
