import Verif.Props.NonConvex
import Verif.Props.Adam
import Verif.Props.Momentum
import Mathlib.Analysis.SpecialFunctions.Trigonometric.Bounds

/-!
# C111: full-batch adam on smooth non-convex losses

Training with `adam` and the exact gradient of a smooth loss that is bounded below, with bounded gradient entries. In contrast
to C102 (adam on a cyclic sequence of different losses may diverge), the mean squared gradient norm is at most a constant over
the number of steps plus a floor proportional to the learning rate.
-/

set_option linter.unusedSectionVars false
set_option linter.unusedSimpArgs false

namespace Optax
open Finset

/-- the gradients are `L`-Lipschitz -/
def LipschitzGrad (σ : Spec) (L : ℝ) (g : (ℕ → ℕ → ℝ) → ℕ → ℕ → ℝ) : Prop :=
  ∀ p q : ℕ → ℕ → ℝ, treeDist σ (g p) (g q) ≤ L * treeDist σ p q

/-- 1 as long as the step counter of adam has not saturated; afterwards the factor by which the bias correction is off at most -/
noncomputable def saturation (b1 b2 : ℝ) (N : ℕ) : ℝ :=
  if N ≤ 2147483647 then 1 else 1 / ((1 - b1 ^ 2147483647) * (1 - b2 ^ 2147483647))

/-! ## One coordinate -/

/-- how far the (not de-biased) first moment lags behind the current gradient -/
noncomputable def momentLag (b : ℝ) (x : ℕ → ℝ) (n : ℕ) : ℝ := (1 - b) * geoSum b x (n + 1) - (1 - b ^ (n + 1)) * x n

theorem momentLag_zero (b : ℝ) (x : ℕ → ℝ) : momentLag b x 0 = 0 := by
  simp [momentLag, geoSum_one]

theorem momentLag_succ (b : ℝ) (x : ℕ → ℝ) (n : ℕ) :
    momentLag b x (n + 1) = b * momentLag b x n + b * (1 - b ^ (n + 1)) * (x n - x (n + 1)) := by
  unfold momentLag
  rw [geoSum_succ b x (n + 1)]
  ring

theorem momentLag_le {ι : Type} (s : Finset ι) {b δ : ℝ} (h0 : 0 ≤ b) (h1 : b < 1) (hδ : 0 ≤ δ) (g : ℕ → ι → ℝ) (n : ℕ)
    (hg : ∀ j < n, l2 s (fun i => g j i - g (j + 1) i) ≤ δ) :
    l2 s (fun i => momentLag b (fun j => g j i) n) ≤ δ * (b / (1 - b)) * (1 - b ^ (n + 1)) := by
  have hq : 0 < 1 - b := by linarith
  induction n with
  | zero =>
    have : l2 s (fun i => momentLag b (fun j => g j i) 0) = 0 := (l2_eq_zero _ _).mpr fun i _ => momentLag_zero _ _
    rw [this]
    have := one_sub_pow_pos h0 h1 (show 0 + 1 ≠ 0 by omega)
    positivity
  | succ n ih =>
    have hp := one_sub_pow_pos h0 h1 (show n + 1 ≠ 0 by omega)
    have ih := ih fun j hj => hg j (by omega)
    have e : l2 s (fun i => momentLag b (fun j => g j i) (n + 1)) ≤
        b * l2 s (fun i => momentLag b (fun j => g j i) n) + b * (1 - b ^ (n + 1)) * l2 s (fun i => g n i - g (n + 1) i) := by
      simp only [momentLag_succ]
      refine (l2_add_le _ _ _).trans (le_of_eq ?_)
      rw [l2_smul, l2_smul, abs_of_nonneg h0, abs_of_nonneg (by positivity)]
    have h3 := mul_le_mul_of_nonneg_left (hg n (by omega)) (show 0 ≤ b * (1 - b ^ (n + 1)) by positivity)
    have h4 := mul_le_mul_of_nonneg_left ih h0
    have h5 : b * (δ * (b / (1 - b)) * (1 - b ^ (n + 1))) + b * (1 - b ^ (n + 1)) * δ = δ * (b / (1 - b)) * (1 - b ^ (n + 1)) := by
      field_simp; ring
    have h6 : δ * (b / (1 - b)) * (1 - b ^ (n + 1)) ≤ δ * (b / (1 - b)) * (1 - b ^ (n + 1 + 1)) := by
      refine mul_le_mul_of_nonneg_left ?_ (by positivity)
      have := pow_le_pow_of_le_one h0 h1.le (show n + 1 ≤ n + 1 + 1 by omega)
      linarith
    linarith

section
variable {b1 b2 eps er κ : ℝ}

theorem sat_ge {b : ℝ} (h0 : 0 ≤ b) (h1 : b < 1) {m n : ℕ} (hm : m ≠ 0) (hmn : m ≤ n) : 1 ≤ (1 - b ^ n) / (1 - b ^ m) := by
  rw [one_le_div (one_sub_pow_pos h0 h1 hm)]
  have := pow_le_pow_of_le_one h0 h1.le hmn
  linarith

/-- the denominator of adam is at least `√(1-b2) |g|` -/
theorem adam_den_ge (h0 : 0 ≤ b2) (h1 : b2 < 1) (he : 0 ≤ eps) (her : 0 ≤ er) (x : ℕ → ℝ) (n m : ℕ) (hm : m ≠ 0) :
    √(1 - b2) * |x n| ≤ √((1 - b2) * geoSum b2 (fun j => x j ^ 2) (n + 1) / (1 - b2 ^ m) + er) + eps := by
  have hw := one_sub_pow_pos h0 h1 hm
  have hq : 0 < 1 - b2 := by linarith
  have h2 : x n ^ 2 ≤ geoSum b2 (fun j => x j ^ 2) (n + 1) := by
    rw [geoSum_succ]
    have := mul_nonneg h0 (geoSum_nonneg h0 (fun j => sq_nonneg (x j)) n)
    linarith
  have h3 : (1 - b2) * x n ^ 2 ≤ (1 - b2) * geoSum b2 (fun j => x j ^ 2) (n + 1) / (1 - b2 ^ m) + er := by
    have h4 : (1 - b2) * x n ^ 2 ≤ (1 - b2) * geoSum b2 (fun j => x j ^ 2) (n + 1) := mul_le_mul_of_nonneg_left h2 hq.le
    have h5 : (1 - b2) * geoSum b2 (fun j => x j ^ 2) (n + 1) ≤ (1 - b2) * geoSum b2 (fun j => x j ^ 2) (n + 1) / (1 - b2 ^ m) := by
      rw [le_div_iff₀ hw]
      have : 0 ≤ (1 - b2) * geoSum b2 (fun j => x j ^ 2) (n + 1) := le_trans (by positivity) h4
      have hb := pow_nonneg h0 m
      nlinarith
    linarith
  have h4 := Real.sqrt_le_sqrt h3
  rw [Real.sqrt_mul hq.le, Real.sqrt_sq_eq_abs] at h4
  linarith

/-- the denominator of adam is at most `√(κ R² + eps_root) + eps` -/
theorem adam_den_le (h0 : 0 ≤ b2) (h1 : b2 < 1) {R : ℝ} (x : ℕ → ℝ) (hx : ∀ j, |x j| ≤ R) (n m : ℕ) (hm : m ≠ 0)
    (hκ : (1 - b2 ^ (n + 1)) / (1 - b2 ^ m) ≤ κ) :
    √((1 - b2) * geoSum b2 (fun j => x j ^ 2) (n + 1) / (1 - b2 ^ m) + er) + eps ≤ √(κ * R ^ 2 + er) + eps := by
  have hw := one_sub_pow_pos h0 h1 hm
  have hq : 0 < 1 - b2 := by linarith
  have h2 : (1 - b2) * geoSum b2 (fun j => x j ^ 2) (n + 1) ≤ (1 - b2 ^ (n + 1)) * R ^ 2 := by
    have hd := debiased_abs_le h0 h1 (fun j => x j ^ 2) n (R ^ 2) (fun j _ => by
      rw [abs_of_nonneg (sq_nonneg _)]
      exact sq_le_sq' (abs_le.mp (hx j)).1 (abs_le.mp (hx j)).2)
    have hp := one_sub_pow_pos h0 h1 (show n + 1 ≠ 0 by omega)
    have h3 := (le_abs_self _).trans hd
    rw [debiased_eq, div_le_iff₀ hp] at h3
    linarith
  have h3 : (1 - b2) * geoSum b2 (fun j => x j ^ 2) (n + 1) / (1 - b2 ^ m) ≤ κ * R ^ 2 := by
    calc _ ≤ (1 - b2 ^ (n + 1)) * R ^ 2 / (1 - b2 ^ m) := div_le_div_of_nonneg_right h2 hw.le
      _ = (1 - b2 ^ (n + 1)) / (1 - b2 ^ m) * R ^ 2 := by ring
      _ ≤ _ := mul_le_mul_of_nonneg_right hκ (sq_nonneg R)
  have := Real.sqrt_le_sqrt (add_le_add_left h3 er)
  linarith

theorem adamStep_abs_le (h1 : 0 ≤ b1) (h2 : b1 ^ 2 < b2) (h2' : b2 < 1) (he : 0 ≤ eps) (her : 0 ≤ er) (x : ℕ → ℝ) (n m : ℕ)
    (hm : m ≠ 0) (hmn : m ≤ n + 1) (hκ : (1 - b1 ^ (n + 1)) / (1 - b1 ^ m) ≤ κ) :
    |((1 - b1) * geoSum b1 x (n + 1) / (1 - b1 ^ m)) /
      (√((1 - b2) * geoSum b2 (fun j => x j ^ 2) (n + 1) / (1 - b2 ^ m) + er) + eps)| ≤ κ * (1 / √((1 - b2) * (1 - b1 ^ 2 / b2))) := by
  have hb2 : 0 < b2 := lt_of_le_of_lt (sq_nonneg b1) h2
  have h1' : b1 < 1 := by nlinarith
  have hw1 := one_sub_pow_pos h1 h1' hm
  have hw2 := one_sub_pow_pos hb2.le h2' hm
  have hp1 := one_sub_pow_pos h1 h1' (show n + 1 ≠ 0 by omega)
  have hp2 := one_sub_pow_pos hb2.le h2' (show n + 1 ≠ 0 by omega)
  have hB := adamBound_nonneg h1 h1' hb2 n
  have hd := debiased_abs_le_sqrt h1 h1' hb2 h2' x n
  have hv0 : 0 ≤ debiased b2 (fun j => x j ^ 2) (n + 1) := debiased_nonneg hb2.le h2' _ n (fun j => sq_nonneg _)
  have e1 : (1 - b1) * geoSum b1 x (n + 1) / (1 - b1 ^ m) = (1 - b1 ^ (n + 1)) / (1 - b1 ^ m) * debiased b1 x (n + 1) := by
    rw [debiased_eq]; field_simp
  have e2 : (1 - b2) * geoSum b2 (fun j => x j ^ 2) (n + 1) / (1 - b2 ^ m) =
      (1 - b2 ^ (n + 1)) / (1 - b2 ^ m) * debiased b2 (fun j => x j ^ 2) (n + 1) := by
    rw [debiased_eq]; field_simp
  rw [e1, e2]
  have hc1 := sat_ge h1 h1' hm hmn
  have hc2 := sat_ge hb2.le h2' hm hmn
  set c1 := (1 - b1 ^ (n + 1)) / (1 - b1 ^ m)
  set c2 := (1 - b2 ^ (n + 1)) / (1 - b2 ^ m)
  set v := debiased b2 (fun j => x j ^ 2) (n + 1)
  have hs : √v ≤ √(c2 * v + er) + eps := by
    have := Real.sqrt_le_sqrt (show v ≤ c2 * v + er by nlinarith)
    linarith
  have hd0 : 0 ≤ √(c2 * v + er) + eps := by positivity
  rw [abs_div, abs_of_nonneg hd0, abs_mul, abs_of_nonneg (by linarith : 0 ≤ c1)]
  have hκ0 : 0 ≤ κ := by linarith
  refine div_le_of_le_mul₀ hd0 (by positivity) ?_
  have h5 := adamBound_le h1 h2 h2' n
  calc c1 * |debiased b1 x (n + 1)| ≤ κ * (adamBound b1 b2 (n + 1) * √v) := mul_le_mul hκ hd (abs_nonneg _) hκ0
    _ ≤ κ * (1 / √((1 - b2) * (1 - b1 ^ 2 / b2)) * (√(c2 * v + er) + eps)) := by
        refine mul_le_mul_of_nonneg_left (mul_le_mul h5 hs (Real.sqrt_nonneg _) (by positivity)) hκ0
    _ = _ := by ring

/-- the step points along the gradient, up to the lag of the first moment -/
theorem adamStep_inner (h1 : 0 ≤ b1) (h1' : b1 < 1) (h2 : 0 ≤ b2) (h2' : b2 < 1) (he : 0 ≤ eps) (her : 0 ≤ er) (x : ℕ → ℝ) (n m : ℕ)
    (hm : m ≠ 0) (hmn : m ≤ n + 1) {D : ℝ} (hD : √((1 - b2) * geoSum b2 (fun j => x j ^ 2) (n + 1) / (1 - b2 ^ m) + er) + eps ≤ D) :
    x n ^ 2 ≤ D * (x n * (((1 - b1) * geoSum b1 x (n + 1) / (1 - b1 ^ m)) /
      (√((1 - b2) * geoSum b2 (fun j => x j ^ 2) (n + 1) / (1 - b2 ^ m) + er) + eps)) +
      1 / √(1 - b2) * (|momentLag b1 x n| / (1 - b1 ^ m))) := by
  have hw1 := one_sub_pow_pos h1 h1' hm
  have hq : 0 < 1 - b2 := by linarith
  have hsq : 0 < √(1 - b2) := Real.sqrt_pos.mpr hq
  have hge := adam_den_ge h2 h2' he her x n m hm
  have hc1 := sat_ge h1 h1' hm hmn
  have e1 : (1 - b1) * geoSum b1 x (n + 1) / (1 - b1 ^ m) =
      (1 - b1 ^ (n + 1)) / (1 - b1 ^ m) * x n + momentLag b1 x n / (1 - b1 ^ m) := by
    unfold momentLag; field_simp; ring
  rw [e1]
  set den := √((1 - b2) * geoSum b2 (fun j => x j ^ 2) (n + 1) / (1 - b2 ^ m) + er) + eps
  set c1 := (1 - b1 ^ (n + 1)) / (1 - b1 ^ m)
  set l := momentLag b1 x n
  have hden : 0 ≤ den := le_trans (by positivity) hge
  have hD0 : 0 ≤ D := hden.trans hD
  have hlag : 0 ≤ 1 / √(1 - b2) * (|l| / (1 - b1 ^ m)) := by positivity
  rcases hden.eq_or_lt with h0 | h0
  · have : |x n| = 0 := by
      have := mul_pos_iff.not.mp (show ¬ 0 < √(1 - b2) * |x n| by linarith)
      by_contra h
      exact this (Or.inl ⟨hsq, lt_of_le_of_ne (abs_nonneg _) (Ne.symm h)⟩)
    have hx : x n = 0 := abs_eq_zero.mp this
    rw [hx]
    have := mul_nonneg hD0 hlag
    simpa using this
  · have hr : |x n| / den ≤ 1 / √(1 - b2) := by
      rw [div_le_div_iff₀ h0 hsq]; linarith
    have h3 : x n * ((c1 * x n + l / (1 - b1 ^ m)) / den) = c1 * (x n ^ 2 / den) + x n / den * (l / (1 - b1 ^ m)) := by
      field_simp
    have h4 : -(1 / √(1 - b2) * (|l| / (1 - b1 ^ m))) ≤ x n / den * (l / (1 - b1 ^ m)) := by
      have : |x n / den * (l / (1 - b1 ^ m))| ≤ 1 / √(1 - b2) * (|l| / (1 - b1 ^ m)) := by
        rw [abs_mul, abs_div, abs_div, abs_of_pos h0, abs_of_pos hw1]
        exact mul_le_mul_of_nonneg_right hr (by positivity)
      exact (abs_le.mp this).1
    have h5 : x n ^ 2 ≤ D * (x n ^ 2 / den) := by
      rw [mul_div_assoc', le_div_iff₀ h0]
      nlinarith [sq_nonneg (x n)]
    have h6 : x n ^ 2 / den ≤ c1 * (x n ^ 2 / den) := le_mul_of_one_le_left (by positivity) hc1
    rw [h3]
    calc x n ^ 2 ≤ D * (x n ^ 2 / den) := h5
      _ ≤ _ := mul_le_mul_of_nonneg_left (by linarith) hD0

end

/-! ## Training -/

variable (σ : Spec)

/-- the steps `adam` takes in training -/
theorem adam_steps (η b1 b2 eps er : ℝ) (grad : ℕ → Params ℝ → Params ℝ)
    (G : ℕ → (ℕ → ℕ → ℝ) → ℕ → ℕ → ℝ) (hg : ∀ n p, grad n (mk σ p) = mk σ (G n p)) (p0 : ℕ → ℕ → ℝ) :
    ∃ P : ℕ → ℕ → ℕ → ℝ, P 0 = p0 ∧ Visits (adam (.scalar η) b1 b2 eps er) grad σ P ∧
      ∀ n, ∀ x ∈ idx σ, P (n + 1) x.1 x.2 = P n x.1 x.2 - η * adamStep b1 b2 eps er (fun j => G j (P j) x.1 x.2) n := by
  obtain ⟨P, U, h0, hP, hv, hU⟩ := exists_visits σ (adam (.scalar η) b1 b2 eps er) (preserves_adam_alias _ _ _ _ _) grad G hg p0
  refine ⟨P, h0, hv, fun n x hx => ?_⟩
  have hr : (scaleByAdam b1 b2 eps er).outs (mk σ p0) (hist σ (fun n => G n (P n)) (fun n => some (mk σ (P n))) (n + 1)) =
      .ok ((List.range (n + 1)).map (fun n => mk σ (fun k i => adamStep b1 b2 eps er (fun j => G j (P j) k i) n))) := by
    unfold GT.outs
    rw [C26_saturated]; rfl
  have hlr := outs_chain_hist_lr (scaleByAdam b1 b2 eps er) (.scalar η) (mk σ p0) σ _ _ _ (n + 1) hr
  rw [hU (n + 1)] at hlr
  injection hlr with hlr
  obtain ⟨s, h1, h2⟩ := mem_idx.mp hx
  have h3 := List.map_inj_left.mp hlr n (List.mem_range.mpr (by omega))
  have h4 := mk_inj h3 x.1 s h1 x.2 h2
  rw [hP, h4]
  simp only [LR.at]
  ring

/-- **C111.** Training with `adam(lr)` on a loss with `L`-Lipschitz gradients that is bounded below, convex or not, whose gradient
entries are bounded by `R`: for every number of steps `N` the mean of the squared gradient norms met is at most
`(√(κR²+eps_root)+eps) ((loss(p0)-lo)/(lr N) + lr L d κ² (B b1/((1-b1)√(1-b2)) + B²/2))`, where `d` is the number of parameters,
`B = 1/√((1-b2)(1-b1²/b2))` and `κ = 1` (for more than 2^31-1 steps, when adam's counter has saturated, the corresponding constant). -/
theorem C111_adam (η b1 b2 eps er L R : ℝ) (hη : 0 < η) (h1 : 0 ≤ b1) (h2 : b1 ^ 2 < b2) (h2' : b2 < 1) (he : 0 ≤ eps) (her : 0 ≤ er)
    (hL : 0 ≤ L) (loss : Params ℝ → ℝ) (grad : ℕ → Params ℝ → Params ℝ) (G : (ℕ → ℕ → ℝ) → ℕ → ℕ → ℝ)
    (hg : ∀ n p, grad n (mk σ p) = mk σ (G p)) (hs : Smooth σ L loss G) (hlip : LipschitzGrad σ L G)
    (hR : ∀ p k i, |G p k i| ≤ R) (lo : ℝ) (hlo : ∀ t, lo ≤ loss t) (p0 : ℕ → ℕ → ℝ) :
    ∃ P, P 0 = p0 ∧ Visits (adam (.scalar η) b1 b2 eps er) grad σ P ∧
      ∀ N : ℕ, N ≠ 0 → ∀ B, B = 1 / √((1 - b2) * (1 - b1 ^ 2 / b2)) →
        (∑ n ∈ range N, globalNorm (mk σ (G (P n))) ^ 2) / N ≤
          (√(saturation b1 b2 N * R ^ 2 + er) + eps) * ((loss (mk σ p0) - lo) / (η * N) +
            η * L * (idx σ).card * saturation b1 b2 N ^ 2 * (B * b1 / ((1 - b1) * √(1 - b2)) + B ^ 2 / 2)) := by
  obtain ⟨P, h0, hv, hstep⟩ := adam_steps σ η b1 b2 eps er grad (fun _ => G) hg p0
  refine ⟨P, h0, hv, fun N hN B hB => ?_⟩
  have hb2 : 0 < b2 := lt_of_le_of_lt (sq_nonneg b1) h2
  have h1' : b1 < 1 := by nlinarith
  have hq1 : 0 < 1 - b1 := by linarith
  have hq2 : 0 < 1 - b2 := by linarith
  have hB0 : 0 ≤ B := by rw [hB]; positivity
  obtain ⟨M, hM⟩ : ∃ M : ℕ, M = 2147483647 := ⟨_, rfl⟩
  have hM0 : M ≠ 0 := by omega
  obtain ⟨κ, hκdef⟩ : ∃ κ, κ = saturation b1 b2 N := ⟨_, rfl⟩
  have hκ : ∀ b, b = b1 ∨ b = b2 → ∀ n < N, (1 - b ^ (n + 1)) / (1 - b ^ min (n + 1) M) ≤ κ := by
    have hM1 := one_sub_pow_pos h1 h1' hM0
    have hM2 := one_sub_pow_pos hb2.le h2' hM0
    have hM1' : 1 - b1 ^ M ≤ 1 := by have := pow_nonneg h1 M; linarith
    have hM2' : 1 - b2 ^ M ≤ 1 := by have := pow_nonneg hb2.le M; linarith
    have hprod : 0 < (1 - b1 ^ M) * (1 - b2 ^ M) := mul_pos hM1 hM2
    have hb : ∀ b, b = b1 ∨ b = b2 → 0 ≤ b ∧ b < 1 ∧ (1 - b1 ^ M) * (1 - b2 ^ M) ≤ 1 - b ^ M := by
      rintro b (rfl | rfl)
      · exact ⟨h1, h1', by nlinarith⟩
      · exact ⟨hb2.le, h2', by nlinarith⟩
    intro b hbb n hn
    obtain ⟨hb0, hb1, hbM⟩ := hb b hbb
    rw [hκdef, saturation, ← hM]
    split
    · rename_i hle
      rw [min_eq_left (by omega), div_self (one_sub_pow_pos hb0 hb1 (show n + 1 ≠ 0 by omega)).ne']
    · have hmin : min (n + 1) M ≠ 0 := by omega
      have hw := one_sub_pow_pos hb0 hb1 hmin
      have h3 : b ^ min (n + 1) M ≥ b ^ (n + 1) := pow_le_pow_of_le_one hb0 hb1.le (min_le_left _ _)
      rcases le_total (n + 1) M with hle | hle
      · rw [min_eq_left hle, div_self (one_sub_pow_pos hb0 hb1 (show n + 1 ≠ 0 by omega)).ne', one_le_div hprod]
        nlinarith
      · rw [min_eq_right hle, div_le_div_iff₀ (one_sub_pow_pos hb0 hb1 hM0) hprod]
        have h4 : 1 - b ^ (n + 1) ≤ 1 := by have := pow_nonneg hb0 (n + 1); linarith
        nlinarith
  rw [← hκdef]
  have hN' : (0 : ℝ) < N := by exact_mod_cast Nat.pos_of_ne_zero hN
  have hκ1 : 1 ≤ κ := le_trans (sat_ge h1 h1' (show min (0 + 1) M ≠ 0 by omega) (min_le_left _ _)) (hκ b1 (Or.inl rfl) 0 (by omega))
  set D := √(κ * R ^ 2 + er) + eps with hD
  have hD0 : 0 ≤ D := by positivity
  set d : ℝ := (((idx σ).card : ℕ) : ℝ) with hd
  have hd0 : 0 ≤ d := by positivity
  set U : ℕ → ((_ : ℕ) × ℕ) → ℝ := fun n x => adamStep b1 b2 eps er (fun j => G (P j) x.1 x.2) n with hUdef
  have hmin : ∀ n, min (n + 1) M ≠ 0 := fun n => by omega
  have hU : ∀ n < N, ∀ x, |U n x| ≤ κ * B := by
    intro n hn x
    rw [hB]
    have := adamStep_abs_le h1 h2 h2' he her (fun j => G (P j) x.1 x.2) n (min (n + 1) M) (hmin n) (min_le_left _ _)
      (hκ b1 (Or.inl rfl) n hn)
    simpa only [hUdef, adamStep, ← hM] using this
  -- consecutive gradients are close
  have hsq : ∀ n < N, ∑ x ∈ idx σ, U n x ^ 2 ≤ d * (κ * B) ^ 2 := by
    intro n hn
    rw [hd, ← nsmul_eq_mul, ← Finset.sum_const]
    exact Finset.sum_le_sum fun x _ => sq_le_sq' (abs_le.mp (hU n hn x)).1 (abs_le.mp (hU n hn x)).2
  set δ := L * (η * (κ * B * √d)) with hδ
  have hδ0 : 0 ≤ δ := by positivity
  have hclose : ∀ n < N, l2 (idx σ) (fun x => G (P n) x.1 x.2 - G (P (n + 1)) x.1 x.2) ≤ δ := by
    intro n hn
    have h3 := hlip (P n) (P (n + 1))
    unfold treeDist at h3
    rw [globalNorm_mk, globalNorm_mk] at h3
    unfold entryNorm at h3
    refine h3.trans (mul_le_mul_of_nonneg_left ?_ hL)
    have e : l2 (idx σ) (fun x => P n x.1 x.2 - P (n + 1) x.1 x.2) = η * l2 (idx σ) (U n) := by
      rw [← abs_of_pos hη, ← l2_smul]
      refine l2_congr _ fun x hx => ?_
      rw [hstep n x hx]
      simp only [hUdef, abs_of_pos hη]
      ring
    rw [e]
    refine mul_le_mul_of_nonneg_left (l2_le_of_sq _ (by positivity) ?_) hη.le
    refine (hsq n hn).trans (le_of_eq ?_)
    rw [mul_pow _ (√d), Real.sq_sqrt hd0]; ring
  -- one step
  set F := η ^ 2 * L * d * κ ^ 2 * (B * b1 / ((1 - b1) * √(1 - b2)) + B ^ 2 / 2) with hF
  have hF0 : 0 ≤ F := by positivity
  have hdesc : ∀ n < N, η * globalNorm (mk σ (G (P n))) ^ 2 ≤ D * (loss (mk σ (P n)) - loss (mk σ (P (n + 1))) + F) := by
    intro n hn
    have h3 := hs (P n) (P (n + 1))
    have e1 : treeInner σ (G (P n)) (fun k i => P (n + 1) k i - P n k i) = -(η * ∑ x ∈ idx σ, G (P n) x.1 x.2 * U n x) := by
      unfold treeInner
      rw [Finset.mul_sum, ← Finset.sum_neg_distrib]
      exact Finset.sum_congr rfl fun x hx => by beta_reduce; rw [hstep n x hx]; simp only [hUdef]; ring
    have e2 : sqDist σ (P (n + 1)) (P n) = η ^ 2 * ∑ x ∈ idx σ, U n x ^ 2 := by
      unfold sqDist
      rw [Finset.mul_sum]
      exact Finset.sum_congr rfl fun x hx => by rw [hstep n x hx]; simp only [hUdef]; ring
    rw [e1, e2] at h3
    have hw := one_sub_pow_pos h1 h1' (hmin n)
    have hin : ∀ x ∈ idx σ, G (P n) x.1 x.2 ^ 2 ≤ D * (G (P n) x.1 x.2 * U n x +
        1 / √(1 - b2) * (|momentLag b1 (fun j => G (P j) x.1 x.2) n| / (1 - b1 ^ min (n + 1) M))) := by
      intro x _
      have h4 := adam_den_le (er := er) (eps := eps) hb2.le h2' (fun j => G (P j) x.1 x.2) (fun j => hR _ _ _) n (min (n + 1) M) (hmin n)
        (hκ b2 (Or.inr rfl) n hn)
      have := adamStep_inner h1 h1' hb2.le h2' he her (fun j => G (P j) x.1 x.2) n (min (n + 1) M) (hmin n) (min_le_left _ _) h4
      simpa only [hUdef, adamStep, ← hM] using this
    have hsum := Finset.sum_le_sum hin
    rw [← Finset.mul_sum, Finset.sum_add_distrib, ← Finset.mul_sum, ← Finset.sum_div] at hsum
    have hlag : ∑ x ∈ idx σ, |momentLag b1 (fun j => G (P j) x.1 x.2) n| ≤ √d * (δ * (b1 / (1 - b1)) * (1 - b1 ^ (n + 1))) := by
      have h5 := inner_le_l2 (idx σ) (fun _ => 1) (fun x => |momentLag b1 (fun j => G (P j) x.1 x.2) n|)
      simp only [one_mul] at h5
      have h6 : l2 (idx σ) (fun _ => (1 : ℝ)) = √d := by unfold l2; simp [hd]
      have h7 : l2 (idx σ) (fun x => |momentLag b1 (fun j => G (P j) x.1 x.2) n|) =
          l2 (idx σ) (fun x => momentLag b1 (fun j => G (P j) x.1 x.2) n) := by
        unfold l2; simp only [sq_abs]
      rw [h6, h7] at h5
      refine h5.trans (mul_le_mul_of_nonneg_left ?_ (Real.sqrt_nonneg _))
      exact momentLag_le (idx σ) h1 h1' hδ0 (fun j x => G (P j) x.1 x.2) n fun j hj => hclose j (by omega)
    have hlag' : (∑ x ∈ idx σ, |momentLag b1 (fun j => G (P j) x.1 x.2) n|) / (1 - b1 ^ min (n + 1) M) ≤ √d * (δ * (b1 / (1 - b1))) * κ := by
      calc _ ≤ √d * (δ * (b1 / (1 - b1)) * (1 - b1 ^ (n + 1))) / (1 - b1 ^ min (n + 1) M) := div_le_div_of_nonneg_right hlag hw.le
        _ = √d * (δ * (b1 / (1 - b1))) * ((1 - b1 ^ (n + 1)) / (1 - b1 ^ min (n + 1) M)) := by ring
        _ ≤ _ := mul_le_mul_of_nonneg_left (hκ b1 (Or.inl rfl) n hn) (by positivity)
    rw [← sqNorm_eq]
    unfold sqNorm
    have h8 := mul_le_mul_of_nonneg_left hlag' (show 0 ≤ 1 / √(1 - b2) by positivity)
    have h9 : η * ∑ x ∈ idx σ, G (P n) x.1 x.2 ^ 2 ≤ D * (η * ∑ x ∈ idx σ, G (P n) x.1 x.2 * U n x +
        η * (1 / √(1 - b2) * (√d * (δ * (b1 / (1 - b1))) * κ))) := by
      have h10 := mul_le_mul_of_nonneg_left (hsum.trans (mul_le_mul_of_nonneg_left (add_le_add_right h8 _) hD0)) hη.le
      refine h10.trans (le_of_eq ?_)
      ring
    refine h9.trans (mul_le_mul_of_nonneg_left ?_ hD0)
    have h11 := mul_le_mul_of_nonneg_left (hsq n hn) (show 0 ≤ L / 2 * η ^ 2 by positivity)
    have e3 : η * (1 / √(1 - b2) * (√d * (δ * (b1 / (1 - b1))) * κ)) + L / 2 * η ^ 2 * (d * (κ * B) ^ 2) = F := by
      have hs2 : 0 < √(1 - b2) := Real.sqrt_pos.mpr hq2
      have hdd : √d * √d = d := Real.mul_self_sqrt hd0
      have e4 : η * (1 / √(1 - b2) * (√d * (δ * (b1 / (1 - b1))) * κ)) = η ^ 2 * L * κ ^ 2 * B * b1 * (√d * √d) / ((1 - b1) * √(1 - b2)) := by
        rw [hδ]; field_simp
      rw [e4, hdd, hF]; field_simp
    linarith
  have htot : ∀ K ≤ N, η * ∑ n ∈ range K, globalNorm (mk σ (G (P n))) ^ 2 ≤ D * (loss (mk σ p0) - loss (mk σ (P K)) + K * F) := by
    intro K
    induction K with
    | zero => intro _; simp [h0]
    | succ K ih =>
      intro hK
      have h3 := ih (by omega)
      have h4 := hdesc K (by omega)
      rw [Finset.sum_range_succ, mul_add]
      push_cast
      have : D * (loss (mk σ p0) - loss (mk σ (P (K + 1))) + (K + 1) * F) =
          D * (loss (mk σ p0) - loss (mk σ (P K)) + K * F) + D * (loss (mk σ (P K)) - loss (mk σ (P (K + 1))) + F) := by ring
      rw [this]
      linarith
  have h3 := htot N le_rfl
  have h4 : D * (loss (mk σ p0) - loss (mk σ (P N)) + N * F) ≤ D * (loss (mk σ p0) - lo + N * F) :=
    mul_le_mul_of_nonneg_left (by linarith [hlo (mk σ (P N))]) hD0
  have h5 := mul_le_mul_of_nonneg_left (h3.trans h4) (show 0 ≤ 1 / (η * N) by positivity)
  refine le_trans (le_of_eq ?_) (h5.trans (le_of_eq ?_))
  · field_simp
  · rw [hF]; field_simp

theorem saturation_le {b1 b2 : ℝ} (h1 : 0 ≤ b1) (h1' : b1 < 1) (h2 : 0 ≤ b2) (h2' : b2 < 1) :
    ∃ K : ℝ, ∀ N, 1 ≤ saturation b1 b2 N ∧ saturation b1 b2 N ≤ K := by
  obtain ⟨M, hM⟩ : ∃ M : ℕ, M = 2147483647 := ⟨_, rfl⟩
  have hM0 : M ≠ 0 := by omega
  have hM1 := one_sub_pow_pos h1 h1' hM0
  have hM2 := one_sub_pow_pos h2 h2' hM0
  have hM1' : 1 - b1 ^ M ≤ 1 := by have := pow_nonneg h1 M; linarith
  have hM2' : 1 - b2 ^ M ≤ 1 := by have := pow_nonneg h2 M; linarith
  have hK : 1 ≤ 1 / ((1 - b1 ^ M) * (1 - b2 ^ M)) := by
    rw [one_le_div (mul_pos hM1 hM2)]; nlinarith
  refine ⟨1 / ((1 - b1 ^ M) * (1 - b2 ^ M)), fun N => ?_⟩
  rw [saturation, ← hM]
  split
  · exact ⟨le_rfl, hK⟩
  · exact ⟨hK, le_rfl⟩

/-- **C111.** Hence full-batch adam reaches any accuracy: for every `ε > 0`, every small enough learning rate and every large enough number
of steps the mean squared gradient norm is at most `ε`. -/
theorem C111_any_accuracy (b1 b2 eps er L R : ℝ) (h1 : 0 ≤ b1) (h2 : b1 ^ 2 < b2) (h2' : b2 < 1) (he : 0 ≤ eps) (her : 0 ≤ er)
    (hL : 0 ≤ L) (loss : Params ℝ → ℝ) (grad : ℕ → Params ℝ → Params ℝ) (G : (ℕ → ℕ → ℝ) → ℕ → ℕ → ℝ)
    (hg : ∀ n p, grad n (mk σ p) = mk σ (G p)) (hs : Smooth σ L loss G) (hlip : LipschitzGrad σ L G)
    (hR : ∀ p k i, |G p k i| ≤ R) (lo : ℝ) (hlo : ∀ t, lo ≤ loss t) (p0 : ℕ → ℕ → ℝ) (ε : ℝ) (hε : 0 < ε) :
    ∃ η0 > 0, ∀ η, 0 < η → η ≤ η0 → ∃ P, P 0 = p0 ∧ Visits (adam (.scalar η) b1 b2 eps er) grad σ P ∧
      ∃ N0 : ℕ, ∀ N ≥ N0, (∑ n ∈ range N, globalNorm (mk σ (G (P n))) ^ 2) / N ≤ ε := by
  have hb2 : 0 < b2 := lt_of_le_of_lt (sq_nonneg b1) h2
  have h1' : b1 < 1 := by nlinarith
  have hq1 : 0 < 1 - b1 := by linarith
  have hq2 : 0 < 1 - b2 := by linarith
  obtain ⟨K, hK⟩ := saturation_le h1 h1' hb2.le h2'
  have hK1 : 1 ≤ K := (hK 0).1.trans (hK 0).2
  obtain ⟨B, hB⟩ : ∃ B, B = 1 / √((1 - b2) * (1 - b1 ^ 2 / b2)) := ⟨_, rfl⟩
  have hB0 : 0 ≤ B := by rw [hB]; positivity
  set D := √(K * R ^ 2 + er) + eps + 1 with hD
  have hD0 : 0 < D := by positivity
  set C := L * (idx σ).card * K ^ 2 * (B * b1 / ((1 - b1) * √(1 - b2)) + B ^ 2 / 2) with hC
  have hC0 : 0 ≤ C := by positivity
  have hgap : 0 ≤ loss (mk σ p0) - lo := by linarith [hlo (mk σ p0)]
  refine ⟨ε / (2 * D * (C + 1)), by positivity, fun η hη hη0 => ?_⟩
  obtain ⟨P, h0, hv, hN⟩ := C111_adam σ η b1 b2 eps er L R hη h1 h2 h2' he her hL loss grad G hg hs hlip hR lo hlo p0
  refine ⟨P, h0, hv, ?_⟩
  obtain ⟨N0, hN0⟩ := exists_nat_ge (2 * D * (loss (mk σ p0) - lo) / (η * ε))
  refine ⟨N0 + 1, fun N hNN => ?_⟩
  have hNpos : (0 : ℝ) < N := by exact_mod_cast (by omega : 0 < N)
  have hle : (N0 : ℝ) ≤ N := by exact_mod_cast (by omega : N0 ≤ N)
  refine (hN N (by omega) B hB).trans ?_
  obtain ⟨hk1, hk2⟩ := hK N
  generalize saturation b1 b2 N = κ at hk1 hk2
  have hκ0 : 0 ≤ κ := by linarith
  have hDle : √(κ * R ^ 2 + er) + eps ≤ D := by
    have := Real.sqrt_le_sqrt (add_le_add_left (mul_le_mul_of_nonneg_right hk2 (sq_nonneg R)) er)
    rw [hD]; linarith
  have hk3 : κ ^ 2 ≤ K ^ 2 := by nlinarith
  have hCle : η * L * (idx σ).card * κ ^ 2 * (B * b1 / ((1 - b1) * √(1 - b2)) + B ^ 2 / 2) ≤ η * C := by
    have : L * (idx σ).card * κ ^ 2 * (B * b1 / ((1 - b1) * √(1 - b2)) + B ^ 2 / 2) ≤ C :=
      mul_le_mul_of_nonneg_right (mul_le_mul_of_nonneg_left hk3 (by positivity)) (by positivity)
    calc _ = η * (L * (idx σ).card * κ ^ 2 * (B * b1 / ((1 - b1) * √(1 - b2)) + B ^ 2 / 2)) := by ring
      _ ≤ _ := mul_le_mul_of_nonneg_left this hη.le
  have hA : (loss (mk σ p0) - lo) / (η * N) ≤ ε / (2 * D) := by
    rw [div_le_div_iff₀ (by positivity) (by positivity)]
    have h3 := hN0.trans hle
    rw [div_le_iff₀ (by positivity)] at h3
    nlinarith
  have hCη : η * C ≤ ε / (2 * D) := by
    have h3 : η * (2 * D * (C + 1)) ≤ ε := by rwa [le_div_iff₀ (by positivity)] at hη0
    rw [le_div_iff₀ (by positivity)]
    nlinarith [mul_pos hη hD0]
  calc _ ≤ D * (ε / (2 * D) + ε / (2 * D)) :=
        mul_le_mul hDle (add_le_add hA (hCle.trans hCη)) (by positivity) hD0.le
    _ = ε := by field_simp; ring

/-- Non-vacuity: `Σ cos(x)` is not convex; its gradient `-sin(x)` is 1-Lipschitz with entries bounded by 1. -/
example : Smooth σ 1 (fun t => ∑ x ∈ idx σ, Real.cos (coord t x.1 x.2)) (fun p k i => -Real.sin (p k i)) ∧
    LipschitzGrad σ 1 (fun p k i => -Real.sin (p k i)) ∧ (∀ (p : ℕ → ℕ → ℝ) k i, |-Real.sin (p k i)| ≤ 1) ∧
    (∀ t : Params ℝ, -((idx σ).card : ℝ) ≤ ∑ x ∈ idx σ, Real.cos (coord t x.1 x.2)) ∧
    (0 : ℝ) ≤ 9 / 10 ∧ (9 / 10 : ℝ) ^ 2 < 999 / 1000 ∧ (999 / 1000 : ℝ) < 1 := by
  have e : ∀ p : ℕ → ℕ → ℝ, ∑ x ∈ idx σ, Real.cos (coord (mk σ p) x.1 x.2) = ∑ x ∈ idx σ, Real.cos (p x.1 x.2) := fun p => by
    refine Finset.sum_congr rfl fun x hx => ?_
    obtain ⟨s, h1, h2⟩ := mem_idx.mp hx
    rw [coord_mk _ _ _ _ s h1 h2]
  refine ⟨fun p q => ?_, fun p q => ?_, fun p k i => ?_, fun t => ?_, by norm_num⟩
  · simp only [e, treeInner, sqDist]
    rw [Finset.mul_sum, ← Finset.sum_add_distrib, ← Finset.sum_add_distrib]
    refine Finset.sum_le_sum fun x _ => ?_
    generalize p x.1 x.2 = u
    generalize q x.1 x.2 = v
    -- φ(t) = cos t + sin u (t - u) - (t - u)²/2 decreases away from u
    have hd : ∀ t, HasDerivAt (fun t => Real.cos t + Real.sin u * (t - u) - (t - u) ^ 2 / 2) (-Real.sin t + Real.sin u - (t - u)) t := by
      intro t
      have h3 := ((Real.hasDerivAt_cos t).add (((hasDerivAt_id t).sub_const u).const_mul (Real.sin u))).sub
        ((((hasDerivAt_id t).sub_const u).pow 2).div_const 2)
      refine HasDerivAt.congr_deriv h3 ?_
      simp
    have hc : Continuous fun t => Real.cos t + Real.sin u * (t - u) - (t - u) ^ 2 / 2 := by fun_prop
    have hle : Real.cos v + Real.sin u * (v - u) - (v - u) ^ 2 / 2 ≤ Real.cos u := by
      have h0 : Real.cos u + Real.sin u * (u - u) - (u - u) ^ 2 / 2 = Real.cos u := by simp
      rw [← h0]
      rcases le_total u v with h | h
      · refine antitoneOn_of_deriv_nonpos (convex_Ici u) hc.continuousOn (fun t _ => (hd t).differentiableAt.differentiableWithinAt) ?_ (Set.mem_Ici.mpr le_rfl) h h
        intro t ht
        rw [interior_Ici] at ht
        rw [(hd t).deriv]
        have h4 := abs_le.mp (Real.abs_sin_sub_sin_le t u)
        rw [abs_of_pos (sub_pos.mpr ht)] at h4
        linarith [h4.1]
      · refine monotoneOn_of_deriv_nonneg (convex_Iic u) hc.continuousOn (fun t _ => (hd t).differentiableAt.differentiableWithinAt) ?_ h (Set.mem_Iic.mpr le_rfl) h
        intro t ht
        rw [interior_Iic] at ht
        rw [(hd t).deriv]
        have h4 := abs_le.mp (Real.abs_sin_sub_sin_le t u)
        rw [abs_of_neg (sub_neg.mpr ht)] at h4
        linarith [h4.2]
    nlinarith
  · unfold treeDist
    rw [globalNorm_mk, globalNorm_mk, one_mul]
    unfold entryNorm
    refine l2_mono_abs _ fun x _ => ?_
    have := Real.abs_sin_sub_sin_le (q x.1 x.2) (p x.1 x.2)
    rw [abs_sub_comm (q x.1 x.2)] at this
    convert this using 2
    ring
  · rw [abs_neg]; exact Real.abs_sin_le_one _
  · have := Finset.sum_le_sum fun (x : (_ : ℕ) × ℕ) (_ : x ∈ idx σ) => Real.neg_one_le_cos (coord t x.1 x.2)
    simpa using this

/-- **C96 (momentum).** `sgd(lr, momentum)` on an `L`-smooth loss that is bounded below, convex or not, with `L lr ≤ 1 - momentum²`: the squared
norms of all gradients ever met sum to at most `2 (loss(p0) - lo)/lr` - the same bound as without momentum -, so the gradients tend to 0. -/
theorem C96_heavy_ball (η β L : ℝ) (hη : 0 < η) (hLη : L * η ≤ 1 - β ^ 2)
    (loss : Params ℝ → ℝ) (grad : ℕ → Params ℝ → Params ℝ) (G : (ℕ → ℕ → ℝ) → ℕ → ℕ → ℝ)
    (hg : ∀ n p, grad n (mk σ p) = mk σ (G p)) (hs : Smooth σ L loss G) (lo : ℝ) (hlo : ∀ t, lo ≤ loss t) (p0 : ℕ → ℕ → ℝ) :
    ∃ P, P 0 = p0 ∧ Visits (sgd (.scalar η) (some β) false) grad σ P ∧
      (∀ N, ∑ n ∈ range N, globalNorm (mk σ (G (P n))) ^ 2 ≤ 2 * (loss (mk σ p0) - lo) / η) ∧
      Filter.Tendsto (fun n => globalNorm (mk σ (G (P n)))) Filter.atTop (nhds 0) := by
  set S := momentumSgd (LR.at (.scalar η)) β false (fun _ => G) p0 with hS
  have hm : ∀ n k i, (S (n + 1)).2 k i = β * (S n).2 k i + G (S n).1 k i := fun n k i => rfl
  have hp : ∀ n k i, (S (n + 1)).1 k i = (S n).1 k i - η * (S (n + 1)).2 k i := fun n k i => rfl
  -- the energy `loss + η β²/2 |v|²` decreases
  have hstep : ∀ n, loss (mk σ (S (n + 1)).1) + η * β ^ 2 / 2 * sqNorm σ (S (n + 1)).2 + η / 2 * sqNorm σ (G (S n).1) ≤
      loss (mk σ (S n).1) + η * β ^ 2 / 2 * sqNorm σ (S n).2 := by
    intro n
    have h := hs (S n).1 (S (n + 1)).1
    have e1 : treeInner σ (G (S n).1) (fun k i => (S (n + 1)).1 k i - (S n).1 k i) =
        -(η / 2) * (sqNorm σ (G (S n).1) + sqNorm σ (S (n + 1)).2 - β ^ 2 * sqNorm σ (S n).2) := by
      unfold treeInner sqNorm
      rw [Finset.mul_sum, ← Finset.sum_add_distrib, ← Finset.sum_sub_distrib, Finset.mul_sum]
      refine Finset.sum_congr rfl fun x _ => ?_
      beta_reduce
      rw [hp, hm]; ring
    have e2 : sqDist σ (S (n + 1)).1 (S n).1 = η ^ 2 * sqNorm σ (S (n + 1)).2 := by
      unfold sqDist sqNorm
      rw [Finset.mul_sum]
      refine Finset.sum_congr rfl fun x _ => ?_
      rw [hp]; ring
    rw [e1, e2] at h
    have h3 := mul_le_mul_of_nonneg_right hLη (mul_nonneg (by positivity : 0 ≤ η / 2) (sqNorm_nonneg σ (S (n + 1)).2))
    nlinarith
  have hmain : ∀ N, ∑ n ∈ range N, globalNorm (mk σ (G (S n).1)) ^ 2 ≤ 2 * (loss (mk σ p0) - lo) / η := by
    intro N
    have h : ∀ N, loss (mk σ (S N).1) + η * β ^ 2 / 2 * sqNorm σ (S N).2 + η / 2 * ∑ n ∈ range N, globalNorm (mk σ (G (S n).1)) ^ 2 ≤
        loss (mk σ p0) := by
      intro N
      induction N with
      | zero =>
        have e : sqNorm σ (S 0).2 = 0 := Finset.sum_eq_zero fun x _ => by simp [hS, momentumSgd]
        rw [e]
        simp [hS, momentumSgd]
      | succ N ih =>
        have := hstep N
        rw [Finset.sum_range_succ, mul_add, ← sqNorm_eq σ (G (S N).1)]
        linarith
    have h1 := h N
    have h2 := hlo (mk σ (S N).1)
    have h3 : 0 ≤ η * β ^ 2 / 2 * sqNorm σ (S N).2 := mul_nonneg (by positivity) (sqNorm_nonneg _ _)
    rw [le_div_iff₀ hη]
    linarith
  refine ⟨fun n => (S n).1, rfl, momentum_visits σ (.scalar η) β false grad (fun _ => G) hg p0, hmain, ?_⟩
  have hsum : Summable (fun n => globalNorm (mk σ (G (S n).1)) ^ 2) := summable_of_sum_range_le (fun n => sq_nonneg _) hmain
  have ht := hsum.tendsto_atTop_zero
  have := (Real.continuous_sqrt.tendsto 0).comp ht
  simp only [Real.sqrt_zero] at this
  refine this.congr fun n => ?_
  simp only [Function.comp]
  exact Real.sqrt_sq (C61_nonneg _)
