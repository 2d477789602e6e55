import Verif.Model.Estimators
import Mathlib.MeasureTheory.Integral.Bochner.Basic

/-!
# C69: measure-valued estimators
-/

set_option linter.unusedSectionVars false
set_option linter.unusedSimpArgs false

namespace Optax

variable {G : Prng} {D N : ℕ}

/-! ## `set_diags` -/

theorem zip_replicate_finRange {β : Type} (b : β) (l : List (Fin D)) (k : ℕ) (hk : k = l.length) :
    (List.replicate k b).zip l = l.map (fun i => (b, i)) := by
  subst hk
  induction l with
  | nil => simp
  | cons a l ih => simp [List.replicate_succ, ih]

theorem setDiags_list (v : Fin N → Vec D) (L : List (Fin N)) :
    ((jnpRepeat L D).zip (jnpTile (List.finRange D) L.length)).zip
      ((jnpTile (List.finRange D) L.length).zip (L.flatMap (fun n => (List.finRange D).map (v n)))) =
    L.flatMap (fun n => (List.finRange D).map (fun i => ((n, i), (i, v n i)))) := by
  induction L with
  | nil => simp [jnpRepeat, jnpTile]
  | cons n L ih =>
    unfold jnpRepeat jnpTile at *
    simp only [List.flatMap_cons, List.length_cons, List.replicate_succ, List.flatten_cons]
    rw [List.zip_append (by simp), List.zip_append (by simp), List.zip_append (by simp [List.length_zip]), ih]
    congr 1
    rw [zip_replicate_finRange n (List.finRange D) D (by simp)]
    generalize List.finRange D = l
    induction l with
    | nil => simp
    | cons a l ih => simp [ih]

theorem foldl_setAt (v : Fin N → Vec D) (L : List (Fin N × Fin D)) (a : Fin N → Fin D → Vec D) (n : Fin N) (i j : Fin D) :
    (L.foldl (fun a x => setAt a x.1 x.2 x.2 (v x.1 x.2)) a) n i j =
      if i = j ∧ (n, i) ∈ L then v n i else a n i j := by
  induction L generalizing a with
  | nil => simp
  | cons x L ih =>
    rw [List.foldl_cons, ih]
    unfold setAt
    obtain ⟨m, k⟩ := x
    by_cases h1 : i = j
    · subst h1
      by_cases h2 : (n, i) ∈ L
      · simp [h2]
      · by_cases h3 : n = m ∧ i = k
        · obtain ⟨rfl, rfl⟩ := h3; simp
        · have : ¬(n = m ∧ i = k ∧ i = k) := fun h => h3 ⟨h.1, h.2.1⟩
          simp [h2, h3, this]
    · have : ¬(n = m ∧ i = k ∧ j = k) := fun h => h1 (h.2.1.trans h.2.2.symm)
      simp [h1, this]

/-- `set_diags` changes exactly the diagonals -/
theorem setDiags_eq (a : Fin N → Fin D → Vec D) (v : Fin N → Vec D) (n : Fin N) (i j : Fin D) :
    setDiags a v n i j = if i = j then v n i else a n i j := by
  unfold setDiags
  have h := setDiags_list v (List.finRange N)
  rw [List.length_finRange] at h
  rw [h]
  have h2 : (List.finRange N).flatMap (fun n => (List.finRange D).map (fun i => ((n, i), (i, v n i)))) =
      ((List.finRange N).flatMap (fun n => (List.finRange D).map (fun i => (n, i)))).map
        (fun x => ((x.1, x.2), (x.2, v x.1 x.2))) := by
    rw [List.map_flatMap]
    simp [Function.comp_def]
  rw [h2, List.foldl_map]
  rw [foldl_setAt]
  simp

/-! ## Theorems -/

/-- the `n`-th sample, with coordinate `d` replaced by `t` -/
def replaceCoord (x : Vec D) (d : Fin D) (t : ℝ) : Vec D := Function.update x d t

theorem vmapCols_setDiags (f : Vec D → ℝ) (x v : Fin N → Vec D) (n : Fin N) (d : Fin D) :
    vmapCols f (setDiags (tileSecondToLast x) v) n d = f (replaceCoord (x n) d (v n d)) := by
  unfold vmapCols
  congr 1
  funext i
  rw [setDiags_eq]
  unfold tileSecondToLast replaceCoord
  by_cases h : i = d
  · subst h; simp
  · simp [h]

/-- the samples the estimators draw: `mean + exp(log_std) * normal` -/
noncomputable def gaussSample (G : Prng) (mean logStd : Vec D) (rng : G.Key) (N : ℕ) (n : Fin N) : Vec D :=
  fun i => mean i + Real.exp (logStd i) * G.normal rng N D n i

/-- **C69.** Component `d` of the estimate for sample `n` evaluates the function at two points only: the `n`-th sample
with its `d`-th coordinate (and no other) replaced by the positive resp. the negative variate. Gradient with
respect to the mean. -/
theorem C69_mean (f : Vec D → ℝ) (mean logStd : Vec D) (rng : G.Key) (coupling : Bool) (n : Fin N) (d : Fin D) :
    measureValuedMean G f mean logStd rng N coupling n d =
      (f (replaceCoord (gaussSample G mean logStd rng N n) d
          (mean d + Real.exp (logStd d) * G.weibull (G.split rng).1 N D n d))
        - f (replaceCoord (gaussSample G mean logStd rng N n) d
          (mean d - Real.exp (logStd d) * G.weibull (if coupling then (G.split rng).1 else (G.split rng).2) N D n d)))
      / (Real.sqrt (2 * Real.pi) * Real.exp (logStd d)) := by
  unfold measureValuedMean
  simp only [vmapCols_setDiags]
  have hs : (multiNormal G mean logStd).sample N rng n = gaussSample G mean logStd rng N n := by
    funext i; unfold multiNormal gaussSample; simp only; ring
  rw [hs]
  cases coupling <;> rfl

/-- **C69.** The same for the gradient with respect to the standard deviation. -/
theorem C69_std (f : Vec D → ℝ) (mean logStd : Vec D) (rng : G.Key) (coupling : Bool) (n : Fin N) (d : Fin D) :
    measureValuedStd G f mean logStd rng N coupling n d =
      (f (replaceCoord (gaussSample G mean logStd rng N n) d
          (mean d + Real.exp (logStd d) * G.maxwell (G.split rng).1 N D n d))
        - f (replaceCoord (gaussSample G mean logStd rng N n) d
          (mean d + Real.exp (logStd d) *
            (if coupling then G.uniform (G.split rng).2 N D n d * G.maxwell (G.split rng).1 N D n d
              else G.normal (G.split rng).2 N D n d))))
      / Real.exp (logStd d) := by
  unfold measureValuedStd
  simp only [vmapCols_setDiags]
  have hs : (multiNormal G mean logStd).sample N rng n = gaussSample G mean logStd rng N n := by
    funext i; unfold multiNormal gaussSample; simp only; ring
  rw [hs]
  cases coupling <;> rfl

/-- **C69.** The jacobians handed to the user: mean, and the chain rule for the log of the standard deviation. -/
theorem C69_jacobians (f : Vec D → ℝ) (params : Fin 2 → Vec D) (rng : G.Key) (coupling : Bool) (n : Fin N) (d : Fin D) :
    measureValuedJacobians G f params rng N coupling 0 n d = measureValuedMean G f (params 0) (params 1) rng N coupling n d ∧
    measureValuedJacobians G f params rng N coupling 1 n d =
      Real.exp (params 1 d) * measureValuedStd G f (params 0) (params 1) rng N coupling n d := ⟨rfl, rfl⟩

/-- **C69.** If the function does not depend on coordinate `d`, every estimate of the `d`-th derivative is exactly 0:
both parameters, all samples, with and without coupling. -/
theorem C69_independent (f : Vec D → ℝ) (d : Fin D) (hf : ∀ x t, f (Function.update x d t) = f x) (params : Fin 2 → Vec D)
    (rng : G.Key) (coupling : Bool) (k : Fin 2) (n : Fin N) :
    measureValuedJacobians G f params rng N coupling k n d = 0 := by
  have h0 := (C69_jacobians f params rng coupling n d).1
  have h1 := (C69_jacobians f params rng coupling n d).2
  fin_cases k
  · refine h0.trans ?_
    rw [C69_mean]; unfold replaceCoord; rw [hf, hf]; simp
  · refine h1.trans ?_
    rw [C69_std]; unfold replaceCoord; rw [hf, hf]; simp

/-- **C69.** If the function is linear in coordinate `d` with slope `a`, the coupled estimate of the mean gradient is
`a * 2 w / sqrt(2 pi)` for the Weibull variate `w`, whatever the sample. -/
theorem C69_linear (f : Vec D → ℝ) (d : Fin D) (a : ℝ) (hf : ∀ x t, f (Function.update x d t) = f x + a * (t - x d))
    (mean logStd : Vec D) (rng : G.Key) (n : Fin N) :
    measureValuedMean G f mean logStd rng N true n d =
      a * (2 * G.weibull (G.split rng).1 N D n d) / Real.sqrt (2 * Real.pi) := by
  rw [C69_mean]
  unfold replaceCoord
  rw [hf, hf]
  have h1 : Real.exp (logStd d) ≠ 0 := (Real.exp_pos _).ne'
  have h2 : Real.sqrt (2 * Real.pi) ≠ 0 := (Real.sqrt_pos.mpr (by positivity)).ne'
  simp only [if_true]
  field_simp
  ring

open MeasureTheory in
/-- **C69 (unbiased on linear functions).** If, over the keys, the Weibull variate has its true mean `sqrt(pi/2)`, the
expected estimate of the mean gradient is the slope `a`. -/
theorem C69_linear_unbiased [MeasurableSpace G.Key] (μ : Measure G.Key) (f : Vec D → ℝ) (d : Fin D) (a : ℝ)
    (hf : ∀ x t, f (Function.update x d t) = f x + a * (t - x d)) (mean logStd : Vec D) (n : Fin N)
    (hw : ∫ rng, G.weibull (G.split rng).1 N D n d ∂μ = Real.sqrt (Real.pi / 2)) :
    ∫ rng, measureValuedMean G f mean logStd rng N true n d ∂μ = a := by
  simp only [C69_linear f d a hf]
  have e : ∀ rng, a * (2 * G.weibull (G.split rng).1 N D n d) / Real.sqrt (2 * Real.pi) =
      (a * 2 / Real.sqrt (2 * Real.pi)) * G.weibull (G.split rng).1 N D n d := fun rng => by ring
  simp only [e]
  rw [integral_const_mul, hw]
  have h1 : Real.sqrt (Real.pi / 2) = Real.sqrt (2 * Real.pi) / 2 := by
    rw [show Real.pi / 2 = (2 * Real.pi) / 2 ^ 2 by ring, Real.sqrt_div (by positivity), Real.sqrt_sq (by norm_num)]
  rw [h1]
  have h2 : Real.sqrt (2 * Real.pi) ≠ 0 := (Real.sqrt_pos.mpr (by positivity)).ne'
  field_simp

/-- **C69.** If the function is quadratic in coordinate `d`, `f = r + a x_d + b x_d^2` with `a`, `b` and `r` independent
of `x_d`, the coupled estimate of the derivative in the standard deviation is explicit in the Maxwell variate `M` and
the uniform one `U`. -/
theorem C69_quadratic_std (f r : Vec D → ℝ) (d : Fin D) (a b : ℝ)
    (hf : ∀ x t, f (Function.update x d t) = r x + a * t + b * t ^ 2)
    (mean logStd : Vec D) (rng : G.Key) (n : Fin N) :
    measureValuedStd G f mean logStd rng N true n d =
      (a + 2 * b * mean d) * (G.maxwell (G.split rng).1 N D n d
          - G.uniform (G.split rng).2 N D n d * G.maxwell (G.split rng).1 N D n d)
      + b * Real.exp (logStd d) * (G.maxwell (G.split rng).1 N D n d ^ 2
          - (G.uniform (G.split rng).2 N D n d * G.maxwell (G.split rng).1 N D n d) ^ 2) := by
  rw [C69_std]
  unfold replaceCoord
  rw [hf, hf]
  have h1 : Real.exp (logStd d) ≠ 0 := (Real.exp_pos _).ne'
  simp only [if_true]
  field_simp
  ring

open MeasureTheory in
/-- **C69 (unbiased on quadratics).** If, over the keys, `M` and `U M` have their true moments (means 0, second moments 3
and 1), the expected estimate is `2 b std`, the derivative in `std` of `E[f] = const + b std^2`. -/
theorem C69_quadratic_std_unbiased [MeasurableSpace G.Key] (μ : Measure G.Key) (f r : Vec D → ℝ) (d : Fin D) (a b : ℝ)
    (hf : ∀ x t, f (Function.update x d t) = r x + a * t + b * t ^ 2) (mean logStd : Vec D) (n : Fin N)
    (M UM : G.Key → ℝ) (hM : M = fun rng => G.maxwell (G.split rng).1 N D n d)
    (hUM : UM = fun rng => G.uniform (G.split rng).2 N D n d * G.maxwell (G.split rng).1 N D n d)
    (iM : Integrable M μ) (iU : Integrable UM μ) (iM2 : Integrable (fun r => M r ^ 2) μ) (iU2 : Integrable (fun r => UM r ^ 2) μ)
    (h1 : ∫ r, M r ∂μ = 0) (h2 : ∫ r, UM r ∂μ = 0) (h3 : ∫ r, M r ^ 2 ∂μ = 3) (h4 : ∫ r, UM r ^ 2 ∂μ = 1) :
    ∫ rng, measureValuedStd G f mean logStd rng N true n d ∂μ = 2 * b * Real.exp (logStd d) := by
  have e : (fun rng => measureValuedStd G f mean logStd rng N true n d) = fun rng =>
      (a + 2 * b * mean d) * (M rng - UM rng) + b * Real.exp (logStd d) * (M rng ^ 2 - UM rng ^ 2) := by
    funext rng
    rw [C69_quadratic_std f r d a b hf, hM, hUM]
  have i1 : Integrable (fun rng => (a + 2 * b * mean d) * (M rng - UM rng)) μ := (iM.sub iU).const_mul _
  have i2 : Integrable (fun rng => b * Real.exp (logStd d) * (M rng ^ 2 - UM rng ^ 2)) μ := (iM2.sub iU2).const_mul _
  rw [e, integral_add i1 i2, integral_const_mul, integral_const_mul,
    integral_sub iM iU, integral_sub iM2 iU2, h1, h2, h3, h4]
  ring

/-- functions that meet the hypotheses: `x_0 + 3 x_1` is linear in coordinate 1 with slope 3 -/
example : ∀ (x : Vec 2) (t : ℝ), (fun x : Vec 2 => x 0 + 3 * x 1) (Function.update x 1 t) =
    (fun x : Vec 2 => x 0 + 3 * x 1) x + 3 * (t - x 1) := by
  intro x t; simp; ring

end Optax
