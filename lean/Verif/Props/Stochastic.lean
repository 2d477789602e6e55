import Verif.Props.Convergence
import Mathlib.Probability.Independence.Basic
import Mathlib.MeasureTheory.Integral.Prod
import Mathlib.Probability.Independence.InfinitePi
import Mathlib.Probability.Moments.Variance

/-!
# C97: training with stochastic gradients converges in expectation

`sgd(learning_rate)` through `init`, `update`, `apply_updates`, with a gradient computed from a random sample (a minibatch) at every step.
-/

set_option linter.unusedSectionVars false
set_option linter.unusedSimpArgs false
set_option linter.unusedVariables false

namespace Optax
open Finset MeasureTheory ProbabilityTheory

variable (σ : Spec) {S Ω : Type} [MeasurableSpace S] [MeasurableSpace Ω]

/-! ## Specification -/

/-- `g s p`, the gradient at `p` computed from the sample `s`, is an unbiased estimate of `G p` with variance at most `V`, when `s` has law `ν`. -/
structure StochasticGradient (σ : Spec) (ν : Measure S) (g : S → (ℕ → ℕ → ℝ) → ℕ → ℕ → ℝ) (G : (ℕ → ℕ → ℝ) → ℕ → ℕ → ℝ) (V : ℝ) : Prop where
  measurable : ∀ k i, Measurable fun x : (ℕ → ℕ → ℝ) × S => g x.2 x.1 k i
  unbiased : ∀ p, ∀ x ∈ idx σ, Integrable (fun s => g s p x.1 x.2) ν ∧ ∫ s, g s p x.1 x.2 ∂ν = G p x.1 x.2
  variance : ∀ p, Integrable (fun s => sqDist σ (g s p) (G p)) ν ∧ ∫ s, sqDist σ (g s p) (G p) ∂ν ≤ V

/-- the samples `ξ 0, ξ 1, …` are independent and have law `ν` -/
structure IID (ξ : ℕ → Ω → S) (ν : Measure S) (Pr : Measure Ω) : Prop where
  measurable : ∀ n, Measurable (ξ n)
  indep : iIndepFun ξ Pr
  law : ∀ n, Pr.map (ξ n) = ν

/-! ## Proofs -/

section Path
variable {σ}
variable {ν : Measure S} {Pr : Measure Ω} [IsProbabilityMeasure Pr] {ξ : ℕ → Ω → S} {g : S → (ℕ → ℕ → ℝ) → ℕ → ℕ → ℝ}
  {G : (ℕ → ℕ → ℝ) → ℕ → ℕ → ℝ} {V : ℝ} (lr : ℕ → ℝ) (p0 : ℕ → ℕ → ℝ)

/-- the params after `n` steps -/
noncomputable def sgdPath (lr : ℕ → ℝ) (g : S → (ℕ → ℕ → ℝ) → ℕ → ℕ → ℝ) (ξ : ℕ → Ω → S) (p0 : ℕ → ℕ → ℝ) (n : ℕ) (ω : Ω) : ℕ → ℕ → ℝ :=
  plainSgd lr (fun n => g (ξ n ω)) p0 n

theorem sgdPath_succ (n : ℕ) (ω : Ω) : sgdPath lr g ξ p0 (n + 1) ω = fun k i => sgdPath lr g ξ p0 n ω k i - lr n * g (ξ n ω) (sgdPath lr g ξ p0 n ω) k i := rfl

/-- what is known before step `n` -/
@[reducible] def past (ξ : ℕ → Ω → S) (n : ℕ) : MeasurableSpace Ω := ⨆ i ∈ Set.Iio n, MeasurableSpace.comap (ξ i) inferInstance

theorem sgdPath_past (hg : ∀ k i, Measurable fun x : (ℕ → ℕ → ℝ) × S => g x.2 x.1 k i) (n : ℕ) :
    Measurable[past ξ n] (sgdPath lr g ξ p0 n) := by
  induction n with
  | zero =>
    have : sgdPath lr g ξ p0 0 = fun _ => p0 := rfl
    rw [this]
    exact @measurable_const _ _ _ (past ξ 0) _
  | succ n ih =>
    have hle : past ξ n ≤ past ξ (n + 1) := by
      refine iSup₂_le fun i hi => ?_
      exact le_iSup₂_of_le i (Nat.lt_succ_of_lt hi) le_rfl
    have h1 : Measurable[past ξ (n + 1)] (sgdPath lr g ξ p0 n) := ih.mono hle le_rfl
    have h2 : Measurable[past ξ (n + 1)] (ξ n) := by
      have : MeasurableSpace.comap (ξ n) inferInstance ≤ past ξ (n + 1) := le_iSup₂_of_le n (Nat.lt_succ_self n) le_rfl
      exact measurable_iff_comap_le.mpr this
    let _ : MeasurableSpace Ω := past ξ (n + 1)
    refine measurable_pi_iff.mpr fun k => measurable_pi_iff.mpr fun i => ?_
    have h3 : Measurable fun ω => g (ξ n ω) (sgdPath lr g ξ p0 n ω) k i := (hg k i).comp (h1.prodMk h2)
    have h4 : Measurable fun ω => sgdPath lr g ξ p0 n ω k i := (measurable_pi_iff.mp ((measurable_pi_iff.mp h1) k)) i
    exact h4.sub (h3.const_mul (lr n))

theorem sgdPath_measurable (hξ : ∀ n, Measurable (ξ n)) (hg : ∀ k i, Measurable fun x : (ℕ → ℕ → ℝ) × S => g x.2 x.1 k i) (n : ℕ) :
    Measurable (sgdPath lr g ξ p0 n) := by
  refine (sgdPath_past lr p0 hg n).mono ?_ le_rfl
  exact iSup₂_le fun i _ => measurable_iff_comap_le.mp (hξ i)

theorem sgdPath_indep (hξ : IID ξ ν Pr) (hg : ∀ k i, Measurable fun x : (ℕ → ℕ → ℝ) × S => g x.2 x.1 k i) (n : ℕ) :
    IndepFun (sgdPath lr g ξ p0 n) (ξ n) Pr := by
  have h := indep_iSup_of_disjoint (μ := Pr) (m := fun i => MeasurableSpace.comap (ξ i) inferInstance)
    (fun i => measurable_iff_comap_le.mp (hξ.measurable i)) hξ.indep.iIndep (S := Set.Iio n) (T := {n}) (by simp)
  rw [IndepFun_iff_Indep]
  refine indep_of_indep_of_le_left (indep_of_indep_of_le_right h ?_) ?_
  · exact le_iSup₂_of_le n rfl le_rfl
  · exact measurable_iff_comap_le.mp (sgdPath_past lr p0 hg n)

/-- law of (params, sample) -/
theorem sgdPath_law (hξ : IID ξ ν Pr) (hg : ∀ k i, Measurable fun x : (ℕ → ℕ → ℝ) × S => g x.2 x.1 k i) (n : ℕ) :
    Pr.map (fun ω => (sgdPath lr g ξ p0 n ω, ξ n ω)) = (Pr.map (sgdPath lr g ξ p0 n)).prod ν := by
  have hm := sgdPath_measurable lr p0 hξ.measurable hg n
  rw [(indepFun_iff_map_prod_eq_prod_map_map hm.aemeasurable (hξ.measurable n).aemeasurable).mp (sgdPath_indep lr p0 hξ hg n), hξ.law n]

/-- independent sample: integrate over it first -/
theorem integral_sample (hξ : IID ξ ν Pr) [IsProbabilityMeasure ν] (hg : ∀ k i, Measurable fun x : (ℕ → ℕ → ℝ) × S => g x.2 x.1 k i) (n : ℕ)
    {φ : (ℕ → ℕ → ℝ) × S → ℝ} (hφ : Measurable φ) (hi : Integrable (fun ω => φ (sgdPath lr g ξ p0 n ω, ξ n ω)) Pr) :
    ∫ ω, φ (sgdPath lr g ξ p0 n ω, ξ n ω) ∂Pr = ∫ ω, ∫ s, φ (sgdPath lr g ξ p0 n ω, s) ∂ν ∂Pr ∧
    Integrable (fun ω => ∫ s, φ (sgdPath lr g ξ p0 n ω, s) ∂ν) Pr := by
  have hm := sgdPath_measurable lr p0 hξ.measurable hg n
  have hpm : Measurable fun ω => (sgdPath lr g ξ p0 n ω, ξ n ω) := hm.prodMk (hξ.measurable n)
  have hi' : Integrable φ ((Pr.map (sgdPath lr g ξ p0 n)).prod ν) := by
    rw [← sgdPath_law lr p0 hξ hg n]
    exact (integrable_map_measure hφ.aestronglyMeasurable hpm.aemeasurable).mpr hi
  constructor
  · have h1 := integral_map (μ := Pr) hpm.aemeasurable (f := φ) hφ.aestronglyMeasurable
    rw [← h1, sgdPath_law lr p0 hξ hg n]
    have : SFinite (Pr.map (sgdPath lr g ξ p0 n)) := inferInstance
    rw [integral_prod φ hi']
    exact integral_map hm.aemeasurable hφ.stronglyMeasurable.integral_prod_right'.aestronglyMeasurable
  · exact (integrable_map_measure hφ.stronglyMeasurable.integral_prod_right'.aestronglyMeasurable hm.aemeasurable).mp hi'.integral_prod_left

theorem integrable_sample (hξ : IID ξ ν Pr) [IsProbabilityMeasure ν] (hg : ∀ k i, Measurable fun x : (ℕ → ℕ → ℝ) × S => g x.2 x.1 k i) (n : ℕ)
    {φ : (ℕ → ℕ → ℝ) × S → ℝ} (hφ : Measurable φ) (h0 : ∀ x, 0 ≤ φ x) (h1 : ∀ p, Integrable (fun s => φ (p, s)) ν)
    (h2 : Integrable (fun ω => ∫ s, φ (sgdPath lr g ξ p0 n ω, s) ∂ν) Pr) :
    Integrable (fun ω => φ (sgdPath lr g ξ p0 n ω, ξ n ω)) Pr := by
  have hm := sgdPath_measurable lr p0 hξ.measurable hg n
  have hpm : Measurable fun ω => (sgdPath lr g ξ p0 n ω, ξ n ω) := hm.prodMk (hξ.measurable n)
  refine (integrable_map_measure hφ.aestronglyMeasurable hpm.aemeasurable).mp ?_
  rw [sgdPath_law lr p0 hξ hg n, integrable_prod_iff hφ.aestronglyMeasurable]
  refine ⟨Filter.Eventually.of_forall h1, ?_⟩
  have e : (fun p => ∫ s, ‖φ (p, s)‖ ∂ν) = fun p => ∫ s, φ (p, s) ∂ν := by
    funext p; congr 1; funext s; rw [Real.norm_of_nonneg (h0 _)]
  rw [e]
  exact (integrable_map_measure hφ.stronglyMeasurable.integral_prod_right'.aestronglyMeasurable hm.aemeasurable).mpr h2

end Path

section Moments
variable {σ}
variable {ν : Measure S} [IsProbabilityMeasure ν] {g : S → (ℕ → ℕ → ℝ) → ℕ → ℕ → ℝ} {G : (ℕ → ℕ → ℝ) → ℕ → ℕ → ℝ} {V : ℝ}

theorem sqNorm_split (a b : ℕ → ℕ → ℝ) : sqNorm σ a = sqDist σ a b + 2 * ∑ x ∈ idx σ, b x.1 x.2 * a x.1 x.2 - sqNorm σ b := by
  unfold sqNorm sqDist
  rw [Finset.mul_sum, ← Finset.sum_add_distrib, ← Finset.sum_sub_distrib]
  exact Finset.sum_congr rfl fun x _ => by ring

/-- second moment of the stochastic gradient at fixed params -/
theorem StochasticGradient.second (h : StochasticGradient σ ν g G V) (p : ℕ → ℕ → ℝ) :
    Integrable (fun s => sqNorm σ (g s p)) ν ∧ ∫ s, sqNorm σ (g s p) ∂ν = sqNorm σ (G p) + ∫ s, sqDist σ (g s p) (G p) ∂ν := by
  have e : (fun s => sqNorm σ (g s p)) = fun s => sqDist σ (g s p) (G p) + 2 * ∑ x ∈ idx σ, G p x.1 x.2 * g s p x.1 x.2 - sqNorm σ (G p) :=
    funext fun s => sqNorm_split _ _
  have i1 : Integrable (fun s => ∑ x ∈ idx σ, G p x.1 x.2 * g s p x.1 x.2) ν :=
    integrable_finsetSum _ fun x hx => (h.unbiased p x hx).1.const_mul _
  have i2 := (h.variance p).1
  have i3 : Integrable (fun s => sqDist σ (g s p) (G p) + 2 * ∑ x ∈ idx σ, G p x.1 x.2 * g s p x.1 x.2) ν := i2.add (i1.const_mul 2)
  refine ⟨by rw [e]; exact i3.sub (integrable_const _), ?_⟩
  rw [e, integral_sub i3 (integrable_const _), integral_add i2 (i1.const_mul 2), integral_const_mul,
    integral_finsetSum _ fun x hx => (h.unbiased p x hx).1.const_mul _]
  have e2 : ∑ x ∈ idx σ, ∫ s, G p x.1 x.2 * g s p x.1 x.2 ∂ν = sqNorm σ (G p) := by
    refine Finset.sum_congr rfl fun x hx => ?_
    rw [integral_const_mul, (h.unbiased p x hx).2]; ring
  rw [e2]
  simp
  ring

theorem StochasticGradient.measurable_G (h : StochasticGradient σ ν g G V) : ∀ x ∈ idx σ, Measurable fun p => G p x.1 x.2 := by
  intro x hx
  have := (h.measurable x.1 x.2).stronglyMeasurable.integral_prod_right' (ν := ν)
  have e : (fun p => ∫ s, g s p x.1 x.2 ∂ν) = fun p => G p x.1 x.2 := funext fun p => (h.unbiased p x hx).2
  rw [← e]
  exact this.measurable

theorem StochasticGradient.measurable_sqNorm (h : StochasticGradient σ ν g G V) : Measurable fun p => sqNorm σ (G p) :=
  Finset.measurable_sum _ fun x hx => (h.measurable_G x hx).pow_const 2

variable {Ω : Type} [MeasurableSpace Ω] {Pr : Measure Ω} [IsProbabilityMeasure Pr] {ξ : ℕ → Ω → S} (lr : ℕ → ℝ) (p0 : ℕ → ℕ → ℝ)

/-- second moment of the stochastic gradient met at step `n` -/
theorem step_second (h : StochasticGradient σ ν g G V) (hξ : IID ξ ν Pr) (n : ℕ)
    (hG : Integrable (fun ω => sqNorm σ (G (sgdPath lr g ξ p0 n ω))) Pr) :
    Integrable (fun ω => sqNorm σ (g (ξ n ω) (sgdPath lr g ξ p0 n ω))) Pr ∧
    ∫ ω, sqNorm σ (g (ξ n ω) (sgdPath lr g ξ p0 n ω)) ∂Pr ≤ ∫ ω, sqNorm σ (G (sgdPath lr g ξ p0 n ω)) ∂Pr + V := by
  have hφ : Measurable fun x : (ℕ → ℕ → ℝ) × S => sqNorm σ (g x.2 x.1) :=
    Finset.measurable_sum _ fun x _ => (h.measurable x.1 x.2).pow_const 2
  have hm := sgdPath_measurable lr p0 hξ.measurable h.measurable n
  have hin : Integrable (fun ω => ∫ s, sqNorm σ (g s (sgdPath lr g ξ p0 n ω)) ∂ν) Pr := by
    refine Integrable.mono' (hG.add (integrable_const V)) ?_ (Filter.Eventually.of_forall fun ω => ?_)
    · exact (hφ.stronglyMeasurable.integral_prod_right'.measurable.comp hm).aestronglyMeasurable
    · rw [Real.norm_of_nonneg (integral_nonneg fun s => sqNorm_nonneg σ _), (h.second _).2]
      have := (h.variance (sgdPath lr g ξ p0 n ω)).2
      simp only [Pi.add_apply]
      linarith
  have hint := integrable_sample lr p0 hξ h.measurable n hφ (fun x => sqNorm_nonneg σ _) (fun p => (h.second p).1) hin
  refine ⟨hint, ?_⟩
  rw [(integral_sample lr p0 hξ h.measurable n hφ hint).1]
  have : ∫ ω, ∫ s, sqNorm σ (g s (sgdPath lr g ξ p0 n ω)) ∂ν ∂Pr ≤ ∫ ω, (sqNorm σ (G (sgdPath lr g ξ p0 n ω)) + V) ∂Pr := by
    refine integral_mono hin (hG.add (integrable_const V)) fun ω => ?_
    simp only
    rw [(h.second _).2]
    have := (h.variance (sgdPath lr g ξ p0 n ω)).2
    linarith
  rw [integral_add hG (integrable_const V)] at this
  simpa using this

theorem inner_abs_le (a b : ℕ → ℕ → ℝ) : |treeInner σ a b| ≤ (sqNorm σ a + sqNorm σ b) / 2 := by
  unfold treeInner sqNorm
  rw [abs_le]
  rw [← Finset.sum_add_distrib, Finset.sum_div]
  constructor
  · rw [← Finset.sum_neg_distrib]
    exact Finset.sum_le_sum fun x _ => by nlinarith [sq_nonneg (a x.1 x.2 + b x.1 x.2)]
  · exact Finset.sum_le_sum fun x _ => by nlinarith [sq_nonneg (a x.1 x.2 - b x.1 x.2)]

/-- mean of the inner product of the stochastic gradient with anything known before the step -/
theorem step_inner (h : StochasticGradient σ ν g G V) (hξ : IID ξ ν Pr) (n : ℕ)
    (hG : Integrable (fun ω => sqNorm σ (G (sgdPath lr g ξ p0 n ω))) Pr) {w : (ℕ → ℕ → ℝ) → ℕ → ℕ → ℝ}
    (hw : ∀ x ∈ idx σ, Measurable fun p => w p x.1 x.2) (hwi : Integrable (fun ω => sqNorm σ (w (sgdPath lr g ξ p0 n ω))) Pr) :
    Integrable (fun ω => treeInner σ (g (ξ n ω) (sgdPath lr g ξ p0 n ω)) (w (sgdPath lr g ξ p0 n ω))) Pr ∧
    Integrable (fun ω => treeInner σ (G (sgdPath lr g ξ p0 n ω)) (w (sgdPath lr g ξ p0 n ω))) Pr ∧
    ∫ ω, treeInner σ (g (ξ n ω) (sgdPath lr g ξ p0 n ω)) (w (sgdPath lr g ξ p0 n ω)) ∂Pr =
      ∫ ω, treeInner σ (G (sgdPath lr g ξ p0 n ω)) (w (sgdPath lr g ξ p0 n ω)) ∂Pr := by
  have hm := sgdPath_measurable lr p0 hξ.measurable h.measurable n
  have hφ : Measurable fun x : (ℕ → ℕ → ℝ) × S => treeInner σ (g x.2 x.1) (w x.1) :=
    Finset.measurable_sum _ fun x hx => (h.measurable x.1 x.2).mul ((hw x hx).comp measurable_fst)
  have hψ : Measurable fun p => treeInner σ (G p) (w p) := Finset.measurable_sum _ fun x hx => (h.measurable_G x hx).mul (hw x hx)
  have i1 : Integrable (fun ω => treeInner σ (g (ξ n ω) (sgdPath lr g ξ p0 n ω)) (w (sgdPath lr g ξ p0 n ω))) Pr := by
    refine Integrable.mono' (((step_second lr p0 h hξ n hG).1.add hwi).div_const 2) ?_ (Filter.Eventually.of_forall fun ω => ?_)
    · exact (hφ.comp (hm.prodMk (hξ.measurable n))).aestronglyMeasurable
    · rw [Real.norm_eq_abs]; exact inner_abs_le _ _
  have i2 : Integrable (fun ω => treeInner σ (G (sgdPath lr g ξ p0 n ω)) (w (sgdPath lr g ξ p0 n ω))) Pr := by
    refine Integrable.mono' ((hG.add hwi).div_const 2) (hψ.comp hm).aestronglyMeasurable (Filter.Eventually.of_forall fun ω => ?_)
    rw [Real.norm_eq_abs]; exact inner_abs_le _ _
  refine ⟨i1, i2, ?_⟩
  have e := (integral_sample lr p0 hξ h.measurable n hφ i1).1
  rw [e]
  congr 1
  funext ω
  unfold treeInner
  rw [integral_finsetSum _ fun x hx => ((h.unbiased (sgdPath lr g ξ p0 n ω) x hx).1.mul_const (w (sgdPath lr g ξ p0 n ω) x.1 x.2))]
  refine Finset.sum_congr rfl fun x hx => ?_
  rw [integral_mul_const, (h.unbiased _ x hx).2]

/-- expected squared distance to a point after a step -/
theorem step_dist (h : StochasticGradient σ ν g G V) (hξ : IID ξ ν Pr) (q : ℕ → ℕ → ℝ) (n : ℕ)
    (hG : Integrable (fun ω => sqNorm σ (G (sgdPath lr g ξ p0 n ω))) Pr) (hD : Integrable (fun ω => sqDist σ (sgdPath lr g ξ p0 n ω) q) Pr) :
    Integrable (fun ω => sqDist σ (sgdPath lr g ξ p0 (n + 1) ω) q) Pr ∧
    Integrable (fun ω => treeInner σ (G (sgdPath lr g ξ p0 n ω)) (fun k i => q k i - sgdPath lr g ξ p0 n ω k i)) Pr ∧
    ∫ ω, sqDist σ (sgdPath lr g ξ p0 (n + 1) ω) q ∂Pr ≤ ∫ ω, sqDist σ (sgdPath lr g ξ p0 n ω) q ∂Pr +
      2 * lr n * ∫ ω, treeInner σ (G (sgdPath lr g ξ p0 n ω)) (fun k i => q k i - sgdPath lr g ξ p0 n ω k i) ∂Pr +
      lr n ^ 2 * (∫ ω, sqNorm σ (G (sgdPath lr g ξ p0 n ω)) ∂Pr + V) := by
  have e0 : ∀ p : ℕ → ℕ → ℝ, sqNorm σ (fun k i => q k i - p k i) = sqDist σ p q := fun p => by
    unfold sqNorm sqDist; exact Finset.sum_congr rfl fun x _ => by ring
  obtain ⟨i1, i2, e1⟩ := step_inner lr p0 h hξ n hG (w := fun p k i => q k i - p k i)
    (fun x _ => by fun_prop) (by simpa only [e0] using hD)
  obtain ⟨i3, e3⟩ := step_second lr p0 h hξ n hG
  have e : (fun ω => sqDist σ (sgdPath lr g ξ p0 (n + 1) ω) q) = fun ω => sqDist σ (sgdPath lr g ξ p0 n ω) q +
      2 * lr n * treeInner σ (g (ξ n ω) (sgdPath lr g ξ p0 n ω)) (fun k i => q k i - sgdPath lr g ξ p0 n ω k i) +
      lr n ^ 2 * sqNorm σ (g (ξ n ω) (sgdPath lr g ξ p0 n ω)) := by
    funext ω
    rw [sgdPath_succ, sqDist_step]
  have i4 : Integrable (fun ω => sqDist σ (sgdPath lr g ξ p0 n ω) q +
      2 * lr n * treeInner σ (g (ξ n ω) (sgdPath lr g ξ p0 n ω)) (fun k i => q k i - sgdPath lr g ξ p0 n ω k i)) Pr := hD.add (i1.const_mul _)
  refine ⟨by rw [e]; exact i4.add (i3.const_mul _), i2, ?_⟩
  rw [e, integral_add i4 (i3.const_mul _), integral_add hD (i1.const_mul _), integral_const_mul, integral_const_mul, e1]
  have := mul_le_mul_of_nonneg_left e3 (sq_nonneg (lr n))
  linarith

/-- expected loss after a step on a smooth loss bounded below -/
theorem step_loss {L : ℝ} (hL : 0 < L) {loss : Params ℝ → ℝ} (hm : Measurable fun p : ℕ → ℕ → ℝ => loss (mk σ p)) (hs : Smooth σ L loss G)
    {lo : ℝ} (hlo : ∀ t, lo ≤ loss t) (h : StochasticGradient σ ν g G V) (hξ : IID ξ ν Pr) (n : ℕ) :
    Integrable (fun ω => loss (mk σ (sgdPath lr g ξ p0 n ω))) Pr ∧ Integrable (fun ω => sqNorm σ (G (sgdPath lr g ξ p0 n ω))) Pr ∧
    ∫ ω, loss (mk σ (sgdPath lr g ξ p0 (n + 1) ω)) ∂Pr ≤ ∫ ω, loss (mk σ (sgdPath lr g ξ p0 n ω)) ∂Pr -
      (lr n - L * lr n ^ 2 / 2) * ∫ ω, sqNorm σ (G (sgdPath lr g ξ p0 n ω)) ∂Pr + L * lr n ^ 2 / 2 * V := by
  have hP := fun n => sgdPath_measurable lr p0 hξ.measurable h.measurable n
  -- gradients are controlled by the loss
  have hGl : ∀ p, sqNorm σ (G p) ≤ 2 * L * (loss (mk σ p) - lo) := by
    intro p
    have h1 := descent_step σ hs p (1 / L)
    have e : 1 / L * (1 - L * (1 / L) / 2) = 1 / (2 * L) := by field_simp; norm_num
    rw [e] at h1
    have h2 := hlo (mk σ (fun k i => p k i - 1 / L * G p k i))
    have h3 : 1 / (2 * L) * sqNorm σ (G p) ≤ loss (mk σ p) - lo := by linarith
    have h4 := mul_le_mul_of_nonneg_left h3 (show 0 ≤ 2 * L by positivity)
    have e2 : 2 * L * (1 / (2 * L) * sqNorm σ (G p)) = sqNorm σ (G p) := by field_simp
    linarith
  have hGi : ∀ n, Integrable (fun ω => loss (mk σ (sgdPath lr g ξ p0 n ω))) Pr → Integrable (fun ω => sqNorm σ (G (sgdPath lr g ξ p0 n ω))) Pr := by
    intro n hi
    refine Integrable.mono' ((hi.sub (integrable_const lo)).const_mul (2 * L)) (h.measurable_sqNorm.comp (hP n)).aestronglyMeasurable
      (Filter.Eventually.of_forall fun ω => ?_)
    rw [Real.norm_of_nonneg (sqNorm_nonneg σ _)]
    exact hGl _
  have step : ∀ n, Integrable (fun ω => loss (mk σ (sgdPath lr g ξ p0 n ω))) Pr →
      Integrable (fun ω => loss (mk σ (sgdPath lr g ξ p0 (n + 1) ω))) Pr ∧
      ∫ ω, loss (mk σ (sgdPath lr g ξ p0 (n + 1) ω)) ∂Pr ≤ ∫ ω, loss (mk σ (sgdPath lr g ξ p0 n ω)) ∂Pr -
      (lr n - L * lr n ^ 2 / 2) * ∫ ω, sqNorm σ (G (sgdPath lr g ξ p0 n ω)) ∂Pr + L * lr n ^ 2 / 2 * V := by
    intro n hi
    have hG := hGi n hi
    obtain ⟨i1, i2, e1⟩ := step_inner lr p0 h hξ n hG (w := G) h.measurable_G hG
    obtain ⟨i3, e3⟩ := step_second lr p0 h hξ n hG
    have hpt : ∀ ω, loss (mk σ (sgdPath lr g ξ p0 (n + 1) ω)) ≤ loss (mk σ (sgdPath lr g ξ p0 n ω)) -
        lr n * treeInner σ (g (ξ n ω) (sgdPath lr g ξ p0 n ω)) (G (sgdPath lr g ξ p0 n ω)) +
        L * lr n ^ 2 / 2 * sqNorm σ (g (ξ n ω) (sgdPath lr g ξ p0 n ω)) := by
      intro ω
      have h1 := hs (sgdPath lr g ξ p0 n ω) (sgdPath lr g ξ p0 (n + 1) ω)
      rw [sgdPath_succ, sqDist_self_step] at h1
      rw [sgdPath_succ]
      have e : treeInner σ (G (sgdPath lr g ξ p0 n ω)) (fun k i => sgdPath lr g ξ p0 n ω k i - lr n * g (ξ n ω) (sgdPath lr g ξ p0 n ω) k i -
          sgdPath lr g ξ p0 n ω k i) = -(lr n * treeInner σ (g (ξ n ω) (sgdPath lr g ξ p0 n ω)) (G (sgdPath lr g ξ p0 n ω))) := by
        unfold treeInner
        rw [Finset.mul_sum, ← Finset.sum_neg_distrib]
        exact Finset.sum_congr rfl fun x _ => by ring
      rw [e] at h1
      linarith
    have i4 : Integrable (fun ω => loss (mk σ (sgdPath lr g ξ p0 n ω)) -
        lr n * treeInner σ (g (ξ n ω) (sgdPath lr g ξ p0 n ω)) (G (sgdPath lr g ξ p0 n ω))) Pr := hi.sub (i1.const_mul _)
    have i5 : Integrable (fun ω => loss (mk σ (sgdPath lr g ξ p0 n ω)) -
        lr n * treeInner σ (g (ξ n ω) (sgdPath lr g ξ p0 n ω)) (G (sgdPath lr g ξ p0 n ω)) +
        L * lr n ^ 2 / 2 * sqNorm σ (g (ξ n ω) (sgdPath lr g ξ p0 n ω))) Pr := i4.add (i3.const_mul _)
    have hi' : Integrable (fun ω => loss (mk σ (sgdPath lr g ξ p0 (n + 1) ω))) Pr := by
      refine Integrable.mono' (i5.norm.add (integrable_const |lo|)) (hm.comp (hP (n + 1))).aestronglyMeasurable (Filter.Eventually.of_forall fun ω => ?_)
      have h1 := hpt ω
      have h2 := hlo (mk σ (sgdPath lr g ξ p0 (n + 1) ω))
      simp only [Pi.add_apply, Real.norm_eq_abs]
      rw [abs_le]
      constructor
      · have := neg_abs_le lo
        have := abs_nonneg (loss (mk σ (sgdPath lr g ξ p0 n ω)) -
          lr n * treeInner σ (g (ξ n ω) (sgdPath lr g ξ p0 n ω)) (G (sgdPath lr g ξ p0 n ω)) +
          L * lr n ^ 2 / 2 * sqNorm σ (g (ξ n ω) (sgdPath lr g ξ p0 n ω)))
        linarith
      · have := le_abs_self (loss (mk σ (sgdPath lr g ξ p0 n ω)) -
          lr n * treeInner σ (g (ξ n ω) (sgdPath lr g ξ p0 n ω)) (G (sgdPath lr g ξ p0 n ω)) +
          L * lr n ^ 2 / 2 * sqNorm σ (g (ξ n ω) (sgdPath lr g ξ p0 n ω)))
        have := abs_nonneg lo
        linarith
    refine ⟨hi', ?_⟩
    have h1 := integral_mono hi' i5 hpt
    rw [integral_add i4 (i3.const_mul _), integral_sub hi (i1.const_mul _), integral_const_mul, integral_const_mul, e1] at h1
    have e2 : ∀ ω, treeInner σ (G (sgdPath lr g ξ p0 n ω)) (G (sgdPath lr g ξ p0 n ω)) = sqNorm σ (G (sgdPath lr g ξ p0 n ω)) := fun ω => by
      unfold treeInner sqNorm; exact Finset.sum_congr rfl fun x _ => by ring
    simp only [e2] at h1
    have h2 := mul_le_mul_of_nonneg_left e3 (show 0 ≤ L * lr n ^ 2 / 2 by positivity)
    linarith
  have all : ∀ n, Integrable (fun ω => loss (mk σ (sgdPath lr g ξ p0 n ω))) Pr := by
    intro n
    induction n with
    | zero => exact integrable_const (loss (mk σ p0))
    | succ n ih => exact (step n ih).1
  exact ⟨all n, hGi n (all n), (step n (all n)).2⟩

end Moments

theorem stochastic_visits (lr : LR ℝ) (nes : Bool) (grad : S → Params ℝ → Params ℝ) (g : S → (ℕ → ℕ → ℝ) → ℕ → ℕ → ℝ)
    (hg : ∀ s p, grad s (mk σ p) = mk σ (g s p)) (p0 : ℕ → ℕ → ℝ) (ξ : ℕ → Ω → S) (ω : Ω) :
    Visits (sgd lr none nes) (fun n => grad (ξ n ω)) σ (fun n => sgdPath lr.at g ξ p0 n ω) :=
  sgd_visits σ lr nes (fun n => grad (ξ n ω)) (fun n => g (ξ n ω)) (fun n p => hg _ p) p0

variable {ν : Measure S} [IsProbabilityMeasure ν] {Pr : Measure Ω} [IsProbabilityMeasure Pr] {ξ : ℕ → Ω → S}

/-- **C97 (convex, Lipschitz).** Samples i.i.d., stochastic gradients unbiased with variance at most `V`, a convex loss with gradients of norm at
most `B`, any schedule of non-negative rates, any comparator `q`:
`Σ ηₙ (E[loss(pₙ)] - loss(q)) ≤ ‖p₀-q‖²/2 + (B²+V)/2·Σ ηₙ²`. -/
theorem C97_convex (lr : LR ℝ) (nes : Bool) (hlr : ∀ n, 0 ≤ lr.at n) (loss : Params ℝ → ℝ) (hm : Measurable fun p : ℕ → ℕ → ℝ => loss (mk σ p))
    (grad : S → Params ℝ → Params ℝ) (g : S → (ℕ → ℕ → ℝ) → ℕ → ℕ → ℝ) (hg : ∀ s p, grad s (mk σ p) = mk σ (g s p))
    (G : (ℕ → ℕ → ℝ) → ℕ → ℕ → ℝ) (hc : StronglyConvex σ 0 loss G) (V : ℝ) (h : StochasticGradient σ ν g G V) (hξ : IID ξ ν Pr)
    (B : ℝ) (hB : ∀ p, globalNorm (mk σ (G p)) ≤ B) (p0 q : ℕ → ℕ → ℝ) :
    ∃ P : ℕ → Ω → ℕ → ℕ → ℝ, (∀ ω, P 0 ω = p0 ∧ Visits (sgd lr none nes) (fun n => grad (ξ n ω)) σ (fun n => P n ω)) ∧
      (∀ n, Integrable (fun ω => loss (mk σ (P n ω))) Pr) ∧
      ∀ N, ∑ n ∈ range N, lr.at n * (∫ ω, loss (mk σ (P n ω)) ∂Pr - loss (mk σ q)) ≤
        treeDist σ p0 q ^ 2 / 2 + (B ^ 2 + V) / 2 * ∑ n ∈ range N, lr.at n ^ 2 := by
  set P := sgdPath lr.at g ξ p0 with hPd
  have hP := fun n => sgdPath_measurable lr.at p0 hξ.measurable h.measurable n
  have hBs : ∀ p, sqNorm σ (G p) ≤ B ^ 2 := fun p => by
    rw [sqNorm_eq]; exact pow_le_pow_left₀ (C61_nonneg _) (hB p) 2
  have hG : ∀ n, Integrable (fun ω => sqNorm σ (G (P n ω))) Pr := fun n =>
    Integrable.mono' (integrable_const (B ^ 2)) (h.measurable_sqNorm.comp (hP n)).aestronglyMeasurable
      (Filter.Eventually.of_forall fun ω => by rw [Real.norm_of_nonneg (sqNorm_nonneg σ _)]; exact hBs _)
  have hD : ∀ q n, Integrable (fun ω => sqDist σ (P n ω) q) Pr := by
    intro q n
    induction n with
    | zero => exact integrable_const (sqDist σ p0 q)
    | succ n ih => exact (step_dist lr.at p0 h hξ q n (hG n) ih).1
  have hin : ∀ n, Integrable (fun ω => loss (mk σ (P n ω))) Pr := by
    intro n
    have i1 := (step_dist lr.at p0 h hξ q n (hG n) (hD q n)).2.1
    have i2 : Integrable (fun ω => treeInner σ (G q) (fun k i => P n ω k i - q k i)) Pr := by
      refine Integrable.mono' (((integrable_const (sqNorm σ (G q))).add (hD q n)).div_const 2) ?_ (Filter.Eventually.of_forall fun ω => ?_)
      · refine Measurable.aestronglyMeasurable (Finset.measurable_sum _ fun x _ => ?_)
        have : Measurable fun ω => P n ω x.1 x.2 := (measurable_pi_iff.mp ((measurable_pi_iff.mp (hP n)) x.1)) x.2
        exact (this.sub_const _).const_mul _
      · rw [Real.norm_eq_abs]; exact inner_abs_le _ _
    refine Integrable.mono' ((i1.abs.add i2.abs).add (integrable_const |loss (mk σ q)|)) (hm.comp (hP n)).aestronglyMeasurable
      (Filter.Eventually.of_forall fun ω => ?_)
    have h1 := hc (P n ω) q
    have h2 := hc q (P n ω)
    simp only [zero_div, zero_mul, add_zero] at h1 h2
    simp only [Pi.add_apply, Real.norm_eq_abs]
    have := neg_abs_le (treeInner σ (G q) (fun k i => P n ω k i - q k i))
    have := neg_abs_le (treeInner σ (G (P n ω)) (fun k i => q k i - P n ω k i))
    have := abs_nonneg (treeInner σ (G q) (fun k i => P n ω k i - q k i))
    have := abs_nonneg (treeInner σ (G (P n ω)) (fun k i => q k i - P n ω k i))
    have := neg_abs_le (loss (mk σ q))
    have := le_abs_self (loss (mk σ q))
    rw [abs_le]
    constructor <;> linarith
  refine ⟨P, fun ω => ⟨rfl, stochastic_visits σ lr nes grad g hg p0 ξ ω⟩, hin, fun N => ?_⟩
  have key : ∀ N, ∑ n ∈ range N, lr.at n * (∫ ω, loss (mk σ (P n ω)) ∂Pr - loss (mk σ q)) + (∫ ω, sqDist σ (P N ω) q ∂Pr) / 2 ≤
      sqDist σ p0 q / 2 + (B ^ 2 + V) / 2 * ∑ n ∈ range N, lr.at n ^ 2 := by
    intro N
    induction N with
    | zero =>
      have : ∀ ω, P 0 ω = p0 := fun ω => rfl
      simp [this]
    | succ N ih =>
      rw [Finset.sum_range_succ, Finset.sum_range_succ]
      obtain ⟨-, i1, h1⟩ := step_dist lr.at p0 h hξ q N (hG N) (hD q N)
      rw [← hPd] at h1 i1
      have h2 : ∫ ω, treeInner σ (G (P N ω)) (fun k i => q k i - P N ω k i) ∂Pr ≤ loss (mk σ q) - ∫ ω, loss (mk σ (P N ω)) ∂Pr := by
        have h3 : ∫ ω, treeInner σ (G (P N ω)) (fun k i => q k i - P N ω k i) ∂Pr ≤ ∫ ω, (loss (mk σ q) - loss (mk σ (P N ω))) ∂Pr := by
          refine integral_mono i1 ((integrable_const _).sub (hin N)) fun ω => ?_
          have := hc (P N ω) q
          simp only [zero_div, zero_mul, add_zero] at this
          simp only
          linarith
        rw [integral_sub (integrable_const _) (hin N)] at h3
        simpa using h3
      have h3 : ∫ ω, sqNorm σ (G (P N ω)) ∂Pr ≤ B ^ 2 := by
        have := integral_mono (hG N) (integrable_const (B ^ 2)) fun ω => hBs (P N ω)
        simpa using this
      have h4 := mul_le_mul_of_nonneg_left h2 (hlr N)
      have h5 := mul_le_mul_of_nonneg_left h3 (sq_nonneg (lr.at N))
      linarith
  rw [← sqDist_eq]
  have h1 := key N
  have h2 : 0 ≤ ∫ ω, sqDist σ (P N ω) q ∂Pr := integral_nonneg fun ω => sqDist_nonneg σ _ _
  linarith

/-- **C97 (non-convex).** On an `L`-smooth loss bounded below by `lo` (convex or not), with rates `0 ≤ ηₙ ≤ 1/L`:
`Σ ηₙ E‖∇loss(pₙ)‖² ≤ 2(loss(p₀) - lo) + L V Σ ηₙ²`. -/
theorem C97_nonconvex (lr : LR ℝ) (nes : Bool) (L : ℝ) (hL : 0 < L) (hlr : ∀ n, 0 ≤ lr.at n ∧ L * lr.at n ≤ 1) (loss : Params ℝ → ℝ)
    (hm : Measurable fun p : ℕ → ℕ → ℝ => loss (mk σ p))
    (grad : S → Params ℝ → Params ℝ) (g : S → (ℕ → ℕ → ℝ) → ℕ → ℕ → ℝ) (hg : ∀ s p, grad s (mk σ p) = mk σ (g s p))
    (G : (ℕ → ℕ → ℝ) → ℕ → ℕ → ℝ) (hs : Smooth σ L loss G) (lo : ℝ) (hlo : ∀ t, lo ≤ loss t) (V : ℝ) (h : StochasticGradient σ ν g G V)
    (hξ : IID ξ ν Pr) (p0 : ℕ → ℕ → ℝ) :
    ∃ P : ℕ → Ω → ℕ → ℕ → ℝ, (∀ ω, P 0 ω = p0 ∧ Visits (sgd lr none nes) (fun n => grad (ξ n ω)) σ (fun n => P n ω)) ∧
      (∀ n, Integrable (fun ω => globalNorm (mk σ (G (P n ω))) ^ 2) Pr) ∧
      ∀ N, ∑ n ∈ range N, lr.at n * ∫ ω, globalNorm (mk σ (G (P n ω))) ^ 2 ∂Pr ≤
        2 * (loss (mk σ p0) - lo) + L * V * ∑ n ∈ range N, lr.at n ^ 2 := by
  set P := sgdPath lr.at g ξ p0 with hPd
  have st := fun n => step_loss lr.at p0 hL hm hs hlo h hξ n
  rw [← hPd] at st
  simp only [← sqNorm_eq]
  refine ⟨P, fun ω => ⟨rfl, stochastic_visits σ lr nes grad g hg p0 ξ ω⟩, fun n => (st n).2.1, fun N => ?_⟩
  have key : ∀ N, ∑ n ∈ range N, lr.at n * ∫ ω, sqNorm σ (G (P n ω)) ∂Pr + 2 * ∫ ω, loss (mk σ (P N ω)) ∂Pr ≤
      2 * loss (mk σ p0) + L * V * ∑ n ∈ range N, lr.at n ^ 2 := by
    intro N
    induction N with
    | zero =>
      have : ∀ ω, P 0 ω = p0 := fun ω => rfl
      simp [this]
    | succ N ih =>
      rw [Finset.sum_range_succ, Finset.sum_range_succ]
      have h1 := (st N).2.2
      have h2 : 0 ≤ ∫ ω, sqNorm σ (G (P N ω)) ∂Pr := integral_nonneg fun ω => sqNorm_nonneg σ _
      have h3 : lr.at N ≤ 2 * (lr.at N - L * lr.at N ^ 2 / 2) := by nlinarith [(hlr N).1, (hlr N).2]
      have h4 := mul_le_mul_of_nonneg_right h3 h2
      linarith
  have h1 := key N
  have h2 : lo ≤ ∫ ω, loss (mk σ (P N ω)) ∂Pr := by
    have := integral_mono (integrable_const lo) (st N).1 fun ω => hlo (mk σ (P N ω))
    simpa using this
  linarith

/-- **C97 (strongly convex).** On a `μ`-strongly convex `L`-smooth loss with minimiser `q`, constant rate `0 < η ≤ 1/L`:
`E‖p_N - q‖² ≤ (1-ημ)^N ‖p₀-q‖² + ηV/μ`: linear convergence to a neighbourhood proportional to the rate and the variance. -/
theorem C97_strongly_convex (η : ℝ) (nes : Bool) (L μ : ℝ) (hη : 0 < η) (hL : 0 < L) (hμ : 0 < μ) (hLη : L * η ≤ 1) (hμη : η * μ ≤ 1) (loss : Params ℝ → ℝ)
    (hm : Measurable fun p : ℕ → ℕ → ℝ => loss (mk σ p))
    (grad : S → Params ℝ → Params ℝ) (g : S → (ℕ → ℕ → ℝ) → ℕ → ℕ → ℝ) (hg : ∀ s p, grad s (mk σ p) = mk σ (g s p))
    (G : (ℕ → ℕ → ℝ) → ℕ → ℕ → ℝ) (hs : Smooth σ L loss G) (hc : StronglyConvex σ μ loss G) (V : ℝ) (h : StochasticGradient σ ν g G V)
    (hξ : IID ξ ν Pr) (p0 q : ℕ → ℕ → ℝ) (hq : ∀ t, loss (mk σ q) ≤ loss t) :
    ∃ P : ℕ → Ω → ℕ → ℕ → ℝ,
      (∀ ω, P 0 ω = p0 ∧ Visits (sgd (.scalar η) none nes) (fun n => grad (ξ n ω)) σ (fun n => P n ω)) ∧
      (∀ n, Integrable (fun ω => treeDist σ (P n ω) q ^ 2) Pr) ∧
      ∀ N, ∫ ω, treeDist σ (P N ω) q ^ 2 ∂Pr ≤ (1 - η * μ) ^ N * treeDist σ p0 q ^ 2 + η * V / μ := by
  set P := sgdPath (LR.at (.scalar η)) g ξ p0 with hPd
  have hG := fun n => (step_loss (LR.at (.scalar η)) p0 hL hm hs hq h hξ n).2.1
  have hD : ∀ n, Integrable (fun ω => sqDist σ (P n ω) q) Pr := by
    intro n
    induction n with
    | zero => exact integrable_const (sqDist σ p0 q)
    | succ n ih => exact (step_dist (LR.at (.scalar η)) p0 h hξ q n (hG n) ih).1
  have hV : 0 ≤ V := by
    have h1 := (h.variance p0).2
    have h2 : 0 ≤ ∫ s, sqDist σ (g s p0) (G p0) ∂ν := integral_nonneg fun s => sqDist_nonneg σ _ _
    linarith
  simp only [← sqDist_eq]
  refine ⟨P, fun ω => ⟨rfl, stochastic_visits σ (.scalar η) nes grad g hg p0 ξ ω⟩, hD, fun N => ?_⟩
  have key : ∀ N, ∫ ω, sqDist σ (P (N + 1) ω) q ∂Pr ≤ (1 - η * μ) * ∫ ω, sqDist σ (P N ω) q ∂Pr + η ^ 2 * V := by
    intro N
    obtain ⟨-, i1, h1⟩ := step_dist (LR.at (.scalar η)) p0 h hξ q N (hG N) (hD N)
    rw [← hPd] at h1 i1
    have hGN := hG N
    rw [← hPd] at hGN
    simp only [LR.at] at h1
    have i2 : Integrable (fun ω => sqDist σ (P N ω) q + 2 * η * treeInner σ (G (P N ω)) (fun k i => q k i - P N ω k i)) Pr :=
      (hD N).add (i1.const_mul _)
    have h2 : ∫ ω, (sqDist σ (P N ω) q + 2 * η * treeInner σ (G (P N ω)) (fun k i => q k i - P N ω k i) + η ^ 2 * sqNorm σ (G (P N ω))) ∂Pr ≤
        ∫ ω, (1 - η * μ) * sqDist σ (P N ω) q ∂Pr := by
      refine integral_mono (i2.add (hGN.const_mul _)) ((hD N).const_mul _) fun ω => ?_
      have h3 := convex_step σ hs hc (P N ω) q η hη.le hLη
      rw [sqDist_step] at h3
      have h4 := hq (mk σ (fun k i => P N ω k i - η * G (P N ω) k i))
      have h5 : 0 ≤ 2 * η * (loss (mk σ (fun k i => P N ω k i - η * G (P N ω) k i)) - loss (mk σ q)) := mul_nonneg (by linarith) (by linarith)
      simp only
      linarith
    rw [integral_add i2 (hGN.const_mul _), integral_add (hD N) (i1.const_mul _), integral_const_mul, integral_const_mul, integral_const_mul] at h2
    linarith
  induction N with
  | zero =>
    have : ∀ ω, P 0 ω = p0 := fun ω => rfl
    simp only [this, pow_zero, one_mul, integral_const, probReal_univ, smul_eq_mul]
    have : 0 ≤ η * V / μ := by positivity
    linarith
  | succ N ih =>
    have h1 := mul_le_mul_of_nonneg_left ih (show 0 ≤ 1 - η * μ by linarith)
    have h2 := key N
    have e : (1 - η * μ) * (η * V / μ) + η ^ 2 * V = η * V / μ := by field_simp; ring
    rw [pow_succ']
    nlinarith

/-- **C97 (convex, smooth).** On a convex `L`-smooth loss with minimiser `q`, rates `0 ≤ ηₙ ≤ 1/(2L)`:
`Σ ηₙ (E[loss(pₙ)] - loss(q)) ≤ ‖p₀-q‖² + V Σ ηₙ²`; without noise (`V = 0`) this is the rate of C76. -/
theorem C97_convex_smooth (lr : LR ℝ) (nes : Bool) (L : ℝ) (hL : 0 < L) (hlr : ∀ n, 0 ≤ lr.at n ∧ 2 * L * lr.at n ≤ 1) (loss : Params ℝ → ℝ)
    (hm : Measurable fun p : ℕ → ℕ → ℝ => loss (mk σ p))
    (grad : S → Params ℝ → Params ℝ) (g : S → (ℕ → ℕ → ℝ) → ℕ → ℕ → ℝ) (hg : ∀ s p, grad s (mk σ p) = mk σ (g s p))
    (G : (ℕ → ℕ → ℝ) → ℕ → ℕ → ℝ) (hs : Smooth σ L loss G) (hc : StronglyConvex σ 0 loss G) (V : ℝ) (h : StochasticGradient σ ν g G V)
    (hξ : IID ξ ν Pr) (p0 q : ℕ → ℕ → ℝ) (hq : ∀ t, loss (mk σ q) ≤ loss t) :
    ∃ P : ℕ → Ω → ℕ → ℕ → ℝ, (∀ ω, P 0 ω = p0 ∧ Visits (sgd lr none nes) (fun n => grad (ξ n ω)) σ (fun n => P n ω)) ∧
      (∀ n, Integrable (fun ω => loss (mk σ (P n ω))) Pr) ∧
      ∀ N, ∑ n ∈ range N, lr.at n * (∫ ω, loss (mk σ (P n ω)) ∂Pr - loss (mk σ q)) ≤
        treeDist σ p0 q ^ 2 + V * ∑ n ∈ range N, lr.at n ^ 2 := by
  set P := sgdPath lr.at g ξ p0 with hPd
  have st := fun n => step_loss lr.at p0 hL hm hs hq h hξ n
  rw [← hPd] at st
  have hD : ∀ n, Integrable (fun ω => sqDist σ (P n ω) q) Pr := by
    intro n
    induction n with
    | zero => exact integrable_const (sqDist σ p0 q)
    | succ n ih => exact (step_dist lr.at p0 h hξ q n (st n).2.1 ih).1
  have hGl : ∀ p, sqNorm σ (G p) ≤ 2 * L * (loss (mk σ p) - loss (mk σ q)) := by
    intro p
    have h1 := descent_step σ hs p (1 / L)
    have e : 1 / L * (1 - L * (1 / L) / 2) = 1 / (2 * L) := by field_simp; norm_num
    rw [e] at h1
    have h2 := hq (mk σ (fun k i => p k i - 1 / L * G p k i))
    have h3 : 1 / (2 * L) * sqNorm σ (G p) ≤ loss (mk σ p) - loss (mk σ q) := by linarith
    have h4 := mul_le_mul_of_nonneg_left h3 (show 0 ≤ 2 * L by positivity)
    have e2 : 2 * L * (1 / (2 * L) * sqNorm σ (G p)) = sqNorm σ (G p) := by field_simp
    linarith
  refine ⟨P, fun ω => ⟨rfl, stochastic_visits σ lr nes grad g hg p0 ξ ω⟩, fun n => (st n).1, fun N => ?_⟩
  have key : ∀ N, ∑ n ∈ range N, lr.at n * (∫ ω, loss (mk σ (P n ω)) ∂Pr - loss (mk σ q)) + ∫ ω, sqDist σ (P N ω) q ∂Pr ≤
      sqDist σ p0 q + V * ∑ n ∈ range N, lr.at n ^ 2 := by
    intro N
    induction N with
    | zero =>
      have : ∀ ω, P 0 ω = p0 := fun ω => rfl
      simp [this]
    | succ N ih =>
      rw [Finset.sum_range_succ, Finset.sum_range_succ]
      obtain ⟨-, i1, h1⟩ := step_dist lr.at p0 h hξ q N (st N).2.1 (hD N)
      rw [← hPd] at h1 i1
      have i2 := (integrable_const (μ := Pr) (loss (mk σ q))).sub (st N).1
      have h2 : ∫ ω, treeInner σ (G (P N ω)) (fun k i => q k i - P N ω k i) ∂Pr ≤ loss (mk σ q) - ∫ ω, loss (mk σ (P N ω)) ∂Pr := by
        have h3 : ∫ ω, treeInner σ (G (P N ω)) (fun k i => q k i - P N ω k i) ∂Pr ≤ ∫ ω, (loss (mk σ q) - loss (mk σ (P N ω))) ∂Pr := by
          refine integral_mono i1 i2 fun ω => ?_
          have := hc (P N ω) q
          simp only [zero_div, zero_mul, add_zero] at this
          simp only
          linarith
        rw [integral_sub (integrable_const _) (st N).1] at h3
        simpa using h3
      have h3 : ∫ ω, sqNorm σ (G (P N ω)) ∂Pr ≤ 2 * L * (∫ ω, loss (mk σ (P N ω)) ∂Pr - loss (mk σ q)) := by
        have h4 := integral_mono (st N).2.1 (((st N).1.sub (integrable_const (loss (mk σ q)))).const_mul (2 * L)) fun ω => hGl (P N ω)
        simp only [Pi.sub_apply] at h4
        rw [integral_const_mul, integral_sub (st N).1 (integrable_const _)] at h4
        simpa using h4
      have h4 : 0 ≤ ∫ ω, loss (mk σ (P N ω)) ∂Pr - loss (mk σ q) := by
        have := integral_mono (integrable_const (loss (mk σ q))) (st N).1 fun ω => hq (mk σ (P N ω))
        simp only [integral_const, probReal_univ, smul_eq_mul, one_mul] at this
        linarith
      have h5 := mul_le_mul_of_nonneg_left h2 (hlr N).1
      have h6 := mul_le_mul_of_nonneg_left h3 (sq_nonneg (lr.at N))
      have h7 : lr.at N ^ 2 * (2 * L * (∫ ω, loss (mk σ (P N ω)) ∂Pr - loss (mk σ q))) ≤ lr.at N * (∫ ω, loss (mk σ (P N ω)) ∂Pr - loss (mk σ q)) := by
        rw [← mul_assoc]
        refine mul_le_mul_of_nonneg_right ?_ h4
        nlinarith [(hlr N).1, (hlr N).2]
      linarith
  rw [← sqDist_eq]
  have h1 := key N
  have h2 : 0 ≤ ∫ ω, sqDist σ (P N ω) q ∂Pr := integral_nonneg fun ω => sqDist_nonneg σ _ _
  linarith

/-! ## Data sets and minibatches -/

/-- the law of an index drawn uniformly from a data set of `m + 1` examples -/
noncomputable def uniformIndex (m : ℕ) : Measure (Fin (m + 1)) := ((m + 1 : ℕ) : ENNReal)⁻¹ • Measure.count

instance (m : ℕ) : IsProbabilityMeasure (uniformIndex m) := by
  constructor
  unfold uniformIndex
  rw [Measure.smul_apply, Measure.count_univ, smul_eq_mul, ENat.card_eq_coe_fintype_card, Fintype.card_fin]
  exact ENNReal.inv_mul_cancel (by simp) (by simp)

theorem integral_uniformIndex (m : ℕ) (f : Fin (m + 1) → ℝ) : ∫ j, f j ∂uniformIndex m = (∑ j, f j) / (m + 1) := by
  unfold uniformIndex
  rw [integral_smul_measure, integral_fintype (by exact Integrable.of_finite), ENNReal.toReal_inv, ENNReal.toReal_natCast]
  simp
  field_simp

/-- **C97 (a data set).** Drawing one example uniformly from a finite data set gives unbiased gradients of the mean loss, whose variance is at
most the largest mean square deviation of the per-example gradients. -/
theorem C97_dataset (m : ℕ) (g : Fin (m + 1) → (ℕ → ℕ → ℝ) → ℕ → ℕ → ℝ) (hg : ∀ j k i, Measurable fun p => g j p k i) (V : ℝ)
    (hV : ∀ p, (∑ j, sqDist σ (g j p) (fun k i => (∑ j, g j p k i) / (m + 1))) / (m + 1) ≤ V) :
    StochasticGradient σ (uniformIndex m) g (fun p k i => (∑ j, g j p k i) / (m + 1)) V where
  measurable k i := measurable_from_prod_countable_left fun j => hg j k i
  unbiased p x _ := ⟨.of_finite, integral_uniformIndex m _⟩
  variance p := ⟨.of_finite, by rw [integral_uniformIndex]; exact hV p⟩

/-- **C97 (minibatches).** Averaging the gradients of `b` independent samples keeps them unbiased and divides the variance by `b`. -/
theorem C97_minibatch {g : S → (ℕ → ℕ → ℝ) → ℕ → ℕ → ℝ} {G : (ℕ → ℕ → ℝ) → ℕ → ℕ → ℝ} {V : ℝ} (h : StochasticGradient σ ν g G V)
    (b : ℕ) (hb : 0 < b) :
    StochasticGradient σ (Measure.pi fun _ : Fin b => ν) (fun s p k i => (∑ j, g (s j) p k i) / b) G (V / b) := by
  have hb' : (b : ℝ) ≠ 0 := by exact_mod_cast hb.ne'
  have hms : ∀ p k i, Measurable fun s => g s p k i := fun p k i =>
    (h.measurable k i).comp (measurable_const.prodMk measurable_id)
  have mp : ∀ j : Fin b, MeasurePreserving (Function.eval j) (Measure.pi fun _ : Fin b => ν) ν := fun j => measurePreserving_eval _ j
  have hint : ∀ p, ∀ x ∈ idx σ, ∀ j : Fin b, Integrable (fun s : Fin b → S => g (s j) p x.1 x.2) (Measure.pi fun _ => ν) := fun p x hx j =>
    (mp j).integrable_comp_of_integrable (h.unbiased p x hx).1
  have hval : ∀ p, ∀ x ∈ idx σ, ∀ j : Fin b, ∫ s : Fin b → S, g (s j) p x.1 x.2 ∂(Measure.pi fun _ => ν) = G p x.1 x.2 := fun p x hx j => by
    rw [← (h.unbiased p x hx).2]
    have := integral_map (μ := Measure.pi fun _ : Fin b => ν) (mp j).measurable.aemeasurable (f := fun s => g s p x.1 x.2)
      (hms p x.1 x.2).aestronglyMeasurable
    rw [(mp j).map_eq] at this
    exact this.symm
  have hL2 : ∀ p, ∀ x ∈ idx σ, MemLp (fun s => g s p x.1 x.2) 2 ν := fun p x hx => by
    have h1 : Integrable (fun s => (g s p x.1 x.2 - G p x.1 x.2) ^ 2) ν := by
      refine Integrable.mono' (h.variance p).1 (((hms p x.1 x.2).sub_const _).pow_const 2).aestronglyMeasurable (Filter.Eventually.of_forall fun s => ?_)
      rw [Real.norm_of_nonneg (sq_nonneg _)]
      unfold sqDist
      exact Finset.single_le_sum (f := fun x => (g s p x.1 x.2 - G p x.1 x.2) ^ 2) (fun _ _ => sq_nonneg _) hx
    have h2 : MemLp (fun s => g s p x.1 x.2 - G p x.1 x.2) 2 ν :=
      (memLp_two_iff_integrable_sq ((hms p x.1 x.2).sub_const _).aestronglyMeasurable).mpr h1
    have := h2.add (memLp_const (G p x.1 x.2))
    simpa [Pi.add_def] using this
  have hvar : ∀ p, ∀ x ∈ idx σ, Integrable (fun s : Fin b → S => ((∑ j, g (s j) p x.1 x.2) / b - G p x.1 x.2) ^ 2) (Measure.pi fun _ => ν) ∧
      ∫ s : Fin b → S, ((∑ j, g (s j) p x.1 x.2) / b - G p x.1 x.2) ^ 2 ∂(Measure.pi fun _ => ν) =
        (∫ s, (g s p x.1 x.2 - G p x.1 x.2) ^ 2 ∂ν) / b := by
    intro p x hx
    set X : Fin b → (Fin b → S) → ℝ := fun j s => g (s j) p x.1 x.2 with hX
    have hXm : ∀ j, MemLp (X j) 2 (Measure.pi fun _ => ν) := fun j => (hL2 p x hx).comp_measurePreserving (mp j)
    have hind : iIndepFun X (Measure.pi fun _ => ν) := iIndepFun_pi (X := fun _ s => g s p x.1 x.2) fun _ => (hms p x.1 x.2).aemeasurable
    have hv := IndepFun.variance_sum (s := Finset.univ) (fun j _ => hXm j) (fun i _ j _ hij => hind.indepFun hij)
    have hsm : MemLp (fun s => (∑ j, X j s) / b) 2 (Measure.pi fun _ : Fin b => ν) := by
      have h1 : MemLp (fun s => ∑ j, X j s) 2 (Measure.pi fun _ : Fin b => ν) := memLp_finsetSum _ fun j _ => hXm j
      simpa [div_eq_mul_inv] using h1.mul_const ((b : ℝ)⁻¹)
    have hmean : ∫ s, (∑ j, X j s) / b ∂(Measure.pi fun _ : Fin b => ν) = G p x.1 x.2 := by
      rw [integral_div, integral_finsetSum _ fun j _ => hint p x hx j, Finset.sum_congr rfl fun j _ => hval p x hx j]
      simp
      field_simp
    refine ⟨?_, ?_⟩
    · have := (memLp_two_iff_integrable_sq (hsm.sub (memLp_const (G p x.1 x.2))).1).mp (hsm.sub (memLp_const (G p x.1 x.2)))
      simpa using this
    · have e1 : ∫ s : Fin b → S, ((∑ j, X j s) / b - G p x.1 x.2) ^ 2 ∂(Measure.pi fun _ => ν) =
          variance (fun s => (∑ j, X j s) / b) (Measure.pi fun _ : Fin b => ν) := by
        rw [variance_eq_integral hsm.1.aemeasurable, hmean]
      have e2 : ∀ j, variance (X j) (Measure.pi fun _ : Fin b => ν) = ∫ s, (g s p x.1 x.2 - G p x.1 x.2) ^ 2 ∂ν := fun j => by
        rw [variance_eq_integral (hXm j).1.aemeasurable, hval p x hx j]
        have := integral_map (μ := Measure.pi fun _ : Fin b => ν) (mp j).measurable.aemeasurable (f := fun s => (g s p x.1 x.2 - G p x.1 x.2) ^ 2)
          (((hms p x.1 x.2).sub_const _).pow_const 2).aestronglyMeasurable
        rw [(mp j).map_eq] at this
        exact this.symm
      have e3 : (fun s => (∑ j, X j s) / b) = fun s => (b : ℝ)⁻¹ * (∑ j, X j) s := by
        funext s; rw [Finset.sum_apply]; ring
      rw [e1, e3, variance_const_mul, hv, Finset.sum_congr rfl fun j _ => e2 j]
      simp
      field_simp
  refine ⟨fun k i => ?_, fun p x hx => ⟨?_, ?_⟩, fun p => ⟨?_, ?_⟩⟩
  · refine (Finset.measurable_fun_sum _ fun j _ => ?_).div_const _
    exact (h.measurable k i).comp (measurable_fst.prodMk ((measurable_pi_apply j).comp measurable_snd))
  · exact (integrable_finsetSum _ fun j _ => hint p x hx j).div_const _
  · rw [integral_div, integral_finsetSum _ fun j _ => hint p x hx j, Finset.sum_congr rfl fun j _ => hval p x hx j]
    simp
    field_simp
  · unfold sqDist
    exact integrable_finsetSum _ fun x hx => (hvar p x hx).1
  · unfold sqDist
    rw [integral_finsetSum _ fun x hx => (hvar p x hx).1, Finset.sum_congr rfl fun x hx => (hvar p x hx).2, ← Finset.sum_div]
    refine div_le_div_of_nonneg_right ?_ (Nat.cast_nonneg b)
    have h1 := (h.variance p).2
    unfold sqDist at h1
    rw [integral_finsetSum] at h1
    · exact h1
    · intro x hx
      have h1 := (hL2 p x hx).sub (memLp_const (G p x.1 x.2))
      have := (memLp_two_iff_integrable_sq h1.1).mp h1
      simpa using this

/-! ## The hypotheses are satisfiable -/

/-- independent samples with any law exist -/
theorem iid_exists (ν : Measure S) [IsProbabilityMeasure ν] : ∃ Pr : Measure (ℕ → S), IsProbabilityMeasure Pr ∧ IID (fun n ω => ω n) ν Pr :=
  ⟨Measure.infinitePi fun _ => ν, inferInstance, fun n => measurable_pi_apply n,
    iIndepFun_infinitePi (P := fun _ : ℕ => ν) (X := fun _ s => s) (fun _ => measurable_id), fun n => Measure.infinitePi_map_eval _ _⟩

/-- a data set of two examples `-1` and `1` and the loss `mean_j ‖p - j‖²/2 = ‖p‖²/2 + const`, for params of any shape: smooth, strongly convex,
and with gradients that never agree with the full gradient -/
example : ∃ (g : Fin 2 → (ℕ → ℕ → ℝ) → ℕ → ℕ → ℝ) (V : ℝ), StochasticGradient σ (uniformIndex 1) g (fun p => p) V ∧
    (∀ j p k i, g j p k i ≠ p k i) ∧ Smooth σ 1 (fun t => sqNorm σ (coord t) / 2) (fun p => p) ∧
    StronglyConvex σ 1 (fun t => sqNorm σ (coord t) / 2) (fun p => p) := by
  refine ⟨fun j p k i => p k i - (if j = 0 then -1 else 1), (idx σ).card, ?_, ?_, ?_⟩
  · have := C97_dataset σ 1 (fun j p k i => p k i - (if j = 0 then -1 else 1))
      (fun j k i => ((measurable_pi_apply i).comp (measurable_pi_apply k)).sub_const _) (idx σ).card (fun p => ?_)
    · have e : (fun (p : ℕ → ℕ → ℝ) k i => (∑ j : Fin 2, (p k i - (if j = 0 then -1 else 1))) / ((1 : ℕ) + 1 : ℝ)) = fun p => p := by
        funext p k i; simp [Fin.sum_univ_two]; ring
      rwa [e] at this
    · simp [Fin.sum_univ_two, sqDist]
      ring_nf
      simp
  · intro j p k i
    show p k i - (if j = 0 then -1 else 1) ≠ p k i
    split <;> simp
  · have e : ∀ p : ℕ → ℕ → ℝ, sqNorm σ (coord (mk σ p)) = sqNorm σ p := by
      intro p
      unfold sqNorm
      refine Finset.sum_congr rfl fun x hx => ?_
      obtain ⟨s, h1, h2⟩ := mem_idx.mp hx
      rw [coord_mk _ _ _ _ s h1 h2]
    have k : ∀ p q : ℕ → ℕ → ℝ,
        sqNorm σ q / 2 = sqNorm σ p / 2 + treeInner σ p (fun k i => q k i - p k i) + 1 / 2 * sqDist σ q p := by
      intro p q
      unfold sqNorm treeInner sqDist
      rw [Finset.sum_div, Finset.sum_div, Finset.mul_sum, ← Finset.sum_add_distrib, ← Finset.sum_add_distrib]
      exact Finset.sum_congr rfl fun x _ => by ring
    refine ⟨fun p q => ?_, fun p q => ?_⟩
    · simp only [e]; exact (k p q).le
    · simp only [e]; exact (k p q).ge

end Optax
