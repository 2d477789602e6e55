import Verif.Lemmas.Gauss
import Mathlib.MeasureTheory.Group.Measure

/-!
# Adaptive shifts of independent standard normal draws

A discrete Girsanov theorem and the resulting privacy bound for adaptive sums of Gaussian mechanisms.  Used by
`Props/DifferentialPrivacy.lean`; nothing in here mentions the model.
-/

set_option linter.unusedSectionVars false

open MeasureTheory ProbabilityTheory Real
open scoped ENNReal NNReal

namespace Optax

variable {ι : Type} [Fintype ι]

/-- the law of independent standard normal draws indexed by `ι` -/
noncomputable abbrev stdNi (ι : Type) [Fintype ι] : Measure (ι → ℝ) := Measure.pi (fun _ : ι => stdN)

/-- the Gaussian density in `ι` dimensions -/
noncomputable def phi (z : ι → ℝ) : ℝ≥0∞ := ∏ i, gaussianPDF 0 1 (z i)

theorem measurable_phi : Measurable (phi (ι := ι)) :=
  Finset.measurable_prod _ fun i _ => (measurable_gaussianPDF 0 1).comp (measurable_pi_apply i)

theorem stdNi_eq : stdNi ι = (volume : Measure (ι → ℝ)).withDensity phi := by
  apply Measure.pi_eq
  intro s hs
  rw [withDensity_apply _ (MeasurableSet.univ_pi hs)]
  have h1 : ∀ i, stdN (s i) = ENNReal.ofReal (∫ x, (s i).indicator (gaussianPDFReal 0 1) x) := by
    intro i
    rw [stdN_eq, withDensity_apply _ (hs i), ← lintegral_indicator (hs i),
      ofReal_integral_eq_lintegral_ofReal ((integrable_gaussianPDFReal 0 1).indicator (hs i))
        (Filter.Eventually.of_forall fun x => Set.indicator_nonneg (fun y _ => gaussianPDFReal_nonneg 0 1 y) x)]
    refine lintegral_congr fun x => ?_
    unfold gaussianPDF
    by_cases hx : x ∈ s i
    · rw [Set.indicator_of_mem hx, Set.indicator_of_mem hx]
    · rw [Set.indicator_of_notMem hx, Set.indicator_of_notMem hx, ENNReal.ofReal_zero]
  simp only [h1]
  rw [← ENNReal.ofReal_prod_of_nonneg (fun i _ => integral_nonneg
    (fun x => Set.indicator_nonneg (fun y _ => gaussianPDFReal_nonneg 0 1 y) x)),
    ← integral_fintype_prod_volume_eq_prod (𝕜 := ℝ) (fun i x => (s i).indicator (gaussianPDFReal 0 1) x),
    ofReal_integral_eq_lintegral_ofReal]
  · rw [← lintegral_indicator (MeasurableSet.univ_pi hs)]
    refine lintegral_congr fun x => ?_
    unfold phi gaussianPDF
    by_cases hx : x ∈ Set.univ.pi s
    · rw [Set.indicator_of_mem hx, ENNReal.ofReal_prod_of_nonneg
        (fun i _ => Set.indicator_nonneg (fun y _ => gaussianPDFReal_nonneg 0 1 y) _)]
      refine Finset.prod_congr rfl fun i _ => ?_
      rw [Set.indicator_of_mem (hx i (Set.mem_univ i))]
    · rw [Set.indicator_of_notMem hx]
      rw [Set.mem_univ_pi] at hx
      push Not at hx
      obtain ⟨i, hi⟩ := hx
      rw [Finset.prod_eq_zero (Finset.mem_univ i) (Set.indicator_of_notMem hi _), ENNReal.ofReal_zero]
  · exact Integrable.fintype_prod (fun i => (integrable_gaussianPDFReal 0 1).indicator (hs i))
  · exact Filter.Eventually.of_forall fun x => Finset.prod_nonneg fun i _ =>
      Set.indicator_nonneg (fun y _ => gaussianPDFReal_nonneg 0 1 y) _

/-- the shift of coordinate `i` depends on coordinates of smaller level only -/
def Adapted (lvl : ι → ℕ) (s : (ι → ℝ) → ι → ℝ) : Prop :=
  ∀ y y' i, (∀ j, lvl j < lvl i → y j = y' j) → s y i = s y' i

variable {lvl : ι → ℕ} {s : (ι → ℝ) → ι → ℝ}

/-- shifting one level preserves volume -/
theorem shear_level (n : ℕ) (hs : Measurable s) (ha : Adapted lvl s) :
    MeasurePreserving (fun (y : ι → ℝ) i => if lvl i = n then y i - s y i else y i) volume volume := by
  classical
  have he := volume_preserving_piEquivPiSubtypeProd (fun _ : ι => ℝ) (fun i => lvl i ≠ n)
  set e := MeasurableEquiv.piEquivPiSubtypeProd (fun _ : ι => ℝ) (fun i => lvl i ≠ n) with he_def
  have hg : Measurable (Function.uncurry fun (a : {i // lvl i ≠ n} → ℝ) (c : {i // ¬ (lvl i ≠ n)} → ℝ) =>
      c - fun i : {i // ¬ (lvl i ≠ n)} => s (e.symm (a, 0)) i.1) := by
    unfold Function.uncurry
    refine Measurable.sub measurable_snd ?_
    rw [measurable_pi_iff]
    intro i
    have h1 : Measurable fun p : ({i // lvl i ≠ n} → ℝ) × ({i // ¬ (lvl i ≠ n)} → ℝ) => s (e.symm (p.1, 0)) :=
      hs.comp (e.symm.measurable.comp (measurable_fst.prodMk measurable_const))
    exact (measurable_pi_apply i.1).comp h1
  have hk := MeasurePreserving.skew_product (μa := (volume : Measure ({i // lvl i ≠ n} → ℝ)))
    (μc := (volume : Measure ({i // ¬ (lvl i ≠ n)} → ℝ))) (μd := volume) (MeasurePreserving.id _) hg
    (Filter.Eventually.of_forall fun a => (measurePreserving_sub_right volume _).map_eq)
  have hc := (he.symm.comp hk).comp he
  suffices heq : (fun (y : ι → ℝ) i => if lvl i = n then y i - s y i else y i) =
      (e.symm ∘ fun p => (id p.1, p.2 - fun i : {i // ¬ (lvl i ≠ n)} => s (e.symm (p.1, 0)) i.1)) ∘ e by
    rw [heq]; exact hc
  funext y i
  simp only [Function.comp_apply, id_eq]
  by_cases h : lvl i = n
  · rw [if_pos h]
    have h' : ¬ (lvl i ≠ n) := by simpa using h
    show _ = (Equiv.piEquivPiSubtypeProd (fun i => lvl i ≠ n) (fun _ => ℝ)).symm _ i
    rw [Equiv.piEquivPiSubtypeProd_symm_apply]
    simp only [dif_neg h']
    show _ = y i - s _ i
    rw [ha y _ i]
    intro j hj
    show _ = (Equiv.piEquivPiSubtypeProd (fun i => lvl i ≠ n) (fun _ => ℝ)).symm _ j
    rw [Equiv.piEquivPiSubtypeProd_symm_apply]
    have hj' : lvl j ≠ n := by omega
    simp only [dif_pos hj']
    rfl
  · rw [if_neg h]
    show _ = (Equiv.piEquivPiSubtypeProd (fun i => lvl i ≠ n) (fun _ => ℝ)).symm _ i
    rw [Equiv.piEquivPiSubtypeProd_symm_apply]
    simp only [ne_eq, h, not_false_eq_true, dif_pos]
    rfl

/-- an adapted shift preserves volume -/
theorem shear (hs : Measurable s) (ha : Adapted lvl s) :
    MeasurePreserving (fun (y : ι → ℝ) i => y i - s y i) volume volume := by
  have key : ∀ d n, (∀ i, lvl i < n + d) →
      MeasurePreserving (fun (y : ι → ℝ) i => if n ≤ lvl i then y i - s y i else y i) volume volume := by
    intro d
    induction d with
    | zero =>
      intro n hn
      have : (fun (y : ι → ℝ) i => if n ≤ lvl i then y i - s y i else y i) = id := by
        funext y i
        rw [if_neg (by have := hn i; omega)]; rfl
      rw [this]
      exact MeasurePreserving.id _
    | succ d ih =>
      intro n hn
      have h1 := ih (n + 1) (fun i => by have := hn i; omega)
      have h2 := (shear_level n hs ha).comp h1
      suffices heq : (fun (y : ι → ℝ) i => if n ≤ lvl i then y i - s y i else y i) =
          (fun (y : ι → ℝ) i => if lvl i = n then y i - s y i else y i) ∘
            (fun (y : ι → ℝ) i => if n + 1 ≤ lvl i then y i - s y i else y i) by
        rw [heq]; exact h2
      funext y i
      simp only [Function.comp_apply]
      by_cases h : lvl i = n
      · rw [if_pos h, if_pos (by omega), if_neg (by omega)]
        congr 1
        apply ha
        intro j hj
        rw [if_neg (by omega)]
      · rw [if_neg h]
        by_cases h' : n ≤ lvl i
        · rw [if_pos h', if_pos (by omega)]
        · rw [if_neg h', if_neg (by omega)]
  obtain ⟨b, hb⟩ : ∃ b, ∀ i, lvl i < b := ⟨Finset.univ.sup lvl + 1, fun i =>
    Nat.lt_succ_of_le (Finset.le_sup (Finset.mem_univ i))⟩
  have := key b 0 (fun i => by simpa using hb i)
  simpa using this

/-- solutions of `y = z + s(y)` for adapted `s` are unique -/
theorem adapted_unique (ha : Adapted lvl s) {y y' : ι → ℝ} (h : ∀ i, y i - s y i = y' i - s y' i) : y = y' := by
  have : ∀ n i, lvl i = n → y i = y' i := by
    intro n
    induction n using Nat.strong_induction_on with
    | _ n ih =>
      intro i hi
      have e : s y i = s y' i := ha y y' i fun j hj => ih (lvl j) (by omega) j rfl
      have := h i
      rw [e] at this
      linarith
  funext i
  exact this _ i rfl

/-- density of the shifted draws with respect to the unshifted ones -/
noncomputable def dens (s : (ι → ℝ) → ι → ℝ) (y : ι → ℝ) : ℝ := Real.exp (∑ i, (s y i * y i - s y i ^ 2 / 2))

theorem dens_pos (y : ι → ℝ) : 0 < dens s y := Real.exp_pos _

theorem measurable_dens (hs : Measurable s) : Measurable (dens s) := by
  have h : ∀ i, Measurable fun y => s y i := fun i => (measurable_pi_apply i).comp hs
  unfold dens
  refine Real.measurable_exp.comp (Finset.measurable_sum _ fun i _ => ?_)
  exact ((h i).mul (measurable_pi_apply i)).sub (((h i).pow_const 2).div_const 2)

theorem phi_shift (y : ι → ℝ) : phi (fun i => y i - s y i) = phi y * ENNReal.ofReal (dens s y) := by
  unfold phi dens
  rw [Real.exp_sum, ENNReal.ofReal_prod_of_nonneg (fun i _ => (Real.exp_pos _).le), ← Finset.prod_mul_distrib]
  refine Finset.prod_congr rfl fun i _ => ?_
  unfold gaussianPDF
  rw [← ENNReal.ofReal_mul (gaussianPDFReal_nonneg _ _ _)]
  congr 1
  unfold gaussianPDFReal
  simp only [NNReal.coe_one, mul_one, sub_zero]
  rw [mul_assoc, ← Real.exp_add]
  congr 2
  ring

/-- **discrete Girsanov**: if `Y` solves `Y = z + s(Y)` with adapted `s`, its law has density `dens s`. -/
theorem girsanov (hs : Measurable s) (ha : Adapted lvl s) (Y : (ι → ℝ) → ι → ℝ) (hY : Measurable Y)
    (hsol : ∀ z i, Y z i = z i + s (Y z) i) :
    (stdNi ι).map Y = (stdNi ι).withDensity fun y => ENNReal.ofReal (dens s y) := by
  have hinv : ∀ y : ι → ℝ, Y (fun i => y i - s y i) = y := by
    intro y
    refine adapted_unique ha fun i => ?_
    have := hsol (fun i => y i - s y i) i
    linarith
  have hmd : Measurable fun y => ENNReal.ofReal (dens s y) := (measurable_dens hs).ennreal_ofReal
  ext S hS
  rw [Measure.map_apply hY hS, withDensity_apply _ hS, stdNi_eq, withDensity_apply _ (hY hS),
    setLIntegral_withDensity_eq_setLIntegral_mul _ measurable_phi hmd hS,
    ← lintegral_indicator (hY hS), ← lintegral_indicator hS]
  rw [← (shear hs ha).lintegral_comp (measurable_phi.indicator (hY hS))]
  refine lintegral_congr fun y => ?_
  by_cases h : y ∈ S
  · rw [Set.indicator_of_mem h, Set.indicator_of_mem (by rw [Set.mem_preimage, hinv]; exact h), phi_shift]; rfl
  · rw [Set.indicator_of_notMem h, Set.indicator_of_notMem (by rw [Set.mem_preimage, hinv]; exact h)]

theorem dens_mass (hs : Measurable s) (ha : Adapted lvl s) : ∫⁻ y, ENNReal.ofReal (dens s y) ∂(stdNi ι) = 1 := by
  have hmd : Measurable fun y => ENNReal.ofReal (dens s y) := (measurable_dens hs).ennreal_ofReal
  have h1 : ∫⁻ y, ENNReal.ofReal (dens s y) ∂(stdNi ι) = ∫⁻ y, phi (fun i => y i - s y i) := by
    rw [stdNi_eq, lintegral_withDensity_eq_lintegral_mul _ measurable_phi hmd]
    exact lintegral_congr fun y => (phi_shift y).symm
  rw [h1, (shear hs ha).lintegral_comp (measurable_phi (ι := ι))]
  have h2 : (stdNi ι) Set.univ = 1 := measure_univ
  rw [stdNi_eq, withDensity_apply _ MeasurableSet.univ, Measure.restrict_univ] at h2
  exact h2

/-- Rényi bound: the moments of the density -/
theorem dens_moment (hs : Measurable s) (ha : Adapted lvl s) {R : ℝ} (hR : ∀ y, ∑ i, s y i ^ 2 ≤ R) {a : ℝ} (h1 : 1 ≤ a) :
    ∫⁻ y, ENNReal.ofReal (dens s y ^ a) ∂(stdNi ι) ≤ ENNReal.ofReal (Real.exp (a * (a - 1) * R / 2)) := by
  have hs' : Measurable fun y : ι → ℝ => fun i => a * s y i := by
    rw [measurable_pi_iff]
    exact fun i => ((measurable_pi_apply i).comp hs).const_mul a
  have ha' : Adapted lvl fun (y : ι → ℝ) i => a * s y i := fun y y' i h => by
    show a * s y i = a * s y' i
    rw [ha y y' i h]
  have hle : ∀ y, dens s y ^ a ≤ Real.exp (a * (a - 1) * R / 2) * dens (fun (y : ι → ℝ) i => a * s y i) y := by
    intro y
    unfold dens
    rw [← Real.exp_mul, ← Real.exp_add, Real.exp_le_exp]
    have e : (∑ i, (s y i * y i - s y i ^ 2 / 2)) * a =
        a * (a - 1) * (∑ i, s y i ^ 2) / 2 + ∑ i, (a * s y i * y i - (a * s y i) ^ 2 / 2) := by
      rw [Finset.sum_mul, mul_div_right_comm, Finset.mul_sum, ← Finset.sum_add_distrib]
      refine Finset.sum_congr rfl fun i _ => ?_
      ring
    rw [e]
    have := mul_le_mul_of_nonneg_left (hR y) (mul_nonneg (by linarith : 0 ≤ a) (by linarith : 0 ≤ a - 1))
    linarith
  calc ∫⁻ y, ENNReal.ofReal (dens s y ^ a) ∂(stdNi ι)
      ≤ ∫⁻ y, ENNReal.ofReal (Real.exp (a * (a - 1) * R / 2)) * ENNReal.ofReal (dens (fun (y : ι → ℝ) i => a * s y i) y)
          ∂(stdNi ι) := by
        refine lintegral_mono fun y => ?_
        rw [← ENNReal.ofReal_mul (Real.exp_pos _).le]
        exact ENNReal.ofReal_le_ofReal (hle y)
    _ = ENNReal.ofReal (Real.exp (a * (a - 1) * R / 2)) := by
        rw [lintegral_const_mul _ (measurable_dens hs').ennreal_ofReal, dens_mass hs' ha', mul_one]

/-- privacy of an adaptive Gaussian mechanism, with a free Rényi order `a` -/
theorem gauss_dp_order (hs : Measurable s) (ha : Adapted lvl s) {R : ℝ} (hR : ∀ y, ∑ i, s y i ^ 2 ≤ R)
    (Y : (ι → ℝ) → ι → ℝ) (hY : Measurable Y) (hsol : ∀ z i, Y z i = z i + s (Y z) i) {a : ℝ} (h1 : 1 ≤ a) (ε : ℝ)
    (S : Set (ι → ℝ)) (hS : MeasurableSet S) :
    (stdNi ι) (Y ⁻¹' S) ≤ ENNReal.ofReal (Real.exp ε) * (stdNi ι) S +
      ENNReal.ofReal (Real.exp (-((a - 1) * (ε - a * (R / 2))))) := by
  rw [← Measure.map_apply hY hS, girsanov hs ha Y hY hsol, withDensity_apply _ hS]
  have hpt : ∀ y, dens s y ≤ Real.exp ε + Real.exp (-((a - 1) * ε)) * dens s y ^ a := by
    intro y
    by_cases h : dens s y ≤ Real.exp ε
    · have : 0 ≤ dens s y ^ a := Real.rpow_nonneg (Real.exp_pos _).le _
      have := mul_nonneg (Real.exp_pos (-((a - 1) * ε))).le this
      linarith
    · push Not at h
      have : dens s y ≤ Real.exp (-((a - 1) * ε)) * dens s y ^ a := by
        unfold dens at h ⊢
        rw [Real.exp_lt_exp] at h
        rw [← Real.exp_mul, ← Real.exp_add, Real.exp_le_exp]
        have := mul_nonneg (by linarith : 0 ≤ a - 1) (sub_nonneg.2 h.le)
        linarith
      have := (Real.exp_pos ε).le
      linarith
  have hmd : Measurable fun y => ENNReal.ofReal (dens s y ^ a) := ((measurable_dens hs).pow_const a).ennreal_ofReal
  calc ∫⁻ y in S, ENNReal.ofReal (dens s y) ∂(stdNi ι)
      ≤ ∫⁻ y in S, (ENNReal.ofReal (Real.exp ε) + ENNReal.ofReal (Real.exp (-((a - 1) * ε))) * ENNReal.ofReal (dens s y ^ a))
          ∂(stdNi ι) := by
        refine lintegral_mono fun y => ?_
        rw [← ENNReal.ofReal_mul (Real.exp_pos _).le, ← ENNReal.ofReal_add (Real.exp_pos _).le
          (mul_nonneg (Real.exp_pos _).le (Real.rpow_nonneg (dens_pos y).le _))]
        exact ENNReal.ofReal_le_ofReal (hpt y)
    _ = ENNReal.ofReal (Real.exp ε) * (stdNi ι) S +
          ENNReal.ofReal (Real.exp (-((a - 1) * ε))) * ∫⁻ y in S, ENNReal.ofReal (dens s y ^ a) ∂(stdNi ι) := by
        rw [lintegral_add_left measurable_const, setLIntegral_const, lintegral_const_mul _ hmd]
    _ ≤ ENNReal.ofReal (Real.exp ε) * (stdNi ι) S +
          ENNReal.ofReal (Real.exp (-((a - 1) * ε))) * ENNReal.ofReal (Real.exp (a * (a - 1) * R / 2)) := by
        gcongr
        exact (setLIntegral_le_lintegral S _).trans (dens_moment hs ha hR h1)
    _ = _ := by
        rw [← ENNReal.ofReal_mul (Real.exp_pos _).le, ← Real.exp_add]
        congr 4
        ring

/-- `(ε, δ)` for a mechanism whose shifts have squares summing to at most `2ρ` -/
theorem gauss_dp (hs : Measurable s) (ha : Adapted lvl s) {ρ : ℝ} (hR : ∀ y, ∑ i, s y i ^ 2 ≤ 2 * ρ)
    (Y : (ι → ℝ) → ι → ℝ) (hY : Measurable Y) (hsol : ∀ z i, Y z i = z i + s (Y z) i) {δ : ℝ} (h0 : 0 < δ) (h1 : δ ≤ 1)
    (S : Set (ι → ℝ)) (hS : MeasurableSet S) :
    (stdNi ι) (Y ⁻¹' S) ≤ ENNReal.ofReal (Real.exp (ρ + 2 * √(ρ * Real.log (1 / δ)))) * (stdNi ι) S + ENNReal.ofReal δ := by
  have hρ : 0 ≤ ρ := by
    have := hR 0
    have h2 : 0 ≤ ∑ i, s 0 i ^ 2 := Finset.sum_nonneg fun i _ => sq_nonneg _
    linarith
  have hl : 0 ≤ Real.log (1 / δ) := Real.log_nonneg (by rw [le_div_iff₀ h0]; linarith)
  rcases hρ.eq_or_lt with h | h
  · subst h
    have hz : ∀ y i, s y i = 0 := by
      intro y i
      have h3 : s y i ^ 2 ≤ ∑ i, s y i ^ 2 := Finset.single_le_sum (f := fun i => s y i ^ 2) (fun i _ => sq_nonneg _) (Finset.mem_univ i)
      have := hR y
      have : s y i ^ 2 = 0 := le_antisymm (by linarith) (sq_nonneg _)
      simpa using this
    have : Y = id := by
      funext z i
      rw [hsol, hz, add_zero]; rfl
    rw [this]
    simp
  · set l := Real.log (1 / δ) with hldef
    set q := √(l / ρ) with hq
    have hq2 : q ^ 2 = l / ρ := Real.sq_sqrt (by positivity)
    have hqn : 0 ≤ q := Real.sqrt_nonneg _
    have hmul : √(ρ * l) = ρ * q := by
      rw [show ρ * l = (ρ * q) ^ 2 by rw [mul_pow, hq2]; field_simp]
      exact Real.sqrt_sq (by positivity)
    have := gauss_dp_order hs ha hR Y hY hsol (a := 1 + q) (by linarith) (ρ + 2 * √(ρ * l)) S hS
    have e : Real.exp (-((1 + q - 1) * (ρ + 2 * √(ρ * l) - (1 + q) * (2 * ρ / 2)))) = δ := by
      rw [hmul]
      have : -((1 + q - 1) * (ρ + 2 * (ρ * q) - (1 + q) * (2 * ρ / 2))) = -(ρ * q ^ 2) := by ring
      rw [this, hq2, show -(ρ * (l / ρ)) = Real.log δ by
        rw [mul_div_cancel₀ _ h.ne', hldef, Real.log_div one_ne_zero h0.ne', Real.log_one]; ring]
      exact Real.exp_log h0
    rw [e] at this
    exact this

/-- two adaptive mechanisms `W = z + c(W)`, `W' = z + c'(W')` whose adapted shifts differ by squares summing to at most `2ρ` -/
theorem gauss_dp_pair {c c' : (ι → ℝ) → ι → ℝ} (hc : Measurable c) (hc' : Measurable c') (ha : Adapted lvl c)
    (ha' : Adapted lvl c') {ρ : ℝ} (hR : ∀ y, ∑ i, (c y i - c' y i) ^ 2 ≤ 2 * ρ)
    (W W' : (ι → ℝ) → ι → ℝ) (hW : Measurable W) (hW' : Measurable W')
    (hsol : ∀ z i, W z i = z i + c (W z) i) (hsol' : ∀ z i, W' z i = z i + c' (W' z) i) {δ : ℝ} (h0 : 0 < δ) (h1 : δ ≤ 1)
    (S : Set (ι → ℝ)) (hS : MeasurableSet S) :
    (stdNi ι) (W ⁻¹' S) ≤
      ENNReal.ofReal (Real.exp (ρ + 2 * √(ρ * Real.log (1 / δ)))) * (stdNi ι) (W' ⁻¹' S) + ENNReal.ofReal δ := by
  -- `W'` is adapted
  have hWad : ∀ z z' n, (∀ j, lvl j < n → z j = z' j) → ∀ j, lvl j < n → W' z j = W' z' j := by
    intro z z' n h
    have : ∀ m, m < n → ∀ j, lvl j = m → W' z j = W' z' j := by
      intro m
      induction m using Nat.strong_induction_on with
      | _ m ih =>
        intro hm j hj
        rw [hsol' z j, hsol' z' j, h j (by omega), ha' (W' z) (W' z') j fun i hi => ih (lvl i) (by omega) (by omega) i rfl]
    exact fun j hj => this (lvl j) hj j rfl
  have hinv : ∀ y : ι → ℝ, W' (fun i => y i - c' y i) = y := by
    intro y
    refine adapted_unique ha' fun i => ?_
    have := hsol' (fun i => y i - c' y i) i
    linarith
  set X : (ι → ℝ) → ι → ℝ := fun z i => W z i - c' (W z) i with hX
  have hWX : ∀ z, W' (X z) = W z := fun z => hinv (W z)
  have hXm : Measurable X := by
    rw [measurable_pi_iff]
    intro i
    exact ((measurable_pi_apply i).comp hW).sub ((measurable_pi_apply i).comp (hc'.comp hW))
  have hsm : Measurable fun x : ι → ℝ => fun i => c (W' x) i - c' (W' x) i := by
    rw [measurable_pi_iff]
    intro i
    exact ((measurable_pi_apply i).comp (hc.comp hW')).sub ((measurable_pi_apply i).comp (hc'.comp hW'))
  have had : Adapted lvl fun (x : ι → ℝ) i => c (W' x) i - c' (W' x) i := by
    intro y y' i h
    show c (W' y) i - c' (W' y) i = c (W' y') i - c' (W' y') i
    rw [ha (W' y) (W' y') i (hWad y y' _ h), ha' (W' y) (W' y') i (hWad y y' _ h)]
  have := gauss_dp hsm had (fun y => hR (W' y)) X hXm (fun z i => by rw [hWX]; show W z i - c' (W z) i = _; rw [hsol z i]; ring)
    h0 h1 (W' ⁻¹' S) (hW' hS)
  have e : X ⁻¹' (W' ⁻¹' S) = W ⁻¹' S := by
    ext z
    simp only [Set.mem_preimage, hWX]
  rwa [e] at this

end Optax
