import Verif.Props.LookaheadConv
import Verif.Props.DifferentialPrivacy
import Verif.Props.AdagradRegret
import Verif.Props.DefaultForms
import Mathlib.Probability.Distributions.Gaussian.Real
import Mathlib.Probability.Independence.Integration

/-!
# C115: `noisy_sgd` with annealed noise converges in mean square
-/

set_option linter.unusedSectionVars false

open MeasureTheory ProbabilityTheory

namespace Optax
variable (σ : Spec)

/-- `eta / min(t, 2³¹ - 1)^gamma`, with `t = 1, 2, …`: the standard deviation of the noise at the `t`-th update -/
noncomputable def noiseStd (eta gamma : ℝ) (t : ℕ) : ℝ := eta / ((min t 2147483647 : ℕ) : ℝ) ^ gamma

theorem noiseScale_eq (eta gamma : ℝ) (t : ℕ) : noiseScale eta gamma (cntAt t) = noiseStd eta gamma t := by
  unfold noiseScale noiseStd
  rw [jpow_real, cnt_cntAt']

section path
variable {Ω : Type}

/-- the noise drawn for entry `(k, i)` at step `t` (0 outside the tree) -/
noncomputable def drawAt (seed : ℤ) (normal : Ω → Normal ℝ) (t k i : ℕ) (ω : Ω) : ℝ := by
  classical exact if (⟨k, i⟩ : Σ _ : ℕ, ℕ) ∈ idx σ then normal ω (drawKey seed (fun _ => σ.numLeaves) t k) ((σ.leaves[k]?).getD []) i else 0

/-- the parameters after `n` steps -/
noncomputable def noisyPath (lr : ℝ) (s : ℕ → ℝ) (G : ℕ → Entries → Entries) (z : ℕ → ℕ → ℕ → Ω → ℝ) (p0 : Entries) (ω : Ω) : ℕ → Entries
  | 0 => p0
  | n + 1 => fun k i => noisyPath lr s G z p0 ω n k i +
      (-lr * G n (noisyPath lr s G z p0 ω n) k i + s (n + 1) * z n k i ω)

theorem noisy_visits (normal : Normal ℝ) (lr eta gamma : ℝ) (seed : ℤ) (grad : ℕ → Params ℝ → Params ℝ)
    (G : ℕ → Entries → Entries) (hg : ∀ n p, grad n (mk σ p) = mk σ (G n p)) (p0 : Entries) :
    Visits (noisySgd normal (.scalar lr) eta gamma seed) grad σ
      (noisyPath lr (noiseStd eta gamma) G (drawAt σ seed fun _ : Unit => normal) p0 ()) := by
  classical
  set P := noisyPath lr (noiseStd eta gamma) G (drawAt σ seed fun _ : Unit => normal) p0 () with hP
  set U : ℕ → Entries := fun n k i => -lr * G n (P n) k i + noiseStd eta gamma (n + 1) * drawAt σ seed (fun _ : Unit => normal) n k i () with hU
  have houts : ∀ N, (noisySgd normal (.scalar lr) eta gamma seed).outs (mk σ (P 0))
      (hist σ (fun n => G n (P n)) (fun n => some (mk σ (P n))) N) = .ok ((List.range N).map (fun n => mk σ (U n))) := by
    intro N
    refine outs_chain_hist (scaleByLearningRate (.scalar lr)) [addNoise normal eta gamma seed] _ σ _
      (fun n k i => -lr * G n (P n) k i) _ N (lr_outs_hist (.scalar lr) _ σ _ _ N) _ ?_
    refine outs_chain_hist_last _ _ σ _ _ N _ ?_
    have h := outs_of_exec (C36_run normal eta gamma seed (fun _ => σ) (mk σ (P 0)) (fun n k i => -lr * G n (P n) k i)
      (fun n => some (mk σ (P n))) N)
    refine h.trans ?_
    congr 1
    refine List.map_congr_left fun n _ => ?_
    refine mk_congr fun k sh hk i hi => ?_
    rw [noiseScale_eq]
    have hmem : (⟨k, i⟩ : Σ _ : ℕ, ℕ) ∈ idx σ := mem_idx.2 ⟨sh, hk, hi⟩
    simp only [hU, drawAt, if_pos hmem]
  obtain ⟨s0, _, h0, _⟩ := trainLoop_of_outs (G := G) hg P U (fun n k i => rfl) houts 0
  refine ⟨s0, h0, fun n => ?_⟩
  obtain ⟨s0', s, h1, h2⟩ := trainLoop_of_outs (G := G) hg P U (fun n k i => rfl) houts n
  rw [h1] at h0
  cases h0
  exact ⟨s, h2⟩

theorem noisyPath_unit (lr : ℝ) (s : ℕ → ℝ) (G : ℕ → Entries → Entries) (seed : ℤ) (normal : Ω → Normal ℝ) (p0 : Entries) (ω : Ω) (n : ℕ) :
    noisyPath lr s G (drawAt σ seed normal) p0 ω n = noisyPath lr s G (drawAt σ seed fun _ : Unit => normal ω) p0 () n := by
  induction n with
  | zero => rfl
  | succ n ih => simp only [noisyPath, ih]; rfl

variable [MeasurableSpace Ω] {Pr : Measure Ω} [IsProbabilityMeasure Pr] {normal : Ω → Normal ℝ}

/-- all draws of an infinite run are independent standard normal variables -/
theorem draws_indep (hN : IdealNormal Pr normal) (seed : ℤ) :
    iIndepFun (fun (y : ℕ × {x : Σ _ : ℕ, ℕ // x ∈ idx σ}) ω => drawAt σ seed normal y.1 y.2.1.1 y.2.1.2 ω) Pr ∧
    (∀ t k i, Measurable (drawAt σ seed normal t k i)) ∧
    ∀ t, ∀ x ∈ idx σ, Pr.map (drawAt σ seed normal t x.1 x.2) = stdN := by
  classical
  let sh : Key → List ℕ := fun key => match key with
    | .child _ _ (k + 1) => (σ.leaves[k]?).getD []
    | _ => []
  have hsh : ∀ t k, sh (drawKey seed (fun _ => σ.numLeaves) t k) = (σ.leaves[k]?).getD [] := fun t k => rfl
  have hlt : ∀ t, ∀ x ∈ idx σ, x.2 < (sh (drawKey seed (fun _ => σ.numLeaves) t x.1)).prod := by
    intro t x hx
    rw [hsh]
    obtain ⟨s, h1, h2⟩ := mem_idx.mp hx
    rw [h1]
    exact h2
  have hval : ∀ t, ∀ x ∈ idx σ, drawAt σ seed normal t x.1 x.2 =
      fun ω => normal ω (drawKey seed (fun _ => σ.numLeaves) t x.1) ((σ.leaves[x.1]?).getD []) x.2 := by
    intro t x hx
    funext ω
    unfold drawAt
    rw [if_pos hx]
  refine ⟨?_, ?_, ?_⟩
  · let ix : ℕ × {x : Σ _ : ℕ, ℕ // x ∈ idx σ} → {y : Key × ℕ // y.2 < (sh y.1).prod} :=
      fun y => ⟨(drawKey seed (fun _ => σ.numLeaves) y.1 y.2.1.1, y.2.1.2), hlt y.1 y.2.1 y.2.2⟩
    have hinj : Function.Injective ix := by
      intro y y' h
      have h1 := congrArg (fun q => q.1.1) h
      have h2 := congrArg (fun q => q.1.2) h
      obtain ⟨h3, h4⟩ := (C36_keys_distinct seed (fun _ => σ.numLeaves)).1 _ _ _ _ h1
      obtain ⟨n, ⟨⟨k, i⟩, hk⟩⟩ := y
      obtain ⟨n', ⟨⟨k', i'⟩, hk'⟩⟩ := y'
      simp only at h3 h4 h2
      have h6 : i = i' := h2
      subst h3; subst h4; subst h6
      rfl
    have hind := (hN.indep sh).precomp hinj
    have e : (fun (y : ℕ × {x : Σ _ : ℕ, ℕ // x ∈ idx σ}) ω => drawAt σ seed normal y.1 y.2.1.1 y.2.1.2 ω) =
        fun y ω => normal ω (ix y).1.1 (sh (ix y).1.1) (ix y).1.2 := by
      funext y
      exact hval y.1 y.2.1 y.2.2
    rw [e]
    exact hind
  · intro t k i
    unfold drawAt
    split_ifs
    · exact hN.meas _ _ _
    · exact measurable_const
  · intro t x hx
    rw [hval t x hx]
    refine hN.law _ _ _ ?_
    have := hlt t x hx
    rwa [hsh] at this

/-- what is known before step `n` -/
@[reducible] noncomputable def noisePast (seed : ℤ) (normal : Ω → Normal ℝ) (n : ℕ) : MeasurableSpace Ω :=
  ⨆ y ∈ {y : ℕ × {x : Σ _ : ℕ, ℕ // x ∈ idx σ} | y.1 < n},
    MeasurableSpace.comap (fun ω => drawAt σ seed normal y.1 y.2.1.1 y.2.1.2 ω) inferInstance

theorem noisyPath_past (seed : ℤ) (lr : ℝ) (s : ℕ → ℝ) {G : ℕ → Entries → Entries} (hG : ∀ n, Measurable (G n)) (p0 : Entries) (n : ℕ) :
    Measurable[noisePast σ seed normal n] (fun ω => noisyPath lr s G (drawAt σ seed normal) p0 ω n) := by
  classical
  induction n with
  | zero => exact @measurable_const _ _ _ (noisePast σ seed normal 0) _
  | succ n ih =>
    have hle : noisePast σ seed normal n ≤ noisePast σ seed normal (n + 1) :=
      iSup₂_le fun y hy => le_iSup₂_of_le y (Nat.lt_succ_of_lt hy) le_rfl
    have h1 : Measurable[noisePast σ seed normal (n + 1)] (fun ω => noisyPath lr s G (drawAt σ seed normal) p0 ω n) := ih.mono hle le_rfl
    have h2 : ∀ k i, Measurable[noisePast σ seed normal (n + 1)] (drawAt σ seed normal n k i) := by
      intro k i
      by_cases hx : (⟨k, i⟩ : Σ _ : ℕ, ℕ) ∈ idx σ
      · have : MeasurableSpace.comap (fun ω => drawAt σ seed normal n k i ω) inferInstance ≤ noisePast σ seed normal (n + 1) :=
          le_iSup₂_of_le (n, ⟨⟨k, i⟩, hx⟩) (Nat.lt_succ_self n) le_rfl
        exact measurable_iff_comap_le.mpr this
      · have : drawAt σ seed normal n k i = fun _ => 0 := by
          funext ω; unfold drawAt; rw [if_neg hx]
        rw [this]
        exact @measurable_const _ _ _ (noisePast σ seed normal (n + 1)) _
    let _ : MeasurableSpace Ω := noisePast σ seed normal (n + 1)
    refine measurable_pi_iff.mpr fun k => measurable_pi_iff.mpr fun i => ?_
    have h3 : Measurable fun ω => noisyPath lr s G (drawAt σ seed normal) p0 ω n k i := (measurable_pi_iff.mp ((measurable_pi_iff.mp h1) k)) i
    have h4 : Measurable fun ω => G n (noisyPath lr s G (drawAt σ seed normal) p0 ω n) k i :=
      (measurable_pi_iff.mp ((measurable_pi_iff.mp ((hG n).comp h1)) k)) i
    exact h3.add ((h4.const_mul (-lr)).add ((h2 k i).const_mul (s (n + 1))))

theorem noisyPath_measurable (hN : IdealNormal Pr normal) (seed : ℤ) (lr : ℝ) (s : ℕ → ℝ) {G : ℕ → Entries → Entries} (hG : ∀ n, Measurable (G n))
    (p0 : Entries) (n : ℕ) : Measurable (fun ω => noisyPath lr s G (drawAt σ seed normal) p0 ω n) :=
  (noisyPath_past σ seed lr s hG p0 n).mono
    (iSup₂_le fun _ _ => measurable_iff_comap_le.mp ((draws_indep σ hN seed).2.1 _ _ _)) le_rfl

theorem noisyPath_indep (hN : IdealNormal Pr normal) (seed : ℤ) (lr : ℝ) (s : ℕ → ℝ) {G : ℕ → Entries → Entries} (hG : ∀ n, Measurable (G n))
    (p0 : Entries) (n : ℕ) (x : Σ _ : ℕ, ℕ) (hx : x ∈ idx σ) :
    IndepFun (fun ω => noisyPath lr s G (drawAt σ seed normal) p0 ω n) (drawAt σ seed normal n x.1 x.2) Pr := by
  obtain ⟨h1, h2, _⟩ := draws_indep σ hN seed
  have h := indep_iSup_of_disjoint (μ := Pr)
    (m := fun y : ℕ × {x : Σ _ : ℕ, ℕ // x ∈ idx σ} => MeasurableSpace.comap (fun ω => drawAt σ seed normal y.1 y.2.1.1 y.2.1.2 ω) inferInstance)
    (fun y => measurable_iff_comap_le.mp (h2 _ _ _)) h1.iIndep (S := {y | y.1 < n}) (T := {(n, ⟨x, hx⟩)}) (by simp)
  rw [IndepFun_iff_Indep]
  refine indep_of_indep_of_le_left (indep_of_indep_of_le_right h ?_) ?_
  · exact le_iSup₂_of_le (n, ⟨x, hx⟩) rfl le_rfl
  · exact measurable_iff_comap_le.mp (noisyPath_past σ seed lr s hG p0 n)

/-- mean and variance of a draw -/
theorem draw_moments (hN : IdealNormal Pr normal) (seed : ℤ) (t : ℕ) (x : Σ _ : ℕ, ℕ) (hx : x ∈ idx σ) :
    Integrable (drawAt σ seed normal t x.1 x.2) Pr ∧ ∫ ω, drawAt σ seed normal t x.1 x.2 ω ∂Pr = 0 ∧
    Integrable (fun ω => drawAt σ seed normal t x.1 x.2 ω ^ 2) Pr ∧ ∫ ω, drawAt σ seed normal t x.1 x.2 ω ^ 2 ∂Pr = 1 := by
  obtain ⟨_, h2, h3⟩ := draws_indep σ hN seed
  have hm := h2 t x.1 x.2
  have hl := h3 t x hx
  have i1 : Integrable (fun y : ℝ => y) stdN := (memLp_id_gaussianReal 1).integrable le_rfl
  have i2 : Integrable (fun y : ℝ => y ^ 2) stdN := (memLp_id_gaussianReal 2).integrable_sq
  have m0 : ∫ y, y ∂stdN = 0 := integral_id_gaussianReal
  have m2 : ∫ y, y ^ 2 ∂stdN = 1 := by
    have := variance_id_gaussianReal (μ := 0) (v := 1)
    rw [variance_eq_sub (memLp_id_gaussianReal 2)] at this
    simpa [m0] using this
  have e1 : ∫ y, y ∂(Pr.map (drawAt σ seed normal t x.1 x.2)) = ∫ ω, drawAt σ seed normal t x.1 x.2 ω ∂Pr :=
    integral_map hm.aemeasurable measurable_id.aestronglyMeasurable
  have e2 : ∫ y, y ^ 2 ∂(Pr.map (drawAt σ seed normal t x.1 x.2)) = ∫ ω, drawAt σ seed normal t x.1 x.2 ω ^ 2 ∂Pr :=
    integral_map hm.aemeasurable (measurable_id.pow_const 2).aestronglyMeasurable
  rw [hl] at e1 e2
  refine ⟨?_, e1.symm.trans m0, ?_, e2.symm.trans m2⟩
  · have := (integrable_map_measure (μ := Pr) (f := drawAt σ seed normal t x.1 x.2) (g := fun y : ℝ => y)
      measurable_id.aestronglyMeasurable hm.aemeasurable).mp (by rw [hl]; exact i1)
    exact this
  · have := (integrable_map_measure (μ := Pr) (f := drawAt σ seed normal t x.1 x.2) (g := fun y : ℝ => y ^ 2)
      (measurable_id.pow_const 2).aestronglyMeasurable hm.aemeasurable).mp (by rw [hl]; exact i2)
    exact this

/-- one step: the noise adds its variance to the expected squared distance of the exact step -/
theorem noisy_expand (hN : IdealNormal Pr normal) (seed : ℤ) {lr : ℝ} (s : ℕ → ℝ) {G : ℕ → Entries → Entries}
    (hG : ∀ n, Measurable (G n)) (p0 q : Entries) (n : ℕ)
    (hci : Integrable (fun ω => sqDist σ (fun k i => noisyPath lr s G (drawAt σ seed normal) p0 ω n k i -
      lr * G n (noisyPath lr s G (drawAt σ seed normal) p0 ω n) k i) q) Pr) :
    Integrable (fun ω => sqDist σ (noisyPath lr s G (drawAt σ seed normal) p0 ω (n + 1)) q) Pr ∧
    ∫ ω, sqDist σ (noisyPath lr s G (drawAt σ seed normal) p0 ω (n + 1)) q ∂Pr =
      ∫ ω, sqDist σ (fun k i => noisyPath lr s G (drawAt σ seed normal) p0 ω n k i -
        lr * G n (noisyPath lr s G (drawAt σ seed normal) p0 ω n) k i) q ∂Pr + numEntries σ * s (n + 1) ^ 2 := by
  set P := fun ω => noisyPath lr s G (drawAt σ seed normal) p0 ω n with hP
  have hPm : Measurable P := noisyPath_measurable σ hN seed lr s hG p0 n
  set c : Entries → Entries := fun p k i => p k i - lr * G n p k i with hcdef
  have hci : Integrable (fun ω => sqDist σ (c (P ω)) q) Pr := hci
  have hcm : ∀ x : Σ _ : ℕ, ℕ, Measurable fun p : Entries => c p x.1 x.2 - q x.1 x.2 := by
    intro x
    have h1 : Measurable fun p : Entries => p x.1 x.2 := measurable_entries.mp measurable_id x.1 x.2
    have h2 : Measurable fun p : Entries => G n p x.1 x.2 := measurable_entries.mp (hG n) x.1 x.2
    exact (h1.sub (h2.const_mul lr)).sub_const _
  -- entry by entry
  have entry : ∀ x ∈ idx σ,
      Integrable (fun ω => (c (P ω) x.1 x.2 - q x.1 x.2) ^ 2) Pr ∧
      Integrable (fun ω => (noisyPath lr s G (drawAt σ seed normal) p0 ω (n + 1) x.1 x.2 - q x.1 x.2) ^ 2) Pr ∧
      ∫ ω, (noisyPath lr s G (drawAt σ seed normal) p0 ω (n + 1) x.1 x.2 - q x.1 x.2) ^ 2 ∂Pr =
        ∫ ω, (c (P ω) x.1 x.2 - q x.1 x.2) ^ 2 ∂Pr + s (n + 1) ^ 2 := by
    intro x hx
    set A := fun ω => c (P ω) x.1 x.2 - q x.1 x.2 with hA
    set Z := drawAt σ seed normal n x.1 x.2 with hZ
    have hAm : Measurable A := (hcm x).comp hPm
    have hA2 : Integrable (fun ω => A ω ^ 2) Pr := by
      refine Integrable.mono' hci (hAm.pow_const 2).aestronglyMeasurable (Filter.Eventually.of_forall fun ω => ?_)
      rw [Real.norm_of_nonneg (sq_nonneg _)]
      exact Finset.single_le_sum (f := fun y : Σ _ : ℕ, ℕ => (c (P ω) y.1 y.2 - q y.1 y.2) ^ 2) (fun _ _ => sq_nonneg _) hx
    have hA1 : Integrable A Pr := ((memLp_two_iff_integrable_sq hAm.aestronglyMeasurable).2 hA2).integrable (by norm_num)
    obtain ⟨z1, z2, z3, z4⟩ := draw_moments σ hN seed n x hx
    have hind : IndepFun A Z Pr := (noisyPath_indep σ hN seed lr s hG p0 n x hx).comp (hcm x) measurable_id
    have hAZ : Integrable (fun ω => A ω * Z ω) Pr := hind.integrable_mul hA1 z1
    have hAZ0 : ∫ ω, A ω * Z ω ∂Pr = 0 := by
      have := hind.integral_mul_eq_mul_integral hAm.aestronglyMeasurable z1.aestronglyMeasurable
      refine this.trans ?_
      rw [show ∫ ω, Z ω ∂Pr = 0 from z2, mul_zero]
    have e : (fun ω => (noisyPath lr s G (drawAt σ seed normal) p0 ω (n + 1) x.1 x.2 - q x.1 x.2) ^ 2) =
        fun ω => A ω ^ 2 + (2 * s (n + 1)) * (A ω * Z ω) + s (n + 1) ^ 2 * (Z ω ^ 2) := by
      funext ω
      show (P ω x.1 x.2 + (-lr * G n (P ω) x.1 x.2 + s (n + 1) * Z ω) - q x.1 x.2) ^ 2 = _
      simp only [hA, hcdef]
      ring
    rw [e]
    have i12 := hA2.add (hAZ.const_mul (2 * s (n + 1)))
    have i3 := z3.const_mul (s (n + 1) ^ 2)
    refine ⟨hA2, i12.add i3, ?_⟩
    have s1 := integral_add i12 i3
    have s2 := integral_add hA2 (hAZ.const_mul (2 * s (n + 1)))
    simp only [Pi.add_apply] at s1 s2
    rw [s1, s2, integral_const_mul, integral_const_mul, hAZ0, z4]
    ring
  have hsum : Integrable (fun ω => sqDist σ (noisyPath lr s G (drawAt σ seed normal) p0 ω (n + 1)) q) Pr :=
    integrable_finsetSum _ fun x hx => (entry x hx).2.1
  refine ⟨hsum, ?_⟩
  have e1 : ∫ ω, sqDist σ (noisyPath lr s G (drawAt σ seed normal) p0 ω (n + 1)) q ∂Pr =
      ∫ ω, sqDist σ (c (P ω)) q ∂Pr + numEntries σ * s (n + 1) ^ 2 := by
    unfold sqDist
    rw [integral_finsetSum _ fun x hx => (entry x hx).2.1, integral_finsetSum _ fun x hx => (entry x hx).1,
      Finset.sum_congr rfl fun x hx => (entry x hx).2.2, Finset.sum_add_distrib, Finset.sum_const, nsmul_eq_mul]
    rfl
  exact e1

theorem noisyStep_measurable (hN : IdealNormal Pr normal) (seed : ℤ) (lr : ℝ) (s : ℕ → ℝ) {G : ℕ → Entries → Entries}
    (hG : ∀ n, Measurable (G n)) (p0 q : Entries) (n : ℕ) :
    Measurable fun ω => sqDist σ (fun k i => noisyPath lr s G (drawAt σ seed normal) p0 ω n k i -
      lr * G n (noisyPath lr s G (drawAt σ seed normal) p0 ω n) k i) q := by
  have hPm := noisyPath_measurable σ hN seed lr s hG p0 n
  refine Finset.measurable_sum _ fun x _ => Measurable.pow_const ?_ 2
  exact ((measurable_entries.mp hPm x.1 x.2).sub ((measurable_entries.mp ((hG n).comp hPm) x.1 x.2).const_mul lr)).sub_const _

/-- one step: the expected squared distance contracts, plus the variance of the noise -/
theorem noisy_step (hN : IdealNormal Pr normal) (seed : ℤ) {lr L μ : ℝ} (s : ℕ → ℝ) {loss : Params ℝ → ℝ} {G : Entries → Entries}
    (hG : Measurable G) (hlr : 0 ≤ lr) (hL : L * lr ≤ 1) (hs : Smooth σ L loss G)
    (hc : StronglyConvex σ μ loss G) (q : Entries) (hq : ∀ t, loss (mk σ q) ≤ loss t) (p0 : Entries) (n : ℕ)
    (hi : Integrable (fun ω => sqDist σ (noisyPath lr s (fun _ => G) (drawAt σ seed normal) p0 ω n) q) Pr) :
    Integrable (fun ω => sqDist σ (noisyPath lr s (fun _ => G) (drawAt σ seed normal) p0 ω (n + 1)) q) Pr ∧
    ∫ ω, sqDist σ (noisyPath lr s (fun _ => G) (drawAt σ seed normal) p0 ω (n + 1)) q ∂Pr ≤
      (1 - lr * μ) * ∫ ω, sqDist σ (noisyPath lr s (fun _ => G) (drawAt σ seed normal) p0 ω n) q ∂Pr + numEntries σ * s (n + 1) ^ 2 ∧
    numEntries σ * s (n + 1) ^ 2 ≤ ∫ ω, sqDist σ (noisyPath lr s (fun _ => G) (drawAt σ seed normal) p0 ω (n + 1)) q ∂Pr := by
  set c : Entries → Entries := fun p k i => p k i - lr * G p k i with hcdef
  -- the exact step contracts
  have hcon : ∀ p, sqDist σ (c p) q ≤ (1 - lr * μ) * sqDist σ p q := by
    intro p
    have h1 := convex_step σ hs hc p q lr hlr hL
    have h2 := hq (mk σ (c p))
    have h3 : 0 ≤ 2 * lr * (loss (mk σ (c p)) - loss (mk σ q)) := mul_nonneg (by linarith) (by linarith)
    exact h1.trans (by linarith)
  have hci : Integrable (fun ω => sqDist σ (c (noisyPath lr s (fun _ => G) (drawAt σ seed normal) p0 ω n)) q) Pr := by
    refine Integrable.mono' (hi.const_mul (1 - lr * μ)) ?_ (Filter.Eventually.of_forall fun ω => ?_)
    · exact (noisyStep_measurable σ hN seed lr s (fun _ => hG) p0 q n).aestronglyMeasurable
    · rw [Real.norm_of_nonneg (sqDist_nonneg σ _ _)]; exact hcon _
  obtain ⟨hsum, e1⟩ := noisy_expand σ hN seed s (fun _ => hG) p0 q n hci
  refine ⟨hsum, ?_⟩
  rw [e1]
  have := integral_mono hci (hi.const_mul (1 - lr * μ)) fun ω => hcon _
  rw [integral_const_mul] at this
  have h0 : 0 ≤ ∫ ω, sqDist σ (c (noisyPath lr s (fun _ => G) (drawAt σ seed normal) p0 ω n)) q ∂Pr := integral_nonneg fun ω => sqDist_nonneg σ _ _
  exact ⟨add_le_add_left this _, le_add_of_nonneg_left h0⟩

/-- **C115 (one step).** Training with `noisy_sgd(lr, eta, gamma)` on an `L`-smooth `μ`-strongly convex loss with `lr·L ≤ 1`, the
generator being ideal: every step contracts the mean square distance to the minimiser by `1 - lr·μ` and adds the variance of
the noise, `d (eta / (n+1)^gamma)²` at step `n` (the count stops at `2³¹ - 1`); and the distance is never below that variance. -/
theorem C115_recurrence (hN : IdealNormal Pr normal) (seed : ℤ) (lr eta gamma L μ : ℝ) (hlr : 0 ≤ lr) (hL : L * lr ≤ 1)
    (loss : Params ℝ → ℝ) (grad : ℕ → Params ℝ → Params ℝ) (G : Entries → Entries) (hg : ∀ n p, grad n (mk σ p) = mk σ (G p))
    (hG : Measurable G) (hs : Smooth σ L loss G) (hc : StronglyConvex σ μ loss G) (p0 q : Entries)
    (hq : ∀ t, loss (mk σ q) ≤ loss t) :
    ∃ P : ℕ → Ω → Entries,
      (∀ ω, P 0 ω = p0 ∧ Visits (noisySgd (normal ω) (.scalar lr) eta gamma seed) grad σ (fun n => P n ω)) ∧
      (∀ n, Integrable (fun ω => treeDist σ (P n ω) q ^ 2) Pr) ∧
      ∀ n, ∫ ω, treeDist σ (P (n + 1) ω) q ^ 2 ∂Pr ≤
        (1 - lr * μ) * ∫ ω, treeDist σ (P n ω) q ^ 2 ∂Pr + numEntries σ * noiseStd eta gamma (n + 1) ^ 2 ∧
        numEntries σ * noiseStd eta gamma (n + 1) ^ 2 ≤ ∫ ω, treeDist σ (P (n + 1) ω) q ^ 2 ∂Pr := by
  refine ⟨fun n ω => noisyPath lr (noiseStd eta gamma) (fun _ => G) (drawAt σ seed normal) p0 ω n, fun ω => ⟨rfl, ?_⟩, ?_⟩
  · have := noisy_visits σ (normal ω) lr eta gamma seed grad (fun _ => G) hg p0
    have e : (fun n => noisyPath lr (noiseStd eta gamma) (fun _ => G) (drawAt σ seed normal) p0 ω n) =
      noisyPath lr (noiseStd eta gamma) (fun _ => G) (drawAt σ seed fun _ : Unit => normal ω) p0 () :=
      funext fun n => noisyPath_unit σ lr _ (fun _ => G) seed normal p0 ω n
    rw [e]
    exact this
  · simp only [← sqDist_eq]
    have hi : ∀ n, Integrable (fun ω => sqDist σ (noisyPath lr (noiseStd eta gamma) (fun _ => G) (drawAt σ seed normal) p0 ω n) q) Pr := by
      intro n
      induction n with
      | zero => exact integrable_const (sqDist σ p0 q)
      | succ n ih => exact (noisy_step σ hN seed (noiseStd eta gamma) hG hlr hL hs hc q hq p0 n ih).1
    exact ⟨hi, fun n => (noisy_step σ hN seed (noiseStd eta gamma) hG hlr hL hs hc q hq p0 n (hi n)).2⟩

theorem noiseStd_anti (eta gamma : ℝ) (hγ : 0 ≤ gamma) {t t' : ℕ} (h1 : 1 ≤ t) (h : t ≤ t') :
    noiseStd eta gamma t' ^ 2 ≤ noiseStd eta gamma t ^ 2 := by
  unfold noiseStd
  obtain ⟨M, hM⟩ : ∃ M : ℕ, M = 2147483647 := ⟨_, rfl⟩
  rw [← hM]
  have hM1 : 1 ≤ M := by omega
  have a1 : (1 : ℝ) ≤ ((min t M : ℕ) : ℝ) := by exact_mod_cast le_min h1 hM1
  have a2 : ((min t M : ℕ) : ℝ) ≤ ((min t' M : ℕ) : ℝ) := by exact_mod_cast min_le_min_right M h
  have a3 : (0 : ℝ) < ((min t M : ℕ) : ℝ) ^ gamma := Real.rpow_pos_of_pos (by linarith) _
  have a4 : ((min t M : ℕ) : ℝ) ^ gamma ≤ ((min t' M : ℕ) : ℝ) ^ gamma := Real.rpow_le_rpow (by linarith) a2 hγ
  rw [div_pow, div_pow]
  exact div_le_div_of_nonneg_left (sq_nonneg _) (by positivity) (pow_le_pow_left₀ a3.le a4 2)

theorem noiseStd_one (eta gamma : ℝ) : noiseStd eta gamma 1 = eta := by
  unfold noiseStd
  obtain ⟨M, hM⟩ : ∃ M : ℕ, M = 2147483647 := ⟨_, rfl⟩
  rw [← hM, min_eq_left (by omega), Nat.cast_one, Real.one_rpow, div_one]

theorem recurrence_bound (E : ℕ → ℝ) {ρ c : ℝ} (hρ : 0 ≤ ρ) (hρ1 : ρ < 1) (hc : 0 ≤ c) (M : ℕ)
    (h : ∀ n, M ≤ n → E (n + 1) ≤ ρ * E n + c) (m : ℕ) : E (M + m) ≤ ρ ^ m * E M + c / (1 - ρ) := by
  have h1 : 0 < 1 - ρ := by linarith
  induction m with
  | zero =>
    have := div_nonneg hc h1.le
    simp only [Nat.add_zero, pow_zero, one_mul]
    linarith
  | succ m ih =>
    have h2 := h (M + m) (by omega)
    have h3 := mul_le_mul_of_nonneg_left ih hρ
    have h4 : ρ * (c / (1 - ρ)) + c = c / (1 - ρ) := by field_simp; ring
    rw [← Nat.add_assoc, pow_succ']
    linarith

/-- **C115.** … so after `M + m` steps the mean square distance is at most
`(1 - lr·μ)^m ((1 - lr·μ)^M ‖p₀ - q‖² + d·eta²/(lr·μ)) + d·(eta/(M+1)^gamma)²/(lr·μ)` for all `M`, `m`: the initial error and the
early noise are forgotten exponentially fast, and the noise level is that of step `M`. -/
theorem C115_bound (hN : IdealNormal Pr normal) (seed : ℤ) (lr eta gamma L μ : ℝ) (hlr : 0 ≤ lr) (hL : L * lr ≤ 1)
    (hμ : 0 < lr * μ) (hμ1 : lr * μ ≤ 1) (hγ : 0 ≤ gamma)
    (loss : Params ℝ → ℝ) (grad : ℕ → Params ℝ → Params ℝ) (G : Entries → Entries) (hg : ∀ n p, grad n (mk σ p) = mk σ (G p))
    (hG : Measurable G) (hs : Smooth σ L loss G) (hc : StronglyConvex σ μ loss G) (p0 q : Entries)
    (hq : ∀ t, loss (mk σ q) ≤ loss t) :
    ∃ P : ℕ → Ω → Entries,
      (∀ ω, P 0 ω = p0 ∧ Visits (noisySgd (normal ω) (.scalar lr) eta gamma seed) grad σ (fun n => P n ω)) ∧
      (∀ n, Integrable (fun ω => treeDist σ (P n ω) q ^ 2) Pr) ∧
      (∀ M m : ℕ, ∫ ω, treeDist σ (P (M + m) ω) q ^ 2 ∂Pr ≤
        (1 - lr * μ) ^ m * ((1 - lr * μ) ^ M * treeDist σ p0 q ^ 2 + numEntries σ * eta ^ 2 / (lr * μ)) +
          numEntries σ * noiseStd eta gamma (M + 1) ^ 2 / (lr * μ)) ∧
      ∀ n, numEntries σ * noiseStd eta gamma (n + 1) ^ 2 ≤ ∫ ω, treeDist σ (P (n + 1) ω) q ^ 2 ∂Pr := by
  obtain ⟨P, h1, h2, h3⟩ := C115_recurrence σ hN seed lr eta gamma L μ hlr hL loss grad G hg hG hs hc p0 q hq
  refine ⟨P, h1, h2, fun M m => ?_, fun n => (h3 n).2⟩
  have hd : (0 : ℝ) ≤ numEntries σ := Nat.cast_nonneg _
  have key : ∀ M m : ℕ, ∫ ω, treeDist σ (P (M + m) ω) q ^ 2 ∂Pr ≤ (1 - lr * μ) ^ m * ∫ ω, treeDist σ (P M ω) q ^ 2 ∂Pr +
      numEntries σ * noiseStd eta gamma (M + 1) ^ 2 / (lr * μ) := by
    intro M m
    have := recurrence_bound (fun n => ∫ ω, treeDist σ (P n ω) q ^ 2 ∂Pr) (ρ := 1 - lr * μ)
      (c := numEntries σ * noiseStd eta gamma (M + 1) ^ 2) (by linarith) (by linarith) (mul_nonneg hd (sq_nonneg _)) M
      (fun n hn => (h3 n).1.trans (add_le_add_right
        (mul_le_mul_of_nonneg_left (noiseStd_anti eta gamma hγ (by omega) (by omega)) hd) _)) m
    rwa [sub_sub_cancel] at this
  refine (key M m).trans (add_le_add_left (mul_le_mul_of_nonneg_left ?_ (pow_nonneg (by linarith) _)) _)
  have := key 0 M
  rw [Nat.zero_add, Nat.zero_add, noiseStd_one] at this
  refine this.trans (le_of_eq ?_)
  simp only [(h1 _).1, integral_const, probReal_univ, smul_eq_mul, one_mul]

/-- **C115 (limit).** With annealing (`gamma ≥ 0`) the mean square distance eventually drops below any level above the floor
`d (eta / (2³¹-1)^gamma)² / (lr·μ)`; the floor itself cannot be removed: the step counter saturates, and the mean square distance
is always at least `d (eta / (2³¹-1)^gamma)²`. -/
theorem C115_limit (hN : IdealNormal Pr normal) (seed : ℤ) (lr eta gamma L μ : ℝ) (hlr : 0 ≤ lr) (hL : L * lr ≤ 1)
    (hμ : 0 < lr * μ) (hμ1 : lr * μ ≤ 1) (hγ : 0 ≤ gamma)
    (loss : Params ℝ → ℝ) (grad : ℕ → Params ℝ → Params ℝ) (G : Entries → Entries) (hg : ∀ n p, grad n (mk σ p) = mk σ (G p))
    (hG : Measurable G) (hs : Smooth σ L loss G) (hc : StronglyConvex σ μ loss G) (p0 q : Entries)
    (hq : ∀ t, loss (mk σ q) ≤ loss t) :
    ∃ P : ℕ → Ω → Entries,
      (∀ ω, P 0 ω = p0 ∧ Visits (noisySgd (normal ω) (.scalar lr) eta gamma seed) grad σ (fun n => P n ω)) ∧
      (∀ n, Integrable (fun ω => treeDist σ (P n ω) q ^ 2) Pr) ∧
      (∀ ε > 0, ∃ N, ∀ n ≥ N, ∫ ω, treeDist σ (P n ω) q ^ 2 ∂Pr ≤
        numEntries σ * (eta / (2147483647 : ℝ) ^ gamma) ^ 2 / (lr * μ) + ε) ∧
      ∀ n, numEntries σ * (eta / (2147483647 : ℝ) ^ gamma) ^ 2 ≤ ∫ ω, treeDist σ (P (n + 1) ω) q ^ 2 ∂Pr := by
  obtain ⟨P, h1, h2, h3, h4⟩ := C115_bound σ hN seed lr eta gamma L μ hlr hL hμ hμ1 hγ loss grad G hg hG hs hc p0 q hq
  obtain ⟨M, hM⟩ : ∃ M : ℕ, M + 1 = 2147483647 := ⟨2147483646, rfl⟩
  have hMR : (2147483647 : ℝ) = ((M + 1 : ℕ) : ℝ) := by rw [hM]; norm_num
  rw [hMR]
  have hsat : noiseStd eta gamma (M + 1) = eta / ((M + 1 : ℕ) : ℝ) ^ gamma := by
    unfold noiseStd
    rw [← hM, min_self]
  have hsat' : ∀ t, 1 ≤ t → noiseStd eta gamma (M + 1) ^ 2 ≤ noiseStd eta gamma t ^ 2 := by
    intro t ht
    rcases le_total t (M + 1) with h | h
    · exact noiseStd_anti eta gamma hγ ht h
    · refine le_of_eq ?_
      unfold noiseStd
      rw [← hM, min_self, min_eq_right h]
  clear hMR hM
  refine ⟨P, h1, h2, ?_, ?_⟩
  · intro ε hε
    have hd : (0 : ℝ) ≤ numEntries σ := Nat.cast_nonneg _
    obtain ⟨B, hB⟩ : ∃ B : ℝ, B = (1 - lr * μ) ^ M * treeDist σ p0 q ^ 2 + numEntries σ * eta ^ 2 / (lr * μ) := ⟨_, rfl⟩
    have hB0 : 0 ≤ B := by
      rw [hB]
      exact add_nonneg (mul_nonneg (pow_nonneg (by linarith) _) (sq_nonneg _)) (div_nonneg (mul_nonneg hd (sq_nonneg _)) hμ.le)
    obtain ⟨m, hm⟩ := exists_pow_lt_of_lt_one (show 0 < ε / (B + 1) by positivity) (show 1 - lr * μ < 1 by linarith)
    refine ⟨M + m, fun n hn => ?_⟩
    obtain ⟨j, hj⟩ : ∃ j, n = M + (m + j) := ⟨n - M - m, by omega⟩
    have h5 := h3 M (m + j)
    rw [← hB, ← hj, hsat] at h5
    have h6 : (1 - lr * μ) ^ (m + j) * B ≤ ε := by
      have a1 : (1 - lr * μ) ^ (m + j) ≤ (1 - lr * μ) ^ m :=
        pow_le_pow_of_le_one (by linarith) (by linarith) (by omega)
      have a2 : (1 - lr * μ) ^ (m + j) ≤ ε / (B + 1) := a1.trans hm.le
      calc _ ≤ ε / (B + 1) * B := mul_le_mul_of_nonneg_right a2 hB0
        _ ≤ ε := by
          rw [div_mul_eq_mul_div, div_le_iff₀ (by linarith)]
          nlinarith
    linarith
  · intro n
    have hd : (0 : ℝ) ≤ numEntries σ := Nat.cast_nonneg _
    rw [← hsat]
    exact (mul_le_mul_of_nonneg_left (hsat' (n + 1) (by omega)) hd).trans (h4 n)

end path

/-- Non-vacuity: an ideal generator exists, and least squares meets the hypotheses on the loss. -/
example (c : Entries) : IdealNormal idealP idealNormal ∧ Measurable (fun p k i => p k i - c k i : Entries → Entries) ∧
    Smooth σ 1 (leastSquares σ c) (fun p k i => p k i - c k i) ∧ StronglyConvex σ 1 (leastSquares σ c) (fun p k i => p k i - c k i) ∧
    ∀ t, leastSquares σ c (mk σ c) ≤ leastSquares σ c t :=
  ⟨ideal_isIdeal, by
    rw [measurable_entries]
    intro k i
    exact (measurable_entries.mp measurable_id k i).sub_const _, leastSquares_smooth σ c, leastSquares_convex σ c, leastSquares_min σ c⟩

end Optax
