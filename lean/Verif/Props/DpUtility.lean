import Verif.Props.NoisySgd

/-!
# C118: the utility of `dpsgd`

C91 bounds what the trained parameters reveal; this bounds what the privacy costs.  For per-example losses whose gradients never exceed
the clipping norm, the expected regret of `dpsgd` is that of `sgd` plus the variance of the noise.
-/

set_option linter.unusedSectionVars false

open MeasureTheory ProbabilityTheory

namespace Optax
variable (σ : Spec)

/-- the gradient `dpsgd` follows: the mean of the clipped per-example gradients -/
noncomputable def dpMean (C : ℝ) (B : ℕ → ℕ) (x : ℕ → Entries → ℕ → Entries) (n : ℕ) (p : Entries) : Entries :=
  cut σ fun k i => clippedSum σ C (B n) (x n p) k i / B n

theorem dp_visits (hσ : σ.leaves ≠ []) (normal : Normal ℝ) (lr C m : ℝ) (seed : ℤ) (nes : Bool) (B : ℕ → ℕ)
    (x : ℕ → Entries → ℕ → Entries) (grad : ℕ → Params ℝ → Params ℝ) (hg : ∀ n p, grad n (mk σ p) = stacked σ (B n) (x n p)) (p0 : Entries) :
    Visits (dpsgd normal (.scalar lr) C m seed none nes) grad σ
      (noisyPath lr (fun t => -(lr * (C * m / B (t - 1)))) (dpMean σ C B x) (drawAt σ seed fun _ : Unit => normal) p0 ()) := by
  let ts : List (GT ℝ) := [momentumOrIdentity none nes, scaleByLearningRate (.scalar lr)]
  let s : ChainState ts := some (⟨⟩, some (⟨⟩, (0 : ℕ)))
  let upd : Entries × Unit × Entries → Entries × Unit := fun r => (fun k i => -lr * r.1 k i, ())
  have h4 : ∀ (g : Entries) (u : Unit) (p : Entries), chainLoop ts (mk σ g) ((fun _ : Unit => s) u) (some (mk σ p)) =
      .ok (mk σ (upd (g, u, p)).1, (fun _ : Unit => s) (upd (g, u, p)).2) := by
    intro g u p
    refine chainLoop_cons_ok (u := mk σ g) rfl (chainLoop_cons_ok (u := mk σ fun k i => -lr * g k i) ?_ chainLoop_nil_ok)
    show Except.ok (tmap _ (mk σ g), _) = _
    rw [tmap_mk]
  refine ⟨some (⟨.seed seed⟩, s), chainInit_cons_ok rfl (chainInit_cons_ok rfl (chainInit_cons_ok rfl chainInit_nil_ok)), fun N => ?_⟩
  have hmain := train_eq σ hσ ts (fun _ : Unit => s) upd (fun _ => rfl) h4 normal C m seed B x grad hg p0 () N N le_rfl
  suffices h : ∀ n ≤ N, (loopRun upd (p0, ()) (aggOf σ C m B x (spread σ N (noiseOf σ N seed normal))) n).1 =
      noisyPath lr (fun t => -(lr * (C * m / B (t - 1)))) (dpMean σ C B x) (drawAt σ seed fun _ : Unit => normal) p0 () n by
    rw [h N le_rfl] at hmain
    exact ⟨_, hmain⟩
  intro n hn
  induction n with
  | zero => rfl
  | succ n ih =>
    funext k i
    rw [loopRun, noisyPath, postStep, ih (by omega)]
    simp only [upd, aggOf, dpMean, cut, drawAt, spread, noiseOf, Nat.add_sub_cancel]
    by_cases hx : (⟨k, i⟩ : Σ _ : ℕ, ℕ) ∈ idx σ
    · rw [if_pos hx, if_pos hx, if_pos hx, dif_pos ⟨by omega, hx⟩]
      ring
    · rw [if_neg hx, if_neg hx, if_neg hx]
      ring

theorem l2_mean_le {C : ℝ} (B : ℕ) (hB : 1 ≤ B) (y : ℕ → Entries) (hy : ∀ b < B, entryNorm σ (y b) ≤ C) :
    entryNorm σ (fun k i => (∑ b ∈ Finset.range B, y b k i) / B) ≤ C := by
  have key : ∀ b ≤ B, entryNorm σ (fun k i => ∑ b ∈ Finset.range b, y b k i) ≤ b * C := by
    intro b hb
    induction b with
    | zero =>
      refine le_of_eq ?_
      have : entryNorm σ (fun k i => ∑ b ∈ Finset.range 0, y b k i) = 0 := by
        unfold entryNorm
        rw [l2_eq_zero]
        intro x _
        simp
      rw [this]; simp
    | succ b ih =>
      have h1 := ih (by omega)
      have h2 := hy b (by omega)
      have h3 := l2_add_le (idx σ) (fun x => ∑ b ∈ Finset.range b, y b x.1 x.2) (fun x => y b x.1 x.2)
      unfold entryNorm at h1 h2 ⊢
      simp only [Finset.sum_range_succ]
      push_cast
      linarith
  have hB' : (0 : ℝ) < B := by exact_mod_cast hB
  have e : entryNorm σ (fun k i => (∑ b ∈ Finset.range B, y b k i) / B) = (B : ℝ)⁻¹ * entryNorm σ (fun k i => ∑ b ∈ Finset.range B, y b k i) := by
    unfold entryNorm
    have := l2_smul (idx σ) (fun x => ∑ b ∈ Finset.range B, y b x.1 x.2) (B : ℝ)⁻¹
    rw [abs_of_pos (inv_pos.mpr hB')] at this
    rw [← this]
    exact l2_congr _ fun x _ => by ring
  rw [e, inv_mul_le_iff₀ hB']
  exact key B le_rfl

section
variable {Ω : Type} [MeasurableSpace Ω] {Pr : Measure Ω} [IsProbabilityMeasure Pr] {normal : Ω → Normal ℝ}

/-- **C118.** Training with `dpsgd(η, l2_norm_clip=C, noise_multiplier=m)` on batches of `B n` examples, whose gradients never exceed
`C` (`C`-Lipschitz losses), the batch losses convex, and the generator ideal: after `N` steps the expected regret with respect to any
`q` is at most `‖p₀-q‖²/(2η) + Σ_n η/2 (C² + d (C m / B n)²)`, `d` the number of parameters: the price of privacy is the variance of the
noise. -/
theorem C118_utility (hN : IdealNormal Pr normal) (hσ : σ.leaves ≠ []) (seed : ℤ) (η C m : ℝ) (hη : 0 < η) (hC : 0 < C) (nes : Bool)
    (B : ℕ → ℕ) (hB : ∀ n, 1 ≤ B n) (x : ℕ → Entries → ℕ → Entries) (hx : ∀ n b, Measurable fun p => x n p b)
    (hxC : ∀ n p, ∀ b < B n, globalNorm (mk σ (x n p b)) ≤ C) (grad : ℕ → Params ℝ → Params ℝ)
    (hg : ∀ n p, grad n (mk σ p) = stacked σ (B n) (x n p)) (loss : ℕ → Params ℝ → ℝ) (hlm : ∀ n, Measurable fun p => loss n (mk σ p))
    (hc : ∀ n, StronglyConvex σ 0 (loss n) (fun p k i => (∑ b ∈ Finset.range (B n), x n p b k i) / B n)) (p0 q : Entries) :
    ∃ P : ℕ → Ω → Entries,
      (∀ ω, P 0 ω = p0 ∧ Visits (dpsgd (normal ω) (.scalar η) C m seed none nes) grad σ (fun n => P n ω)) ∧
      (∀ n, Integrable (fun ω => loss n (mk σ (P n ω))) Pr) ∧
      ∀ N, ∑ n ∈ Finset.range N, (∫ ω, loss n (mk σ (P n ω)) ∂Pr - loss n (mk σ q)) ≤
        treeDist σ p0 q ^ 2 / (2 * η) + ∑ n ∈ Finset.range N, η / 2 * (C ^ 2 + numEntries σ * (C * m / B n) ^ 2) := by
  set s : ℕ → ℝ := fun t => -(η * (C * m / B (t - 1))) with hs
  set H := dpMean σ C B x with hH
  set P : ℕ → Ω → Entries := fun n ω => noisyPath η s H (drawAt σ seed normal) p0 ω n with hP
  have hHm : ∀ n, Measurable (H n) := by
    intro n
    refine (measurable_cut σ).comp ?_
    rw [measurable_entries]
    intro k i
    exact (measurable_entries.mp (measurable_clippedSum σ C (B n) (x n) (hx n)) k i).div_const _
  have hxC' : ∀ n p, ∀ b < B n, entryNorm σ (x n p b) ≤ C := by
    intro n p b hb
    have := hxC n p b hb
    rwa [globalNorm_mk] at this
  -- clipping does nothing
  have hHe : ∀ n p, ∀ y ∈ idx σ, H n p y.1 y.2 = (∑ b ∈ Finset.range (B n), x n p b y.1 y.2) / B n := by
    intro n p y hy
    rw [hH]
    unfold dpMean cut clippedSum
    rw [if_pos hy]
    have e : ∀ b ∈ Finset.range (B n), clippedTo σ C (x n p b) y.1 y.2 = x n p b y.1 y.2 := fun b hb => by
      rw [(C49_contribution σ C hC (x n p b)).2.1 (hxC' n p b (Finset.mem_range.mp hb))]
    show (∑ b ∈ Finset.range (B n), clippedTo σ C (x n p b) y.1 y.2) / (B n : ℝ) = _
    rw [Finset.sum_congr rfl e]
  have hnorm : ∀ n p, sqNorm σ (H n p) ≤ C ^ 2 := by
    intro n p
    have h1 := l2_mean_le σ (B n) (hB n) (x n p) (hxC' n p)
    have h2 : sqNorm σ (H n p) = entryNorm σ (fun k i => (∑ b ∈ Finset.range (B n), x n p b k i) / B n) ^ 2 := by
      unfold entryNorm
      rw [l2_sq]
      unfold sqNorm
      exact Finset.sum_congr rfl fun y hy => by rw [hHe n p y hy]
    rw [h2]
    exact pow_le_pow_left₀ (l2_nonneg _ _) h1 2
  have hin : ∀ n p r, loss n (mk σ p) - loss n (mk σ r) ≤ treeInner σ (H n p) (fun k i => p k i - r k i) := by
    intro n p r
    have h1 := hc n p r
    rw [zero_div, zero_mul, add_zero] at h1
    have h2 : treeInner σ (fun k i => (∑ b ∈ Finset.range (B n), x n p b k i) / B n) (fun k i => r k i - p k i) =
        -treeInner σ (H n p) (fun k i => p k i - r k i) := by
      unfold treeInner
      rw [← Finset.sum_neg_distrib]
      exact Finset.sum_congr rfl fun y hy => by rw [hHe n p y hy]; ring
    linarith
  -- an exact step
  have hexact : ∀ n p, sqDist σ (fun k i => p k i - η * H n p k i) q =
      sqDist σ p q - 2 * η * treeInner σ (H n p) (fun k i => p k i - q k i) + η ^ 2 * sqNorm σ (H n p) := by
    intro n p
    unfold sqDist treeInner sqNorm
    rw [Finset.mul_sum, Finset.mul_sum, ← Finset.sum_sub_distrib, ← Finset.sum_add_distrib]
    exact Finset.sum_congr rfl fun y _ => by ring
  have hinner : ∀ n p r, |treeInner σ (H n p) (fun k i => p k i - r k i)| ≤ C * (1 + sqDist σ p r) := by
    intro n p r
    have h1 := abs_inner_le_l2 (idx σ) (fun y => H n p y.1 y.2) (fun y => p y.1 y.2 - r y.1 y.2)
    have h2 : l2 (idx σ) (fun y => H n p y.1 y.2) ≤ C := l2_le_of_sq _ hC.le (hnorm n p)
    have h3 : l2 (idx σ) (fun y => p y.1 y.2 - r y.1 y.2) ≤ 1 + sqDist σ p r := by
      have h4 : sqDist σ p r = l2 (idx σ) (fun y => p y.1 y.2 - r y.1 y.2) ^ 2 := (l2_sq _ _).symm
      rw [h4]
      nlinarith [l2_nonneg (idx σ) (fun y : Σ _ : ℕ, ℕ => p y.1 y.2 - r y.1 y.2), sq_nonneg (l2 (idx σ) (fun y => p y.1 y.2 - r y.1 y.2) - 1)]
    exact h1.trans (mul_le_mul h2 h3 (l2_nonneg _ _) hC.le)
  have hloss : ∀ n p, |loss n (mk σ p) - loss n (mk σ q)| ≤ C * (1 + sqDist σ p q) := by
    intro n p
    have h1 := (hin n p q).trans ((le_abs_self _).trans (hinner n p q))
    have h2 := (hin n q p).trans ((le_abs_self _).trans (hinner n q p))
    have h3 : sqDist σ q p = sqDist σ p q := by
      unfold sqDist; exact Finset.sum_congr rfl fun y _ => by ring
    rw [h3] at h2
    exact abs_le.mpr ⟨by linarith, h1⟩
  have hPm : ∀ n, Measurable (P n) := fun n => noisyPath_measurable σ hN seed η s hHm p0 n
  have hstepI : ∀ n, Integrable (fun ω => sqDist σ (P n ω) q) Pr →
      Integrable (fun ω => sqDist σ (fun k i => P n ω k i - η * H n (P n ω) k i) q) Pr := by
    intro n hi
    refine Integrable.mono' ((hi.add ((integrable_const (1 : ℝ)).add hi |>.const_mul (2 * η * C))).add (integrable_const (η ^ 2 * C ^ 2)))
      (noisyStep_measurable σ hN seed η s hHm p0 q n).aestronglyMeasurable (Filter.Eventually.of_forall fun ω => ?_)
    rw [Real.norm_of_nonneg (sqDist_nonneg σ _ _), hexact]
    have h1 := (abs_le.mp (hinner n (P n ω) q)).1
    have h2 := hnorm n (P n ω)
    simp only [Pi.add_apply]
    have h3 := mul_le_mul_of_nonneg_left h1 (show 0 ≤ 2 * η by linarith)
    have h4 := mul_le_mul_of_nonneg_left h2 (sq_nonneg η)
    nlinarith
  have hi : ∀ n, Integrable (fun ω => sqDist σ (P n ω) q) Pr := by
    intro n
    induction n with
    | zero => exact integrable_const (sqDist σ p0 q)
    | succ n ih => exact (noisy_expand σ hN seed s hHm p0 q n (hstepI n ih)).1
  have hli : ∀ n, Integrable (fun ω => loss n (mk σ (P n ω)) - loss n (mk σ q)) Pr := by
    intro n
    refine Integrable.mono' (((integrable_const (1 : ℝ)).add (hi n)).const_mul C)
      (((hlm n).comp (hPm n)).sub_const _).aestronglyMeasurable (Filter.Eventually.of_forall fun ω => ?_)
    exact hloss n (P n ω)
  have hli' : ∀ n, Integrable (fun ω => loss n (mk σ (P n ω))) Pr := by
    intro n
    have := (hli n).add (integrable_const (loss n (mk σ q)))
    refine this.congr (Filter.Eventually.of_forall fun ω => ?_)
    simp
  refine ⟨P, fun ω => ⟨rfl, ?_⟩, hli', fun N => ?_⟩
  · have := dp_visits σ hσ (normal ω) η C m seed nes B x grad hg p0
    have e : (fun n => P n ω) = noisyPath η s H (drawAt σ seed fun _ : Unit => normal ω) p0 () :=
      funext fun n => noisyPath_unit σ η _ H seed normal p0 ω n
    rw [e]
    exact this
  have step : ∀ n, 2 * η * (∫ ω, loss n (mk σ (P n ω)) ∂Pr - loss n (mk σ q)) ≤
      ∫ ω, sqDist σ (P n ω) q ∂Pr - ∫ ω, sqDist σ (P (n + 1) ω) q ∂Pr + η ^ 2 * (C ^ 2 + numEntries σ * (C * m / B n) ^ 2) := by
    intro n
    obtain ⟨-, e1⟩ := noisy_expand σ hN seed s hHm p0 q n (hstepI n (hi n))
    have h1 : ∫ ω, sqDist σ (fun k i => P n ω k i - η * H n (P n ω) k i) q ∂Pr ≤
        ∫ ω, (sqDist σ (P n ω) q - 2 * η * (loss n (mk σ (P n ω)) - loss n (mk σ q)) + η ^ 2 * C ^ 2) ∂Pr := by
      refine integral_mono (hstepI n (hi n)) (((hi n).sub ((hli n).const_mul (2 * η))).add (integrable_const _)) fun ω => ?_
      rw [hexact]
      have h1 := mul_le_mul_of_nonneg_left (hin n (P n ω) q) (show 0 ≤ 2 * η by linarith)
      have h2 := mul_le_mul_of_nonneg_left (hnorm n (P n ω)) (sq_nonneg η)
      linarith
    have h2 : ∫ ω, (sqDist σ (P n ω) q - 2 * η * (loss n (mk σ (P n ω)) - loss n (mk σ q)) + η ^ 2 * C ^ 2) ∂Pr =
        ∫ ω, sqDist σ (P n ω) q ∂Pr - 2 * η * (∫ ω, loss n (mk σ (P n ω)) ∂Pr - loss n (mk σ q)) + η ^ 2 * C ^ 2 := by
      have a1 := integral_add ((hi n).sub ((hli n).const_mul (2 * η))) (integrable_const (η ^ 2 * C ^ 2) (μ := Pr))
      have a2 := integral_sub (hi n) ((hli n).const_mul (2 * η))
      have a3 := integral_sub (hli' n) (integrable_const (loss n (mk σ q)) (μ := Pr))
      simp only [Pi.sub_apply] at a1
      rw [a1, a2, integral_const_mul, a3]
      simp
    have h3 : s (n + 1) ^ 2 = η ^ 2 * (C * m / B n) ^ 2 := by
      simp only [hs, Nat.add_sub_cancel]; ring
    have e2 : ∫ ω, sqDist σ (P (n + 1) ω) q ∂Pr =
      ∫ ω, sqDist σ (fun k i => P n ω k i - η * H n (P n ω) k i) q ∂Pr + numEntries σ * s (n + 1) ^ 2 := e1
    rw [h3] at e2
    rw [h2] at h1
    rw [e2]
    linarith
  have tele : ∀ N, 2 * η * ∑ n ∈ Finset.range N, (∫ ω, loss n (mk σ (P n ω)) ∂Pr - loss n (mk σ q)) + ∫ ω, sqDist σ (P N ω) q ∂Pr ≤
      sqDist σ p0 q + ∑ n ∈ Finset.range N, η ^ 2 * (C ^ 2 + numEntries σ * (C * m / B n) ^ 2) := by
    intro N
    induction N with
    | zero => simp [hP, noisyPath]
    | succ N ih =>
      rw [Finset.sum_range_succ, Finset.sum_range_succ, mul_add]
      linarith [step N]
  have h1 := tele N
  have h2 : 0 ≤ ∫ ω, sqDist σ (P N ω) q ∂Pr := integral_nonneg fun ω => sqDist_nonneg σ _ _
  rw [← sqDist_eq]
  have h3 : ∑ n ∈ Finset.range N, η ^ 2 * (C ^ 2 + numEntries σ * (C * m / B n) ^ 2) =
      2 * η * ∑ n ∈ Finset.range N, η / 2 * (C ^ 2 + numEntries σ * (C * m / B n) ^ 2) := by
    rw [Finset.mul_sum]
    exact Finset.sum_congr rfl fun n _ => by ring
  have h4 : sqDist σ p0 q = 2 * η * (sqDist σ p0 q / (2 * η)) := by field_simp
  rw [h3] at h1
  refine le_of_mul_le_mul_left ?_ (show 0 < 2 * η by linarith)
  rw [mul_add, ← h4]
  linarith

/-- **C118 (tuned).** With batches of `B` examples, `‖p₀ - q‖ ≤ D` and the learning rate `D / (C √(N (1 + d m²/B²)))`, the average
expected excess loss over the `N` steps is at most `D C √((1 + d m²/B²)/N)`: it vanishes at the rate `1/√N` of the non-private `sgd`, and
for a noise multiplier of the order `√k` needed for a fixed privacy loss over `k` steps (C91) stays of the order `√d / B`. -/
theorem C118_tuned (hN : IdealNormal Pr normal) (hσ : σ.leaves ≠ []) (seed : ℤ) (C m D : ℝ) (hC : 0 < C) (hD : 0 < D) (nes : Bool)
    (B : ℕ) (hB : 1 ≤ B) (x : ℕ → Entries → ℕ → Entries) (hx : ∀ n b, Measurable fun p => x n p b)
    (hxC : ∀ n p, ∀ b < B, globalNorm (mk σ (x n p b)) ≤ C) (grad : ℕ → Params ℝ → Params ℝ)
    (hg : ∀ n p, grad n (mk σ p) = stacked σ B (x n p)) (loss : ℕ → Params ℝ → ℝ) (hlm : ∀ n, Measurable fun p => loss n (mk σ p))
    (hc : ∀ n, StronglyConvex σ 0 (loss n) (fun p k i => (∑ b ∈ Finset.range B, x n p b k i) / B)) (p0 q : Entries)
    (hq : treeDist σ p0 q ≤ D) (N : ℕ) (hN0 : 1 ≤ N) :
    ∃ P : ℕ → Ω → Entries,
      (∀ ω, P 0 ω = p0 ∧ Visits (dpsgd (normal ω) (.scalar (D / (C * √(N * (1 + numEntries σ * m ^ 2 / B ^ 2))))) C m seed none nes) grad σ
        (fun n => P n ω)) ∧
      (∑ n ∈ Finset.range N, (∫ ω, loss n (mk σ (P n ω)) ∂Pr - loss n (mk σ q))) / N ≤
        D * C * √((1 + numEntries σ * m ^ 2 / B ^ 2) / N) := by
  have hN' : (0 : ℝ) < N := by exact_mod_cast hN0
  have hB' : (0 : ℝ) < B := by exact_mod_cast hB
  have hd : (0 : ℝ) ≤ numEntries σ := Nat.cast_nonneg _
  set v : ℝ := 1 + numEntries σ * m ^ 2 / B ^ 2 with hv
  have hv0 : 0 < v := by
    have : 0 ≤ numEntries σ * m ^ 2 / (B : ℝ) ^ 2 := by positivity
    linarith
  set r := √(N * v) with hr
  have hr0 : 0 < r := Real.sqrt_pos.mpr (mul_pos hN' hv0)
  have hr2 : r ^ 2 = N * v := Real.sq_sqrt (mul_pos hN' hv0).le
  obtain ⟨P, h1, -, h2⟩ := C118_utility σ hN hσ seed (D / (C * r)) C m (by positivity) hC nes (fun _ => B) (fun _ => hB) x hx hxC grad hg
    loss hlm hc p0 q
  refine ⟨P, h1, ?_⟩
  have h3 := h2 N
  rw [Finset.sum_const, Finset.card_range, nsmul_eq_mul] at h3
  have h4 : C ^ 2 + numEntries σ * (C * m / B) ^ 2 = C ^ 2 * v := by rw [hv]; field_simp
  have h5 : treeDist σ p0 q ^ 2 ≤ D ^ 2 := pow_le_pow_left₀ (treeDist_nonneg σ _ _) hq 2
  have h6 : treeDist σ p0 q ^ 2 / (2 * (D / (C * r))) ≤ D ^ 2 / (2 * (D / (C * r))) := div_le_div_of_nonneg_right h5 (by positivity)
  have h7 : D ^ 2 / (2 * (D / (C * r))) = D * C * r / 2 := by field_simp
  have h8 : (N : ℝ) * (D / (C * r) / 2 * (C ^ 2 * v)) = D * C * r / 2 := by
    have : (N : ℝ) * (D / (C * r) / 2 * (C ^ 2 * v)) = D * C * (N * v) / (2 * r) := by field_simp
    rw [this, ← hr2]; field_simp
  rw [h4, h8] at h3
  rw [h7] at h6
  have h9 : √(v / N) = r / N := by
    have : v / N = (r / N) ^ 2 := by rw [div_pow, hr2]; field_simp
    rw [this, Real.sqrt_sq (by positivity)]
  rw [h9, div_le_iff₀ hN']
  have h10 : D * C * (r / N) * N = D * C * r := by field_simp
  rw [h10]
  linarith

end

/-- Non-vacuity: on a `2 × 3` matrix, examples with linear losses of slope `±1` in one entry: measurable, convex, gradients within the clip
norm 1; and an ideal generator exists. -/
example : IdealNormal idealP idealNormal ∧
    let x : ℕ → Entries → ℕ → Entries := fun n _ b k i => if k = 0 ∧ i = 4 then (-1) ^ (n + b) else 0
    (∀ n b, Measurable fun p => x n p b) ∧ (∀ n p b, globalNorm (mk (.leaf [2, 3]) (x n p b)) ≤ 1) ∧
    ∀ n, StronglyConvex (.leaf [2, 3]) 0 (fun t => (∑ b ∈ Finset.range 3, (-1) ^ (n + b)) / (3 : ℕ) * coord t 0 4)
      (fun p k i => (∑ b ∈ Finset.range 3, x n p b k i) / (3 : ℕ)) := by
  have hm : (⟨0, 4⟩ : (_ : ℕ) × ℕ) ∈ idx (.leaf [2, 3] : Spec) := mem_idx.mpr ⟨[2, 3], rfl, by decide⟩
  refine ⟨ideal_isIdeal, fun n b => measurable_const, fun n p b => ?_, fun n p q => ?_⟩
  · rw [globalNorm_mk]
    refine l2_le_of_sq _ zero_le_one ?_
    rw [Finset.sum_eq_single_of_mem _ hm]
    · simp [← pow_mul]
    · rintro ⟨a, b⟩ _ hne
      have : ¬ (a = 0 ∧ b = 4) := fun h => hne (by rw [h.1, h.2])
      simp [this]
  · have e : ∀ v : ℕ → ℕ → ℝ, coord (mk (.leaf [2, 3]) v) 0 4 = v 0 4 := fun v => coord_mk _ _ 0 4 [2, 3] rfl (by decide)
    have hs : treeInner (.leaf [2, 3]) (fun k i => (∑ b ∈ Finset.range 3, if k = 0 ∧ i = 4 then ((-1) ^ (n + b) : ℝ) else 0) / (3 : ℕ))
        (fun k i => q k i - p k i) = (∑ b ∈ Finset.range 3, (-1) ^ (n + b)) / (3 : ℕ) * (q 0 4 - p 0 4) := by
      unfold treeInner
      rw [Finset.sum_eq_single_of_mem _ hm]
      · simp
      · rintro ⟨a, b⟩ _ hne
        have : ¬ (a = 0 ∧ b = 4) := fun h => hne (by rw [h.1, h.2])
        simp [this]
    simp only [e, hs]
    linarith

end Optax
