import Verif.Props.AdagradRegret
import Mathlib.Analysis.SpecialFunctions.Log.Basic
import Mathlib.Topology.Algebra.InfiniteSum.Real

/-!
# C96: adagrad and rmsprop on smooth non-convex losses

Training with the full gradient of an `L`-smooth loss that is bounded below; nothing else is assumed of the loss.
-/

set_option linter.unusedSectionVars false
set_option linter.unusedSimpArgs false

namespace Optax
open Finset

variable (σ : Spec)

/-- the steps `adagrad` takes in training -/
theorem adagrad_steps (η a eps : ℝ) (ha : 0 ≤ a) (grad : ℕ → Params ℝ → Params ℝ)
    (G : ℕ → (ℕ → ℕ → ℝ) → ℕ → ℕ → ℝ) (hg : ∀ n p, grad n (mk σ p) = mk σ (G n p)) (p0 : ℕ → ℕ → ℝ) :
    ∃ P : ℕ → ℕ → ℕ → ℝ, P 0 = p0 ∧ Visits (adagrad (.scalar η) a eps) grad σ P ∧
      ∀ n, ∀ x ∈ idx σ, P (n + 1) x.1 x.2 = P n x.1 x.2 -
        η * (G n (P n) x.1 x.2 / √(a + eps + ∑ j ∈ range (n + 1), G j (P j) x.1 x.2 ^ 2)) := by
  obtain ⟨P, U, h0, hP, hv, hU⟩ := exists_visits σ (adagrad (.scalar η) a eps) (preserves_adagrad _ a eps) grad G hg p0
  refine ⟨P, h0, hv, fun n x hx => ?_⟩
  have hr : (scaleByRss a eps).outs (mk σ p0) (hist σ (fun n => G n (P n)) (fun n => some (mk σ (P n))) (n + 1)) =
      .ok ((List.range (n + 1)).map (fun n => mk σ (fun k i =>
        if 0 < rssAcc a (fun j => G j (P j) k i) (n + 1) then
          G n (P n) k i / Real.sqrt (rssAcc a (fun j => G j (P j) k i) (n + 1) + eps) else 0))) := by
    unfold GT.outs
    rw [C23_rss]; rfl
  have hlr := outs_chain_hist_lr (scaleByRss a eps) (.scalar η) (mk σ p0) σ _ _ _ (n + 1) hr
  rw [hU (n + 1)] at hlr
  injection hlr with hlr
  obtain ⟨s, h1, h2⟩ := mem_idx.mp hx
  have h3 := List.map_inj_left.mp hlr n (List.mem_range.mpr (by omega))
  have h4 := mk_inj h3 x.1 s h1 x.2 h2
  rw [hP, h4]
  simp only [LR.at, rssAcc]
  have hsn : 0 ≤ ∑ j ∈ range (n + 1), G j (P j) x.1 x.2 ^ 2 := Finset.sum_nonneg fun _ _ => sq_nonneg _
  have e : a + ∑ j ∈ range (n + 1), G j (P j) x.1 x.2 ^ 2 + eps = a + eps + ∑ j ∈ range (n + 1), G j (P j) x.1 x.2 ^ 2 := by
    ring
  rw [e]
  by_cases hpos : 0 < a + ∑ j ∈ range (n + 1), G j (P j) x.1 x.2 ^ 2
  · rw [if_pos hpos]; ring
  · rw [if_neg hpos]
    have h5 : ∑ j ∈ range (n + 1), G j (P j) x.1 x.2 ^ 2 = 0 := by linarith
    have h6 := (Finset.sum_eq_zero_iff_of_nonneg (fun _ _ => sq_nonneg _)).mp h5 n (by simp)
    have h7 : G n (P n) x.1 x.2 = 0 := by simpa using h6
    rw [h7]; simp

/-- the steps `rmsprop` takes in training -/
theorem rmsprop_steps (η d eps a : ℝ) (nes : Bool) (grad : ℕ → Params ℝ → Params ℝ)
    (G : ℕ → (ℕ → ℕ → ℝ) → ℕ → ℕ → ℝ) (hg : ∀ n p, grad n (mk σ p) = mk σ (G n p)) (p0 : ℕ → ℕ → ℝ) :
    ∃ P : ℕ → ℕ → ℕ → ℝ, P 0 = p0 ∧ Visits (rmsprop (.scalar η) d eps a false none nes) grad σ P ∧
      ∀ n, ∀ x ∈ idx σ, P (n + 1) x.1 x.2 = P n x.1 x.2 -
        η * (G n (P n) x.1 x.2 / √(rmsAcc d a (fun j => G j (P j) x.1 x.2) (n + 1) + eps)) := by
  obtain ⟨P, U, h0, hP, hv, hU⟩ := exists_visits σ (rmsprop (.scalar η) d eps a false none nes)
    ((preserves_rmsprop (.scalar η) d eps a false none nes).mono fun _ _ _ => trivial) grad G hg p0
  refine ⟨P, h0, hv, fun n x hx => ?_⟩
  have hr : (scaleByRms d eps a).outs (mk σ p0) (hist σ (fun n => G n (P n)) (fun n => some (mk σ (P n))) (n + 1)) =
      .ok ((List.range (n + 1)).map (fun n => mk σ (fun k i =>
          G n (P n) k i / Real.sqrt (rmsAcc d a (fun j => G j (P j) k i) (n + 1) + eps)))) := by
    unfold GT.outs
    rw [C24_rms]; rfl
  have hu := hU (n + 1)
  rw [zip_hist] at hu hr
  rw [C55_rmsprop _ _ _ (by simp)] at hu
  obtain ⟨mid, hm, hout⟩ := hu
  rw [if_neg (by simp)] at hm
  rw [hr] at hm
  injection hm with hm
  rw [← hm, timesNegLR_hist] at hout
  obtain ⟨s, h1, h2⟩ := mem_idx.mp hx
  have h3 := List.map_inj_left.mp hout n (List.mem_range.mpr (by omega))
  have h4 := mk_inj h3 x.1 s h1 x.2 h2
  rw [hP, h4]
  simp only [LR.at]
  ring

/-- one step of an `L`-smooth loss under coordinate-wise step sizes `η/√b` -/
theorem scaled_descent {L : ℝ} {loss : Params ℝ → ℝ} {g : (ℕ → ℕ → ℝ) → ℕ → ℕ → ℝ} (hs : Smooth σ L loss g)
    (p p' : ℕ → ℕ → ℝ) (b : ((_ : ℕ) × ℕ) → ℝ) (hb : ∀ x ∈ idx σ, 0 < b x) (η : ℝ)
    (hp : ∀ x ∈ idx σ, p' x.1 x.2 = p x.1 x.2 - η * (g p x.1 x.2 / √(b x))) :
    loss (mk σ p') ≤ loss (mk σ p) - η * ∑ x ∈ idx σ, g p x.1 x.2 ^ 2 / √(b x) +
      η ^ 2 * L / 2 * ∑ x ∈ idx σ, g p x.1 x.2 ^ 2 / b x := by
  have h := hs p p'
  have e1 : treeInner σ (g p) (fun k i => p' k i - p k i) = -(η * ∑ x ∈ idx σ, g p x.1 x.2 ^ 2 / √(b x)) := by
    unfold treeInner
    rw [Finset.mul_sum, ← Finset.sum_neg_distrib]
    exact Finset.sum_congr rfl fun x hx => by beta_reduce; rw [hp x hx]; ring
  have e2 : sqDist σ p' p = η ^ 2 * ∑ x ∈ idx σ, g p x.1 x.2 ^ 2 / b x := by
    unfold sqDist
    rw [Finset.mul_sum]
    refine Finset.sum_congr rfl fun x hx => ?_
    have : (√(b x)) ^ 2 = b x := Real.sq_sqrt (hb x hx).le
    have h0 : √(b x) ≠ 0 := (Real.sqrt_pos.mpr (hb x hx)).ne'
    rw [hp x hx]
    have e : g p x.1 x.2 ^ 2 / b x = (g p x.1 x.2 / √(b x)) ^ 2 := by rw [div_pow, this]
    rw [e]
    ring
  rw [e1, e2] at h
  linarith

/-- `Σ gₙ²/b_{n+1} ≤ log(b_N/b_0)` for the running sums of squares -/
theorem sum_div_le_log (c : ℝ) (hc : 0 < c) (g : ℕ → ℝ) (N : ℕ) :
    ∑ n ∈ range N, g n ^ 2 / (c + ∑ j ∈ range (n + 1), g j ^ 2) ≤ Real.log ((c + ∑ j ∈ range N, g j ^ 2) / c) := by
  have hb : ∀ n, 0 < c + ∑ j ∈ range n, g j ^ 2 := fun n => add_pos_of_pos_of_nonneg hc (Finset.sum_nonneg fun _ _ => sq_nonneg _)
  induction N with
  | zero => simp [div_self hc.ne']
  | succ N ih =>
    rw [Finset.sum_range_succ]
    have h1 := hb N
    have h2 := hb (N + 1)
    have h3 : 1 - (c + ∑ j ∈ range N, g j ^ 2) / (c + ∑ j ∈ range (N + 1), g j ^ 2) ≤
        Real.log ((c + ∑ j ∈ range (N + 1), g j ^ 2) / (c + ∑ j ∈ range N, g j ^ 2)) := by
      have := Real.one_sub_inv_le_log_of_pos (div_pos h2 h1)
      rwa [inv_div] at this
    have h4 : g N ^ 2 / (c + ∑ j ∈ range (N + 1), g j ^ 2) = 1 - (c + ∑ j ∈ range N, g j ^ 2) / (c + ∑ j ∈ range (N + 1), g j ^ 2) := by
      rw [eq_sub_iff_add_eq, ← add_div, div_eq_one_iff_eq h2.ne', Finset.sum_range_succ]; ring
    rw [Real.log_div h2.ne' h1.ne'] at h3
    rw [Real.log_div h1.ne' hc.ne'] at ih
    rw [Real.log_div h2.ne' hc.ne', h4]
    linarith

/-- `Σ gₙ²/√b_{n+1} ≥ √b_N - √b_0` -/
theorem sqrt_sub_le_sum (c : ℝ) (hc : 0 < c) (g : ℕ → ℝ) (N : ℕ) :
    √(c + ∑ j ∈ range N, g j ^ 2) - √c ≤ ∑ n ∈ range N, g n ^ 2 / √(c + ∑ j ∈ range (n + 1), g j ^ 2) := by
  have hb : ∀ n, 0 < c + ∑ j ∈ range n, g j ^ 2 := fun n => add_pos_of_pos_of_nonneg hc (Finset.sum_nonneg fun _ _ => sq_nonneg _)
  induction N with
  | zero => simp
  | succ N ih =>
    rw [Finset.sum_range_succ (fun n => g n ^ 2 / √(c + ∑ j ∈ range (n + 1), g j ^ 2))]
    have s1 := Real.sqrt_pos.mpr (hb N)
    have s2 := Real.sqrt_pos.mpr (hb (N + 1))
    have q1 := Real.sq_sqrt (hb N).le
    have q2 := Real.sq_sqrt (hb (N + 1)).le
    have e : g N ^ 2 = √(c + ∑ j ∈ range (N + 1), g j ^ 2) ^ 2 - √(c + ∑ j ∈ range N, g j ^ 2) ^ 2 := by
      rw [q1, q2, Finset.sum_range_succ]; ring
    have : √(c + ∑ j ∈ range (N + 1), g j ^ 2) - √(c + ∑ j ∈ range N, g j ^ 2) ≤ g N ^ 2 / √(c + ∑ j ∈ range (N + 1), g j ^ 2) := by
      rw [le_div_iff₀ s2, e]
      have hm : √(c + ∑ j ∈ range N, g j ^ 2) ≤ √(c + ∑ j ∈ range (N + 1), g j ^ 2) := by
        refine Real.sqrt_le_sqrt ?_
        rw [Finset.sum_range_succ]
        nlinarith [sq_nonneg (g N)]
      nlinarith
    linarith

/-- the bound on the gradients `adagrad` meets: `lo` bounds the loss from below, `size` is the number of entries -/
noncomputable def adagradBound (η c L gap size : ℝ) : ℝ := 2 * gap / η + 2 * size * √c + 2 * size * (η * L * (Real.log (2 * η * L / √c) - 1))

/-- **C96 (adagrad).** Training with `adagrad(η, a, eps)`, `a + eps > 0`, with the full gradient of any `L`-smooth loss bounded below by `lo`,
convex or not, and *any* learning rate `η > 0`, however large: the squared norms of all gradients met sum to at most
`adagradBound²`, a constant that does not depend on the number of steps.  So the gradients tend to 0 and the smallest of the first `N`
is at most `adagradBound/√N`; no learning rate has to be tuned to `L` (compare C76, where `η ≤ 1/L`). -/
theorem C96_adagrad (η a eps L : ℝ) (hη : 0 < η) (ha : 0 ≤ a) (hae : 0 < a + eps) (hL : 0 < L)
    (loss : Params ℝ → ℝ) (grad : ℕ → Params ℝ → Params ℝ) (G : (ℕ → ℕ → ℝ) → ℕ → ℕ → ℝ)
    (hg : ∀ n p, grad n (mk σ p) = mk σ (G p)) (hs : Smooth σ L loss G) (lo : ℝ) (hlo : ∀ t, lo ≤ loss t) (p0 : ℕ → ℕ → ℝ) :
    ∃ P, P 0 = p0 ∧ Visits (adagrad (.scalar η) a eps) grad σ P ∧
      (∀ N, ∑ n ∈ range N, globalNorm (mk σ (G (P n))) ^ 2 ≤
        adagradBound η (a + eps) L (loss (mk σ p0) - lo) (idx σ).card ^ 2) ∧
      Filter.Tendsto (fun n => globalNorm (mk σ (G (P n)))) Filter.atTop (nhds 0) := by
  obtain ⟨P, h0, hv, hstep⟩ := adagrad_steps σ η a eps ha grad (fun _ => G) hg p0
  set c := a + eps with hc
  set b : ℕ → ((_ : ℕ) × ℕ) → ℝ := fun n x => c + ∑ j ∈ range n, G (P j) x.1 x.2 ^ 2 with hb
  have hbpos : ∀ n x, 0 < b n x := fun n x => add_pos_of_pos_of_nonneg hae (Finset.sum_nonneg fun _ _ => sq_nonneg _)
  have hs0 : 0 < √c := Real.sqrt_pos.mpr hae
  have hdec : ∀ N, loss (mk σ (P N)) ≤ loss (mk σ p0) - η * ∑ x ∈ idx σ, ∑ n ∈ range N, G (P n) x.1 x.2 ^ 2 / √(b (n + 1) x) +
      η ^ 2 * L / 2 * ∑ x ∈ idx σ, ∑ n ∈ range N, G (P n) x.1 x.2 ^ 2 / b (n + 1) x := by
    intro N
    induction N with
    | zero => simp [h0]
    | succ N ih =>
      have := scaled_descent σ hs (P N) (P (N + 1)) (b (N + 1)) (fun x _ => hbpos _ x) η (fun x hx => hstep N x hx)
      rw [Finset.sum_congr rfl fun x _ => Finset.sum_range_succ (fun n => G (P n) x.1 x.2 ^ 2 / √(b (n + 1) x)) N, Finset.sum_add_distrib,
        Finset.sum_congr rfl fun x _ => Finset.sum_range_succ (fun n => G (P n) x.1 x.2 ^ 2 / b (n + 1) x) N, Finset.sum_add_distrib]
      linarith
  have hroot : ∀ N, ∑ x ∈ idx σ, √(b N x) ≤ adagradBound η c L (loss (mk σ p0) - lo) (idx σ).card := by
    intro N
    have h1 := hdec N
    have h2 := hlo (mk σ (P N))
    have h3 : ∑ x ∈ idx σ, (√(b N x) - √c) ≤ ∑ x ∈ idx σ, ∑ n ∈ range N, G (P n) x.1 x.2 ^ 2 / √(b (n + 1) x) :=
      Finset.sum_le_sum fun x _ => sqrt_sub_le_sum c hae (fun n => G (P n) x.1 x.2) N
    have h4 : ∑ x ∈ idx σ, ∑ n ∈ range N, G (P n) x.1 x.2 ^ 2 / b (n + 1) x ≤ ∑ x ∈ idx σ, 2 * (√(b N x) / (2 * η * L) + (Real.log (2 * η * L / √c) - 1)) := by
      refine Finset.sum_le_sum fun x _ => (sum_div_le_log c hae (fun n => G (P n) x.1 x.2) N).trans ?_
      have hsp : 0 < √(b N x) := Real.sqrt_pos.mpr (hbpos N x)
      have e : (c + ∑ j ∈ range N, G (P j) x.1 x.2 ^ 2) / c = (√(b N x) / √c) ^ 2 := by
        rw [div_pow, Real.sq_sqrt (hbpos N x).le, Real.sq_sqrt hae.le]
      rw [e, Real.log_pow]
      have hK : 0 < 2 * η * L := by positivity
      have e2 : √(b N x) / √c = √(b N x) / (2 * η * L) * (2 * η * L / √c) := by field_simp
      rw [e2, Real.log_mul (by positivity) (by positivity)]
      have := Real.log_le_sub_one_of_pos (div_pos hsp hK)
      push_cast
      linarith
    rw [Finset.sum_sub_distrib, Finset.sum_const, nsmul_eq_mul] at h3
    simp only [mul_add, Finset.sum_add_distrib, Finset.sum_const, nsmul_eq_mul, ← Finset.mul_sum, ← Finset.sum_div] at h4
    set S := ∑ x ∈ idx σ, √(b N x)
    set T := ∑ x ∈ idx σ, ∑ n ∈ range N, G (P n) x.1 x.2 ^ 2 / √(b (n + 1) x)
    have h5 := mul_le_mul_of_nonneg_left h3 hη.le
    have h6 := mul_le_mul_of_nonneg_left h4 (show 0 ≤ η ^ 2 * L / 2 by positivity)
    have e3 : η ^ 2 * L / 2 * (2 * (S / (2 * η * L)) + (idx σ).card * (2 * (Real.log (2 * η * L / √c) - 1))) =
        η * (S / 2) + η * ((idx σ).card * (η * L * (Real.log (2 * η * L / √c) - 1))) := by
      field_simp
    rw [e3] at h6
    have h7 : η * (S / 2) ≤ (loss (mk σ p0) - lo) + η * ((idx σ).card * √c) + η * ((idx σ).card * (η * L * (Real.log (2 * η * L / √c) - 1))) := by linarith
    unfold adagradBound
    refine le_of_mul_le_mul_left ?_ (show 0 < η / 2 by positivity)
    have e4 : η / 2 * (2 * (loss (mk σ p0) - lo) / η + 2 * (idx σ).card * √c + 2 * (idx σ).card * (η * L * (Real.log (2 * η * L / √c) - 1))) =
        (loss (mk σ p0) - lo) + η * ((idx σ).card * √c) + η * ((idx σ).card * (η * L * (Real.log (2 * η * L / √c) - 1))) := by
      field_simp
    rw [e4]
    linarith
  have hmain : ∀ N, ∑ n ∈ range N, globalNorm (mk σ (G (P n))) ^ 2 ≤
        adagradBound η c L (loss (mk σ p0) - lo) (idx σ).card ^ 2 := by
    intro N
    have h1 : ∑ n ∈ range N, globalNorm (mk σ (G (P n))) ^ 2 ≤ ∑ x ∈ idx σ, √(b N x) ^ 2 := by
      simp only [← sqNorm_eq, sqNorm]
      rw [Finset.sum_comm]
      refine Finset.sum_le_sum fun x _ => ?_
      rw [Real.sq_sqrt (hbpos N x).le]
      simp only [hb]
      linarith
    refine h1.trans ?_
    have h2 : ∑ x ∈ idx σ, √(b N x) ^ 2 ≤ (∑ x ∈ idx σ, √(b N x)) ^ 2 :=
      Finset.sum_sq_le_sq_sum_of_nonneg fun x _ => Real.sqrt_nonneg _
    exact h2.trans (pow_le_pow_left₀ (Finset.sum_nonneg fun x _ => Real.sqrt_nonneg _) (hroot N) 2)
  refine ⟨P, h0, hv, hmain, ?_⟩
  have hsum : Summable (fun n => globalNorm (mk σ (G (P n))) ^ 2) := summable_of_sum_range_le (fun n => sq_nonneg _) hmain
  have ht := hsum.tendsto_atTop_zero
  have := (Real.continuous_sqrt.tendsto 0).comp ht
  simp only [Real.sqrt_zero] at this
  refine this.congr fun n => ?_
  simp only [Function.comp]
  exact Real.sqrt_sq (C61_nonneg _)

/-- `Σ gₙ²/(v_{n+1}+eps)` for an exponential moving average `v` of the squares -/
theorem sum_div_rms (d eps a : ℝ) (hd : 0 < d) (hd1 : d < 1) (he : 0 < eps) (ha : 0 ≤ a) (g : ℕ → ℝ) (N : ℕ) :
    ∑ n ∈ range N, g n ^ 2 / (rmsAcc d a g (n + 1) + eps) ≤
      (Real.log ((rmsAcc d a g N + eps) / (a + eps)) + N * Real.log (1 / d)) / (1 - d) := by
  have hp : 0 < 1 - d := by linarith
  have hv : ∀ n, 0 < rmsAcc d a g n + eps := fun n => add_pos_of_nonneg_of_pos (rmsAcc_nonneg hd.le hd1.le ha g n) he
  have hrec : ∀ n, rmsAcc d a g (n + 1) = (1 - d) * g n ^ 2 + d * rmsAcc d a g n := by
    intro n; unfold rmsAcc; rw [geoSum_succ]; ring
  induction N with
  | zero => simp [rmsAcc, div_self (show a + eps ≠ 0 by linarith)]
  | succ N ih =>
    rw [Finset.sum_range_succ]
    have h1 := hv N
    have h2 := hv (N + 1)
    have h3 := Real.one_sub_inv_le_log_of_pos (div_pos h2 (mul_pos hd h1))
    rw [inv_div, Real.log_div h2.ne' (mul_pos hd h1).ne', Real.log_mul hd.ne' h1.ne'] at h3
    have h4 : (1 - d) * (g N ^ 2 / (rmsAcc d a g (N + 1) + eps)) ≤ 1 - d * (rmsAcc d a g N + eps) / (rmsAcc d a g (N + 1) + eps) := by
      rw [le_sub_iff_add_le, ← mul_div_assoc, ← add_div, div_le_one h2, hrec]
      nlinarith
    have hae : 0 < a + eps := by linarith
    rw [Real.log_div h1.ne' hae.ne', le_div_iff₀ hp] at ih
    rw [Real.log_div h2.ne' hae.ne', le_div_iff₀ hp]
    have h5 : Real.log (1 / d) = -Real.log d := by rw [one_div, Real.log_inv]
    rw [h5] at ih ⊢
    push_cast
    nlinarith

/-- **C96 (rmsprop).** Training with `rmsprop(η, decay=d, eps, initial_scale=a)` (not centred, no momentum) with the full gradient of an `L`-smooth
loss bounded below by `lo`, with gradient entries bounded by `R` (and `a ≤ R²`): the mean of the squared gradient norms of the first `N` steps is at
most `√(R²+eps)·((loss(p₀)-lo)/(ηN) + size·ηL/(2(1-d))·(log((R²+eps)/(a+eps))/N + log(1/d)))`.  For `N → ∞` there remains a floor proportional to `η`. -/
theorem C96_rmsprop (η d eps a L R : ℝ) (nes : Bool) (hη : 0 < η) (hd : 0 < d) (hd1 : d < 1) (he : 0 < eps) (ha : 0 ≤ a) (haR : a ≤ R ^ 2) (hL : 0 ≤ L)
    (loss : Params ℝ → ℝ) (grad : ℕ → Params ℝ → Params ℝ) (G : (ℕ → ℕ → ℝ) → ℕ → ℕ → ℝ)
    (hg : ∀ n p, grad n (mk σ p) = mk σ (G p)) (hs : Smooth σ L loss G) (hR : ∀ p k i, |G p k i| ≤ R)
    (lo : ℝ) (hlo : ∀ t, lo ≤ loss t) (p0 : ℕ → ℕ → ℝ) :
    ∃ P, P 0 = p0 ∧ Visits (rmsprop (.scalar η) d eps a false none nes) grad σ P ∧
      ∀ N : ℕ, N ≠ 0 → (∑ n ∈ range N, globalNorm (mk σ (G (P n))) ^ 2) / N ≤
        √(R ^ 2 + eps) * ((loss (mk σ p0) - lo) / (η * N) +
          (idx σ).card * (η * L / (2 * (1 - d))) * (Real.log ((R ^ 2 + eps) / (a + eps)) / N + Real.log (1 / d))) := by
  obtain ⟨P, h0, hv, hstep⟩ := rmsprop_steps σ η d eps a nes grad (fun _ => G) hg p0
  have hp : 0 < 1 - d := by linarith
  set b : ℕ → ((_ : ℕ) × ℕ) → ℝ := fun n x => rmsAcc d a (fun j => G (P j) x.1 x.2) n + eps with hb
  have hbpos : ∀ n x, 0 < b n x := fun n x => add_pos_of_nonneg_of_pos (rmsAcc_nonneg hd.le hd1.le ha _ n) he
  have hbR : ∀ n x, b n x ≤ R ^ 2 + eps := by
    intro n x
    simp only [hb]
    have : rmsAcc d a (fun j => G (P j) x.1 x.2) n ≤ R ^ 2 := by
      induction n with
      | zero => simpa [rmsAcc] using haR
      | succ n ih =>
        have hrec : rmsAcc d a (fun j => G (P j) x.1 x.2) (n + 1) = (1 - d) * G (P n) x.1 x.2 ^ 2 + d * rmsAcc d a (fun j => G (P j) x.1 x.2) n := by
          unfold rmsAcc; rw [geoSum_succ]; ring
        have h1 : G (P n) x.1 x.2 ^ 2 ≤ R ^ 2 := sq_le_sq' (abs_le.mp (hR _ _ _)).1 (abs_le.mp (hR _ _ _)).2
        rw [hrec]
        nlinarith
    linarith
  have hdec : ∀ N, loss (mk σ (P N)) ≤ loss (mk σ p0) - η * ∑ x ∈ idx σ, ∑ n ∈ range N, G (P n) x.1 x.2 ^ 2 / √(b (n + 1) x) +
      η ^ 2 * L / 2 * ∑ x ∈ idx σ, ∑ n ∈ range N, G (P n) x.1 x.2 ^ 2 / b (n + 1) x := by
    intro N
    induction N with
    | zero => simp [h0]
    | succ N ih =>
      have := scaled_descent σ hs (P N) (P (N + 1)) (b (N + 1)) (fun x _ => hbpos _ x) η (fun x hx => hstep N x hx)
      rw [Finset.sum_congr rfl fun x _ => Finset.sum_range_succ (fun n => G (P n) x.1 x.2 ^ 2 / √(b (n + 1) x)) N, Finset.sum_add_distrib,
        Finset.sum_congr rfl fun x _ => Finset.sum_range_succ (fun n => G (P n) x.1 x.2 ^ 2 / b (n + 1) x) N, Finset.sum_add_distrib]
      linarith
  refine ⟨P, h0, hv, fun N hN => ?_⟩
  have hN' : (0 : ℝ) < N := by exact_mod_cast Nat.pos_of_ne_zero hN
  have hRe : 0 < R ^ 2 + eps := by positivity
  have hsR : 0 < √(R ^ 2 + eps) := Real.sqrt_pos.mpr hRe
  have hae : 0 < a + eps := by linarith
  have h1 := hdec N
  have h2 := hlo (mk σ (P N))
  set Q := ∑ n ∈ range N, globalNorm (mk σ (G (P n))) ^ 2 with hQ
  have h3 : Q / √(R ^ 2 + eps) ≤ ∑ x ∈ idx σ, ∑ n ∈ range N, G (P n) x.1 x.2 ^ 2 / √(b (n + 1) x) := by
    rw [hQ]
    simp only [← sqNorm_eq, sqNorm]
    rw [Finset.sum_comm, Finset.sum_div]
    refine Finset.sum_le_sum fun x _ => ?_
    rw [Finset.sum_div]
    refine Finset.sum_le_sum fun n _ => ?_
    exact div_le_div_of_nonneg_left (sq_nonneg _) (Real.sqrt_pos.mpr (hbpos _ x)) (Real.sqrt_le_sqrt (hbR _ x))
  have h4 : ∑ x ∈ idx σ, ∑ n ∈ range N, G (P n) x.1 x.2 ^ 2 / b (n + 1) x ≤
      (idx σ).card * ((Real.log ((R ^ 2 + eps) / (a + eps)) + N * Real.log (1 / d)) / (1 - d)) := by
    rw [← nsmul_eq_mul, ← Finset.sum_const]
    refine Finset.sum_le_sum fun x _ => (sum_div_rms d eps a hd hd1 he ha (fun j => G (P j) x.1 x.2) N).trans ?_
    refine div_le_div_of_nonneg_right ?_ hp.le
    have := Real.log_le_log (div_pos (hbpos N x) hae) (div_le_div_of_nonneg_right (hbR N x) hae.le)
    simp only [hb] at this
    linarith
  have h5 := mul_le_mul_of_nonneg_left h4 (show 0 ≤ η ^ 2 * L / 2 by positivity)
  have h6 := mul_le_mul_of_nonneg_left h3 hη.le
  have h7 : η * (Q / √(R ^ 2 + eps)) ≤ (loss (mk σ p0) - lo) +
      η ^ 2 * L / 2 * ((idx σ).card * ((Real.log ((R ^ 2 + eps) / (a + eps)) + N * Real.log (1 / d)) / (1 - d))) := by linarith
  have h8 := mul_le_mul_of_nonneg_left h7 (show 0 ≤ √(R ^ 2 + eps) / (η * N) by positivity)
  refine le_trans (le_of_eq ?_) (h8.trans (le_of_eq ?_))
  · field_simp
  · field_simp

/-- Non-vacuity: `Σ x²/(1+x²)` is not convex; it is 2-smooth, bounded below by 0 and its gradient entries are bounded by 1. -/
example : Smooth σ 2 (fun t => ∑ x ∈ idx σ, (1 - 1 / (1 + coord t x.1 x.2 ^ 2))) (fun p k i => 2 * p k i / (1 + p k i ^ 2) ^ 2) ∧
    (∀ t : Params ℝ, 0 ≤ ∑ x ∈ idx σ, (1 - 1 / (1 + coord t x.1 x.2 ^ 2))) ∧ ∀ (p : ℕ → ℕ → ℝ) k i, |2 * p k i / (1 + p k i ^ 2) ^ 2| ≤ 1 := by
  have e : ∀ p : ℕ → ℕ → ℝ, ∑ x ∈ idx σ, (1 - 1 / (1 + coord (mk σ p) x.1 x.2 ^ 2)) = ∑ x ∈ idx σ, (1 - 1 / (1 + p x.1 x.2 ^ 2)) := fun p => by
    refine Finset.sum_congr rfl fun x hx => ?_
    obtain ⟨s, h1, h2⟩ := mem_idx.mp hx
    rw [coord_mk _ _ _ _ s h1 h2]
  refine ⟨fun p q => ?_, fun t => ?_, fun p k i => ?_⟩
  · simp only [e, treeInner, sqDist]
    rw [Finset.mul_sum, ← Finset.sum_add_distrib, ← Finset.sum_add_distrib]
    refine Finset.sum_le_sum fun x _ => ?_
    generalize p x.1 x.2 = u
    generalize q x.1 x.2 = v
    have h1 : 0 < 1 + u ^ 2 := by positivity
    have h2 : 0 < 1 + v ^ 2 := by positivity
    have h3 : 1 - 1 / (1 + v ^ 2) - (1 - 1 / (1 + u ^ 2)) - 2 * u / (1 + u ^ 2) ^ 2 * (v - u) =
        (v - u) ^ 2 * ((1 - u * (u + 2 * v)) / ((1 + u ^ 2) ^ 2 * (1 + v ^ 2))) := by
      field_simp
      ring
    have h4 : (1 - u * (u + 2 * v)) / ((1 + u ^ 2) ^ 2 * (1 + v ^ 2)) ≤ 1 := by
      rw [div_le_one (by positivity)]
      have : 1 ≤ (1 + u ^ 2) ^ 2 := by nlinarith [sq_nonneg u]
      nlinarith [sq_nonneg (u + v)]
    have h5 := mul_le_mul_of_nonneg_left h4 (sq_nonneg (v - u))
    linarith
  · refine Finset.sum_nonneg fun x _ => ?_
    have h1 : 0 < 1 + coord t x.1 x.2 ^ 2 := by positivity
    rw [sub_nonneg, div_le_one h1]
    nlinarith [sq_nonneg (coord t x.1 x.2)]
  · have h1 : 0 < (1 + p k i ^ 2) ^ 2 := by positivity
    rw [abs_div, abs_of_pos h1, div_le_one h1, abs_le]
    constructor <;> nlinarith [sq_nonneg (p k i), sq_nonneg (p k i - 1), sq_nonneg (p k i + 1), sq_nonneg (p k i ^ 2)]

end Optax
