import Verif.Props.AdamStationary
import Verif.Props.Clipping
import Verif.Props.Defaults

/-!
# C119: weight decay keeps the parameters in a box

`add_decayed_weights(wd)` after any transformation whose outputs are bounded (adam's direction, a clipped gradient), followed by the
learning rate: the parameters of a training run stay in the box of radius `max(|p0|, C/wd)`, whatever the gradients.  Without the
decay they need not.
-/

set_option linter.unusedSectionVars false
set_option linter.unusedSimpArgs false

namespace Optax
open Finset

variable (σ : Spec)

/-- Every entry of every update is at most `C`, whatever the gradients and the params. -/
def OutputsAtMost (t : GT ℝ) (C : ℝ) : Prop :=
  ∀ (σ : Spec) (p0 : ℕ → ℕ → ℝ) (g : ℕ → ℕ → ℕ → ℝ) (pp : ℕ → ℕ → ℕ → ℝ) (N : ℕ), ∃ U : ℕ → ℕ → ℕ → ℝ,
    t.outs (mk σ p0) (hist σ g (fun n => some (mk σ (pp n))) N) = .ok ((List.range N).map fun n => mk σ (U n)) ∧ ∀ n k i, |U n k i| ≤ C

/-- The training run of `chain(t, add_decayed_weights(wd), scale_by_learning_rate(lr))`. -/
theorem decay_visits {t : GT ℝ} {C : ℝ} (ht : Preserves WithParams t) (hC : OutputsAtMost t C) (lr : LR ℝ) (wd : ℝ)
    (grad : ℕ → Params ℝ → Params ℝ) (G : ℕ → (ℕ → ℕ → ℝ) → ℕ → ℕ → ℝ) (hg : ∀ n p, grad n (mk σ p) = mk σ (G n p)) (p0 : ℕ → ℕ → ℝ) :
    ∃ P : ℕ → ℕ → ℕ → ℝ, P 0 = p0 ∧ Visits (chain [t, addDecayedWeights wd, scaleByLearningRate lr]) grad σ P ∧
      ∀ n, ∀ x ∈ idx σ, ∃ u, |u| ≤ C ∧ P (n + 1) x.1 x.2 = P n x.1 x.2 - lr.at n * (u + wd * P n x.1 x.2) := by
  have hp : Preserves WithParams (chain [t, addDecayedWeights wd, scaleByLearningRate lr]) := by
    refine Preserves.chain _ ?_
    intro t' ht'
    simp only [List.mem_cons, List.mem_nil_iff, or_false] at ht'
    rcases ht' with rfl | rfl | rfl
    · exact ht
    · exact preserves_addDecayedWeights wd
    · exact (preserves_lr lr).mono fun _ _ _ => trivial
  obtain ⟨P, U, h0, hP, hv, hU⟩ := exists_visits σ _ hp grad G hg p0
  refine ⟨P, h0, hv, fun n x hx => ?_⟩
  obtain ⟨a, ha, hab⟩ := hC σ p0 (fun n => G n (P n)) P (n + 1)
  have hd : (addDecayedWeights wd).outs (mk σ p0) (hist σ a (fun n => some (mk σ (P n))) (n + 1)) =
      .ok ((List.range (n + 1)).map (fun n => mk σ (fun k i => a n k i + wd * P n k i))) :=
    outs_hist (addDecayedWeights wd) _ σ a _ (n + 1) (fun _ => ⟨⟩) _ rfl
      (fun n _ => addDecayedWeights_update_mk σ (a n) (P n) wd ⟨⟩)
  have e := outs_chain_hist_lr (addDecayedWeights wd) lr _ σ a _ _ (n + 1) hd
  have e' := outs_chain_hist t [addDecayedWeights wd, scaleByLearningRate lr] _ σ (fun n => G n (P n)) a _ (n + 1) ha _ e
  rw [hU (n + 1)] at e'
  injection e' with e'
  obtain ⟨s, h1, h2⟩ := mem_idx.mp hx
  have h3 := List.map_inj_left.mp e' n (List.mem_range.mpr (by omega))
  have h4 := mk_inj h3 x.1 s h1 x.2 h2
  refine ⟨a n x.1 x.2, hab _ _ _, ?_⟩
  rw [hP, h4]
  ring

theorem decay_step {x u C wd a : ℝ} (hu : |u| ≤ C) (ha0 : 0 ≤ a) (ha : a * wd ≤ 1) :
    |x - a * (u + wd * x)| ≤ (1 - a * wd) * |x| + a * C := by
  have e : x - a * (u + wd * x) = (1 - a * wd) * x - a * u := by ring
  rw [e]
  refine (abs_sub _ _).trans ?_
  rw [abs_mul, abs_mul, abs_of_nonneg (by linarith : 0 ≤ 1 - a * wd), abs_of_nonneg ha0]
  gcongr

/-- **C119 (general).** `chain(t, add_decayed_weights(wd), scale_by_learning_rate(lr))` where every entry `t` returns is at most `C`:
for any gradients whatsoever (adversarial, even depending on the step), if `wd > 0` and `0 ≤ lr·wd ≤ 1` at every step, no entry of the
parameters ever exceeds `max(|its initial value|, C/wd)`; with a constant learning rate the influence of the initial value decays
geometrically, so the box of radius `C/wd` is approached. -/
theorem C119_weight_decay {t : GT ℝ} {C : ℝ} (ht : Preserves WithParams t) (hC : OutputsAtMost t C) (lr : LR ℝ) (wd : ℝ) (hwd : 0 < wd)
    (hlr : ∀ n, 0 ≤ lr.at n ∧ lr.at n * wd ≤ 1)
    (grad : ℕ → Params ℝ → Params ℝ) (G : ℕ → (ℕ → ℕ → ℝ) → ℕ → ℕ → ℝ) (hg : ∀ n p, grad n (mk σ p) = mk σ (G n p)) (p0 : ℕ → ℕ → ℝ) :
    ∃ P : ℕ → ℕ → ℕ → ℝ, P 0 = p0 ∧ Visits (chain [t, addDecayedWeights wd, scaleByLearningRate lr]) grad σ P ∧
      (∀ n, ∀ x ∈ idx σ, |P n x.1 x.2| ≤ max |p0 x.1 x.2| (C / wd)) ∧
      ∀ η, (∀ n, lr.at n = η) → ∀ n, ∀ x ∈ idx σ,
        |P n x.1 x.2| ≤ (1 - η * wd) ^ n * |p0 x.1 x.2| + (1 - (1 - η * wd) ^ n) * (C / wd) := by
  obtain ⟨P, h0, hv, hs⟩ := decay_visits σ ht hC lr wd grad G hg p0
  refine ⟨P, h0, hv, fun n x hx => ?_, fun η hη n x hx => ?_⟩
  · induction n with
    | zero => rw [h0]; exact le_max_left _ _
    | succ n ih =>
      obtain ⟨u, hu, e⟩ := hs n x hx
      obtain ⟨l0, l1⟩ := hlr n
      rw [e]
      refine (decay_step hu l0 l1).trans ?_
      have h1 : (1 - lr.at n * wd) * |P n x.1 x.2| ≤ (1 - lr.at n * wd) * max |p0 x.1 x.2| (C / wd) :=
        mul_le_mul_of_nonneg_left ih (by linarith)
      have h2 : lr.at n * C ≤ lr.at n * wd * max |p0 x.1 x.2| (C / wd) := by
        have : C ≤ wd * max |p0 x.1 x.2| (C / wd) := by
          rw [← div_le_iff₀' hwd]; exact le_max_right _ _
        calc lr.at n * C ≤ lr.at n * (wd * max |p0 x.1 x.2| (C / wd)) := mul_le_mul_of_nonneg_left this l0
          _ = _ := by ring
      nlinarith
  · induction n with
    | zero => simp [h0]
    | succ n ih =>
      obtain ⟨u, hu, e⟩ := hs n x hx
      obtain ⟨l0, l1⟩ := hlr n
      rw [hη] at e l0 l1
      rw [e]
      refine (decay_step hu l0 l1).trans ?_
      have h1 := mul_le_mul_of_nonneg_left ih (by linarith : 0 ≤ 1 - η * wd)
      refine (add_le_add_left h1 _).trans (le_of_eq ?_)
      rw [pow_succ]
      field_simp
      ring

theorem adam_outputs (b1 b2 eps er : ℝ) (h1 : 0 ≤ b1) (h2 : b1 ^ 2 < b2) (h2' : b2 < 1) (he : 0 ≤ eps) (her : 0 ≤ er) :
    OutputsAtMost (scaleByAdam b1 b2 eps er) (1 / √((1 - b2) * (1 - b1 ^ 2 / b2))) := by
  intro σ p0 g pp N
  refine ⟨fun n k i => adamStep b1 b2 eps er (fun j => g j k i) n, ?_, fun n k i => adamStep_le b1 b2 eps er h1 h2 h2' he her _ n⟩
  unfold GT.outs
  rw [C26_saturated]; rfl

theorem clip_outputs (d : ℝ) (hd : 0 ≤ d) : OutputsAtMost (clip d) d := by
  intro σ p0 g pp N
  refine ⟨_, outs_hist (clip d) _ σ g _ N (fun _ => ⟨⟩) _ rfl (fun n _ => clip_update_mk σ (g n) _ d ⟨⟩), fun n k i => ?_⟩
  simp only [jmin_real, jmax_real]
  rw [abs_le]
  exact ⟨le_min (le_max_right _ _) (by linarith), min_le_right _ _⟩

/-- **C119 (adamw).** The parameters trained with `adamw` stay in the box of radius `max(|p0|, C/weight_decay)`,
`C = 1/√((1-b2)(1-b1²/b2))`, for every number of steps (also beyond the saturation of the step counter) and any gradients. -/
theorem C119_adamw (b1 b2 eps er : ℝ) (h1 : 0 ≤ b1) (h2 : b1 ^ 2 < b2) (h2' : b2 < 1) (he : 0 ≤ eps) (her : 0 ≤ er)
    (lr : LR ℝ) (wd : ℝ) (hwd : 0 < wd) (hlr : ∀ n, 0 ≤ lr.at n ∧ lr.at n * wd ≤ 1)
    (grad : ℕ → Params ℝ → Params ℝ) (G : ℕ → (ℕ → ℕ → ℝ) → ℕ → ℕ → ℝ) (hg : ∀ n p, grad n (mk σ p) = mk σ (G n p)) (p0 : ℕ → ℕ → ℝ) :
    ∃ P : ℕ → ℕ → ℕ → ℝ, P 0 = p0 ∧ Visits (adamw lr b1 b2 eps er wd) grad σ P ∧
      ∀ n, ∀ x ∈ idx σ, |P n x.1 x.2| ≤ max |p0 x.1 x.2| (1 / √((1 - b2) * (1 - b1 ^ 2 / b2)) / wd) := by
  obtain ⟨P, h0, hv, hb, -⟩ := C119_weight_decay σ ((preserves_adam b1 b2 eps er).mono fun _ _ _ => trivial)
    (adam_outputs b1 b2 eps er h1 h2 h2' he her) lr wd hwd hlr grad G hg p0
  exact ⟨P, h0, hv, hb⟩

/-- **C119 (defaults).** With the default arguments of `adamw` (b1 = 0.9, b2 = 0.999, weight decay 1e-4) and learning rates in
`[0, 10^4]`, the box has radius 730 000. -/
theorem C119_adamw_defaults (lr : LR ℝ) (hlr : ∀ n, 0 ≤ lr.at n ∧ lr.at n ≤ 10000)
    (grad : ℕ → Params ℝ → Params ℝ) (G : ℕ → (ℕ → ℕ → ℝ) → ℕ → ℕ → ℝ) (hg : ∀ n p, grad n (mk σ p) = mk σ (G n p)) (p0 : ℕ → ℕ → ℝ) :
    ∃ P : ℕ → ℕ → ℕ → ℝ, P 0 = p0 ∧ Visits (adamwD lr) grad σ P ∧
      ∀ n, ∀ x ∈ idx σ, |P n x.1 x.2| ≤ max |p0 x.1 x.2| 730000 := by
  obtain ⟨P, h0, hv, hb⟩ := C119_adamw σ (JOps.ofRat (9 / 10)) (JOps.ofRat (999 / 1000)) (JOps.ofRat (1 / 10 ^ 8)) 0
    (by simp; norm_num) (by simp; norm_num) (by simp; norm_num) (by simp) le_rfl lr (JOps.ofRat (1 / 10 ^ 4)) (by simp)
    (fun n => ⟨(hlr n).1, by have := (hlr n).2; simp; linarith⟩) grad G hg p0
  refine ⟨P, h0, hv, fun n x hx => (hb n x hx).trans (max_le_max le_rfl ?_)⟩
  rw [div_div, div_le_iff₀ (mul_pos (Real.sqrt_pos.mpr (by simp; norm_num)) (by simp))]
  have h73 : (1 / 73 : ℝ) ≤ √((1 - JOps.ofRat (999 / 1000)) * (1 - JOps.ofRat (9 / 10) ^ 2 / JOps.ofRat (999 / 1000))) := by
    apply Real.le_sqrt_of_sq_le
    simp
    norm_num
  have e4 : (JOps.ofRat (1 / 10 ^ 4) : ℝ) = 1 / 10000 := by simp; norm_num
  rw [e4]
  linarith

/-- **C119 (why the decay is needed).** With `adam` on the loss `-∑ p` (gradient constantly `-1`) every entry grows beyond all bounds. -/
theorem C119_adam_unbounded (η b1 b2 eps er : ℝ) (hη : 0 < η) (h1 : 0 ≤ b1) (h1' : b1 < 1) (h2 : 0 ≤ b2) (h2' : b2 < 1)
    (he : 0 ≤ eps) (her : 0 ≤ er) (p0 : ℕ → ℕ → ℝ) :
    ∃ P : ℕ → ℕ → ℕ → ℝ, P 0 = p0 ∧ Visits (adam (.scalar η) b1 b2 eps er) (fun _ p => tmap (fun _ => (-1 : ℝ)) p) σ P ∧
      ∀ R : ℝ, ∀ x ∈ idx σ, ∃ N : ℕ, ∀ n ≥ N, R ≤ P n x.1 x.2 := by
  obtain ⟨P, h0, hv, hs⟩ := adam_steps σ η b1 b2 eps er (fun _ p => tmap (fun _ => (-1 : ℝ)) p) (fun _ _ _ _ => -1)
    (fun _ _ => tmap_mk _ _ _) p0
  set c : ℝ := 1 / (√(1 / (1 - b2) + er) + eps) with hc
  have hden : 0 < √(1 / (1 - b2) + er) + eps := by
    have : 0 < √(1 / (1 - b2) + er) := Real.sqrt_pos.mpr (add_pos_of_pos_of_nonneg (one_div_pos.mpr (by linarith)) her)
    linarith
  have hc0 : 0 < c := by positivity
  have hstep : ∀ n, adamStep b1 b2 eps er (fun _ => (-1 : ℝ)) n ≤ -c := by
    intro n
    unfold adamStep
    have hm : min (n + 1) 2147483647 ≠ 0 := by omega
    have hmn : min (n + 1) 2147483647 ≤ n + 1 := min_le_left _ _
    generalize min (n + 1) 2147483647 = m at hm hmn
    have e1 : (1 - b1) * geoSum b1 (fun _ => (-1 : ℝ)) (n + 1) = -(1 - b1 ^ (n + 1)) := by
      have := geoSum_const_one b1 (n + 1)
      have e := geoSum_smul b1 (-1) (fun _ => (1 : ℝ)) (n + 1)
      simp only [mul_one] at e
      rw [e, ← this]; ring
    have e2 : (1 - b2) * geoSum b2 (fun _ => (-1 : ℝ) ^ 2) (n + 1) = 1 - b2 ^ (n + 1) := by
      norm_num
      exact geoSum_const_one b2 (n + 1)
    rw [e1, e2]
    have hw1 := one_sub_pow_pos h1 h1' hm
    have hw2 := one_sub_pow_pos h2 h2' hm
    have hc1 := sat_ge h1 h1' hm hmn
    have hv2 : (1 - b2 ^ (n + 1)) / (1 - b2 ^ m) ≤ 1 / (1 - b2) := by
      have ha : 1 - b2 ^ (n + 1) ≤ 1 := by have := pow_nonneg h2 (n + 1); linarith
      have hb : 1 - b2 ≤ 1 - b2 ^ m := by
        have : b2 ^ m ≤ b2 ^ 1 := pow_le_pow_of_le_one h2 h2'.le (by omega)
        rw [pow_one] at this; linarith
      exact div_le_div₀ zero_le_one ha (by linarith) hb
    have hv0 : 0 < (1 - b2 ^ (n + 1)) / (1 - b2 ^ m) := div_pos (one_sub_pow_pos h2 h2' (by omega)) hw2
    have hd : √((1 - b2 ^ (n + 1)) / (1 - b2 ^ m) + er) + eps ≤ √(1 / (1 - b2) + er) + eps := by
      have := Real.sqrt_le_sqrt (show (1 - b2 ^ (n + 1)) / (1 - b2 ^ m) + er ≤ 1 / (1 - b2) + er by linarith)
      linarith
    have hd0 : 0 < √((1 - b2 ^ (n + 1)) / (1 - b2 ^ m) + er) + eps := by
      have : 0 < √((1 - b2 ^ (n + 1)) / (1 - b2 ^ m) + er) := Real.sqrt_pos.mpr (by linarith)
      linarith
    rw [neg_div, neg_div, neg_le_neg_iff, hc]
    exact div_le_div₀ (by linarith) hc1 hd0 hd
  have hlow : ∀ n : ℕ, ∀ x ∈ idx σ, p0 x.1 x.2 + n * (η * c) ≤ P n x.1 x.2 := by
    intro n x hx
    induction n with
    | zero => simp [h0]
    | succ n ih =>
      rw [hs n x hx]
      have := mul_le_mul_of_nonneg_left (hstep n) hη.le
      push_cast
      linarith
  refine ⟨P, h0, hv, fun R x hx => ?_⟩
  obtain ⟨N, hN⟩ := exists_nat_ge ((R - p0 x.1 x.2) / (η * c))
  refine ⟨N, fun n hn => le_trans ?_ (hlow n x hx)⟩
  have hpos : 0 < η * c := mul_pos hη hc0
  rw [div_le_iff₀ hpos] at hN
  have : (N : ℝ) ≤ n := by exact_mod_cast hn
  nlinarith

/-- the hypotheses hold for the default constants of `adamw` with a learning rate of 1e-3, and for a clipped `sgd` with decay -/
example : (0 : ℝ) ≤ 9 / 10 ∧ (9 / 10 : ℝ) ^ 2 < 999 / 1000 ∧ (999 / 1000 : ℝ) < 1 ∧ (1 / 1000 : ℝ) * (1 / 10 ^ 4) ≤ 1 := by norm_num
example : Preserves WithParams (clip (1 : ℝ)) ∧ OutputsAtMost (clip 1) 1 :=
  ⟨(preserves_clip 1).mono fun _ _ _ => trivial, clip_outputs 1 zero_le_one⟩

end Optax
