import Verif.Props.AdagradRegret
import Verif.Props.AliasReal
import Verif.Props.AGC

/-!
# C144: optimisers with relative step sizes change the norm of a layer by at most a factor per step

The training loop is `trainLoop` (C76): gradient at the current parameters, `update`, `apply_updates`.  `leafNorm` and `unitNorm` are the Euclidean norms of a leaf and of one
unit (column, filter) of a leaf.
-/

set_option linter.unusedSectionVars false
set_option linter.unusedSimpArgs false

namespace Optax
open PyTree Finset

variable (σ : Spec)

theorem leafNorm_of_mk {a b : ℕ → ℕ → ℝ} (h : mk σ a = mk σ b) (k : ℕ) : leafNorm σ a k = leafNorm σ b k := by
  rw [leafNorm_eq_l2, leafNorm_eq_l2]
  refine l2_congr _ fun i hi => ?_
  unfold Spec.size at hi
  cases hk : σ.leaves[k]? with
  | none => rw [hk] at hi; simp at hi
  | some s => rw [hk] at hi; exact mk_inj h k s hk i (by simpa using hi)

/-- entry `n` of two descriptions of the same list of updates -/
theorem outs_entry {t : GT ℝ} {p : Params ℝ} {h : List (Params ℝ × Option (Params ℝ))} {U V : ℕ → ℕ → ℕ → ℝ} {n : ℕ}
    (h1 : t.outs p h = .ok ((List.range (n + 1)).map (fun n => mk σ (U n)))) (h2 : t.outs p h = .ok ((List.range (n + 1)).map (fun n => mk σ (V n)))) :
    mk σ (U n) = mk σ (V n) := by
  rw [h1] at h2
  have h3 := congrArg (fun l => l[n]?) (Except.ok.inj h2)
  simpa using h3

theorem l2_add_ge {ι : Type} (s : Finset ι) (f h : ι → ℝ) : l2 s f - l2 s h ≤ l2 s (fun x => f x + h x) := by
  have h1 := l2_sub_le s (fun x => f x + h x) h
  have h2 : l2 s (fun x => f x + h x - h x) = l2 s f := l2_congr s fun x _ => by ring
  rw [h2] at h1
  linarith

/-- norms multiplied per step by a factor between `1 - r n` and `1 + r n` -/
theorem relative_growth (N r : ℕ → ℝ) (hr : ∀ n, 0 ≤ r n ∧ r n < 1) (h0 : 0 < N 0) (h : ∀ n, N n ≠ 0 → (1 - r n) * N n ≤ N (n + 1) ∧ N (n + 1) ≤ (1 + r n) * N n) (n : ℕ) :
    0 < N n ∧ (∏ j ∈ range n, (1 - r j)) * N 0 ≤ N n ∧ N n ≤ (∏ j ∈ range n, (1 + r j)) * N 0 := by
  induction n with
  | zero => simp [h0]
  | succ n ih =>
    obtain ⟨h1, h2⟩ := h n ih.1.ne'
    have hr1 := hr n
    rw [Finset.prod_range_succ, Finset.prod_range_succ]
    refine ⟨lt_of_lt_of_le (mul_pos (by linarith) ih.1) h1, ?_, ?_⟩
    · calc _ = (1 - r n) * ((∏ j ∈ range n, (1 - r j)) * N 0) := by ring
        _ ≤ (1 - r n) * N n := mul_le_mul_of_nonneg_left ih.2.1 (by linarith)
        _ ≤ _ := h1
    · calc _ ≤ (1 + r n) * N n := h2
        _ ≤ (1 + r n) * ((∏ j ∈ range n, (1 + r j)) * N 0) := mul_le_mul_of_nonneg_left ih.2.2 (by linarith)
        _ = _ := by ring

/-- **C144 (lamb).** Training with `lamb`, learning rates below 1 in absolute value, any gradients, any moments and weight decay: every layer that starts with non-zero parameters moves by
at most `|lr|·‖layer‖` per step, so its norm stays between `∏(1-|lr|)` and `∏(1+|lr|)` times the initial one: it neither vanishes nor explodes. -/
theorem C144_lamb (lr : LR ℝ) (hlr : ∀ n, |lr.at n| < 1) (b1 b2 eps er wd : ℝ) (grad : ℕ → Params ℝ → Params ℝ) (G : ℕ → (ℕ → ℕ → ℝ) → ℕ → ℕ → ℝ)
    (hg : ∀ n p, grad n (mk σ p) = mk σ (G n p)) (p0 : ℕ → ℕ → ℝ) :
    ∃ P, P 0 = p0 ∧ Visits (lamb lr b1 b2 eps er wd) grad σ P ∧
      ∀ k, leafNorm σ p0 k ≠ 0 → ∀ n,
        leafNorm σ (fun k i => P (n + 1) k i - P n k i) k ≤ |lr.at n| * leafNorm σ (P n) k ∧
        (∏ j ∈ range n, (1 - |lr.at j|)) * leafNorm σ p0 k ≤ leafNorm σ (P n) k ∧
        leafNorm σ (P n) k ≤ (∏ j ∈ range n, (1 + |lr.at j|)) * leafNorm σ p0 k := by
  obtain ⟨P, U, hP0, hP, hv, hU⟩ := exists_visits_of σ (lamb lr b1 b2 eps er wd)
    (preserves_four _ _ _ _ (preserves_adam _ _ _ _).any (preserves_addDecayedWeights _) (preserves_trustRatio _) (preserves_lr lr).any) (fun p => ⟨p, rfl⟩) grad G hg p0
  refine ⟨P, hP0, hv, fun k hk => ?_⟩
  have hstep : ∀ n, leafNorm σ (P n) k ≠ 0 → leafNorm σ (U n) k ≤ |lr.at n| * leafNorm σ (P n) k := by
    intro n hn
    obtain ⟨A, V, hA, hV, h1, h2⟩ := C53_lamb σ p0 (fun n => G n (P n)) P (n + 1) lr b1 b2 eps er wd
    rw [leafNorm_of_mk σ (outs_entry σ (hU (n + 1)) hV) k]
    by_cases h3 : leafNorm σ (fun k i => A n k i + wd * P n k i) k = 0
    · have h4 : leafNorm σ (V n) k = 0 := by
        rw [leafNorm_eq_l2, l2_congr _ (fun i _ => h2 n k (Or.inr h3) i), l2_smul]
        have h5 : l2 (range (σ.size k)) (fun i => A n k i + wd * P n k i) = 0 := h3
        rw [h5, mul_zero]
      rw [h4]
      exact mul_nonneg (abs_nonneg _) (Real.sqrt_nonneg _)
    · exact (h1 n k hn h3).1.le
  have hnext : ∀ n, leafNorm σ (P (n + 1)) k = l2 (range (σ.size k)) (fun i => P n k i + U n k i) := fun n => by
    rw [leafNorm_eq_l2]; exact l2_congr _ fun i _ => hP n k i
  have hgrow := relative_growth (fun n => leafNorm σ (P n) k) (fun n => |lr.at n|) (fun n => ⟨abs_nonneg _, hlr n⟩)
    (by simp only [hP0]; exact lt_of_le_of_ne (Real.sqrt_nonneg _) (Ne.symm hk)) (fun n hn => by
      have h1 := hstep n hn
      have h2 := l2_add_le (range (σ.size k)) (P n k) (U n k)
      have h3 := l2_add_ge (range (σ.size k)) (P n k) (U n k)
      rw [leafNorm_eq_l2] at h1
      simp only [hnext]
      rw [leafNorm_eq_l2] at h1 ⊢
      constructor <;> linarith)
  intro n
  obtain ⟨h1, h2, h3⟩ := hgrow n
  simp only [hP0] at h2 h3
  refine ⟨?_, h2, h3⟩
  have h4 : leafNorm σ (fun k i => P (n + 1) k i - P n k i) k = leafNorm σ (U n) k := by
    rw [leafNorm_eq_l2, leafNorm_eq_l2]; exact l2_congr _ fun i _ => by rw [hP]; ring
  rw [h4]
  exact hstep n h1.ne'

/-- **C144 (fromage).** Training with `fromage(lr)`, `0 ≤ lr < 1` and any gradients: the norm of every layer that starts with non-zero parameters is multiplied per step by a factor between
`(1-lr)/√(1+lr²)` and `(1+lr)/√(1+lr²)`. -/
theorem C144_fromage (lr : ℝ) (hlr : 0 ≤ lr) (hlr1 : lr < 1) (grad : ℕ → Params ℝ → Params ℝ) (G : ℕ → (ℕ → ℕ → ℝ) → ℕ → ℕ → ℝ)
    (hg : ∀ n p, grad n (mk σ p) = mk σ (G n p)) (p0 : ℕ → ℕ → ℝ) :
    ∃ P, P 0 = p0 ∧ Visits (fromage lr 0) grad σ P ∧
      ∀ k, leafNorm σ p0 k ≠ 0 → ∀ n,
        ((1 - lr) / √(1 + lr ^ 2)) ^ n * leafNorm σ p0 k ≤ leafNorm σ (P n) k ∧ leafNorm σ (P n) k ≤ ((1 + lr) / √(1 + lr ^ 2)) ^ n * leafNorm σ p0 k := by
  obtain ⟨P, U, hP0, hP, hv, hU⟩ := exists_visits_of σ (fromage lr 0)
    (preserves_three _ _ _ (preserves_trustRatio _) (preserves_scale _).any (preserves_addDecayedWeights _)) (fun p => ⟨p, rfl⟩) grad G hg p0
  refine ⟨P, hP0, hv, fun k hk => ?_⟩
  have hr2 : (0 : ℝ) < 1 + lr ^ 2 := by positivity
  have hr : 0 < √(1 + lr ^ 2) := Real.sqrt_pos.mpr hr2
  -- the parameters after one more step
  have hnext : ∀ n, leafNorm σ (P (n + 1)) k = 1 / √(1 + lr ^ 2) * l2 (range (σ.size k)) (fun i => P n k i + -lr * (trustFactor σ 0 (G n (P n)) (P n) k * G n (P n) k i)) := by
    intro n
    have hall := fun n => C54_fromage_step σ p0 lr 0 (P n) (G n (P n))
    choose t u h1 h2 h3 using hall
    have ht : ∀ n, t n = t 0 := fun n => by
      have := h1 n
      rw [h1 0] at this
      exact (Except.ok.inj this).symm
    have ho : (fromage lr 0).outs (mk σ p0) (hist σ (fun n => G n (P n)) (fun n => some (mk σ (P n))) (n + 1)) = .ok ((List.range (n + 1)).map (fun n => mk σ (u n))) :=
      outs_hist (fromage lr 0) _ σ _ _ (n + 1) (fun _ => t 0) _ (h1 0) (fun m _ => by have := h2 m; rw [ht m] at this; exact this)
    have hUu := outs_entry σ (hU (n + 1)) ho
    have h4 : mk σ (P (n + 1)) = mk σ (fun k i => (P n k i - lr * (trustFactor σ 0 (G n (P n)) (P n) k * G n (P n) k i)) / Real.sqrt (1 + lr ^ 2)) := by
      have h5 := h3 n
      rw [← hUu, C06_apply_updates] at h5
      rw [← Except.ok.inj h5]
      exact mk_congr fun k s _ i _ => hP n k i
    rw [leafNorm_of_mk σ h4 k, leafNorm_eq_l2, ← abs_of_pos (one_div_pos.mpr hr), ← l2_smul]
    refine l2_congr _ fun i _ => ?_
    ring
  have hT : ∀ n, leafNorm σ (P n) k ≠ 0 → l2 (range (σ.size k)) (fun i => -lr * (trustFactor σ 0 (G n (P n)) (P n) k * G n (P n) k i)) ≤ lr * leafNorm σ (P n) k := by
    intro n hn
    have hn0 : 0 < leafNorm σ (P n) k := lt_of_le_of_ne (Real.sqrt_nonneg _) (Ne.symm hn)
    rw [l2_smul, abs_neg, abs_of_nonneg hlr, l2_smul]
    refine mul_le_mul_of_nonneg_left ?_ hlr
    by_cases h0 : leafNorm σ (G n (P n)) k = 0
    · rw [leafNorm_eq_l2] at h0
      rw [h0, mul_zero]; exact hn0.le
    · have hg0 : 0 < leafNorm σ (G n (P n)) k := lt_of_le_of_ne (Real.sqrt_nonneg _) (Ne.symm h0)
      rw [trustFactor_zero σ (P n) _ k hn h0, abs_of_pos (div_pos hn0 hg0), ← leafNorm_eq_l2, div_mul_cancel₀ _ h0]
  intro n
  suffices H : 0 < leafNorm σ (P n) k ∧ ((1 - lr) / √(1 + lr ^ 2)) ^ n * leafNorm σ p0 k ≤ leafNorm σ (P n) k ∧ leafNorm σ (P n) k ≤ ((1 + lr) / √(1 + lr ^ 2)) ^ n * leafNorm σ p0 k from H.2
  induction n with
  | zero => rw [hP0]; simp [lt_of_le_of_ne (Real.sqrt_nonneg _) (Ne.symm hk), show 0 < leafNorm σ p0 k from lt_of_le_of_ne (Real.sqrt_nonneg _) (Ne.symm hk)]
  | succ n ih =>
    obtain ⟨h1, h2, h3⟩ := ih
    have h4 := hT n h1.ne'
    have h5 := l2_add_le (range (σ.size k)) (P n k) (fun i => -lr * (trustFactor σ 0 (G n (P n)) (P n) k * G n (P n) k i))
    have h6 := l2_add_ge (range (σ.size k)) (P n k) (fun i => -lr * (trustFactor σ 0 (G n (P n)) (P n) k * G n (P n) k i))
    rw [← leafNorm_eq_l2] at h5 h6
    have hi : 0 < 1 / √(1 + lr ^ 2) := one_div_pos.mpr hr
    rw [hnext n]
    have hlo : (1 - lr) / √(1 + lr ^ 2) * leafNorm σ (P n) k ≤ 1 / √(1 + lr ^ 2) * l2 (range (σ.size k)) (fun i => P n k i + -lr * (trustFactor σ 0 (G n (P n)) (P n) k * G n (P n) k i)) := by
      calc _ = 1 / √(1 + lr ^ 2) * ((1 - lr) * leafNorm σ (P n) k) := by ring
        _ ≤ _ := mul_le_mul_of_nonneg_left (by linarith) hi.le
    have hup : 1 / √(1 + lr ^ 2) * l2 (range (σ.size k)) (fun i => P n k i + -lr * (trustFactor σ 0 (G n (P n)) (P n) k * G n (P n) k i)) ≤ (1 + lr) / √(1 + lr ^ 2) * leafNorm σ (P n) k := by
      calc _ ≤ 1 / √(1 + lr ^ 2) * ((1 + lr) * leafNorm σ (P n) k) := mul_le_mul_of_nonneg_left (by linarith) hi.le
        _ = _ := by ring
    have hc : 0 < (1 - lr) / √(1 + lr ^ 2) := div_pos (by linarith) hr
    have hd : 0 < (1 + lr) / √(1 + lr ^ 2) := div_pos (by linarith) hr
    refine ⟨lt_of_lt_of_le (mul_pos hc h1) hlo, ?_, ?_⟩
    · calc _ = (1 - lr) / √(1 + lr ^ 2) * (((1 - lr) / √(1 + lr ^ 2)) ^ n * leafNorm σ p0 k) := by rw [pow_succ]; ring
        _ ≤ _ := (mul_le_mul_of_nonneg_left h2 hc.le).trans hlo
    · calc _ ≤ _ := hup.trans (mul_le_mul_of_nonneg_left h3 hd.le)
        _ = _ := by rw [pow_succ]; ring

/-- `adaptive_grad_clip` keeps structure on the shapes it supports -/
theorem preserves_agc (cl eps : ℝ) : Preserves (fun σ pp => WithParams σ pp ∧ AgcSpec σ) (adaptiveGradClip cl eps) := fun σ =>
  ⟨fun _ => True, fun p => ⟨⟨⟩, rfl, trivial⟩, by
    rintro g ⟨⟩ _ _ ⟨⟨p, rfl⟩, hσ⟩
    exact ⟨_, _, agc_update_mk cl eps σ hσ g p, trivial⟩⟩

/-- **C144 (adaptive gradient clipping).** Training with `chain(adaptive_grad_clip(c, eps), scale_by_learning_rate)`, any gradients: each unit of each leaf moves by at most
`|lr|·c·max(‖unit‖, eps)` per step, and so its norm, or `eps` if that is larger, grows by a factor of at most `1 + |lr|·c` per step. -/
theorem C144_agc (cl eps : ℝ) (hcl : 0 < cl) (heps : 0 < eps) (lr : LR ℝ) (hσ : AgcSpec σ) (grad : ℕ → Params ℝ → Params ℝ) (G : ℕ → (ℕ → ℕ → ℝ) → ℕ → ℕ → ℝ)
    (hg : ∀ n p, grad n (mk σ p) = mk σ (G n p)) (p0 : ℕ → ℕ → ℝ) :
    ∃ P, P 0 = p0 ∧ Visits (chain [adaptiveGradClip cl eps, scaleByLearningRate lr]) grad σ P ∧
      ∀ k s, σ.leaves[k]? = some s → ∀ c n,
        unitNorm s (fun i => P (n + 1) k i - P n k i) c ≤ |lr.at n| * cl * max (unitNorm s (P n k) c) eps ∧
        max (unitNorm s (P n k) c) eps ≤ (∏ j ∈ range n, (1 + |lr.at j| * cl)) * max (unitNorm s (p0 k) c) eps := by
  obtain ⟨P, U, hP0, hP, hv, hU⟩ := exists_visits_of σ (chain [adaptiveGradClip cl eps, scaleByLearningRate lr])
    (preserves_two _ _ (preserves_agc cl eps) (preserves_lr lr).any) (fun p => ⟨⟨p, rfl⟩, hσ⟩) grad G hg p0
  refine ⟨P, hP0, hv, fun k s hk c => ?_⟩
  have hl2 : ∀ v : ℕ → ℝ, unitNorm s v c = l2 ((range s.prod).filter (fun j => unitOf s j = c)) v := fun v => rfl
  have hstep : ∀ n, unitNorm s (U n k) c ≤ |lr.at n| * cl * max (unitNorm s (P n k) c) eps := by
    intro n
    have hall := fun n => C13_adaptive_grad_clip cl eps hcl heps σ hσ (G n (P n)) (P n)
    choose u h1 h2 using hall
    have ho := outs_chain_hist_lr (adaptiveGradClip cl eps) lr (mk σ p0) σ (fun n => G n (P n)) u (fun n => some (mk σ (P n))) (n + 1)
      (outs_hist (adaptiveGradClip cl eps) _ σ _ _ (n + 1) (fun _ => ⟨⟩) _ rfl (fun m _ => h1 m))
    have hUu := outs_entry σ (hU (n + 1)) ho
    have h3 : unitNorm s (U n k) c = |lr.at n| * unitNorm s (u n k) c := by
      rw [hl2, hl2, ← abs_neg, ← l2_smul]
      exact l2_congr _ fun i hi => mk_inj hUu k s hk i (by simpa using (Finset.mem_filter.mp hi).1)
    rw [h3, mul_assoc]
    exact mul_le_mul_of_nonneg_left (h2 n k s hk c).1 (abs_nonneg _)
  have hnext : ∀ n, unitNorm s (P (n + 1) k) c ≤ unitNorm s (P n k) c + unitNorm s (U n k) c := fun n => by
    rw [hl2, hl2, hl2, l2_congr _ (fun i _ => hP n k i)]
    exact l2_add_le _ _ _
  intro n
  constructor
  · have h4 : unitNorm s (fun i => P (n + 1) k i - P n k i) c = unitNorm s (U n k) c := by
      rw [hl2, hl2]; exact l2_congr _ fun i _ => by rw [hP]; ring
    rw [h4]; exact hstep n
  · induction n with
    | zero => simp [hP0]
    | succ n ih =>
      rw [Finset.prod_range_succ]
      have h5 : 0 ≤ |lr.at n| * cl := mul_nonneg (abs_nonneg _) hcl.le
      have h6 := le_max_left (unitNorm s (P n k) c) eps
      have h7 := le_max_right (unitNorm s (P n k) c) eps
      have h8 : max (unitNorm s (P (n + 1) k) c) eps ≤ (1 + |lr.at n| * cl) * max (unitNorm s (P n k) c) eps := by
        have := hstep n
        have := hnext n
        refine max_le (by linarith) ?_
        nlinarith
      calc _ ≤ _ := h8
        _ ≤ (1 + |lr.at n| * cl) * ((∏ j ∈ range n, (1 + |lr.at j| * cl)) * max (unitNorm s (p0 k) c) eps) := mul_le_mul_of_nonneg_left ih (by linarith)
        _ = _ := by ring

/-- the hypotheses hold for a network with a matrix and a bias, a learning rate of 1/100, and weights that are not all zero -/
example (grad : ℕ → Params ℝ → Params ℝ) (G : ℕ → (ℕ → ℕ → ℝ) → ℕ → ℕ → ℝ) (hg : ∀ n p, grad n (mk (.node .list [.leaf [3, 2], .leaf [2]]) p) = mk (.node .list [.leaf [3, 2], .leaf [2]]) (G n p)) :
    ∃ P, P 0 = (fun _ _ => (1 : ℝ)) ∧ Visits (lamb (.scalar (1 / 100)) (9 / 10) (999 / 1000) (1 / 10 ^ 6) 0 (1 / 100)) grad (.node .list [.leaf [3, 2], .leaf [2]]) P ∧
      ∀ n, leafNorm (.node .list [.leaf [3, 2], .leaf [2]]) (P n) 1 ≤ (101 / 100) ^ n * √2 ∧ (99 / 100) ^ n * √2 ≤ leafNorm (.node .list [.leaf [3, 2], .leaf [2]]) (P n) 1 := by
  obtain ⟨P, h0, hv, h⟩ := C144_lamb (.node .list [.leaf [3, 2], .leaf [2]]) (.scalar (1 / 100)) (fun n => by simp only [LR.at]; norm_num [abs_of_pos]) (9 / 10) (999 / 1000) (1 / 10 ^ 6) 0 (1 / 100) grad G hg
    (fun _ _ => 1)
  have e : leafNorm (.node .list [.leaf [3, 2], .leaf [2]]) (fun _ _ => (1 : ℝ)) 1 = √2 := by
    unfold leafNorm Spec.size
    simp [leaves, leavesL]
  refine ⟨P, h0, hv, fun n => ?_⟩
  obtain ⟨_, h1, h2⟩ := h 1 (by rw [e]; positivity) n
  rw [e] at h1 h2
  simp only [LR.at, Finset.prod_const, Finset.card_range] at h1 h2
  rw [abs_of_pos (by norm_num)] at h1 h2
  norm_num at h1 h2 ⊢
  exact ⟨h2, h1⟩

example : AgcSpec (.node .list [.leaf [3, 2], .leaf [2]]) := by
  intro s hs
  simp [leaves, leavesL] at hs
  rcases hs with rfl | rfl <;> decide

end Optax
