import Verif.Props.AdagradRegret
import Verif.Props.Clipping
import Verif.Props.Accumulation

/-!
# C120: gradient descent with clipped gradients

Training with `chain(clip_by_global_norm(c), sgd(η))`: no step is longer than `η c`, whatever the gradient; on a smooth loss the loss
never increases; on a convex smooth loss the excess loss is `O(1/N)` with an explicit constant.
-/

set_option linter.unusedSectionVars false
set_option linter.unusedSimpArgs false

namespace Optax
open Finset

variable (σ : Spec)

/-- the factor clipping to norm `c` multiplies a gradient of norm `r` by: `1` if `r < c`, else `c / r` -/
noncomputable def clipFactor (c r : ℝ) : ℝ := if r < c then 1 else c / r

theorem clipFactor_nonneg {c r : ℝ} (hc : 0 < c) : 0 ≤ clipFactor c r := by
  unfold clipFactor
  split_ifs with h
  · norm_num
  · exact div_nonneg hc.le (by linarith)

theorem clipFactor_le_one {c r : ℝ} (hc : 0 < c) : clipFactor c r ≤ 1 := by
  unfold clipFactor
  split_ifs with h
  · exact le_rfl
  · rw [div_le_one (by linarith)]; linarith

theorem clipFactor_mul {c r : ℝ} (hc : 0 < c) : clipFactor c r * r = min r c := by
  unfold clipFactor
  split_ifs with h
  · rw [one_mul, min_eq_left h.le]
  · rw [div_mul_cancel₀ _ (by linarith), min_eq_right (by linarith)]

theorem clipFactor_ge {c r B : ℝ} (hc : 0 < c) (hB : r ≤ B) : 1 ≤ clipFactor c r * max 1 (B / c) := by
  unfold clipFactor
  split_ifs with h
  · rw [one_mul]; exact le_max_left _ _
  · have hr : 0 < r := by linarith
    calc (1 : ℝ) = c / r * (r / c) := by field_simp
      _ ≤ c / r * (B / c) := by gcongr
      _ ≤ _ := by gcongr; exact le_max_right _ _

/-- the run of `chain(clip_by_global_norm(c), sgd(lr))` -/
theorem clipped_visits (c : ℝ) (lr : LR ℝ) (nes : Bool) (grad : ℕ → Params ℝ → Params ℝ)
    (G : ℕ → (ℕ → ℕ → ℝ) → ℕ → ℕ → ℝ) (hg : ∀ n p, grad n (mk σ p) = mk σ (G n p)) (p0 : ℕ → ℕ → ℝ) :
    ∃ P : ℕ → ℕ → ℕ → ℝ, P 0 = p0 ∧ Visits (chain [clipByGlobalNorm c, sgd lr none nes]) grad σ P ∧
      ∀ n, mk σ (P (n + 1)) = mk σ (fun k i => P n k i - lr.at n * clipFactor c (globalNorm (grad n (mk σ (P n)))) * G n (P n) k i) := by
  have hp : Preserves WithParams (chain [clipByGlobalNorm c, sgd lr none nes]) := by
    refine Preserves.chain _ ?_
    intro t' ht'
    simp only [List.mem_cons, List.mem_nil_iff, or_false] at ht'
    rcases ht' with rfl | rfl
    · exact (preserves_clipByGlobalNorm c).mono fun _ _ _ => trivial
    · exact (preserves_sgd_any lr none nes).mono fun _ _ _ => trivial
  obtain ⟨P, U, h0, hP, hv, hU⟩ := exists_visits σ _ hp grad G hg p0
  refine ⟨P, h0, hv, fun n => ?_⟩
  have ha := outs_hist (clipByGlobalNorm c) (mk σ p0) σ (fun n => G n (P n)) (fun n => some (mk σ (P n))) (n + 1) (fun _ => ⟨⟩) _ rfl
    (fun m _ => clipByGlobalNorm_update_mk σ (G m (P m)) _ c ⟨⟩)
  have hs : ∀ a : ℕ → ℕ → ℕ → ℝ, (sgd lr none nes).outs (mk σ p0) (hist σ a (fun n => some (mk σ (P n))) (n + 1)) =
      .ok ((List.range (n + 1)).map fun m => mk σ (fun k i => -(lr.at m) * a m k i)) := by
    intro a
    rw [zip_hist]
    refine (C55_sgd_plain _ _ _ (by simp) _ lr nes).mpr (timesNegLR_hist lr σ a (n + 1)).symm
  have e' := outs_chain_hist (clipByGlobalNorm c) [sgd lr none nes] _ σ (fun n => G n (P n)) _ _ (n + 1) ha _
    (outs_chain_hist_last _ _ σ _ _ (n + 1) _ (hs _))
  rw [hU (n + 1)] at e'
  injection e' with e'
  have h3 := List.map_inj_left.mp e' n (List.mem_range.mpr (by omega))
  apply mk_congr
  intro k s h1 i h2
  have h4 := mk_inj h3 k s h1 i h2
  rw [hP, h4, hg]
  unfold clipFactor
  simp only [jlt_real, decide_eq_true_eq]
  split_ifs <;> ring

/-- **C120 (robustness).** Whatever gradients arrive, including corrupted ones of any size, no step of
`chain(clip_by_global_norm(c), sgd(lr))` is longer than `|lr|·c`, so after `N` steps with a constant learning rate the parameters are
within `N·|lr|·c` of the initial ones. -/
theorem C120_step_bound (c : ℝ) (hc : 0 < c) (lr : LR ℝ) (nes : Bool) (grad : ℕ → Params ℝ → Params ℝ)
    (G : ℕ → (ℕ → ℕ → ℝ) → ℕ → ℕ → ℝ) (hg : ∀ n p, grad n (mk σ p) = mk σ (G n p)) (p0 : ℕ → ℕ → ℝ) :
    ∃ P : ℕ → ℕ → ℕ → ℝ, P 0 = p0 ∧ Visits (chain [clipByGlobalNorm c, sgd lr none nes]) grad σ P ∧
      (∀ n, treeDist σ (P (n + 1)) (P n) ≤ |lr.at n| * c) ∧ ∀ n, treeDist σ (P n) p0 ≤ (∑ m ∈ range n, |lr.at m|) * c := by
  obtain ⟨P, h0, hv, hs⟩ := clipped_visits σ c lr nes grad G hg p0
  have h1 : ∀ n, treeDist σ (P (n + 1)) (P n) ≤ |lr.at n| * c := by
    intro n
    have e : mk σ (fun k i => P (n + 1) k i - P n k i) =
        mk σ (fun k i => -(lr.at n * clipFactor c (globalNorm (grad n (mk σ (P n))))) * G n (P n) k i) := by
      apply mk_congr
      intro k s h1 i h2
      rw [mk_inj (hs n) k s h1 i h2]; ring
    unfold treeDist
    rw [e, globalNorm_mk]
    refine (l2_smul (idx σ) _ _).le.trans ?_
    have hf := clipFactor_mul (c := c) (r := globalNorm (grad n (mk σ (P n)))) hc
    have hn : l2 (idx σ) (fun x => G n (P n) x.1 x.2) = globalNorm (grad n (mk σ (P n))) := by
      rw [hg, globalNorm_mk]; rfl
    rw [hn, abs_neg, abs_mul, abs_of_nonneg (clipFactor_nonneg hc), mul_assoc, hf]
    exact mul_le_mul_of_nonneg_left (min_le_right _ _) (abs_nonneg _)
  refine ⟨P, h0, hv, h1, fun n => ?_⟩
  induction n with
  | zero => rw [h0]; simp [treeDist, globalNorm_mk, entryNorm, l2]
  | succ n ih =>
    rw [sum_range_succ, add_mul]
    have tri : treeDist σ (P (n + 1)) p0 ≤ treeDist σ (P (n + 1)) (P n) + treeDist σ (P n) p0 := by
      unfold treeDist
      rw [globalNorm_mk, globalNorm_mk, globalNorm_mk]
      refine le_trans (le_of_eq ?_) (l2_add_le (idx σ) (fun x => P (n + 1) x.1 x.2 - P n x.1 x.2) (fun x => P n x.1 x.2 - p0 x.1 x.2))
      exact l2_congr (idx σ) fun x _ => by ring
    linarith [h1 n]

/-- **C120 (convergence).** On an `L`-smooth loss, convex or not, with `0 < η`, `L η ≤ 1`, every step decreases the loss by at least
`η/2·‖g‖·min(‖g‖, c)`: the loss never increases and, if it is bounded below by `lo`, the sum of `‖g‖·min(‖g‖, c)` over all steps is at
most `2(loss(p0) - lo)/η`. On a convex one with minimiser `q` the distance to `q` never increases and the excess loss after `N` steps is at
most `‖p0 - q‖²/(2 η N)` times `max(1, √((2/η)(loss(p0) - loss(q)))/c)`: clipping costs a factor only where gradients are longer than `c`. -/
theorem C120_convergence (c : ℝ) (hc : 0 < c) (η : ℝ) (nes : Bool) (L : ℝ) (hη : 0 < η) (hL : L * η ≤ 1) (loss : Params ℝ → ℝ)
    (grad : ℕ → Params ℝ → Params ℝ) (G : (ℕ → ℕ → ℝ) → ℕ → ℕ → ℝ) (hg : ∀ n p, grad n (mk σ p) = mk σ (G p))
    (hs : Smooth σ L loss G) (p0 : ℕ → ℕ → ℝ) :
    ∃ P : ℕ → ℕ → ℕ → ℝ, P 0 = p0 ∧ Visits (chain [clipByGlobalNorm c, sgd (.scalar η) none nes]) grad σ P ∧
      (∀ n, loss (mk σ (P (n + 1))) ≤ loss (mk σ (P n)) -
        η / 2 * (globalNorm (mk σ (G (P n))) * min (globalNorm (mk σ (G (P n)))) c)) ∧
      (∀ n m, n ≤ m → loss (mk σ (P m)) ≤ loss (mk σ (P n))) ∧
      (∀ lo, (∀ t, lo ≤ loss t) → ∀ N, ∑ n ∈ range N, globalNorm (mk σ (G (P n))) * min (globalNorm (mk σ (G (P n)))) c ≤
        2 * (loss (mk σ p0) - lo) / η) ∧
      ∀ q : ℕ → ℕ → ℝ, StronglyConvex σ 0 loss G → (∀ t, loss (mk σ q) ≤ loss t) →
        (∀ n, treeDist σ (P (n + 1)) q ≤ treeDist σ (P n) q) ∧
        ∀ N : ℕ, N ≠ 0 → loss (mk σ (P N)) - loss (mk σ q) ≤
          treeDist σ p0 q ^ 2 / (2 * η * N) * max 1 (√(2 / η * (loss (mk σ p0) - loss (mk σ q))) / c) := by
  obtain ⟨P, h0, hv, hst⟩ := clipped_visits σ c (.scalar η) nes grad (fun _ => G) hg p0
  have hat : ∀ n, LR.at (.scalar η) n = η := fun _ => rfl
  simp only [hat, hg] at hst
  set r : ℕ → ℝ := fun n => globalNorm (mk σ (G (P n))) with hr
  set a : ℕ → ℝ := fun n => η * clipFactor c (r n) with ha
  have hr0 : ∀ n, 0 ≤ r n := fun n => by rw [hr]; simp only [globalNorm_mk]; exact Real.sqrt_nonneg _
  have ha0 : ∀ n, 0 ≤ a n := fun n => mul_nonneg hη.le (clipFactor_nonneg hc)
  have haL : ∀ n, L * a n ≤ 1 := by
    intro n
    rcases le_or_gt L 0 with h | h
    · have := mul_nonpos_of_nonpos_of_nonneg h (ha0 n); linarith
    · have : a n ≤ η := mul_le_of_le_one_right hη.le (clipFactor_le_one hc)
      nlinarith
  have hst' : ∀ n, mk σ (P (n + 1)) = mk σ (fun k i => P n k i - a n * G (P n) k i) := hst
  have hdesc : ∀ n, loss (mk σ (P (n + 1))) ≤ loss (mk σ (P n)) - η / 2 * (r n * min (r n) c) := by
    intro n
    rw [hst']
    have h1 := descent_step σ hs (P n) (a n)
    rw [sqNorm_eq] at h1
    have e : a n * r n = η * min (r n) c := by rw [ha]; simp only; rw [mul_assoc, clipFactor_mul hc]
    have h2 : η / 2 * (r n * min (r n) c) ≤ a n * (1 - L * a n / 2) * r n ^ 2 := by
      have e2 : η / 2 * (r n * min (r n) c) = a n * (1 / 2) * r n ^ 2 := by
        calc η / 2 * (r n * min (r n) c) = η * min (r n) c * r n / 2 := by ring
          _ = _ := by rw [← e]; ring
      rw [e2]
      have := haL n
      have h3 := ha0 n
      gcongr
      linarith
    linarith
  have hmono : ∀ n m, n ≤ m → loss (mk σ (P m)) ≤ loss (mk σ (P n)) := by
    intro n m hnm
    induction m, hnm using Nat.le_induction with
    | base => exact le_rfl
    | succ m _ ih =>
      have h1 := hdesc m
      have : 0 ≤ η / 2 * (r m * min (r m) c) := mul_nonneg (by linarith) (mul_nonneg (hr0 m) (le_min (hr0 m) hc.le))
      linarith
  refine ⟨P, h0, hv, hdesc, hmono, fun lo hlo N => ?_, fun q hcx hq => ?_⟩
  · rw [le_div_iff₀ hη]
    have key : ∀ N, (∑ n ∈ range N, r n * min (r n) c) * η ≤ 2 * (loss (mk σ p0) - loss (mk σ (P N))) := by
      intro N
      induction N with
      | zero => simp [h0]
      | succ N ih =>
        rw [sum_range_succ, add_mul]
        have := hdesc N
        linarith
    have := key N
    have := hlo (mk σ (P N))
    linarith
  · have hone : ∀ n, sqDist σ (P (n + 1)) q ≤ sqDist σ (P n) q - 2 * a n * (loss (mk σ (P (n + 1))) - loss (mk σ q)) := by
      intro n
      have h1 := convex_step σ hs hcx (P n) q (a n) (ha0 n) (haL n)
      rw [mul_zero, sub_zero, one_mul, ← hst'] at h1
      have e : sqDist σ (P (n + 1)) q = sqDist σ (fun k i => P n k i - a n * G (P n) k i) q := by
        unfold sqDist
        refine Finset.sum_congr rfl fun x hx => ?_
        obtain ⟨s, h1, h2⟩ := mem_idx.mp hx
        rw [mk_inj (hst' n) x.1 s h1 x.2 h2]
      rw [e]; exact h1
    have hgap : ∀ n, 0 ≤ loss (mk σ (P n)) - loss (mk σ q) := fun n => by have := hq (mk σ (P n)); linarith
    refine ⟨fun n => ?_, fun N hN => ?_⟩
    · have h1 := hone n
      rw [sqDist_eq, sqDist_eq] at h1
      have h2 := mul_nonneg (mul_nonneg zero_le_two (ha0 n)) (hgap (n + 1))
      exact abs_le_of_sq_le_sq' (by linarith) (by unfold treeDist; rw [globalNorm_mk]; exact Real.sqrt_nonneg _) |>.2
    · -- gradient norms are at most `B`
      set B := √(2 / η * (loss (mk σ p0) - loss (mk σ q))) with hB
      have hrB : ∀ n, r n ≤ B := by
        intro n
        apply Real.le_sqrt_of_sq_le
        have h1 := descent_step σ hs (P n) η
        rw [sqNorm_eq] at h1
        have h2 := hq (mk σ (fun k i => P n k i - η * G (P n) k i))
        have h3 := hmono 0 n (Nat.zero_le n)
        rw [h0] at h3
        have h4 : η / 2 * r n ^ 2 ≤ η * (1 - L * η / 2) * r n ^ 2 := by
          have := sq_nonneg (r n)
          have h5 : η / 2 ≤ η * (1 - L * η / 2) := by nlinarith
          exact mul_le_mul_of_nonneg_right h5 this
        have h5 : η / 2 * r n ^ 2 ≤ loss (mk σ p0) - loss (mk σ q) := by linarith
        calc r n ^ 2 = 2 / η * (η / 2 * r n ^ 2) := by field_simp
          _ ≤ _ := mul_le_mul_of_nonneg_left h5 (by positivity)
      set K := max 1 (B / c) with hK
      have hK0 : 0 < K := lt_of_lt_of_le one_pos (le_max_left _ _)
      have haK : ∀ n, η ≤ a n * K := by
        intro n
        have := clipFactor_ge hc (hrB n)
        calc η = η * 1 := (mul_one _).symm
          _ ≤ η * (clipFactor c (r n) * K) := mul_le_mul_of_nonneg_left this hη.le
          _ = _ := by rw [ha]; ring
      have key : ∀ N : ℕ, 2 * η / K * N * (loss (mk σ (P N)) - loss (mk σ q)) + sqDist σ (P N) q ≤ sqDist σ p0 q := by
        intro N
        induction N with
        | zero => simp [h0]
        | succ N ih =>
          have h1 := hone N
          have h2 : 2 * η / K * (loss (mk σ (P (N + 1))) - loss (mk σ q)) ≤ 2 * a N * (loss (mk σ (P (N + 1))) - loss (mk σ q)) := by
            refine mul_le_mul_of_nonneg_right ?_ (hgap (N + 1))
            rw [div_le_iff₀ hK0]
            linarith [haK N]
          have h3 : 2 * η / K * N * (loss (mk σ (P (N + 1))) - loss (mk σ q)) ≤ 2 * η / K * N * (loss (mk σ (P N)) - loss (mk σ q)) :=
            mul_le_mul_of_nonneg_left (by linarith [hmono N (N + 1) (by omega)]) (by positivity)
          push_cast
          linarith
      have hN' : (0 : ℝ) < N := by exact_mod_cast Nat.pos_of_ne_zero hN
      have h1 := key N
      have h2 := sqDist_nonneg σ (P N) q
      rw [← sqDist_eq, div_mul_eq_mul_div, le_div_iff₀ (by positivity)]
      have h3 : 2 * η / K * N * (loss (mk σ (P N)) - loss (mk σ q)) ≤ sqDist σ p0 q := by linarith
      calc (loss (mk σ (P N)) - loss (mk σ q)) * (2 * η * N) = 2 * η / K * N * (loss (mk σ (P N)) - loss (mk σ q)) * K := by field_simp
        _ ≤ _ := mul_le_mul_of_nonneg_right h3 hK0.le

/-- Non-vacuity: `½ Σ x²` is 1-smooth and convex with gradient `x` and minimal at 0, and its gradients are clipped (norm 5, bound 1). -/
example : ∃ (loss : Params ℝ → ℝ) (G : (ℕ → ℕ → ℝ) → ℕ → ℕ → ℝ) (q : ℕ → ℕ → ℝ) (p : ℕ → ℕ → ℝ), Smooth (.leaf [2]) 1 loss G ∧
    StronglyConvex (.leaf [2]) 0 loss G ∧ (∀ t, loss (mk (.leaf [2]) q) ≤ loss t) ∧ globalNorm (mk (.leaf [2]) (G p)) = 5 ∧
    clipFactor 1 5 = 1 / 5 := by
  set σ : Spec := .leaf [2] with hσ
  have e : ∀ p : ℕ → ℕ → ℝ, sqNorm σ (coord (mk σ p)) = sqNorm σ p := by
    intro p
    unfold sqNorm
    refine Finset.sum_congr rfl fun x hx => ?_
    obtain ⟨s, h1, h2⟩ := mem_idx.mp hx
    rw [coord_mk _ _ _ _ s h1 h2]
  have k : ∀ p q : ℕ → ℕ → ℝ,
      sqNorm σ q / 2 = sqNorm σ p / 2 + treeInner σ p (fun k i => q k i - p k i) + 1 / 2 * sqDist σ q p := by
    intro p q
    unfold sqNorm treeInner sqDist
    rw [Finset.sum_div, Finset.sum_div, Finset.mul_sum, ← Finset.sum_add_distrib, ← Finset.sum_add_distrib]
    exact Finset.sum_congr rfl fun x _ => by ring
  refine ⟨fun t => sqNorm σ (coord t) / 2, fun p => p, fun _ _ => 0, fun _ i => if i = 0 then 3 else 4, fun p q => ?_, fun p q => ?_,
    fun t => ?_, ?_, ?_⟩
  · simp only [e]; exact (k p q).le
  · simp only [e]
    have := k p q
    have := sqDist_nonneg σ q p
    linarith
  · simp only [e]
    have : sqNorm σ (fun _ _ => (0 : ℝ)) = 0 := by simp [sqNorm]
    rw [this]
    have := sqNorm_nonneg σ (coord t)
    linarith
  · unfold globalNorm mk
    simp [hσ, PyTree.mapIdx, PyTree.mapIdxFrom, PyTree.leaves, Tensor.tens, List.range_succ]
    simp [Tensor.map, Tensor.sum]
    rw [show (3 * 3 + 4 * 4 : ℝ) = 5 ^ 2 by norm_num, Real.sqrt_sq (by norm_num)]
  · unfold clipFactor; norm_num

end Optax
