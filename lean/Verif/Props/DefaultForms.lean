import Verif.Props.Defaults

/-!
# C110: what the aliases compute with the default hyper-parameters, with the numbers written out
-/

set_option linter.unusedSectionVars false
set_option linter.unusedSimpArgs false

namespace Optax
open Finset

variable (σ : Spec) (p0 : ℕ → ℕ → ℝ) (g : ℕ → ℕ → ℕ → ℝ) (pp : ℕ → Option (Params ℝ)) (p : ℕ → ℕ → ℕ → ℝ) (N : ℕ)

/-- the estimate `mhat` of adam: the mean of the gradients so far, the weight of a gradient shrinking by 0.9 with every later one -/
theorem default_debiased (b : ℝ) (x : ℕ → ℝ) (n : ℕ) :
    debiased b x n = (∑ j ∈ range n, (1 - b) * b ^ (n - 1 - j) * x j) / (1 - b ^ n) := by
  unfold debiased emaWeight
  rw [Finset.sum_div]
  exact Finset.sum_congr rfl (fun j _ => by ring)

theorem map_range_congr {N : ℕ} {A B : ℕ → ℕ → ℕ → ℝ} (h : ∀ n < N, ∀ k i, A n k i = B n k i) :
    (List.range N).map (fun n => mk σ (A n)) = (List.range N).map (fun n => mk σ (B n)) := by
  apply List.map_congr_left
  intro n hn
  congr 1
  funext k i
  exact h n (List.mem_range.mp hn) k i

theorem outs_of_exec {t : GT ℝ} {p : Params ℝ} {h : List (Call ℝ)} {l : List (Params ℝ)} {s : t.State} (e : t.exec p h = .ok (l, s)) :
    t.outs p h = .ok l := by rw [GT.outs, e]; rfl

/-- **C110.** `adam(lr)`: `-lr · mhat / (√vhat + 1e-8)` with decay rates 0.9 and 0.999. -/
theorem C110_adam_form (lr : LR ℝ) (hN : N ≤ 2147483647) :
    (adamD lr).outs (mk σ p0) (hist σ g pp N) = .ok ((List.range N).map (fun n : ℕ => mk σ (fun k i =>
      -(lr.at n) * (debiased 0.9 (fun j => g j k i) (n + 1) / (√(debiased 0.999 (fun j => g j k i ^ 2) (n + 1)) + 1e-8))))) := by
  have h := outs_of_exec (C26_adam σ p0 g pp N (JOps.ofRat (9 / 10)) (JOps.ofRat (999 / 1000)) (JOps.ofRat (1 / 10 ^ 8)) 0 hN)
  refine (outs_chain_hist_lr _ lr _ σ g _ pp N h).trans ?_
  refine congrArg _ (map_range_congr σ fun n _ k i => ?_)
  simp only [jofRat_real, add_zero]
  norm_num

/-- **C110.** `adamw(lr)`: `-lr · (mhat / (√vhat + 1e-8) + 1e-4 · param)`. -/
theorem C110_adamw_form (lr : LR ℝ) (hN : N ≤ 2147483647) :
    (adamwD lr).outs (mk σ p0) (hist σ g (fun n => some (mk σ (p n))) N) = .ok ((List.range N).map (fun n : ℕ => mk σ (fun k i =>
      -(lr.at n) * (debiased 0.9 (fun j => g j k i) (n + 1) / (√(debiased 0.999 (fun j => g j k i ^ 2) (n + 1)) + 1e-8) +
        1e-4 * p n k i)))) := by
  have h := outs_of_exec (C26_adam σ p0 g (fun n => some (mk σ (p n))) N (JOps.ofRat (9 / 10)) (JOps.ofRat (999 / 1000)) (JOps.ofRat (1 / 10 ^ 8)) 0 hN)
  have hd := fun a => outs_hist (addDecayedWeights (JOps.ofRat (1 / 10 ^ 4) : ℝ)) (mk σ p0) σ a (fun n => some (mk σ (p n))) N (fun _ => ⟨⟩) _ rfl
      (fun n _ => addDecayedWeights_update_mk σ (a n) (p n) (JOps.ofRat (1 / 10 ^ 4)) ⟨⟩)
  refine (outs_chain_hist (scaleByAdam _ _ _ _) [addDecayedWeights _, scaleByLearningRate lr] _ σ g _ _ N h _
    (outs_chain_hist_lr (addDecayedWeights _) lr _ σ _ _ _ N (hd _))).trans ?_
  refine congrArg _ (map_range_congr σ fun n _ k i => ?_)
  simp only [jofRat_real, add_zero]
  norm_num

/-- **C110.** `adabelief(lr)`: decay rates 0.9 and 0.999, `eps` 1e-8, `eps_root` 1e-16. -/
theorem C110_adabelief_form (lr : LR ℝ) (hN : N ≤ 2147483647) :
    ∃ M V : ℕ → ℕ → ℕ → ℝ,
    (adabeliefD lr).outs (mk σ p0) (hist σ g pp N) = .ok ((List.range N).map (fun n : ℕ => mk σ (fun k i =>
      -(lr.at n) * (M (n + 1) k i / (1 - 0.9 ^ (n + 1)) / (√(V (n + 1) k i / (1 - 0.999 ^ (n + 1)) + 1e-16) + 1e-8))))) ∧
    (∀ n k i, M n k i = 0.1 * geoSum 0.9 (fun j => g j k i) n) ∧
    (∀ n k i, V n k i = 0.001 * geoSum 0.999 (fun j => (g j k i - M j k i) ^ 2) n) := by
  obtain ⟨U, M, V, hU, hM, hV, hUe⟩ := C28_belief σ p0 g pp (JOps.ofRat (9 / 10)) (JOps.ofRat (999 / 1000)) (JOps.ofRat (1 / 10 ^ 8))
    (JOps.ofRat (1 / 10 ^ 16))
  refine ⟨M, V, ?_, fun n k i => ?_, fun n k i => ?_⟩
  · refine (outs_chain_hist_lr _ lr _ σ g U pp N (by rw [GT.outs, hU N hN]; rfl)).trans ?_
    refine congrArg _ (map_range_congr σ fun n _ k i => ?_)
    rw [hUe]
    simp only [jofRat_real]
    norm_num
  · rw [hM]; simp only [jofRat_real]; norm_num
  · rw [hV]; simp only [jofRat_real]; norm_num

/-- **C110.** `adagrad(lr)`: the accumulators start at 0.1 and `eps` is 1e-7. -/
theorem C110_adagrad_form (lr : LR ℝ) :
    (adagradD lr).outs (mk σ p0) (hist σ g pp N) = .ok ((List.range N).map (fun n : ℕ => mk σ (fun k i =>
      -(lr.at n) * (g n k i / √(0.1 + ∑ j ∈ range (n + 1), g j k i ^ 2 + 1e-7))))) := by
  have h := outs_of_exec (C23_rss σ p0 g pp N (JOps.ofRat (1 / 10)) (JOps.ofRat (1 / 10 ^ 7)))
  refine (outs_chain_hist_lr _ lr _ σ g _ pp N h).trans ?_
  refine congrArg _ (map_range_congr σ fun n _ k i => ?_)
  have : 0 < rssAcc (JOps.ofRat (1 / 10)) (fun j => g j k i) (n + 1) := by
    unfold rssAcc
    have : (0 : ℝ) ≤ ∑ j ∈ range (n + 1), g j k i ^ 2 := Finset.sum_nonneg (fun j _ => sq_nonneg _)
    simp only [jofRat_real]
    norm_num
    linarith
  rw [if_pos this]
  simp only [rssAcc, jofRat_real]
  norm_num

/-- **C110.** `rmsprop(lr)`: decay 0.9, `eps` 1e-8, the averages start at 0; with `centered` the square of the mean is subtracted. -/
theorem C110_rmsprop_form (lr : LR ℝ) :
    (rmspropD false lr).outs (mk σ p0) (hist σ g pp N) = .ok ((List.range N).map (fun n : ℕ => mk σ (fun k i =>
      -(lr.at n) * (g n k i / √(0.1 * geoSum 0.9 (fun j => g j k i ^ 2) (n + 1) + 1e-8))))) ∧
    (rmspropD true lr).outs (mk σ p0) (hist σ g pp N) = .ok ((List.range N).map (fun n : ℕ => mk σ (fun k i =>
      -(lr.at n) * (g n k i / √(0.1 * geoSum 0.9 (fun j => g j k i ^ 2) (n + 1) -
        (0.1 * geoSum 0.9 (fun j => g j k i) (n + 1)) ^ 2 + 1e-8))))) := by
  constructor
  · rw [zip_hist]
    refine (C55_rmsprop _ _ _ (by simp) _ lr _ _ _ false false).mpr ⟨(List.range N).map (fun n => mk σ (fun k i => g n k i / √(0.1 * geoSum 0.9 (fun j => g j k i ^ 2) (n + 1) + 1e-8))), ?_, ?_⟩
    · rw [← zip_hist]
      show (scaleByRms _ _ _).outs _ _ = _
      rw [GT.outs, C24_rms σ p0 g pp N]
      refine congrArg _ (map_range_congr σ fun n _ k i => ?_)
      simp only [rmsAcc, jofRat_real]
      norm_num
    · exact (timesNegLR_hist lr σ _ N).symm
  · obtain ⟨W, M, V, hW, hM, hV, -, hWe⟩ := C25_stddev σ p0 g pp (JOps.ofRat (9 / 10)) (JOps.ofRat (1 / 10 ^ 8)) 0
      (by simp; norm_num) (by simp; norm_num) le_rfl
    rw [zip_hist]
    refine (C55_rmsprop _ _ _ (by simp) _ lr _ _ _ true false).mpr ⟨(List.range N).map (fun n => mk σ (fun k i => g n k i / √(0.1 * geoSum 0.9 (fun j => g j k i ^ 2) (n + 1) -
        (0.1 * geoSum 0.9 (fun j => g j k i) (n + 1)) ^ 2 + 1e-8))), ?_, ?_⟩
    · rw [← zip_hist]
      show (scaleByStddev _ _ _).outs _ _ = _
      rw [GT.outs, hW N]
      refine congrArg _ (map_range_congr σ fun n _ k i => ?_)
      rw [hWe, hM, hV]
      simp only [jofRat_real]
      norm_num
    · exact (timesNegLR_hist lr σ _ N).symm

/-- **C110.** `sgd(lr)`: minus the learning rate times the gradient (no momentum). -/
theorem C110_sgd_form (lr : LR ℝ) :
    (sgdD lr).outs (mk σ p0) (hist σ g pp N) = .ok ((List.range N).map (fun n => mk σ (fun k i => -(lr.at n) * g n k i))) := by
  rw [zip_hist]
  refine (C55_sgd_plain _ _ _ (by simp) _ lr false).mpr ?_
  exact (timesNegLR_hist lr σ g N).symm

/-- **C110.** `lamb(lr)`: no weight decay; the direction is that of adam with `eps` 1e-6, and every leaf with non-zero parameters and
non-zero direction moves by exactly `|lr| · ‖param‖`. -/
theorem C110_lamb_form (lr : LR ℝ) (hN : N ≤ 2147483647) :
    ∃ U : ℕ → ℕ → ℕ → ℝ,
      (lambD lr).outs (mk σ p0) (hist σ g (fun n => some (mk σ (p n))) N) = .ok ((List.range N).map (fun n => mk σ (U n))) ∧
      ∀ n < N, ∀ A : ℕ → ℕ → ℝ, (∀ k i, A k i = debiased 0.9 (fun j => g j k i) (n + 1) /
          (√(debiased 0.999 (fun j => g j k i ^ 2) (n + 1)) + 1e-6)) →
        ∀ k s, σ.leaves[k]? = some s → leafNorm σ (p n) k ≠ 0 → leafNorm σ A k ≠ 0 →
        leafNorm σ (U n) k = |lr.at n| * leafNorm σ (p n) k ∧ ∃ c > 0, ∀ i < s.prod, U n k i = -(lr.at n) * (c * A k i) := by
  obtain ⟨A, U, hA, hU, h, _⟩ := C53_lamb σ p0 g p N lr (JOps.ofRat (9 / 10)) (JOps.ofRat (999 / 1000)) (JOps.ofRat (1 / 10 ^ 6)) 0 0
  refine ⟨U, hU, fun n hn A' hA' k s hk h1 h2 => ?_⟩
  have e : ∀ i < s.prod, A n k i = A' k i := by
    intro i hi
    rw [GT.outs, C26_adam σ p0 g _ N _ _ _ _ hN] at hA
    have hA2 := congrArg (fun l => l[n]?) (Except.ok.inj hA)
    simp only [List.getElem?_map, List.getElem?_range hn, Option.map_some, Option.some.injEq] at hA2
    have := mk_inj hA2 k s hk i hi
    rw [← this, hA']
    simp only [jofRat_real, add_zero]
    norm_num
  have e2 : leafNorm σ (fun k i => A n k i + 0 * p n k i) k = leafNorm σ A' k := by
    rw [leafNorm_eq_l2, leafNorm_eq_l2]
    refine l2_congr _ ?_
    intro i hi
    simp [hk] at hi
    simp only [zero_mul, add_zero]
    exact e i (by rwa [Spec.size, hk] at hi)
  obtain ⟨h3, c, hc, h4⟩ := h n k h1 (by rw [e2]; exact h2)
  refine ⟨h3, c, hc, fun i hi => ?_⟩
  rw [h4 i, zero_mul, add_zero, e i hi]

/-- **C110.** `fromage(lr)` has `min_norm` 1e-6: the norm of a leaf after the step is at most
`(‖param‖ + lr · max(‖param‖, 1e-6)) / √(1 + lr²)`. -/
theorem C110_fromage_form (lr : ℝ) (hlr : 0 ≤ lr) (p g : ℕ → ℕ → ℝ) :
    ∃ s u q, (fromageD lr).init (mk σ p0) = .ok s ∧
      (fromageD lr).update (mk σ g) s (some (mk σ p)) = .ok (mk σ u, s) ∧ applyUpdates (mk σ p) (mk σ u) = .ok (mk σ q) ∧
      ∀ k, leafNorm σ q k ≤ (leafNorm σ p k + lr * max (leafNorm σ p k) 1e-6) / √(1 + lr ^ 2) := by
  obtain ⟨s, u, q, h1, h2, h3, h4⟩ := C54_fromage_min_norm σ p0 lr (JOps.ofRat (1 / 10 ^ 6)) hlr (by simp) p g
  refine ⟨s, u, q, h1, h2, h3, fun k => (h4 k).trans (le_of_eq ?_)⟩
  simp only [jofRat_real]
  norm_num

/-- **C110.** `radam(lr)`: decay rates 0.9 and 0.999, `eps` 1e-8, rectification from `ρ ≥ 5` on, `ρ∞ = 1999`. -/
theorem C110_radam_form (lr : LR ℝ) (hN : N < 2 ^ 30) :
    (radamD lr).outs (mk σ p0) (hist σ g pp N) = .ok ((List.range N).map (fun n : ℕ => mk σ (fun k i =>
      let ρ : ℝ := 1999 - 2 * (n + 1) * 0.999 ^ (n + 1) / (1 - 0.999 ^ (n + 1));
      let mhat : ℝ := debiased 0.9 (fun j => g j k i) (n + 1);
      -(lr.at n) * (if 5 ≤ ρ then √((ρ - 4) * (ρ - 2) * 1999 / (1995 * 1997 * ρ)) * mhat /
        (√(debiased 0.999 (fun j => g j k i ^ 2) (n + 1)) + 1e-8) else mhat)))) := by
  obtain ⟨U, ro, r, hU, hro, -, hrec, hmom, -⟩ := C30_radam_partial σ p0 g pp N (JOps.ofRat (9 / 10)) (JOps.ofRat (999 / 1000))
    (JOps.ofRat (1 / 10 ^ 8)) 0 (JOps.ofRat 5) (by simp) (by simp; norm_num) (by simp; norm_num) hN
  refine (outs_chain_hist_lr _ lr _ σ g U pp N hU).trans ?_
  refine congrArg _ (map_range_congr σ fun n hn k i => ?_)
  have hρ : ro n = 1999 - 2 * (n + 1) * 0.999 ^ (n + 1) / (1 - 0.999 ^ (n + 1)) := by
    rw [hro n hn]
    simp only [jofRat_real]
    norm_num
  have e1 : (JOps.ofRat (9 / 10) : ℝ) = 0.9 := by simp; norm_num
  have e2 : (JOps.ofRat (999 / 1000) : ℝ) = 0.999 := by simp; norm_num
  have e3 : (JOps.ofRat (1 / 10 ^ 8) : ℝ) = 1e-8 := by simp; norm_num
  have e5 : (JOps.ofRat 5 : ℝ) = 5 := by simp
  simp only [← hρ]
  rcases le_or_gt (5 : ℝ) (ro n) with h | h
  · obtain ⟨-, -, hr, he⟩ := hrec n hn (by rw [e5]; exact h)
    rw [if_pos h, he k i, hr, e1, e2, e3, add_zero]
    norm_num
  · rw [if_neg (not_le.mpr h), hmom n hn (by rw [e5]; exact h) k i, e1]

/-- **C110.** `sm3(lr)`: momentum 0.9, `eps` 1e-8 (leaves of rank at least one). -/
theorem C110_sm3_form (lr : ℝ) (hσ : ∀ s ∈ σ.leaves, s ≠ [] ∧ ∀ d ∈ s, 0 < d) :
    ∃ (M : ℕ → ℕ → ℕ → ℕ → ℝ) (acc : ℕ → ℕ → ℕ → ℝ),
      (∀ k s, σ.leaves[k]? = some s → SM3Leaf 1 s (fun t j => g t k j) (fun t => M t k) (fun t => acc t k)) ∧
      (sm3D lr).outs (mk σ p0) (hist σ g pp N) = .ok ((List.range N).map (fun n : ℕ => mk σ (fun k i =>
        -lr * (0.1 * geoSum 0.9 (fun t => if 0 < acc t k i then g t k i / √(acc t k i + 1e-8) else 0) (n + 1))))) := by
  obtain ⟨M, acc, hL, h⟩ := C35_recursion σ hσ (JOps.ofRat (9 / 10)) 1 (JOps.ofRat (1 / 10 ^ 8)) p0 g pp
  refine ⟨M, acc, hL, ?_⟩
  obtain ⟨ν, hν⟩ := h N
  refine (outs_chain_hist_lr _ (.scalar lr) _ σ g _ pp N (by rw [GT.outs, hν]; rfl)).trans ?_
  refine congrArg _ (map_range_congr σ fun n _ k i => ?_)
  simp only [LR.at]
  congr 1
  have e1 : (JOps.ofRat (9 / 10) : ℝ) = 0.9 := by simp; norm_num
  have e3 : (JOps.ofRat (1 / 10 ^ 8) : ℝ) = 1e-8 := by simp; norm_num
  rw [e1, e3]
  have : (1 : ℝ) - 0.9 = 0.1 := by norm_num
  rw [this]
  congr 1
  unfold geoSum
  refine Finset.sum_congr rfl (fun t _ => ?_)
  congr 1
  beta_reduce
  split <;> simp [div_eq_mul_inv]

theorem yogi_first (x : ℕ → ℕ → ℝ) (q : Option (Params ℝ)) (b1 b2 eps er a : ℝ) :
    (scaleByYogi b1 b2 eps er a).outs (mk σ p0) (hist σ (fun _ => x) (fun _ => q) 1) = .ok ((List.range 1).map (fun _ => mk σ (fun k i =>
      (((1 - b1) * ipow (x k i) 1 + b1 * a) / (1 - JOps.pow b1 (cnt (safeInt32Increment 0#32)))) /
          (JOps.sqrt (((1 - b2) * ipow (JOps.sign (a - ipow (x k i) 2) * ipow (x k i) 2) 2 + b2 * a) /
            (1 - JOps.pow b2 (cnt (safeInt32Increment 0#32))) + er) + eps)))) := by
  apply outs_of_exec (s := AdamState.mk (safeInt32Increment 0#32) _ _)
  rw [GT.exec, yogi_init_mk]
  have e : hist σ (fun _ => x) (fun _ => q) 1 = [(mk σ x, q)] := rfl
  rw [e, Res.ok_bind, GT.run]
  refine (congrArg (· >>= _) (yogi_update_mk σ x (fun _ _ => a) (fun _ _ => a) q b1 b2 eps er a 0#32)).trans ?_
  rfl

/-- **C110 (finding).** `yogi(lr)`: both averages start at 1e-6 and both are de-biased as if they started at 0, so the very first step
of an entry with gradient `x` (`x² ≠ 1e-6`) is `-lr · (x + 9e-6) / (√(x⁴ + 9.99e-4) + 1e-3)`: an entry with zero gradient moves. -/
theorem C110_yogi_first (lr : LR ℝ) (x : ℕ → ℕ → ℝ) (hx : ∀ k i, x k i ^ 2 ≠ 1e-6) (q : Option (Params ℝ)) :
    ∃ U, (yogiD lr).outs (mk σ p0) [(mk σ x, q)] = .ok [mk σ U] ∧
      ∀ k i, U k i = -(lr.at 0) * ((x k i + 9e-6) / (√(x k i ^ 4 + 9.99e-4) + 1e-3)) := by
  refine ⟨fun k i => -(lr.at 0) * ((x k i + 9e-6) / (√(x k i ^ 4 + 9.99e-4) + 1e-3)), ?_, fun _ _ => rfl⟩
  have h := yogi_first σ p0 x q (JOps.ofRat (9 / 10)) (JOps.ofRat (999 / 1000)) (JOps.ofRat (1 / 10 ^ 3)) 0 (JOps.ofRat (1 / 10 ^ 6))
  refine (outs_chain_hist_lr _ lr (mk σ p0) σ (fun _ => x) (fun _ => _) (fun _ => q) 1 h).trans ?_
  show Except.ok ((List.range 1).map _) = Except.ok ((List.range 1).map (fun n : ℕ => mk σ (fun k i => -(lr.at 0) * ((x k i + 9e-6) / (√(x k i ^ 4 + 9.99e-4) + 1e-3)))))
  refine congrArg Except.ok (map_range_congr σ (N := 1) (B := fun _ k i => _) fun n hn k i => ?_)
  obtain rfl : n = 0 := by omega
  have hc : (cnt (safeInt32Increment 0#32) : ℝ) = 1 := by
    have := cnt_cntAt' 1
    have e : safeInt32Increment 0#32 = cntAt 1 := by rw [← safeInt32Increment_cntAt, cntAt_zero]
    rw [e]
    simpa using this
  have e6 : (JOps.ofRat (1 / 10 ^ 6) : ℝ) = 1e-6 := by simp; norm_num
  have hs : ipow (JOps.sign ((JOps.ofRat (1 / 10 ^ 6) : ℝ) - ipow (x k i) 2) * ipow (x k i) 2) 2 = x k i ^ 4 := by
    rw [e6, ipow_eq_pow, ipow_eq_pow, jsign_real]
    rcases lt_or_gt_of_ne (hx k i) with h1 | h1
    · rw [if_neg (by linarith), if_pos (by linarith)]; ring
    · rw [if_pos (by linarith)]; ring
  rw [hs, hc]
  simp only [jofRat_real, jpow_real, jsqrt_real, Real.rpow_one, ipow_eq_pow]
  congr 2
  · norm_num; ring
  · have e3 : ((1 / 10 ^ 3 : ℚ) : ℝ) = 1e-3 := by norm_num
    rw [e3]
    congr 2
    norm_num
    ring

/-- **C110 (finding).** With `yogi(lr)` an entry whose gradient is zero is moved by the first step (against the sign of the rate). -/
theorem C110_yogi_drifts (lr : LR ℝ) (h : 0 < lr.at 0) (q : Option (Params ℝ)) :
    ∃ U, (yogiD lr).outs (mk σ p0) [(mk σ (fun _ _ => 0), q)] = .ok [mk σ U] ∧ ∀ k i, U k i < 0 := by
  obtain ⟨U, h1, h2⟩ := C110_yogi_first σ p0 lr (fun _ _ => 0) (fun _ _ => by norm_num) q
  refine ⟨U, h1, fun k i => ?_⟩
  rw [h2 k i]
  have : 0 < ((0 : ℝ) + 9e-6) / (√((0 : ℝ) ^ 4 + 9.99e-4) + 1e-3) := by positivity
  nlinarith

/-- the hypotheses are met: one matrix and one vector, gradients 1, rate 0.1, 100 steps -/
example : (∀ s ∈ (PyTree.node .list [.leaf [2, 3], .leaf [4]] : Spec).leaves, s ≠ [] ∧ ∀ d ∈ s, 0 < d) ∧ (100 : ℕ) ≤ 2147483647 ∧
    (100 : ℕ) < 2 ^ 30 ∧ (∀ _ _ : ℕ, (1 : ℝ) ^ 2 ≠ 1e-6) ∧ 0 < (LR.scalar (0.1 : ℝ)).at 0 := by
  refine ⟨by simp [PyTree.leaves, PyTree.leavesL], by norm_num, by norm_num, fun _ _ => by norm_num, ?_⟩
  simp only [LR.at]; norm_num

end Optax
