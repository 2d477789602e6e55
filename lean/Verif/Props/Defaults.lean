import Verif.Model.Defaults
import Verif.Props.Adam
import Verif.Props.SM3
import Verif.Props.AliasReal

/-!
# C110: how far one step moves, with the default hyper-parameters
-/

set_option linter.unusedSectionVars false
set_option linter.unusedSimpArgs false

namespace Optax
open Finset

/-- whatever the gradients, parameters, tree and learning rates: no entry of the `n`-th update exceeds `K` times the learning rate
of that step -/
def StepsAtMost (t : LR ℝ → GT ℝ) (K : ℝ) : Prop :=
  ∀ (lr : LR ℝ) (σ : Spec) (p0 : ℕ → ℕ → ℝ) (g : ℕ → ℕ → ℕ → ℝ) (pp : ℕ → Option (Params ℝ)) (N : ℕ),
    ∃ U : ℕ → ℕ → ℕ → ℝ, (t lr).outs (mk σ p0) (hist σ g pp N) = .ok ((List.range N).map (fun n => mk σ (U n))) ∧
      ∀ n < N, ∀ k i, |U n k i| ≤ K * |lr.at n|

theorem neg_lr_bound (l x K : ℝ) (h : |x| ≤ K) : |(-l) * x| ≤ K * |l| := by
  rw [abs_mul, abs_neg, mul_comm]
  exact mul_le_mul_of_nonneg_right h (abs_nonneg _)

/-- **C110.** With their default hyper-parameters: `adam` never moves an entry by more than 73 times the learning rate, `adagrad` by more than
the learning rate, `rmsprop` by more than 3.17 times the learning rate. -/
theorem C110_bounded :
    StepsAtMost adamD 73 ∧ StepsAtMost adagradD 1 ∧ StepsAtMost (rmspropD false) (317 / 100) := by
  refine ⟨?_, ?_, ?_⟩
  · intro lr σ p0 g pp N
    obtain ⟨U, hU, hb⟩ := C27_bounded_forever σ p0 g pp N (JOps.ofRat (9 / 10)) (JOps.ofRat (999 / 1000)) (JOps.ofRat (1 / 10 ^ 8)) 0
      (by simp; norm_num) (by simp; norm_num) (by simp; norm_num) (by simp) le_rfl
    refine ⟨_, outs_chain_hist_lr _ lr _ σ g U pp N hU, fun n _ k i => neg_lr_bound _ _ _ ((hb n k i).trans ?_)⟩
    rw [div_le_iff₀ (Real.sqrt_pos.mpr (by simp; norm_num)), ← div_le_iff₀' (by norm_num)]
    apply Real.le_sqrt_of_sq_le
    simp
    norm_num
  · intro lr σ p0 g pp N
    obtain ⟨U, A, hU, -, hb, -⟩ := C23_bounds σ p0 g pp (JOps.ofRat (1 / 10)) (JOps.ofRat (1 / 10 ^ 7)) (by simp) (by simp)
    refine ⟨_, outs_chain_hist_lr _ lr _ σ g U pp N ?_, fun n _ k i => neg_lr_bound _ _ _ (hb n k i)⟩
    rw [GT.outs, hU N]; rfl
  · intro lr σ p0 g pp N
    obtain ⟨U, A, hU, -, -, hb⟩ := C24_bounds σ p0 g pp (JOps.ofRat (9 / 10)) (JOps.ofRat (1 / 10 ^ 8)) 0 (by simp; norm_num)
      (by simp; norm_num) le_rfl (by simp)
    refine ⟨fun n k i => -(lr.at n) * U n k i, ?_, fun n _ k i => neg_lr_bound _ _ _ ((hb n k i).trans ?_)⟩
    · rw [zip_hist]
      refine (C55_rmsprop _ _ _ (by simp) _ lr _ _ _ false false).mpr ⟨(List.range N).map (fun n => mk σ (U n)), ?_, (timesNegLR_hist lr σ U N).symm⟩
      rw [← zip_hist]
      show (scaleByRms _ _ _).outs _ _ = _
      rw [GT.outs, hU N]; rfl
    · rw [div_le_iff₀ (Real.sqrt_pos.mpr (by simp; norm_num)), ← div_le_iff₀' (by norm_num)]
      apply Real.le_sqrt_of_sq_le
      simp
      norm_num

/-- … `sm3` (leaves of rank at least one) never moves an entry by more than the learning rate. -/
theorem C110_sm3 (lr : ℝ) (σ : Spec) (hσ : ∀ s ∈ σ.leaves, s ≠ [] ∧ ∀ d ∈ s, 0 < d) (p0 : ℕ → ℕ → ℝ) (g : ℕ → ℕ → ℕ → ℝ)
    (pp : ℕ → Option (Params ℝ)) (N : ℕ) :
    ∃ U : ℕ → ℕ → ℕ → ℝ, (sm3D lr).outs (mk σ p0) (hist σ g pp N) = .ok ((List.range N).map (fun n => mk σ (U n))) ∧
      ∀ n k s, σ.leaves[k]? = some s → ∀ i < s.prod, |U n k i| ≤ |lr| := by
  obtain ⟨M, acc, hM, hb⟩ := C35_dominates σ hσ (JOps.ofRat (9 / 10)) (JOps.ofRat (1 / 10 ^ 8)) p0 g pp
  obtain ⟨ν, hν⟩ := hM N
  refine ⟨_, outs_chain_hist_lr (scaleBySM3 (JOps.ofRat (9 / 10)) 1 (JOps.ofRat (1 / 10 ^ 8))) (.scalar lr) _ σ g _ pp N
    (by rw [GT.outs, hν]; rfl), fun n k s hs i hi => ?_⟩
  have hle := (hb k s hs).1
  have hx : ∀ t, |g t k i * (if 0 < acc t k i then 1 / Real.sqrt (acc t k i + JOps.ofRat (1 / 10 ^ 8)) else 0)| ≤ 1 := by
    intro t
    split_ifs with h0
    · have h1 : g t k i ^ 2 ≤ acc t k i :=
        (Finset.single_le_sum (f := fun τ => g τ k i ^ 2) (fun _ _ => sq_nonneg _) (Finset.self_mem_range_succ t)).trans (hle t i hi)
      have hε : (0 : ℝ) ≤ JOps.ofRat (1 / 10 ^ 8) := by simp
      have h2 : |g t k i| ≤ Real.sqrt (acc t k i + JOps.ofRat (1 / 10 ^ 8)) := by
        apply Real.le_sqrt_of_sq_le
        rw [sq_abs]
        linarith
      have h3 : 0 < Real.sqrt (acc t k i + JOps.ofRat (1 / 10 ^ 8)) := Real.sqrt_pos.mpr (by linarith)
      rw [mul_one_div, abs_div, abs_of_pos h3, div_le_one h3]
      exact h2
    · simp
  have hd0 : (0 : ℝ) ≤ JOps.ofRat (9 / 10) := by simp; norm_num
  have hd1 : (JOps.ofRat (9 / 10) : ℝ) ≤ 1 := by simp; norm_num
  have key : |(1 - (JOps.ofRat (9 / 10) : ℝ)) * geoSum (JOps.ofRat (9 / 10)) (fun t => g t k i *
      (if 0 < acc t k i then 1 / Real.sqrt (acc t k i + JOps.ofRat (1 / 10 ^ 8)) else 0)) (n + 1)| ≤ 1 := by
    rw [abs_mul, abs_of_nonneg (by linarith)]
    have h1 : |geoSum (JOps.ofRat (9 / 10)) (fun t => g t k i *
        (if 0 < acc t k i then 1 / Real.sqrt (acc t k i + JOps.ofRat (1 / 10 ^ 8)) else 0)) (n + 1)| ≤
        geoSum (JOps.ofRat (9 / 10)) (fun _ => 1) (n + 1) := by
      unfold geoSum
      refine (Finset.abs_sum_le_sum_abs _ _).trans (Finset.sum_le_sum fun j _ => ?_)
      rw [abs_mul, abs_of_nonneg (pow_nonneg hd0 _)]
      exact mul_le_mul_of_nonneg_left (hx j) (pow_nonneg hd0 _)
    refine (mul_le_mul_of_nonneg_left h1 (by linarith)).trans ?_
    rw [geoSum_const_one]
    have := pow_nonneg hd0 (n + 1)
    linarith
  have := neg_lr_bound lr _ 1 key
  rw [one_mul] at this
  exact this

/-- … `radam` (fewer than `2^30` steps, gradients bounded by `B`): by no more than `max B 73` times the learning rate; the first steps
are those of plain momentum. -/
theorem C110_radam (lr : LR ℝ) (σ : Spec) (p0 : ℕ → ℕ → ℝ) (g : ℕ → ℕ → ℕ → ℝ) (B : ℝ) (hB : ∀ n k i, |g n k i| ≤ B)
    (pp : ℕ → Option (Params ℝ)) (N : ℕ) (hN : N < 2 ^ 30) :
    ∃ U : ℕ → ℕ → ℕ → ℝ, (radamD lr).outs (mk σ p0) (hist σ g pp N) = .ok ((List.range N).map (fun n => mk σ (U n))) ∧
      ∀ n < N, ∀ k i, |U n k i| ≤ max B 73 * |lr.at n| := by
  have hd0 : (0 : ℝ) ≤ JOps.ofRat (9 / 10) := by simp; norm_num
  have hd1 : (JOps.ofRat (9 / 10) : ℝ) < 1 := by simp; norm_num
  obtain ⟨U, ro, r, hU, -, -, hrec, hmom, -⟩ := C30_radam_partial σ p0 g pp N (JOps.ofRat (9 / 10)) (JOps.ofRat (999 / 1000))
    (JOps.ofRat (1 / 10 ^ 8)) 0 (JOps.ofRat 5) (by simp) (by simp; norm_num) (by simp; norm_num) hN
  refine ⟨_, outs_chain_hist_lr _ lr _ σ g U pp N hU, fun n hn k i => neg_lr_bound _ _ _ ?_⟩
  rcases le_or_gt (JOps.ofRat 5) (ro n) with h | h
  · obtain ⟨hr0, hr1, -, he⟩ := hrec n hn h
    rw [he k i, mul_div_assoc, abs_mul, abs_of_nonneg hr0]
    have h1 := (adam_ratio_le hd0 hd1 (b2 := (JOps.ofRat (999 / 1000) : ℝ)) (by simp) (by simp; norm_num)
      (eps := (JOps.ofRat (1 / 10 ^ 8) : ℝ)) (er := 0) (by simp) le_rfl (fun j => g j k i) n).trans
        (adamBound_le hd0 (by simp; norm_num) (by simp; norm_num) n)
    have h2 := mul_le_mul hr1 h1 (abs_nonneg _) zero_le_one
    refine (h2.trans ?_).trans (le_max_right _ _)
    rw [one_mul, div_le_iff₀ (Real.sqrt_pos.mpr (by simp; norm_num)), ← div_le_iff₀' (by norm_num)]
    apply Real.le_sqrt_of_sq_le
    simp
    norm_num
  · rw [hmom n hn h k i]
    exact (debiased_abs_le hd0 hd1 _ n B (fun j _ => hB j k i)).trans (le_max_left _ _)

/-! ## Optimisers without such a bound -/

theorem geoSum_pow (b c : ℝ) (n : ℕ) : geoSum b (fun j => c ^ j) n * (b - c) = b ^ n - c ^ n := by
  induction n with
  | zero => simp
  | succ n ih =>
    rw [geoSum_succ, add_mul, mul_assoc, ih]
    ring

/-- the updates of `scale_by_belief` when every gradient is 1 -/
theorem belief_constant (b1 b2 eps er : ℝ) (h1 : 0 ≤ b1) (h1' : b1 < 1) (hne : b2 ≠ b1 ^ 2) (σ : Spec) (p0 : ℕ → ℕ → ℝ)
    (pp : ℕ → Option (Params ℝ)) (N : ℕ) (hN : N ≤ 2147483647) :
    (scaleByBelief b1 b2 eps er).outs (mk σ p0) (hist σ (fun _ _ _ => 1) pp N) =
      .ok ((List.range N).map (fun n => mk σ (fun _ _ =>
        1 / (Real.sqrt ((1 - b2) * ((b2 ^ (n + 1) - (b1 ^ 2) ^ (n + 1)) / (b2 - b1 ^ 2)) / (1 - b2 ^ (n + 1)) + er) + eps)))) := by
  obtain ⟨W, M, V, hW, hM, hV, hWe⟩ := C28_belief σ p0 (fun _ _ _ => 1) pp b1 b2 eps er
  rw [GT.outs, hW N hN]
  show Except.ok _ = _
  congr 1
  apply List.map_congr_left
  intro n _
  apply mk_congr
  intro k _ _ i _
  have hM' : ∀ n, M n k i = 1 - b1 ^ n := fun n => by rw [hM n k i, geoSum_const_one]
  have hV' : V (n + 1) k i = (1 - b2) * ((b2 ^ (n + 1) - (b1 ^ 2) ^ (n + 1)) / (b2 - b1 ^ 2)) := by
    rw [hV (n + 1) k i, ← geoSum_pow b2 (b1 ^ 2), mul_div_assoc, div_self (sub_ne_zero.mpr hne), mul_one]
    congr 2
    funext j
    rw [hM' j]
    ring
  have hp := one_sub_pow_pos h1 h1' (n := n + 1) (by omega)
  rw [hWe n k i, hM', hV', div_self hp.ne']

/-- **C110 (finding).** `adabelief` with its defaults: when every gradient is 1 the predicted gradient converges to the gradient, the second
moment to 0, and the update to `lr / (eps + √eps_root)`: after 60000 steps one step is more than 40 million times the learning rate. -/
theorem C110_adabelief_unbounded : ¬ StepsAtMost adabeliefD 40000000 := by
  intro h
  obtain ⟨n, hn⟩ : ∃ n : ℕ, n = 59999 := ⟨_, rfl⟩
  have hsmall : ((999 : ℝ) / 1000) ^ (n + 1) ≤ 1 / 2 ^ 60 := by
    obtain ⟨m, hm⟩ : ∃ m : ℕ, m = 1000 := ⟨_, rfl⟩
    have hm' : (m : ℝ) = 1000 := by rw [hm]; norm_num
    have e : ((999 : ℝ) / 1000) ^ m ≤ 1 / 2 := by
      have hbern := one_add_mul_le_pow (show (-2 : ℝ) ≤ 1 / 999 by norm_num) m
      have e1 : ((999 : ℝ) / 1000) = (1 + 1 / 999)⁻¹ := by norm_num
      rw [e1, inv_pow]
      have : (2 : ℝ) ≤ (1 + 1 / 999) ^ m := le_trans (by rw [hm']; norm_num) hbern
      have h2 := inv_anti₀ (by norm_num) this
      rwa [← one_div (2 : ℝ)] at h2
    have e2 : n + 1 = m * 60 := by omega
    calc ((999 : ℝ) / 1000) ^ (n + 1) = (((999 : ℝ) / 1000) ^ m) ^ 60 := by rw [e2, pow_mul]
      _ ≤ (1 / 2) ^ 60 := pow_le_pow_left₀ (by positivity) e 60
      _ = _ := by rw [one_div_pow]
  have hN : n + 1 ≤ 2147483647 := by omega
  clear hn
  obtain ⟨U, hU, hb⟩ := h (.scalar 1) (.leaf []) (fun _ _ => 0) (fun _ _ _ => 1) (fun _ => none) (n + 1)
  have h1 := outs_chain_hist_lr (scaleByBelief (JOps.ofRat (9 / 10)) (JOps.ofRat (999 / 1000)) (JOps.ofRat (1 / 10 ^ 8))
    (JOps.ofRat (1 / 10 ^ 16))) (.scalar 1) (mk (.leaf []) (fun _ _ => (0 : ℝ))) (.leaf []) (fun _ _ _ => 1) _ (fun _ => none) (n + 1)
    (belief_constant _ _ _ _ (by simp; norm_num) (by simp; norm_num) (by simp; norm_num) _ _ _ _ hN)
  have h2 := hU.symm.trans h1
  injection h2 with h2
  have h3 := List.map_inj_left.mp h2 n (List.mem_range.mpr (by omega))
  have h4 := mk_inj h3 0 [] rfl 0 (by simp)
  have hb' := hb n (by omega) 0 0
  rw [h4] at hb'
  have e1 : (JOps.ofRat (9 / 10) : ℝ) = 9 / 10 := by simp
  have e2 : (JOps.ofRat (999 / 1000) : ℝ) = 999 / 1000 := by simp
  have e3 : (JOps.ofRat (1 / 10 ^ 8) : ℝ) = 1 / 10 ^ 8 := by simp
  have e4 : (JOps.ofRat (1 / 10 ^ 16) : ℝ) = 1 / 10 ^ 16 := by simp
  have e5 : LR.at (.scalar (1 : ℝ)) n = 1 := rfl
  rw [e1, e2, e3, e4, e5, abs_one, mul_one, neg_one_mul, abs_neg] at hb'
  have hX0 : (0 : ℝ) ≤ (999 / 1000) ^ (n + 1) := by positivity
  have hY0 : (0 : ℝ) ≤ ((9 / 10 : ℝ) ^ 2) ^ (n + 1) := by positivity
  generalize ((999 : ℝ) / 1000) ^ (n + 1) = X at *
  generalize ((9 / 10 : ℝ) ^ 2) ^ (n + 1) = Y at *
  have hX1 : X ≤ 1 / 10 ^ 18 := hsmall.trans (by norm_num)
  have hr : (1 - 999 / 1000 : ℝ) * ((X - Y) / (999 / 1000 - (9 / 10) ^ 2)) / (1 - X) + 1 / 10 ^ 16 ≤ (11 / 10 ^ 9) ^ 2 := by
    have : (1 - 999 / 1000 : ℝ) * ((X - Y) / (999 / 1000 - (9 / 10) ^ 2)) / (1 - X) ≤ 1 / 10 ^ 17 := by
      have h5 : (X - Y) / (999 / 1000 - (9 / 10 : ℝ) ^ 2) ≤ 10 * X := by
        rw [div_le_iff₀ (by norm_num)]
        linarith
      rw [div_le_iff₀ (by linarith)]
      linarith
    linarith
  have hs := Real.sqrt_le_sqrt hr
  rw [Real.sqrt_sq (by norm_num)] at hs
  have hs0 := Real.sqrt_nonneg ((1 - 999 / 1000 : ℝ) * ((X - Y) / (999 / 1000 - (9 / 10) ^ 2)) / (1 - X) + 1 / 10 ^ 16)
  generalize Real.sqrt ((1 - 999 / 1000 : ℝ) * ((X - Y) / (999 / 1000 - (9 / 10) ^ 2)) / (1 - X) + 1 / 10 ^ 16) = S at *
  rw [abs_of_pos (by positivity), div_le_iff₀ (by positivity)] at hb'
  linarith

/-- the updates of `scale_by_stddev` when every gradient is 1 and the accumulators start at 0 -/
theorem stddev_constant (d eps : ℝ) (h0 : 0 ≤ d) (h1 : d ≤ 1) (σ : Spec) (p0 : ℕ → ℕ → ℝ) (pp : ℕ → Option (Params ℝ)) (N : ℕ) :
    (scaleByStddev d eps 0).outs (mk σ p0) (hist σ (fun _ _ _ => 1) pp N) =
      .ok ((List.range N).map (fun n => mk σ (fun _ _ => 1 / Real.sqrt ((1 - d ^ (n + 1)) * d ^ (n + 1) + eps)))) := by
  obtain ⟨U, M, V, hW, hM, hV, -, hU⟩ := C25_stddev σ p0 (fun _ _ _ => 1) pp d eps 0 h0 h1 le_rfl
  rw [GT.outs, hW N]
  show Except.ok _ = _
  congr 1
  apply List.map_congr_left
  intro n _
  apply mk_congr
  intro k _ _ i _
  have e : (fun _ : ℕ => (1 : ℝ) ^ 2) = fun _ => 1 := by funext _; norm_num
  rw [hU n k i, hM, hV, e, geoSum_const_one]
  congr 2
  ring

/-- **C110 (finding).** `rmsprop(lr, centered=True)` with its defaults: when every gradient is 1 the variance estimate converges to 0 and the update
to `lr / √eps`: one step reaches more than 9000 times the learning rate. -/
theorem C110_centered_unbounded : ¬ StepsAtMost (rmspropD true) 9000 := by
  intro h
  obtain ⟨n, hn⟩ : ∃ n : ℕ, n = 209 := ⟨_, rfl⟩
  have hsmall : ((9 : ℝ) / 10) ^ (n + 1) ≤ 1 / 10 ^ 9 := by
    have e2 : n + 1 = 7 * 30 := by omega
    calc ((9 : ℝ) / 10) ^ (n + 1) = (((9 : ℝ) / 10) ^ 7) ^ 30 := by rw [e2, pow_mul]
      _ ≤ (1 / 2) ^ 30 := pow_le_pow_left₀ (by positivity) (by norm_num) 30
      _ ≤ _ := by norm_num
  have hN : n + 1 ≤ 2147483647 := by omega
  clear hn
  obtain ⟨U, hU, hb⟩ := h (.scalar 1) (.leaf []) (fun _ _ => 0) (fun _ _ _ => 1) (fun _ => none) (n + 1)
  rw [zip_hist] at hU
  obtain ⟨mid, hmid, hout⟩ := (C55_rmsprop _ _ _ (by simp) _ (.scalar 1) _ _ _ true false).mp hU
  rw [← zip_hist] at hmid
  have hm2 := (stddev_constant (JOps.ofRat (9 / 10)) (JOps.ofRat (1 / 10 ^ 8)) (by simp; norm_num) (by simp; norm_num) (.leaf [])
      (fun _ _ => 0) (fun _ => none) (n + 1)).symm.trans hmid
  injection hm2 with hm2
  rw [← hm2, timesNegLR_hist] at hout
  have h3 := List.map_inj_left.mp hout n (List.mem_range.mpr (by omega))
  have h4 := mk_inj h3 0 [] rfl 0 (by simp)
  have hb' := hb n (by omega) 0 0
  rw [h4] at hb'
  have e1 : (JOps.ofRat (9 / 10) : ℝ) = 9 / 10 := by simp
  have e3 : (JOps.ofRat (1 / 10 ^ 8) : ℝ) = 1 / 10 ^ 8 := by simp
  have e5 : LR.at (.scalar (1 : ℝ)) n = 1 := rfl
  rw [e1, e3, e5, abs_one, mul_one, neg_one_mul, abs_neg] at hb'
  have hX0 : (0 : ℝ) ≤ (9 / 10) ^ (n + 1) := by positivity
  generalize ((9 : ℝ) / 10) ^ (n + 1) = X at *
  have hr : (1 - X) * X + 1 / 10 ^ 8 ≤ (11 / 10 ^ 5) ^ 2 := by nlinarith
  have hs := Real.sqrt_le_sqrt hr
  rw [Real.sqrt_sq (by norm_num)] at hs
  have hs0 : 0 < Real.sqrt ((1 - X) * X + 1 / 10 ^ 8) := Real.sqrt_pos.mpr (by nlinarith)
  generalize Real.sqrt ((1 - X) * X + 1 / 10 ^ 8) = S at *
  rw [abs_of_pos (by positivity), div_le_iff₀ hs0] at hb'
  linarith

/-- **C110 (what remains).** For gradients bounded by `B`: `adabelief` moves no entry by more than `5·10⁷ B` times the learning rate, centered
`rmsprop` by more than `10⁴ B` times; by the two findings these cannot be improved beyond small factors. -/
theorem C110_fallback (lr : LR ℝ) (σ : Spec) (p0 : ℕ → ℕ → ℝ) (g : ℕ → ℕ → ℕ → ℝ) (B : ℝ) (hB : ∀ n k i, |g n k i| ≤ B)
    (pp : ℕ → Option (Params ℝ)) (N : ℕ) (hN : N ≤ 2147483647) :
    ∃ U W : ℕ → ℕ → ℕ → ℝ,
      (adabeliefD lr).outs (mk σ p0) (hist σ g pp N) = .ok ((List.range N).map (fun n => mk σ (U n))) ∧
      (rmspropD true lr).outs (mk σ p0) (hist σ g pp N) = .ok ((List.range N).map (fun n => mk σ (W n))) ∧
      ∀ n k i, |U n k i| ≤ 5 * 10 ^ 7 * B * |lr.at n| ∧ |W n k i| ≤ 10 ^ 4 * B * |lr.at n| := by
  have hd0 : (0 : ℝ) ≤ JOps.ofRat (9 / 10) := by simp; norm_num
  have hd1 : (JOps.ofRat (9 / 10) : ℝ) < 1 := by simp; norm_num
  have hB0 : 0 ≤ B := (abs_nonneg _).trans (hB 0 0 0)
  obtain ⟨U, M, V, hU, hM, hV, hUe⟩ := C28_belief σ p0 g pp (JOps.ofRat (9 / 10)) (JOps.ofRat (999 / 1000)) (JOps.ofRat (1 / 10 ^ 8))
    (JOps.ofRat (1 / 10 ^ 16))
  obtain ⟨W, M', V', hW, -, -, hV', hWe⟩ := C25_stddev σ p0 g pp (JOps.ofRat (9 / 10)) (JOps.ofRat (1 / 10 ^ 8)) 0 hd0 hd1.le le_rfl
  refine ⟨fun n k i => -(lr.at n) * U n k i, fun n k i => -(lr.at n) * W n k i,
    outs_chain_hist_lr _ lr _ σ g U pp N (by rw [GT.outs, hU N hN]; rfl), ?_, fun n k i => ⟨neg_lr_bound _ _ _ ?_, neg_lr_bound _ _ _ ?_⟩⟩
  · rw [zip_hist]
    refine (C55_rmsprop _ _ _ (by simp) _ lr _ _ _ true false).mpr ⟨(List.range N).map (fun n => mk σ (W n)), ?_, (timesNegLR_hist lr σ W N).symm⟩
    rw [← zip_hist]
    show (scaleByStddev _ _ _).outs _ _ = _
    rw [GT.outs, hW N]; rfl
  · have hb2 : (0 : ℝ) ≤ JOps.ofRat (999 / 1000) := by simp; norm_num
    have hb2' : (JOps.ofRat (999 / 1000) : ℝ) < 1 := by simp; norm_num
    have hnum := debiased_abs_le hd0 hd1 (fun j => g j k i) n B (fun j _ => hB j k i)
    rw [debiased_eq, ← hM (n + 1) k i] at hnum
    have hvn : 0 ≤ V (n + 1) k i / (1 - (JOps.ofRat (999 / 1000) : ℝ) ^ (n + 1)) := by
      rw [hV]
      exact div_nonneg (mul_nonneg (by linarith) (geoSum_nonneg hb2 (fun j => sq_nonneg _) _)) (one_sub_pow_pos hb2 hb2' (by omega)).le
    rw [hUe n k i]
    have e3 : (JOps.ofRat (1 / 10 ^ 8) : ℝ) = 1 / 10 ^ 8 := by simp
    have e4 : (JOps.ofRat (1 / 10 ^ 16) : ℝ) = (1 / 10 ^ 8) ^ 2 := by simp; norm_num
    rw [e3, e4]
    generalize M (n + 1) k i / (1 - (JOps.ofRat (9 / 10) : ℝ) ^ (n + 1)) = a at *
    generalize V (n + 1) k i / (1 - (JOps.ofRat (999 / 1000) : ℝ) ^ (n + 1)) = v at *
    have hs : 1 / 10 ^ 8 ≤ Real.sqrt (v + (1 / 10 ^ 8) ^ 2) := Real.le_sqrt_of_sq_le (by linarith)
    have hpos : 0 < Real.sqrt (v + (1 / 10 ^ 8) ^ 2) + 1 / 10 ^ 8 := by positivity
    rw [abs_div, abs_of_pos hpos, div_le_iff₀ hpos]
    refine hnum.trans ?_
    have := mul_le_mul_of_nonneg_left (add_le_add_left hs (1 / 10 ^ 8)) (show 0 ≤ 5 * 10 ^ 7 * B by positivity)
    linarith
  · rw [hWe n k i]
    have e3 : (JOps.ofRat (1 / 10 ^ 8) : ℝ) = (1 / 10 ^ 4) ^ 2 := by simp; norm_num
    rw [e3]
    have hs : 1 / 10 ^ 4 ≤ Real.sqrt (V' (n + 1) k i - M' (n + 1) k i ^ 2 + (1 / 10 ^ 4) ^ 2) :=
      Real.le_sqrt_of_sq_le (by linarith [hV' (n + 1) k i])
    have hpos : 0 < Real.sqrt (V' (n + 1) k i - M' (n + 1) k i ^ 2 + (1 / 10 ^ 4) ^ 2) := lt_of_lt_of_le (by norm_num) hs
    rw [abs_div, abs_of_pos hpos, div_le_iff₀ hpos]
    refine (hB n k i).trans ?_
    have := mul_le_mul_of_nonneg_left hs (show 0 ≤ 10 ^ 4 * B by positivity)
    linarith

/-- the hypotheses are met: alternating gradients bounded by 1, on a tree with a matrix and a vector -/
example : (∀ n k i, |(fun (n _ _ : ℕ) => (-1 : ℝ) ^ n) n k i| ≤ 1) ∧
    ∀ s ∈ (PyTree.node .list [.leaf [2, 3], .leaf [4]] : Spec).leaves, s ≠ [] ∧ ∀ d ∈ s, 0 < d := by
  refine ⟨fun n _ _ => by simp, ?_⟩
  simp [PyTree.leaves, PyTree.leavesL]

end Optax
