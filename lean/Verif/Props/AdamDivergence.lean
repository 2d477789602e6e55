import Verif.Props.Adam
import Verif.Props.AdagradRegret
import Mathlib.Analysis.SpecificLimits.Normed
import Mathlib.Analysis.Convex.Function
import Mathlib.Analysis.Normed.Module.Convex
import Mathlib.Analysis.Calculus.Deriv.Add
import Mathlib.Analysis.Calculus.Deriv.Mul

/-!
# C102: Adam can run away from the minimiser of a convex problem, whatever its hyper-parameters
-/

set_option linter.unusedSectionVars false
set_option linter.unusedSimpArgs false
set_option linter.unusedVariables false

namespace Optax
open Finset Filter Topology

/-! ## The problem

A data set of `K` examples, visited cyclically.  Each loss is convex, Lipschitz and piecewise linear. -/

/-- the loss of the example used at step `n`, as a function of one parameter: `K·|x|` for the first example of the data set, `-x` for the others -/
noncomputable def rareLoss (K n : ℕ) (x : ℝ) : ℝ := if n % K = 0 then K * |x| else -x

/-- its (sub)gradient -/
noncomputable def rareGrad (K n : ℕ) (x : ℝ) : ℝ := if n % K = 0 then (if 0 < x then (K : ℝ) else -K) else -1

/-- the mean loss of the data set -/
noncomputable def rareMean (K : ℕ) (x : ℝ) : ℝ := (∑ n ∈ range K, rareLoss K n x) / K

theorem rareMean_eq (K : ℕ) (hK : 1 ≤ K) (x : ℝ) : rareMean K x = |x| - (K - 1) / K * x := by
  have hK0 : (K : ℝ) ≠ 0 := by positivity
  unfold rareMean
  obtain ⟨M, rfl⟩ : ∃ M, K = M + 1 := ⟨K - 1, by omega⟩
  rw [Finset.sum_range_succ']
  have : ∑ k ∈ range M, rareLoss (M + 1) (k + 1) x = -(M * x) := by
    rw [Finset.sum_congr rfl (g := fun _ => -x)]
    · simp
    · intro k hk
      have := Finset.mem_range.mp hk
      unfold rareLoss
      rw [if_neg]
      rw [Nat.mod_eq_of_lt (by omega)]
      omega
  rw [this]
  unfold rareLoss
  rw [if_pos (Nat.zero_mod _)]
  push_cast
  field_simp
  ring

/-- **C102 (the problem is benign).** Every loss is convex with `rareGrad` as a subgradient everywhere and as its derivative at positive parameters; the mean loss is
convex, has its minimum, 0, at 0 and only there, and is `x / K` for positive `x`. -/
theorem C102_problem (K : ℕ) (hK : 2 ≤ K) :
    (∀ n x y, rareLoss K n x + rareGrad K n x * (y - x) ≤ rareLoss K n y) ∧ (∀ n x, 0 < x → HasDerivAt (rareLoss K n) (rareGrad K n x) x) ∧
    (∀ n, ConvexOn ℝ Set.univ (rareLoss K n)) ∧
    ConvexOn ℝ Set.univ (rareMean K) ∧ rareMean K 0 = 0 ∧ (∀ x, x ≠ 0 → 0 < rareMean K x) ∧ ∀ x, 0 ≤ x → rareMean K x = x / K := by
  have hK0 : (0 : ℝ) < K := by positivity
  have hconv : ∀ n, ConvexOn ℝ Set.univ (rareLoss K n) := by
    intro n
    by_cases h : n % K = 0
    · have : rareLoss K n = fun x => (K : ℝ) • ‖x‖ := by funext x; simp [rareLoss, h]
      rw [this]
      exact convexOn_univ_norm.smul hK0.le
    · have : rareLoss K n = fun x => -x := by funext x; simp [rareLoss, h]
      rw [this]
      exact (LinearMap.convexOn (-LinearMap.id : ℝ →ₗ[ℝ] ℝ) convex_univ)
  refine ⟨?_, ?_, hconv, ?_, ?_, ?_, ?_⟩
  · intro n x y
    unfold rareLoss rareGrad
    split
    · split
      · rename_i hx
        rw [abs_of_pos hx]
        nlinarith [mul_le_mul_of_nonneg_left (le_abs_self y) hK0.le]
      · rename_i hx
        rw [abs_of_nonpos (by linarith)]
        nlinarith [mul_le_mul_of_nonneg_left (neg_le_abs y) hK0.le]
    · linarith
  · intro n x hx
    by_cases h : n % K = 0
    · have e : rareGrad K n x = K * 1 := by simp [rareGrad, h, hx]
      rw [e]
      refine HasDerivAt.congr_of_eventuallyEq (f := fun y : ℝ => (K : ℝ) * y) ((hasDerivAt_id x).const_mul _) ?_
      filter_upwards [lt_mem_nhds hx] with y hy
      simp [rareLoss, h, abs_of_pos hy]
    · have e : rareGrad K n x = -1 := by simp [rareGrad, h]
      rw [e]
      have : rareLoss K n = fun x => -x := by funext x; simp [rareLoss, h]
      rw [this]
      exact (hasDerivAt_id x).neg
  · have : rareMean K = fun x => (K : ℝ)⁻¹ • (∑ n ∈ range K, rareLoss K n x) := by
      funext x; simp [rareMean, div_eq_inv_mul]
    rw [this]
    refine ConvexOn.smul (by positivity) ?_
    have : ∀ s : Finset ℕ, ConvexOn ℝ Set.univ (fun x => ∑ n ∈ s, rareLoss K n x) := by
      intro s
      induction s using Finset.induction_on with
      | empty => simpa using convexOn_const 0 convex_univ
      | insert a s ha ih =>
        simp only [Finset.sum_insert ha]
        exact (hconv a).add ih
    exact this _
  · rw [rareMean_eq K (by omega)]; simp
  · intro x hx
    rw [rareMean_eq K (by omega)]
    have h1 : ((K : ℝ) - 1) / K < 1 := by rw [div_lt_one hK0]; linarith
    have h2 : 0 ≤ ((K : ℝ) - 1) / K := div_nonneg (by have : (2 : ℝ) ≤ K := by exact_mod_cast hK
                                                      linarith) hK0.le
    have h3 : 0 < |x| := abs_pos.mpr hx
    nlinarith [mul_le_mul_of_nonneg_left (le_abs_self x) h2]
  · intro x hx
    rw [rareMean_eq K (by omega), abs_of_nonneg hx]
    field_simp
    ring

/-! ## Adam's updates, for any number of calls -/

theorem adam_outs_all (b1 b2 eps er : ℝ) (σ : Spec) (p0 : ℕ → ℕ → ℝ) (g : ℕ → ℕ → ℕ → ℝ) (pp : ℕ → Option (Params ℝ)) (N : ℕ) :
    (scaleByAdam b1 b2 eps er).outs (mk σ p0) (hist σ g pp N) =
      .ok ((List.range N).map (fun n => mk σ (fun k i => adamStep b1 b2 eps er (fun j => g j k i) n))) := by
  unfold GT.outs
  rw [C26_saturated]
  rfl

/-! ## One entry -/

/-- the gradients met as long as the parameter is positive -/
noncomputable def rareSeq (K n : ℕ) : ℝ := if n % K = 0 then K else -1

noncomputable def rareInd (K n : ℕ) : ℝ := if n % K = 0 then 1 else 0

theorem geoSum_mono {d : ℝ} (hd : 0 ≤ d) {x y : ℕ → ℝ} (hx : ∀ n, x n ≤ y n) (n : ℕ) : geoSum d x n ≤ geoSum d y n :=
  Finset.sum_le_sum fun j _ => mul_le_mul_of_nonneg_left (hx j) (pow_nonneg hd _)

variable {b1 b2 : ℝ} (h1 : 0 ≤ b1) (h2 : b1 ^ 2 < b2) (h2' : b2 < 1)
include h1 h2 h2'

theorem rare_pos_part (K n : ℕ) :
    geoSum b1 (fun j => K * rareInd K j) n ≤ geoSum (b1 / Real.sqrt b2) (rareInd K) n * Real.sqrt (geoSum b2 (fun j => rareSeq K j ^ 2) n) := by
  have hb2 : 0 < b2 := lt_of_le_of_lt (sq_nonneg b1) h2
  have hs : 0 < Real.sqrt b2 := Real.sqrt_pos.mpr hb2
  have hq : 0 ≤ b1 / Real.sqrt b2 := div_nonneg h1 hs.le
  have hind : ∀ n, 0 ≤ rareInd K n := fun n => by unfold rareInd; split <;> norm_num
  induction n with
  | zero => simp
  | succ n ih =>
    rw [geoSum_succ, geoSum_succ, geoSum_succ]
    set R := geoSum (b1 / Real.sqrt b2) (rareInd K) n
    set V := geoSum b2 (fun j => rareSeq K j ^ 2) n
    have hR : 0 ≤ R := geoSum_nonneg hq hind n
    have hV : 0 ≤ V := geoSum_nonneg hb2.le (fun _ => sq_nonneg _) n
    have e1 : b1 * (R * Real.sqrt V) = b1 / Real.sqrt b2 * R * Real.sqrt (b2 * V) := by
      rw [Real.sqrt_mul hb2.le]
      field_simp
    have e2 : Real.sqrt (b2 * V) ≤ Real.sqrt (rareSeq K n ^ 2 + b2 * V) := Real.sqrt_le_sqrt (by nlinarith [sq_nonneg (rareSeq K n)])
    have e3 : K * rareInd K n ≤ rareInd K n * Real.sqrt (rareSeq K n ^ 2 + b2 * V) := by
      unfold rareInd rareSeq
      split
      · rw [mul_one, one_mul]
        refine Real.le_sqrt_of_sq_le ?_
        have := mul_nonneg hb2.le hV
        linarith
      · simp
    have e4 := mul_le_mul_of_nonneg_left ih h1
    have e5 := mul_le_mul_of_nonneg_left e2 (mul_nonneg hq hR)
    rw [add_mul]
    linarith

omit h1 h2 h2' in
theorem rare_ind_geo {b : ℝ} (hb : 0 ≤ b) (hb' : b < 1) (K : ℕ) (hK : 1 ≤ K) (n : ℕ) : geoSum b (rareInd K) (n + 1) ≤ b ^ (n % K) / (1 - b) := by
  have h1b : 0 < 1 - b := by linarith
  induction n with
  | zero =>
    rw [geoSum_one]
    simp only [rareInd, Nat.zero_mod, if_true, pow_zero]
    rw [le_div_iff₀ h1b]
    linarith
  | succ n ih =>
    rw [geoSum_succ]
    by_cases h : (n + 1) % K = 0
    · have e : rareInd K (n + 1) = 1 := by simp [rareInd, h]
      rw [e, h, pow_zero]
      have : b ^ (n % K) ≤ 1 := pow_le_one₀ hb hb'.le
      have h3 : geoSum b (rareInd K) (n + 1) ≤ 1 / (1 - b) := ih.trans (div_le_div_of_nonneg_right this h1b.le)
      have h4 := mul_le_mul_of_nonneg_left h3 hb
      have h5 : 1 + b * (1 / (1 - b)) = 1 / (1 - b) := by field_simp; ring
      linarith
    · have e : rareInd K (n + 1) = 0 := by simp [rareInd, h]
      have e2 : (n + 1) % K = n % K + 1 := by
        have hlt := Nat.mod_lt n (by omega : 0 < K)
        have hm := Nat.mod_add_mod n K 1
        rcases Nat.lt_or_ge (n % K + 1) K with h3 | h3
        · rw [← hm, Nat.mod_eq_of_lt h3]
        · have h4 : n % K + 1 = K := by omega
          rw [h4, Nat.mod_self] at hm
          omega
      rw [e, zero_add, e2, pow_succ']
      have := mul_le_mul_of_nonneg_left ih hb
      rwa [← mul_div_assoc] at this

/-- one step: the pull of the rare examples seen so far, minus the push of a common example when the last rare one is long ago -/
theorem rare_step {eps er : ℝ} (he : 0 ≤ eps) (her : 0 ≤ er) (K J : ℕ) (hJ : 1 ≤ J) (hK : 1 ≤ K) (hKJ : (K : ℝ) ^ 2 * b2 ^ J ≤ 1) (n : ℕ) :
    adamStep b1 b2 eps er (rareSeq K) n ≤ geoSum (b1 / Real.sqrt b2) (rareInd K) (n + 1) / Real.sqrt (1 - b2) -
      (if J ≤ n % K then 1 else 0) * ((1 - b1) / (Real.sqrt (2 / (1 - b2) + er) + eps)) := by
  have hb2 : 0 < b2 := lt_of_le_of_lt (sq_nonneg b1) h2
  have hb1 : b1 < 1 := by nlinarith
  have hK1 : (1 : ℝ) ≤ K := by exact_mod_cast hK
  unfold adamStep
  have hc1 : 1 ≤ min (n + 1) 2147483647 := by omega
  generalize min (n + 1) 2147483647 = c at hc1 ⊢
  set V := geoSum b2 (fun j => rareSeq K j ^ 2) (n + 1) with hVdef
  set Q := geoSum b1 (fun j => 1 - rareInd K j) (n + 1) with hQdef
  set A := geoSum b1 (fun j => K * rareInd K j) (n + 1) with hAdef
  set R := geoSum (b1 / Real.sqrt b2) (rareInd K) (n + 1) with hRdef
  have hind : ∀ n, 0 ≤ rareInd K n ∧ rareInd K n ≤ 1 := fun n => by unfold rareInd; split <;> norm_num
  have hA0 : 0 ≤ A := geoSum_nonneg h1 (fun j => mul_nonneg (by linarith) (hind j).1) _
  have hm : geoSum b1 (rareSeq K) (n + 1) = A - Q := by
    have e : rareSeq K = fun j => K * rareInd K j + (-1) * (1 - rareInd K j) := by
      funext j
      unfold rareSeq rareInd
      split <;> simp
    rw [e, geoSum_add, geoSum_smul b1 (-1)]
    ring
  have hQ : 1 - rareInd K n ≤ Q := by
    rw [hQdef, geoSum_succ]
    have := mul_nonneg h1 (geoSum_nonneg h1 (x := fun j => 1 - rareInd K j) (fun j => by linarith [(hind j).2]) n)
    linarith
  have hQ0 : 0 ≤ Q := le_trans (by linarith [(hind n).2]) hQ
  have hVpos : 0 < V := by
    rw [hVdef, geoSum_succ]
    have h3 : 1 ≤ rareSeq K n ^ 2 := by
      unfold rareSeq
      split
      · nlinarith
      · norm_num
    have := mul_nonneg hb2.le (geoSum_nonneg hb2.le (x := fun j => rareSeq K j ^ 2) (fun j => sq_nonneg _) n)
    linarith
  have hS : 1 - b1 ≤ 1 - b1 ^ c ∧ 1 - b1 ^ c ≤ 1 := by
    have h3 : b1 ^ c ≤ b1 ^ 1 := pow_le_pow_of_le_one h1 hb1.le hc1
    have h4 : 0 ≤ b1 ^ c := pow_nonneg h1 _
    rw [pow_one] at h3
    constructor <;> linarith
  have hT : 1 - b2 ≤ 1 - b2 ^ c ∧ 1 - b2 ^ c ≤ 1 := by
    have h3 : b2 ^ c ≤ b2 ^ 1 := pow_le_pow_of_le_one hb2.le h2'.le hc1
    have h4 : 0 ≤ b2 ^ c := pow_nonneg hb2.le _
    rw [pow_one] at h3
    constructor <;> linarith
  set S := 1 - b1 ^ c with hSdef
  set T := 1 - b2 ^ c with hTdef
  have hb1' : 0 < 1 - b1 := by linarith
  have hb2' : 0 < 1 - b2 := by linarith
  have hSpos : 0 < S := by linarith
  have hTpos : 0 < T := by linarith
  set den := Real.sqrt ((1 - b2) * V / T + er) + eps with hden
  have hV1 : (1 - b2) * V ≤ (1 - b2) * V / T := by
    rw [le_div_iff₀ hTpos]
    have := mul_nonneg hb2'.le hVpos.le
    nlinarith
  have hlow : Real.sqrt (1 - b2) * Real.sqrt V ≤ den := by
    rw [← Real.sqrt_mul hb2'.le, hden]
    have : Real.sqrt ((1 - b2) * V) ≤ Real.sqrt ((1 - b2) * V / T + er) := Real.sqrt_le_sqrt (by linarith)
    linarith
  have hsV : 0 < Real.sqrt V := Real.sqrt_pos.mpr hVpos
  have hsb : 0 < Real.sqrt (1 - b2) := Real.sqrt_pos.mpr hb2'
  have hdpos : 0 < den := lt_of_lt_of_le (mul_pos hsb hsV) hlow
  have hstep : (1 - b1) * geoSum b1 (rareSeq K) (n + 1) / S / den = (1 - b1) * A / S / den - (1 - b1) * Q / S / den := by
    rw [hm, mul_sub, sub_div, sub_div]
  have hfirst : (1 - b1) * A / S / den ≤ R / Real.sqrt (1 - b2) := by
    have h3 : (1 - b1) * A / S ≤ A := by
      rw [div_le_iff₀ hSpos]
      nlinarith [hS.1]
    have h4 : A ≤ R * Real.sqrt V := rare_pos_part h1 h2 h2' K (n + 1)
    rw [div_le_div_iff₀ hdpos hsb]
    have hR0 : 0 ≤ R := by
      by_contra hneg
      push Not at hneg
      nlinarith
    calc (1 - b1) * A / S * Real.sqrt (1 - b2) ≤ (R * Real.sqrt V) * Real.sqrt (1 - b2) := by
          exact mul_le_mul_of_nonneg_right (h3.trans h4) hsb.le
      _ = R * (Real.sqrt (1 - b2) * Real.sqrt V) := by ring
      _ ≤ R * den := mul_le_mul_of_nonneg_left hlow hR0
  have hsecond : (if J ≤ n % K then 1 else 0) * ((1 - b1) / (Real.sqrt (2 / (1 - b2) + er) + eps)) ≤ (1 - b1) * Q / S / den := by
    split
    · rename_i hJn
      have hi : rareInd K n = 0 := by
        unfold rareInd
        rw [if_neg (by omega)]
      rw [hi, sub_zero] at hQ
      have hVle : V ≤ 2 / (1 - b2) := by
        have h3 : V ≤ geoSum b2 (fun j => 1 + (K : ℝ) ^ 2 * rareInd K j) (n + 1) := by
          refine geoSum_mono hb2.le (fun j => ?_) _
          unfold rareSeq rareInd
          split <;> simp
        rw [geoSum_add b2 (fun _ => 1) (fun j => (K : ℝ) ^ 2 * rareInd K j), geoSum_smul] at h3
        have h4 := geoSum_const_one b2 (n + 1)
        have h5 : geoSum b2 (fun _ => 1) (n + 1) ≤ 1 / (1 - b2) := by
          rw [le_div_iff₀ hb2', mul_comm, h4]
          linarith [pow_nonneg hb2.le (n + 1)]
        have h6 := rare_ind_geo hb2.le h2' K hK n
        have h7 : b2 ^ (n % K) ≤ b2 ^ J := pow_le_pow_of_le_one hb2.le h2'.le hJn
        have h8 : (K : ℝ) ^ 2 * geoSum b2 (rareInd K) (n + 1) ≤ 1 / (1 - b2) := by
          calc (K : ℝ) ^ 2 * geoSum b2 (rareInd K) (n + 1) ≤ (K : ℝ) ^ 2 * (b2 ^ J / (1 - b2)) :=
                mul_le_mul_of_nonneg_left (h6.trans (div_le_div_of_nonneg_right h7 hb2'.le)) (by positivity)
            _ = ((K : ℝ) ^ 2 * b2 ^ J) / (1 - b2) := by ring
            _ ≤ _ := div_le_div_of_nonneg_right hKJ hb2'.le
        have h9 : 2 / (1 - b2) = 1 / (1 - b2) + 1 / (1 - b2) := by ring
        linarith
      have hup : den ≤ Real.sqrt (2 / (1 - b2) + er) + eps := by
        have h3 : (1 - b2) * V / T ≤ 2 / (1 - b2) := by
          have h4 : (1 - b2) * V ≤ 2 := by
            rw [le_div_iff₀ hb2'] at hVle
            linarith
          calc (1 - b2) * V / T ≤ 2 / T := div_le_div_of_nonneg_right h4 hTpos.le
            _ ≤ 2 / (1 - b2) := div_le_div_of_nonneg_left (by norm_num) hb2' hT.1
        have := Real.sqrt_le_sqrt (by linarith : (1 - b2) * V / T + er ≤ 2 / (1 - b2) + er)
        rw [hden]
        linarith
      rw [one_mul]
      calc (1 - b1) / (Real.sqrt (2 / (1 - b2) + er) + eps) ≤ (1 - b1) / den := div_le_div_of_nonneg_left hb1'.le hdpos hup
        _ ≤ (1 - b1) * Q / S / den := by
          refine div_le_div_of_nonneg_right ?_ hdpos.le
          rw [le_div_iff₀ hSpos]
          nlinarith [hS.2]
    · rw [zero_mul]
      positivity
  rw [hstep]
  linarith

omit h1 h2 h2' in
theorem geoSum_total (q : ℝ) (x : ℕ → ℝ) (N : ℕ) : (1 - q) * ∑ n ∈ range N, geoSum q x (n + 1) + q * geoSum q x N = ∑ n ∈ range N, x n := by
  induction N with
  | zero => simp
  | succ N ih =>
    rw [Finset.sum_range_succ, Finset.sum_range_succ, ← ih, geoSum_succ]
    ring

omit h1 h2 h2' in
theorem sum_period (K : ℕ) (f : ℕ → ℝ) (T : ℕ) : ∑ n ∈ range (K * T), f (n % K) = T * ∑ r ∈ range K, f r := by
  induction T with
  | zero => simp
  | succ T ih =>
    rw [Nat.mul_succ, Finset.sum_range_add, ih]
    have : ∑ x ∈ range K, f ((K * T + x) % K) = ∑ r ∈ range K, f r := by
      refine Finset.sum_congr rfl fun r hr => ?_
      rw [Nat.mul_add_mod, Nat.mod_eq_of_lt (Finset.mem_range.mp hr)]
    rw [this]
    push_cast
    ring

omit h1 h2 h2' in
theorem rare_counts (K J N : ℕ) (hK : 1 ≤ K) (hJ : J ≤ K) :
    ∑ n ∈ range N, rareInd K n ≤ (N / K : ℕ) + 1 ∧ ((K - J : ℕ) : ℝ) * (N / K : ℕ) ≤ ∑ n ∈ range N, (if J ≤ n % K then (1 : ℝ) else 0) := by
  have hN := Nat.div_add_mod N K
  set T := N / K
  set r := N % K
  have hr : r < K := Nat.mod_lt _ (by omega)
  constructor
  · have h3 := sum_period K (fun m => if m = 0 then (1 : ℝ) else 0) T
    have h4 : ∑ r ∈ range K, (if r = 0 then (1 : ℝ) else 0) = 1 := by
      rw [Finset.sum_ite_eq' (range K) 0 (fun _ => (1 : ℝ))]
      simp; omega
    rw [h4, mul_one] at h3
    have h5 : ∑ n ∈ range N, rareInd K n = ∑ n ∈ range (K * T), rareInd K n + ∑ x ∈ range r, rareInd K (K * T + x) := by
      rw [← hN, Finset.sum_range_add]
    have h6 : ∑ x ∈ range r, rareInd K (K * T + x) ≤ 1 := by
      have : ∀ x ∈ range r, rareInd K (K * T + x) = if x = 0 then (1 : ℝ) else 0 := by
        intro x hx
        have := Finset.mem_range.mp hx
        unfold rareInd
        rw [Nat.mul_add_mod, Nat.mod_eq_of_lt (by omega)]
      rw [Finset.sum_congr rfl this, Finset.sum_ite_eq' (range r) 0 (fun _ => (1 : ℝ))]
      split <;> norm_num
    have h7 : ∑ n ∈ range (K * T), rareInd K n = T := h3
    rw [h5, h7]
    linarith
  · have h3 := sum_period K (fun m => if J ≤ m then (1 : ℝ) else 0) T
    have h4 : ∑ r ∈ range K, (if J ≤ r then (1 : ℝ) else 0) = ((K - J : ℕ) : ℝ) := by
      obtain ⟨L, rfl⟩ : ∃ L, K = J + L := ⟨K - J, by omega⟩
      rw [Finset.sum_range_add, Finset.sum_eq_zero (s := range J)]
      · simp
      · intro x hx
        have := Finset.mem_range.mp hx
        rw [if_neg (by omega)]
    rw [h4] at h3
    have h5 : ∑ n ∈ range N, (if J ≤ n % K then (1 : ℝ) else 0) = ∑ n ∈ range (K * T), (if J ≤ n % K then (1 : ℝ) else 0) +
        ∑ x ∈ range r, (if J ≤ (K * T + x) % K then (1 : ℝ) else 0) := by
      rw [← Finset.sum_range_add, hN]
    have h6 : 0 ≤ ∑ x ∈ range r, (if J ≤ (K * T + x) % K then (1 : ℝ) else 0) :=
      Finset.sum_nonneg fun _ _ => by split <;> norm_num
    rw [h5, h3]
    linarith

/-- after `N` steps the outputs have summed up to at most `A - N / K` -/
theorem rare_total {eps er : ℝ} (he : 0 ≤ eps) (her : 0 ≤ er) :
    ∃ (K : ℕ) (A : ℝ), 2 ≤ K ∧ 0 ≤ A ∧ ∀ N, ∑ n ∈ range N, adamStep b1 b2 eps er (rareSeq K) n ≤ A - (N / K : ℕ) := by
  have hb2 : 0 < b2 := lt_of_le_of_lt (sq_nonneg b1) h2
  have hb1 : b1 < 1 := by nlinarith
  have hb1' : 0 < 1 - b1 := by linarith
  have hb2' : 0 < 1 - b2 := by linarith
  have hsb : 0 < Real.sqrt (1 - b2) := Real.sqrt_pos.mpr hb2'
  have hs : 0 < Real.sqrt b2 := Real.sqrt_pos.mpr hb2
  set q := b1 / Real.sqrt b2 with hq
  have hq0 : 0 ≤ q := div_nonneg h1 hs.le
  have hq1 : q < 1 := by
    rw [hq, div_lt_one hs]
    exact Real.lt_sqrt_of_sq_lt h2
  set A := 1 / (1 - q) / Real.sqrt (1 - b2) with hA
  have hA0 : 0 ≤ A := by
    have : 0 < 1 - q := by linarith
    positivity
  set D := (1 - b1) / (Real.sqrt (2 / (1 - b2) + er) + eps) with hD
  have hD0 : 0 < D := by
    refine div_pos hb1' ?_
    have : 0 < Real.sqrt (2 / (1 - b2) + er) := Real.sqrt_pos.mpr (by positivity)
    linarith
  have hlim := tendsto_pow_const_mul_const_pow_of_abs_lt_one 2 (r := b2) (by rwa [abs_of_pos hb2])
  have hev : ∀ᶠ J : ℕ in atTop, (J : ℝ) ^ 2 * b2 ^ J < 1 / 4 := hlim.eventually (gt_mem_nhds (by norm_num))
  have hev2 : ∀ᶠ J : ℕ in atTop, (A + 1) / D ≤ (J : ℝ) := tendsto_natCast_atTop_atTop.eventually (eventually_ge_atTop _)
  obtain ⟨J, hJ1, hJ2, hJ3⟩ := (hev.and (hev2.and (eventually_ge_atTop 1))).exists
  refine ⟨2 * J, A, by omega, hA0, fun N => ?_⟩
  have hKJ : (((2 * J : ℕ) : ℝ)) ^ 2 * b2 ^ J ≤ 1 := by
    push_cast
    nlinarith
  obtain ⟨hc1, hc2⟩ := rare_counts (2 * J) J N (by omega) (by omega)
  have hsum : ∑ n ∈ range N, geoSum q (rareInd (2 * J)) (n + 1) ≤ ((N / (2 * J) : ℕ) + 1) / (1 - q) := by
    have h3 := geoSum_total q (rareInd (2 * J)) N
    have h4 : 0 ≤ geoSum q (rareInd (2 * J)) N := geoSum_nonneg hq0 (fun n => by unfold rareInd; split <;> norm_num) N
    rw [le_div_iff₀ (by linarith)]
    nlinarith [mul_nonneg hq0 h4]
  calc ∑ n ∈ range N, adamStep b1 b2 eps er (rareSeq (2 * J)) n
      ≤ ∑ n ∈ range N, (geoSum q (rareInd (2 * J)) (n + 1) / Real.sqrt (1 - b2) - (if J ≤ n % (2 * J) then 1 else 0) * D) :=
        Finset.sum_le_sum fun n _ => rare_step h1 h2 h2' he her (2 * J) J hJ3 (by omega) hKJ n
    _ = (∑ n ∈ range N, geoSum q (rareInd (2 * J)) (n + 1)) / Real.sqrt (1 - b2) - (∑ n ∈ range N, (if J ≤ n % (2 * J) then (1 : ℝ) else 0)) * D := by
        rw [Finset.sum_sub_distrib, Finset.sum_div, Finset.sum_mul]
    _ ≤ ((N / (2 * J) : ℕ) + 1) / (1 - q) / Real.sqrt (1 - b2) - (((2 * J - J : ℕ) : ℝ) * (N / (2 * J) : ℕ)) * D := by
        have := div_le_div_of_nonneg_right hsum hsb.le
        have := mul_le_mul_of_nonneg_right hc2 hD0.le
        linarith
    _ ≤ A - (N / (2 * J) : ℕ) := by
        have e1 : ((N / (2 * J) : ℕ) + 1) / (1 - q) / Real.sqrt (1 - b2) = ((N / (2 * J) : ℕ) + 1) * A := by rw [hA]; ring
        have e2 : (2 * J - J : ℕ) = J := by omega
        rw [e1, e2]
        have h3 : A + 1 ≤ J * D := by rwa [div_le_iff₀ hD0] at hJ2
        have h4 : (0 : ℝ) ≤ (N / (2 * J) : ℕ) := by positivity
        nlinarith [mul_le_mul_of_nonneg_left h3 h4]

omit h1 h2 h2' in
/-- **C102.** For every learning rate, every `b1, b2` with `b1² < b2 < 1` (e.g. the defaults), every `eps` and `eps_root`, there is a data set size `K` and a `B` such that training with
`adam` on the convex losses `rareLoss K` (whose mean has its minimum at 0) from any params above `B`, for pytrees of any structure, increases every parameter without bound; the mean loss
tends to infinity. -/
theorem C102_adam_diverges (lr b1 b2 eps er : ℝ) (hlr : 0 < lr) (h1 : 0 ≤ b1) (h2 : b1 ^ 2 < b2) (h2' : b2 < 1) (he : 0 ≤ eps) (her : 0 ≤ er) :
    ∃ (K : ℕ) (B : ℝ), 2 ≤ K ∧ 0 < B ∧ ∀ (σ : Spec) (p0 : ℕ → ℕ → ℝ), (∀ k i, B ≤ p0 k i) → ∃ P : ℕ → ℕ → ℕ → ℝ, P 0 = p0 ∧
      Visits (adam (.scalar lr) b1 b2 eps er) (fun n p => tmap (rareGrad K n) p) σ P ∧
      (∀ n k i, 0 < P n k i) ∧ (∀ k i, Tendsto (fun n => P n k i) atTop atTop) ∧ ∀ k i, Tendsto (fun n => rareMean K (P n k i)) atTop atTop := by
  obtain ⟨K, A, hK, hA, hsum⟩ := rare_total h1 h2 h2' he her
  refine ⟨K, lr * A + 1, hK, by positivity, fun σ p0 hp0 => ?_⟩
  set P : ℕ → ℕ → ℕ → ℝ := fun n k i => p0 k i - lr * ∑ j ∈ range n, adamStep b1 b2 eps er (rareSeq K) j with hP
  have hlow : ∀ n k i, 1 + lr * (n / K : ℕ) ≤ P n k i := by
    intro n k i
    have h3 := mul_le_mul_of_nonneg_left (hsum n) hlr.le
    have := hp0 k i
    simp only [hP]
    linarith
  have hpos : ∀ n k i, 0 < P n k i := by
    intro n k i
    have : 0 ≤ lr * (n / K : ℕ) := by positivity
    linarith [hlow n k i]
  have htend : ∀ k i, Tendsto (fun n => P n k i) atTop atTop := by
    intro k i
    refine tendsto_atTop_mono (fun n => hlow n k i) ?_
    refine tendsto_atTop_add_const_left _ _ (Tendsto.const_mul_atTop hlr ?_)
    exact tendsto_natCast_atTop_atTop.comp (Nat.tendsto_div_const_atTop (by omega))
  refine ⟨P, by funext k i; simp [hP], ?_, hpos, htend, ?_⟩
  · have hg : ∀ n p, (fun n p => tmap (rareGrad K n) p) n (mk σ p) = mk σ (fun k i => rareGrad K n (p k i)) := by
      intro n p; simp
    have hG : (fun n k i => rareGrad K n (P n k i)) = fun n _ _ => rareSeq K n := by
      funext n k i
      simp [rareGrad, rareSeq, hpos n k i]
    have hU : ∀ N, (adam (.scalar lr) b1 b2 eps er).outs (mk σ (P 0)) (hist σ (fun n k i => rareGrad K n (P n k i)) (fun n => some (mk σ (P n))) N) =
        .ok ((List.range N).map (fun n => mk σ (fun _ _ => -lr * adamStep b1 b2 eps er (rareSeq K) n))) := by
      intro N
      rw [hG]
      exact outs_chain_hist_lr (scaleByAdam b1 b2 eps er) (.scalar lr) _ σ _ _ _ N (adam_outs_all b1 b2 eps er σ (P 0) (fun n _ _ => rareSeq K n) _ N)
    have hstep : ∀ n k i, P (n + 1) k i = P n k i + -lr * adamStep b1 b2 eps er (rareSeq K) n := by
      intro n k i
      simp only [hP]
      rw [Finset.sum_range_succ]
      ring
    obtain ⟨s0, _, hs0, _⟩ := trainLoop_of_outs hg P (fun n _ _ => -lr * adamStep b1 b2 eps er (rareSeq K) n) hstep hU 0
    refine ⟨s0, hs0, fun n => ?_⟩
    obtain ⟨s0', s, h5, h6⟩ := trainLoop_of_outs hg P (fun n _ _ => -lr * adamStep b1 b2 eps er (rareSeq K) n) hstep hU n
    rw [hs0] at h5
    rw [← Except.ok.inj h5] at h6
    exact ⟨s, h6⟩
  · intro k i
    have : (fun n => rareMean K (P n k i)) = fun n => P n k i / K := by
      funext n
      exact (C102_problem K hK).2.2.2.2.2.2 _ (hpos n k i).le
    rw [this]
    exact (htend k i).atTop_div_const (by positivity)

/-- the default hyper-parameters are covered -/
example : ((9 / 10 : ℝ)) ^ 2 < 999 / 1000 ∧ (999 / 1000 : ℝ) < 1 := by norm_num

end Optax
