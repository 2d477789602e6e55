import Verif.Props.Update
import Verif.Props.Convergence
import Verif.Props.Stochastic
import Verif.Props.LookaheadConv

/-!
# C129: averaging the parameters of a run with `incremental_update`

`incremental_update` is documented as Polyak averaging.  With the step sizes `wₙ / (w₀ + … + wₙ)` the target is the average of the
parameters seen with the weights `wₙ`; the loss of the average is what the regret bounds of sgd are about.
-/

set_option linter.unusedSectionVars false
set_option linter.unusedSimpArgs false

open MeasureTheory ProbabilityTheory

namespace Optax
open Finset

/-- the average of the trees `P 0, …, P (N-1)` with weights `w` -/
noncomputable def wavg (w : ℕ → ℝ) (P : ℕ → ℕ → ℕ → ℝ) (N : ℕ) : ℕ → ℕ → ℝ := fun k i => (∑ n ∈ range N, w n * P n k i) / ∑ n ∈ range N, w n

/-- the target after `N` calls `target = incremental_update(params, target, s)`, with step size `s n` at the `n`-th call -/
def averaged (σ : Spec) (new : ℕ → ℕ → ℕ → ℝ) (s : ℕ → ℝ) (old0 : ℕ → ℕ → ℝ) (N : ℕ) : Res (Params ℝ) :=
  (List.range N).foldlM (fun old n => incrementalUpdate (mk σ (new n)) old (s n)) (mk σ old0)

/-- **C129 (weighted averages).** Positive first weight, non-negative weights: calling `incremental_update` with the step sizes `wₙ/(w₀+…+wₙ)` gives the weighted average of all trees seen, whatever the target was
initialised with. -/
theorem C129_average (σ : Spec) (new : ℕ → ℕ → ℕ → ℝ) (w : ℕ → ℝ) (h0 : 0 < w 0) (hw : ∀ n, 0 ≤ w n) (old0 : ℕ → ℕ → ℝ) (N : ℕ) :
    averaged σ new (fun n => w n / ∑ j ∈ range (n + 1), w j) old0 (N + 1) = .ok (mk σ (wavg w new (N + 1))) := by
  have hpos : ∀ n, 0 < ∑ j ∈ range (n + 1), w j := fun n => by
    rw [Finset.sum_range_succ']
    have := Finset.sum_nonneg (s := range n) fun j _ => hw (j + 1)
    linarith
  unfold averaged
  induction N with
  | zero =>
    simp only [zero_add, List.range_one, List.foldlM_cons, List.foldlM_nil, incrementalUpdate, tzip_mk, Res.ok_bind, Res.pure_eq]
    congr 2
    funext k i
    simp [wavg, h0.ne']
  | succ N ih =>
    rw [List.range_succ, List.foldlM_append, ih]
    simp only [Res.ok_bind, List.foldlM_cons, List.foldlM_nil, incrementalUpdate, tzip_mk, Res.pure_eq]
    congr 2
    funext k i
    have h1 := (hpos N).ne'
    have h2 := (hpos (N + 1)).ne'
    simp only [wavg]
    rw [Finset.sum_range_succ _ (N + 1), Finset.sum_range_succ _ (N + 1)] at *
    field_simp
    ring

/-- **C129 (uniform averages).** With step size `1/(n+1)` at call `n = 0, 1, …` the target is the arithmetic mean. -/
theorem C129_mean (σ : Spec) (new : ℕ → ℕ → ℕ → ℝ) (old0 : ℕ → ℕ → ℝ) (N : ℕ) :
    averaged σ new (fun n => 1 / ((n : ℝ) + 1)) old0 (N + 1) = .ok (mk σ fun k i => (∑ n ∈ range (N + 1), new n k i) / ((N : ℝ) + 1)) := by
  have h := C129_average σ new (fun _ => 1) one_pos (fun _ => zero_le_one) old0 N
  have e : wavg (fun _ => 1) new (N + 1) = fun k i => (∑ n ∈ range (N + 1), new n k i) / ((N : ℝ) + 1) := by
    funext k i
    simp [wavg]
  rw [e] at h
  simpa using h

/-- **C129 (Jensen).** The loss of the average is at most the average of the losses. -/
theorem C129_jensen (σ : Spec) (loss : Params ℝ → ℝ) (G : (ℕ → ℕ → ℝ) → ℕ → ℕ → ℝ) (hc : StronglyConvex σ 0 loss G) (P : ℕ → ℕ → ℕ → ℝ)
    (w : ℕ → ℝ) (hw : ∀ n, 0 ≤ w n) (N : ℕ) (hN : 0 < ∑ n ∈ range N, w n) :
    (∑ n ∈ range N, w n) * loss (mk σ (wavg w P N)) ≤ ∑ n ∈ range N, w n * loss (mk σ (P n)) := by
  set A := wavg w P N with hA
  have h1 : ∀ n ∈ range N, w n * (loss (mk σ A) + treeInner σ (G A) (fun k i => P n k i - A k i)) ≤ w n * loss (mk σ (P n)) := fun n _ => by
    have := hc A (P n)
    simp only [zero_div, zero_mul, add_zero] at this
    exact mul_le_mul_of_nonneg_left this (hw n)
  have h2 := Finset.sum_le_sum h1
  have h3 : ∑ n ∈ range N, w n * treeInner σ (G A) (fun k i => P n k i - A k i) = 0 := by
    simp only [treeInner, Finset.mul_sum]
    rw [Finset.sum_comm]
    refine Finset.sum_eq_zero fun x _ => ?_
    have : ∑ n ∈ range N, w n * (G A x.1 x.2 * (P n x.1 x.2 - A x.1 x.2)) =
        G A x.1 x.2 * (∑ n ∈ range N, w n * P n x.1 x.2 - (∑ n ∈ range N, w n) * A x.1 x.2) := by
      rw [mul_sub, Finset.mul_sum, Finset.sum_mul, Finset.mul_sum, ← Finset.sum_sub_distrib]
      exact Finset.sum_congr rfl fun n _ => by ring
    rw [this, hA]
    simp only [wavg]
    rw [mul_div_cancel₀ _ hN.ne', sub_self, mul_zero]
  simp only [mul_add, Finset.sum_add_distrib, h3, ← Finset.sum_mul] at h2
  linarith

/-- **C129 (moving averages).** With a constant step size in `[0, 1]` the loss of the target is at most the corresponding weighted average of the losses of everything seen; in particular it is never worse than the worst. -/
theorem C129_moving (σ : Spec) (loss : Params ℝ → ℝ) (G : (ℕ → ℕ → ℝ) → ℕ → ℕ → ℝ) (hc : StronglyConvex σ 0 loss G) (P : ℕ → ℕ → ℕ → ℝ)
    (old0 : ℕ → ℕ → ℝ) (s : ℝ) (h0 : 0 ≤ s) (h1 : s ≤ 1) (N : ℕ) :
    ∃ A, averaged σ P (fun _ => s) old0 N = .ok (mk σ A) ∧
      loss (mk σ A) ≤ (1 - s) ^ N * loss (mk σ old0) + ∑ t ∈ range N, s * (1 - s) ^ (N - 1 - t) * loss (mk σ (P t)) ∧
      ∀ M, loss (mk σ old0) ≤ M → (∀ n < N, loss (mk σ (P n)) ≤ M) → loss (mk σ A) ≤ M := by
  have two : ∀ a b : ℕ → ℕ → ℝ, loss (mk σ fun k i => s * a k i + (1 - s) * b k i) ≤ s * loss (mk σ a) + (1 - s) * loss (mk σ b) := by
    intro a b
    have h := C129_jensen σ loss G hc (fun n => if n = 0 then a else b) (fun n => if n = 0 then s else 1 - s)
      (fun n => by split_ifs <;> linarith) 2 (by simp [Finset.sum_range_succ])
    have e : wavg (fun n => if n = 0 then s else 1 - s) (fun n => if n = 0 then a else b) 2 = fun k i => s * a k i + (1 - s) * b k i := by
      funext k i
      simp [wavg, Finset.sum_range_succ]
    rw [e] at h
    simpa [Finset.sum_range_succ] using h
  unfold averaged
  induction N with
  | zero => exact ⟨old0, by simp, by simp, fun M h _ => h⟩
  | succ N ih =>
    obtain ⟨A, hA, hb, hM⟩ := ih
    refine ⟨fun k i => s * P N k i + (1 - s) * A k i, ?_, ?_, ?_⟩
    · rw [List.range_succ, List.foldlM_append, hA]
      simp only [Res.ok_bind, List.foldlM_cons, List.foldlM_nil, incrementalUpdate, tzip_mk, Res.pure_eq]
    · refine (two _ _).trans ?_
      have h2 := mul_le_mul_of_nonneg_left hb (sub_nonneg.2 h1)
      rw [Finset.sum_range_succ]
      have : ∑ t ∈ range N, s * (1 - s) ^ (N + 1 - 1 - t) * loss (mk σ (P t)) =
          (1 - s) * ∑ t ∈ range N, s * (1 - s) ^ (N - 1 - t) * loss (mk σ (P t)) := by
        rw [Finset.mul_sum]
        refine Finset.sum_congr rfl fun t ht => ?_
        rw [Finset.mem_range] at ht
        have : N + 1 - 1 - t = (N - 1 - t) + 1 := by omega
        rw [this, pow_succ]; ring
      rw [this]
      simp only [Nat.add_sub_cancel, Nat.sub_self, pow_zero]
      rw [pow_succ]
      linarith
    · intro M hm hn
      have h2 := hM M hm fun n hn' => hn n (by omega)
      have h3 := hn N (by omega)
      refine (two _ _).trans ?_
      nlinarith

/-- **C129 (sgd with averaging).** Train a convex loss with `sgd`, and average the parameters with `incremental_update` weighted by the learning rates: the loss of the average
exceeds the loss of any `q` by at most `(‖p₀-q‖² + Σ ηₙ²‖gₙ‖²) / (2 Σ ηₙ)`. -/
theorem C129_sgd (σ : Spec) (lr : LR ℝ) (nes : Bool) (h0 : 0 < lr.at 0) (hlr : ∀ n, 0 ≤ lr.at n) (loss : Params ℝ → ℝ)
    (grad : ℕ → Params ℝ → Params ℝ) (G : (ℕ → ℕ → ℝ) → ℕ → ℕ → ℝ)
    (hg : ∀ n p, grad n (mk σ p) = mk σ (G p)) (hconv : StronglyConvex σ 0 loss G) (p0 q old0 : ℕ → ℕ → ℝ) :
    ∃ P, P 0 = p0 ∧ Visits (sgd lr none nes) grad σ P ∧
      ∀ N, ∃ A, averaged σ P (fun n => lr.at n / ∑ j ∈ range (n + 1), lr.at j) old0 (N + 1) = .ok A ∧
        loss A - loss (mk σ q) ≤
          (treeDist σ p0 q ^ 2 + ∑ n ∈ range (N + 1), lr.at n ^ 2 * globalNorm (mk σ (G (P n))) ^ 2) / (2 * ∑ n ∈ range (N + 1), lr.at n) := by
  obtain ⟨P, h1, h2, h3⟩ := C76_regret σ lr nes hlr (fun _ => loss) grad (fun _ => G) hg (fun _ => hconv) p0 q
  refine ⟨P, h1, h2, fun N => ⟨_, C129_average σ P lr.at h0 hlr old0 N, ?_⟩⟩
  have hpos : 0 < ∑ j ∈ range (N + 1), lr.at j := by
    rw [Finset.sum_range_succ']
    have := Finset.sum_nonneg (s := range N) fun j _ => hlr (j + 1)
    linarith
  have h4 := C129_jensen σ loss G hconv P lr.at hlr (N + 1) hpos
  have h5 := h3 (N + 1)
  simp only [mul_sub, Finset.sum_sub_distrib, ← Finset.sum_mul, sqNorm_eq, sqDist_eq] at h5
  rw [le_div_iff₀ (by positivity)]
  linarith

/-- **C129 (the textbook rate).** With gradients of norm at most `B`, `‖p₀-q‖ ≤ D` and the constant rate `D/(B√N)`, the loss of the mean of the `N` parameter trees exceeds `loss(q)` by at most `D·B/√N`. -/
theorem C129_rate (σ : Spec) (nes : Bool) (loss : Params ℝ → ℝ)
    (grad : ℕ → Params ℝ → Params ℝ) (G : (ℕ → ℕ → ℝ) → ℕ → ℕ → ℝ) (hg : ∀ n p, grad n (mk σ p) = mk σ (G p)) (hconv : StronglyConvex σ 0 loss G)
    (p0 q old0 : ℕ → ℕ → ℝ) (B D : ℝ) (hB0 : 0 < B) (hD0 : 0 < D) (hB : ∀ p, globalNorm (mk σ (G p)) ≤ B) (hD : treeDist σ p0 q ≤ D) (N : ℕ) :
    ∃ P, P 0 = p0 ∧ Visits (sgd (.scalar (D / (B * Real.sqrt (N + 1)))) none nes) grad σ P ∧
      ∃ A, averaged σ P (fun n => 1 / ((n : ℝ) + 1)) old0 (N + 1) = .ok A ∧ loss A - loss (mk σ q) ≤ D * B / Real.sqrt (N + 1) := by
  have hs : 0 < Real.sqrt ((N : ℝ) + 1) := Real.sqrt_pos.2 (by positivity)
  set η := D / (B * Real.sqrt (N + 1)) with hη
  have hη0 : 0 < η := by positivity
  obtain ⟨P, h1, h2, h3⟩ := C129_sgd σ (.scalar η) nes hη0 (fun _ => hη0.le) loss grad G hg hconv p0 q old0
  obtain ⟨A, h4, h5⟩ := h3 N
  refine ⟨P, h1, h2, A, ?_, h5.trans ?_⟩
  · rw [← h4]
    congr 1
    funext n
    simp only [LR.at, Finset.sum_const, Finset.card_range, nsmul_eq_mul]
    have : ((n : ℝ) + 1) ≠ 0 := by positivity
    push_cast
    field_simp
  · simp only [LR.at, Finset.sum_const, Finset.card_range, nsmul_eq_mul, ← Finset.mul_sum]
    have h6 : ∑ n ∈ range (N + 1), globalNorm (mk σ (G (P n))) ^ 2 ≤ (N + 1) * B ^ 2 := by
      calc _ ≤ ∑ _n ∈ range (N + 1), B ^ 2 := Finset.sum_le_sum fun n _ => pow_le_pow_left₀ (C61_nonneg _) (hB _) 2
        _ = (N + 1) * B ^ 2 := by simp
    have h7 : treeDist σ p0 q ^ 2 ≤ D ^ 2 := pow_le_pow_left₀ (treeDist_nonneg σ _ _) hD 2
    have h8 : Real.sqrt ((N : ℝ) + 1) ^ 2 = N + 1 := Real.sq_sqrt (by positivity)
    push_cast
    rw [div_le_div_iff₀ (by positivity) hs]
    have h9 := mul_le_mul_of_nonneg_left h6 (sq_nonneg η)
    have e1 : η * (B * Real.sqrt (N + 1)) = D := by rw [hη]; field_simp
    have e2 : η ^ 2 * ((N + 1) * B ^ 2) = D ^ 2 := by
      calc _ = (η * B) ^ 2 * ((N : ℝ) + 1) := by ring
        _ = (η * B) ^ 2 * Real.sqrt (N + 1) ^ 2 := by rw [h8]
        _ = (η * (B * Real.sqrt (N + 1))) ^ 2 := by ring
        _ = _ := by rw [e1]
    have e3 : D * B * (2 * ((↑N + 1) * η)) = 2 * D ^ 2 * Real.sqrt (N + 1) := by
      calc _ = 2 * D * (η * B) * ((N : ℝ) + 1) := by ring
        _ = 2 * D * (η * B) * Real.sqrt (N + 1) ^ 2 := by rw [h8]
        _ = 2 * D * (η * (B * Real.sqrt (N + 1))) * Real.sqrt (N + 1) := by ring
        _ = _ := by rw [e1]; ring
    rw [e3]
    have : treeDist σ p0 q ^ 2 + η ^ 2 * ∑ n ∈ range (N + 1), globalNorm (mk σ (G (P n))) ^ 2 ≤ 2 * D ^ 2 := by linarith
    exact mul_le_mul_of_nonneg_right this hs.le

/-- a training loop is deterministic -/
theorem visits_same {t : GT ℝ} {grad : ℕ → Params ℝ → Params ℝ} {σ : Spec} {P Q : ℕ → ℕ → ℕ → ℝ} (h0 : P 0 = Q 0) (hP : Visits t grad σ P)
    (hQ : Visits t grad σ Q) (n : ℕ) : mk σ (P n) = mk σ (Q n) := by
  obtain ⟨s, h1, h2⟩ := hP
  obtain ⟨s', h3, h4⟩ := hQ
  rw [← h0, h1] at h3
  cases h3
  obtain ⟨a, ha⟩ := h2 n
  obtain ⟨b, hb⟩ := h4 n
  rw [← h0, ha] at hb
  exact (Prod.mk.inj (Except.ok.inj hb)).1

theorem wavg_congr {σ : Spec} {P Q : ℕ → ℕ → ℕ → ℝ} (h : ∀ n, mk σ (P n) = mk σ (Q n)) (w : ℕ → ℝ) (N : ℕ) : mk σ (wavg w P N) = mk σ (wavg w Q N) :=
  mk_congr fun k s hk i hi => by
    simp only [wavg]
    congr 1
    exact Finset.sum_congr rfl fun n _ => by rw [mk_inj (h n) k s hk i hi]

/-- the loss `|x|` of a scalar parameter -/
noncomputable def absLoss (t : Params ℝ) : ℝ := |coord t 0 0|

theorem absLoss_mk (p : ℕ → ℕ → ℝ) : absLoss (mk (.leaf []) p) = |p 0 0| := by
  unfold absLoss
  rw [coord_mk (.leaf []) p 0 0 [] (by simp [PyTree.leaves]) (by simp)]

/-- **C129 (why average).** On the convex loss `|x|`, `sgd(1.0)` started at `1/2` alternates between `1/2` and `-1/2`: the loss of the parameters is `1/2` for ever, while the loss of the mean
computed with `incremental_update` is at most `1/(2N)`. -/
theorem C129_oscillation (old0 : ℕ → ℕ → ℝ) :
    ∃ G : (ℕ → ℕ → ℝ) → ℕ → ℕ → ℝ, StronglyConvex (.leaf []) 0 absLoss G ∧ (∀ p, globalNorm (mk (.leaf []) (G p)) ≤ 1) ∧
      ∀ grad : ℕ → Params ℝ → Params ℝ, (∀ n p, grad n (mk (.leaf []) p) = mk (.leaf []) (G p)) →
        ∃ P, P 0 = (fun _ _ => 1 / 2) ∧ Visits (sgd (.scalar 1) none false) grad (.leaf []) P ∧
          ∀ N : ℕ, absLoss (mk (.leaf []) (P N)) = 1 / 2 ∧
            ∃ A, averaged (.leaf []) P (fun n => 1 / ((n : ℝ) + 1)) old0 (N + 1) = .ok A ∧ absLoss A ≤ 1 / (2 * (N + 1)) := by
  have hidx : idx (.leaf []) = {⟨0, 0⟩} := by
    ext ⟨k, i⟩
    rw [mem_idx]
    simp only [PyTree.leaves, Finset.mem_singleton]
    constructor
    · rintro ⟨s, h1, h2⟩
      rcases k with _ | k
      · simp at h1; subst h1; simp at h2; subst h2; rfl
      · simp at h1
    · rintro h
      cases h
      exact ⟨[], by simp, by simp⟩
  set G : (ℕ → ℕ → ℝ) → ℕ → ℕ → ℝ := fun p k i => if 0 < p k i then 1 else -1 with hG
  refine ⟨G, ?_, ?_, ?_⟩
  · intro p q
    simp only [treeInner, sqDist, hidx, Finset.sum_singleton, absLoss_mk, hG]
    split_ifs with h
    · rw [abs_of_pos h]
      have := le_abs_self (q 0 0)
      linarith
    · rw [abs_of_nonpos (not_lt.1 h)]
      have := neg_le_abs (q 0 0)
      linarith
  · intro p
    rw [globalNorm_mk]
    simp only [entryNorm, hidx, l2, Finset.sum_singleton, hG]
    split_ifs <;> norm_num
  · intro grad hg
    set P := plainSgd (LR.at (.scalar (1 : ℝ))) (fun _ => G) (fun _ _ => 1 / 2) with hP
    have hv : ∀ n, P n = fun _ _ => if n % 2 = 0 then 1 / 2 else -(1 / 2) := by
      intro n
      induction n with
      | zero => funext k i; simp [hP, plainSgd]
      | succ n ih =>
        have : P (n + 1) = fun k i => P n k i - 1 * G (P n) k i := rfl
        rw [this, ih]
        funext k i
        simp only [hG]
        rcases Nat.mod_two_eq_zero_or_one n with h | h
        · have h' : (n + 1) % 2 = 1 := by omega
          norm_num [h, h']
        · have h' : (n + 1) % 2 = 0 := by omega
          norm_num [h, h']
    refine ⟨P, rfl, sgd_visits _ (.scalar 1) false grad (fun _ => G) hg _, fun N => ⟨?_, _, C129_mean _ P old0 N, ?_⟩⟩
    · rw [absLoss_mk, hv]
      split_ifs <;> norm_num
    · rw [absLoss_mk, abs_div, abs_of_pos (show (0 : ℝ) < N + 1 by positivity)]
      have h1 : ∀ N, ∑ n ∈ range N, P n 0 0 = if N % 2 = 0 then 0 else 1 / 2 := by
        intro N
        induction N with
        | zero => simp
        | succ n ih =>
          rw [Finset.sum_range_succ, ih, hv]
          rcases Nat.mod_two_eq_zero_or_one n with h | h
          · have h' : (n + 1) % 2 = 1 := by omega
            norm_num [h, h']
          · have h' : (n + 1) % 2 = 0 := by omega
            norm_num [h, h']
      rw [h1]
      rw [show (1 : ℝ) / (2 * (N + 1)) = (1 / 2) / (N + 1) by field_simp]
      gcongr
      split_ifs <;> norm_num

section random
variable {Ω S : Type} [MeasurableSpace Ω] [MeasurableSpace S]
variable {ν : Measure S} [IsProbabilityMeasure ν] {Pr : Measure Ω} [IsProbabilityMeasure Pr] {ξ : ℕ → Ω → S}

/-- expectation of the loss of the average, from a bound on the expected losses -/
theorem expected_average (σ : Spec) (lr : LR ℝ) (nes : Bool) (h0 : 0 < lr.at 0) (hlr : ∀ n, 0 ≤ lr.at n) (loss : Params ℝ → ℝ)
    (hm : Measurable fun p : ℕ → ℕ → ℝ => loss (mk σ p))
    (grad : S → Params ℝ → Params ℝ) (g : S → (ℕ → ℕ → ℝ) → ℕ → ℕ → ℝ) (hg : ∀ s p, grad s (mk σ p) = mk σ (g s p))
    (G : (ℕ → ℕ → ℝ) → ℕ → ℕ → ℝ) (hc : StronglyConvex σ 0 loss G) (V : ℝ) (h : StochasticGradient σ ν g G V) (hξ : IID ξ ν Pr)
    (p0 q old0 : ℕ → ℕ → ℝ) (hq : ∀ t, loss (mk σ q) ≤ loss t) (P : ℕ → Ω → ℕ → ℕ → ℝ)
    (hP : ∀ ω, P 0 ω = p0 ∧ Visits (sgd lr none nes) (fun n => grad (ξ n ω)) σ (fun n => P n ω))
    (hi : ∀ n, Integrable (fun ω => loss (mk σ (P n ω))) Pr) (N : ℕ) (C : ℝ)
    (hC : ∑ n ∈ range (N + 1), lr.at n * (∫ ω, loss (mk σ (P n ω)) ∂Pr - loss (mk σ q)) ≤ C) :
    ∃ A : Ω → Params ℝ, (∀ ω, averaged σ (fun n => P n ω) (fun n => lr.at n / ∑ j ∈ range (n + 1), lr.at j) old0 (N + 1) = .ok (A ω)) ∧
      Integrable (fun ω => loss (A ω)) Pr ∧ ∫ ω, loss (A ω) ∂Pr - loss (mk σ q) ≤ C / ∑ n ∈ range (N + 1), lr.at n := by
  have hpos : 0 < ∑ j ∈ range (N + 1), lr.at j := by
    rw [Finset.sum_range_succ']
    have := Finset.sum_nonneg (s := range N) fun j _ => hlr (j + 1)
    linarith
  set A : Ω → Params ℝ := fun ω => mk σ (wavg lr.at (fun n => P n ω) (N + 1)) with hA
  refine ⟨A, fun ω => C129_average σ _ lr.at h0 hlr old0 N, ?_⟩
  have hJ : ∀ ω, (∑ n ∈ range (N + 1), lr.at n) * loss (A ω) ≤ ∑ n ∈ range (N + 1), lr.at n * loss (mk σ (P n ω)) := fun ω =>
    C129_jensen σ loss G hc (fun n => P n ω) lr.at hlr (N + 1) hpos
  have e : ∀ ω, A ω = mk σ (wavg lr.at (fun n => sgdPath lr.at g ξ p0 n ω) (N + 1)) := fun ω =>
    wavg_congr (visits_same (hP ω).1 (hP ω).2 (stochastic_visits σ lr nes grad g hg p0 ξ ω)) _ _
  have hme : Measurable fun ω => loss (A ω) := by
    simp only [e]
    refine hm.comp ?_
    refine measurable_pi_iff.2 fun k => measurable_pi_iff.2 fun i => ?_
    simp only [wavg]
    refine Measurable.div_const (Finset.measurable_sum _ fun n _ => ?_) _
    have := sgdPath_measurable lr.at p0 hξ.measurable h.measurable n
    exact ((measurable_pi_iff.mp ((measurable_pi_iff.mp this) k)) i).const_mul _
  have hS : Integrable (fun ω => ∑ n ∈ range (N + 1), lr.at n * loss (mk σ (P n ω))) Pr := integrable_finsetSum _ fun n _ => (hi n).const_mul _
  have hAi : Integrable (fun ω => loss (A ω)) Pr := by
    refine Integrable.mono' ((hS.div_const (∑ n ∈ range (N + 1), lr.at n)).abs.add (integrable_const |loss (mk σ q)|)) hme.aestronglyMeasurable
      (Filter.Eventually.of_forall fun ω => ?_)
    have h1 : loss (A ω) ≤ (∑ n ∈ range (N + 1), lr.at n * loss (mk σ (P n ω))) / ∑ n ∈ range (N + 1), lr.at n := by
      rw [le_div_iff₀ hpos]; linarith [hJ ω]
    have h2 := hq (A ω)
    simp only [Pi.add_apply, Real.norm_eq_abs]
    have := le_abs_self ((∑ n ∈ range (N + 1), lr.at n * loss (mk σ (P n ω))) / ∑ n ∈ range (N + 1), lr.at n)
    have := abs_nonneg ((∑ n ∈ range (N + 1), lr.at n * loss (mk σ (P n ω))) / ∑ n ∈ range (N + 1), lr.at n)
    have := neg_abs_le (loss (mk σ q))
    have := abs_nonneg (loss (mk σ q))
    rw [abs_le]
    constructor <;> linarith
  refine ⟨hAi, ?_⟩
  have h1 := integral_mono (hAi.const_mul (∑ n ∈ range (N + 1), lr.at n)) hS hJ
  rw [integral_const_mul, integral_finsetSum _ fun n _ => (hi n).const_mul _] at h1
  simp only [integral_const_mul] at h1
  simp only [mul_sub, Finset.sum_sub_distrib, ← Finset.sum_mul] at hC
  rw [le_div_iff₀ hpos]
  linarith

/-- **C129 (stochastic gradients).** Averaged stochastic gradient descent: i.i.d. samples, unbiased gradients of variance at most `V`, a convex loss with gradients of norm at most `B` and minimiser `q`:
the expected loss of the average exceeds the minimum by at most `(‖p₀-q‖² + (B²+V) Σηₙ²) / (2 Σηₙ)`. -/
theorem C129_stochastic (σ : Spec) (lr : LR ℝ) (nes : Bool) (h0 : 0 < lr.at 0) (hlr : ∀ n, 0 ≤ lr.at n) (loss : Params ℝ → ℝ)
    (hm : Measurable fun p : ℕ → ℕ → ℝ => loss (mk σ p))
    (grad : S → Params ℝ → Params ℝ) (g : S → (ℕ → ℕ → ℝ) → ℕ → ℕ → ℝ) (hg : ∀ s p, grad s (mk σ p) = mk σ (g s p))
    (G : (ℕ → ℕ → ℝ) → ℕ → ℕ → ℝ) (hc : StronglyConvex σ 0 loss G) (V : ℝ) (h : StochasticGradient σ ν g G V) (hξ : IID ξ ν Pr)
    (B : ℝ) (hB : ∀ p, globalNorm (mk σ (G p)) ≤ B) (p0 q old0 : ℕ → ℕ → ℝ) (hq : ∀ t, loss (mk σ q) ≤ loss t) :
    ∃ P : ℕ → Ω → ℕ → ℕ → ℝ, (∀ ω, P 0 ω = p0 ∧ Visits (sgd lr none nes) (fun n => grad (ξ n ω)) σ (fun n => P n ω)) ∧
      ∀ N, ∃ A : Ω → Params ℝ, (∀ ω, averaged σ (fun n => P n ω) (fun n => lr.at n / ∑ j ∈ range (n + 1), lr.at j) old0 (N + 1) = .ok (A ω)) ∧
        Integrable (fun ω => loss (A ω)) Pr ∧ ∫ ω, loss (A ω) ∂Pr - loss (mk σ q) ≤
          (treeDist σ p0 q ^ 2 / 2 + (B ^ 2 + V) / 2 * ∑ n ∈ range (N + 1), lr.at n ^ 2) / ∑ n ∈ range (N + 1), lr.at n := by
  obtain ⟨P, h1, h2, h3⟩ := C97_convex σ lr nes hlr loss hm grad g hg G hc V h hξ B hB p0 q
  exact ⟨P, h1, fun N => expected_average σ lr nes h0 hlr loss hm grad g hg G hc V h hξ p0 q old0 hq P h1 h2 N _ (h3 (N + 1))⟩

/-- **C129 (stochastic gradients, smooth losses).** The same for an `L`-smooth convex loss and rates at most `1/(2L)`: `(‖p₀-q‖² + V Σηₙ²) / Σηₙ`. -/
theorem C129_stochastic_smooth (σ : Spec) (lr : LR ℝ) (nes : Bool) (L : ℝ) (hL : 0 < L) (h0 : 0 < lr.at 0) (hlr : ∀ n, 0 ≤ lr.at n ∧ 2 * L * lr.at n ≤ 1) (loss : Params ℝ → ℝ)
    (hm : Measurable fun p : ℕ → ℕ → ℝ => loss (mk σ p))
    (grad : S → Params ℝ → Params ℝ) (g : S → (ℕ → ℕ → ℝ) → ℕ → ℕ → ℝ) (hg : ∀ s p, grad s (mk σ p) = mk σ (g s p))
    (G : (ℕ → ℕ → ℝ) → ℕ → ℕ → ℝ) (hs : Smooth σ L loss G) (hc : StronglyConvex σ 0 loss G) (V : ℝ) (h : StochasticGradient σ ν g G V)
    (hξ : IID ξ ν Pr) (p0 q old0 : ℕ → ℕ → ℝ) (hq : ∀ t, loss (mk σ q) ≤ loss t) :
    ∃ P : ℕ → Ω → ℕ → ℕ → ℝ, (∀ ω, P 0 ω = p0 ∧ Visits (sgd lr none nes) (fun n => grad (ξ n ω)) σ (fun n => P n ω)) ∧
      ∀ N, ∃ A : Ω → Params ℝ, (∀ ω, averaged σ (fun n => P n ω) (fun n => lr.at n / ∑ j ∈ range (n + 1), lr.at j) old0 (N + 1) = .ok (A ω)) ∧
        Integrable (fun ω => loss (A ω)) Pr ∧ ∫ ω, loss (A ω) ∂Pr - loss (mk σ q) ≤
          (treeDist σ p0 q ^ 2 + V * ∑ n ∈ range (N + 1), lr.at n ^ 2) / ∑ n ∈ range (N + 1), lr.at n := by
  obtain ⟨P, h1, h2, h3⟩ := C97_convex_smooth σ lr nes L hL hlr loss hm grad g hg G hs hc V h hξ p0 q hq
  exact ⟨P, h1, fun N => expected_average σ lr nes h0 (fun n => (hlr n).1) loss hm grad g hg G hc V h hξ p0 q old0 hq P h1 h2 N _ (h3 (N + 1))⟩

end random

end Optax
