import Verif.Props.AliasReal
import Verif.Props.Projection

/-!
# C76: SGD converges at the textbook rates

Training with `sgd(learning_rate)` (no momentum), through `init`, `update` and `apply_updates`, on losses of which only the
subgradient inequality (convexity), the quadratic upper bound (`L`-smoothness) or strong convexity is assumed.
-/

set_option linter.unusedSectionVars false
set_option linter.unusedSimpArgs false

namespace Optax
open Finset

variable (σ : Spec)

/-- squared distance of two trees: sum over all entries of the squared differences -/
noncomputable def sqDist (σ : Spec) (a b : ℕ → ℕ → ℝ) : ℝ := ∑ x ∈ idx σ, (a x.1 x.2 - b x.1 x.2) ^ 2

/-- squared norm of a tree: sum over all entries of the squares -/
noncomputable def sqNorm (σ : Spec) (a : ℕ → ℕ → ℝ) : ℝ := ∑ x ∈ idx σ, a x.1 x.2 ^ 2

theorem sqNorm_nonneg (a : ℕ → ℕ → ℝ) : 0 ≤ sqNorm σ a := Finset.sum_nonneg fun _ _ => sq_nonneg _

theorem sqDist_nonneg (a b : ℕ → ℕ → ℝ) : 0 ≤ sqDist σ a b := Finset.sum_nonneg fun _ _ => sq_nonneg _

/-- these are the squares of `global_norm` -/
theorem sqNorm_eq (a : ℕ → ℕ → ℝ) : sqNorm σ a = globalNorm (mk σ a) ^ 2 := by
  rw [globalNorm_mk]; exact (l2_sq _ _).symm

theorem sqDist_eq (a b : ℕ → ℕ → ℝ) : sqDist σ a b = treeDist σ a b ^ 2 := by
  unfold treeDist; rw [globalNorm_mk]; exact (l2_sq (idx σ) fun x => a x.1 x.2 - b x.1 x.2).symm

/-- `loss` lies above its tangents: `loss q ≥ loss p + ⟨g p, q - p⟩ + μ/2 ‖q - p‖²`. `μ = 0` is convexity, with `g` a
(sub)gradient; `μ > 0` is `μ`-strong convexity. -/
def StronglyConvex (σ : Spec) (μ : ℝ) (loss : Params ℝ → ℝ) (g : (ℕ → ℕ → ℝ) → ℕ → ℕ → ℝ) : Prop :=
  ∀ p q : ℕ → ℕ → ℝ,
    loss (mk σ p) + treeInner σ (g p) (fun k i => q k i - p k i) + μ / 2 * sqDist σ q p ≤ loss (mk σ q)

/-- `loss q ≤ loss p + ⟨g p, q - p⟩ + L/2 ‖q - p‖²`: the gradients are `L`-Lipschitz. -/
def Smooth (σ : Spec) (L : ℝ) (loss : Params ℝ → ℝ) (g : (ℕ → ℕ → ℝ) → ℕ → ℕ → ℝ) : Prop :=
  ∀ p q : ℕ → ℕ → ℝ,
    loss (mk σ q) ≤ loss (mk σ p) + treeInner σ (g p) (fun k i => q k i - p k i) + L / 2 * sqDist σ q p

/-- one step: `‖p - η g - q‖² = ‖p - q‖² + 2η⟨g, q - p⟩ + η²‖g‖²` -/
theorem sqDist_step (p g q : ℕ → ℕ → ℝ) (η : ℝ) :
    sqDist σ (fun k i => p k i - η * g k i) q =
      sqDist σ p q + 2 * η * treeInner σ g (fun k i => q k i - p k i) + η ^ 2 * sqNorm σ g := by
  unfold sqDist treeInner sqNorm
  rw [Finset.mul_sum, Finset.mul_sum, ← Finset.sum_add_distrib, ← Finset.sum_add_distrib]
  exact Finset.sum_congr rfl fun x _ => by ring

theorem inner_step (p g : ℕ → ℕ → ℝ) (η : ℝ) :
    treeInner σ g (fun k i => (p k i - η * g k i) - p k i) = -η * sqNorm σ g := by
  unfold treeInner sqNorm
  rw [Finset.mul_sum]
  exact Finset.sum_congr rfl fun x _ => by ring

theorem sqDist_self_step (p g : ℕ → ℕ → ℝ) (η : ℝ) :
    sqDist σ (fun k i => p k i - η * g k i) p = η ^ 2 * sqNorm σ g := by
  unfold sqDist sqNorm
  rw [Finset.mul_sum]
  exact Finset.sum_congr rfl fun x _ => by ring

/-- The params a training loop with `t` visits: after `n` iterations it is at `mk σ (P n)`. -/
def Visits (t : GT ℝ) (grad : ℕ → Params ℝ → Params ℝ) (σ : Spec) (P : ℕ → ℕ → ℕ → ℝ) : Prop :=
  ∃ s0, t.init (mk σ (P 0)) = .ok s0 ∧ ∀ n, ∃ s, trainLoop t grad n s0 (mk σ (P 0)) = .ok (mk σ (P n), s)

theorem sgd_visits (lr : LR ℝ) (nes : Bool) (grad : ℕ → Params ℝ → Params ℝ)
    (G : ℕ → (ℕ → ℕ → ℝ) → ℕ → ℕ → ℝ) (hg : ∀ n p, grad n (mk σ p) = mk σ (G n p)) (p0 : ℕ → ℕ → ℝ) :
    Visits (sgd lr none nes) grad σ (plainSgd lr.at G p0) := by
  obtain ⟨s0, _, h0, _⟩ := C51_sgd_plain lr nes σ grad G hg p0 0
  refine ⟨s0, h0, fun n => ?_⟩
  obtain ⟨s0', s, h1, h2⟩ := C51_sgd_plain lr nes σ grad G hg p0 n
  rw [h1] at h0
  cases h0
  exact ⟨s, h2⟩

/-- **C76 (regret, any schedule).** For every sequence of convex losses (one per step, adversarial), every learning-rate
schedule with non-negative rates and every comparator `q`:
`Σ ηₙ (lossₙ(pₙ) - lossₙ(q)) ≤ ‖p₀ - q‖²/2 + Σ ηₙ²‖gₙ‖²/2`. -/
theorem C76_regret (lr : LR ℝ) (nes : Bool) (hlr : ∀ n, 0 ≤ lr.at n) (loss : ℕ → Params ℝ → ℝ)
    (grad : ℕ → Params ℝ → Params ℝ) (G : ℕ → (ℕ → ℕ → ℝ) → ℕ → ℕ → ℝ)
    (hg : ∀ n p, grad n (mk σ p) = mk σ (G n p)) (hconv : ∀ n, StronglyConvex σ 0 (loss n) (G n)) (p0 q : ℕ → ℕ → ℝ) :
    ∃ P, P 0 = p0 ∧ Visits (sgd lr none nes) grad σ P ∧
      ∀ N, ∑ n ∈ range N, lr.at n * (loss n (mk σ (P n)) - loss n (mk σ q)) ≤
        sqDist σ p0 q / 2 + (∑ n ∈ range N, lr.at n ^ 2 * sqNorm σ (G n (P n))) / 2 := by
  refine ⟨plainSgd lr.at G p0, rfl, sgd_visits σ lr nes grad G hg p0, ?_⟩
  intro N
  have key : ∀ N, ∑ n ∈ range N, lr.at n * (loss n (mk σ (plainSgd lr.at G p0 n)) - loss n (mk σ q)) +
      sqDist σ (plainSgd lr.at G p0 N) q / 2 ≤
      sqDist σ p0 q / 2 + (∑ n ∈ range N, lr.at n ^ 2 * sqNorm σ (G n (plainSgd lr.at G p0 n))) / 2 := by
    intro N
    induction N with
    | zero => simp [plainSgd]
    | succ N ih =>
      rw [Finset.sum_range_succ, Finset.sum_range_succ]
      have h1 := hconv N (plainSgd lr.at G p0 N) q
      have h2 := sqDist_step σ (plainSgd lr.at G p0 N) (G N (plainSgd lr.at G p0 N)) q (lr.at N)
      rw [zero_div, zero_mul, add_zero] at h1
      have h3 := mul_le_mul_of_nonneg_left h1 (hlr N)
      change _ + sqDist σ (fun k i => plainSgd lr.at G p0 N k i - lr.at N * G N (plainSgd lr.at G p0 N) k i) q / 2 ≤ _
      rw [h2]
      linarith
  have := key N
  have := sqDist_nonneg σ (plainSgd lr.at G p0 N) q
  linarith

/-- **C76 (regret, constant rate).** With a constant learning rate `η > 0` and gradients of norm at most `B`, the regret after
`N` steps is at most `‖p₀ - q‖²/(2η) + η B² N/2`: sublinear (`√N`) for `η ∼ 1/√N`. -/
theorem C76_regret_constant (η : ℝ) (hη : 0 < η) (nes : Bool) (loss : ℕ → Params ℝ → ℝ)
    (grad : ℕ → Params ℝ → Params ℝ) (G : ℕ → (ℕ → ℕ → ℝ) → ℕ → ℕ → ℝ)
    (hg : ∀ n p, grad n (mk σ p) = mk σ (G n p)) (hconv : ∀ n, StronglyConvex σ 0 (loss n) (G n)) (p0 q : ℕ → ℕ → ℝ)
    (B : ℝ) (hB : ∀ n p, globalNorm (grad n (mk σ p)) ≤ B) :
    ∃ P, P 0 = p0 ∧ Visits (sgd (.scalar η) none nes) grad σ P ∧
      ∀ N : ℕ, ∑ n ∈ range N, (loss n (mk σ (P n)) - loss n (mk σ q)) ≤
        sqDist σ p0 q / (2 * η) + η * B ^ 2 * N / 2 := by
  obtain ⟨P, h0, h1, h2⟩ := C76_regret σ (.scalar η) nes (fun _ => hη.le) loss grad G hg hconv p0 q
  refine ⟨P, h0, h1, fun N => ?_⟩
  have h3 := h2 N
  simp only [LR.at, ← Finset.mul_sum] at h3
  have h4 : ∑ n ∈ range N, sqNorm σ (G n (P n)) ≤ N * B ^ 2 := by
    calc _ ≤ ∑ _n ∈ range N, B ^ 2 := by
          refine Finset.sum_le_sum fun n _ => ?_
          rw [sqNorm_eq, ← hg]
          exact pow_le_pow_left₀ (C61_nonneg _) (hB n _) 2
      _ = _ := by simp
  have h5 : η * ∑ n ∈ range N, (loss n (mk σ (P n)) - loss n (mk σ q)) ≤ η * (sqDist σ p0 q / (2 * η) + η * B ^ 2 * N / 2) := by
    have e : η * (sqDist σ p0 q / (2 * η) + η * B ^ 2 * N / 2) = sqDist σ p0 q / 2 + η ^ 2 * (N * B ^ 2) / 2 := by
      field_simp
    rw [e]
    have := mul_le_mul_of_nonneg_left h4 (sq_nonneg η)
    linarith
  exact le_of_mul_le_mul_left h5 hη

/-- the descent lemma -/
theorem descent_step {L : ℝ} {loss : Params ℝ → ℝ} {g : (ℕ → ℕ → ℝ) → ℕ → ℕ → ℝ} (hs : Smooth σ L loss g)
    (p : ℕ → ℕ → ℝ) (η : ℝ) :
    loss (mk σ (fun k i => p k i - η * g p k i)) ≤ loss (mk σ p) - η * (1 - L * η / 2) * sqNorm σ (g p) := by
  have := hs p (fun k i => p k i - η * g p k i)
  rw [inner_step, sqDist_self_step] at this
  linarith

/-- **C76 (descent).** On an `L`-smooth loss (convex or not) every step with `0 ≤ ηₙ ≤ 1/L` decreases the loss by at least
`ηₙ‖g‖²/2`; hence the loss never increases, and with a constant rate the squared gradient norms met in `N` steps sum to at
most `2(loss(p₀) - inf loss)/η`: gradients of arbitrarily small norm are met. -/
theorem C76_descent (lr : LR ℝ) (nes : Bool) (L : ℝ) (hlr : ∀ n, 0 ≤ lr.at n ∧ L * lr.at n ≤ 1) (loss : Params ℝ → ℝ)
    (grad : ℕ → Params ℝ → Params ℝ) (G : (ℕ → ℕ → ℝ) → ℕ → ℕ → ℝ)
    (hg : ∀ n p, grad n (mk σ p) = mk σ (G p)) (hs : Smooth σ L loss G) (p0 : ℕ → ℕ → ℝ) :
    ∃ P, P 0 = p0 ∧ Visits (sgd lr none nes) grad σ P ∧
      (∀ n, loss (mk σ (P (n + 1))) ≤ loss (mk σ (P n)) - lr.at n / 2 * globalNorm (mk σ (G (P n))) ^ 2) ∧
      (∀ n m, n ≤ m → loss (mk σ (P m)) ≤ loss (mk σ (P n))) ∧
      ∀ lo, (∀ t, lo ≤ loss t) → ∀ N,
        ∑ n ∈ range N, lr.at n * globalNorm (mk σ (G (P n))) ^ 2 ≤ 2 * (loss (mk σ p0) - lo) := by
  have h1 : ∀ n, loss (mk σ (plainSgd lr.at (fun _ => G) p0 (n + 1))) ≤
      loss (mk σ (plainSgd lr.at (fun _ => G) p0 n)) -
        lr.at n / 2 * globalNorm (mk σ (G (plainSgd lr.at (fun _ => G) p0 n))) ^ 2 := by
    intro n
    have := descent_step σ hs (plainSgd lr.at (fun _ => G) p0 n) (lr.at n)
    rw [← sqNorm_eq]
    refine this.trans ?_
    have h2 := sqNorm_nonneg σ (G (plainSgd lr.at (fun _ => G) p0 n))
    obtain ⟨h3, h4⟩ := hlr n
    have h5 : lr.at n / 2 ≤ lr.at n * (1 - L * lr.at n / 2) := by nlinarith
    have := mul_le_mul_of_nonneg_right h5 h2
    linarith
  refine ⟨plainSgd lr.at (fun _ => G) p0, rfl, sgd_visits σ lr nes grad (fun _ => G) hg p0, h1, ?_, ?_⟩
  · intro n m hnm
    induction m, hnm using Nat.le_induction with
    | base => exact le_refl _
    | succ m _ ih =>
      have h2 := h1 m
      have h3 := (hlr m).1
      have : 0 ≤ lr.at m / 2 * globalNorm (mk σ (G (plainSgd lr.at (fun _ => G) p0 m))) ^ 2 := by positivity
      linarith
  · intro lo hlo N
    have key : ∀ N, ∑ n ∈ range N, lr.at n * globalNorm (mk σ (G (plainSgd lr.at (fun _ => G) p0 n))) ^ 2 ≤
        2 * (loss (mk σ p0) - loss (mk σ (plainSgd lr.at (fun _ => G) p0 N))) := by
      intro N
      induction N with
      | zero => simp [plainSgd]
      | succ N ih =>
        rw [Finset.sum_range_succ]
        have := h1 N
        linarith
    have := key N
    have := hlo (mk σ (plainSgd lr.at (fun _ => G) p0 N))
    linarith

/-- distance to any point `q`, one step on a convex smooth loss with `ηL ≤ 1`:
`‖p⁺ - q‖² ≤ (1 - ημ)‖p - q‖² - 2η(loss(p⁺) - loss(q))` -/
theorem convex_step {L μ : ℝ} {loss : Params ℝ → ℝ} {g : (ℕ → ℕ → ℝ) → ℕ → ℕ → ℝ} (hs : Smooth σ L loss g)
    (hc : StronglyConvex σ μ loss g) (p q : ℕ → ℕ → ℝ) (η : ℝ) (hη : 0 ≤ η) (hL : L * η ≤ 1) :
    sqDist σ (fun k i => p k i - η * g p k i) q ≤
      (1 - η * μ) * sqDist σ p q - 2 * η * (loss (mk σ (fun k i => p k i - η * g p k i)) - loss (mk σ q)) := by
  rw [sqDist_step]
  have h1 := descent_step σ hs p η
  have h2 := hc p q
  have e : sqDist σ q p = sqDist σ p q := by
    unfold sqDist; exact Finset.sum_congr rfl fun x _ => by ring
  rw [e] at h2
  have h3 := sqNorm_nonneg σ (g p)
  have h4 := mul_le_mul_of_nonneg_left h2 hη
  have h5 := mul_le_mul_of_nonneg_left h1 hη
  have h6 : η ^ 2 * sqNorm σ (g p) ≤ 2 * η * (η * (1 - L * η / 2) * sqNorm σ (g p)) := by
    have : η ^ 2 ≤ 2 * η * (η * (1 - L * η / 2)) := by nlinarith [sq_nonneg η]
    have := mul_le_mul_of_nonneg_right this h3
    linarith
  linarith

/-- **C76 (convex rate).** On a convex `L`-smooth loss with constant rate `0 < η ≤ 1/L`:
`loss(p_N) - loss(q) ≤ ‖p₀ - q‖²/(2ηN)` for every `q` and `N ≥ 1`. -/
theorem C76_convex (η : ℝ) (nes : Bool) (L : ℝ) (hη : 0 < η) (hL : L * η ≤ 1) (loss : Params ℝ → ℝ)
    (grad : ℕ → Params ℝ → Params ℝ) (G : (ℕ → ℕ → ℝ) → ℕ → ℕ → ℝ) (hg : ∀ n p, grad n (mk σ p) = mk σ (G p))
    (hs : Smooth σ L loss G) (hc : StronglyConvex σ 0 loss G) (p0 q : ℕ → ℕ → ℝ) :
    ∃ P, P 0 = p0 ∧ Visits (sgd (.scalar η) none nes) grad σ P ∧
      ∀ N : ℕ, N ≠ 0 → loss (mk σ (P N)) - loss (mk σ q) ≤ sqDist σ p0 q / (2 * η * N) := by
  set P := plainSgd (LR.at (.scalar η)) (fun _ => G) p0 with hP
  have hstep : ∀ n, P (n + 1) = fun k i => P n k i - η * G (P n) k i := fun n => rfl
  have hdec : ∀ n, loss (mk σ (P (n + 1))) ≤ loss (mk σ (P n)) := by
    intro n
    rw [hstep]
    have h1 := descent_step σ hs (P n) η
    have h2 := sqNorm_nonneg σ (G (P n))
    have h3 : 0 ≤ η * (1 - L * η / 2) := mul_nonneg hη.le (by linarith)
    have := mul_nonneg h3 h2
    linarith
  refine ⟨P, rfl, sgd_visits σ (.scalar η) nes grad (fun _ => G) hg p0, ?_⟩
  have key : ∀ N : ℕ, 2 * η * N * (loss (mk σ (P N)) - loss (mk σ q)) + sqDist σ (P N) q ≤ sqDist σ p0 q := by
    intro N
    induction N with
    | zero => simp [hP, plainSgd]
    | succ N ih =>
      have h1 := convex_step σ hs hc (P N) q η hη.le hL
      rw [← hstep, mul_zero, sub_zero, one_mul] at h1
      have h2 : 2 * η * N * (loss (mk σ (P (N + 1))) - loss (mk σ q)) ≤ 2 * η * N * (loss (mk σ (P N)) - loss (mk σ q)) :=
        mul_le_mul_of_nonneg_left (by linarith [hdec N]) (by positivity)
      push_cast
      linarith
  intro N hN
  have hN' : (0 : ℝ) < N := by exact_mod_cast Nat.pos_of_ne_zero hN
  rw [le_div_iff₀ (by positivity)]
  have := key N
  have := sqDist_nonneg σ (P N) q
  linarith

/-- **C76 (linear convergence).** On a `μ`-strongly convex `L`-smooth loss with constant rate `0 ≤ η ≤ 1/L`, `ημ ≤ 1`, the
distance to the minimiser decreases geometrically: `‖p_N - q‖² ≤ (1 - ημ)^N ‖p₀ - q‖²`. -/
theorem C76_strongly_convex (η : ℝ) (nes : Bool) (L μ : ℝ) (hη : 0 ≤ η) (hL : L * η ≤ 1) (hμ : η * μ ≤ 1)
    (loss : Params ℝ → ℝ) (grad : ℕ → Params ℝ → Params ℝ) (G : (ℕ → ℕ → ℝ) → ℕ → ℕ → ℝ)
    (hg : ∀ n p, grad n (mk σ p) = mk σ (G p)) (hs : Smooth σ L loss G) (hc : StronglyConvex σ μ loss G)
    (p0 q : ℕ → ℕ → ℝ) (hq : ∀ t, loss (mk σ q) ≤ loss t) :
    ∃ P, P 0 = p0 ∧ Visits (sgd (.scalar η) none nes) grad σ P ∧
      ∀ N : ℕ, treeDist σ (P N) q ^ 2 ≤ (1 - η * μ) ^ N * treeDist σ p0 q ^ 2 := by
  set P := plainSgd (LR.at (.scalar η)) (fun _ => G) p0 with hP
  have hstep : ∀ n, P (n + 1) = fun k i => P n k i - η * G (P n) k i := fun n => rfl
  refine ⟨P, rfl, sgd_visits σ (.scalar η) nes grad (fun _ => G) hg p0, ?_⟩
  intro N
  rw [← sqDist_eq, ← sqDist_eq]
  induction N with
  | zero => simp [hP, plainSgd]
  | succ N ih =>
    have h1 := convex_step σ hs hc (P N) q η hη hL
    rw [← hstep] at h1
    have h2 := hq (mk σ (P (N + 1)))
    have h3 : 0 ≤ 2 * η * (loss (mk σ (P (N + 1))) - loss (mk σ q)) := by
      apply mul_nonneg <;> linarith
    have h4 := mul_le_mul_of_nonneg_left ih (show 0 ≤ 1 - η * μ by linarith)
    rw [pow_succ']
    linarith

/-- Non-vacuity: the quadratic loss `½ Σ x²` is 1-smooth and 1-strongly convex with gradient `x`, and is minimal at 0. -/
example : Smooth σ 1 (fun t => sqNorm σ (coord t) / 2) (fun p => p) ∧
    StronglyConvex σ 1 (fun t => sqNorm σ (coord t) / 2) (fun p => p) ∧
    ∀ t, sqNorm σ (coord (mk σ (fun _ _ => (0 : ℝ)))) / 2 ≤ sqNorm σ (coord t) / 2 := by
  have e : ∀ p : ℕ → ℕ → ℝ, sqNorm σ (coord (mk σ p)) = sqNorm σ p := by
    intro p
    unfold sqNorm
    refine Finset.sum_congr rfl fun x hx => ?_
    obtain ⟨s, h1, h2⟩ := mem_idx.mp hx
    rw [coord_mk _ _ _ _ s h1 h2]
  have k : ∀ p q : ℕ → ℕ → ℝ,
      sqNorm σ q / 2 = sqNorm σ p / 2 + treeInner σ p (fun k i => q k i - p k i) + 1 / 2 * sqDist σ q p := by
    intro p q
    unfold sqNorm treeInner sqDist
    rw [Finset.sum_div, Finset.sum_div, Finset.mul_sum, ← Finset.sum_add_distrib, ← Finset.sum_add_distrib]
    exact Finset.sum_congr rfl fun x _ => by ring
  refine ⟨fun p q => ?_, fun p q => ?_, fun t => ?_⟩
  · simp only [e]; exact (k p q).le
  · simp only [e]; exact (k p q).ge
  · rw [e]
    have : sqNorm σ (fun _ _ => (0 : ℝ)) = 0 := by simp [sqNorm]
    rw [this]
    have := sqNorm_nonneg σ (coord t)
    linarith

end Optax
