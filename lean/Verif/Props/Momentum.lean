import Verif.Props.Convergence

/-!
# C95: momentum — heavy ball converges, Nesterov momentum accelerates

Training with `sgd(learning_rate, momentum, nesterov)` through `init`, `update` and `apply_updates`.
-/

set_option linter.unusedSectionVars false
set_option linter.unusedSimpArgs false

namespace Optax
open Finset

variable (σ : Spec)

theorem momentum_visits (lr : LR ℝ) (mu : ℝ) (nes : Bool) (grad : ℕ → Params ℝ → Params ℝ)
    (G : ℕ → (ℕ → ℕ → ℝ) → ℕ → ℕ → ℝ) (hg : ∀ n p, grad n (mk σ p) = mk σ (G n p)) (p0 : ℕ → ℕ → ℝ) :
    Visits (sgd lr (some mu) nes) grad σ (fun n => (momentumSgd lr.at mu nes G p0 n).1) := by
  obtain ⟨s0, _, h0, _⟩ := C51_sgd_momentum lr mu nes σ grad G hg p0 0
  refine ⟨s0, h0, fun n => ?_⟩
  obtain ⟨s0', s, h1, h2⟩ := C51_sgd_momentum lr mu nes σ grad G hg p0 n
  rw [h1] at h0
  cases h0
  exact ⟨s, h2⟩

/-- at a minimiser of a smooth loss the gradient vanishes -/
theorem sqNorm_min {L : ℝ} (hL : 0 < L) {loss : Params ℝ → ℝ} {g : (ℕ → ℕ → ℝ) → ℕ → ℕ → ℝ} (hs : Smooth σ L loss g)
    {q : ℕ → ℕ → ℝ} (hq : ∀ t, loss (mk σ q) ≤ loss t) : ∀ x ∈ idx σ, g q x.1 x.2 = 0 := by
  have h := descent_step σ hs q (1 / L)
  have h1 := hq (mk σ (fun k i => q k i - 1 / L * g q k i))
  have h2 := sqNorm_nonneg σ (g q)
  have e : 1 / L * (1 - L * (1 / L) / 2) = 1 / (2 * L) := by field_simp; norm_num
  rw [e] at h
  have h3 : 0 < 1 / (2 * L) := by positivity
  have h4 : sqNorm σ (g q) = 0 := by nlinarith
  intro x hx
  have := (Finset.sum_eq_zero_iff_of_nonneg (fun _ _ => sq_nonneg _)).mp h4 x hx
  exact pow_eq_zero_iff (two_ne_zero) |>.mp this

theorem inner_min {L : ℝ} (hL : 0 < L) {loss : Params ℝ → ℝ} {g : (ℕ → ℕ → ℝ) → ℕ → ℕ → ℝ} (hs : Smooth σ L loss g)
    {q : ℕ → ℕ → ℝ} (hq : ∀ t, loss (mk σ q) ≤ loss t) (v : ℕ → ℕ → ℝ) : treeInner σ (g q) v = 0 := by
  unfold treeInner
  exact Finset.sum_eq_zero fun x hx => by rw [sqNorm_min σ hL hs hq x hx, zero_mul]

/-! ## Heavy ball -/

/-- co-coercivity, at a minimiser `q`: `⟨g p, p - q⟩ ≥ loss p - loss q + ‖g p‖²/(2L)` -/
theorem cocoercive {L : ℝ} (hL : 0 < L) {loss : Params ℝ → ℝ} {g : (ℕ → ℕ → ℝ) → ℕ → ℕ → ℝ} (hs : Smooth σ L loss g)
    (hc : StronglyConvex σ 0 loss g) {q : ℕ → ℕ → ℝ} (hq : ∀ t, loss (mk σ q) ≤ loss t) (p : ℕ → ℕ → ℝ) :
    loss (mk σ p) + treeInner σ (g p) (fun k i => q k i - p k i) + sqNorm σ (g p) / (2 * L) ≤ loss (mk σ q) := by
  have h1 := hc p (fun k i => q k i + 1 / L * g p k i)
  have h2 := hs q (fun k i => q k i + 1 / L * g p k i)
  rw [inner_min σ hL hs hq] at h2
  have e1 : treeInner σ (g p) (fun k i => q k i + 1 / L * g p k i - p k i) =
      treeInner σ (g p) (fun k i => q k i - p k i) + 1 / L * sqNorm σ (g p) := by
    unfold treeInner sqNorm
    rw [Finset.mul_sum, ← Finset.sum_add_distrib]
    exact Finset.sum_congr rfl fun x _ => by ring
  have e2 : sqDist σ (fun k i => q k i + 1 / L * g p k i) q = (1 / L) ^ 2 * sqNorm σ (g p) := by
    unfold sqDist sqNorm
    rw [Finset.mul_sum]
    exact Finset.sum_congr rfl fun x _ => by ring
  rw [e1] at h1
  rw [e2] at h2
  have e3 : L / 2 * ((1 / L) ^ 2 * sqNorm σ (g p)) = sqNorm σ (g p) / (2 * L) := by field_simp
  have e4 : 1 / L * sqNorm σ (g p) = 2 * (sqNorm σ (g p) / (2 * L)) := by field_simp
  rw [e3] at h2
  rw [e4] at h1
  linarith

theorem heavy_ball_step (p m g q : ℕ → ℕ → ℝ) (a c : ℝ) :
    sqDist σ (fun k i => p k i - a * m k i - c * g k i) q = sqDist σ (fun k i => p k i - a * m k i) q +
      2 * c * treeInner σ g (fun k i => q k i - p k i) + 2 * c * a * treeInner σ g m + c ^ 2 * sqNorm σ g := by
  unfold sqDist treeInner sqNorm
  simp only [Finset.mul_sum]
  rw [← Finset.sum_add_distrib, ← Finset.sum_add_distrib, ← Finset.sum_add_distrib]
  exact Finset.sum_congr rfl fun x _ => by ring

/-- **C95 (heavy ball).** `sgd(η, momentum=β)` with `0 ≤ β < 1` and `0 < η ≤ (1-β)/L` on a convex `L`-smooth loss with minimiser `q`: the
excess losses met in `N` steps sum to at most `(1-β)‖p₀-q‖²/(2η) + β/(1-β)·(loss(p₀) - loss(q))`; so the smallest (and the average) is
`O(1/N)`, for every `N`. -/
theorem C95_heavy_ball (η β L : ℝ) (hη : 0 < η) (hβ : 0 ≤ β) (hβ1 : β < 1) (hL : 0 < L) (hLη : L * η ≤ 1 - β)
    (loss : Params ℝ → ℝ) (grad : ℕ → Params ℝ → Params ℝ) (G : (ℕ → ℕ → ℝ) → ℕ → ℕ → ℝ)
    (hg : ∀ n p, grad n (mk σ p) = mk σ (G p)) (hs : Smooth σ L loss G) (hc : StronglyConvex σ 0 loss G)
    (p0 q : ℕ → ℕ → ℝ) (hq : ∀ t, loss (mk σ q) ≤ loss t) :
    ∃ P, P 0 = p0 ∧ Visits (sgd (.scalar η) (some β) false) grad σ P ∧
      ∀ N : ℕ,
        ∑ n ∈ range N, (loss (mk σ (P n)) - loss (mk σ q)) ≤
          (1 - β) * treeDist σ p0 q ^ 2 / (2 * η) + β / (1 - β) * (loss (mk σ p0) - loss (mk σ q)) ∧
        (N ≠ 0 → ∃ n < N, loss (mk σ (P n)) - loss (mk σ q) ≤
          ((1 - β) * treeDist σ p0 q ^ 2 / (2 * η) + β / (1 - β) * (loss (mk σ p0) - loss (mk σ q))) / N) := by
  set S := momentumSgd (LR.at (.scalar η)) β false (fun _ => G) p0 with hS
  have hb : 0 < 1 - β := by linarith
  set c : ℝ := η / (1 - β) with hcd
  have hc0 : 0 < c := div_pos hη hb
  have hcL : L * c ≤ 1 := by rw [hcd, ← mul_div_assoc, div_le_one hb]; exact hLη
  have hm : ∀ n, (S (n + 1)).2 = fun k i => β * (S n).2 k i + G (S n).1 k i := fun n => rfl
  have hp : ∀ n, (S (n + 1)).1 = fun k i => (S n).1 k i - η * (S (n + 1)).2 k i := fun n => rfl
  -- the averaged iterate makes plain gradient steps
  have hz : ∀ n, (fun k i => (S (n + 1)).1 k i - c * β * (S (n + 1)).2 k i) =
      fun k i => (S n).1 k i - c * β * (S n).2 k i - c * G (S n).1 k i := by
    intro n
    funext k i
    rw [hp n, hm n]
    simp only [hcd]
    field_simp
    ring
  -- difference of two successive params
  have hd : ∀ n, η * treeInner σ (G (S n).1) (S n).2 ≤ loss (mk σ (S (n - 1)).1) - loss (mk σ (S n).1) := by
    intro n
    cases n with
    | zero =>
      have : treeInner σ (G (S 0).1) (S 0).2 = 0 := by
        unfold treeInner
        exact Finset.sum_eq_zero fun x _ => by simp [hS, momentumSgd]
      rw [this]; simp
    | succ n =>
      have h := hc (S (n + 1)).1 (S n).1
      have e : treeInner σ (G (S (n + 1)).1) (fun k i => (S n).1 k i - (S (n + 1)).1 k i) =
          η * treeInner σ (G (S (n + 1)).1) (S (n + 1)).2 := by
        unfold treeInner
        rw [Finset.mul_sum]
        refine Finset.sum_congr rfl fun x _ => ?_
        have := congrFun (congrFun (hp n) x.1) x.2
        simp only [this]
        ring
      rw [e] at h
      simp only [Nat.add_sub_cancel]
      linarith
  have key : ∀ n, sqDist σ (fun k i => (S n).1 k i - c * β * (S n).2 k i) q +
      2 * c * ∑ j ∈ range n, (loss (mk σ (S j).1) - loss (mk σ q)) +
      2 * c * (β / (1 - β)) * (loss (mk σ (S (n - 1)).1) - loss (mk σ p0)) ≤ sqDist σ p0 q := by
    intro n
    induction n with
    | zero => simp [hS, momentumSgd]
    | succ n ih =>
      rw [hz, heavy_ball_step, Finset.sum_range_succ, Nat.add_sub_cancel]
      have h1 := cocoercive σ hL hs hc hq (S n).1
      have h2 := mul_le_mul_of_nonneg_left (hd n) (show 0 ≤ 2 * c * (β / (1 - β)) by positivity)
      have e : 2 * c * (β / (1 - β)) * (η * treeInner σ (G (S n).1) (S n).2) = 2 * c * (c * β) * treeInner σ (G (S n).1) (S n).2 := by
        rw [hcd]; field_simp
      rw [e] at h2
      have h3 := mul_le_mul_of_nonneg_left h1 (show 0 ≤ 2 * c by positivity)
      have h4 : c ^ 2 * sqNorm σ (G (S n).1) ≤ 2 * c * (sqNorm σ (G (S n).1) / (2 * L)) := by
        have h5 := sqNorm_nonneg σ (G (S n).1)
        have e2 : 2 * c * (sqNorm σ (G (S n).1) / (2 * L)) = c / L * sqNorm σ (G (S n).1) := by field_simp
        rw [e2]
        refine mul_le_mul_of_nonneg_right ?_ h5
        rw [le_div_iff₀ hL]
        nlinarith
      linarith
  have main : ∀ N : ℕ, ∑ n ∈ range N, (loss (mk σ (S n).1) - loss (mk σ q)) ≤
          (1 - β) * treeDist σ p0 q ^ 2 / (2 * η) + β / (1 - β) * (loss (mk σ p0) - loss (mk σ q)) := by
    intro N
    have h1 := key N
    have h2 := sqDist_nonneg σ (fun k i => (S N).1 k i - c * β * (S N).2 k i) q
    have h3 := hq (mk σ (S (N - 1)).1)
    have h4 : 0 ≤ 2 * c * (β / (1 - β)) := by positivity
    have h5 := mul_le_mul_of_nonneg_left h3 h4
    rw [← sqDist_eq]
    have e : 2 * c * ((1 - β) * sqDist σ p0 q / (2 * η) + β / (1 - β) * (loss (mk σ p0) - loss (mk σ q))) =
        sqDist σ p0 q + 2 * c * (β / (1 - β)) * (loss (mk σ p0) - loss (mk σ q)) := by
      have : 2 * c * ((1 - β) * sqDist σ p0 q / (2 * η)) = sqDist σ p0 q := by rw [hcd]; field_simp
      rw [mul_add, this, mul_assoc]; ring
    refine le_of_mul_le_mul_left ?_ (show 0 < 2 * c by positivity)
    rw [e]
    linarith
  refine ⟨fun n => (S n).1, rfl, momentum_visits σ (.scalar η) β false grad (fun _ => G) hg p0, fun N => ⟨main N, fun hN => ?_⟩⟩
  by_contra hcon
  push Not at hcon
  have hN' : (0 : ℝ) < N := by exact_mod_cast Nat.pos_of_ne_zero hN
  have := Finset.sum_lt_sum_of_nonempty (s := range N) (by simpa using hN) (fun n hn => hcon n (Finset.mem_range.mp hn))
  rw [Finset.sum_const, card_range, nsmul_eq_mul, mul_div_cancel₀ _ hN'.ne'] at this
  exact absurd (main N) (not_le.mpr this)

/-! ## Nesterov -/

theorem nesterov_sq (z y q g : ℕ → ℕ → ℝ) (θ L : ℝ) :
    sqDist σ (fun k i => (1 - θ) * z k i + θ * y k i - 1 / (L * θ) * g k i) q =
      (1 - θ) * sqDist σ z q + θ * sqDist σ y q - θ * (1 - θ) * sqDist σ z y
        + 2 / (L * θ) * treeInner σ g (fun k i => q k i - y k i)
        - 2 / (L * θ) * (1 - θ) * treeInner σ g (fun k i => z k i - y k i) + (1 / (L * θ)) ^ 2 * sqNorm σ g := by
  unfold sqDist treeInner sqNorm
  simp only [Finset.mul_sum]
  rw [← Finset.sum_add_distrib, ← Finset.sum_sub_distrib, ← Finset.sum_add_distrib, ← Finset.sum_sub_distrib, ← Finset.sum_add_distrib]
  exact Finset.sum_congr rfl fun x _ => by ring

/-- The step of the Lyapunov function `loss(x) - loss(q) + μ/2 ‖z - q‖²`. -/
theorem nesterov_step {L θ : ℝ} (hL : 0 < L) (hθ : 0 < θ) (hθ1 : θ ≤ 1) {loss : Params ℝ → ℝ} {g : (ℕ → ℕ → ℝ) → ℕ → ℕ → ℝ}
    (hs : Smooth σ L loss g) (hc : StronglyConvex σ (L * θ ^ 2) loss g) (x y z q : ℕ → ℕ → ℝ)
    (hx : x = fun k i => y k i - θ * (z k i - y k i)) :
    loss (mk σ (fun k i => y k i - 1 / L * g y k i)) - loss (mk σ q) +
        L * θ ^ 2 / 2 * sqDist σ (fun k i => (1 - θ) * z k i + θ * y k i - 1 / (L * θ) * g y k i) q ≤
      (1 - θ) * (loss (mk σ x) - loss (mk σ q) + L * θ ^ 2 / 2 * sqDist σ z q) := by
  have h1 := descent_step σ hs y (1 / L)
  have e1 : 1 / L * (1 - L * (1 / L) / 2) = 1 / (2 * L) := by field_simp; norm_num
  rw [e1] at h1
  have h2 := hc y x
  have h3 := hc y q
  rw [nesterov_sq]
  have e2 : treeInner σ (g y) (fun k i => x k i - y k i) = -θ * treeInner σ (g y) (fun k i => z k i - y k i) := by
    unfold treeInner
    rw [Finset.mul_sum, hx]
    exact Finset.sum_congr rfl fun x _ => by ring
  have e3 : sqDist σ q y = sqDist σ y q := by
    unfold sqDist; exact Finset.sum_congr rfl fun x _ => by ring
  rw [e2] at h2
  rw [e3] at h3
  have n1 := sqDist_nonneg σ x y
  have n2 := sqDist_nonneg σ z y
  have c1 : L * θ ^ 2 / 2 * (2 / (L * θ)) = θ := by field_simp
  have c2 : L * θ ^ 2 / 2 * (1 / (L * θ)) ^ 2 = 1 / (2 * L) := by field_simp
  have h4 := mul_le_mul_of_nonneg_left h3 hθ.le
  have h5 := mul_le_mul_of_nonneg_left h2 (show 0 ≤ 1 - θ by linarith)
  have p1 : 0 ≤ (1 - θ) * (L * θ ^ 2 / 2 * sqDist σ x y) := mul_nonneg (by linarith) (by positivity)
  have p2 : 0 ≤ L * θ ^ 2 / 2 * (θ * (1 - θ) * sqDist σ z y) :=
    mul_nonneg (by positivity) (mul_nonneg (mul_nonneg hθ.le (by linarith)) n2)
  set A := treeInner σ (g y) (fun k i => q k i - y k i)
  set B := treeInner σ (g y) (fun k i => z k i - y k i)
  set C := sqNorm σ (g y)
  have e4 : L * θ ^ 2 / 2 * ((1 - θ) * sqDist σ z q + θ * sqDist σ y q - θ * (1 - θ) * sqDist σ z y + 2 / (L * θ) * A -
      2 / (L * θ) * (1 - θ) * B + (1 / (L * θ)) ^ 2 * C) =
      (1 - θ) * (L * θ ^ 2 / 2 * sqDist σ z q) + θ * (L * θ ^ 2 / 2 * sqDist σ y q) - L * θ ^ 2 / 2 * (θ * (1 - θ) * sqDist σ z y) +
      θ * A - θ * (1 - θ) * B + 1 / (2 * L) * C := by
    linear_combination (A - (1 - θ) * B) * c1 + C * c2
  rw [e4]
  linarith

/-- **C95 (Nesterov).** `sgd(1/L, momentum=(1-θ)/(1+θ), nesterov=True)` with `θ = √(μ/L)` on a `μ`-strongly convex, `L`-smooth loss with
minimiser `q`: squared distance to `q` and excess loss of the params decrease like `(1-√(μ/L))^N`, while plain gradient descent (C76)
only guarantees `(1-μ/L)^N`. -/
theorem C95_nesterov (L μ : ℝ) (hμ : 0 < μ) (hμL : μ ≤ L)
    (loss : Params ℝ → ℝ) (grad : ℕ → Params ℝ → Params ℝ) (G : (ℕ → ℕ → ℝ) → ℕ → ℕ → ℝ)
    (hg : ∀ n p, grad n (mk σ p) = mk σ (G p)) (hs : Smooth σ L loss G) (hc : StronglyConvex σ μ loss G)
    (p0 q : ℕ → ℕ → ℝ) (hq : ∀ t, loss (mk σ q) ≤ loss t) :
    ∃ P, P 0 = p0 ∧ Visits (sgd (.scalar (1 / L)) (some ((1 - √(μ / L)) / (1 + √(μ / L)))) true) grad σ P ∧
      ∀ N : ℕ,
        treeDist σ (P N) q ^ 2 ≤ (1 - √(μ / L)) ^ N * ((1 + L / μ) * treeDist σ p0 q ^ 2) ∧
        loss (mk σ (P N)) - loss (mk σ q) ≤ (1 - √(μ / L)) ^ N * (L / μ * (loss (mk σ p0) - loss (mk σ q) + μ / 2 * treeDist σ p0 q ^ 2)) := by
  have hL : 0 < L := lt_of_lt_of_le hμ hμL
  set θ := √(μ / L) with hθd
  have hθ : 0 < θ := Real.sqrt_pos.mpr (by positivity)
  have hθ1 : θ ≤ 1 := Real.sqrt_le_one.mpr (by rw [div_le_one hL]; exact hμL)
  have hθ2 : L * θ ^ 2 = μ := by
    rw [hθd, Real.sq_sqrt (by positivity)]; field_simp
  set β := (1 - θ) / (1 + θ) with hβ
  set S := momentumSgd (LR.at (.scalar (1 / L))) β true (fun _ => G) p0 with hS
  have hm : ∀ n, (S (n + 1)).2 = fun k i => β * (S n).2 k i + G (S n).1 k i := fun n => rfl
  have hp : ∀ n, (S (n + 1)).1 = fun k i => (S n).1 k i - 1 / L * (G (S n).1 k i + β * (S (n + 1)).2 k i) := fun n => rfl
  -- main sequence and auxiliary sequence of Nesterov's method
  set X : ℕ → ℕ → ℕ → ℝ := fun n k i => (S n).1 k i + 1 / L * β * (S n).2 k i with hX
  set Z : ℕ → ℕ → ℕ → ℝ := fun n k i => (S n).1 k i + ((S n).1 k i - X n k i) / θ with hZ
  have hXZ : ∀ n, X n = fun k i => (S n).1 k i - θ * (Z n k i - (S n).1 k i) := by
    intro n; funext k i; simp only [hZ]; field_simp; ring
  have hXs : ∀ n, X (n + 1) = fun k i => (S n).1 k i - 1 / L * G (S n).1 k i := by
    intro n; funext k i; simp only [hX]; rw [hp n]; ring
  have hZs : ∀ n, Z (n + 1) = fun k i => (1 - θ) * Z n k i + θ * (S n).1 k i - 1 / (L * θ) * G (S n).1 k i := by
    intro n
    funext k i
    have h1 : X (n + 1) k i = (S n).1 k i - 1 / L * G (S n).1 k i := by rw [hXs n]
    simp only [hZ]
    rw [h1]
    simp only [hX]
    have h2 : (S (n + 1)).1 k i = (S n).1 k i - 1 / L * (G (S n).1 k i + β * (β * (S n).2 k i + G (S n).1 k i)) := rfl
    rw [h2, hβ]
    have : 1 + θ ≠ 0 := by positivity
    field_simp
    ring
  set V : ℕ → ℝ := fun n => loss (mk σ (X n)) - loss (mk σ q) + μ / 2 * sqDist σ (Z n) q with hV
  have hstep : ∀ n, V (n + 1) ≤ (1 - θ) * V n := by
    intro n
    have := nesterov_step σ hL hθ hθ1 hs (by rw [hθ2]; exact hc) (X n) (S n).1 (Z n) q (hXZ n)
    rw [hθ2, ← hXs, ← hZs] at this
    exact this
  have hX0 : X 0 = p0 := by funext k i; simp [hX, hS, momentumSgd]
  have hZ0 : Z 0 = p0 := by funext k i; simp only [hZ]; rw [hX0]; simp [hS, momentumSgd]
  have hVN : ∀ N, V N ≤ (1 - θ) ^ N * (loss (mk σ p0) - loss (mk σ q) + μ / 2 * sqDist σ p0 q) := by
    intro N
    induction N with
    | zero => simp only [hV, hX0, hZ0]; simp
    | succ N ih =>
      refine (hstep N).trans ?_
      rw [pow_succ', mul_assoc]
      exact mul_le_mul_of_nonneg_left ih (by linarith)
  have hdist : ∀ N, μ / 2 * sqDist σ (S N).1 q ≤ V N := by
    intro N
    have h1 := hc q (X N)
    rw [inner_min σ hL hs hq] at h1
    have h2 : (1 + θ) * sqDist σ (S N).1 q ≤ sqDist σ (X N) q + θ * sqDist σ (Z N) q := by
      unfold sqDist
      rw [Finset.mul_sum, Finset.mul_sum, ← Finset.sum_add_distrib]
      refine Finset.sum_le_sum fun x _ => ?_
      have e := congrFun (congrFun (hXZ N) x.1) x.2
      rw [e]
      nlinarith [mul_nonneg (mul_nonneg hθ.le (show 0 ≤ 1 + θ by linarith)) (sq_nonneg (Z N x.1 x.2 - (S N).1 x.1 x.2))]
    have n1 := sqDist_nonneg σ (Z N) q
    have n2 := sqDist_nonneg σ (S N).1 q
    have h3 : sqDist σ (S N).1 q ≤ sqDist σ (X N) q + sqDist σ (Z N) q := by
      have := mul_nonneg (show 0 ≤ 1 - θ by linarith) n1
      have := mul_nonneg hθ.le n2
      nlinarith
    have h4 := mul_le_mul_of_nonneg_left h3 (show 0 ≤ μ / 2 by positivity)
    simp only [hV]
    linarith
  have hgap : ∀ p, loss (mk σ p) - loss (mk σ q) ≤ L / 2 * sqDist σ p q := by
    intro p
    have h1 := hs q p
    rw [inner_min σ hL hs hq] at h1
    linarith
  have hpow : ∀ N, 0 ≤ (1 - θ) ^ N := fun N => pow_nonneg (by linarith) N
  refine ⟨fun n => (S n).1, rfl, momentum_visits σ (.scalar (1 / L)) β true grad (fun _ => G) hg p0, fun N => ⟨?_, ?_⟩⟩
  · rw [← sqDist_eq, ← sqDist_eq]
    have h1 := (hdist N).trans (hVN N)
    have h2 := mul_le_mul_of_nonneg_left (hgap p0) (hpow N)
    refine le_of_mul_le_mul_left ?_ (show 0 < μ / 2 by positivity)
    have e : μ / 2 * ((1 - θ) ^ N * ((1 + L / μ) * sqDist σ p0 q)) =
        (1 - θ) ^ N * (L / 2 * sqDist σ p0 q) + (1 - θ) ^ N * (μ / 2 * sqDist σ p0 q) := by
      field_simp
      ring
    rw [e]
    linarith
  · rw [← sqDist_eq]
    have h1 := (hdist N).trans (hVN N)
    have h2 := hgap (S N).1
    have h3 := mul_le_mul_of_nonneg_left h1 (show 0 ≤ L / μ by positivity)
    have e : L / μ * (μ / 2 * sqDist σ (S N).1 q) = L / 2 * sqDist σ (S N).1 q := by field_simp
    rw [e] at h3
    have e2 : L / μ * ((1 - θ) ^ N * (loss (mk σ p0) - loss (mk σ q) + μ / 2 * sqDist σ p0 q)) =
      (1 - θ) ^ N * (L / μ * (loss (mk σ p0) - loss (mk σ q) + μ / 2 * sqDist σ p0 q)) := by ring
    linarith

/-- Non-vacuity: an ill-conditioned quadratic `Σ w x²/2` with weights 1 (first entry of each leaf) and 4 (the others) is 4-smooth, 1-strongly
convex and convex, with minimiser 0. -/
example : ∃ (loss : Params ℝ → ℝ) (G : (ℕ → ℕ → ℝ) → ℕ → ℕ → ℝ), Smooth σ 4 loss G ∧ StronglyConvex σ 1 loss G ∧ StronglyConvex σ 0 loss G ∧
    (∀ t, loss (mk σ (fun _ _ => (0 : ℝ))) ≤ loss t) ∧ ∀ p k i, G p k i = (if i = 0 then 1 else 4) * p k i := by
  have w1 : ∀ i : ℕ, (1 : ℝ) ≤ (if i = 0 then 1 else 4) := fun i => by split <;> norm_num
  have w4 : ∀ i : ℕ, (if i = 0 then 1 else 4 : ℝ) ≤ 4 := fun i => by split <;> norm_num
  refine ⟨fun t => ∑ x ∈ idx σ, (if x.2 = 0 then 1 else 4 : ℝ) * coord t x.1 x.2 ^ 2 / 2, fun p k i => (if i = 0 then 1 else 4) * p k i, ?_, ?_, ?_, ?_, fun _ _ _ => rfl⟩
  all_goals
    have e : ∀ p : ℕ → ℕ → ℝ, ∑ x ∈ idx σ, (if x.2 = 0 then 1 else 4 : ℝ) * coord (mk σ p) x.1 x.2 ^ 2 / 2 =
        ∑ x ∈ idx σ, (if x.2 = 0 then 1 else 4 : ℝ) * p x.1 x.2 ^ 2 / 2 := fun p => by
      refine Finset.sum_congr rfl fun x hx => ?_
      obtain ⟨s, h1, h2⟩ := mem_idx.mp hx
      rw [coord_mk _ _ _ _ s h1 h2]
  · intro p q
    simp only [e, treeInner, sqDist]
    rw [Finset.mul_sum, ← Finset.sum_add_distrib, ← Finset.sum_add_distrib]
    exact Finset.sum_le_sum fun x _ => by
      nlinarith [mul_nonneg (sub_nonneg.mpr (w4 x.2)) (sq_nonneg (q x.1 x.2 - p x.1 x.2))]
  · intro p q
    simp only [e, treeInner, sqDist]
    rw [Finset.mul_sum, ← Finset.sum_add_distrib, ← Finset.sum_add_distrib]
    exact Finset.sum_le_sum fun x _ => by
      nlinarith [mul_nonneg (sub_nonneg.mpr (w1 x.2)) (sq_nonneg (q x.1 x.2 - p x.1 x.2))]
  · intro p q
    simp only [e, treeInner, sqDist]
    rw [Finset.mul_sum, ← Finset.sum_add_distrib, ← Finset.sum_add_distrib]
    exact Finset.sum_le_sum fun x _ => by
      nlinarith [mul_nonneg (sub_nonneg.mpr (w1 x.2)) (sq_nonneg (q x.1 x.2 - p x.1 x.2)), sq_nonneg (q x.1 x.2 - p x.1 x.2)]
  · intro t
    beta_reduce
    rw [e]
    simp only [ne_eq, OfNat.ofNat_ne_zero, not_false_eq_true, zero_pow, mul_zero, zero_div, Finset.sum_const_zero]
    exact Finset.sum_nonneg fun x _ => by
      have := w1 x.2
      have := mul_nonneg (show (0:ℝ) ≤ (if x.2 = 0 then 1 else 4) by linarith) (sq_nonneg (coord t x.1 x.2))
      linarith

end Optax
