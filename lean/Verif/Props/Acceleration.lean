import Verif.Props.StabilityEdge

/-!
# C153: momentum accelerates on ill-conditioned quadratics

Plain sgd cannot beat the factor `(L - μ)/(L + μ)` per step, whatever its rate; heavy-ball momentum `β` reaches `√β`, for every `β` above `((√L - √μ)/(√L + √μ))²`.
-/

set_option linter.unusedSectionVars false
set_option linter.unusedSimpArgs false

namespace Optax
open Finset Filter Topology

variable (σ : Spec)

/-- the energy `w' ² - s w w' + d w²` of a second-order recurrence shrinks by exactly `d` per step; with complex roots it bounds `w` -/
theorem damped_bound (w : ℕ → ℝ) (s d : ℝ) (hw : ∀ n, w (n + 2) = s * w (n + 1) - d * w n) (n : ℕ) :
    w n ^ 2 * (4 * d - s ^ 2) ≤ 4 * d ^ n * (w 1 ^ 2 - s * w 0 * w 1 + d * w 0 ^ 2) := by
  have h : ∀ n, w (n + 1) ^ 2 - s * w n * w (n + 1) + d * w n ^ 2 = d ^ n * (w 1 ^ 2 - s * w 0 * w 1 + d * w 0 ^ 2) := by
    intro n
    induction n with
    | zero => ring
    | succ n ih =>
      linear_combination d * ih + (w (n + 2) - d * w n) * hw n
  have h2 := h n
  nlinarith [sq_nonneg (2 * w (n + 1) - s * w n)]

/-- the recurrence of one direction of constant curvature under `momentumSgd` -/
theorem direction_recurrence (η β : ℝ) (nes : Bool) (G : (ℕ → ℕ → ℝ) → ℕ → ℕ → ℝ) (q v : ℕ → ℕ → ℝ) (c : ℝ)
    (hv : ∀ p, ∑ x ∈ idx σ, v x.1 x.2 * G p x.1 x.2 = c * component σ v p q) (p0 : ℕ → ℕ → ℝ) :
    ∃ m : ℕ → ℝ, m 0 = 0 ∧
      (∀ n, m (n + 1) = β * m n + η * c * component σ v (momentumSgd (fun _ => η) β nes (fun _ => G) p0 n).1 q) ∧
      ∀ n, component σ v (momentumSgd (fun _ => η) β nes (fun _ => G) p0 (n + 1)).1 q =
        component σ v (momentumSgd (fun _ => η) β nes (fun _ => G) p0 n).1 q -
          if nes then η * c * component σ v (momentumSgd (fun _ => η) β nes (fun _ => G) p0 n).1 q + β * m (n + 1) else m (n + 1) := by
  obtain ⟨S, hS⟩ : ∃ S, S = momentumSgd (fun _ => η) β nes (fun _ => G) p0 := ⟨_, rfl⟩
  rw [← hS]
  have hS1 : ∀ n, (S (n + 1)).2 = fun k i => β * (S n).2 k i + G (S n).1 k i := fun n => by rw [hS]; rfl
  have hS2 : ∀ n, (S (n + 1)).1 = fun k i => (S n).1 k i - η * (if nes then G (S n).1 k i + β * (S (n + 1)).2 k i
      else (S (n + 1)).2 k i) := fun n => by rw [hS]; rfl
  have pull : ∀ u : ℕ → ℕ → ℝ, ∑ x ∈ idx σ, v x.1 x.2 * (β * u x.1 x.2) = β * ∑ x ∈ idx σ, v x.1 x.2 * u x.1 x.2 := fun u => by
    rw [Finset.mul_sum]; exact Finset.sum_congr rfl fun x _ => by ring
  refine ⟨fun n => η * ∑ x ∈ idx σ, v x.1 x.2 * (S n).2 x.1 x.2, ?_, fun n => ?_, fun n => ?_⟩
  · simp [hS, momentumSgd]
  · have e := hv (S n).1
    simp only [hS1 n, mul_add, Finset.sum_add_distrib, e, pull]
    ring
  · have e := hv (S n).1
    have e2 : ∀ u : ℕ → ℕ → ℝ, component σ v (fun k i => (S n).1 k i - η * u k i) q =
        component σ v (S n).1 q - η * ∑ x ∈ idx σ, v x.1 x.2 * u x.1 x.2 := by
      intro u
      unfold component
      rw [Finset.mul_sum, ← Finset.sum_sub_distrib]
      exact Finset.sum_congr rfl fun x _ => by ring
    rw [hS2 n, e2]
    cases nes with
    | false => simp only [Bool.false_eq_true, if_false]
    | true =>
      simp only [if_true, mul_add, Finset.sum_add_distrib, e, pull]
      ring

/-- the squared factor per step of an underdamped direction with learning rate × curvature `a` -/
noncomputable def damping (β : ℝ) (nes : Bool) (a : ℝ) : ℝ := if nes then β * (1 - a) else β

/-- how far a direction is inside the underdamped range: positive exactly for `(1 - √β)² < a < (1 + √β)²` (heavy ball),
`((1 - β)/(1 + β))² < a < 1` (Nesterov) -/
noncomputable def underdamped (β : ℝ) (nes : Bool) (a : ℝ) : ℝ :=
  if nes then (1 - a) * (4 * β - (1 + β) ^ 2 * (1 - a)) else (a - (1 - √β) ^ 2) * ((1 + √β) ^ 2 - a)

theorem direction_bound (η β : ℝ) (hβ : 0 ≤ β) (nes : Bool) (G : (ℕ → ℕ → ℝ) → ℕ → ℕ → ℝ) (q v : ℕ → ℕ → ℝ) (c : ℝ)
    (hv : ∀ p, ∑ x ∈ idx σ, v x.1 x.2 * G p x.1 x.2 = c * component σ v p q) (p0 : ℕ → ℕ → ℝ) (n : ℕ) :
    component σ v (momentumSgd (fun _ => η) β nes (fun _ => G) p0 n).1 q ^ 2 * underdamped β nes (η * c) ≤
      4 * damping β nes (η * c) ^ n * (β * (if nes then β else 1) * (η * c)) * component σ v p0 q ^ 2 := by
  obtain ⟨m, hm0, hm, hw⟩ := direction_recurrence σ η β nes G q v c hv p0
  obtain ⟨w, hwd⟩ : ∃ w : ℕ → ℝ, w = fun n => component σ v (momentumSgd (fun _ => η) β nes (fun _ => G) p0 n).1 q := ⟨_, rfl⟩
  have hw' : ∀ n, w (n + 1) = w n - if nes then η * c * w n + β * m (n + 1) else m (n + 1) := fun n => by rw [hwd]; exact hw n
  have hm' : ∀ n, m (n + 1) = β * m n + η * c * w n := fun n => by rw [hwd]; exact hm n
  have e0 : component σ v p0 q = w 0 := by rw [hwd]; rfl
  have en : component σ v (momentumSgd (fun _ => η) β nes (fun _ => G) p0 n).1 q = w n := by rw [hwd]
  rw [e0, en]
  generalize η * c = a at *
  have hsq := Real.sq_sqrt hβ
  cases nes with
  | false =>
    simp only [underdamped, damping, Bool.false_eq_true, if_false] at hw' ⊢
    have h1 : w 1 = (1 - a) * w 0 := by
      have e := hw' 0
      have e2 := hm' 0
      rw [hm0] at e2
      rw [zero_add] at e e2
      linear_combination e - e2
    have h := damped_bound w (1 + β - a) β (fun n => by linear_combination hw' (n + 1) - hm' (n + 1) - β * hw' n) n
    have k1 : (a - (1 - √β) ^ 2) * ((1 + √β) ^ 2 - a) = 4 * β - (1 + β - a) ^ 2 := by
      linear_combination (-(√β ^ 2) - β + 2 + 2 * a) * hsq
    rw [k1]
    refine h.trans (le_of_eq ?_)
    rw [h1]; ring
  | true =>
    simp only [underdamped, damping, if_true] at hw' ⊢
    have h1 : w 1 = ((1 + β) * (1 - a) - β) * w 0 := by
      have e := hw' 0
      have e2 := hm' 0
      rw [hm0] at e2
      rw [zero_add] at e e2
      linear_combination e - β * e2
    have h := damped_bound w ((1 + β) * (1 - a)) (β * (1 - a)) (fun n => by linear_combination hw' (n + 1) - β * hm' (n + 1) - β * hw' n) n
    refine le_trans (le_of_eq ?_) (h.trans (le_of_eq ?_))
    · ring
    · rw [h1]; ring

/-- **C153 (one direction, heavy ball and Nesterov).** Along a direction of constant curvature `c` in the underdamped range the component of the error shrinks by at least `√damping` per step, up to a constant: `√β` (heavy ball),
`√(β (1 - η c)) ≤ √β` (Nesterov). -/
theorem C153_direction (η β : ℝ) (hβ : 0 ≤ β) (nes : Bool) (c : ℝ) (hu : 0 < underdamped β nes (η * c))
    (grad : ℕ → Params ℝ → Params ℝ) (G : (ℕ → ℕ → ℝ) → ℕ → ℕ → ℝ) (hg : ∀ n p, grad n (mk σ p) = mk σ (G p)) (q v : ℕ → ℕ → ℝ)
    (hv : ∀ p, ∑ x ∈ idx σ, v x.1 x.2 * G p x.1 x.2 = c * component σ v p q) (p0 : ℕ → ℕ → ℝ) :
    ∃ P, P 0 = p0 ∧ Visits (sgd (.scalar η) (some β) nes) grad σ P ∧
      ∀ n, component σ v (P n) q ^ 2 ≤
        4 * (β * (if nes then β else 1) * (η * c)) / underdamped β nes (η * c) * damping β nes (η * c) ^ n * component σ v p0 q ^ 2 := by
  refine ⟨fun n => (momentumSgd (LR.at (.scalar η)) β nes (fun _ => G) p0 n).1, rfl, momentum_visits σ (.scalar η) β nes grad (fun _ => G) hg p0, fun n => ?_⟩
  rw [div_mul_eq_mul_div, div_mul_eq_mul_div, le_div_iff₀ hu]
  refine (direction_bound σ η β hβ nes G q v c hv p0 n).trans (le_of_eq (by ring))

/-- an orthonormal basis of eigenvectors of a symmetric matrix over all parameters -/
theorem eigenbasis (A : (Σ _ : ℕ, ℕ) → (Σ _ : ℕ, ℕ) → ℝ) (hA : ∀ x y, A x y = A y x) :
    ∃ (b : idx σ → ℕ → ℕ → ℝ) (ev : idx σ → ℝ),
      (∀ j, ∃ x ∈ idx σ, b j x.1 x.2 ≠ 0) ∧
      (∀ j, ∀ x ∈ idx σ, ∑ y ∈ idx σ, A x y * b j y.1 y.2 = ev j * b j x.1 x.2) ∧
      ∀ p q : ℕ → ℕ → ℝ, sqDist σ p q = ∑ j, component σ (b j) p q ^ 2 := by
  let M : Matrix (idx σ) (idx σ) ℝ := fun x y => A x.1 y.1
  have hM : M.IsHermitian := by
    ext x y
    show A y.1 x.1 = A x.1 y.1
    exact hA _ _
  let b : idx σ → ℕ → ℕ → ℝ := fun j k i => if h : (⟨k, i⟩ : Σ _ : ℕ, ℕ) ∈ idx σ then hM.eigenvectorBasis j ⟨⟨k, i⟩, h⟩ else 0
  have hb : ∀ j (x : Σ _ : ℕ, ℕ) (hx : x ∈ idx σ), b j x.1 x.2 = hM.eigenvectorBasis j ⟨x, hx⟩ := by
    intro j x hx
    simp only [b]
    rw [dif_pos hx]
  refine ⟨b, hM.eigenvalues, ?_, ?_, ?_⟩
  · intro j
    by_contra hc
    push Not at hc
    have h1 := hM.eigenvectorBasis.orthonormal.1 j
    have h2 : hM.eigenvectorBasis j = 0 := by
      ext x
      rw [← hb j x.1 x.2]
      exact hc x.1 x.2
    rw [h2, norm_zero] at h1
    exact zero_ne_one h1
  · intro j x hx
    have h1 := congrFun (hM.mulVec_eigenvectorBasis j) ⟨x, hx⟩
    rw [hb j x hx, ← Finset.sum_coe_sort]
    simp only [Matrix.mulVec, dotProduct, Pi.smul_apply, smul_eq_mul] at h1
    rw [← h1]
    exact Finset.sum_congr rfl fun y _ => by rw [hb j y.1 y.2]
  · intro p q
    let z : EuclideanSpace ℝ (idx σ) := WithLp.toLp 2 fun y => p y.1.1 y.1.2 - q y.1.1 y.1.2
    have h1 := hM.eigenvectorBasis.sum_sq_norm_inner_right z
    have h2 : ‖z‖ ^ 2 = sqDist σ p q := by
      rw [EuclideanSpace.real_norm_sq_eq, sqDist]
      exact Finset.sum_coe_sort (idx σ) (fun x => (p x.1 x.2 - q x.1 x.2) ^ 2)
    rw [← h2, ← h1]
    refine Finset.sum_congr rfl fun j _ => ?_
    rw [Real.norm_eq_abs, sq_abs, PiLp.inner_apply]
    congr 1
    unfold component
    refine Eq.trans ?_ (Finset.sum_coe_sort (idx σ) (fun x => b j x.1 x.2 * (p x.1 x.2 - q x.1 x.2)))
    refine Finset.sum_congr rfl fun y _ => ?_
    rw [hb j y.1 y.2]
    simp [z, mul_comm]

/-- an eigenvector is a direction of constant curvature of the gradient `A (p - q)` -/
theorem eigen_direction (A : (Σ _ : ℕ, ℕ) → (Σ _ : ℕ, ℕ) → ℝ) (hA : ∀ x y, A x y = A y x) (q v : ℕ → ℕ → ℝ) (c : ℝ)
    (hv : ∀ x ∈ idx σ, ∑ y ∈ idx σ, A x y * v y.1 y.2 = c * v x.1 x.2) (p : ℕ → ℕ → ℝ) :
    ∑ x ∈ idx σ, v x.1 x.2 * ∑ y ∈ idx σ, A ⟨x.1, x.2⟩ y * (p y.1 y.2 - q y.1 y.2) = c * component σ v p q := by
  unfold component
  rw [Finset.mul_sum]
  calc ∑ x ∈ idx σ, v x.1 x.2 * ∑ y ∈ idx σ, A ⟨x.1, x.2⟩ y * (p y.1 y.2 - q y.1 y.2)
      = ∑ x ∈ idx σ, ∑ y ∈ idx σ, v x.1 x.2 * (A x y * (p y.1 y.2 - q y.1 y.2)) :=
        Finset.sum_congr rfl fun x _ => Finset.mul_sum _ _ _
    _ = ∑ y ∈ idx σ, ∑ x ∈ idx σ, v x.1 x.2 * (A x y * (p y.1 y.2 - q y.1 y.2)) := Finset.sum_comm
    _ = ∑ y ∈ idx σ, c * (v y.1 y.2 * (p y.1 y.2 - q y.1 y.2)) := by
        refine Finset.sum_congr rfl fun y hy => ?_
        rw [← mul_assoc c, ← hv y hy, Finset.sum_mul]
        exact Finset.sum_congr rfl fun x _ => by rw [hA x y]; ring

/-- every eigenvalue of the matrix `A` over the parameters lies in `[μ, L]` -/
def SpectrumIn (A : (Σ _ : ℕ, ℕ) → (Σ _ : ℕ, ℕ) → ℝ) (μ L : ℝ) : Prop :=
  ∀ (c : ℝ) (v : ℕ → ℕ → ℝ), (∃ x ∈ idx σ, v x.1 x.2 ≠ 0) →
    (∀ x ∈ idx σ, ∑ y ∈ idx σ, A x y * v y.1 y.2 = c * v x.1 x.2) → μ ≤ c ∧ c ≤ L

/-- **C153 (momentum).** On a quadratic loss `(p - q)ᵀ A (p - q)/2` whose eigenvalues lie in `[μ, L]`, `sgd(η, momentum = β)` with `(1 - √β)² < η μ` and `η L < (1 + √β)²` reduces the distance to the
minimiser `q` by `√β` per step: `‖p_n - q‖² ≤ C βⁿ ‖p_0 - q‖²`, from every start, with an explicit constant. -/
theorem C153_momentum (η β μ L : ℝ) (hβ : 0 ≤ β) (hη : 0 ≤ η) (h1 : (1 - √β) ^ 2 < η * μ) (h2 : η * L < (1 + √β) ^ 2)
    (grad : ℕ → Params ℝ → Params ℝ) (A : (Σ _ : ℕ, ℕ) → (Σ _ : ℕ, ℕ) → ℝ) (hA : ∀ x y, A x y = A y x) (hs : SpectrumIn σ A μ L) (q : ℕ → ℕ → ℝ)
    (hg : ∀ n p, grad n (mk σ p) = mk σ (fun k i => ∑ y ∈ idx σ, A ⟨k, i⟩ y * (p y.1 y.2 - q y.1 y.2))) (p0 : ℕ → ℕ → ℝ) :
    ∃ P, P 0 = p0 ∧ Visits (sgd (.scalar η) (some β) false) grad σ P ∧
      ∀ n, sqDist σ (P n) q ≤ 4 * β * (1 + √β) ^ 2 / ((η * μ - (1 - √β) ^ 2) * ((1 + √β) ^ 2 - η * L)) * β ^ n * sqDist σ p0 q := by
  refine ⟨fun n => (momentumSgd (LR.at (.scalar η)) β false (fun _ => _) p0 n).1, rfl, momentum_visits σ (.scalar η) β false grad (fun _ => _) hg p0, fun n => ?_⟩
  obtain ⟨b, ev, hb, hbe, hpars⟩ := eigenbasis σ A hA
  rw [hpars, hpars, Finset.mul_sum]
  refine Finset.sum_le_sum fun j _ => ?_
  have h := direction_bound σ η β hβ false (fun p k i => ∑ y ∈ idx σ, A ⟨k, i⟩ y * (p y.1 y.2 - q y.1 y.2)) q (b j) (ev j) (eigen_direction σ A hA q (b j) (ev j) (hbe j)) p0 n
  obtain ⟨l1, l2⟩ := hs (ev j) (b j) (hb j) (hbe j)
  have m1 := mul_le_mul_of_nonneg_left l1 hη
  have m2 := mul_le_mul_of_nonneg_left l2 hη
  simp only [underdamped, damping, Bool.false_eq_true, if_false, mul_one] at h
  have hD : 0 < (η * μ - (1 - √β) ^ 2) * ((1 + √β) ^ 2 - η * L) := mul_pos (by linarith) (by linarith)
  have hle : (η * μ - (1 - √β) ^ 2) * ((1 + √β) ^ 2 - η * L) ≤ (η * ev j - (1 - √β) ^ 2) * ((1 + √β) ^ 2 - η * ev j) :=
    mul_le_mul (by linarith) (by linarith) (by linarith) (by linarith)
  rw [div_mul_eq_mul_div, div_mul_eq_mul_div, le_div_iff₀ hD]
  refine (mul_le_mul_of_nonneg_left hle (sq_nonneg _)).trans (h.trans ?_)
  have hp : 0 ≤ β ^ n * component σ (b j) p0 q ^ 2 * β := mul_nonneg (mul_nonneg (pow_nonneg hβ n) (sq_nonneg _)) hβ
  have := mul_le_mul_of_nonneg_left (by linarith : η * ev j ≤ (1 + √β) ^ 2) hp
  nlinarith

/-- **C153 (the tuning).** Such a learning rate exists as soon as `√L (1 - √β) < √μ (1 + √β)`, that is `√β > (√L - √μ)/(√L + √μ)`. -/
theorem C153_tuning (β μ L : ℝ) (hμ : 0 < μ) (hμL : μ ≤ L) (hβ1 : β < 1) (h : √L * (1 - √β) < √μ * (1 + √β)) :
    ∃ η, 0 < η ∧ (1 - √β) ^ 2 < η * μ ∧ η * L < (1 + √β) ^ 2 := by
  have hL : 0 < L := hμ.trans_le hμL
  have hb : √β < 1 := by
    rw [Real.sqrt_lt' one_pos]; simpa using hβ1
  have hb0 := Real.sqrt_nonneg β
  have e1 := Real.sq_sqrt hμ.le
  have e2 := Real.sq_sqrt hL.le
  have key : (1 - √β) ^ 2 / μ < (1 + √β) ^ 2 / L := by
    rw [div_lt_div_iff₀ hμ hL]
    have h3 : (√L * (1 - √β)) ^ 2 < (√μ * (1 + √β)) ^ 2 :=
      pow_lt_pow_left₀ h (mul_nonneg (Real.sqrt_nonneg _) (by linarith)) (by norm_num)
    rw [mul_pow, mul_pow, e1, e2] at h3
    linarith
  obtain ⟨η, k1, k2⟩ := exists_between key
  refine ⟨η, (div_nonneg (sq_nonneg _) hμ.le).trans_lt k1, ?_, ?_⟩
  · rwa [div_lt_iff₀ hμ] at k1
  · rwa [lt_div_iff₀ hL] at k2

/-- **C153 (without momentum).** If the two extreme eigenvalues `μ` and `L` occur, then for every learning rate plain `sgd` has a start from which the distance shrinks by exactly a factor
of at least `(L - μ)/(L + μ)` in every step. -/
theorem C153_plain (η μ L : ℝ) (hμ : 0 < μ) (hμL : μ ≤ L) (nes : Bool)
    (grad : ℕ → Params ℝ → Params ℝ) (A : (Σ _ : ℕ, ℕ) → (Σ _ : ℕ, ℕ) → ℝ) (q v u : ℕ → ℕ → ℝ)
    (hv : ∃ x ∈ idx σ, v x.1 x.2 ≠ 0) (hu : ∃ x ∈ idx σ, u x.1 x.2 ≠ 0)
    (hAv : ∀ x ∈ idx σ, ∑ y ∈ idx σ, A x y * v y.1 y.2 = μ * v x.1 x.2) (hAu : ∀ x ∈ idx σ, ∑ y ∈ idx σ, A x y * u y.1 y.2 = L * u x.1 x.2)
    (hg : ∀ n p, grad n (mk σ p) = mk σ (fun k i => ∑ y ∈ idx σ, A ⟨k, i⟩ y * (p y.1 y.2 - q y.1 y.2))) :
    ∃ p0 P, P 0 = p0 ∧ Visits (sgd (.scalar η) none nes) grad σ P ∧ sqDist σ p0 q ≠ 0 ∧
      ∃ f, (L - μ) / (L + μ) ≤ f ∧ ∀ n, sqDist σ (P n) q = (f ^ 2) ^ n * sqDist σ p0 q := by
  have main : ∀ (c : ℝ) (v : ℕ → ℕ → ℝ), (∃ x ∈ idx σ, v x.1 x.2 ≠ 0) → (∀ x ∈ idx σ, ∑ y ∈ idx σ, A x y * v y.1 y.2 = c * v x.1 x.2) →
      (L - μ) / (L + μ) ≤ |1 - η * c| →
      ∃ p0 P, P 0 = p0 ∧ Visits (sgd (.scalar η) none nes) grad σ P ∧ sqDist σ p0 q ≠ 0 ∧
      ∃ f, (L - μ) / (L + μ) ≤ f ∧ ∀ n, sqDist σ (P n) q = (f ^ 2) ^ n * sqDist σ p0 q := by
    intro c v ⟨x0, hx0, hvx⟩ hAv hf
    refine ⟨fun k i => q k i + v k i, plainSgd (LR.at (.scalar η)) (fun _ => _) (fun k i => q k i + v k i), rfl, sgd_visits σ (.scalar η) nes grad (fun _ => _) hg _, ?_, |1 - η * c|, hf, fun n => ?_⟩
    · have : sqDist σ (fun k i => q k i + v k i) q = ∑ x ∈ idx σ, v x.1 x.2 ^ 2 := Finset.sum_congr rfl fun x _ => by ring
      rw [this]
      exact (Finset.sum_pos' (fun x _ => sq_nonneg _) ⟨x0, hx0, by positivity⟩).ne'
    · have hP : ∀ n, ∀ x ∈ idx σ, plainSgd (LR.at (.scalar η)) (fun _ p k i => ∑ y ∈ idx σ, A ⟨k, i⟩ y * (p y.1 y.2 - q y.1 y.2)) (fun k i => q k i + v k i) n x.1 x.2 =
          q x.1 x.2 + (1 - η * c) ^ n * v x.1 x.2 := by
        intro n
        induction n with
        | zero => intro x _; simp [plainSgd]
        | succ n ih =>
          intro x hx
          simp only [plainSgd, LR.at]
          have e : ∑ y ∈ idx σ, A ⟨x.1, x.2⟩ y * (plainSgd (LR.at (.scalar η)) (fun _ p k i => ∑ y ∈ idx σ, A ⟨k, i⟩ y * (p y.1 y.2 - q y.1 y.2)) (fun k i => q k i + v k i) n y.1 y.2 - q y.1 y.2) =
              (1 - η * c) ^ n * (c * v x.1 x.2) := by
            rw [← hAv x hx, Finset.mul_sum]
            exact Finset.sum_congr rfl fun y hy => by rw [ih y hy]; ring
          have e3 := ih x hx
          rw [e3, e]
          ring
      unfold sqDist
      rw [Finset.mul_sum]
      refine Finset.sum_congr rfl fun x hx => ?_
      rw [hP n x hx, sq_abs, ← pow_mul, Nat.mul_comm, pow_mul]
      ring
  have hsum : 0 < L + μ := by linarith
  by_cases h : (L - μ) / (L + μ) ≤ |1 - η * μ|
  · exact main μ v hv hAv h
  · refine main L u hu hAu ?_
    push Not at h
    have h1 := (le_abs_self _).trans_lt h
    rw [lt_div_iff₀ hsum] at h1
    refine le_trans ?_ (neg_le_abs _)
    rw [div_le_iff₀ hsum]
    -- `1 - η μ < (L - μ)/(L + μ)` gives `η > 2/(L + μ)`
    have h2 : 2 < η * (L + μ) := by
      by_contra hc
      push Not at hc
      nlinarith
    nlinarith

/-- e.g. condition number 100: momentum `β = 0.7` already gives the factor `√0.7 < 0.84` per step, against at least `99/101 > 0.98` without momentum -/
example : √(100 : ℝ) * (1 - √(7 / 10)) < √1 * (1 + √(7 / 10)) ∧ (98 / 100 : ℝ) < (100 - 1) / (100 + 1) := by
  have h1 : √(100 : ℝ) = 10 := by rw [show (100 : ℝ) = 10 ^ 2 by norm_num, Real.sqrt_sq (by norm_num)]
  have h2 : (9 / 11 : ℝ) < √(7 / 10) := Real.lt_sqrt_of_sq_lt (by norm_num)
  rw [h1, Real.sqrt_one]
  exact ⟨by linarith, by norm_num⟩

/-- a diagonal matrix with the eigenvalues 1 and 100 on two parameters meets the hypotheses -/
example : (∀ x y : Σ _ : ℕ, ℕ, (fun x y : Σ _ : ℕ, ℕ => if x = y then (if x.2 = 0 then (1 : ℝ) else 100) else 0) x y =
      (fun x y : Σ _ : ℕ, ℕ => if x = y then (if x.2 = 0 then (1 : ℝ) else 100) else 0) y x) ∧
    SpectrumIn (.leaf [2]) (fun x y => if x = y then (if x.2 = 0 then (1 : ℝ) else 100) else 0) 1 100 := by
  constructor
  · intro x y
    by_cases h : x = y
    · subst h; rfl
    · simp [h, Ne.symm h]
  · intro c v ⟨x, hx, hvx⟩ hv
    have h := hv x hx
    beta_reduce at h
    have h2 : (if x.2 = 0 then (1 : ℝ) else 100) * v x.1 x.2 = c * v x.1 x.2 := by
      rw [← h, Finset.sum_eq_single x (fun y _ hy => by rw [if_neg (Ne.symm hy), zero_mul]) (fun h => absurd hx h), if_pos rfl]
    rw [← mul_right_cancel₀ hvx h2]
    split <;> norm_num

end Optax
