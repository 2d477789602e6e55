import Verif.Lemmas.LinAlg
import Mathlib.Analysis.SpecificLimits.Basic
import Mathlib.Topology.Algebra.Order.LiminfLimsup

/-!
# C62: `power_iteration`
-/

set_option linter.unusedSectionVars false
set_option linter.unusedSimpArgs false

namespace Optax
open Matrix

variable {n : ℕ}

/-! ## Specification -/

/-- the vector scaled to Euclidean length 1 -/
noncomputable def unit (v : Fin n → ℝ) : Fin n → ℝ := (Real.sqrt (v ⬝ᵥ v))⁻¹ • v

/-- the Rayleigh quotient `vᵀAv / vᵀv` -/
noncomputable def rayleigh (A : Matrix (Fin n) (Fin n) ℝ) (v : Fin n → ℝ) : ℝ := (v ⬝ᵥ A *ᵥ v) / (v ⬝ᵥ v)

/-- `lam` is an eigenvalue of `A` with eigenvector `u` -/
def IsEigen (A : Matrix (Fin n) (Fin n) ℝ) (lam : ℝ) (u : Fin n → ℝ) : Prop := u ≠ 0 ∧ A *ᵥ u = lam • u

/-- the eigenvalue estimate after `k` iterations: 0 before the first, then the Rayleigh quotient of `A^(k-1) v0` -/
noncomputable def estimate (A : Matrix (Fin n) (Fin n) ℝ) (v0 : Fin n → ℝ) : ℕ → ℝ
  | 0 => 0
  | k + 1 => rayleigh A ((A ^ k) *ᵥ v0)

/-! ## Lemmas -/

theorem dot_self_pos {v : Fin n → ℝ} (hv : v ≠ 0) : 0 < v ⬝ᵥ v := by
  have h0 : 0 ≤ v ⬝ᵥ v := by
    unfold dotProduct; exact Finset.sum_nonneg fun i _ => mul_self_nonneg _
  refine lt_of_le_of_ne h0 (fun h => hv ?_)
  exact dotProduct_self_eq_zero.mp h.symm

theorem vnorm_eq (v : Fin n → ℝ) : vnorm v = Real.sqrt (v ⬝ᵥ v) := by
  unfold vnorm dotProduct; simp only [sq]

theorem vnorm_pos {v : Fin n → ℝ} (hv : v ≠ 0) : 0 < vnorm v := by
  rw [vnorm_eq]; exact Real.sqrt_pos.mpr (dot_self_pos hv)

theorem vnorm_smul (c : ℝ) (v : Fin n → ℝ) : vnorm (c • v) = |c| * vnorm v := by
  rw [vnorm_eq, vnorm_eq]
  simp only [smul_dotProduct, dotProduct_smul, smul_eq_mul]
  rw [show c * (c * (v ⬝ᵥ v)) = c ^ 2 * (v ⬝ᵥ v) by ring, Real.sqrt_mul (sq_nonneg _), Real.sqrt_sq_eq_abs]

theorem unit_smul {c : ℝ} (hc : 0 < c) (v : Fin n → ℝ) : unit (c • v) = unit v := by
  unfold unit
  rw [← vnorm_eq, ← vnorm_eq, vnorm_smul, abs_of_pos hc, smul_smul]
  congr 1
  rw [mul_inv]
  field_simp

theorem unit_dot {v : Fin n → ℝ} (hv : v ≠ 0) : unit v ⬝ᵥ unit v = 1 := by
  unfold unit
  simp only [smul_dotProduct, dotProduct_smul, smul_eq_mul]
  have h := dot_self_pos hv
  have h2 : Real.sqrt (v ⬝ᵥ v) ^ 2 = v ⬝ᵥ v := Real.sq_sqrt h.le
  have h3 : Real.sqrt (v ⬝ᵥ v) ≠ 0 := (Real.sqrt_pos.mpr h).ne'
  rw [← mul_assoc, ← mul_inv, ← sq, h2, inv_mul_cancel₀ h.ne']

theorem unit_rayleigh {v : Fin n → ℝ} (hv : v ≠ 0) (A : Matrix (Fin n) (Fin n) ℝ) :
    unit v ⬝ᵥ A *ᵥ unit v = rayleigh A v := by
  unfold unit rayleigh
  simp only [mulVec_smul, smul_dotProduct, dotProduct_smul, smul_eq_mul]
  have h := dot_self_pos hv
  have h2 : Real.sqrt (v ⬝ᵥ v) * Real.sqrt (v ⬝ᵥ v) = v ⬝ᵥ v := Real.mul_self_sqrt h.le
  rw [← mul_assoc, ← mul_inv, h2]
  field_simp

theorem mulVec_pow_succ (A : Matrix (Fin n) (Fin n) ℝ) (v : Fin n → ℝ) (k : ℕ) :
    A *ᵥ ((A ^ k) *ᵥ v) = (A ^ (k + 1)) *ᵥ v := by
  rw [mulVec_mulVec, ← pow_succ']

theorem piBody_v (A : Matrix (Fin n) (Fin n) ℝ) (tol : ℝ) (st : PIState n) :
    (piBody A tol st).v = A *ᵥ ((vnorm st.v)⁻¹ • st.v) := rfl
theorem piBody_s (A : Matrix (Fin n) (Fin n) ℝ) (tol : ℝ) (st : PIState n) :
    (piBody A tol st).s = ((vnorm st.v)⁻¹ • st.v) ⬝ᵥ A *ᵥ ((vnorm st.v)⁻¹ • st.v) := rfl
theorem piBody_i (A : Matrix (Fin n) (Fin n) ℝ) (tol : ℝ) (st : PIState n) : (piBody A tol st).i = st.i + 1 := rfl

/-- the loop state after `k` iterations -/
theorem pi_state (A : Matrix (Fin n) (Fin n) ℝ) (tol : ℝ) (v0 : Fin n → ℝ) (k : ℕ)
    (hv : ∀ j < k, (A ^ j) *ᵥ v0 ≠ 0) :
    ∃ c : ℝ, 0 < c ∧ ((piBody A tol)^[k] (piInit v0)).v = c • (A ^ k) *ᵥ v0 ∧
      ((piBody A tol)^[k] (piInit v0)).s = estimate A v0 k ∧ ((piBody A tol)^[k] (piInit v0)).i = k ∧
      (((piBody A tol)^[k] (piInit v0)).run ↔ k = 0 ∨ |estimate A v0 k - estimate A v0 (k - 1)| > tol) := by
  induction k with
  | zero => exact ⟨1, one_pos, by simp [piInit], rfl, rfl, by simp [piInit]⟩
  | succ k ih =>
    obtain ⟨c, hc, h1, h2, h3, -⟩ := ih (fun j hj => hv j (by omega))
    have hk := hv k (by omega)
    have hu : (vnorm (c • (A ^ k) *ᵥ v0))⁻¹ • (c • (A ^ k) *ᵥ v0) = unit ((A ^ k) *ᵥ v0) := by
      rw [← unit_smul hc]; rw [unit, vnorm_eq]
    have hs : ((piBody A tol)^[k + 1] (piInit v0)).s = estimate A v0 (k + 1) := by
      rw [Function.iterate_succ_apply']
      rw [piBody_s, h1, hu]
      exact unit_rayleigh hk A
    refine ⟨(vnorm ((A ^ k) *ᵥ v0))⁻¹, inv_pos.mpr (vnorm_pos hk), ?_, hs, ?_, ?_⟩
    · rw [Function.iterate_succ_apply']
      rw [piBody_v, h1, hu]
      simp only [unit, ← vnorm_eq, mulVec_smul, mulVec_pow_succ]
    · rw [Function.iterate_succ_apply']
      rw [piBody_i, h3]
      push_cast; rfl
    · have : ((piBody A tol)^[k + 1] (piInit v0)).run ↔
          |((piBody A tol)^[k + 1] (piInit v0)).s - ((piBody A tol)^[k] (piInit v0)).s| > tol := by
        rw [Function.iterate_succ_apply']; rfl
      rw [this, hs, h2]
      simp

/-! ## Theorems -/

/-- **C62 (termination).** For every matrix, start vector, limit and tolerance the loop stops after at most
`num_iters` iterations, so that `power_iteration` returns. -/
theorem C62_terminates (A : Matrix (Fin n) (Fin n) ℝ) (numIters : ℤ) (tol : ℝ) (v0 : Fin n → ℝ) :
    (∃ k : ℕ, whileSteps (piCond numIters) (piBody A tol) (piInit v0) = some k ∧ (k : ℤ) ≤ max numIters 0) ∧
    ∃ v s, powerIteration A numIters tol v0 = some (v, s) := by
  obtain ⟨k, hk, hle⟩ := whileSteps_bounded (piCond numIters) (piBody A tol) (piInit v0) PIState.i numIters rfl
    (fun _ => rfl) (fun _ h => h.1)
  refine ⟨⟨k, hk, hle⟩, ?_⟩
  unfold powerIteration whileLoop
  rw [hk]
  exact ⟨_, _, rfl⟩

/-- **C62 (value).** As long as the iterates do not vanish, the result after `num_iters ≥ 0` is the pair
`(A^k v0 / ‖A^k v0‖, Rayleigh quotient of A^(k-1) v0)`, for the number `k ≤ num_iters` of iterations done: the
first `k` with two successive estimates within the tolerance, or `num_iters`. -/
theorem C62_value (A : Matrix (Fin n) (Fin n) ℝ) (N : ℕ) (tol : ℝ) (v0 : Fin n → ℝ)
    (hv : ∀ k ≤ N, (A ^ k) *ᵥ v0 ≠ 0) :
    ∃ k ≤ N, powerIteration A N tol v0 = some (unit ((A ^ k) *ᵥ v0), estimate A v0 k) ∧
      (k = N ∨ (1 ≤ k ∧ |estimate A v0 k - estimate A v0 (k - 1)| ≤ tol)) ∧
      (∀ j, 1 ≤ j → j < k → |estimate A v0 j - estimate A v0 (j - 1)| > tol) := by
  obtain ⟨⟨k, hk, hle⟩, -⟩ := C62_terminates A N tol v0
  have hkN : k ≤ N := by
    have : (k : ℤ) ≤ N := hle.trans (by simp)
    exact_mod_cast this
  obtain ⟨c, hc, h1, h2, h3, h4⟩ := pi_state A tol v0 k (fun j hj => hv j (by omega))
  refine ⟨k, hkN, ?_, ?_, ?_⟩
  · unfold powerIteration whileLoop
    rw [hk]
    simp only [Option.map_some]
    rw [h1, h2]
    congr 2
    rw [← unit_smul hc]; rw [unit, vnorm_eq]
  · have h5 := ((whileSteps_eq_some _ _ _ _).mp hk).2
    unfold piCond at h5
    rw [h3, h4] at h5
    rcases Nat.lt_or_ge k N with h | h
    · right
      have h6 : ¬(k = 0 ∨ |estimate A v0 k - estimate A v0 (k - 1)| > tol) := by
        intro h7; exact h5 ⟨by exact_mod_cast h, h7⟩
      push Not at h6
      exact ⟨by omega, h6.2⟩
    · left; omega
  · intro j hj1 hjk
    have h5 := ((whileSteps_eq_some _ _ _ _).mp hk).1 j hjk
    obtain ⟨-, -, -, -, -, h6⟩ := pi_state A tol v0 j (fun i hi => hv i (by omega))
    have h7 := h6.mp h5.2
    rcases h7 with h7 | h7
    · omega
    · exact h7

/-- **C62 (unit vector).** The returned vector has length 1. -/
theorem C62_unit (A : Matrix (Fin n) (Fin n) ℝ) (N : ℕ) (tol : ℝ) (v0 : Fin n → ℝ)
    (hv : ∀ k ≤ N, (A ^ k) *ᵥ v0 ≠ 0) (v : Fin n → ℝ) (s : ℝ) (h : powerIteration A N tol v0 = some (v, s)) :
    ∑ i, v i ^ 2 = 1 := by
  obtain ⟨k, hk, hval, -⟩ := C62_value A N tol v0 hv
  rw [hval] at h
  simp only [Option.some.injEq, Prod.mk.injEq] at h
  have := unit_dot (hv k hk)
  rw [h.1] at this
  simpa [dotProduct, sq] using this

/-- what the eigenbasis says about a symmetric matrix: quadratic forms and powers in coordinates -/
theorem spectral_coords (A : Matrix (Fin n) (Fin n) ℝ) {lam : Fin n → ℝ} {U : Fin n → Fin n → ℝ}
    (hU : ∀ i, A *ᵥ U i = lam i • U i) (ho : ∀ i j, U i ⬝ᵥ U j = if i = j then 1 else 0)
    (hb : ∀ v, v = ∑ i, (U i ⬝ᵥ v) • U i) (v : Fin n → ℝ) (k : ℕ) :
    (∀ i, U i ⬝ᵥ ((A ^ k) *ᵥ v) = lam i ^ k * (U i ⬝ᵥ v)) ∧
    v ⬝ᵥ v = ∑ i, (U i ⬝ᵥ v) ^ 2 ∧ v ⬝ᵥ A *ᵥ v = ∑ i, lam i * (U i ⬝ᵥ v) ^ 2 := by
  have hdot : ∀ v w : Fin n → ℝ, v ⬝ᵥ w = ∑ i, (U i ⬝ᵥ v) * (U i ⬝ᵥ w) := by
    intro v w
    conv_lhs => rw [hb v]
    rw [sum_dotProduct]
    apply Finset.sum_congr rfl
    intro i _
    rw [smul_dotProduct, smul_eq_mul]
  have hA : ∀ (w : Fin n → ℝ) (i), U i ⬝ᵥ (A *ᵥ w) = lam i * (U i ⬝ᵥ w) := by
    intro w i
    conv_lhs => rw [hb w]
    rw [mulVec_sum, dotProduct_sum]
    rw [Finset.sum_eq_single i]
    · rw [mulVec_smul, hU, dotProduct_smul, dotProduct_smul, ho]; simp; ring
    · intro j _ hj
      rw [mulVec_smul, hU, dotProduct_smul, dotProduct_smul, ho, if_neg (Ne.symm hj)]; simp
    · simp
  refine ⟨fun i => ?_, ?_, ?_⟩
  · induction k with
    | zero => simp
    | succ k ih => rw [← mulVec_pow_succ, hA, ih]; ring
  · rw [hdot v v]; apply Finset.sum_congr rfl; intro i _; ring
  · rw [hdot v]; apply Finset.sum_congr rfl; intro i _; rw [hA]; ring

/-- every Rayleigh quotient lies between two eigenvalues -/
theorem rayleigh_between (A : Matrix (Fin n) (Fin n) ℝ) (hA : Aᵀ = A) (v : Fin n → ℝ) (hv : v ≠ 0) :
    (∃ a u, IsEigen A a u ∧ a ≤ rayleigh A v) ∧ ∃ b u, IsEigen A b u ∧ rayleigh A v ≤ b := by
  obtain ⟨lam, U, hU, ho, hb⟩ := spectral_basis A hA
  obtain ⟨-, h2, h3⟩ := spectral_coords A hU ho hb v 0
  have hpos := dot_self_pos hv
  have hU0 : ∀ i, U i ≠ 0 := by
    intro i h
    have := ho i i
    rw [h] at this; simp at this
  have key : ∀ r : ℝ, rayleigh A v = r → ∑ i, (lam i - r) * (U i ⬝ᵥ v) ^ 2 = 0 := by
    intro r hr
    unfold rayleigh at hr
    rw [div_eq_iff hpos.ne', h2, h3] at hr
    simp only [sub_mul, Finset.sum_sub_distrib, ← Finset.mul_sum]
    linarith
  have hk := key _ rfl
  have hne : ∃ i, (U i ⬝ᵥ v) ^ 2 ≠ 0 := by
    by_contra hcon
    push Not at hcon
    rw [h2] at hpos
    simp [hcon] at hpos
  obtain ⟨i₀, hi₀⟩ := hne
  constructor
  · by_contra hcon
    push Not at hcon
    have : ∀ i, rayleigh A v < lam i := fun i => hcon _ (U i) ⟨hU0 i, hU i⟩
    have hp : 0 < ∑ i, (lam i - rayleigh A v) * (U i ⬝ᵥ v) ^ 2 := by
      apply Finset.sum_pos'
      · intro i _; exact mul_nonneg (by linarith [this i]) (sq_nonneg _)
      · exact ⟨i₀, Finset.mem_univ _, mul_pos (by linarith [this i₀]) (lt_of_le_of_ne (sq_nonneg _) (Ne.symm hi₀))⟩
    linarith
  · by_contra hcon
    push Not at hcon
    have : ∀ i, lam i < rayleigh A v := fun i => hcon _ (U i) ⟨hU0 i, hU i⟩
    have hp : 0 < ∑ i, (rayleigh A v - lam i) * (U i ⬝ᵥ v) ^ 2 := by
      apply Finset.sum_pos'
      · intro i _; exact mul_nonneg (by linarith [this i]) (sq_nonneg _)
      · exact ⟨i₀, Finset.mem_univ _, mul_pos (by linarith [this i₀]) (lt_of_le_of_ne (sq_nonneg _) (Ne.symm hi₀))⟩
    have : ∑ i, (rayleigh A v - lam i) * (U i ⬝ᵥ v) ^ 2 = -∑ i, (lam i - rayleigh A v) * (U i ⬝ᵥ v) ^ 2 := by
      rw [← Finset.sum_neg_distrib]; apply Finset.sum_congr rfl; intro i _; ring
    linarith

/-- **C62 (never overestimates).** For a symmetric matrix and `num_iters ≥ 1` the returned value is the Rayleigh
quotient of a non-zero vector; there is an eigenvalue below it and one above it, i.e. it lies between the smallest
and the largest eigenvalue. -/
theorem C62_rayleigh (A : Matrix (Fin n) (Fin n) ℝ) (hA : Aᵀ = A) (N : ℕ) (hN : 1 ≤ N) (tol : ℝ) (v0 : Fin n → ℝ)
    (hv : ∀ k ≤ N, (A ^ k) *ᵥ v0 ≠ 0) (v : Fin n → ℝ) (s : ℝ) (h : powerIteration A N tol v0 = some (v, s)) :
    (∃ u, u ≠ 0 ∧ s = rayleigh A u) ∧ (∃ a u, IsEigen A a u ∧ a ≤ s) ∧ ∃ b u, IsEigen A b u ∧ s ≤ b := by
  obtain ⟨k, hk, hval, h1, -⟩ := C62_value A N tol v0 hv
  rw [hval] at h
  simp only [Option.some.injEq, Prod.mk.injEq] at h
  obtain ⟨k, rfl⟩ : ∃ j, k = j + 1 := ⟨k - 1, by omega⟩
  have hne := hv k (by omega)
  have hs : s = rayleigh A ((A ^ k) *ᵥ v0) := h.2.symm
  rw [hs]
  exact ⟨⟨_, hne, rfl⟩, rayleigh_between A hA _ hne⟩

/-- **C62 (eigenvector start).** If the start vector is an eigenvector for `lam ≠ 0`, the result is that eigenvalue
with a unit eigenvector: the start vector scaled to length 1, up to sign (exactly, if `lam > 0`). -/
theorem C62_eigenvector (A : Matrix (Fin n) (Fin n) ℝ) (N : ℕ) (hN : 1 ≤ N) (tol : ℝ) (v0 : Fin n → ℝ) (lam : ℝ)
    (hlam : lam ≠ 0) (he : IsEigen A lam v0) :
    ∃ v, powerIteration A N tol v0 = some (v, lam) ∧ IsEigen A lam v ∧ (v = unit v0 ∨ v = -unit v0) ∧
      (0 < lam → v = unit v0) := by
  obtain ⟨h0, hE⟩ := he
  have hp : ∀ k : ℕ, (A ^ k) *ᵥ v0 = lam ^ k • v0 := by
    intro k
    induction k with
    | zero => simp
    | succ k ih => rw [← mulVec_pow_succ, ih, mulVec_smul, hE, smul_smul]; ring_nf
  have hv : ∀ k ≤ N, (A ^ k) *ᵥ v0 ≠ 0 := by
    intro k _ h
    rw [hp, smul_eq_zero] at h
    rcases h with h | h
    · exact pow_ne_zero k hlam h
    · exact h0 h
  obtain ⟨k, hk, hval, h1, -⟩ := C62_value A N tol v0 hv
  obtain ⟨k, rfl⟩ : ∃ j, k = j + 1 := ⟨k - 1, by omega⟩
  have hest : estimate A v0 (k + 1) = lam := by
    show rayleigh A ((A ^ k) *ᵥ v0) = lam
    have hne := hv k (by omega)
    unfold rayleigh
    rw [div_eq_iff (dot_self_pos hne).ne', mulVec_pow_succ, hp, hp]
    simp only [smul_dotProduct, dotProduct_smul, smul_eq_mul]
    ring
  rw [hest] at hval
  have hpos : 0 < lam → unit ((A ^ (k + 1)) *ᵥ v0) = unit v0 := by
    intro hl; rw [hp]; exact unit_smul (pow_pos hl _) _
  have hneg : unit ((A ^ (k + 1)) *ᵥ v0) = unit v0 ∨ unit ((A ^ (k + 1)) *ᵥ v0) = -unit v0 := by
    rw [hp]
    rcases lt_or_gt_of_ne (pow_ne_zero (k + 1) hlam) with h | h
    · right
      have : lam ^ (k + 1) • v0 = (-(lam ^ (k + 1))) • (-v0) := by simp
      rw [this, unit_smul (by linarith)]
      unfold unit; simp
    · left; exact unit_smul h _
  have hEu : IsEigen A lam (unit v0) := by
    refine ⟨?_, ?_⟩
    · intro h
      have := unit_dot h0
      rw [h] at this; simp at this
    · unfold unit; rw [mulVec_smul, hE, smul_comm]
  refine ⟨_, hval, ?_, hneg, hpos⟩
  rcases hneg with h | h <;> rw [h]
  · exact hEu
  · exact ⟨neg_ne_zero.mpr hEu.1, by rw [mulVec_neg, hEu.2, smul_neg]⟩

/-- **C62 (`num_iters ≤ 0`).** No iteration is done and the estimate is 0. -/
theorem C62_no_iterations (A : Matrix (Fin n) (Fin n) ℝ) (N : ℤ) (hN : N ≤ 0) (tol : ℝ) (v0 : Fin n → ℝ) :
    powerIteration A N tol v0 = some (unit v0, 0) := by
  have : whileSteps (piCond N) (piBody A tol) (piInit v0) = some 0 := by
    rw [whileSteps_eq_some]
    refine ⟨by simp, fun h => ?_⟩
    have := h.1
    simp [piInit] at this
    omega
  unfold powerIteration whileLoop
  rw [this]
  simp [piInit, unit, vnorm_eq]

/-! ### Positive semi-definite matrices: monotone convergence to the largest eigenvalue -/

/-- the moments of the start vector in an eigenbasis: `v0ᵀ A^k v0` -/
theorem estimate_moments (A : Matrix (Fin n) (Fin n) ℝ) {lam : Fin n → ℝ} {U : Fin n → Fin n → ℝ}
    (hU : ∀ i, A *ᵥ U i = lam i • U i) (ho : ∀ i j, U i ⬝ᵥ U j = if i = j then 1 else 0)
    (hb : ∀ v, v = ∑ i, (U i ⬝ᵥ v) • U i) (v0 : Fin n → ℝ) (k : ℕ) :
    estimate A v0 (k + 1) =
      (∑ i, lam i ^ (2 * k + 1) * (U i ⬝ᵥ v0) ^ 2) / ∑ i, lam i ^ (2 * k) * (U i ⬝ᵥ v0) ^ 2 := by
  show rayleigh A ((A ^ k) *ᵥ v0) = _
  unfold rayleigh
  obtain ⟨-, h2, h3⟩ := spectral_coords A hU ho hb ((A ^ k) *ᵥ v0) 0
  obtain ⟨h1, -⟩ := spectral_coords A hU ho hb v0 k
  rw [h2, h3]
  congr 1 <;> apply Finset.sum_congr rfl <;> intro i _ <;> rw [h1] <;> ring

/-- Cauchy-Schwarz for successive moments -/
theorem moment_cs {ι : Type} (s : Finset ι) (lam c : ι → ℝ) (hl : ∀ i ∈ s, 0 ≤ lam i) (m : ℕ) :
    (∑ i ∈ s, lam i ^ (m + 1) * c i ^ 2) ^ 2 ≤
      (∑ i ∈ s, lam i ^ m * c i ^ 2) * ∑ i ∈ s, lam i ^ (m + 2) * c i ^ 2 := by
  have h := Finset.sum_mul_sq_le_sq_mul_sq s (fun i => Real.sqrt (lam i ^ m) * c i)
    (fun i => Real.sqrt (lam i ^ m) * (lam i * c i))
  have e1 : ∑ i ∈ s, (Real.sqrt (lam i ^ m) * c i) * (Real.sqrt (lam i ^ m) * (lam i * c i)) =
      ∑ i ∈ s, lam i ^ (m + 1) * c i ^ 2 := by
    apply Finset.sum_congr rfl
    intro i hi
    have := Real.mul_self_sqrt (pow_nonneg (hl i hi) m)
    linear_combination (lam i * c i ^ 2) * this
  have e2 : ∑ i ∈ s, (Real.sqrt (lam i ^ m) * c i) ^ 2 = ∑ i ∈ s, lam i ^ m * c i ^ 2 := by
    apply Finset.sum_congr rfl
    intro i hi
    have := Real.mul_self_sqrt (pow_nonneg (hl i hi) m)
    linear_combination (c i ^ 2) * this
  have e3 : ∑ i ∈ s, (Real.sqrt (lam i ^ m) * (lam i * c i)) ^ 2 = ∑ i ∈ s, lam i ^ (m + 2) * c i ^ 2 := by
    apply Finset.sum_congr rfl
    intro i hi
    have := Real.mul_self_sqrt (pow_nonneg (hl i hi) m)
    linear_combination (lam i ^ 2 * c i ^ 2) * this
  rw [e1, e2, e3] at h
  exact h

/-- the eigenvalues of a positive semi-definite matrix are non-negative -/
theorem psd_eigen_nonneg (A : Matrix (Fin n) (Fin n) ℝ) (hpsd : ∀ v, 0 ≤ v ⬝ᵥ A *ᵥ v) {lam : Fin n → ℝ}
    {U : Fin n → Fin n → ℝ} (hU : ∀ i, A *ᵥ U i = lam i • U i) (ho : ∀ i j, U i ⬝ᵥ U j = if i = j then 1 else 0)
    (i : Fin n) : 0 ≤ lam i := by
  have := hpsd (U i)
  rw [hU, dotProduct_smul, ho] at this
  simpa using this

/-- the estimates of a positive semi-definite matrix never decrease -/
theorem estimate_mono (A : Matrix (Fin n) (Fin n) ℝ) (hA : Aᵀ = A) (hpsd : ∀ v, 0 ≤ v ⬝ᵥ A *ᵥ v) (v0 : Fin n → ℝ)
    (k : ℕ) (hv : ∀ j < k, (A ^ j) *ᵥ v0 ≠ 0) : ∀ j ≤ k, estimate A v0 j ≤ estimate A v0 k := by
  obtain ⟨lam, U, hU, ho, hb⟩ := spectral_basis A hA
  have hl : ∀ i, 0 ≤ lam i := psd_eigen_nonneg A hpsd hU ho
  induction k with
  | zero => intro j hj; rw [Nat.le_zero.mp hj]
  | succ k ih =>
    intro j hj
    rcases Nat.lt_or_ge k j with h | h
    · rw [show j = k + 1 by omega]
    · refine (ih (fun i hi => hv i (by omega)) j h).trans ?_
      cases k with
      | zero =>
        show 0 ≤ rayleigh A ((A ^ 0) *ᵥ v0)
        unfold rayleigh
        exact div_nonneg (hpsd _) (dot_self_pos (hv 0 (by omega))).le
      | succ k =>
        rw [estimate_moments A hU ho hb, estimate_moments A hU ho hb]
        have hm : ∀ m, 0 ≤ ∑ i, lam i ^ m * (U i ⬝ᵥ v0) ^ 2 := fun m =>
          Finset.sum_nonneg fun i _ => mul_nonneg (pow_nonneg (hl i) m) (sq_nonneg _)
        have hpos : ∀ j < k + 2, 0 < ∑ i, lam i ^ (2 * j) * (U i ⬝ᵥ v0) ^ 2 := by
          intro j hj
          have h1 := dot_self_pos (hv j (by omega))
          obtain ⟨-, h2, -⟩ := spectral_coords A hU ho hb ((A ^ j) *ᵥ v0) 0
          obtain ⟨h3, -⟩ := spectral_coords A hU ho hb v0 j
          rw [h2] at h1
          simp only [h3] at h1
          convert h1 using 2
          ring
        have c1 := moment_cs Finset.univ lam (fun i => U i ⬝ᵥ v0) (fun i _ => hl i) (2 * k)
        have c2 := moment_cs Finset.univ lam (fun i => U i ⬝ᵥ v0) (fun i _ => hl i) (2 * k + 1)
        have p0 := hpos k (by omega)
        have p2 := hpos (k + 1) (by omega)
        have e2 : 2 * (k + 1) = 2 * k + 2 := by ring
        rw [e2] at p2 ⊢
        have g1 := hm (2 * k + 1)
        have g3 := hm (2 * k + 2 + 1)
        rw [div_le_div_iff₀ p0 p2]
        rw [show 2 * k + 1 + 1 = 2 * k + 2 by ring, show 2 * k + 1 + 2 = 2 * k + 2 + 1 by ring] at c2
        rw [show 2 * k + 1 + 1 = 2 * k + 2 by ring] at c1
        generalize ∑ i, lam i ^ (2 * k) * (U i ⬝ᵥ v0) ^ 2 = m0 at *
        generalize ∑ i, lam i ^ (2 * k + 1) * (U i ⬝ᵥ v0) ^ 2 = m1 at *
        generalize ∑ i, lam i ^ (2 * k + 2) * (U i ⬝ᵥ v0) ^ 2 = m2 at *
        generalize ∑ i, lam i ^ (2 * k + 2 + 1) * (U i ⬝ᵥ v0) ^ 2 = m3 at *
        -- m1² ≤ m0 m2, m2² ≤ m1 m3
        rcases g1.eq_or_lt with h0 | h0
        · rw [← h0] at c2; nlinarith
        · have : m1 * (m1 * m2) ≤ m1 * (m3 * m0) := by nlinarith
          exact le_of_mul_le_mul_left this h0

/-- **C62 (more iterations never hurt).** For a symmetric positive semi-definite matrix, a larger limit returns an
estimate at least as large, hence (by `C62_rayleigh`) at least as close to the largest eigenvalue. -/
theorem C62_monotone (A : Matrix (Fin n) (Fin n) ℝ) (hA : Aᵀ = A) (hpsd : ∀ v, 0 ≤ v ⬝ᵥ A *ᵥ v) (tol : ℝ)
    (v0 : Fin n → ℝ) (N N' : ℕ) (hNN : N ≤ N') (hv : ∀ k ≤ N', (A ^ k) *ᵥ v0 ≠ 0) (v v' : Fin n → ℝ) (s s' : ℝ)
    (h : powerIteration A N tol v0 = some (v, s)) (h' : powerIteration A N' tol v0 = some (v', s')) : s ≤ s' := by
  obtain ⟨k, hk, hval, h1, h2⟩ := C62_value A N tol v0 (fun k hk => hv k (by omega))
  obtain ⟨k', hk', hval', h1', h2'⟩ := C62_value A N' tol v0 hv
  rw [hval] at h
  rw [hval'] at h'
  simp only [Option.some.injEq, Prod.mk.injEq] at h h'
  rw [← h.2, ← h'.2]
  apply estimate_mono A hA hpsd v0 k' (fun j hj => hv j (by omega))
  by_contra hlt
  push Not at hlt
  rcases h1' with h3 | ⟨h3, h4⟩
  · omega
  · have := h2 k' h3 hlt
    linarith

/-- **C62 (convergence).** For a symmetric positive semi-definite matrix with largest eigenvalue `mu > 0` and a start
vector that is not orthogonal to the eigenvectors of `mu`, with `error_tolerance ≤ 0` (no early stopping on
unequal estimates): the returned value tends to `mu` as `num_iters` grows. -/
theorem C62_converges (A : Matrix (Fin n) (Fin n) ℝ) (hA : Aᵀ = A) (hpsd : ∀ v, 0 ≤ v ⬝ᵥ A *ᵥ v) (tol : ℝ)
    (htol : tol ≤ 0) (v0 : Fin n → ℝ) (mu : ℝ) (hmu : 0 < mu) (u : Fin n → ℝ) (hu : IsEigen A mu u)
    (hmax : ∀ b w, IsEigen A b w → b ≤ mu) (huv : u ⬝ᵥ v0 ≠ 0) (ε : ℝ) (hε : 0 < ε) :
    ∃ N0 : ℕ, ∀ N : ℕ, N0 ≤ N → ∃ v s, powerIteration A N tol v0 = some (v, s) ∧ mu - ε < s ∧ s ≤ mu := by
  obtain ⟨lam, U, hU, ho, hb⟩ := spectral_basis A hA
  have hl : ∀ i, 0 ≤ lam i := psd_eigen_nonneg A hpsd hU ho
  have hU0 : ∀ i, U i ≠ 0 := by
    intro i h
    have := ho i i
    rw [h] at this; simp at this
  have hle : ∀ i, lam i ≤ mu := fun i => hmax _ _ ⟨hU0 i, hU i⟩
  -- an index of the top eigenvalue on which the start vector has weight
  obtain ⟨t, ht, htv⟩ : ∃ t, lam t = mu ∧ U t ⬝ᵥ v0 ≠ 0 := by
    by_contra hcon
    push Not at hcon
    apply huv
    conv_lhs => rw [hb u]
    rw [sum_dotProduct]
    apply Finset.sum_eq_zero
    intro i _
    rw [smul_dotProduct, smul_eq_mul]
    by_cases h : lam i = mu
    · rw [hcon i h, mul_zero]
    · obtain ⟨h1, -⟩ := spectral_coords A hU ho hb u 1
      have h2 := h1 i
      rw [pow_one, pow_one, hu.2, dotProduct_smul, smul_eq_mul] at h2
      have h3 : (mu - lam i) * (U i ⬝ᵥ u) = 0 := by linarith
      rcases mul_eq_zero.mp h3 with h4 | h4
      · exact absurd (by linarith) h
      · rw [h4, zero_mul]
  have hw : 0 < (U t ⬝ᵥ v0) ^ 2 := lt_of_le_of_ne (sq_nonneg _) (Ne.symm (pow_ne_zero 2 htv))
  have hm0 : ∀ m, 0 < ∑ i, lam i ^ m * (U i ⬝ᵥ v0) ^ 2 := by
    intro m
    apply Finset.sum_pos'
    · intro i _; exact mul_nonneg (pow_nonneg (hl i) m) (sq_nonneg _)
    · exact ⟨t, Finset.mem_univ _, by rw [ht]; exact mul_pos (pow_pos hmu m) hw⟩
  have hv : ∀ k, (A ^ k) *ᵥ v0 ≠ 0 := by
    intro k h
    obtain ⟨h1, -⟩ := spectral_coords A hU ho hb v0 k
    have h2 := h1 t
    rw [h, dotProduct_zero, ht] at h2
    rcases mul_eq_zero.mp h2.symm with h3 | h3
    · exact pow_ne_zero k hmu.ne' h3
    · exact htv h3
  have hest : ∀ k, estimate A v0 (k + 1) ≤ mu := by
    intro k
    rw [estimate_moments A hU ho hb, div_le_iff₀ (hm0 _), Finset.mul_sum]
    apply Finset.sum_le_sum
    intro i _
    rw [pow_succ]
    have := mul_le_mul_of_nonneg_left (hle i) (mul_nonneg (pow_nonneg (hl i) (2 * k)) (sq_nonneg (U i ⬝ᵥ v0)))
    linarith
  -- the gap
  have hgap : ∀ k, mu - estimate A v0 (k + 1) ≤
      ∑ i, (mu - lam i) * (U i ⬝ᵥ v0) ^ 2 / (U t ⬝ᵥ v0) ^ 2 * ((lam i / mu) ^ 2) ^ k := by
    intro k
    rw [estimate_moments A hU ho hb]
    have h1 : mu - (∑ i, lam i ^ (2 * k + 1) * (U i ⬝ᵥ v0) ^ 2) / (∑ i, lam i ^ (2 * k) * (U i ⬝ᵥ v0) ^ 2) =
        (∑ i, (mu - lam i) * (lam i ^ (2 * k) * (U i ⬝ᵥ v0) ^ 2)) / ∑ i, lam i ^ (2 * k) * (U i ⬝ᵥ v0) ^ 2 := by
      rw [eq_div_iff (hm0 _).ne', sub_mul, div_mul_cancel₀ _ (hm0 _).ne', Finset.mul_sum, ← Finset.sum_sub_distrib]
      apply Finset.sum_congr rfl
      intro i _; ring
    rw [h1]
    have hnum : 0 ≤ ∑ i, (mu - lam i) * (lam i ^ (2 * k) * (U i ⬝ᵥ v0) ^ 2) :=
      Finset.sum_nonneg fun i _ => mul_nonneg (by linarith [hle i]) (mul_nonneg (pow_nonneg (hl i) _) (sq_nonneg _))
    have hden : mu ^ (2 * k) * (U t ⬝ᵥ v0) ^ 2 ≤ ∑ i, lam i ^ (2 * k) * (U i ⬝ᵥ v0) ^ 2 := by
      rw [← ht]
      exact Finset.single_le_sum (f := fun i => lam i ^ (2 * k) * (U i ⬝ᵥ v0) ^ 2)
        (fun i _ => mul_nonneg (pow_nonneg (hl i) _) (sq_nonneg _)) (Finset.mem_univ t)
    refine (div_le_div_of_nonneg_left hnum (mul_pos (pow_pos hmu _) hw) hden).trans ?_
    rw [Finset.sum_div]
    apply Finset.sum_le_sum
    intro i _
    apply le_of_eq
    rw [← pow_mul, div_pow]
    field_simp
  have htend : Filter.Tendsto (fun k : ℕ => ∑ i, (mu - lam i) * (U i ⬝ᵥ v0) ^ 2 / (U t ⬝ᵥ v0) ^ 2 * ((lam i / mu) ^ 2) ^ k)
      Filter.atTop (nhds 0) := by
    rw [show (0 : ℝ) = ∑ _i : Fin n, (0 : ℝ) by simp]
    apply tendsto_finsetSum
    intro i _
    by_cases h : lam i = mu
    · simp [h]
    · have h1 : lam i / mu < 1 := (div_lt_one hmu).mpr (lt_of_le_of_ne (hle i) h)
      have h2 : 0 ≤ lam i / mu := div_nonneg (hl i) hmu.le
      have := tendsto_pow_atTop_nhds_zero_of_lt_one (sq_nonneg (lam i / mu)) (by nlinarith)
      simpa using this.const_mul ((mu - lam i) * (U i ⬝ᵥ v0) ^ 2 / (U t ⬝ᵥ v0) ^ 2)
  obtain ⟨K, hK⟩ := Filter.eventually_atTop.mp (htend.eventually (gt_mem_nhds hε))
  have hclose : ∀ k, K + 1 ≤ k → mu - ε < estimate A v0 k := by
    intro k hk
    obtain ⟨j, rfl⟩ : ∃ j, k = j + 1 := ⟨k - 1, by omega⟩
    have h1 := hgap j
    have h2 := hK j (by omega)
    linarith
  -- equal successive estimates only occur at `mu`
  have hstall : ∀ k, 1 ≤ k → |estimate A v0 k - estimate A v0 (k - 1)| ≤ tol → estimate A v0 k = mu := by
    intro k hk hst
    have heq : estimate A v0 k = estimate A v0 (k - 1) := by
      have := abs_nonneg (estimate A v0 k - estimate A v0 (k - 1))
      have h0 : |estimate A v0 k - estimate A v0 (k - 1)| = 0 := by linarith
      exact sub_eq_zero.mp (abs_eq_zero.mp h0)
    obtain ⟨j, rfl⟩ : ∃ j, k = j + 1 := ⟨k - 1, by omega⟩
    simp only [Nat.add_sub_cancel] at heq
    cases j with
    | zero =>
      rw [estimate_moments A hU ho hb] at heq
      exact absurd heq (div_pos (hm0 _) (hm0 _)).ne'
    | succ j =>
      have h0 := heq
      rw [estimate_moments A hU ho hb, estimate_moments A hU ho hb] at h0
      have p0 := hm0 (2 * j)
      have p1 := hm0 (2 * j + 1)
      have p2 := hm0 (2 * (j + 1))
      have p3 := hm0 (2 * (j + 1) + 1)
      rw [div_eq_div_iff p2.ne' p0.ne'] at h0
      have c1 := moment_cs Finset.univ lam (fun i => U i ⬝ᵥ v0) (fun i _ => hl i) (2 * j)
      have c2 := moment_cs Finset.univ lam (fun i => U i ⬝ᵥ v0) (fun i _ => hl i) (2 * j + 1)
      rw [show 2 * j + 1 + 1 = 2 * (j + 1) by ring, show 2 * j + 1 + 2 = 2 * (j + 1) + 1 by ring] at c2
      rw [show 2 * j + 2 = 2 * (j + 1) by ring] at c1
      rw [heq, estimate_moments A hU ho hb]
      have hvar : ∑ i, lam i ^ (2 * j) * (lam i * (∑ i, lam i ^ (2 * j) * (U i ⬝ᵥ v0) ^ 2) -
          ∑ i, lam i ^ (2 * j + 1) * (U i ⬝ᵥ v0) ^ 2) ^ 2 * (U i ⬝ᵥ v0) ^ 2 = 0 := by
        have e : ∀ a b : ℝ, ∑ i, lam i ^ (2 * j) * (lam i * a - b) ^ 2 * (U i ⬝ᵥ v0) ^ 2 =
            a ^ 2 * (∑ i, lam i ^ (2 * (j + 1)) * (U i ⬝ᵥ v0) ^ 2)
              - 2 * a * b * (∑ i, lam i ^ (2 * j + 1) * (U i ⬝ᵥ v0) ^ 2)
              + b ^ 2 * ∑ i, lam i ^ (2 * j) * (U i ⬝ᵥ v0) ^ 2 := by
          intro a b
          rw [Finset.mul_sum, Finset.mul_sum, Finset.mul_sum, ← Finset.sum_sub_distrib, ← Finset.sum_add_distrib]
          apply Finset.sum_congr rfl
          intro i _; ring
        rw [e]
        generalize ∑ i, lam i ^ (2 * j) * (U i ⬝ᵥ v0) ^ 2 = m0 at *
        generalize ∑ i, lam i ^ (2 * j + 1) * (U i ⬝ᵥ v0) ^ 2 = m1 at *
        generalize ∑ i, lam i ^ (2 * (j + 1)) * (U i ⬝ᵥ v0) ^ 2 = m2 at *
        generalize ∑ i, lam i ^ (2 * (j + 1) + 1) * (U i ⬝ᵥ v0) ^ 2 = m3 at *
        have h5 : m2 * (m0 * m2) ≤ m2 * m1 ^ 2 := by
          have h5' := mul_le_mul_of_nonneg_left c2 p0.le
          have h5'' : m0 * (m1 * m3) = m2 * m1 ^ 2 := by linear_combination m1 * h0
          linarith
        have h6 : m0 * m2 ≤ m1 ^ 2 := le_of_mul_le_mul_left h5 p2
        have h7 : m0 * m2 = m1 ^ 2 := le_antisymm h6 c1
        linear_combination m0 * h7
      have hz := (Finset.sum_eq_zero_iff_of_nonneg (fun i _ => mul_nonneg (mul_nonneg (pow_nonneg (hl i) _) (sq_nonneg _))
        (sq_nonneg _))).mp hvar t (Finset.mem_univ t)
      rw [ht] at hz
      have h8 := (mul_eq_zero.mp ((mul_eq_zero.mp hz).resolve_right hw.ne')).resolve_left (pow_pos hmu _).ne'
      have h9 := pow_eq_zero_iff (two_ne_zero) |>.mp h8
      rw [div_eq_iff p0.ne']
      linarith
  refine ⟨K + 1, fun N hN => ?_⟩
  obtain ⟨k, hk, hval, h1, -⟩ := C62_value A N tol v0 (fun k _ => hv k)
  refine ⟨_, _, hval, ?_⟩
  rcases h1 with h1 | ⟨h1, h2⟩
  · subst h1
    refine ⟨hclose k hN, ?_⟩
    obtain ⟨j, rfl⟩ : ∃ j, k = j + 1 := ⟨k - 1, by omega⟩
    exact hest j
  · rw [hstall k h1 h2]
    exact ⟨by linarith, le_rfl⟩

/-- the hypotheses are met, e.g., by `diag(2, 1)` and the start vector `(1, 1)` -/
example : ∃ (A : Matrix (Fin 2) (Fin 2) ℝ) (v0 u : Fin 2 → ℝ), Aᵀ = A ∧ (∀ v, 0 ≤ v ⬝ᵥ A *ᵥ v) ∧ IsEigen A 2 u ∧
    u ⬝ᵥ v0 ≠ 0 ∧ (∀ b w, IsEigen A b w → b ≤ 2) ∧ ∀ k, (A ^ k) *ᵥ v0 ≠ 0 := by
  refine ⟨Matrix.diagonal ![2, 1], ![1, 1], ![1, 0], ?_, ?_, ⟨?_, ?_⟩, ?_, ?_, ?_⟩
  · rw [Matrix.diagonal_transpose]
  · intro v
    simp only [dotProduct, Fin.sum_univ_two, mulVec_diagonal]
    simp
    nlinarith [mul_self_nonneg (v 0), mul_self_nonneg (v 1)]
  · intro h; have := congrFun h 0; simp at this
  · ext i; fin_cases i <;> simp [mulVec_diagonal]
  · simp [dotProduct, Fin.sum_univ_two]
  · intro b w ⟨h0, h1⟩
    by_contra hb
    push Not at hb
    apply h0
    have e0 := congrFun h1 0
    have e1 := congrFun h1 1
    simp [mulVec_diagonal] at e0 e1
    have g0 : w 0 = 0 := by
      rcases e0 with h | h
      · linarith
      · exact h
    have g1 : w 1 = 0 := by
      have : (b - 1) * w 1 = 0 := by linarith
      rcases mul_eq_zero.mp this with h | h
      · linarith
      · exact h
    ext i
    fin_cases i
    · simpa using g0
    · simpa using g1
  · intro k h
    rw [Matrix.diagonal_pow] at h
    have := congrFun h 1
    simp [mulVec_diagonal] at this

end Optax
