import Verif.Props.PowerIteration

/-!
# C132: what the answer of `power_iteration` certifies

`C62` shows convergence without tolerance.  Here the loop is used as written: either it was stopped by the tolerance, and then the
answer is close to some eigenvalue (though perhaps not the largest), or it used up its iterations, and then the answer obeys a rate that does
not depend on a spectral gap.
-/

set_option linter.unusedSectionVars false

namespace Optax
open Matrix
variable {n : ℕ}

/-- two limits, the loop stopped by the tolerance under the smaller one: same answer -/
theorem pi_stopped (A : Matrix (Fin n) (Fin n) ℝ) (N : ℕ) (tol : ℝ) (v0 : Fin n → ℝ) (hv : ∀ k ≤ N + 1, (A ^ k) *ᵥ v0 ≠ 0) :
    ∃ k ≤ N, powerIteration A N tol v0 = some (unit ((A ^ k) *ᵥ v0), estimate A v0 k) ∧
      ((1 ≤ k ∧ |estimate A v0 k - estimate A v0 (k - 1)| ≤ tol ∧ powerIteration A (N + 1) tol v0 = powerIteration A N tol v0) ∨
       (k = N ∧ powerIteration A (N + 1) tol v0 = some (unit ((A ^ (N + 1)) *ᵥ v0), estimate A v0 (N + 1)))) := by
  obtain ⟨k, hk, h1, h2, h3⟩ := C62_value A N tol v0 (fun j hj => hv j (by omega))
  obtain ⟨k', hk', h1', h2', h3'⟩ := C62_value A (N + 1) tol v0 hv
  push_cast at h1'
  refine ⟨k, hk, h1, ?_⟩
  by_cases hst : 1 ≤ k ∧ |estimate A v0 k - estimate A v0 (k - 1)| ≤ tol
  · left
    have e : k' = k := by
      have : k' ≤ k := by
        by_contra hlt
        have := h3' k hst.1 (by omega)
        linarith [hst.2]
      rcases h2' with h | ⟨h, h'⟩
      · omega
      · by_contra hne
        have := h3 k' h (by omega)
        linarith
    refine ⟨hst.1, hst.2, ?_⟩
    rw [h1', h1, e]
  · right
    have hkN : k = N := h2.resolve_right hst
    have e : k' = N + 1 := by
      rcases h2' with h | ⟨h, h'⟩
      · exact h
      · by_contra hne
        rcases Nat.lt_or_ge k' k with hlt | hge
        · have := h3 k' h hlt
          linarith
        · have : k' = k := by omega
          subst this
          exact hst ⟨h, h'⟩
    rw [e] at h1'
    exact ⟨hkN, h1'⟩

/-- successive estimates of a positive semi-definite matrix certify an eigenvalue -/
theorem eigen_near (A : Matrix (Fin n) (Fin n) ℝ) (hA : Aᵀ = A) (hpsd : ∀ v, 0 ≤ v ⬝ᵥ A *ᵥ v) (v0 : Fin n → ℝ) (k : ℕ)
    (hv : ∀ j ≤ k + 1, (A ^ j) *ᵥ v0 ≠ 0) :
    ∃ b u, IsEigen A b u ∧ (b - estimate A v0 (k + 1)) ^ 2 ≤ estimate A v0 (k + 1) * (estimate A v0 (k + 2) - estimate A v0 (k + 1)) := by
  obtain ⟨lam, U, hU, ho, hb⟩ := spectral_basis A hA
  have hl : ∀ i, 0 ≤ lam i := psd_eigen_nonneg A hpsd hU ho
  have hU0 : ∀ i, U i ≠ 0 := by
    intro i h
    have := ho i i
    rw [h] at this; simp at this
  by_contra hcon
  push Not at hcon
  have hlt := fun i => hcon _ (U i) ⟨hU0 i, hU i⟩
  rw [estimate_moments A hU ho hb, estimate_moments A hU ho hb] at hlt
  have hm : ∀ m, 0 ≤ ∑ i, lam i ^ m * (U i ⬝ᵥ v0) ^ 2 := fun m =>
    Finset.sum_nonneg fun i _ => mul_nonneg (pow_nonneg (hl i) m) (sq_nonneg _)
  have hpos : ∀ j < k + 2, 0 < ∑ i, lam i ^ (2 * j) * (U i ⬝ᵥ v0) ^ 2 := by
    intro j hj
    have h1 := dot_self_pos (hv j (by omega))
    obtain ⟨-, h2, -⟩ := spectral_coords A hU ho hb ((A ^ j) *ᵥ v0) 0
    obtain ⟨h3, -⟩ := spectral_coords A hU ho hb v0 j
    rw [h2] at h1
    simp only [h3] at h1
    convert h1 using 2
    ring
  have c2 := moment_cs Finset.univ lam (fun i => U i ⬝ᵥ v0) (fun i _ => hl i) (2 * k + 1)
  have p0 := hpos k (by omega)
  have p2 := hpos (k + 1) (by omega)
  have e2 : 2 * (k + 1) = 2 * k + 2 := by ring
  rw [e2] at p2 hlt
  rw [show 2 * k + 1 + 1 = 2 * k + 2 by ring, show 2 * k + 1 + 2 = 2 * k + 2 + 1 by ring] at c2
  have g1 := hm (2 * k + 1)
  have g3 := hm (2 * k + 2 + 1)
  obtain ⟨i0, hi0⟩ : ∃ i, 0 < lam i ^ (2 * k) * (U i ⬝ᵥ v0) ^ 2 := by
    by_contra hc
    push Not at hc
    have := Finset.sum_nonpos (fun i (_ : i ∈ Finset.univ) => hc i)
    linarith
  have key : ∀ r T : ℝ, (∀ i, T < (lam i - r) ^ 2) → T * (∑ i, lam i ^ (2 * k) * (U i ⬝ᵥ v0) ^ 2) <
      (∑ i, lam i ^ (2 * k + 2) * (U i ⬝ᵥ v0) ^ 2) - 2 * r * (∑ i, lam i ^ (2 * k + 1) * (U i ⬝ᵥ v0) ^ 2) +
        r ^ 2 * (∑ i, lam i ^ (2 * k) * (U i ⬝ᵥ v0) ^ 2) := by
    intro r T h
    rw [Finset.mul_sum, Finset.mul_sum, Finset.mul_sum, ← Finset.sum_sub_distrib, ← Finset.sum_add_distrib]
    have e : ∀ i, lam i ^ (2 * k + 2) * (U i ⬝ᵥ v0) ^ 2 - 2 * r * (lam i ^ (2 * k + 1) * (U i ⬝ᵥ v0) ^ 2) + r ^ 2 * (lam i ^ (2 * k) * (U i ⬝ᵥ v0) ^ 2) =
        (lam i - r) ^ 2 * (lam i ^ (2 * k) * (U i ⬝ᵥ v0) ^ 2) := fun i => by ring
    simp only [e]
    refine Finset.sum_lt_sum (fun i _ => mul_le_mul_of_nonneg_right (h i).le (mul_nonneg (pow_nonneg (hl i) _) (sq_nonneg _)))
      ⟨i0, Finset.mem_univ _, mul_lt_mul_of_pos_right (h i0) hi0⟩
  have := key _ _ hlt
  generalize ∑ i, lam i ^ (2 * k) * (U i ⬝ᵥ v0) ^ 2 = m0 at *
  generalize ∑ i, lam i ^ (2 * k + 1) * (U i ⬝ᵥ v0) ^ 2 = m1 at *
  generalize ∑ i, lam i ^ (2 * k + 2) * (U i ⬝ᵥ v0) ^ 2 = m2 at *
  generalize ∑ i, lam i ^ (2 * k + 2 + 1) * (U i ⬝ᵥ v0) ^ 2 = m3 at *
  have e1 : m1 / m0 * (m3 / m2 - m1 / m0) * m0 = m1 * m3 / m2 - m1 ^ 2 / m0 := by field_simp
  have e3 : m2 - 2 * (m1 / m0) * m1 + (m1 / m0) ^ 2 * m0 = m2 - m1 ^ 2 / m0 := by field_simp; ring
  rw [e1, e3] at this
  have : m1 * m3 / m2 < m2 := by linarith
  rw [div_lt_iff₀ p2] at this
  nlinarith

/-- **C132 (stopped by the tolerance).** For a symmetric positive semi-definite matrix: if raising the limit by one does not change the answer
— the loop was stopped by the tolerance —, then some eigenvalue lies within `tol + √(s · tol)` of the returned estimate `s`. -/
theorem C132_stopped (A : Matrix (Fin n) (Fin n) ℝ) (hA : Aᵀ = A) (hpsd : ∀ v, 0 ≤ v ⬝ᵥ A *ᵥ v) (N : ℕ) (tol : ℝ) (htol : 0 ≤ tol)
    (v0 : Fin n → ℝ) (hv : ∀ k ≤ N + 1, (A ^ k) *ᵥ v0 ≠ 0) (hN : 1 ≤ N) (v : Fin n → ℝ) (s : ℝ) (h : powerIteration A N tol v0 = some (v, s))
    (hst : powerIteration A (N + 1) tol v0 = powerIteration A N tol v0) :
    ∃ b u, IsEigen A b u ∧ |b - s| ≤ tol + Real.sqrt (s * tol) := by
  obtain ⟨k, hk, h1, h2⟩ := pi_stopped A N tol v0 hv
  rw [h1] at h hst
  simp only [Option.some.injEq, Prod.mk.injEq] at h
  have mono := fun k (hk : k ≤ N + 1) => estimate_mono A hA hpsd v0 k (fun j (hj : j < k) => hv j (by omega))
  have near : ∀ k, 1 ≤ k → k ≤ N → ∀ T, 0 ≤ T → estimate A v0 (k + 1) - estimate A v0 k ≤ T → ∃ b u, IsEigen A b u ∧ |b - estimate A v0 k| ≤ Real.sqrt (estimate A v0 k * T) := by
    intro k hk hkN T hT hd
    obtain ⟨k, rfl⟩ : ∃ j, k = j + 1 := ⟨k - 1, by omega⟩
    obtain ⟨b, u, hbu, he⟩ := eigen_near A hA hpsd v0 k (fun j hj => hv j (by omega))
    refine ⟨b, u, hbu, Real.abs_le_sqrt (he.trans ?_)⟩
    have h0 : 0 ≤ estimate A v0 (k + 1) := mono (k + 1) (by omega) 0 (by omega)
    exact mul_le_mul_of_nonneg_left hd h0
  rcases h2 with ⟨hk1, hd, -⟩ | ⟨rfl, h3⟩
  · rcases Nat.lt_or_ge k 2 with hlt | hge
    · have : k = 1 := by omega
      subst this
      obtain ⟨-, ⟨a, u, hau, hle⟩, -⟩ := C62_rayleigh A hA N hN tol v0 (fun j hj => hv j (by omega)) _ _ h1
      refine ⟨a, u, hau, ?_⟩
      rw [← h.2]
      have ha0 : 0 ≤ a := by
        have := hpsd u
        rw [hau.2, dotProduct_smul, smul_eq_mul] at this
        exact nonneg_of_mul_nonneg_left this (dot_self_pos hau.1)
      have hd' : estimate A v0 1 ≤ tol := by
        have := (abs_le.1 hd).2
        simpa [estimate] using this
      rw [abs_le]
      have := Real.sqrt_nonneg (estimate A v0 1 * tol)
      constructor <;> linarith
    · obtain ⟨k, rfl⟩ : ∃ j, k = j + 1 := ⟨k - 1, by omega⟩
      simp only [Nat.add_sub_cancel] at hd
      obtain ⟨b, u, hbu, hb⟩ := near k (by omega) (by omega) tol htol ((le_abs_self _).trans hd)
      refine ⟨b, u, hbu, ?_⟩
      have hm := mono (k + 1) (by omega) k (by omega)
      have hsq := Real.sqrt_le_sqrt (mul_le_mul_of_nonneg_right hm htol)
      rw [← h.2]
      have h4 := abs_add_le (b - estimate A v0 k) (estimate A v0 k - estimate A v0 (k + 1))
      rw [show b - estimate A v0 k + (estimate A v0 k - estimate A v0 (k + 1)) = b - estimate A v0 (k + 1) by ring, abs_sub_comm (estimate A v0 k)] at h4
      linarith
  · rw [h3] at hst
    simp only [Option.some.injEq, Prod.mk.injEq] at hst
    obtain ⟨b, u, hbu, hb⟩ := near k hN le_rfl 0 le_rfl (by rw [hst.2, sub_self])
    refine ⟨b, u, hbu, ?_⟩
    rw [mul_zero, Real.sqrt_zero, h.2] at hb
    have := Real.sqrt_nonneg (s * tol)
    linarith

/-- **C132 (still running).** If raising the limit does change the answer, all `N` iterations were done and the estimate obeys a rate that needs no
spectral gap: `s ≥ mu · (cos² θ)^(1 / (2 (N-1)))`, with `mu` any eigenvalue and `θ` the angle of the start vector to its eigenvector `u`. -/
theorem C132_rate (A : Matrix (Fin n) (Fin n) ℝ) (hA : Aᵀ = A) (hpsd : ∀ v, 0 ≤ v ⬝ᵥ A *ᵥ v) (N : ℕ) (tol : ℝ)
    (v0 : Fin n → ℝ) (hv : ∀ k ≤ N + 1, (A ^ k) *ᵥ v0 ≠ 0) (hN : 1 ≤ N) (v : Fin n → ℝ) (s : ℝ) (h : powerIteration A N tol v0 = some (v, s))
    (hst : powerIteration A (N + 1) tol v0 ≠ powerIteration A N tol v0) (mu : ℝ) (u : Fin n → ℝ) (hu : IsEigen A mu u) :
    mu ^ (2 * (N - 1)) * (u ⬝ᵥ v0) ^ 2 ≤ s ^ (2 * (N - 1)) * ((u ⬝ᵥ u) * (v0 ⬝ᵥ v0)) := by
  obtain ⟨k, hk, h1, h2⟩ := pi_stopped A N tol v0 hv
  rcases h2 with ⟨-, -, h3⟩ | ⟨rfl, -⟩
  · exact absurd h3 hst
  rw [h1] at h
  simp only [Option.some.injEq, Prod.mk.injEq] at h
  rw [← h.2]
  obtain ⟨m, rfl⟩ : ∃ j, k = j + 1 := ⟨k - 1, by omega⟩
  simp only [Nat.add_sub_cancel]
  obtain ⟨lam, U, hU, ho, hb⟩ := spectral_basis A hA
  have hl : ∀ i, 0 ≤ lam i := psd_eigen_nonneg A hpsd hU ho
  have hs := estimate_moments A hU ho hb v0 m
  have hs0 : 0 ≤ estimate A v0 (m + 1) := estimate_mono A hA hpsd v0 (m + 1) (fun j hj => hv j (by omega)) 0 (by omega)
  have hm : ∀ j, 0 ≤ ∑ i, lam i ^ j * (U i ⬝ᵥ v0) ^ 2 := fun j =>
    Finset.sum_nonneg fun i _ => mul_nonneg (pow_nonneg (hl i) j) (sq_nonneg _)
  have cs := moment_cs Finset.univ lam (fun i => U i ⬝ᵥ v0) (fun i _ => hl i)
  have hnorm : ((A ^ m) *ᵥ v0) ⬝ᵥ ((A ^ m) *ᵥ v0) = ∑ i, lam i ^ (2 * m) * (U i ⬝ᵥ v0) ^ 2 := by
    obtain ⟨-, h2, -⟩ := spectral_coords A hU ho hb ((A ^ m) *ᵥ v0) 0
    obtain ⟨h3, -⟩ := spectral_coords A hU ho hb v0 m
    rw [h2]
    refine Finset.sum_congr rfl fun i _ => ?_
    rw [h3]; ring
  have hpos := dot_self_pos (hv m (by omega))
  rw [hnorm] at hpos
  have hm0 : v0 ⬝ᵥ v0 = ∑ i, lam i ^ 0 * (U i ⬝ᵥ v0) ^ 2 := by
    obtain ⟨-, h2, -⟩ := spectral_coords A hU ho hb v0 0
    rw [h2]; simp
  have hCS : (u ⬝ᵥ ((A ^ m) *ᵥ v0)) ^ 2 ≤ (u ⬝ᵥ u) * (((A ^ m) *ᵥ v0) ⬝ᵥ ((A ^ m) *ᵥ v0)) := by
    have := Finset.sum_mul_sq_le_sq_mul_sq Finset.univ u ((A ^ m) *ᵥ v0)
    simpa [dotProduct, sq] using this
  have hup : ∀ j : ℕ, u ⬝ᵥ ((A ^ j) *ᵥ v0) = mu ^ j * (u ⬝ᵥ v0) := by
    intro j
    induction j with
    | zero => simp
    | succ j ih =>
      rw [← mulVec_pow_succ, dotProduct_mulVec, ← mulVec_transpose, hA, hu.2, smul_dotProduct, ih, smul_eq_mul]; ring
  rw [hup, hnorm] at hCS
  generalize estimate A v0 (m + 1) = s at *
  set M : ℕ → ℝ := fun j => ∑ i, lam i ^ j * (U i ⬝ᵥ v0) ^ 2 with hM
  have step : ∀ d j, j + d = 2 * m → M (j + 1) ≤ s * M j := by
    intro d
    induction d with
    | zero =>
      intro j hj
      obtain rfl : j = 2 * m := by omega
      rw [hs]
      show M (2 * m + 1) ≤ M (2 * m + 1) / M (2 * m) * M (2 * m)
      rw [div_mul_cancel₀ _ hpos.ne']
    | succ d ih =>
      intro j hj
      have h1 := ih (j + 1) (by omega)
      have h2 : M (j + 1) ^ 2 ≤ M j * M (j + 2) := cs j
      rcases (hm (j + 1)).eq_or_lt with h0 | h0
      · have : M (j + 1) = 0 := h0.symm
        rw [this]
        exact mul_nonneg hs0 (hm j)
      · have h0' : 0 < M (j + 1) := h0
        have h3 : 0 ≤ M j := hm j
        have : M (j + 1) * M (j + 1) ≤ (s * M j) * M (j + 1) := by nlinarith
        exact le_of_mul_le_mul_right this h0'
  have pw : ∀ j, j ≤ 2 * m → M j ≤ s ^ j * M 0 := by
    intro j
    induction j with
    | zero => intro _; simp
    | succ j ih =>
      intro hj
      have h1 := step (2 * m - j) j (by omega)
      have h2 := mul_le_mul_of_nonneg_left (ih (by omega)) hs0
      rw [pow_succ]; linarith
  have h4 := pw (2 * m) le_rfl
  have huu : 0 ≤ u ⬝ᵥ u := (dot_self_pos hu.1).le
  have h5 := mul_le_mul_of_nonneg_left h4 huu
  have e0 : v0 ⬝ᵥ v0 = M 0 := hm0
  have hCS' : (mu ^ m * u ⬝ᵥ v0) ^ 2 ≤ u ⬝ᵥ u * M (2 * m) := hCS
  rw [e0]
  calc mu ^ (2 * m) * (u ⬝ᵥ v0) ^ 2 = (mu ^ m * u ⬝ᵥ v0) ^ 2 := by ring
    _ ≤ u ⬝ᵥ u * (s ^ (2 * m) * M 0) := hCS'.trans h5
    _ = _ := by ring

/-- **C132 (the tolerance can deceive).** For every positive tolerance there is a start vector with a component along the
top eigenvector of `diag(1, 1/2)` for which `power_iteration` stops with an estimate below 0.53, whatever the limit. -/
theorem C132_deceived (tol : ℝ) (htol : 0 < tol) :
    ∃ v0 : Fin 2 → ℝ, ![1, 0] ⬝ᵥ v0 ≠ 0 ∧ IsEigen (Matrix.diagonal ![1, 1 / 2]) 1 ![1, 0] ∧
      ∀ N : ℕ, ∃ v s, powerIteration (Matrix.diagonal ![1, 1 / 2]) N tol v0 = some (v, s) ∧ s ≤ 53 / 100 := by
  obtain ⟨d, hd0, hd1, hdt⟩ : ∃ d : ℝ, 0 < d ∧ d ≤ 1 / 10 ∧ d ≤ tol := ⟨min (1 / 10) tol, by positivity, min_le_left _ _, min_le_right _ _⟩
  have hpw : ∀ k : ℕ, ((Matrix.diagonal ![1, 1 / 2] : Matrix (Fin 2) (Fin 2) ℝ) ^ k) *ᵥ ![d, 1] = ![d, (1 / 2) ^ k] := by
    intro k
    rw [Matrix.diagonal_pow]
    funext i
    rw [mulVec_diagonal]
    fin_cases i <;> simp
  have hne : ∀ k : ℕ, ((Matrix.diagonal ![1, 1 / 2] : Matrix (Fin 2) (Fin 2) ℝ) ^ k) *ᵥ ![d, 1] ≠ 0 := by
    intro k h
    rw [hpw] at h
    have := congrFun h 0
    simp at this
    exact hd0.ne' this
  have e1 : estimate (Matrix.diagonal ![1, 1 / 2] : Matrix (Fin 2) (Fin 2) ℝ) ![d, 1] 1 = (d ^ 2 + 1 / 2) / (d ^ 2 + 1) := by
    show rayleigh _ (_ *ᵥ _) = _
    rw [hpw, rayleigh]
    simp [dotProduct, Fin.sum_univ_two, mulVec_diagonal]
    ring_nf
  have e2 : estimate (Matrix.diagonal ![1, 1 / 2] : Matrix (Fin 2) (Fin 2) ℝ) ![d, 1] 2 = (d ^ 2 + 1 / 8) / (d ^ 2 + 1 / 4) := by
    show rayleigh _ (_ *ᵥ _) = _
    rw [hpw, rayleigh]
    simp [dotProduct, Fin.sum_univ_two, mulVec_diagonal]
    ring_nf
  have hdd : d ^ 2 ≤ 1 / 100 := by nlinarith
  have hdt2 : d ^ 2 ≤ tol / 10 := by nlinarith
  have b1 : (d ^ 2 + 1 / 2) / (d ^ 2 + 1) ≤ 53 / 100 := by rw [div_le_iff₀ (by positivity)]; nlinarith
  have b1' : 1 / 2 ≤ (d ^ 2 + 1 / 2) / (d ^ 2 + 1) := by rw [le_div_iff₀ (by positivity)]; nlinarith
  have b2 : (d ^ 2 + 1 / 8) / (d ^ 2 + 1 / 4) ≤ 1 / 2 + 2 * d ^ 2 := by rw [div_le_iff₀ (by positivity)]; nlinarith [sq_nonneg (d ^ 2)]
  have b2' : 1 / 2 + d ^ 2 ≤ (d ^ 2 + 1 / 8) / (d ^ 2 + 1 / 4) := by rw [le_div_iff₀ (by positivity)]; nlinarith [sq_nonneg (d ^ 2)]
  have b3 : (d ^ 2 + 1 / 2) / (d ^ 2 + 1) ≤ 1 / 2 + d ^ 2 := by rw [div_le_iff₀ (by positivity)]; nlinarith [sq_nonneg (d ^ 2)]
  refine ⟨![d, 1], by simp [dotProduct, Fin.sum_univ_two, hd0.ne'], ⟨?_, ?_⟩, fun N => ?_⟩
  · intro h; have := congrFun h 0; simp at this
  · funext i; rw [mulVec_diagonal]; fin_cases i <;> simp
  · obtain ⟨k, -, h1, -, h3⟩ := C62_value (Matrix.diagonal ![1, 1 / 2]) N tol ![d, 1] (fun k _ => hne k)
    refine ⟨_, _, h1, ?_⟩
    match k with
    | 0 => show (0 : ℝ) ≤ _; norm_num
    | 1 => rw [e1]; exact b1
    | 2 => rw [e2]; linarith
    | k + 3 =>
      have := h3 2 (by omega) (by omega)
      rw [show (2 - 1 : ℕ) = 1 from rfl, e1, e2, abs_of_nonneg (by linarith)] at this
      linarith

/-- the moments of `diag(1, 1/2)` from the start vector `(1, 1)` -/
theorem diag_iterates (k : ℕ) : ((Matrix.diagonal ![1, 1 / 2] : Matrix (Fin 2) (Fin 2) ℝ) ^ k) *ᵥ ![1, 1] = ![1, (1 / 2) ^ k] := by
  rw [Matrix.diagonal_pow]
  funext i
  rw [mulVec_diagonal]
  fin_cases i <;> simp

/-- Non-vacuity: the hypotheses of `C132_rate` hold for `diag(1, 1/2)` from `(1, 1)` with limit 1 and a negative tolerance; those on the matrix
and the start vector are shared with `C132_stopped`. -/
example : let A : Matrix (Fin 2) (Fin 2) ℝ := Matrix.diagonal ![1, 1 / 2]
    Aᵀ = A ∧ (∀ v, 0 ≤ v ⬝ᵥ A *ᵥ v) ∧ (∀ k ≤ 2, (A ^ k) *ᵥ ![1, 1] ≠ 0) ∧
      powerIteration A 2 (-1) ![1, 1] ≠ powerIteration A 1 (-1) ![1, 1] := by
  intro A
  have hne : ∀ k : ℕ, (A ^ k) *ᵥ ![1, 1] ≠ 0 := by
    intro k h
    rw [diag_iterates] at h
    have := congrFun h 0
    simp at this
  refine ⟨Matrix.diagonal_transpose _, fun v => ?_, fun k _ => hne k, ?_⟩
  · simp only [A, dotProduct, Fin.sum_univ_two, mulVec_diagonal]
    simp
    nlinarith [mul_self_nonneg (v 0), mul_self_nonneg (v 1)]
  · obtain ⟨k, hk, h1, h2, -⟩ := C62_value A 1 (-1) ![1, 1] (fun k _ => hne k)
    obtain ⟨k', hk', h1', h2', -⟩ := C62_value A 2 (-1) ![1, 1] (fun k _ => hne k)
    have h3 : k = 1 := h2.resolve_right fun h => by have := abs_nonneg (estimate A ![1, 1] k - estimate A ![1, 1] (k - 1)); linarith [h.2]
    have h4 : k' = 2 := h2'.resolve_right fun h => by have := abs_nonneg (estimate A ![1, 1] k' - estimate A ![1, 1] (k' - 1)); linarith [h.2]
    subst h3 h4
    intro h
    have h5 := h1'.symm.trans (h.trans h1)
    simp only [Option.some.injEq, Prod.mk.injEq] at h5
    have h6 : rayleigh A ((A ^ 1) *ᵥ ![1, 1]) = rayleigh A ((A ^ 0) *ᵥ ![1, 1]) := h5.2
    rw [diag_iterates, diag_iterates] at h6
    simp [rayleigh, A, dotProduct, Fin.sum_univ_two, mulVec_diagonal] at h6
    norm_num at h6

/-- Non-vacuity of the stopping hypothesis of `C132_stopped`: started at an eigenvector, the answer no longer changes. -/
example : powerIteration (Matrix.diagonal ![1, 1 / 2] : Matrix (Fin 2) (Fin 2) ℝ) ((1 : ℕ) + 1) (1 / 10) ![0, 1] =
    powerIteration (Matrix.diagonal ![1, 1 / 2]) (1 : ℕ) (1 / 10) ![0, 1] := by
  have he : IsEigen (Matrix.diagonal ![1, 1 / 2] : Matrix (Fin 2) (Fin 2) ℝ) (1 / 2) ![0, 1] := by
    refine ⟨fun h => by have := congrFun h 1; simp at this, ?_⟩
    funext i; rw [mulVec_diagonal]; fin_cases i <;> simp
  obtain ⟨v, h1, -, -, h2⟩ := C62_eigenvector _ 1 le_rfl (1 / 10) _ (1 / 2) (by norm_num) he
  obtain ⟨v', h1', -, -, h2'⟩ := C62_eigenvector _ 2 (by norm_num) (1 / 10) _ (1 / 2) (by norm_num) he
  rw [h1, h2 (by norm_num)]
  rw [h2' (by norm_num)] at h1'
  exact h1'

end Optax
