import Verif.Props.PowerIteration

/-!
# C63: `matrix_inverse_pth_root`
-/

set_option linter.unusedSectionVars false
set_option linter.unusedSimpArgs false

namespace Optax
open Matrix

variable {n : ℕ}

/-! ## `maxAbs` -/

theorem le_maxAbs (M : Matrix (Fin n) (Fin n) ℝ) (i j : Fin n) : |M i j| ≤ maxAbs M := by
  unfold maxAbs
  exact le_ciSup (f := fun ij : Fin n × Fin n => |M ij.1 ij.2|) (Set.finite_range _).bddAbove (i, j)

theorem maxAbs_le (M : Matrix (Fin n) (Fin n) ℝ) (hn : 0 < n) (c : ℝ) (h : ∀ i j, |M i j| ≤ c) : maxAbs M ≤ c := by
  have : Nonempty (Fin n × Fin n) := ⟨(⟨0, hn⟩, ⟨0, hn⟩)⟩
  exact ciSup_le fun ij => h ij.1 ij.2

theorem maxAbs_nonneg (M : Matrix (Fin n) (Fin n) ℝ) : 0 ≤ maxAbs M := Real.iSup_nonneg fun _ => abs_nonneg _

theorem maxAbs_eq_zero {M : Matrix (Fin n) (Fin n) ℝ} (h : maxAbs M = 0) : M = 0 := by
  ext i j
  have := le_maxAbs M i j
  rw [h] at this
  simpa using this

theorem maxAbs_smul_one (hn : 0 < n) (c : ℝ) : maxAbs (c • (1 : Matrix (Fin n) (Fin n) ℝ)) = |c| := by
  apply le_antisymm
  · apply maxAbs_le _ hn
    intro i j
    by_cases h : i = j
    · subst h; simp
    · simp [Matrix.one_apply_ne h]
  · have := le_maxAbs (c • (1 : Matrix (Fin n) (Fin n) ℝ)) ⟨0, hn⟩ ⟨0, hn⟩
    simpa using this

/-! ## `mat_power` -/

theorem logb_two_pow (k : ℕ) : Real.logb 2 ((2 : ℝ) ^ k) = k := by
  rw [Real.logb_pow]; simp

/-- `mat_power` is a power, with the exponent the documentation promises, for 1, 2, 4 and 8 -/
theorem matPower_eq (M : Matrix (Fin n) (Fin n) ℝ) (p : ℕ) (hp : p = 1 ∨ p = 2 ∨ p = 4 ∨ p = 8) :
    matPower M p = M ^ p := by
  have h4 : matPow4 M = M ^ 4 := by
    unfold matPow4 matPow2
    rw [show (4 : ℕ) = 1 + 1 + 1 + 1 from rfl, pow_succ, pow_succ, pow_succ, pow_one]
    simp only [Matrix.mul_assoc]
  have h8 : matPow8 M = M ^ 8 := by
    unfold matPow8; rw [h4, ← pow_add]
  unfold matPower
  rcases hp with rfl | rfl | rfl | rfl
  · have : Real.logb 2 ((1 : ℕ) : ℝ) = ((0 : ℤ) : ℝ) := by simp
    rw [this, round_intCast]
    simp [switch4]
  · have : Real.logb 2 ((2 : ℕ) : ℝ) = ((1 : ℤ) : ℝ) := by have := logb_two_pow 1; simpa using this
    rw [this, round_intCast]
    simp [switch4, matPow2, sq]
  · have : Real.logb 2 ((4 : ℕ) : ℝ) = ((2 : ℤ) : ℝ) := by have := logb_two_pow 2; norm_num at this ⊢; exact this
    rw [this, round_intCast]
    simp [switch4, h4]
  · have : Real.logb 2 ((8 : ℕ) : ℝ) = ((3 : ℤ) : ℝ) := by have := logb_two_pow 3; norm_num at this ⊢; exact this
    rw [this, round_intCast]
    simp [switch4, h8]

/-- for `p = 3` the code computes the fourth power -/
theorem matPower_three (M : Matrix (Fin n) (Fin n) ℝ) : matPower M 3 = M ^ 4 := by
  have h4 := matPower_eq M 4 (by simp)
  have e4 : round (Real.logb 2 ((4 : ℕ) : ℝ)) = 2 := by
    have : Real.logb 2 ((4 : ℕ) : ℝ) = ((2 : ℤ) : ℝ) := by have := logb_two_pow 2; norm_num at this ⊢; exact this
    rw [this, round_intCast]
  have e3 : round (Real.logb 2 ((3 : ℕ) : ℝ)) = 2 := by
    have hlo : (3 : ℝ) / 2 ≤ Real.logb 2 ((3 : ℕ) : ℝ) := by
      have h := Real.logb_le_logb_of_le (b := 2) (by norm_num) (by norm_num : (0 : ℝ) < 2 ^ 3) (by norm_num : (2 : ℝ) ^ 3 ≤ 3 ^ 2)
      rw [logb_two_pow, Real.logb_pow] at h
      push_cast at h ⊢
      linarith
    have hhi : Real.logb 2 ((3 : ℕ) : ℝ) < 2 := by
      have h := Real.logb_lt_logb (b := 2) (by norm_num) (by norm_num : (0 : ℝ) < 3) (by norm_num : (3 : ℝ) < 2 ^ 2)
      rw [logb_two_pow] at h
      push_cast at h ⊢
      exact h
    rw [round_eq, Int.floor_eq_iff]
    push_cast at hlo hhi ⊢
    constructor <;> linarith
  rw [← h4]
  unfold matPower
  rw [e3, e4]

/-! ## The loop invariant -/

/-- what holds after every number of iterations: `h^p · D = m`, and the returned matrix is not worse than reported -/
structure RootInv (D : Matrix (Fin n) (Fin n) ℝ) (p : ℕ) (st : RootState n) : Prop where
  chD : Commute st.h D
  cmD : Commute st.m D
  chm : Commute st.h st.m
  root : st.h ^ p * D = st.m
  err : st.error = maxAbs (st.m - 1)
  old : ¬st.run → maxAbs (st.oldH ^ p * D - 1) * (6 / 5) ≤ st.error

theorem smul_one_pow (c : ℝ) (p : ℕ) : (c • (1 : Matrix (Fin n) (Fin n) ℝ)) ^ p = c ^ p • 1 := by
  rw [smul_pow, one_pow]

theorem rootInv_init (D : Matrix (Fin n) (Fin n) ℝ) (p : ℕ) (hp : 0 < p) : RootInv D p (rootInit D p) := by
  have hz : 0 ≤ (1 + (p : ℝ)) / (2 * frob D) := div_nonneg (by positivity) (mul_nonneg (by norm_num) (Real.sqrt_nonneg _))
  refine ⟨?_, ?_, ?_, ?_, rfl, fun h => absurd trivial h⟩
  · exact (Commute.one_left D).smul_left _
  · exact (Commute.refl D).smul_left _
  · exact ((Commute.one_left D).smul_left _).smul_right _
  · show (_ • (1 : Matrix (Fin n) (Fin n) ℝ)) ^ p * D = _ • D
    rw [smul_one_pow, ← Real.rpow_natCast, ← Real.rpow_mul hz, one_div,
      inv_mul_cancel₀ (by exact_mod_cast hp.ne'), Real.rpow_one, smul_mul_assoc, one_mul]

theorem rootInv_step (D : Matrix (Fin n) (Fin n) ℝ) (p : ℕ) (hp : p = 1 ∨ p = 2 ∨ p = 4 ∨ p = 8) (alpha : ℝ)
    (st : RootState n) (h : RootInv D p st) : RootInv D p (rootBody alpha p st) := by
  obtain ⟨h1, h2, h3, h4, h5, -⟩ := h
  have c1 : Commute (rootMi alpha st.m) D :=
    ((Commute.one_left D).smul_left _).add_left (h2.smul_left _)
  have c2 : Commute st.h (rootMi alpha st.m) := ((Commute.one_right st.h).smul_right _).add_right (h3.smul_right _)
  have c3 : Commute (rootMi alpha st.m) st.m :=
    ((Commute.one_left st.m).smul_left _).add_left ((Commute.refl st.m).smul_left _)
  have eM : (rootBody alpha p st).m = (rootMi alpha st.m) ^ p * st.m := by
    show matPower _ p * st.m = _
    rw [matPower_eq _ p hp]
  have eH : (rootBody alpha p st).h = st.h * rootMi alpha st.m := rfl
  refine ⟨?_, ?_, ?_, ?_, rfl, ?_⟩
  · rw [eH]; exact h1.mul_left c1
  · rw [eM]; exact (c1.pow_left p).mul_left h2
  · rw [eH, eM]
    exact ((c2.pow_right p).mul_right h3).mul_left (((Commute.refl _).pow_right p).mul_right c3)
  · rw [eH, eM, c2.mul_pow, (c2.pow_pow p p).eq, Matrix.mul_assoc, h4]
  · intro hrun
    show maxAbs (st.h ^ p * D - 1) * (6 / 5) ≤ (rootBody alpha p st).error
    rw [h4, ← h5]
    have : ¬((rootBody alpha p st).error < st.error * (6 / 5)) := hrun
    exact not_lt.mp this

theorem rootInv_iter (D : Matrix (Fin n) (Fin n) ℝ) (p : ℕ) (hp : p = 1 ∨ p = 2 ∨ p = 4 ∨ p = 8) (alpha : ℝ) (k : ℕ) :
    RootInv D p ((rootBody alpha p)^[k] (rootInit D p)) := by
  induction k with
  | zero => exact rootInv_init D p (by omega)
  | succ k ih => rw [Function.iterate_succ_apply']; exact rootInv_step D p hp alpha _ ih

/-! ## Theorems -/

/-- **C63 (termination).** The loop does at most `num_iters` iterations, and the function returns, for every matrix
and every `p`. -/
theorem C63_terminates (A : Matrix (Fin n) (Fin n) ℝ) (p : ℕ) (N : ℤ) (eps tol : ℝ) (v0 : Fin n → ℝ) :
    (∀ D : Matrix (Fin n) (Fin n) ℝ, ∃ k : ℕ,
      whileSteps (rootCond N tol) (rootBody (-1 / p) p) (rootInit D p) = some k ∧ (k : ℤ) ≤ max N 0) ∧
    ∃ H err, matrixInversePthRoot A p N eps tol v0 = some (H, err) := by
  have hw := fun D : Matrix (Fin n) (Fin n) ℝ => whileSteps_bounded (rootCond N tol) (rootBody (-1 / p) p) (rootInit D p)
    RootState.i N rfl (fun _ => rfl) (fun _ h => h.1)
  refine ⟨hw, ?_⟩
  obtain ⟨-, v, s, hs⟩ := C62_terminates A 100 (1 / 10 ^ 6) v0
  unfold matrixInversePthRoot
  rw [hs]
  show ∃ H err, rootFrom A p N (ridge eps s) tol = some (H, err)
  unfold rootFrom
  dsimp only
  split
  · exact ⟨_, _, rfl⟩
  · obtain ⟨k, hk, -⟩ := hw (A + ridge eps s • 1)
    unfold whileLoop
    rw [hk]
    exact ⟨_, _, rfl⟩

/-- The full property, for one `p`: whatever the matrix (of size at least 2, with a non-zero damped version), the
iteration limit, the tolerance and the start vector of the power iteration, the returned matrix `H` satisfies
`|H^p (A + ridge I) - I| ≤ error` entry by entry, where `error` is the reported error; in particular
`H^p (A + ridge I) = I` if the reported error is 0. -/
def C63Statement (p : ℕ) : Prop :=
  ∀ (n : ℕ) (A : Matrix (Fin n) (Fin n) ℝ) (N : ℤ) (eps tol : ℝ) (v0 : Fin n → ℝ) (v : Fin n → ℝ) (maxEv : ℝ)
    (H : Matrix (Fin n) (Fin n) ℝ) (err : ℝ), 2 ≤ n → powerIteration A 100 (1 / 10 ^ 6) v0 = some (v, maxEv) →
    A + (eps * max maxEv (1 / 10 ^ 16)) • 1 ≠ 0 → matrixInversePthRoot A p N eps tol v0 = some (H, err) →
    (∀ i j, |(H ^ p * (A + (eps * max maxEv (1 / 10 ^ 16)) • 1) - 1) i j| ≤ err) ∧
    (err = 0 → H ^ p * (A + (eps * max maxEv (1 / 10 ^ 16)) • 1) = 1)

/-- **C63, for `p` = 1, 2, 4, 8.** The invariant `mat_h^p · damped = mat_m` holds after every iteration, and the
returned matrix meets the full statement: the true residual is at most the reported error. -/
theorem C63_inverse_root_partial (p : ℕ) (hp : p = 1 ∨ p = 2 ∨ p = 4 ∨ p = 8) :
    (∀ (n : ℕ) (D : Matrix (Fin n) (Fin n) ℝ) (k : ℕ),
      ((rootBody (-1 / p) p)^[k] (rootInit D p)).h ^ p * D = ((rootBody (-1 / p) p)^[k] (rootInit D p)).m) ∧
    C63Statement p := by
  refine ⟨fun n D k => (rootInv_iter D p hp _ k).root, ?_⟩
  intro n A N eps tol v0 v maxEv H err hn hpi _ hres
  have key : ∀ i j, |(H ^ p * (A + (eps * max maxEv (1 / 10 ^ 16)) • 1) - 1) i j| ≤ err := by
    unfold matrixInversePthRoot at hres
    rw [hpi] at hres
    change rootFrom A p N (eps * max maxEv (1 / 10 ^ 16)) tol = some (H, err) at hres
    generalize eps * max maxEv (1 / 10 ^ 16) = r at *
    unfold rootFrom at hres
    dsimp only at hres
    rw [if_neg (by omega)] at hres
    unfold whileLoop at hres
    obtain ⟨k, hk, -⟩ := (C63_terminates A p N eps tol v0).1 (A + r • 1)
    rw [hk] at hres
    simp only [Option.map_some, Option.some.injEq] at hres
    have hinv := rootInv_iter (A + r • 1) p hp (-1 / p) k
    generalize (rootBody (-1 / p) p)^[k] (rootInit (A + r • 1) p) = st at *
    unfold rootResult at hres
    simp only [Prod.mk.injEq] at hres
    obtain ⟨hH, hE⟩ := hres
    intro i j
    rw [← hE]
    by_cases hrun : st.run
    · rw [if_pos hrun, one_smul, sub_self, zero_smul, add_zero] at hH
      rw [← hH, hinv.root]
      exact le_maxAbs _ i j
    · rw [if_neg hrun, zero_smul, sub_zero, one_smul, zero_add] at hH
      rw [← hH]
      have h1 := hinv.old hrun
      rw [hinv.err] at h1
      refine (le_maxAbs _ i j).trans ?_
      have := maxAbs_nonneg (st.oldH ^ p * (A + r • 1) - 1)
      linarith
  refine ⟨key, fun h0 => ?_⟩
  rw [h0] at key
  have hz : H ^ p * (A + (eps * max maxEv (1 / 10 ^ 16)) • 1) - 1 = 0 := by
    ext i j
    have := key i j
    simpa using this
  exact sub_eq_zero.mp hz

/-- **C63 fails for `p = 3`.** The full property, for every positive integer `p`, is false of the code: `mat_power` uses
the fourth power for `p = 3`. On the 9×9 identity with one iteration the reported error is 317/19683 (0.016), the
true residual 187/2187 (0.086). -/
theorem C63_fails : ¬∀ p, 0 < p → C63Statement p := by
  intro hall
  obtain ⟨-, v, s, hs⟩ := C62_terminates (1 : Matrix (Fin 9) (Fin 9) ℝ) 100 (1 / 10 ^ 6) (fun _ => 1)
  have hr : ridge 0 s = 0 := by simp [ridge]
  have hfrob : frob (1 : Matrix (Fin 9) (Fin 9) ℝ) = 3 := by
    unfold frob
    have : ∀ i : Fin 9, ∑ j, (1 : Matrix (Fin 9) (Fin 9) ℝ) i j ^ 2 = 1 := by
      intro i
      rw [Finset.sum_eq_single i]
      · simp
      · intro j _ hj; rw [Matrix.one_apply_ne (Ne.symm hj)]; simp
      · simp
    simp only [this]
    rw [show (∑ _i : Fin 9, (1 : ℝ)) = 3 ^ 2 by simp; norm_num]
    exact Real.sqrt_sq (by norm_num)
  -- the initial state
  have hinit : rootInit (1 : Matrix (Fin 9) (Fin 9) ℝ) 3 =
      ⟨0, (2 / 3 : ℝ) • 1, ((2 / 3 : ℝ) ^ ((1 : ℝ) / (3 : ℕ))) • 1, ((2 / 3 : ℝ) ^ ((1 : ℝ) / (3 : ℕ))) • 1, 1 / 3, True⟩ := by
    unfold rootInit
    rw [hfrob]
    have hz : (1 + ((3 : ℕ) : ℝ)) / (2 * 3) = 2 / 3 := by norm_num
    simp only [hz]
    have he : maxAbs ((2 / 3 : ℝ) • (1 : Matrix (Fin 9) (Fin 9) ℝ) - 1) = 1 / 3 := by
      have : (2 / 3 : ℝ) • (1 : Matrix (Fin 9) (Fin 9) ℝ) - 1 = (-1 / 3 : ℝ) • 1 := by
        rw [← one_smul ℝ (1 : Matrix (Fin 9) (Fin 9) ℝ), smul_smul, ← sub_smul, smul_smul]; norm_num
      rw [this, maxAbs_smul_one (by norm_num)]
      norm_num [abs_of_neg]
    rw [he]
  have hmi : rootMi (-1 / ((3 : ℕ) : ℝ)) ((2 / 3 : ℝ) • (1 : Matrix (Fin 9) (Fin 9) ℝ)) = (10 / 9 : ℝ) • 1 := by
    unfold rootMi
    rw [smul_smul, ← add_smul]
    norm_num
  have hm1 : matPower ((10 / 9 : ℝ) • (1 : Matrix (Fin 9) (Fin 9) ℝ)) 3 * ((2 / 3 : ℝ) • 1) = (20000 / 19683 : ℝ) • 1 := by
    rw [matPower_three, smul_one_pow, smul_mul_smul_comm, one_mul]
    norm_num
  have he1 : maxAbs ((20000 / 19683 : ℝ) • (1 : Matrix (Fin 9) (Fin 9) ℝ) - 1) = 317 / 19683 := by
    have : (20000 / 19683 : ℝ) • (1 : Matrix (Fin 9) (Fin 9) ℝ) - 1 = (317 / 19683 : ℝ) • 1 := by
      rw [← one_smul ℝ (1 : Matrix (Fin 9) (Fin 9) ℝ), smul_smul, ← sub_smul, smul_smul]; norm_num
    rw [this, maxAbs_smul_one (by norm_num)]
    norm_num
  have hbody : rootBody (-1 / ((3 : ℕ) : ℝ)) 3 (rootInit (1 : Matrix (Fin 9) (Fin 9) ℝ) 3) =
      ⟨0 + 1, (20000 / 19683 : ℝ) • 1, ((2 / 3 : ℝ) ^ ((1 : ℝ) / (3 : ℕ))) • 1 * ((10 / 9 : ℝ) • 1),
        ((2 / 3 : ℝ) ^ ((1 : ℝ) / (3 : ℕ))) • 1, 317 / 19683, (317 / 19683 : ℝ) < 1 / 3 * (6 / 5)⟩ := by
    rw [hinit]
    unfold rootBody
    simp only [hmi, hm1, he1]
  have hsteps : whileSteps (rootCond 1 0) (rootBody (-1 / ((3 : ℕ) : ℝ)) 3) (rootInit (1 : Matrix (Fin 9) (Fin 9) ℝ) 3) = some 1 := by
    rw [whileSteps_eq_some]
    constructor
    · intro k hk
      rw [show k = 0 by omega, Function.iterate_zero, id, hinit]
      exact ⟨by norm_num, by norm_num, trivial⟩
    · rw [Function.iterate_one, hbody]
      rintro ⟨h, -⟩
      norm_num at h
  have hres : matrixInversePthRoot (1 : Matrix (Fin 9) (Fin 9) ℝ) 3 1 0 0 (fun _ => 1) =
      some (((2 / 3 : ℝ) ^ ((1 : ℝ) / (3 : ℕ)) * (10 / 9)) • 1, 317 / 19683) := by
    unfold matrixInversePthRoot
    rw [hs]
    change rootFrom (1 : Matrix (Fin 9) (Fin 9) ℝ) 3 1 (ridge 0 s) 0 = _
    rw [hr]
    unfold rootFrom whileLoop
    dsimp only
    rw [if_neg (by norm_num), zero_smul, add_zero, hsteps]
    simp only [Option.map_some, Function.iterate_one]
    rw [hbody]
    unfold rootResult
    simp only [he1]
    rw [if_pos (by norm_num), one_smul, sub_self, zero_smul, add_zero, smul_mul_smul_comm, one_mul]
  have := hall 3 (by norm_num) 9 1 1 0 0 (fun _ => 1) v s _ _ (by norm_num) hs ?_ hres
  · have h2 := this.1 0 0
    rw [zero_mul, zero_smul, add_zero, Matrix.mul_one, smul_one_pow, mul_pow, ← Real.rpow_natCast, ← Real.rpow_mul (by norm_num)] at h2
    simp only [Matrix.sub_apply, Matrix.smul_apply, Matrix.one_apply_eq, smul_eq_mul, mul_one] at h2
    norm_num [abs_of_neg] at h2
  · rw [zero_mul, zero_smul, add_zero]
    exact one_ne_zero

/-- **C63 (size 1).** The closed form used for 1×1 matrices is exact, for every positive `p`. -/
theorem C63_size_one (A : Matrix (Fin 1) (Fin 1) ℝ) (p : ℕ) (hp : 0 < p) (N : ℤ) (eps tol : ℝ) (v0 v : Fin 1 → ℝ)
    (maxEv : ℝ) (hpi : powerIteration A 100 (1 / 10 ^ 6) v0 = some (v, maxEv)) (hpos : 0 < A 0 0 + eps * max maxEv (1 / 10 ^ 16)) :
    ∃ H, matrixInversePthRoot A p N eps tol v0 = some (H, 0) ∧ H ^ p * (A + (eps * max maxEv (1 / 10 ^ 16)) • 1) = 1 := by
  refine ⟨A.map (fun a => (a + eps * max maxEv (1 / 10 ^ 16)) ^ (-1 / (p : ℝ))), ?_, ?_⟩
  · unfold matrixInversePthRoot
    rw [hpi]
    show rootFrom A p N (eps * max maxEv (1 / 10 ^ 16)) tol = _
    unfold rootFrom
    simp
  · generalize eps * max maxEv (1 / 10 ^ 16) = r at *
    have hM : ∀ M : Matrix (Fin 1) (Fin 1) ℝ, M = (M 0 0) • 1 := by
      intro M; ext i j
      rw [Subsingleton.elim i 0, Subsingleton.elim j 0]; simp
    rw [hM (A.map _), smul_one_pow, hM (A + r • 1), smul_mul_smul_comm, one_mul]
    simp only [Matrix.map_apply, Matrix.add_apply, Matrix.smul_apply, Matrix.one_apply_eq, smul_eq_mul, mul_one]
    have hp' : (p : ℝ) ≠ 0 := by exact_mod_cast hp.ne'
    rw [← Real.rpow_natCast, ← Real.rpow_mul hpos.le, div_mul_cancel₀ _ hp', Real.rpow_neg_one, inv_mul_cancel₀ hpos.ne',
      one_smul]

end Optax
