import Verif.Props.InverseRoot
import Mathlib.Analysis.SpecificLimits.Basic
import Mathlib.Algebra.Order.Ring.Pow
import Mathlib.Topology.Order.MonotoneConvergence

/-!
# C80: `matrix_inverse_pth_root` converges on positive definite matrices
-/

set_option linter.unusedSectionVars false
set_option linter.unusedSimpArgs false

namespace Optax
open Matrix Filter Topology

variable {n : ℕ}

/-! ## Functions of a symmetric matrix in an orthonormal eigenbasis -/

/-- `∑ e_k U_k U_kᵀ` -/
def conj (U : Fin n → Fin n → ℝ) (e : Fin n → ℝ) : Matrix (Fin n) (Fin n) ℝ := fun a b => ∑ k, e k * (U k a * U k b)

/-- an orthonormal basis -/
structure Ortho (U : Fin n → Fin n → ℝ) : Prop where
  orth : ∀ i j, U i ⬝ᵥ U j = if i = j then 1 else 0
  full : ∀ v : Fin n → ℝ, v = ∑ i, (U i ⬝ᵥ v) • U i

theorem Ortho.resolution {U : Fin n → Fin n → ℝ} (h : Ortho U) (a b : Fin n) :
    ∑ k, U k a * U k b = if a = b then 1 else 0 := by
  have := congrFun (h.full (Pi.single b 1)) a
  simp only [Finset.sum_apply, Pi.smul_apply, smul_eq_mul, dotProduct_single, mul_one] at this
  rw [Pi.single_apply] at this
  rw [this]
  exact Finset.sum_congr rfl fun k _ => mul_comm _ _

theorem conj_one {U : Fin n → Fin n → ℝ} (h : Ortho U) : conj U (fun _ => 1) = 1 := by
  ext a b
  simp only [conj, one_mul, h.resolution]
  rw [Matrix.one_apply]

theorem conj_mul {U : Fin n → Fin n → ℝ} (h : Ortho U) (e f : Fin n → ℝ) : conj U e * conj U f = conj U (fun k => e k * f k) := by
  ext a b
  rw [Matrix.mul_apply]
  simp only [conj]
  have h1 : ∀ c, (∑ k, e k * (U k a * U k c)) * (∑ l, f l * (U l c * U l b)) =
      ∑ k, ∑ l, (e k * f l * (U k a * U l b)) * (U k c * U l c) := by
    intro c
    rw [Finset.sum_mul_sum]
    exact Finset.sum_congr rfl fun k _ => Finset.sum_congr rfl fun l _ => by ring
  simp only [h1]
  rw [Finset.sum_comm]
  apply Finset.sum_congr rfl
  intro k _
  rw [Finset.sum_comm]
  have h2 : ∀ l, ∑ c, e k * f l * (U k a * U l b) * (U k c * U l c) = if k = l then e k * f l * (U k a * U l b) else 0 := by
    intro l
    rw [← Finset.mul_sum]
    have := h.orth k l
    unfold dotProduct at this
    rw [this]
    split <;> simp
  simp only [h2, Finset.sum_ite_eq, Finset.mem_univ, if_true]

theorem conj_add (U : Fin n → Fin n → ℝ) (e f : Fin n → ℝ) : conj U e + conj U f = conj U (fun k => e k + f k) := by
  ext a b
  simp only [conj, Matrix.add_apply, add_mul, Finset.sum_add_distrib]

theorem conj_smul (U : Fin n → Fin n → ℝ) (c : ℝ) (e : Fin n → ℝ) : c • conj U e = conj U (fun k => c * e k) := by
  ext a b
  simp only [conj, Matrix.smul_apply, smul_eq_mul, Finset.mul_sum, mul_assoc]

theorem conj_sub (U : Fin n → Fin n → ℝ) (e f : Fin n → ℝ) : conj U e - conj U f = conj U (fun k => e k - f k) := by
  ext a b
  simp only [conj, Matrix.sub_apply, sub_mul, Finset.sum_sub_distrib]

theorem conj_pow {U : Fin n → Fin n → ℝ} (h : Ortho U) (e : Fin n → ℝ) (p : ℕ) : conj U e ^ p = conj U (fun k => e k ^ p) := by
  induction p with
  | zero => simp [conj_one h]
  | succ p ih => rw [pow_succ, ih, conj_mul h]; simp only [pow_succ]

/-- the largest entry is monotone on non-negative spectra -/
theorem maxAbs_conj_mono (U : Fin n → Fin n → ℝ) (hn : 0 < n) (e f : Fin n → ℝ) (h0 : ∀ k, 0 ≤ e k) (h : ∀ k, e k ≤ f k) :
    maxAbs (conj U e) ≤ maxAbs (conj U f) := by
  apply maxAbs_le _ hn
  intro a b
  have h1 : |conj U e a b| ≤ ∑ k, f k * ((U k a * U k a + U k b * U k b) / 2) := by
    unfold conj
    refine (Finset.abs_sum_le_sum_abs _ _).trans (Finset.sum_le_sum fun k _ => ?_)
    rw [abs_mul, abs_of_nonneg (h0 k)]
    have h2 : |U k a * U k b| ≤ (U k a * U k a + U k b * U k b) / 2 := by
      rw [abs_le]; constructor <;> nlinarith [sq_nonneg (U k a + U k b), sq_nonneg (U k a - U k b)]
    exact mul_le_mul (h k) h2 (abs_nonneg _) ((h0 k).trans (h k))
  have h3 : ∑ k, f k * ((U k a * U k a + U k b * U k b) / 2) = (conj U f a a + conj U f b b) / 2 := by
    unfold conj
    rw [← Finset.sum_add_distrib, Finset.sum_div]
    exact Finset.sum_congr rfl fun k _ => by ring
  rw [h3] at h1
  have ha := (le_abs_self _).trans (le_maxAbs (conj U f) a a)
  have hb := (le_abs_self _).trans (le_maxAbs (conj U f) b b)
  linarith

theorem maxAbs_conj_le {U : Fin n → Fin n → ℝ} (hU : Ortho U) (hn : 0 < n) (e : Fin n → ℝ) : maxAbs (conj U e) ≤ ∑ k, |e k| := by
  apply maxAbs_le _ hn
  intro a b
  unfold conj
  refine (Finset.abs_sum_le_sum_abs _ _).trans (Finset.sum_le_sum fun k _ => ?_)
  rw [abs_mul]
  have h1 : ∀ a, U k a * U k a ≤ 1 := by
    intro a
    have h2 := hU.orth k k
    rw [if_pos rfl] at h2
    unfold dotProduct at h2
    rw [← h2]
    exact Finset.single_le_sum (f := fun a => U k a * U k a) (fun i _ => mul_self_nonneg _) (Finset.mem_univ a)
  have h2 : |U k a * U k b| ≤ 1 := by
    rw [abs_le]; constructor <;> nlinarith [h1 a, h1 b, sq_nonneg (U k a + U k b), sq_nonneg (U k a - U k b)]
  exact mul_le_of_le_one_right (abs_nonneg _) h2

theorem spectral_conj (D : Matrix (Fin n) (Fin n) ℝ) (hD : Dᵀ = D) :
    ∃ (lam : Fin n → ℝ) (U : Fin n → Fin n → ℝ), Ortho U ∧ D = conj U lam ∧ ∀ k, U k ⬝ᵥ (D *ᵥ U k) = lam k := by
  obtain ⟨lam, U, h1, h2, h3⟩ := spectral_basis D hD
  refine ⟨lam, U, ⟨h2, h3⟩, ?_, ?_⟩
  · ext a b
    have h4 : D *ᵥ (Pi.single b 1) = ∑ k, (U k b * lam k) • U k := by
      conv_lhs => rw [h3 (Pi.single b 1)]
      rw [Matrix.mulVec_sum]
      apply Finset.sum_congr rfl
      intro k _
      rw [Matrix.mulVec_smul, h1, smul_smul, dotProduct_single, mul_one]
    have h5 := congrFun h4 a
    rw [Matrix.mulVec_single_one] at h5
    simp only [Matrix.col_apply, Finset.sum_apply, Pi.smul_apply, smul_eq_mul] at h5
    rw [h5]
    unfold conj
    exact Finset.sum_congr rfl fun k _ => by ring
  · intro k
    rw [h1, dotProduct_smul, h2, if_pos rfl, smul_eq_mul, mul_one]

theorem frob_conj {U : Fin n → Fin n → ℝ} (hU : Ortho U) (e : Fin n → ℝ) : frob (conj U e) = Real.sqrt (∑ k, e k ^ 2) := by
  unfold frob
  congr 1
  have hs : ∀ a b, conj U e a b = conj U e b a := fun a b => by
    unfold conj; exact Finset.sum_congr rfl fun k _ => by ring
  have h1 : ∀ a, ∑ b, conj U e a b ^ 2 = conj U (fun k => e k * e k) a a := by
    intro a
    rw [← conj_mul hU, Matrix.mul_apply]
    exact Finset.sum_congr rfl fun b _ => by rw [hs b a]; ring
  simp only [h1]
  unfold conj
  rw [Finset.sum_comm]
  apply Finset.sum_congr rfl
  intro k _
  rw [← Finset.mul_sum]
  have := hU.orth k k
  rw [if_pos rfl] at this
  unfold dotProduct at this
  rw [this]; ring

/-! ## The scalar iteration -/

/-- what one iteration does to an eigenvalue -/
noncomputable def eigStep (p : ℕ) (l : ℝ) : ℝ := ((1 - -1 / (p : ℝ)) + -1 / (p : ℝ) * l) ^ p * l

theorem eigStep_eq (p : ℕ) (l : ℝ) : eigStep p l = (1 + (1 - l) / p) ^ p * l := by
  unfold eigStep; congr 2; ring

/-- eigenvalues in `(0, p + 1)` are sent into `(0, 1]` -/
theorem eigStep_range (p : ℕ) (hp : 0 < p) (l : ℝ) (h0 : 0 < l) (h1 : l < p + 1) : 0 < eigStep p l ∧ eigStep p l ≤ 1 := by
  have hp' : (0 : ℝ) < p := by exact_mod_cast hp
  rw [eigStep_eq]
  have hb : 0 < 1 + (1 - l) / p := by
    rw [← sub_pos] at h1
    have : 1 + (1 - l) / p = (p + 1 - l) / p := by field_simp; ring
    rw [this]; positivity
  refine ⟨by positivity, ?_⟩
  -- arithmetic-geometric mean through the exponential
  have h2 : 1 + (1 - l) / p ≤ Real.exp ((1 - l) / p) := by have := Real.add_one_le_exp ((1 - l) / p); linarith
  have h3 : (1 + (1 - l) / p) ^ p ≤ Real.exp (1 - l) := by
    calc (1 + (1 - l) / p) ^ p ≤ Real.exp ((1 - l) / p) ^ p := pow_le_pow_left₀ hb.le h2 p
      _ = Real.exp (1 - l) := by rw [← Real.exp_nat_mul]; congr 1; field_simp
  have h4 : l ≤ Real.exp (l - 1) := by have := Real.add_one_le_exp (l - 1); linarith
  calc (1 + (1 - l) / p) ^ p * l ≤ Real.exp (1 - l) * Real.exp (l - 1) := mul_le_mul h3 h4 h0.le (Real.exp_pos _).le
    _ = 1 := by rw [← Real.exp_add]; simp

/-- eigenvalues in `(0, 1]` increase -/
theorem le_eigStep (p : ℕ) (l : ℝ) (h0 : 0 ≤ l) (h1 : l ≤ 1) : l ≤ eigStep p l := by
  rw [eigStep_eq]
  have h2 : 1 ≤ 1 + (1 - l) / p := by
    have : 0 ≤ (1 - l) / (p : ℝ) := div_nonneg (by linarith) (Nat.cast_nonneg _)
    linarith
  exact le_mul_of_one_le_left h0 (one_le_pow₀ h2)

theorem eigStep_continuous (p : ℕ) : Continuous (eigStep p) := by unfold eigStep; fun_prop

theorem eig_range_iter (p : ℕ) (hp : 0 < p) (l : ℝ) (h0 : 0 < l) (h1 : l < p + 1) (k : ℕ) :
    0 < (eigStep p)^[k + 1] l ∧ (eigStep p)^[k + 1] l ≤ 1 := by
  have hp' : (1 : ℝ) ≤ p := by exact_mod_cast hp
  induction k with
  | zero => simpa using eigStep_range p hp l h0 h1
  | succ k ih =>
    rw [Function.iterate_succ_apply']
    exact eigStep_range p hp _ ih.1 (by linarith [ih.2])

/-- the eigenvalues converge to 1 -/
theorem eig_tendsto (p : ℕ) (hp : 0 < p) (l : ℝ) (h0 : 0 < l) (h1 : l < p + 1) :
    Tendsto (fun k => (eigStep p)^[k] l) atTop (𝓝 1) := by
  have hr := eig_range_iter p hp l h0 h1
  have hmono : Monotone (fun k => (eigStep p)^[k + 1] l) := by
    apply monotone_nat_of_le_succ
    intro k
    rw [Function.iterate_succ_apply' _ (k + 1)]
    exact le_eigStep p _ (hr k).1.le (hr k).2
  have hb : BddAbove (Set.range fun k => (eigStep p)^[k + 1] l) := ⟨1, by rintro _ ⟨k, rfl⟩; exact (hr k).2⟩
  have ht := tendsto_atTop_ciSup hmono hb
  generalize hL : (⨆ k, (eigStep p)^[k + 1] l) = L at ht
  have hLpos : 0 < L := by
    rw [← hL]
    exact lt_of_lt_of_le (hr 0).1 (le_ciSup hb 0)
  have hL1 : L ≤ 1 := by rw [← hL]; exact ciSup_le fun k => (hr k).2
  have ht2 : Tendsto (fun k => (eigStep p)^[k + 1 + 1] l) atTop (𝓝 L) := (tendsto_add_atTop_iff_nat 1).mpr ht
  have ht3 : Tendsto (fun k => (eigStep p)^[k + 1 + 1] l) atTop (𝓝 (eigStep p L)) := by
    have := ((eigStep_continuous p).tendsto L).comp ht
    refine this.congr fun k => ?_
    simp only [Function.comp, Function.iterate_succ_apply']
  have hfix : eigStep p L = L := tendsto_nhds_unique ht3 ht2
  have hLe : L = 1 := by
    by_contra hne
    have hlt : L < 1 := lt_of_le_of_ne hL1 hne
    have hp' : (0 : ℝ) < p := by exact_mod_cast hp
    have h2 : 1 < 1 + (1 - L) / p := by
      have : 0 < (1 - L) / (p : ℝ) := div_pos (by linarith) hp'
      linarith
    have h3 := one_lt_pow₀ h2 hp.ne'
    rw [eigStep_eq] at hfix
    nlinarith
  rw [hLe] at ht
  exact (tendsto_add_atTop_iff_nat 1).mp ht

/-! ## The matrix iteration -/

theorem root_m_conj {U : Fin n → Fin n → ℝ} (hU : Ortho U) (p : ℕ) (hp : p = 1 ∨ p = 2 ∨ p = 4 ∨ p = 8) (d : Fin n → ℝ) (k : ℕ) :
    ((rootBody (-1 / p) p)^[k] (rootInit (conj U d) p)).m =
      conj U (fun i => (eigStep p)^[k] ((1 + p) / (2 * frob (conj U d)) * d i)) := by
  induction k with
  | zero =>
    show ((1 + p) / (2 * frob (conj U d)) : ℝ) • conj U d = _
    rw [conj_smul]; rfl
  | succ k ih =>
    rw [Function.iterate_succ_apply']
    generalize hst : (rootBody (-1 / p) p)^[k] (rootInit (conj U d) p) = st at *
    show matPower (rootMi (-1 / p) st.m) p * st.m = _
    have hmi : rootMi (-1 / p) st.m = conj U (fun i => (1 - -1 / (p : ℝ)) +
        -1 / (p : ℝ) * (eigStep p)^[k] ((1 + p) / (2 * frob (conj U d)) * d i)) := by
      unfold rootMi
      rw [ih, ← conj_one hU, conj_smul, conj_smul, conj_add]
      simp only [mul_one]
    rw [matPower_eq _ p hp, hmi, conj_pow hU, ih, conj_mul hU]
    congr 1
    funext i
    rw [Function.iterate_succ_apply']
    rfl

/-- positive definite: symmetric, with positive quadratic form -/
def PosDefReal (D : Matrix (Fin n) (Fin n) ℝ) : Prop := Dᵀ = D ∧ ∀ v : Fin n → ℝ, v ≠ 0 → 0 < v ⬝ᵥ (D *ᵥ v)

theorem root_errors (D : Matrix (Fin n) (Fin n) ℝ) (hn : 0 < n) (hD : PosDefReal D) (p : ℕ)
    (hp : p = 1 ∨ p = 2 ∨ p = 4 ∨ p = 8) :
    (∀ k, 1 ≤ k → ((rootBody (-1 / p) p)^[k + 1] (rootInit D p)).error ≤ ((rootBody (-1 / p) p)^[k] (rootInit D p)).error) ∧
    Tendsto (fun k => ((rootBody (-1 / p) p)^[k] (rootInit D p)).error) atTop (𝓝 0) ∧
    ((∀ v : Fin n → ℝ, v ⬝ᵥ (D *ᵥ v) ≤ 2 * frob D / (p + 1) * (v ⬝ᵥ v)) →
      ((rootBody (-1 / p) p)^[1] (rootInit D p)).error ≤ (rootInit D p).error) := by
  obtain ⟨d, U, hU, hDc, hq⟩ := spectral_conj D hD.1
  have hp0 : 0 < p := by omega
  have hp1 : (1 : ℝ) ≤ p := by exact_mod_cast hp0
  have hUk : ∀ k, U k ≠ 0 := by
    intro k hk
    have := hU.orth k k
    rw [hk] at this
    simp at this
  have hdpos : ∀ k, 0 < d k := fun k => by rw [← hq k]; exact hD.2 _ (hUk k)
  have hfr : ∀ k, d k ≤ frob D := by
    intro k
    rw [hDc, frob_conj hU]
    rw [← Real.sqrt_sq (hdpos k).le]
    exact Real.sqrt_le_sqrt (Finset.single_le_sum (f := fun k => d k ^ 2) (fun i _ => sq_nonneg _) (Finset.mem_univ k))
  have hfpos : 0 < frob D := lt_of_lt_of_le (hdpos ⟨0, hn⟩) (hfr ⟨0, hn⟩)
  let l : Fin n → ℝ := fun i => (1 + p) / (2 * frob D) * d i
  have hl0 : ∀ i, 0 < l i := fun i => mul_pos (by positivity) (hdpos i)
  have hl1 : ∀ i, l i < p + 1 := by
    intro i
    have h1 : l i ≤ (1 + p) / (2 * frob D) * frob D := mul_le_mul_of_nonneg_left (hfr i) (by positivity)
    have h2 : (1 + p) / (2 * frob D) * frob D = (1 + p : ℝ) / 2 := by field_simp
    linarith
  have herr : ∀ k, ((rootBody (-1 / p) p)^[k] (rootInit D p)).error = maxAbs (conj U (fun i => (eigStep p)^[k] (l i) - 1)) := by
    intro k
    rw [(rootInv_iter D p hp _ k).err]
    have := root_m_conj hU p hp d k
    rw [← hDc] at this
    rw [this, ← conj_one hU, conj_sub]
  have hneg : ∀ e : Fin n → ℝ, maxAbs (conj U (fun i => e i - 1)) = maxAbs (conj U (fun i => 1 - e i)) := by
    intro e
    unfold maxAbs
    congr 1
    funext ij
    rw [← abs_neg]
    congr 1
    unfold conj
    rw [← Finset.sum_neg_distrib]
    exact Finset.sum_congr rfl fun k _ => by ring
  refine ⟨?_, ?_, ?_⟩
  · intro k hk
    obtain ⟨k, rfl⟩ : ∃ j, k = j + 1 := ⟨k - 1, by omega⟩
    rw [herr, herr, hneg, hneg]
    apply maxAbs_conj_mono U hn
    · intro i; linarith [(eig_range_iter p hp0 (l i) (hl0 i) (hl1 i) (k + 1)).2]
    · intro i
      have hr := eig_range_iter p hp0 (l i) (hl0 i) (hl1 i) k
      have := le_eigStep p _ hr.1.le hr.2
      rw [Function.iterate_succ_apply' _ (k + 1)]
      linarith
  · simp only [herr]
    have hs : Tendsto (fun k => ∑ i, |(eigStep p)^[k] (l i) - 1|) atTop (𝓝 (∑ _i : Fin n, |(1 : ℝ) - 1|)) := by
      apply tendsto_finsetSum
      intro i _
      exact ((eig_tendsto p hp0 (l i) (hl0 i) (hl1 i)).sub_const 1).abs
    simp only [sub_self, abs_zero, Finset.sum_const_zero] at hs
    exact tendsto_of_tendsto_of_tendsto_of_le_of_le tendsto_const_nhds hs (fun k => maxAbs_nonneg _)
      (fun k => maxAbs_conj_le hU hn _)
  · intro hle
    have hl1' : ∀ i, l i ≤ 1 := by
      intro i
      have h := hle (U i)
      rw [hq, hU.orth, if_pos rfl, mul_one] at h
      have h1 : l i ≤ (1 + p) / (2 * frob D) * (2 * frob D / (p + 1)) := mul_le_mul_of_nonneg_left h (by positivity)
      have h2 : (1 + p) / (2 * frob D) * (2 * frob D / (p + 1)) = (1 : ℝ) := by field_simp; ring
      linarith
    have h0 := herr 0
    have h1 := herr 1
    simp only [Function.iterate_zero, id] at h0
    rw [h1, h0, hneg, hneg]
    apply maxAbs_conj_mono U hn
    · intro i; linarith [(eig_range_iter p hp0 (l i) (hl0 i) (hl1 i) 0).2]
    · intro i
      have := le_eigStep p _ (hl0 i).le (hl1' i)
      simp only [Function.iterate_one]
      linarith

/-- **C80.** For a positive definite (damped) matrix of size at least 2 and `p` = 1, 2, 4, 8: for every positive tolerance
there is a number of iterations from which on the function returns either a matrix whose true residual
`|H^p (A + ridge I) - I|` is entry by entry within the tolerance, and reports so, or the initial multiple of the
identity, having given up after a single iteration. The second case is excluded when no eigenvalue exceeds
`2 |D|_F / (p + 1)`. -/
theorem C80_converges (p : ℕ) (hp : p = 1 ∨ p = 2 ∨ p = 4 ∨ p = 8) (A : Matrix (Fin n) (Fin n) ℝ) (hn : 2 ≤ n)
    (eps tol : ℝ) (htol : 0 < tol) (v0 v : Fin n → ℝ) (maxEv : ℝ)
    (hpi : powerIteration A 100 (1 / 10 ^ 6) v0 = some (v, maxEv))
    (D : Matrix (Fin n) (Fin n) ℝ) (hDdef : D = A + (eps * max maxEv (1 / 10 ^ 16)) • 1) (hD : PosDefReal D) :
    ∃ N0 : ℤ, ∀ N ≥ N0, ∃ H err, matrixInversePthRoot A p N eps tol v0 = some (H, err) ∧
      ((err ≤ tol ∧ ∀ i j, |(H ^ p * D - 1) i j| ≤ tol) ∨
        (H = (((1 + p) / (2 * frob D)) ^ ((1 : ℝ) / p)) • 1 ∧
          ¬∀ v : Fin n → ℝ, v ⬝ᵥ (D *ᵥ v) ≤ 2 * frob D / (p + 1) * (v ⬝ᵥ v))) := by
  obtain ⟨hmono, hlim, hfirst⟩ := root_errors D (by omega) hD p hp
  have hev : ∀ᶠ k in atTop, ((rootBody (-1 / p) p)^[k] (rootInit D p)).error < tol := hlim.eventually (gt_mem_nhds htol)
  obtain ⟨K, hK⟩ := eventually_atTop.mp hev
  refine ⟨K, fun N hN => ?_⟩
  obtain ⟨-, H, err, hres⟩ := C63_terminates A p N eps tol v0
  refine ⟨H, err, hres, ?_⟩
  have hst := (C63_inverse_root_partial p hp).2 n A N eps tol v0 v maxEv H err hn hpi (by
    rw [← hDdef]
    intro h0
    have h1 : (fun _ : Fin n => (1 : ℝ)) ≠ 0 := fun h => one_ne_zero (congrFun h ⟨0, by omega⟩)
    have := hD.2 _ h1
    rw [h0] at this
    simp at this) hres
  rw [← hDdef] at hst
  have hres' := hres
  unfold matrixInversePthRoot at hres'
  rw [hpi] at hres'
  change rootFrom A p N (eps * max maxEv (1 / 10 ^ 16)) tol = some (H, err) at hres'
  unfold rootFrom at hres'
  dsimp only at hres'
  rw [if_neg (by omega), ← hDdef] at hres'
  unfold whileLoop at hres'
  obtain ⟨k, hk, -⟩ := (C63_terminates A p N eps tol v0).1 D
  rw [hk] at hres'
  simp only [Option.map_some, Option.some.injEq] at hres'
  obtain ⟨hall, hstop⟩ := (whileSteps_eq_some _ _ _ _).mp hk
  have hi : ∀ k : ℕ, ((rootBody (-1 / p) p)^[k] (rootInit D p)).i = k := by
    intro k
    induction k with
    | zero => rfl
    | succ k ih => rw [Function.iterate_succ_apply']; show _ + 1 = _; rw [ih]; push_cast; ring
  have herr : ((rootBody (-1 / p) p)^[k] (rootInit D p)).error = err := by
    rw [(rootInv_iter D p hp _ k).err]
    exact (congrArg Prod.snd hres')
  by_cases hle : err ≤ tol
  · exact Or.inl ⟨hle, fun i j => (hst.1 i j).trans hle⟩
  right
  have hrun : ¬((rootBody (-1 / p) p)^[k] (rootInit D p)).run := by
    intro hr
    apply hstop
    refine ⟨?_, ?_, hr⟩
    · rw [hi]
      by_contra hc
      have : K ≤ k := by omega
      have := hK k this
      rw [herr] at this
      exact hle this.le
    · rw [herr]; exact not_le.mp hle
  have hk1 : k = 1 := by
    rcases Nat.lt_or_ge k 1 with h | h
    · have : k = 0 := by omega
      subst this
      exact absurd trivial hrun
    · by_contra hne
      obtain ⟨j, rfl⟩ : ∃ j, k = j + 1 := ⟨k - 1, by omega⟩
      have h1 := hmono j (by omega)
      rw [Function.iterate_succ_apply'] at hrun
      have h2 : ¬((rootBody (-1 / p) p ((rootBody (-1 / p) p)^[j] (rootInit D p))).error <
        ((rootBody (-1 / p) p)^[j] (rootInit D p)).error * (6 / 5)) := hrun
      rw [Function.iterate_succ_apply'] at h1
      have h3 : ((rootBody (-1 / p) p)^[j] (rootInit D p)).error > tol := (hall j (by omega)).2.1
      linarith [not_lt.mp h2]
  subst hk1
  constructor
  · have h1 := congrArg Prod.fst hres'
    unfold rootResult at h1
    simp only [if_neg hrun, zero_smul, zero_add, sub_zero, one_smul] at h1
    rw [← h1]
    rfl
  · intro hsmall
    have h1 := hfirst hsmall
    have h2 : ¬((rootBody (-1 / p) p (rootInit D p)).error < (rootInit D p).error * (6 / 5)) := hrun
    have h3 : (rootInit D p).error > tol := (hall 0 (by omega)).2.1
    simp only [Function.iterate_one] at h1
    linarith [not_lt.mp h2]

/-- the Frobenius norm bounds the quadratic form -/
theorem quad_le_frob (D : Matrix (Fin n) (Fin n) ℝ) (v : Fin n → ℝ) : v ⬝ᵥ (D *ᵥ v) ≤ frob D * (v ⬝ᵥ v) := by
  have h1 : v ⬝ᵥ (D *ᵥ v) = ∑ i : Fin n, ∑ j : Fin n, D i j * (v i * v j) := by
    unfold dotProduct mulVec dotProduct
    apply Finset.sum_congr rfl
    intro i _
    rw [Finset.mul_sum]
    exact Finset.sum_congr rfl fun j _ => by ring
  have h2 : (∑ i : Fin n, ∑ j : Fin n, D i j * (v i * v j)) ^ 2 ≤
      (∑ i : Fin n, ∑ j : Fin n, D i j ^ 2) * (∑ i : Fin n, ∑ j : Fin n, (v i * v j) ^ 2) := by
    simp only [← Finset.sum_product', ← Finset.univ_product_univ]
    exact Finset.sum_mul_sq_le_sq_mul_sq _ _ _
  have h3 : ∑ i : Fin n, ∑ j : Fin n, (v i * v j) ^ 2 = (v ⬝ᵥ v) ^ 2 := by
    unfold dotProduct
    rw [sq (∑ i, v i * v i), Finset.sum_mul_sum]
    exact Finset.sum_congr rfl fun i _ => Finset.sum_congr rfl fun j _ => by ring
  have h4 : 0 ≤ ∑ i : Fin n, ∑ j : Fin n, D i j ^ 2 := Finset.sum_nonneg fun i _ => Finset.sum_nonneg fun j _ => sq_nonneg _
  have h5 : 0 ≤ v ⬝ᵥ v := Finset.sum_nonneg fun i _ => mul_self_nonneg _
  rw [h3, ← h1] at h2
  refine (le_abs_self _).trans (abs_le_of_sq_le_sq (a := v ⬝ᵥ (D *ᵥ v)) (b := frob D * (v ⬝ᵥ v)) ?_ (mul_nonneg (Real.sqrt_nonneg _) h5))
  rw [mul_pow]
  unfold frob
  rw [Real.sq_sqrt h4]
  exact h2

/-- **C80 (`p = 1`).** The iteration for the inverse never gives up: with enough iterations the result is an inverse of the
damped matrix up to the tolerance. -/
theorem C80_inverse (A : Matrix (Fin n) (Fin n) ℝ) (hn : 2 ≤ n) (eps tol : ℝ) (htol : 0 < tol) (v0 v : Fin n → ℝ) (maxEv : ℝ)
    (hpi : powerIteration A 100 (1 / 10 ^ 6) v0 = some (v, maxEv)) (hD : PosDefReal (A + (eps * max maxEv (1 / 10 ^ 16)) • 1)) :
    ∃ N0 : ℤ, ∀ N ≥ N0, ∃ H err, matrixInversePthRoot A 1 N eps tol v0 = some (H, err) ∧ err ≤ tol ∧
      ∀ i j, |(H * (A + (eps * max maxEv (1 / 10 ^ 16)) • 1) - 1) i j| ≤ tol := by
  obtain ⟨N0, h⟩ := C80_converges 1 (Or.inl rfl) A hn eps tol htol v0 v maxEv hpi _ rfl hD
  refine ⟨N0, fun N hN => ?_⟩
  obtain ⟨H, err, hres, h1 | h1⟩ := h N hN
  · exact ⟨H, err, hres, h1.1, by simpa using h1.2⟩
  · exact absurd (fun w => by
      have := quad_le_frob (A + (eps * max maxEv (1 / 10 ^ 16)) • 1) w
      rw [show (2 * frob (A + (eps * max maxEv (1 / 10 ^ 16)) • 1) / (((1 : ℕ) : ℝ) + 1)) = frob (A + (eps * max maxEv (1 / 10 ^ 16)) • 1) by push_cast; ring]
      exact this) h1.2

/-- a 3×3 matrix with diagonal `a` and other entries `b` -/
def diagOff (a b : ℝ) : Matrix (Fin 3) (Fin 3) ℝ := fun i j => if i = j then a else b

theorem diagOff_mul (a b c d : ℝ) : diagOff a b * diagOff c d = diagOff (a * c + 2 * b * d) (a * d + b * c + b * d) := by
  ext i j
  rw [Matrix.mul_apply, Fin.sum_univ_three]
  fin_cases i <;> fin_cases j <;> simp [diagOff] <;> ring

theorem diagOff_smul (c a b : ℝ) : c • diagOff a b = diagOff (c * a) (c * b) := by
  ext i j
  fin_cases i <;> fin_cases j <;> simp [diagOff]

theorem diagOff_add (a b c d : ℝ) : diagOff a b + diagOff c d = diagOff (a + c) (b + d) := by
  ext i j
  fin_cases i <;> fin_cases j <;> simp [diagOff]

theorem diagOff_sub (a b c d : ℝ) : diagOff a b - diagOff c d = diagOff (a - c) (b - d) := by
  ext i j
  fin_cases i <;> fin_cases j <;> simp [diagOff]

theorem one_diagOff : (1 : Matrix (Fin 3) (Fin 3) ℝ) = diagOff 1 0 := by
  ext i j
  fin_cases i <;> fin_cases j <;> simp [diagOff]

theorem maxAbs_diagOff (a b : ℝ) : maxAbs (diagOff a b) = max |a| |b| := by
  apply le_antisymm
  · apply maxAbs_le _ (by norm_num)
    intro i j
    unfold diagOff
    split
    · exact le_max_left _ _
    · exact le_max_right _ _
  · apply max_le
    · have := le_maxAbs (diagOff a b) 0 0
      simpa [diagOff] using this
    · have := le_maxAbs (diagOff a b) 0 1
      simpa [diagOff] using this

/-- **C80 (giving up).** The exceptional case is real, already for a 3×3 matrix of condition number 20: for the inverse
square root of the matrix with 586 on and 506 off the diagonal the loop stops after one iteration, whatever the
iteration limit, and returns a multiple of the identity with reported error above 0.6. -/
theorem C80_gives_up (N : ℤ) (hN : 1 ≤ N) (tol : ℝ) (htol : tol < 2 / 5) (v0 : Fin 3 → ℝ) :
    PosDefReal (diagOff 586 506) ∧
    ∃ err, matrixInversePthRoot (diagOff 586 506) 2 N 0 tol v0 = some (((1 / 1068 : ℝ) ^ ((1 : ℝ) / 2)) • 1, err) ∧ 3 / 5 < err := by
  constructor
  · constructor
    · ext i j
      fin_cases i <;> fin_cases j <;> simp [diagOff]
    · intro v hv
      have e : v ⬝ᵥ (diagOff 586 506 *ᵥ v) = 80 * (v 0 ^ 2 + v 1 ^ 2 + v 2 ^ 2) + 506 * (v 0 + v 1 + v 2) ^ 2 := by
        simp only [dotProduct, mulVec, Fin.sum_univ_three, diagOff]
        simp
        ring
      rw [e]
      have hne : v 0 ≠ 0 ∨ v 1 ≠ 0 ∨ v 2 ≠ 0 := by
        by_contra hc
        push Not at hc
        apply hv
        funext i
        fin_cases i
        · exact hc.1
        · exact hc.2.1
        · exact hc.2.2
      have : 0 < v 0 ^ 2 + v 1 ^ 2 + v 2 ^ 2 := by
        rcases hne with h | h | h
        · nlinarith [sq_nonneg (v 1), sq_nonneg (v 2), pow_pos (abs_pos.mpr h) 2, sq_abs (v 0)]
        · nlinarith [sq_nonneg (v 0), sq_nonneg (v 2), pow_pos (abs_pos.mpr h) 2, sq_abs (v 1)]
        · nlinarith [sq_nonneg (v 0), sq_nonneg (v 1), pow_pos (abs_pos.mpr h) 2, sq_abs (v 2)]
      nlinarith [sq_nonneg (v 0 + v 1 + v 2)]
  · have hfrob : frob (diagOff 586 506) = 1602 := by
      unfold frob
      have : ∑ i, ∑ j, (diagOff 586 506) i j ^ 2 = 1602 ^ 2 := by
        simp only [Fin.sum_univ_three, diagOff]
        simp
        norm_num
      rw [this, Real.sqrt_sq (by norm_num)]
    have hz : (1 + ((2 : ℕ) : ℝ)) / (2 * 1602) = 1 / 1068 := by norm_num
    have hinit : rootInit (diagOff 586 506) 2 = ⟨0, diagOff (293 / 534) (253 / 534), ((1 / 1068 : ℝ) ^ ((1 : ℝ) / 2)) • 1,
        ((1 / 1068 : ℝ) ^ ((1 : ℝ) / 2)) • 1, 253 / 534, True⟩ := by
      unfold rootInit
      rw [hfrob]
      simp only [hz, diagOff_smul]
      have h1 : (1 / 1068 * 586 : ℝ) = 293 / 534 := by norm_num
      have h2 : (1 / 1068 * 506 : ℝ) = 253 / 534 := by norm_num
      have h3 : maxAbs (diagOff (293 / 534) (253 / 534) - 1) = 253 / 534 := by
        rw [one_diagOff, diagOff_sub, maxAbs_diagOff]
        norm_num [abs_of_neg, abs_of_pos]
      rw [h1, h2, h3]
      norm_num
    obtain ⟨mi, hmi⟩ : ∃ mi, rootMi (-1 / ((2 : ℕ) : ℝ)) (diagOff (293 / 534) (253 / 534)) = mi := ⟨_, rfl⟩
    have hmi' : mi = diagOff (1309 / 1068) (-253 / 1068) := by
      rw [← hmi]
      unfold rootMi
      rw [one_diagOff, diagOff_smul, diagOff_smul, diagOff_add]
      congr 1 <;> norm_num
    have hstep : ∃ m h : Matrix (Fin 3) (Fin 3) ℝ, ∃ err : ℝ, ∃ run : Prop,
        rootBody (-1 / ((2 : ℕ) : ℝ)) 2 (rootInit (diagOff 586 506) 2) =
        ⟨1, m, h, ((1 / 1068 : ℝ) ^ ((1 : ℝ) / 2)) • 1, err, run⟩ ∧ ¬run ∧ err = maxAbs (m - 1) ∧ 3 / 5 < err := by
      rw [hinit]
      unfold rootBody
      simp only [hmi]
      refine ⟨_, _, _, _, rfl, ?_, rfl, ?_⟩
      all_goals
        rw [matPower_eq _ 2 (by simp), hmi', sq, diagOff_mul, diagOff_mul, one_diagOff, diagOff_sub, maxAbs_diagOff]
        norm_num [abs_of_neg, abs_of_pos]
    obtain ⟨m, h, err, run, hb, hrun, herr, hgt⟩ := hstep
    obtain ⟨-, v, s, hs⟩ := C62_terminates (diagOff 586 506) 100 (1 / 10 ^ 6) v0
    refine ⟨err, ?_, hgt⟩
    unfold matrixInversePthRoot
    rw [hs]
    show rootFrom (diagOff 586 506) 2 N (ridge 0 s) tol = _
    have hr : ridge 0 s = 0 := by simp [ridge]
    rw [hr]
    unfold rootFrom
    simp only [zero_smul, add_zero]
    rw [if_neg (by norm_num)]
    have hw : whileSteps (rootCond N tol) (rootBody (-1 / ((2 : ℕ) : ℝ)) 2) (rootInit (diagOff 586 506) 2) = some 1 := by
      rw [whileSteps_eq_some]
      constructor
      · intro k hk
        have : k = 0 := by omega
        subst this
        simp only [Function.iterate_zero, id]
        rw [hinit]
        refine ⟨by show (0 : ℤ) < N; omega, ?_, trivial⟩
        show (253 / 534 : ℝ) > tol
        linarith
      · rw [Function.iterate_one, hb]
        exact fun hc => hrun hc.2.2
    unfold whileLoop
    rw [hw]
    simp only [Option.map_some, Function.iterate_one, hb]
    unfold rootResult
    simp only [if_neg hrun, zero_smul, zero_add, sub_zero, one_smul, herr]

/-- a case that meets the hypotheses of `C80_converges` and excludes giving up: the 4×4 identity, `p = 2` -/
example : PosDefReal (1 : Matrix (Fin 4) (Fin 4) ℝ) ∧
    ∀ v : Fin 4 → ℝ, v ⬝ᵥ ((1 : Matrix (Fin 4) (Fin 4) ℝ) *ᵥ v) ≤
      2 * frob (1 : Matrix (Fin 4) (Fin 4) ℝ) / (((2 : ℕ) : ℝ) + 1) * (v ⬝ᵥ v) := by
  have hf : frob (1 : Matrix (Fin 4) (Fin 4) ℝ) = 2 := by
    unfold frob
    have : ∑ i : Fin 4, ∑ j : Fin 4, (1 : Matrix (Fin 4) (Fin 4) ℝ) i j ^ 2 = 2 ^ 2 := by
      simp [Matrix.one_apply]
      norm_num
    rw [this, Real.sqrt_sq (by norm_num)]
  refine ⟨⟨Matrix.transpose_one, fun v hv => ?_⟩, fun v => ?_⟩
  · rw [Matrix.one_mulVec]
    have h : 0 ≤ v ⬝ᵥ v := Finset.sum_nonneg fun i _ => mul_self_nonneg _
    exact lt_of_le_of_ne h fun h0 => hv (dotProduct_self_eq_zero.mp h0.symm)
  · rw [Matrix.one_mulVec, hf]
    have h : 0 ≤ v ⬝ᵥ v := Finset.sum_nonneg fun i _ => mul_self_nonneg _
    push_cast
    nlinarith

end Optax
