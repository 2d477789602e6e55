import Verif.Props.GradientFlow
import Verif.Props.StabilityEdge
import Verif.Props.Momentum

/-!
# C157: `sgd` tracks a moving minimiser
-/

set_option linter.unusedSectionVars false
set_option linter.unusedSimpArgs false

namespace Optax
open Finset Filter Topology
variable (σ : Spec)

theorem treeDist_symm (a b : ℕ → ℕ → ℝ) : treeDist σ a b = treeDist σ b a := by
  rw [treeDist_l2, treeDist_l2]
  unfold l2
  congr 1
  exact Finset.sum_congr rfl fun y _ => by ring

/-- **C157 (tracking).** In step `n` the gradient of a `μ`-strongly convex `L`-smooth loss is used, up to an error of norm `ε`; its minimiser moves by at most `v` from step to step. With rates in `[a, h]`, `h (L + μ) ≤ 2`,
the distance of the parameters trained by `sgd(lr)` to the current minimiser is at most `(1 - a μ)^N` times the initial distance plus `(h ε + v)/(a μ)`. -/
theorem C157_tracking (lr : LR ℝ) (nes : Bool) {a h L μ ε v : ℝ} (ha : 0 < a) (hμ : 0 < μ) (hμL : μ ≤ L) (hlr : ∀ n, a ≤ lr.at n ∧ lr.at n ≤ h) (hh : h * (L + μ) ≤ 2)
    {grad : ℕ → Params ℝ → Params ℝ} {G g : ℕ → (ℕ → ℕ → ℝ) → ℕ → ℕ → ℝ} (hg : ∀ n p, grad n (mk σ p) = mk σ (G n p))
    (loss : ℕ → Params ℝ → ℝ) (hs : ∀ n, Smooth σ L (loss n) (g n)) (hc : ∀ n, StronglyConvex σ μ (loss n) (g n))
    (hε : ∀ n p, treeDist σ (G n p) (g n p) ≤ ε)
    (q : ℕ → ℕ → ℕ → ℝ) (hq : ∀ n t, loss n (mk σ (q n)) ≤ loss n t) (hv : ∀ n, treeDist σ (q n) (q (n + 1)) ≤ v) (p0 : ℕ → ℕ → ℝ) :
    ∃ P, P 0 = p0 ∧ Visits (sgd lr none nes) grad σ P ∧
      ∀ N, treeDist σ (P N) (q N) ≤ (1 - a * μ) ^ N * treeDist σ p0 (q 0) + (h * ε + v) / (a * μ) := by
  refine ⟨_, rfl, sgd_visits σ lr nes grad G hg p0, fun N => ?_⟩
  set P := plainSgd lr.at G p0 with hP
  have haμ := mul_pos ha hμ
  have hah : a ≤ h := (hlr 0).1.trans (hlr 0).2
  have haμ1 : a * μ ≤ 1 := by nlinarith
  have hε0 : 0 ≤ ε := (treeDist_nonneg σ _ _).trans (hε 0 p0)
  have hv0 : 0 ≤ v := (treeDist_nonneg σ _ _).trans (hv 0)
  set K := (h * ε + v) / (a * μ) with hK
  have hK2 : K * (a * μ) = h * ε + v := div_mul_cancel₀ _ haμ.ne'
  have hK0 : 0 ≤ K := by rw [hK]; have : 0 ≤ h := by linarith
                         positivity
  induction N with
  | zero => simpa [hP, plainSgd] using hK0
  | succ n ih =>
    obtain ⟨h1, h2⟩ := hlr n
    have hη : 0 ≤ lr.at n := ha.le.trans h1
    have hq0 := sqNorm_min σ (by linarith) (hs n) (hq n)
    have h3 := step_contract σ hμL hη (by nlinarith : lr.at n * (L + μ) ≤ 2) (hs n) (hc n) (P n) (q n)
    have e1 : treeDist σ (fun k i => P n k i - lr.at n * g n (P n) k i) (fun k i => q n k i - lr.at n * g n (q n) k i) =
        treeDist σ (fun k i => P n k i - lr.at n * g n (P n) k i) (q n) := by
      rw [treeDist_l2, treeDist_l2]
      refine l2_congr _ fun y hy => ?_
      rw [hq0 y hy]; ring
    rw [e1] at h3
    have h4 : treeDist σ (P (n + 1)) (fun k i => P n k i - lr.at n * g n (P n) k i) ≤ h * ε := by
      have e : treeDist σ (P (n + 1)) (fun k i => P n k i - lr.at n * g n (P n) k i) = lr.at n * treeDist σ (G n (P n)) (g n (P n)) := by
        rw [treeDist_l2, treeDist_l2, ← abs_of_nonneg hη, ← l2_smul]
        unfold l2
        congr 1
        refine Finset.sum_congr rfl fun y _ => ?_
        simp only [hP, plainSgd, abs_of_nonneg hη]
        ring
      rw [e]
      exact mul_le_mul h2 (hε n _) (treeDist_nonneg σ _ _) (hη.trans h2)
    have h5 := treeDist_triangle σ (P (n + 1)) (fun k i => P n k i - lr.at n * g n (P n) k i) (q n)
    have h6 := treeDist_triangle σ (P (n + 1)) (q n) (q (n + 1))
    have h7 := hv n
    have h8 : (1 - lr.at n * μ) * treeDist σ (P n) (q n) ≤ (1 - a * μ) * treeDist σ (P n) (q n) :=
      mul_le_mul_of_nonneg_right (by nlinarith) (treeDist_nonneg σ _ _)
    have h9 := mul_le_mul_of_nonneg_left ih (show 0 ≤ 1 - a * μ by linarith)
    rw [pow_succ']
    linarith

/-- **C157 (the lag, exactly).** If entry `(k, i)` of the gradient in step `n` is `c (p - (q + n u))`, a quadratic of curvature `c` whose minimiser moves by `u` per step, then with `sgd(η, momentum, nesterov)` and `η c` below the edge of stability
the entry follows the minimiser at the constant distance `(1 - momentum) u/(η c)`, from every start. -/
theorem C157_lag (η c : ℝ) (momentum : Option ℝ) (hβ : ∀ β ∈ momentum, 0 ≤ β ∧ β < 1) (nes : Bool) (hc : 0 < η * c) (hc' : η * c < stabilityEdge momentum nes)
    {grad : ℕ → Params ℝ → Params ℝ} (q u : ℕ → ℕ → ℝ) (hg : ∀ n p, grad n (mk σ p) = mk σ (fun k i => c * (p k i - (q k i + n * u k i)))) (p0 : ℕ → ℕ → ℝ) :
    ∃ P, P 0 = p0 ∧ Visits (sgd (.scalar η) momentum nes) grad σ P ∧
      ∀ k i, Tendsto (fun n : ℕ => (q k i + n * u k i) - P n k i) atTop (𝓝 ((1 - momentum.getD 0) * u k i / (η * c))) := by
  set G : ℕ → (ℕ → ℕ → ℝ) → ℕ → ℕ → ℝ := fun n p k i => c * (p k i - (q k i + n * u k i)) with hG
  have hη : η ≠ 0 := fun h => by simp [h] at hc
  have hc0 : c ≠ 0 := fun h => by simp [h] at hc
  cases momentum with
  | none =>
    refine ⟨_, rfl, sgd_visits σ (.scalar η) nes grad G hg p0, fun k i => ?_⟩
    set P := plainSgd (LR.at (.scalar η)) G p0 with hP
    have hs : ∀ n : ℕ, P (n + 1) k i = P n k i - η * (c * (P n k i - (q k i + n * u k i))) := fun n => rfl
    set E := u k i / (η * c) with hE
    have hE2 : E * (η * c) = u k i := div_mul_cancel₀ _ hc.ne'
    have h1 : ∀ n : ℕ, (q k i + n * u k i) - P n k i = (1 - η * c) ^ n * (q k i - P 0 k i - E) + E := by
      intro n
      induction n with
      | zero => simp
      | succ n ih =>
        rw [hs, pow_succ', mul_assoc, ← sub_eq_iff_eq_add.2 ih]
        push_cast
        linear_combination -hE2
    have h2 : |1 - η * c| < 1 := by
      simp only [stabilityEdge] at hc'
      rw [abs_lt]; constructor <;> linarith
    simp only [h1]
    have h3 := ((tendsto_pow_atTop_nhds_zero_of_abs_lt_one h2).mul_const (q k i - P 0 k i - E)).add_const E
    simpa [hE] using h3
  | some β =>
    obtain ⟨hb0, hb1⟩ := hβ β rfl
    refine ⟨_, rfl, momentum_visits σ (.scalar η) β nes grad G hg p0, fun k i => ?_⟩
    set S := momentumSgd (LR.at (.scalar η)) β nes G p0 with hS
    set E := (1 - β) * u k i / (η * c) with hE
    have hE2 : E * (η * c) = (1 - β) * u k i := div_mul_cancel₀ _ hc.ne'
    set x : ℕ → ℝ := fun n => (S n).1 k i with hx
    set m : ℕ → ℝ := fun n => (S n).2 k i with hm
    have hms : ∀ n : ℕ, m (n + 1) = β * m n + c * (x n - (q k i + n * u k i)) := fun n => rfl
    have key : ∀ n : ℕ, (q k i + n * u k i) - x n = -(x n - (q k i + n * u k i) + E) + E := fun n => by ring
    show Tendsto (fun n : ℕ => (q k i + n * u k i) - x n) atTop (𝓝 E)
    simp only [key]
    rw [show 𝓝 E = 𝓝 (-0 + E) by rw [neg_zero, zero_add]]
    refine Tendsto.add_const E (Tendsto.neg ?_)
    cases nes with
    | false =>
      have hxs : ∀ n : ℕ, x (n + 1) = x n - η * m (n + 1) := fun n => rfl
      simp only [stabilityEdge] at hc'
      refine tendsto_of_schur _ (1 + β - η * c) β (fun n => ?_) hb1 (by linarith) (by linarith)
      have h1 := hxs (n + 1)
      have h2 := hxs n
      have h3 := hms (n + 1)
      simp only [Nat.cast_add, Nat.cast_one, Nat.cast_ofNat] at *
      linear_combination h1 - β * h2 - η * h3 + hE2
    | true =>
      have hxs : ∀ n : ℕ, x (n + 1) = x n - η * (c * (x n - (q k i + n * u k i)) + β * m (n + 1)) := fun n => rfl
      simp only [stabilityEdge, if_true] at hc'
      have h12 : 0 < 1 + 2 * β := by linarith
      rw [lt_div_iff₀ h12] at hc'
      refine tendsto_of_schur _ ((1 + β) * (1 - η * c)) (β * (1 - η * c)) (fun n => ?_) (by nlinarith) (by nlinarith) (by nlinarith)
      have h1 := hxs (n + 1)
      have h2 := hxs n
      have h3 := hms (n + 1)
      simp only [Nat.cast_add, Nat.cast_one, Nat.cast_ofNat] at *
      linear_combination h1 - β * h2 - η * β * h3 + hE2

/-- the hypotheses of `C157_tracking` are met by `‖p - q_n‖²/2` with `q_n = n u`, gradients read at `q_n + d` instead of `q_n`: `L = μ = 1`, `ε = ‖d‖`, `v = ‖u‖` -/
example (u d : ℕ → ℕ → ℝ) :
    (∀ n : ℕ, Smooth σ 1 (fun t => (∑ y ∈ idx σ, (coord t y.1 y.2 - n * u y.1 y.2) ^ 2) / 2) (fun p k i => p k i - n * u k i)) ∧
    (∀ n : ℕ, StronglyConvex σ 1 (fun t => (∑ y ∈ idx σ, (coord t y.1 y.2 - n * u y.1 y.2) ^ 2) / 2) (fun p k i => p k i - n * u k i)) ∧
    (∀ (n : ℕ) (p : ℕ → ℕ → ℝ), treeDist σ (fun k i => p k i - (n * u k i + d k i)) (fun k i => p k i - n * u k i) ≤ globalNorm (mk σ d)) ∧
    (∀ (n : ℕ) (t : Params ℝ), (∑ y ∈ idx σ, (coord (mk σ fun k i => n * u k i) y.1 y.2 - n * u y.1 y.2) ^ 2) / 2 ≤ (∑ y ∈ idx σ, (coord t y.1 y.2 - n * u y.1 y.2) ^ 2) / 2) ∧
    ∀ n : ℕ, treeDist σ (fun k i => (n : ℝ) * u k i) (fun k i => ((n + 1 : ℕ) : ℝ) * u k i) ≤ globalNorm (mk σ u) := by
  have e : ∀ (n : ℕ) (p : ℕ → ℕ → ℝ), ∑ y ∈ idx σ, (coord (mk σ p) y.1 y.2 - n * u y.1 y.2) ^ 2 = ∑ y ∈ idx σ, (p y.1 y.2 - n * u y.1 y.2) ^ 2 := fun n p => by
    refine Finset.sum_congr rfl fun x hx => ?_
    obtain ⟨s, h1, h2⟩ := mem_idx.mp hx
    rw [coord_mk _ _ _ _ s h1 h2]
  have e2 : ∀ (n : ℕ) (p q : ℕ → ℕ → ℝ), (∑ y ∈ idx σ, (p y.1 y.2 - n * u y.1 y.2) ^ 2) / 2 + treeInner σ (fun k i => p k i - n * u k i) (fun k i => q k i - p k i) + 1 / 2 * sqDist σ q p =
      (∑ y ∈ idx σ, (q y.1 y.2 - n * u y.1 y.2) ^ 2) / 2 := fun n p q => by
    unfold treeInner sqDist
    rw [Finset.sum_div, Finset.sum_div, Finset.mul_sum, ← Finset.sum_add_distrib, ← Finset.sum_add_distrib]
    exact Finset.sum_congr rfl fun y _ => by ring
  refine ⟨fun n p q => ?_, fun n p q => ?_, fun n p => ?_, fun n t => ?_, fun n => ?_⟩
  · beta_reduce
    rw [e, e, e2]
  · beta_reduce
    rw [e, e, e2]
  · rw [treeDist_symm, treeDist_l2, globalNorm_mk]
    exact le_of_eq (l2_congr _ fun y _ => by ring)
  · rw [e]
    simp only [sub_self]
    have : 0 ≤ ∑ y ∈ idx σ, (coord t y.1 y.2 - n * u y.1 y.2) ^ 2 := Finset.sum_nonneg fun _ _ => sq_nonneg _
    simp only [ne_eq, OfNat.ofNat_ne_zero, not_false_eq_true, zero_pow, Finset.sum_const_zero, zero_div]
    exact div_nonneg this zero_le_two
  · rw [treeDist_symm, treeDist_l2, globalNorm_mk]
    refine le_of_eq (l2_congr _ fun y _ => ?_)
    push_cast; ring

/-- the hypotheses of `C157_lag` are met at `η c = 3/2`, which is stable with momentum `1/2`, with Nesterov momentum not; there the edge lies at `3/2`; plain `sgd` is stable up to 2 -/
example : (0 : ℝ) < 3 / 2 * 1 ∧ (3 / 2 * 1 : ℝ) < stabilityEdge (some (1 / 2)) false ∧ stabilityEdge (some (1 / 2)) true = 3 / 2 ∧ (3 / 2 * 1 : ℝ) < stabilityEdge none true := by
  refine ⟨by norm_num, ?_, ?_, ?_⟩ <;> simp only [stabilityEdge] <;> norm_num

end Optax
