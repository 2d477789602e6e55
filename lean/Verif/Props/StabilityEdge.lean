import Verif.Props.Momentum
import Verif.Props.Accumulation
import Mathlib.Analysis.Matrix.Spectrum

/-!
# C148: the edge of stability of sgd with and without momentum

On a quadratic loss the largest usable learning rate is known exactly.
-/

set_option linter.unusedSectionVars false
set_option linter.unusedSimpArgs false

namespace Optax
open Finset Filter Topology

variable (σ : Spec)

/-! ## second-order recurrences -/

/-- Schur-stable second-order recurrences tend to zero (a quadratic Lyapunov function) -/
theorem tendsto_of_schur (w : ℕ → ℝ) (s d : ℝ) (hw : ∀ n, w (n + 2) = s * w (n + 1) - d * w n)
    (hd : d < 1) (hs1 : s < 1 + d) (hs2 : -(1 + d) < s) : Tendsto w atTop (𝓝 0) := by
  have h1d : 0 < 1 + d := by linarith
  have hgap : 0 < (1 + d) ^ 2 - s ^ 2 := by nlinarith
  set δ := (1 - d) * ((1 + d) ^ 2 - s ^ 2) / 2 with hδ
  have hδ0 : 0 < δ := by
    have : 0 < (1 - d) * ((1 + d) ^ 2 - s ^ 2) := mul_pos (by linarith) hgap
    linarith
  set a := d ^ 2 * (1 + d) + δ with ha
  set V : ℕ → ℝ := fun n => a * w n ^ 2 - 2 * (s * d) * w n * w (n + 1) + (1 + d) * w (n + 1) ^ 2 with hV
  have hV0 : ∀ n, 0 ≤ V n := by
    intro n
    have h1 : (1 + d) * V n = ((1 + d) * w (n + 1) - s * d * w n) ^ 2 +
        (d ^ 2 * ((1 + d) ^ 2 - s ^ 2) + δ * (1 + d)) * w n ^ 2 := by
      simp only [hV, ha]; ring
    have h2 : 0 ≤ (1 + d) * V n := by
      rw [h1]
      have : 0 ≤ d ^ 2 * ((1 + d) ^ 2 - s ^ 2) + δ * (1 + d) :=
        add_nonneg (mul_nonneg (sq_nonneg _) hgap.le) (mul_nonneg hδ0.le h1d.le)
      exact add_nonneg (sq_nonneg _) (mul_nonneg this (sq_nonneg _))
    exact nonneg_of_mul_nonneg_right h2 h1d
  have hstep : ∀ n, V (n + 1) = V n - δ * (w n ^ 2 + w (n + 1) ^ 2) := by
    intro n
    simp only [hV, ha, hw n, hδ]
    ring
  have hsum : ∀ N, δ * ∑ n ∈ range N, w n ^ 2 ≤ V 0 - V N := by
    intro N
    induction N with
    | zero => simp
    | succ N ih =>
      rw [Finset.sum_range_succ, mul_add, hstep N]
      nlinarith [mul_nonneg hδ0.le (sq_nonneg (w (N + 1)))]
  have hsm : Summable fun n => w n ^ 2 := by
    refine summable_of_sum_range_le (c := V 0 / δ) (fun n => sq_nonneg _) fun N => ?_
    rw [le_div_iff₀ hδ0, mul_comm]
    linarith [hsum N, hV0 N]
  have h2 := hsm.tendsto_atTop_zero
  have h3 : Tendsto (fun n => √(w n ^ 2)) atTop (𝓝 0) := by
    have h4 := (Real.continuous_sqrt.tendsto 0).comp h2
    rw [Real.sqrt_zero] at h4
    exact h4
  simp only [Real.sqrt_sq_eq_abs] at h3
  exact (tendsto_zero_iff_abs_tendsto_zero w).mpr h3

/-- a real root `r₁` with `|r₁| ≥ 1` that the start excites keeps the sequence away from zero; `|r₁| > 1` makes it unbounded -/
theorem unstable_root (w : ℕ → ℝ) (r₁ r₂ : ℝ) (hw : ∀ n, w (n + 2) = (r₁ + r₂) * w (n + 1) - r₁ * r₂ * w n)
    (h0 : w 1 - r₂ * w 0 ≠ 0) :
    (1 ≤ |r₁| → ¬ Tendsto w atTop (𝓝 0)) ∧ (1 < |r₁| → ∀ B, ∃ n, B < |w n|) := by
  have hu : ∀ n, w (n + 1) - r₂ * w n = r₁ ^ n * (w 1 - r₂ * w 0) := by
    intro n
    induction n with
    | zero => simp
    | succ n ih =>
      rw [hw n, pow_succ]
      linear_combination r₁ * ih
  have hpos : 0 < |w 1 - r₂ * w 0| := abs_pos.mpr h0
  constructor
  · intro h1 ht
    have h2 : Tendsto (fun n => w (n + 1) - r₂ * w n) atTop (𝓝 (0 - r₂ * 0)) :=
      ((tendsto_add_atTop_iff_nat 1).mpr ht).sub (ht.const_mul r₂)
    have h3 := h2.abs
    simp only [mul_zero, sub_zero, abs_zero] at h3
    have h4 : ∀ n, |w 1 - r₂ * w 0| ≤ |w (n + 1) - r₂ * w n| := by
      intro n
      rw [hu n, abs_mul, abs_pow]
      exact le_mul_of_one_le_left hpos.le (one_le_pow₀ h1)
    exact absurd (ge_of_tendsto' h3 h4) (not_le.mpr hpos)
  · intro h1 B
    by_contra hB
    push Not at hB
    have h2 : ∀ n, |r₁| ^ n * |w 1 - r₂ * w 0| ≤ B + |r₂| * B := by
      intro n
      rw [← abs_pow, ← abs_mul, ← hu n]
      refine (abs_sub _ _).trans ?_
      rw [abs_mul]
      exact add_le_add (hB _) (mul_le_mul_of_nonneg_left (hB _) (abs_nonneg _))
    obtain ⟨n, hn⟩ := pow_unbounded_of_one_lt ((B + |r₂| * B) / |w 1 - r₂ * w 0|) h1
    rw [div_lt_iff₀ hpos] at hn
    exact absurd (h2 n) (not_le.mpr hn)

/-- real roots of `x² - s x + d` when `-1` lies between them -/
theorem roots_neg (s d : ℝ) (h : 1 + s + d ≤ 0) :
    ∃ r₁ r₂ : ℝ, r₁ + r₂ = s ∧ r₁ * r₂ = d ∧ r₁ ≤ -1 ∧ (1 + s + d < 0 → r₁ < -1) := by
  have hD : 0 ≤ s ^ 2 - 4 * d := by nlinarith [sq_nonneg (s + 2)]
  have hsq := Real.sq_sqrt hD
  have hn := Real.sqrt_nonneg (s ^ 2 - 4 * d)
  set t := √(s ^ 2 - 4 * d)
  refine ⟨(s - t) / 2, (s + t) / 2, by ring, by linear_combination -hsq / 4, ?_, fun h' => ?_⟩
  · by_contra hc
    push Not at hc
    nlinarith
  · by_contra hc
    push Not at hc
    nlinarith

theorem roots_pos (s d : ℝ) (h : 1 - s + d ≤ 0) :
    ∃ r₁ r₂ : ℝ, r₁ + r₂ = s ∧ r₁ * r₂ = d ∧ 1 ≤ r₁ ∧ (1 - s + d < 0 → 1 < r₁) := by
  obtain ⟨r₁, r₂, h1, h2, h3, h4⟩ := roots_neg (-s) d (by linarith)
  exact ⟨-r₁, -r₂, by linarith, by linarith, by linarith, fun h' => by linarith [h4 (by linarith)]⟩

/-- the largest stable value of learning rate times curvature: `2` without momentum, `2 (1 + β)` with heavy-ball momentum
`β`, `2 (1 + β) / (1 + 2 β)` with Nesterov momentum -/
noncomputable def stabilityEdge : Option ℝ → Bool → ℝ
  | none, _ => 2
  | some β, false => 2 * (1 + β)
  | some β, true => 2 * (1 + β) / (1 + 2 * β)

/-- one coordinate of momentum descent on a quadratic, `a` = learning rate × curvature, `m` the velocity in units of
the curvature -/
theorem edge_scalar (a β : ℝ) (hβ : 0 ≤ β) (hβ1 : β < 1) (nes : Bool) (w m : ℕ → ℝ) (hm0 : m 0 = 0) (hw0 : w 0 ≠ 0)
    (hm : ∀ n, m (n + 1) = β * m n + a * w n)
    (hw : ∀ n, w (n + 1) = w n - if nes then a * w n + β * m (n + 1) else m (n + 1)) :
    (Tendsto w atTop (𝓝 0) ↔ 0 < a ∧ a < stabilityEdge (some β) nes) ∧
    (a < 0 ∨ stabilityEdge (some β) nes < a → ∀ B, ∃ n, B < |w n|) := by
  obtain ⟨s, d, hsd, h1, hp, hn, hst⟩ : ∃ s d : ℝ, (∀ n, w (n + 2) = s * w (n + 1) - d * w n) ∧
      w 1 = (s - β) * w 0 ∧ 1 - s + d = a ∧
      ((1 + s + d < 0 ↔ stabilityEdge (some β) nes < a) ∧ (1 + s + d ≤ 0 ↔ stabilityEdge (some β) nes ≤ a)) ∧
      (0 < a → a < stabilityEdge (some β) nes → d < 1) := by
    cases nes with
    | false =>
      refine ⟨1 + β - a, β, ?_, ?_, by ring, ?_, fun _ _ => hβ1⟩
      · intro n
        have e1 := hw (n + 1)
        have e2 := hw n
        have e3 := hm (n + 1)
        simp only [Bool.false_eq_true, if_false] at e1 e2
        linear_combination e1 - e3 - β * e2
      · have e2 := hw 0
        have e3 := hm 0
        simp only [Bool.false_eq_true, if_false] at e2
        rw [hm0] at e3
        rw [zero_add] at e2 e3
        linear_combination e2 - e3
      · simp only [stabilityEdge]
        constructor <;> constructor <;> intro h <;> linarith
    | true =>
      have h2b : 0 < 1 + 2 * β := by linarith
      refine ⟨(1 + β) * (1 - a), β * (1 - a), ?_, ?_, by ring, ?_, ?_⟩
      · intro n
        have e1 := hw (n + 1)
        have e2 := hw n
        have e3 := hm (n + 1)
        simp only [if_true] at e1 e2
        linear_combination e1 - β * e3 - β * e2
      · have e2 := hw 0
        have e3 := hm 0
        simp only [if_true] at e2
        rw [hm0] at e3
        rw [zero_add] at e2 e3
        linear_combination e2 - β * e3
      · simp only [stabilityEdge, div_lt_iff₀ h2b, div_le_iff₀ h2b]
        constructor <;> constructor <;> intro h <;> linarith
      · intro h0 _
        nlinarith
  have hun : ∀ r₁ r₂ : ℝ, r₁ + r₂ = s → r₁ * r₂ = d → 1 ≤ |r₁| →
      ¬ Tendsto w atTop (𝓝 0) ∧ (1 < |r₁| → ∀ B, ∃ n, B < |w n|) := by
    intro r₁ r₂ e1 e2 e3
    have h0 : w 1 - r₂ * w 0 ≠ 0 := by
      rw [h1, ← e1]
      have e4 : (r₁ + r₂ - β) * w 0 - r₂ * w 0 = (r₁ - β) * w 0 := by ring
      rw [e4]
      refine mul_ne_zero ?_ hw0
      intro e5
      have : r₁ = β := by linarith
      rw [this, abs_of_nonneg hβ] at e3
      linarith
    obtain ⟨q1, q2⟩ := unstable_root w r₁ r₂ (by rw [e1, e2]; exact hsd) h0
    exact ⟨q1 e3, q2⟩
  refine ⟨⟨fun ht => ?_, fun h => ?_⟩, fun h => ?_⟩
  · by_contra hc
    rw [not_and_or, not_lt, not_lt] at hc
    rcases hc with hc | hc
    · obtain ⟨r₁, r₂, e1, e2, e3, -⟩ := roots_pos s d (by rw [hp]; exact hc)
      exact (hun r₁ r₂ e1 e2 (e3.trans (le_abs_self _))).1 ht
    · obtain ⟨r₁, r₂, e1, e2, e3, -⟩ := roots_neg s d (hn.2.mpr hc)
      exact (hun r₁ r₂ e1 e2 ((by linarith : (1 : ℝ) ≤ -r₁).trans (neg_le_abs _))).1 ht
  · refine tendsto_of_schur w s d hsd (hst h.1 h.2) (by linarith [h.1]) ?_
    by_contra hc
    have := hn.2.mp (by linarith : 1 + s + d ≤ 0)
    exact absurd this (not_le.mpr h.2)
  · rcases h with h | h
    · obtain ⟨r₁, r₂, e1, e2, e3, e4⟩ := roots_pos s d (by rw [hp]; exact h.le)
      exact (hun r₁ r₂ e1 e2 (e3.trans (le_abs_self _))).2 ((e4 (by rw [hp]; exact h)).trans_le (le_abs_self _))
    · obtain ⟨r₁, r₂, e1, e2, e3, e4⟩ := roots_neg s d (hn.2.mpr h.le)
      exact (hun r₁ r₂ e1 e2 ((by linarith : (1 : ℝ) ≤ -r₁).trans (neg_le_abs _))).2
        ((by linarith [e4 (hn.1.mpr h)] : (1 : ℝ) < -r₁).trans_le (neg_le_abs _))

/-! ## training -/

/-- the component of `p - q` along the direction `v`: the scalar product over all parameters -/
noncomputable def component (v p q : ℕ → ℕ → ℝ) : ℝ := ∑ x ∈ idx σ, v x.1 x.2 * (p x.1 x.2 - q x.1 x.2)

/-- without momentum `sgd` follows the momentum recurrence with `β = 0` -/
theorem plainSgd_eq (lr : ℕ → ℝ) (G : ℕ → (ℕ → ℕ → ℝ) → ℕ → ℕ → ℝ) (p0 : ℕ → ℕ → ℝ) (n : ℕ) :
    plainSgd lr G p0 n = (momentumSgd lr 0 false G p0 n).1 := by
  induction n with
  | zero => rfl
  | succ n ih =>
    funext k i
    simp only [plainSgd, momentumSgd, ih]
    simp

/-- **C148 (one direction).** Train with `sgd(η, momentum, nesterov)`, `η > 0`, `0 ≤ momentum < 1`, on a loss whose
gradient acts as multiplication by the curvature `c` along the direction `v` (`q` a minimiser): the component of the
error along `v` tends to zero if and only if it is zero at the start or `0 < η c < edge`, the edge being `2` without momentum,
`2 (1 + β)` with momentum `β` and `2 (1 + β) / (1 + 2 β)` with Nesterov momentum; beyond the edge (or with negative
curvature) the component is unbounded, whatever the start. -/
theorem C148_direction (η : ℝ) (momentum : Option ℝ) (hβ : ∀ β ∈ momentum, 0 ≤ β ∧ β < 1) (nes : Bool)
    (grad : ℕ → Params ℝ → Params ℝ) (G : (ℕ → ℕ → ℝ) → ℕ → ℕ → ℝ) (hg : ∀ n p, grad n (mk σ p) = mk σ (G p))
    (q v : ℕ → ℕ → ℝ) (c : ℝ) (hv : ∀ p, ∑ x ∈ idx σ, v x.1 x.2 * G p x.1 x.2 = c * component σ v p q) (p0 : ℕ → ℕ → ℝ) :
    ∃ P, P 0 = p0 ∧ Visits (sgd (.scalar η) momentum nes) grad σ P ∧
      (Tendsto (fun n => component σ v (P n) q) atTop (𝓝 0) ↔
        component σ v p0 q = 0 ∨ (0 < η * c ∧ η * c < stabilityEdge momentum nes)) ∧
      (component σ v p0 q ≠ 0 → η * c < 0 ∨ stabilityEdge momentum nes < η * c → ∀ B, ∃ n, B < |component σ v (P n) q|) := by
  have main : ∀ (β : ℝ) (nes : Bool), 0 ≤ β → β < 1 → ∀ S, S = momentumSgd (fun _ => η) β nes (fun _ => G) p0 →
      (Tendsto (fun n => component σ v (S n).1 q) atTop (𝓝 0) ↔
        component σ v p0 q = 0 ∨ (0 < η * c ∧ η * c < stabilityEdge (some β) nes)) ∧
      (component σ v p0 q ≠ 0 → η * c < 0 ∨ stabilityEdge (some β) nes < η * c →
        ∀ B, ∃ n, B < |component σ v (S n).1 q|) := by
    intro β nes h0 h1 S hS
    set w : ℕ → ℝ := fun n => component σ v (S n).1 q with hwd
    set m : ℕ → ℝ := fun n => η * ∑ x ∈ idx σ, v x.1 x.2 * (S n).2 x.1 x.2 with hmd
    have hm0 : m 0 = 0 := by simp [hmd, hS, momentumSgd]
    have hw0 : w 0 = component σ v p0 q := by simp [hwd, hS, momentumSgd]
    have hS1 : ∀ n, (S (n + 1)).2 = fun k i => β * (S n).2 k i + G (S n).1 k i := fun n => by rw [hS]; rfl
    have hS2 : ∀ n, (S (n + 1)).1 = fun k i => (S n).1 k i - η * (if nes then G (S n).1 k i + β * (S (n + 1)).2 k i
        else (S (n + 1)).2 k i) := fun n => by rw [hS]; rfl
    have hm : ∀ n, m (n + 1) = β * m n + η * c * w n := by
      intro n
      have e := hv (S n).1
      simp only [hmd, hwd, hS1 n, mul_add, Finset.sum_add_distrib, e]
      have : ∑ x ∈ idx σ, v x.1 x.2 * (β * (S n).2 x.1 x.2) = β * ∑ x ∈ idx σ, v x.1 x.2 * (S n).2 x.1 x.2 := by
        rw [Finset.mul_sum]; exact Finset.sum_congr rfl fun x _ => by ring
      rw [this]; ring
    have hw : ∀ n, w (n + 1) = w n - if nes then η * c * w n + β * m (n + 1) else m (n + 1) := by
      intro n
      have e := hv (S n).1
      have e2 : ∀ u : ℕ → ℕ → ℝ, component σ v (fun k i => (S n).1 k i - η * u k i) q =
          component σ v (S n).1 q - η * ∑ x ∈ idx σ, v x.1 x.2 * u x.1 x.2 := by
        intro u
        unfold component
        rw [Finset.mul_sum, ← Finset.sum_sub_distrib]
        exact Finset.sum_congr rfl fun x _ => by ring
      have e3 : w (n + 1) = component σ v (fun k i => (S n).1 k i - η * (if nes then G (S n).1 k i + β * (S (n + 1)).2 k i
        else (S (n + 1)).2 k i)) q := by simp only [hwd]; rw [hS2 n]
      rw [e3, e2]
      cases nes with
      | false => simp only [Bool.false_eq_true, if_false, hmd, hwd]
      | true =>
        simp only [if_true, hmd, hwd, mul_add, Finset.sum_add_distrib, e]
        have : ∑ x ∈ idx σ, v x.1 x.2 * (β * (S (n + 1)).2 x.1 x.2) =
            β * ∑ x ∈ idx σ, v x.1 x.2 * (S (n + 1)).2 x.1 x.2 := by
          rw [Finset.mul_sum]; exact Finset.sum_congr rfl fun x _ => by ring
        rw [this]; ring
    by_cases hz : component σ v p0 q = 0
    · have hall : ∀ n, w n = 0 ∧ m n = 0 := by
        intro n
        induction n with
        | zero => exact ⟨hw0.trans hz, hm0⟩
        | succ n ih =>
          have h2 : m (n + 1) = 0 := by rw [hm, ih.1, ih.2]; ring
          refine ⟨?_, h2⟩
          rw [hw, h2, ih.1]
          cases nes <;> simp
      refine ⟨⟨fun _ => Or.inl hz, fun _ => ?_⟩, fun h => absurd hz h⟩
      have : w = fun _ => 0 := funext fun n => (hall n).1
      show Tendsto w atTop (𝓝 0)
      rw [this]
      exact tendsto_const_nhds
    · obtain ⟨k1, k2⟩ := edge_scalar (η * c) β h0 h1 nes w m hm0 (by rw [hw0]; exact hz) hm hw
      exact ⟨k1.trans ⟨Or.inr, fun h => h.resolve_left hz⟩, fun _ => k2⟩
  cases momentum with
  | none =>
    refine ⟨plainSgd (LR.at (.scalar η)) (fun _ => G) p0, rfl, sgd_visits σ (.scalar η) nes grad (fun _ => G) hg p0, ?_⟩
    have h := main 0 false le_rfl one_pos _ rfl
    have e : stabilityEdge none nes = stabilityEdge (some 0) false := by simp [stabilityEdge]
    rw [e]
    have e2 : plainSgd (LR.at (.scalar η)) (fun _ => G) p0 = fun n => (momentumSgd (fun _ => η) 0 false (fun _ => G) p0 n).1 := by
      funext n
      exact plainSgd_eq (fun _ => η) (fun _ => G) p0 n
    rw [e2]
    exact h
  | some β =>
    obtain ⟨h0, h1⟩ := hβ β rfl
    exact ⟨fun n => (momentumSgd (LR.at (.scalar η)) β nes (fun _ => G) p0 n).1, rfl,
      momentum_visits σ (.scalar η) β nes grad (fun _ => G) hg p0, main β nes h0 h1 _ rfl⟩

/-- **C148 (quadratic losses).** For the loss `(p - q)ᵀ A (p - q) / 2` with a symmetric matrix `A` over all parameters
(gradient `A (p - q)`), training with `sgd(η, momentum, nesterov)` reaches the minimiser `q` from every start if and only if every
eigenvalue `c` of `A` satisfies `0 < η c < edge`. -/
theorem C148_quadratic (η : ℝ) (momentum : Option ℝ) (hβ : ∀ β ∈ momentum, 0 ≤ β ∧ β < 1) (nes : Bool)
    (grad : ℕ → Params ℝ → Params ℝ) (A : (Σ _ : ℕ, ℕ) → (Σ _ : ℕ, ℕ) → ℝ) (hA : ∀ x y, A x y = A y x) (q : ℕ → ℕ → ℝ)
    (hg : ∀ n p, grad n (mk σ p) = mk σ (fun k i => ∑ y ∈ idx σ, A ⟨k, i⟩ y * (p y.1 y.2 - q y.1 y.2))) :
    (∀ p0, ∃ P, P 0 = p0 ∧ Visits (sgd (.scalar η) momentum nes) grad σ P ∧
      ∀ x ∈ idx σ, Tendsto (fun n => P n x.1 x.2) atTop (𝓝 (q x.1 x.2))) ↔
    ∀ (c : ℝ) (v : ℕ → ℕ → ℝ), (∃ x ∈ idx σ, v x.1 x.2 ≠ 0) →
      (∀ x ∈ idx σ, ∑ y ∈ idx σ, A x y * v y.1 y.2 = c * v x.1 x.2) → 0 < η * c ∧ η * c < stabilityEdge momentum nes := by
  -- an eigenvector is a direction of constant curvature
  have hdir : ∀ (c : ℝ) (v : ℕ → ℕ → ℝ), (∀ x ∈ idx σ, ∑ y ∈ idx σ, A x y * v y.1 y.2 = c * v x.1 x.2) →
      ∀ p : ℕ → ℕ → ℝ, ∑ x ∈ idx σ, v x.1 x.2 * ∑ y ∈ idx σ, A ⟨x.1, x.2⟩ y * (p y.1 y.2 - q y.1 y.2) = c * component σ v p q := by
    intro c v hv p
    unfold component
    rw [Finset.mul_sum]
    calc ∑ x ∈ idx σ, v x.1 x.2 * ∑ y ∈ idx σ, A ⟨x.1, x.2⟩ y * (p y.1 y.2 - q y.1 y.2)
        = ∑ x ∈ idx σ, ∑ y ∈ idx σ, v x.1 x.2 * (A x y * (p y.1 y.2 - q y.1 y.2)) :=
          Finset.sum_congr rfl fun x _ => Finset.mul_sum _ _ _
      _ = ∑ y ∈ idx σ, ∑ x ∈ idx σ, v x.1 x.2 * (A x y * (p y.1 y.2 - q y.1 y.2)) := Finset.sum_comm
      _ = ∑ y ∈ idx σ, c * (v y.1 y.2 * (p y.1 y.2 - q y.1 y.2)) := by
          refine Finset.sum_congr rfl fun y hy => ?_
          rw [← mul_assoc c, ← hv y hy, Finset.sum_mul]
          exact Finset.sum_congr rfl fun x _ => by rw [hA x y]; ring
  constructor
  · intro hall c v ⟨x0, hx0, hvx⟩ hv
    have hpos : component σ v (fun k i => q k i + v k i) q ≠ 0 := by
      have : component σ v (fun k i => q k i + v k i) q = ∑ x ∈ idx σ, v x.1 x.2 ^ 2 :=
        Finset.sum_congr rfl fun x _ => by ring
      rw [this]
      exact (Finset.sum_pos' (fun x _ => sq_nonneg _) ⟨x0, hx0, by positivity⟩).ne'
    obtain ⟨P, hP0, hP, hiff, -⟩ := C148_direction σ η momentum hβ nes grad _ hg q v c (hdir c v hv) (fun k i => q k i + v k i)
    obtain ⟨Q, hQ0, hQ, hQt⟩ := hall (fun k i => q k i + v k i)
    refine (hiff.mp ?_).resolve_left hpos
    have heq : ∀ n, component σ v (P n) q = component σ v (Q n) q := by
      intro n
      refine Finset.sum_congr rfl fun x hx => ?_
      obtain ⟨s, h1, h2⟩ := mem_idx.mp hx
      rw [mk_inj (visits_unique σ hP hQ (by rw [hP0, hQ0]) n) x.1 s h1 x.2 h2]
    simp only [heq]
    have : Tendsto (fun n => ∑ x ∈ idx σ, v x.1 x.2 * (Q n x.1 x.2 - q x.1 x.2)) atTop
        (𝓝 (∑ x ∈ idx σ, v x.1 x.2 * (q x.1 x.2 - q x.1 x.2))) :=
      tendsto_finsetSum _ fun x hx => ((hQt x hx).sub_const _).const_mul _
    simp only [sub_self, mul_zero, Finset.sum_const_zero] at this
    exact this
  · intro heig p0
    let M : Matrix (idx σ) (idx σ) ℝ := fun x y => A x.1 y.1
    have hM : M.IsHermitian := by
      ext x y
      show A y.1 x.1 = A x.1 y.1
      exact hA _ _
    let b : idx σ → ℕ → ℕ → ℝ := fun j k i => if h : (⟨k, i⟩ : Σ _ : ℕ, ℕ) ∈ idx σ then hM.eigenvectorBasis j ⟨⟨k, i⟩, h⟩ else 0
    have hb : ∀ j (x : Σ _ : ℕ, ℕ) (hx : x ∈ idx σ), b j x.1 x.2 = hM.eigenvectorBasis j ⟨x, hx⟩ := by
      intro j x hx
      simp only [b]
      rw [dif_pos hx]
    have hbe : ∀ j, ∀ x ∈ idx σ, ∑ y ∈ idx σ, A x y * b j y.1 y.2 = hM.eigenvalues j * b j x.1 x.2 := by
      intro j x hx
      have h1 := congrFun (hM.mulVec_eigenvectorBasis j) ⟨x, hx⟩
      rw [hb j x hx, ← Finset.sum_coe_sort]
      simp only [Matrix.mulVec, dotProduct, Pi.smul_apply, smul_eq_mul] at h1
      rw [← h1]
      exact Finset.sum_congr rfl fun y _ => by rw [hb j y.1 y.2]
    have hbn : ∀ j, ∃ x ∈ idx σ, b j x.1 x.2 ≠ 0 := by
      intro j
      by_contra hc
      push Not at hc
      have h1 := hM.eigenvectorBasis.orthonormal.1 j
      have h2 : hM.eigenvectorBasis j = 0 := by
        ext x
        rw [← hb j x.1 x.2]
        exact hc x.1 x.2
      rw [h2, norm_zero] at h1
      exact zero_ne_one h1
    by_cases hne : Nonempty (idx σ)
    swap
    · obtain ⟨P, hP0, hP, -⟩ := C148_direction σ η momentum hβ nes grad _ hg q (fun _ _ => 0) 0 (hdir 0 (fun _ _ => 0) (by simp)) p0
      exact ⟨P, hP0, hP, fun x hx => absurd ⟨⟨x, hx⟩⟩ hne⟩
    obtain ⟨j0⟩ := hne
    obtain ⟨P, hP0, hP, -⟩ := C148_direction σ η momentum hβ nes grad _ hg q (b j0) _ (hdir _ _ (hbe j0)) p0
    refine ⟨P, hP0, hP, fun x hx => ?_⟩
    have hcomp : ∀ j, Tendsto (fun n => component σ (b j) (P n) q) atTop (𝓝 0) := by
      intro j
      obtain ⟨Q, hQ0, hQ, hiff, -⟩ := C148_direction σ η momentum hβ nes grad _ hg q (b j) _ (hdir _ _ (hbe j)) p0
      have h1 := hiff.mpr (Or.inr (heig _ _ (hbn j) (hbe j)))
      have heq : ∀ n, component σ (b j) (P n) q = component σ (b j) (Q n) q := by
        intro n
        refine Finset.sum_congr rfl fun x hx => ?_
        obtain ⟨s, h1, h2⟩ := mem_idx.mp hx
        rw [mk_inj (visits_unique σ hP hQ (by rw [hP0, hQ0]) n) x.1 s h1 x.2 h2]
      simpa only [heq] using h1
    have hexp : ∀ n, P n x.1 x.2 = q x.1 x.2 + ∑ j, component σ (b j) (P n) q * b j x.1 x.2 := by
      intro n
      let z : EuclideanSpace ℝ (idx σ) := WithLp.toLp 2 fun y => P n y.1.1 y.1.2 - q y.1.1 y.1.2
      have h1 := hM.eigenvectorBasis.sum_repr' z
      have h2 := congrArg (fun u : EuclideanSpace ℝ (idx σ) => u ⟨x, hx⟩) h1
      simp only [WithLp.ofLp_sum, Finset.sum_apply, PiLp.smul_apply, smul_eq_mul] at h2
      have h3 : z ⟨x, hx⟩ = P n x.1 x.2 - q x.1 x.2 := rfl
      rw [h3] at h2
      rw [← sub_eq_iff_eq_add', ← h2]
      refine Finset.sum_congr rfl fun j _ => ?_
      rw [hb j x hx]
      congr 1
      unfold component
      rw [← Finset.sum_coe_sort, PiLp.inner_apply]
      refine Finset.sum_congr rfl fun y _ => ?_
      rw [hb j y.1 y.2]
      simp [z, mul_comm]
    have hlim : Tendsto (fun n => q x.1 x.2 + ∑ j, component σ (b j) (P n) q * b j x.1 x.2) atTop
        (𝓝 (q x.1 x.2 + ∑ j, 0 * b j x.1 x.2)) :=
      (tendsto_finsetSum _ fun j _ => (hcomp j).mul_const _).const_add _
    simp only [zero_mul, Finset.sum_const_zero, add_zero] at hlim
    simpa only [← hexp] using hlim

/-- e.g. one parameter, loss `x²`: with `β = 9/10` the edge for the learning rate is `1.9` (heavy ball), against `1` without
momentum and `19/28` with Nesterov momentum -/
example : stabilityEdge (some (9 / 10)) false = 3.8 ∧ stabilityEdge none true = 2 ∧
    stabilityEdge (some (9 / 10)) true = 19 / 14 := by
  simp only [stabilityEdge]; norm_num

/-- the hypotheses of `C148_direction` are met by the loss `x²` of one parameter (curvature 2), and from the start 1 the
component is not zero -/
example : (∀ (n : ℕ) p, (fun (_ : ℕ) t => tmap (fun x : ℝ => 2 * x) t) n (mk (.leaf [1]) p) =
      mk (.leaf [1]) (fun k i => 2 * p k i)) ∧
    (∀ p : ℕ → ℕ → ℝ, ∑ x ∈ idx (.leaf [1]), (1 : ℝ) * (2 * p x.1 x.2) = 2 * component (.leaf [1]) (fun _ _ => 1) p (fun _ _ => 0)) ∧
    component (.leaf [1]) (fun _ _ => 1) (fun _ _ => 1) (fun _ _ => 0) ≠ 0 := by
  refine ⟨fun n p => by simp only [tmap_mk], fun p => ?_, ?_⟩
  · unfold component
    rw [Finset.mul_sum]
    exact Finset.sum_congr rfl fun x _ => by ring
  · have h : idx (.leaf [1]) = {⟨0, 0⟩} := by decide
    unfold component
    rw [h]
    simp

end Optax
