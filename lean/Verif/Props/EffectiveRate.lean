import Verif.Props.Momentum

/-!
# C150: momentum multiplies the learning rate by `1/(1 - momentum)`
-/

set_option linter.unusedSectionVars false
set_option linter.unusedSimpArgs false

namespace Optax
open Finset

variable (σ : Spec)

/-- the share of the gradient met `age` steps ago that has reached the parameters by now -/
noncomputable def arrived (β : ℝ) (nes : Bool) (age : ℕ) : ℝ := 1 - β ^ (if nes then age + 1 else age)

/-- the parameters as a weighted sum of all gradients met -/
theorem momentum_sum (η β : ℝ) (hβ : β ≠ 1) (nes : Bool) (G : ℕ → (ℕ → ℕ → ℝ) → ℕ → ℕ → ℝ) (p0 : ℕ → ℕ → ℝ) (N k i : ℕ) :
    (momentumSgd (fun _ => η) β nes G p0 N).1 k i =
      p0 k i - η / (1 - β) * ∑ j ∈ range N, arrived β nes (N - j) * G j (momentumSgd (fun _ => η) β nes G p0 j).1 k i := by
  have hb : 1 - β ≠ 0 := sub_ne_zero.mpr (Ne.symm hβ)
  set S := momentumSgd (fun _ => η) β nes G p0 with hS
  set g : ℕ → ℝ := fun j => G j (S j).1 k i with hgd
  have hv : ∀ n, (S n).2 k i = geoSum β g n := by
    intro n
    induction n with
    | zero => simp [hS, momentumSgd]
    | succ n ih =>
      rw [geoSum_succ, ← ih]
      have : (S (n + 1)).2 k i = β * (S n).2 k i + g n := rfl
      rw [this]; ring
  have hp : ∀ n, (S (n + 1)).1 k i = (S n).1 k i - η * (if nes then g n + β * (S (n + 1)).2 k i else (S (n + 1)).2 k i) := fun n => rfl
  -- weights move on by one step
  have hshift : ∀ (e n : ℕ), ∑ j ∈ range (n + 1), (1 - β ^ (n + 1 - j + e)) * g j =
      ∑ j ∈ range n, (1 - β ^ (n - j + e)) * g j + (1 - β) * β ^ e * geoSum β g (n + 1) + (1 - β ^ e) * g n := by
    intro e n
    have h1 : geoSum β g (n + 1) = ∑ j ∈ range n, β ^ (n - j) * g j + g n := by
      unfold geoSum
      rw [Finset.sum_range_succ]
      simp
    rw [Finset.sum_range_succ, h1, mul_add, Finset.mul_sum]
    have h2 : ∑ j ∈ range n, (1 - β ^ (n + 1 - j + e)) * g j =
        ∑ j ∈ range n, (1 - β ^ (n - j + e)) * g j + ∑ j ∈ range n, (1 - β) * β ^ e * (β ^ (n - j) * g j) := by
      rw [← Finset.sum_add_distrib]
      refine Finset.sum_congr rfl fun j hj => ?_
      have hj := Finset.mem_range.mp hj
      have e1 : n + 1 - j + e = (n - j) + e + 1 := by omega
      rw [e1, pow_succ, pow_add]; ring
    rw [h2]
    have e2 : n + 1 - n + e = e + 1 := by omega
    rw [e2, pow_succ]
    ring
  induction N with
  | zero => simp [hS, momentumSgd]
  | succ n ih =>
    rw [hp n, ih, hv (n + 1)]
    cases nes with
    | false =>
      have h := hshift 0 n
      simp only [arrived, Bool.false_eq_true, if_false, add_zero, pow_zero, mul_one, sub_self, zero_mul] at h ⊢
      rw [show (fun j => G j (S j).1 k i) = g from rfl] at *
      have h' : ∑ j ∈ range (n + 1), (1 - β ^ (n + 1 - j)) * G j (S j).1 k i =
        ∑ j ∈ range n, (1 - β ^ (n - j)) * G j (S j).1 k i + (1 - β) * geoSum β g (n + 1) := h
      rw [h']
      field_simp
      ring
    | true =>
      have h := hshift 1 n
      simp only [arrived, if_true, pow_one] at h ⊢
      have h' : ∑ j ∈ range (n + 1), (1 - β ^ (n + 1 - j + 1)) * G j (S j).1 k i =
        ∑ j ∈ range n, (1 - β ^ (n - j + 1)) * G j (S j).1 k i + (1 - β) * β * geoSum β g (n + 1) + (1 - β) * g n := h
      rw [h']
      field_simp
      ring

/-- **C150.** Training with `sgd(η, momentum=β, nesterov)`, any losses: after `N` steps the parameters are the initial ones minus
`η/(1-β)` times the sum of all gradients met, the gradient met `a` steps ago counting with the share `1 - β^a` (Nesterov: `1 - β^(a+1)`) of it
that has arrived.  If the entries of the gradients are bounded by `B` the parameters stay, for ever, within `η β B/(1-β)²` of
what the full sum gives: momentum is a delayed version of the learning rate `η/(1-β)`. -/
theorem C150_effective_rate (η β : ℝ) (hβ : β ≠ 1) (nes : Bool) (grad : ℕ → Params ℝ → Params ℝ)
    (G : ℕ → (ℕ → ℕ → ℝ) → ℕ → ℕ → ℝ) (hg : ∀ n p, grad n (mk σ p) = mk σ (G n p)) (p0 : ℕ → ℕ → ℝ) :
    ∃ P, P 0 = p0 ∧ Visits (sgd (.scalar η) (some β) nes) grad σ P ∧
      (∀ N k i, P N k i = p0 k i - η / (1 - β) * ∑ j ∈ range N, (1 - β ^ (if nes then N - j + 1 else N - j)) * G j (P j) k i) ∧
      ∀ B, 0 ≤ β → β < 1 → 0 ≤ η → (∀ n p k i, |G n p k i| ≤ B) → ∀ N k i,
        |P N k i - (p0 k i - η / (1 - β) * ∑ j ∈ range N, G j (P j) k i)| ≤ η * β * B / (1 - β) ^ 2 := by
  refine ⟨fun n => (momentumSgd (LR.at (.scalar η)) β nes G p0 n).1, rfl, momentum_visits σ (.scalar η) β nes grad G hg p0,
    fun N k i => momentum_sum η β hβ nes G p0 N k i, ?_⟩
  intro B h0 h1 hη hB N k i
  have hb : 0 < 1 - β := by linarith
  have e := momentum_sum η β hβ nes G p0 N k i
  have hB0 : 0 ≤ B := (abs_nonneg _).trans (hB 0 (fun _ _ => 0) 0 0)
  show |(momentumSgd (fun _ => η) β nes G p0 N).1 k i - (p0 k i - η / (1 - β) * ∑ j ∈ range N,
    G j (momentumSgd (fun _ => η) β nes G p0 j).1 k i)| ≤ _
  rw [e]
  set S := momentumSgd (fun _ => η) β nes G p0 with hS
  have h2 : p0 k i - η / (1 - β) * ∑ j ∈ range N, arrived β nes (N - j) * G j (S j).1 k i -
      (p0 k i - η / (1 - β) * ∑ j ∈ range N, G j (S j).1 k i) =
      η / (1 - β) * ∑ j ∈ range N, β ^ (if nes then N - j + 1 else N - j) * G j (S j).1 k i := by
    have : ∑ j ∈ range N, arrived β nes (N - j) * G j (S j).1 k i = ∑ j ∈ range N, G j (S j).1 k i -
        ∑ j ∈ range N, β ^ (if nes then N - j + 1 else N - j) * G j (S j).1 k i := by
      rw [← Finset.sum_sub_distrib]
      exact Finset.sum_congr rfl fun j _ => by unfold arrived; ring
    rw [this]; ring
  have h3 : |∑ j ∈ range N, β ^ (if nes then N - j + 1 else N - j) * G j (S j).1 k i| ≤ β * B / (1 - β) := by
    calc _ ≤ ∑ j ∈ range N, |β ^ (if nes then N - j + 1 else N - j) * G j (S j).1 k i| := Finset.abs_sum_le_sum_abs _ _
      _ ≤ ∑ j ∈ range N, β ^ (N - j) * B := by
          refine Finset.sum_le_sum fun j _ => ?_
          rw [abs_mul, abs_of_nonneg (pow_nonneg h0 _)]
          refine mul_le_mul ?_ (hB _ _ _ _) (abs_nonneg _) (pow_nonneg h0 _)
          exact pow_le_pow_of_le_one h0 h1.le (by split <;> omega)
      _ ≤ _ := by
          rw [← Finset.sum_mul]
          have h4 : ∀ N, (1 - β) * ∑ j ∈ range N, β ^ (N - j) = β * (1 - β ^ N) := by
            intro N
            induction N with
            | zero => simp
            | succ n ih =>
              have : ∑ j ∈ range (n + 1), β ^ (n + 1 - j) = β * ∑ j ∈ range n, β ^ (n - j) + β := by
                rw [Finset.sum_range_succ, Finset.mul_sum]
                congr 1
                · refine Finset.sum_congr rfl fun j hj => ?_
                  have := Finset.mem_range.mp hj
                  rw [show n + 1 - j = (n - j) + 1 by omega, pow_succ, mul_comm]
                · simp
              rw [this, mul_add, mul_left_comm, ih, pow_succ]; ring
          have h5 : ∑ j ∈ range N, β ^ (N - j) ≤ β / (1 - β) := by
            rw [le_div_iff₀ hb, mul_comm, h4 N]
            have := pow_nonneg h0 N
            nlinarith
          calc _ ≤ β / (1 - β) * B := mul_le_mul_of_nonneg_right h5 hB0
            _ = _ := by ring
  rw [h2, abs_mul, abs_of_nonneg (div_nonneg hη hb.le)]
  calc _ ≤ η / (1 - β) * (β * B / (1 - β)) := mul_le_mul_of_nonneg_left h3 (div_nonneg hη hb.le)
    _ = _ := by field_simp

/-- **C150 (a single gradient).** A gradient met once and followed by zero gradients moves the parameters in total by `-η/(1-β)` times itself
(in the limit of many steps), with or without Nesterov's variant. -/
theorem C150_single (η β : ℝ) (h0 : 0 ≤ β) (h1 : β < 1) (nes : Bool) (g p0 : ℕ → ℕ → ℝ)
    (grad : ℕ → Params ℝ → Params ℝ) (hg : ∀ n p, grad n (mk σ p) = mk σ (if n = 0 then g else fun _ _ => 0)) :
    ∃ P, P 0 = p0 ∧ Visits (sgd (.scalar η) (some β) nes) grad σ P ∧
      ∀ k i, Filter.Tendsto (fun N => P N k i) Filter.atTop (nhds (p0 k i - η / (1 - β) * g k i)) := by
  obtain ⟨P, q0, q1, q2, -⟩ := C150_effective_rate σ η β h1.ne nes grad
    (fun n _ => if n = 0 then g else fun _ _ => 0) hg p0
  refine ⟨P, q0, q1, fun k i => ?_⟩
  rw [← Filter.tendsto_add_atTop_iff_nat 1]
  have h2 : ∀ N, P (N + 1) k i = p0 k i - η / (1 - β) * ((1 - β ^ (if nes then N + 1 + 1 else N + 1)) * g k i) := by
    intro N
    rw [q2, Finset.sum_eq_single 0]
    · simp
    · intro j _ hj
      simp [hj]
    · simp
  simp only [h2]
  have h3 : Filter.Tendsto (fun N : ℕ => β ^ (if nes then N + 1 + 1 else N + 1)) Filter.atTop (nhds 0) := by
    cases nes with
    | false => exact (Filter.tendsto_add_atTop_iff_nat 1).mpr (tendsto_pow_atTop_nhds_zero_of_lt_one h0 h1)
    | true => exact (Filter.tendsto_add_atTop_iff_nat 2).mpr (tendsto_pow_atTop_nhds_zero_of_lt_one h0 h1)
  have h4 := ((h3.const_sub 1).mul_const (g k i)).const_mul (η / (1 - β)) |>.const_sub (p0 k i)
  simpa using h4

/-- the hypothesis of `C150_single` is met by a loss of slope 1 at the first step and 0 afterwards -/
example (n : ℕ) (p : ℕ → ℕ → ℝ) : (fun (n : ℕ) (t : Params ℝ) => tmap (fun _ => if n = 0 then (1 : ℝ) else 0) t) n (mk σ p) =
    mk σ (if n = 0 then (fun _ _ => 1) else fun _ _ => 0) := by
  simp only [tmap_mk]
  refine mk_congr fun k s hk i hi => ?_
  split <;> rfl

/-- e.g. `β = 0.9` multiplies the learning rate by ten -/
example (η : ℝ) : η / (1 - 9 / 10) = 10 * η := by ring

end Optax
