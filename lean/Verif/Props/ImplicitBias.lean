import Verif.Props.StabilityEdge
import Verif.Props.Rotation

/-!
# C169: gradient descent stays in the span of the features

A model that is linear in its parameters has gradients that are combinations of the features of the examples.
-/

set_option linter.unusedSectionVars false
set_option linter.unusedSimpArgs false

namespace Optax
open Finset Filter Topology

variable (σ : Spec)

/-- `p` differs from `p0` by a combination of `φ 0, …, φ (R - 1)` -/
def InSpan (R : ℕ) (φ : ℕ → ℕ → ℕ → ℝ) (p0 p : ℕ → ℕ → ℝ) : Prop :=
  ∃ α : ℕ → ℝ, ∀ x ∈ idx σ, p x.1 x.2 = p0 x.1 x.2 + ∑ r ∈ range R, α r * φ r x.1 x.2

theorem InSpan.move {R : ℕ} {φ : ℕ → ℕ → ℕ → ℝ} {p0 p d : ℕ → ℕ → ℝ} (h : InSpan σ R φ p0 p) (a : ℝ) (hd : InSpan σ R φ (fun _ _ => 0) d) :
    InSpan σ R φ p0 (fun k i => p k i + a * d k i) := by
  obtain ⟨α, hα⟩ := h
  obtain ⟨β, hβ⟩ := hd
  refine ⟨fun r => α r + a * β r, fun x hx => ?_⟩
  simp only [hα x hx, hβ x hx, zero_add, add_mul, Finset.sum_add_distrib, mul_assoc, Finset.mul_sum, add_assoc]

/-- **C169 (span).** `sgd` with any learning rate or schedule, with or without (Nesterov) momentum, on gradients that are combinations of
`φ 0, …, φ (R - 1)`: at every step the parameters differ from the initial ones by such a combination. -/
theorem C169_span (lr : LR ℝ) (m : Option ℝ) (nes : Bool) (R : ℕ) (φ : ℕ → ℕ → ℕ → ℝ) (grad : ℕ → Params ℝ → Params ℝ)
    (G : ℕ → (ℕ → ℕ → ℝ) → ℕ → ℕ → ℝ) (hg : ∀ n p, grad n (mk σ p) = mk σ (G n p))
    (hG : ∀ n p, InSpan σ R φ (fun _ _ => 0) (G n p)) (p0 : ℕ → ℕ → ℝ) :
    ∃ P, P 0 = p0 ∧ Visits (sgd lr m nes) grad σ P ∧ ∀ n, InSpan σ R φ p0 (P n) := by
  have h0 : ∀ p : ℕ → ℕ → ℝ, InSpan σ R φ p p := fun p => ⟨fun _ => 0, fun x _ => by simp⟩
  cases m with
  | none =>
    refine ⟨plainSgd lr.at G p0, rfl, sgd_visits σ lr nes grad G hg p0, fun n => ?_⟩
    induction n with
    | zero => exact h0 p0
    | succ n ih =>
      have := ih.move σ (-lr.at n) (hG n (plainSgd lr.at G p0 n))
      simpa only [plainSgd, neg_mul, ← sub_eq_add_neg] using this
  | some β =>
    refine ⟨fun n => (momentumSgd lr.at β nes G p0 n).1, rfl, momentum_visits σ lr β nes grad G hg p0, fun n => ?_⟩
    suffices key : InSpan σ R φ p0 (momentumSgd lr.at β nes G p0 n).1 ∧ InSpan σ R φ (fun _ _ => 0) (momentumSgd lr.at β nes G p0 n).2 from key.1
    induction n with
    | zero => exact ⟨h0 p0, h0 _⟩
    | succ n ih =>
      have hv : InSpan σ R φ (fun _ _ => 0) (fun k i => β * (momentumSgd lr.at β nes G p0 n).2 k i + G n (momentumSgd lr.at β nes G p0 n).1 k i) := by
        have := (hG n (momentumSgd lr.at β nes G p0 n).1).move σ β ih.2
        simpa only [add_comm] using this
      refine ⟨?_, hv⟩
      cases nes
      · have := ih.1.move σ (-lr.at n) hv
        simpa only [momentumSgd, neg_mul, ← sub_eq_add_neg, Bool.false_eq_true, if_false] using this
      · have h2 := (hG n (momentumSgd lr.at β true G p0 n).1).move σ β hv
        have := ih.1.move σ (-lr.at n) h2
        simpa only [momentumSgd, neg_mul, ← sub_eq_add_neg, if_true] using this

/-- **C169 (implicit bias).** If moreover the parameters converge, to `q`, then `q` is the nearest to the initial parameters of all parameters `z`
with the same outputs `Σ φ_r z = Σ φ_r q` on all examples. -/
theorem C169_nearest (lr : LR ℝ) (m : Option ℝ) (nes : Bool) (R : ℕ) (φ : ℕ → ℕ → ℕ → ℝ) (grad : ℕ → Params ℝ → Params ℝ)
    (G : ℕ → (ℕ → ℕ → ℝ) → ℕ → ℕ → ℝ) (hg : ∀ n p, grad n (mk σ p) = mk σ (G n p))
    (hG : ∀ n p, InSpan σ R φ (fun _ _ => 0) (G n p)) (p0 : ℕ → ℕ → ℝ) :
    ∃ P, P 0 = p0 ∧ Visits (sgd lr m nes) grad σ P ∧
      ∀ q : ℕ → ℕ → ℝ, (∀ x ∈ idx σ, Tendsto (fun n => P n x.1 x.2) atTop (𝓝 (q x.1 x.2))) →
        ∀ z : ℕ → ℕ → ℝ, (∀ r < R, ∑ x ∈ idx σ, φ r x.1 x.2 * z x.1 x.2 = ∑ x ∈ idx σ, φ r x.1 x.2 * q x.1 x.2) →
          treeDist σ z p0 ^ 2 = treeDist σ z q ^ 2 + treeDist σ q p0 ^ 2 ∧ treeDist σ q p0 ≤ treeDist σ z p0 := by
  obtain ⟨P, hP0, hvP, hs⟩ := C169_span σ lr m nes R φ grad G hg hG p0
  refine ⟨P, hP0, hvP, fun q hq z hz => ?_⟩
  have ho : ∀ n, ∑ x ∈ idx σ, (z x.1 x.2 - q x.1 x.2) * (P n x.1 x.2 - p0 x.1 x.2) = 0 := by
    intro n
    obtain ⟨α, hα⟩ := hs n
    have e : ∑ x ∈ idx σ, (z x.1 x.2 - q x.1 x.2) * (P n x.1 x.2 - p0 x.1 x.2) =
        ∑ r ∈ range R, α r * (∑ x ∈ idx σ, φ r x.1 x.2 * z x.1 x.2 - ∑ x ∈ idx σ, φ r x.1 x.2 * q x.1 x.2) := by
      simp only [← Finset.sum_sub_distrib, Finset.mul_sum]
      rw [Finset.sum_comm]
      refine Finset.sum_congr rfl fun x hx => ?_
      rw [hα x hx, add_sub_cancel_left, Finset.mul_sum]
      exact Finset.sum_congr rfl fun r _ => by ring
    rw [e]
    refine Finset.sum_eq_zero fun r hr => ?_
    rw [hz r (Finset.mem_range.mp hr), sub_self, mul_zero]
  have hlim : Tendsto (fun n => ∑ x ∈ idx σ, (z x.1 x.2 - q x.1 x.2) * (P n x.1 x.2 - p0 x.1 x.2)) atTop
      (𝓝 (∑ x ∈ idx σ, (z x.1 x.2 - q x.1 x.2) * (q x.1 x.2 - p0 x.1 x.2))) :=
    tendsto_finsetSum _ fun x hx => ((hq x hx).sub_const _).const_mul _
  simp only [ho] at hlim
  have h0 : ∑ x ∈ idx σ, (z x.1 x.2 - q x.1 x.2) * (q x.1 x.2 - p0 x.1 x.2) = 0 := tendsto_nhds_unique hlim tendsto_const_nhds
  have hpy : treeDist σ z p0 ^ 2 = treeDist σ z q ^ 2 + treeDist σ q p0 ^ 2 := by
    rw [← sqDist_eq, ← sqDist_eq, ← sqDist_eq]
    unfold sqDist
    have : ∑ x ∈ idx σ, (z x.1 x.2 - p0 x.1 x.2) ^ 2 = ∑ x ∈ idx σ, ((z x.1 x.2 - q x.1 x.2) ^ 2 + (q x.1 x.2 - p0 x.1 x.2) ^ 2 +
        2 * ((z x.1 x.2 - q x.1 x.2) * (q x.1 x.2 - p0 x.1 x.2))) := Finset.sum_congr rfl fun x _ => by ring
    rw [this, Finset.sum_add_distrib, Finset.sum_add_distrib, ← Finset.mul_sum, h0]
    ring
  refine ⟨hpy, ?_⟩
  have a1 : 0 ≤ treeDist σ z p0 := by unfold treeDist; exact Real.sqrt_nonneg _
  exact le_of_sq_le_sq (by nlinarith [sq_nonneg (treeDist σ z q)]) a1

/-- **C169 (adam leaves the span).** With the single feature `(1, 2)` and that gradient, the first update of `scale_by_adam` is not a multiple of the
feature (it is `(1, 1)`). -/
theorem C169_adam_not : ∃ u : ℕ → ℕ → ℝ,
    (scaleByAdam (9 / 10) (999 / 1000) 0 0).outs (mk (.leaf [2]) (fun _ _ => 0))
      (hist (.leaf [2]) (fun _ _ i => (i : ℝ) + 1) (fun _ => none) 1) = .ok [mk (.leaf [2]) u] ∧
    ¬ InSpan (.leaf [2]) 1 (fun _ _ i => (i : ℝ) + 1) (fun _ _ => 0) u := by
  have k : ∀ c : ℝ, 0 < c → adamStep (9 / 10) (999 / 1000) 0 0 (fun _ => c) 0 = 1 := by
    intro c hc
    unfold adamStep
    have m : min (0 + 1) 2147483647 = 1 := by norm_num
    rw [m]
    have g1 : ∀ (d : ℝ) (x : ℕ → ℝ), geoSum d x (0 + 1) = x 0 := fun d x => geoSum_one d x
    simp only [g1]
    have e : (1 - 999 / 1000 : ℝ) * c ^ 2 / (1 - (999 / 1000) ^ 1) + 0 = c ^ 2 := by ring
    rw [e, Real.sqrt_sq hc.le]
    have hc' := hc.ne'
    field_simp
    norm_num
  refine ⟨fun _ i => adamStep (9 / 10) (999 / 1000) 0 0 (fun _ => (i : ℝ) + 1) 0, ?_, ?_⟩
  · rw [adam_outs_all]
    rfl
  · rintro ⟨α, hα⟩
    have e : idx (.leaf [2]) = {⟨0, 0⟩, ⟨0, 1⟩} := by decide
    have h0 := hα ⟨0, 0⟩ (by rw [e]; simp)
    have h1 := hα ⟨0, 1⟩ (by rw [e]; simp)
    simp only [Finset.sum_range_one] at h0 h1
    rw [k _ (by positivity)] at h0 h1
    norm_num at h0 h1
    linarith

/-- The hypotheses are met by the squared error of a linear model on two examples with three parameters: the gradient is
`Σ_r (φ_r · p - y_r) φ_r`. -/
example (y : ℕ → ℝ) : let φ : ℕ → ℕ → ℕ → ℝ := fun r _ i => if r = 0 then 1 else i
    ∀ n : ℕ, ∀ p : ℕ → ℕ → ℝ, InSpan (.leaf [3]) 2 φ (fun _ _ => 0)
      ((fun _ p k i => ∑ r ∈ range 2, (∑ x ∈ idx (.leaf [3]), φ r x.1 x.2 * p x.1 x.2 - y r) * φ r k i : ℕ → (ℕ → ℕ → ℝ) → ℕ → ℕ → ℝ) n p) := by
  intro φ n p
  exact ⟨fun r => ∑ x ∈ idx (.leaf [3]), φ r x.1 x.2 * p x.1 x.2 - y r, fun x _ => by simp only [zero_add]⟩

end Optax
