import Verif.Props.UnitChange
import Verif.Props.Regularized

/-!
# C155: weight decay against a scale-invariant loss: the equilibrium of the norm
-/

set_option linter.unusedSectionVars false
set_option linter.unusedSimpArgs false

namespace Optax
open Finset Filter Topology

section path
variable (σ : Spec) (lr : LR ℝ) (w : ℝ) (nes : Bool) {grad : ℕ → Params ℝ → Params ℝ} (p0 : ℕ → ℕ → ℝ)

/-- `chain(add_decayed_weights(w), sgd(lr))` visits the parameters of plain `sgd` on the gradients plus `w` times the parameters -/
theorem decayed_visits (G : ℕ → (ℕ → ℕ → ℝ) → ℕ → ℕ → ℝ) (hg : ∀ n p, grad n (mk σ p) = mk σ (G n p)) :
    Visits (chain [addDecayedWeights w, sgd lr none nes]) grad σ (plainSgd lr.at (fun n p k i => G n p k i + w * p k i) p0) := by
  set G' : ℕ → (ℕ → ℕ → ℝ) → ℕ → ℕ → ℝ := fun n p k i => G n p k i + w * p k i with hG'
  let grad' : ℕ → Params ℝ → Params ℝ := fun n t => mk σ (fun k i => coord (grad n t) k i + w * coord t k i)
  have hg' : ∀ n p, grad' n (mk σ p) = mk σ (G' n p) := fun n p => by
    show mk σ (fun k i => coord (grad n (mk σ p)) k i + w * coord (mk σ p) k i) = _
    rw [hg]
    refine mk_congr fun k s h1 i h2 => ?_
    rw [coord_mk _ _ _ _ s h1 h2, coord_mk _ _ _ _ s h1 h2]
  obtain ⟨s1, h1, h2⟩ := sgd_visits σ lr nes grad' G' hg' p0
  obtain ⟨s0, s0', h3, h4, h5⟩ := C139_is_l2 w (sgd lr none nes) (preserves_sgd_any _ _ _).any σ grad grad' G hg hg' p0
  refine ⟨s0, h3, fun n => ?_⟩
  obtain ⟨p, s, s', h6, h7⟩ := h5 n
  obtain ⟨s'', h8⟩ := h2 n
  have e : s1 = s0' := Except.ok.inj (h1.symm.trans h4)
  subst e
  have e2 := Except.ok.inj (h8.symm.trans h7)
  refine ⟨s, ?_⟩
  rw [show mk σ _ = mk σ p from congrArg Prod.fst e2]
  exact h6

/-- **C155 (the norm).** Train with `chain(add_decayed_weights(w), sgd(lr))` on scale-invariant losses, a new one in every step if you like. The gradients being orthogonal to the parameters,
in every step the squared norm is multiplied by `(1 - lr w)²` and the squared norm of `lr` times the gradient is added; the inner product of new and old parameters is `1 - lr w` times the old squared norm. -/
theorem C155_norm {loss : ℕ → Params ℝ → ℝ} {G : ℕ → (ℕ → ℕ → ℝ) → ℕ → ℕ → ℝ} (h : ∀ n, GradientOffZero σ (loss n) (G n))
    (hl : ∀ n, ScaleInvariant σ (loss n)) (hg : ∀ n p, grad n (mk σ p) = mk σ (G n p)) :
    ∃ P, P 0 = p0 ∧ Visits (chain [addDecayedWeights w, sgd lr none nes]) grad σ P ∧
      (∀ n, sqNorm σ (P (n + 1)) = (1 - lr.at n * w) ^ 2 * sqNorm σ (P n) + lr.at n ^ 2 * sqNorm σ (G n (P n))) ∧
      ∀ n, treeInner σ (P (n + 1)) (P n) = (1 - lr.at n * w) * sqNorm σ (P n) := by
  refine ⟨_, rfl, decayed_visits σ lr w nes p0 G hg, fun n => ?_, fun n => ?_⟩
  all_goals
    set P := plainSgd lr.at (fun n p k i => G n p k i + w * p k i) p0 with hP
    have hs : ∀ k i, P (n + 1) k i = P n k i - lr.at n * (G n (P n) k i + w * P n k i) := fun k i => rfl
    have ho := scale_invariant_orthogonal σ (h n) (hl n) (P n)
    unfold treeInner at ho
  · unfold sqNorm
    rw [Finset.mul_sum, Finset.mul_sum, ← Finset.sum_add_distrib, ← sub_eq_zero, ← Finset.sum_sub_distrib]
    have e : ∀ x : Σ _ : ℕ, ℕ, P (n + 1) x.1 x.2 ^ 2 - ((1 - lr.at n * w) ^ 2 * P n x.1 x.2 ^ 2 + lr.at n ^ 2 * G n (P n) x.1 x.2 ^ 2) =
        (-2 * lr.at n * (1 - lr.at n * w)) * (G n (P n) x.1 x.2 * P n x.1 x.2) := fun x => by
      rw [hs]; ring
    simp only [e]
    rw [← Finset.mul_sum, ho, mul_zero]
  · unfold treeInner sqNorm
    rw [Finset.mul_sum, ← sub_eq_zero, ← Finset.sum_sub_distrib]
    have e : ∀ x : Σ _ : ℕ, ℕ, P (n + 1) x.1 x.2 * P n x.1 x.2 - (1 - lr.at n * w) * P n x.1 x.2 ^ 2 =
        (-lr.at n) * (G n (P n) x.1 x.2 * P n x.1 x.2) := fun x => by
      rw [hs]; ring
    simp only [e]
    rw [← Finset.mul_sum, ho, mul_zero]

end path

/-! ## the scalar recursion -/

section scalar
variable {x : ℕ → ℝ} {c d : ℝ}

theorem equil_pos (hc0 : 0 < c) (hd : 0 ≤ d) (hx0 : 0 < x 0) (hx : ∀ n, x (n + 1) = c * x n + d / x n) (n : ℕ) : 0 < x n := by
  induction n with
  | zero => exact hx0
  | succ n ih => rw [hx]; have := mul_pos hc0 ih; have := div_nonneg hd ih.le; linarith

theorem amgm {c d y : ℝ} (hc : 0 ≤ c) (hd : 0 ≤ d) (hy : 0 < y) : 2 * √(c * d) ≤ c * y + d / y := by
  have h1 : √(c * d) ^ 2 = c * d := Real.sq_sqrt (mul_nonneg hc hd)
  have h2 : (c * y) * (d / y) = c * d := by field_simp
  have h3 : 0 ≤ c * y := mul_nonneg hc hy.le
  have h4 : 0 ≤ d / y := div_nonneg hd hy.le
  refine abs_le_of_sq_le_sq' ?_ (by linarith) |>.2
  nlinarith [sq_nonneg (c * y - d / y)]

/-- from the second step on the distance to the fixed point `√(d/(1-c))` shrinks by `max c (2/3)` -/
theorem equil_step (hc : 1 / 4 ≤ c) (hc1 : c < 1) (hd : 0 < d) (hx0 : 0 < x 0) (hx : ∀ n, x (n + 1) = c * x n + d / x n) (n : ℕ) :
    |x (n + 2) - √(d / (1 - c))| ≤ max c (2 / 3) * |x (n + 1) - √(d / (1 - c))| := by
  have hc0 : 0 < c := by linarith
  have hpos := equil_pos hc0 hd.le hx0 hx
  set X := √(d / (1 - c)) with hX
  have hXp : 0 < X := Real.sqrt_pos.2 (div_pos hd (by linarith))
  have hX2 : X ^ 2 * (1 - c) = d := by
    rw [hX, Real.sq_sqrt (div_nonneg hd.le (by linarith)), div_mul_cancel₀]; linarith
  set y := x (n + 1) with hy
  have hyp : 0 < y := hpos _
  have hlow : 2 * √(c * d) ≤ y := by rw [hy, hx]; exact amgm hc0.le hd.le (hpos n)
  have hlow2 : 4 * (c * d) ≤ y ^ 2 := by
    have h1 : √(c * d) ^ 2 = c * d := Real.sq_sqrt (mul_nonneg hc0.le hd.le)
    have h2 := Real.sqrt_nonneg (c * d)
    nlinarith
  have e : x (n + 2) - X = (c - (1 - c) * X / y) * (y - X) := by
    rw [hx (n + 1), ← hy]
    field_simp
    rw [← hX2]; ring
  rw [e, abs_mul]
  refine mul_le_mul_of_nonneg_right ?_ (abs_nonneg _)
  have h3 : 0 ≤ (1 - c) * X / y := div_nonneg (mul_nonneg (by linarith) hXp.le) hyp.le
  rw [abs_le]
  refine ⟨?_, le_max_of_le_left (by linarith)⟩
  have h4 : (1 - c) * X / y ≤ c + 2 / 3 := by
    rw [div_le_iff₀ hyp]
    refine abs_le_of_sq_le_sq' ?_ (by positivity) |>.2
    have h5 : ((1 - c) * X) ^ 2 = (1 - c) * d := by rw [← hX2]; ring
    have h6 : (1 - c) ≤ (c + 2 / 3) ^ 2 * (4 * c) := by nlinarith [mul_nonneg (sub_nonneg.2 hc) (sub_nonneg.2 hc), sq_nonneg c]
    have h7 := mul_le_mul_of_nonneg_left hlow2 (sq_nonneg (c + 2 / 3))
    have h8 := mul_le_mul_of_nonneg_right h6 hd.le
    rw [h5, mul_pow]
    linarith
  have h9 := le_max_right c (2 / 3)
  linarith

theorem equil_tendsto (hc : 1 / 4 ≤ c) (hc1 : c < 1) (hd : 0 < d) (hx0 : 0 < x 0) (hx : ∀ n, x (n + 1) = c * x n + d / x n) :
    (∀ n, |x (n + 1) - √(d / (1 - c))| ≤ max c (2 / 3) ^ n * |x 1 - √(d / (1 - c))|) ∧ Tendsto x atTop (𝓝 √(d / (1 - c))) := by
  have hρ0 : 0 ≤ max c (2 / 3) := le_max_of_le_right (by norm_num)
  have hρ1 : max c (2 / 3) < 1 := max_lt hc1 (by norm_num)
  have h : ∀ n, |x (n + 1) - √(d / (1 - c))| ≤ max c (2 / 3) ^ n * |x 1 - √(d / (1 - c))| := by
    intro n
    induction n with
    | zero => simp
    | succ n ih =>
      refine (equil_step hc hc1 hd hx0 hx n).trans ?_
      rw [pow_succ', mul_assoc]
      exact mul_le_mul_of_nonneg_left ih hρ0
  refine ⟨h, ?_⟩
  rw [← tendsto_add_atTop_iff_nat 1]
  rw [tendsto_iff_dist_tendsto_zero]
  have h3 := (tendsto_pow_atTop_nhds_zero_of_lt_one hρ0 hρ1).mul_const |x 1 - √(d / (1 - c))|
  rw [zero_mul] at h3
  refine squeeze_zero (fun n => dist_nonneg) (fun n => ?_) h3
  rw [Real.dist_eq]
  exact h n

end scalar

section main
variable (σ : Spec) (w : ℝ) (nes : Bool) {grad : ℕ → Params ℝ → Params ℝ} (p0 : ℕ → ℕ → ℝ)

/-- **C155 (two-sided bound).** Let the gradients met along the way have norm between `a/‖p‖` and `b/‖p‖` (by scale invariance a gradient at `p` is `1/‖p‖` times one at `p/‖p‖`).
Then, whatever the start `p0 ≠ 0`, the squared norm of the parameters is at least `2 (1 - lr w) lr a` from the first step on, for any schedule; and with a constant learning rate at most
`(1 - η w)^(2 n) ‖p₁‖² + η b²/(2 (1 - η w) a (1 - (1 - η w)²))` after `n` further steps. -/
theorem C155_bounds (lr : LR ℝ) {loss : ℕ → Params ℝ → ℝ} {G : ℕ → (ℕ → ℕ → ℝ) → ℕ → ℕ → ℝ} (h : ∀ n, GradientOffZero σ (loss n) (G n))
    (hl : ∀ n, ScaleInvariant σ (loss n)) (hg : ∀ n p, grad n (mk σ p) = mk σ (G n p)) (hp0 : 0 < sqNorm σ p0)
    (hlr : ∀ n, 0 < lr.at n ∧ lr.at n * w < 1) :
    ∃ P, P 0 = p0 ∧ Visits (chain [addDecayedWeights w, sgd lr none nes]) grad σ P ∧
      ∀ a b : ℝ, 0 < a → (∀ n, a ^ 2 ≤ sqNorm σ (G n (P n)) * sqNorm σ (P n) ∧ sqNorm σ (G n (P n)) * sqNorm σ (P n) ≤ b ^ 2) →
        (∀ n, 2 * (1 - lr.at n * w) * lr.at n * a ≤ sqNorm σ (P (n + 1))) ∧
        ∀ η, (∀ n, lr.at n = η) → 0 < w → ∀ n : ℕ, sqNorm σ (P (n + 1)) ≤
          (1 - η * w) ^ (2 * n) * sqNorm σ (P 1) + η * b ^ 2 / (2 * (1 - η * w) * a * (1 - (1 - η * w) ^ 2)) := by
  obtain ⟨P, h0, hv, hn, -⟩ := C155_norm σ lr w nes p0 h hl hg
  have hpos : ∀ n, 0 < sqNorm σ (P n) := by
    intro n
    induction n with
    | zero => rw [h0]; exact hp0
    | succ n ih =>
      rw [hn]
      have h1 := mul_pos (pow_pos (sub_pos.2 (hlr n).2) 2) ih
      have h2 := mul_nonneg (sq_nonneg (lr.at n)) (sqNorm_nonneg σ (G n (P n)))
      linarith
  refine ⟨P, h0, hv, fun a b ha hab => ?_⟩
  have hgn : ∀ n, a ^ 2 / sqNorm σ (P n) ≤ sqNorm σ (G n (P n)) ∧ sqNorm σ (G n (P n)) ≤ b ^ 2 / sqNorm σ (P n) := fun n =>
    ⟨(div_le_iff₀ (hpos n)).2 (hab n).1, (le_div_iff₀ (hpos n)).2 (hab n).2⟩
  have hlow : ∀ n, 2 * (1 - lr.at n * w) * lr.at n * a ≤ sqNorm σ (P (n + 1)) := by
    intro n
    have h1 := (hlr n).1
    have h2 := sub_pos.2 (hlr n).2
    have h3 := amgm (c := (1 - lr.at n * w) ^ 2) (d := (lr.at n * a) ^ 2) (sq_nonneg _) (sq_nonneg _) (hpos n)
    rw [← mul_pow, Real.sqrt_sq (by positivity)] at h3
    have h4 := mul_le_mul_of_nonneg_left (hgn n).1 (sq_nonneg (lr.at n))
    rw [hn]
    have e : (lr.at n * a) ^ 2 / sqNorm σ (P n) = lr.at n ^ 2 * (a ^ 2 / sqNorm σ (P n)) := by ring
    rw [e] at h3
    linarith
  refine ⟨hlow, fun η hη hw n => ?_⟩
  have hη0 : 0 < η := by rw [← hη 0]; exact (hlr 0).1
  have hq : 0 < 1 - η * w := by rw [← hη 0]; exact sub_pos.2 (hlr 0).2
  have hq1 : 0 < 1 - (1 - η * w) ^ 2 := by nlinarith [mul_pos hη0 hw]
  have hm : 0 < 2 * (1 - η * w) * η * a := by positivity
  set K := η * b ^ 2 / (2 * (1 - η * w) * a * (1 - (1 - η * w) ^ 2)) with hK
  have hK2 : K = (1 - η * w) ^ 2 * K + η ^ 2 * (b ^ 2 / (2 * (1 - η * w) * η * a)) := by
    rw [hK]; field_simp; ring
  induction n with
  | zero =>
    have : 0 ≤ K := by rw [hK]; positivity
    simpa using this
  | succ n ih =>
    have h1 : sqNorm σ (G (n + 1) (P (n + 1))) ≤ b ^ 2 / (2 * (1 - η * w) * η * a) := by
      refine (hgn (n + 1)).2.trans (div_le_div_of_nonneg_left (sq_nonneg b) hm ?_)
      have := hlow n
      rwa [hη n] at this
    rw [hn (n + 1), hη (n + 1), hK2, show 2 * (n + 1) = 2 + 2 * n by ring, pow_add]
    have h2 := mul_le_mul_of_nonneg_left h1 (sq_nonneg η)
    have h3 := mul_le_mul_of_nonneg_left ih (sq_nonneg (1 - η * w))
    linarith

/-- **C155 (equilibrium).** Constant learning rate `η` and decay `w` with `η w ≤ 1/2`, gradients of norm `a/‖p‖` along the way: the squared norm of the parameters converges to
`η a/√(1 - (1 - η w)²)`, geometrically and from every start `p0 ≠ 0`. In the limit the relative size of a step, `η ‖gradient‖/‖p‖`, is `√(1 - (1 - η w)²)` and the cosine of the angle between
successive parameters `1 - η w`: both depend on nothing but the product `η w`. -/
theorem C155_equilibrium (η : ℝ) {loss : ℕ → Params ℝ → ℝ} {G : ℕ → (ℕ → ℕ → ℝ) → ℕ → ℕ → ℝ} (h : ∀ n, GradientOffZero σ (loss n) (G n))
    (hl : ∀ n, ScaleInvariant σ (loss n)) (hg : ∀ n p, grad n (mk σ p) = mk σ (G n p)) (hp0 : 0 < sqNorm σ p0)
    (hη : 0 < η) (hw : 0 < w) (hηw : η * w ≤ 1 / 2) :
    ∃ P, P 0 = p0 ∧ Visits (chain [addDecayedWeights w, sgd (.scalar η) none nes]) grad σ P ∧
      ∀ a : ℝ, 0 < a → (∀ n, sqNorm σ (G n (P n)) * sqNorm σ (P n) = a ^ 2) →
        (∀ n, |sqNorm σ (P (n + 1)) - η * a / √(1 - (1 - η * w) ^ 2)| ≤
          max ((1 - η * w) ^ 2) (2 / 3) ^ n * |sqNorm σ (P 1) - η * a / √(1 - (1 - η * w) ^ 2)|) ∧
        Tendsto (fun n => sqNorm σ (P n)) atTop (𝓝 (η * a / √(1 - (1 - η * w) ^ 2))) ∧
        Tendsto (fun n => η * √(sqNorm σ (G n (P n))) / √(sqNorm σ (P n))) atTop (𝓝 √(1 - (1 - η * w) ^ 2)) ∧
        Tendsto (fun n => treeInner σ (P (n + 1)) (P n) / (√(sqNorm σ (P (n + 1))) * √(sqNorm σ (P n)))) atTop (𝓝 (1 - η * w)) := by
  obtain ⟨P, h0, hv, hn, hi⟩ := C155_norm σ (.scalar η) w nes p0 h hl hg
  refine ⟨P, h0, hv, fun a ha hab => ?_⟩
  simp only [LR.at] at hn hi
  have hηw0 := mul_pos hη hw
  have hq : 0 < 1 - η * w := by linarith
  set c := (1 - η * w) ^ 2 with hc
  have hc1 : c < 1 := by rw [hc]; nlinarith
  have hc4 : 1 / 4 ≤ c := by rw [hc]; nlinarith
  have hd : 0 < (η * a) ^ 2 := by positivity
  have hx0 : 0 < sqNorm σ (P 0) := by rw [h0]; exact hp0
  have hgx : ∀ n, 0 < sqNorm σ (P n) → sqNorm σ (G n (P n)) = a ^ 2 / sqNorm σ (P n) := fun n hp => by
    rw [eq_div_iff hp.ne']; exact hab n
  have hpos : ∀ n, 0 < sqNorm σ (P n) := by
    intro n
    induction n with
    | zero => exact hx0
    | succ n ih =>
      rw [hn]
      have h1 := mul_pos (pow_pos hq 2) ih
      have h2 := mul_nonneg (sq_nonneg η) (sqNorm_nonneg σ (G n (P n)))
      linarith
  have hx : ∀ n, sqNorm σ (P (n + 1)) = c * sqNorm σ (P n) + (η * a) ^ 2 / sqNorm σ (P n) := fun n => by
    rw [hn, hgx n (hpos n)]; ring
  have hX : √((η * a) ^ 2 / (1 - c)) = η * a / √(1 - c) := by
    rw [Real.sqrt_div (sq_nonneg _), Real.sqrt_sq (by positivity)]
  have h1 := equil_tendsto (x := fun n => sqNorm σ (P n)) hc4 hc1 hd hx0 hx
  rw [hX] at h1
  have hs : 0 < √(1 - c) := Real.sqrt_pos.2 (by linarith)
  have hXp : 0 < η * a / √(1 - c) := by positivity
  refine ⟨h1.1, h1.2, ?_, ?_⟩
  · have h2 : ∀ n, η * √(sqNorm σ (G n (P n))) / √(sqNorm σ (P n)) = η * a / sqNorm σ (P n) := fun n => by
      rw [hgx n (hpos n), Real.sqrt_div (sq_nonneg _), Real.sqrt_sq ha.le, ← mul_div_assoc, div_div, Real.mul_self_sqrt (hpos n).le]
    simp only [h2]
    have h3 := (tendsto_const_nhds (x := η * a)).div h1.2 hXp.ne'
    rwa [div_div_cancel₀ (by positivity)] at h3
  · have h2 : ∀ n, treeInner σ (P (n + 1)) (P n) / (√(sqNorm σ (P (n + 1))) * √(sqNorm σ (P n))) =
        (1 - η * w) * (√(sqNorm σ (P n)) / √(sqNorm σ (P (n + 1)))) := fun n => by
      have e1 := Real.sqrt_pos.2 (hpos n)
      have e2 := Real.sqrt_pos.2 (hpos (n + 1))
      rw [hi]
      nth_rewrite 1 [← Real.mul_self_sqrt (hpos n).le]
      field_simp
    simp only [h2]
    have h3 : Tendsto (fun n => √(sqNorm σ (P n))) atTop (𝓝 √(η * a / √(1 - c))) := (Real.continuous_sqrt.tendsto _).comp h1.2
    have h4 := (h3.div (h3.comp (tendsto_add_atTop_nat 1)) (Real.sqrt_pos.2 hXp).ne').const_mul (1 - η * w)
    rw [div_self (Real.sqrt_pos.2 hXp).ne', mul_one] at h4
    exact h4

/-! ## a concrete case -/

/-- successive parameters, each one the last, shrunk by `1 - η w` and turned by a step orthogonal to it -/
noncomputable def spiral (η w x0 : ℝ) : ℕ → ℝ × ℝ
  | 0 => (x0, 0)
  | n + 1 => let q := spiral η w x0 n
    (q.1 - η * (-q.2 / (q.1 ^ 2 + q.2 ^ 2) + w * q.1), q.2 - η * (q.1 / (q.1 ^ 2 + q.2 ^ 2) + w * q.2))

/-- the scale-invariant loss `⟨q', p⟩⟨q, p⟩/(‖q‖²‖p‖²)` on two parameters, `q'` being `q` turned by a right angle: at `p = q` its gradient is `q'/‖q‖²`, which has norm `1/‖q‖` -/
theorem turn_gradient (u v : ℝ) :
    ScaleInvariant (.leaf [2]) (fun t => (u * coord t 0 1 - v * coord t 0 0) * (u * coord t 0 0 + v * coord t 0 1) / ((u ^ 2 + v ^ 2) * (coord t 0 0 ^ 2 + coord t 0 1 ^ 2))) ∧
    GradientOffZero (.leaf [2]) (fun t => (u * coord t 0 1 - v * coord t 0 0) * (u * coord t 0 0 + v * coord t 0 1) / ((u ^ 2 + v ^ 2) * (coord t 0 0 ^ 2 + coord t 0 1 ^ 2))) (fun p _ i =>
      ((if i = 0 then -v * (u * p 0 0 + v * p 0 1) + (u * p 0 1 - v * p 0 0) * u else u * (u * p 0 0 + v * p 0 1) + (u * p 0 1 - v * p 0 0) * v) * (p 0 0 ^ 2 + p 0 1 ^ 2)
        - (u * p 0 1 - v * p 0 0) * (u * p 0 0 + v * p 0 1) * (2 * if i = 0 then p 0 0 else p 0 1)) / ((u ^ 2 + v ^ 2) * (p 0 0 ^ 2 + p 0 1 ^ 2) ^ 2)) := by
  have hidx : idx (.leaf [2]) = {⟨0, 0⟩, ⟨0, 1⟩} := by decide
  have hc0 : ∀ p : ℕ → ℕ → ℝ, coord (mk (.leaf [2]) p) 0 0 = p 0 0 := fun p => rfl
  have hc1 : ∀ p : ℕ → ℕ → ℝ, coord (mk (.leaf [2]) p) 0 1 = p 0 1 := fun p => rfl
  have hn : ∀ p : ℕ → ℕ → ℝ, sqNorm (.leaf [2]) p = p 0 0 ^ 2 + p 0 1 ^ 2 := fun p => by
    unfold sqNorm; rw [hidx]; simp
  have ht : ∀ u v : ℕ → ℕ → ℝ, treeInner (.leaf [2]) u v = u 0 0 * v 0 0 + u 0 1 * v 0 1 := fun u v => by
    unfold treeInner; rw [hidx]; simp
  refine ⟨fun c hc p => ?_, fun p hp d => ?_, fun p hp => ?_⟩
  · simp only [hc0, hc1]
    rw [show (u * (c * p 0 1) - v * (c * p 0 0)) * (u * (c * p 0 0) + v * (c * p 0 1)) = c ^ 2 * ((u * p 0 1 - v * p 0 0) * (u * p 0 0 + v * p 0 1)) by ring,
      show (u ^ 2 + v ^ 2) * ((c * p 0 0) ^ 2 + (c * p 0 1) ^ 2) = c ^ 2 * ((u ^ 2 + v ^ 2) * (p 0 0 ^ 2 + p 0 1 ^ 2)) by ring, mul_div_mul_left _ _ (pow_ne_zero 2 hc.ne')]
  · rw [hn] at hp
    simp only [hc0, hc1, ht]
    have hx : HasDerivAt (fun t : ℝ => p 0 0 + t * d 0 0) (d 0 0) 0 :=
      (((hasDerivAt_id (0 : ℝ)).mul_const (d 0 0)).const_add (p 0 0)).congr_deriv (by simp)
    have hy : HasDerivAt (fun t : ℝ => p 0 1 + t * d 0 1) (d 0 1) 0 :=
      (((hasDerivAt_id (0 : ℝ)).mul_const (d 0 1)).const_add (p 0 1)).congr_deriv (by simp)
    by_cases hs : u ^ 2 + v ^ 2 = 0
    · simp only [hs, zero_mul, div_zero, add_zero]
      exact hasDerivAt_const _ _
    have h := (((hy.const_mul u).sub (hx.const_mul v)).mul ((hx.const_mul u).add (hy.const_mul v))).div
      (((hx.pow 2).add (hy.pow 2)).const_mul (u ^ 2 + v ^ 2)) (by simpa using ⟨hs, hp⟩)
    refine h.congr_deriv ?_
    simp only [Pi.add_apply, Pi.sub_apply, Pi.mul_apply, Pi.pow_apply, zero_mul, add_zero, if_true, one_ne_zero, if_false]
    field_simp
    ring
  · rw [hn] at hp
    have h0 : p 0 0 = 0 := by nlinarith [sq_nonneg (p 0 0), sq_nonneg (p 0 1)]
    have h1 : p 0 1 = 0 := by nlinarith [sq_nonneg (p 0 0), sq_nonneg (p 0 1)]
    congr 1
    funext k i
    simp [h0, h1]

/-- the hypotheses of `C155_norm`, `C155_bounds` and `C155_equilibrium` are met, with `a = 1`, for every `η`, `w` with `0 < η w ≤ 1/2` and start `(x0, 0)`, `x0 ≠ 0`:
the squared norm converges to `η/√(1 - (1 - η w)²)` -/
example (η w x0 : ℝ) (hη : 0 < η) (hw : 0 < w) (hηw : η * w ≤ 1 / 2) (hx0 : x0 ≠ 0) :
    ∃ (loss : ℕ → Params ℝ → ℝ) (G : ℕ → (ℕ → ℕ → ℝ) → ℕ → ℕ → ℝ) (P : ℕ → ℕ → ℕ → ℝ), (∀ n, GradientOffZero (.leaf [2]) (loss n) (G n)) ∧ (∀ n, ScaleInvariant (.leaf [2]) (loss n)) ∧
      Visits (chain [addDecayedWeights w, sgd (.scalar η) none false]) (fun n t => mk (.leaf [2]) (G n (coord t))) (.leaf [2]) P ∧
      Tendsto (fun n => sqNorm (.leaf [2]) (P n)) atTop (𝓝 (η / √(1 - (1 - η * w) ^ 2))) := by
  have hidx : idx (.leaf [2]) = {⟨0, 0⟩, ⟨0, 1⟩} := by decide
  have hn : ∀ p : ℕ → ℕ → ℝ, sqNorm (.leaf [2]) p = p 0 0 ^ 2 + p 0 1 ^ 2 := fun p => by
    unfold sqNorm; rw [hidx]; simp
  set Q : ℕ → ℝ × ℝ := spiral η w x0 with hQ
  let loss : ℕ → Params ℝ → ℝ := fun n t => ((Q n).1 * coord t 0 1 - (Q n).2 * coord t 0 0) * ((Q n).1 * coord t 0 0 + (Q n).2 * coord t 0 1) /
    (((Q n).1 ^ 2 + (Q n).2 ^ 2) * (coord t 0 0 ^ 2 + coord t 0 1 ^ 2))
  let G : ℕ → (ℕ → ℕ → ℝ) → ℕ → ℕ → ℝ := fun n p _ i =>
    ((if i = 0 then -(Q n).2 * ((Q n).1 * p 0 0 + (Q n).2 * p 0 1) + ((Q n).1 * p 0 1 - (Q n).2 * p 0 0) * (Q n).1
        else (Q n).1 * ((Q n).1 * p 0 0 + (Q n).2 * p 0 1) + ((Q n).1 * p 0 1 - (Q n).2 * p 0 0) * (Q n).2) * (p 0 0 ^ 2 + p 0 1 ^ 2)
      - ((Q n).1 * p 0 1 - (Q n).2 * p 0 0) * ((Q n).1 * p 0 0 + (Q n).2 * p 0 1) * (2 * if i = 0 then p 0 0 else p 0 1)) / (((Q n).1 ^ 2 + (Q n).2 ^ 2) * (p 0 0 ^ 2 + p 0 1 ^ 2) ^ 2)
  have h : ∀ n, GradientOffZero (.leaf [2]) (loss n) (G n) := fun n => (turn_gradient (Q n).1 (Q n).2).2
  have hl : ∀ n, ScaleInvariant (.leaf [2]) (loss n) := fun n => (turn_gradient (Q n).1 (Q n).2).1
  have hg : ∀ n p, mk (.leaf [2]) (G n (coord (mk (.leaf [2]) p))) = mk (.leaf [2]) (G n p) := fun n p => rfl
  have hpos : ∀ n, 0 < (Q n).1 ^ 2 + (Q n).2 ^ 2 := by
    intro n
    induction n with
    | zero => simp only [hQ, spiral]; positivity
    | succ n ih =>
      have h1 : (Q (n + 1)).1 ^ 2 + (Q (n + 1)).2 ^ 2 = (1 - η * w) ^ 2 * ((Q n).1 ^ 2 + (Q n).2 ^ 2) + η ^ 2 / ((Q n).1 ^ 2 + (Q n).2 ^ 2) := by
        simp only [hQ, spiral]
        rw [← hQ]
        have := ih.ne'
        field_simp
        ring
      rw [h1]
      have : 0 < 1 - η * w := by linarith
      positivity
  have hG : ∀ (n : ℕ) (p : ℕ → ℕ → ℝ), p 0 0 = (Q n).1 → p 0 1 = (Q n).2 → ∀ k i,
      G n p k i = if i = 0 then -(Q n).2 / ((Q n).1 ^ 2 + (Q n).2 ^ 2) else (Q n).1 / ((Q n).1 ^ 2 + (Q n).2 ^ 2) := by
    intro n p h0 h1 k i
    have := (hpos n).ne'
    simp only [G, h0, h1]
    split_ifs <;> field_simp <;> ring
  clear_value G loss
  let p0 : ℕ → ℕ → ℝ := fun _ i => if i = 0 then x0 else 0
  have hp0 : 0 < sqNorm (.leaf [2]) p0 := by rw [hn]; simp only [p0, if_true, one_ne_zero, if_false]; positivity
  obtain ⟨P, hP0, hv, H⟩ := C155_equilibrium (.leaf [2]) w false (grad := fun n t => mk (.leaf [2]) (G n (coord t))) p0 η h hl hg hp0 hη hw hηw
  have hv' := decayed_visits (.leaf [2]) (.scalar η) w false (grad := fun n t => mk (.leaf [2]) (G n (coord t))) p0 G hg
  have hR : ∀ n : ℕ, plainSgd (LR.at (.scalar η)) (fun n p k i => G n p k i + w * p k i) p0 n = fun _ i => if i = 0 then (Q n).1 else (Q n).2 := by
    intro n
    induction n with
    | zero => rfl
    | succ n ih =>
      funext k i
      simp only [plainSgd, LR.at, ih]
      rw [hG n _ (by simp) (by simp)]
      simp only [hQ, spiral]
      split_ifs <;> rfl
  refine ⟨loss, G, P, h, hl, hv, ?_⟩
  have hc : ∀ n, P n 0 0 = (Q n).1 ∧ P n 0 1 = (Q n).2 := fun n => by
    have h1 := visits_unique (.leaf [2]) hv hv' (by rw [hP0]; rfl) n
    rw [hR] at h1
    exact ⟨by simpa using mk_inj h1 0 [2] rfl 0 (by simp), by simpa using mk_inj h1 0 [2] rfl 1 (by simp)⟩
  have h2 := (H 1 one_pos fun n => ?_).2.1
  · simpa using h2
  · rw [hn, hn, hG n _ (hc n).1 (hc n).2, hG n _ (hc n).1 (hc n).2, (hc n).1, (hc n).2]
    have := (hpos n).ne'
    simp only [if_true, one_ne_zero, if_false]
    field_simp
    ring

end main

end Optax
