import Verif.Props.LinearModels
import Verif.Props.Accumulation

/-!
# C139: weight decay before the learning rate is L2 regularisation

`chain(add_decayed_weights(w), …)` trains on `loss + w/2 ‖p‖²`.  With sgd on a convex loss there is one minimiser, and training converges to it geometrically.
-/

set_option linter.unusedSectionVars false
set_option linter.unusedSimpArgs false

namespace Optax
open Finset Filter Topology Examples

/-- **C139 (equivalence).** In every arithmetic and for every transformation `t` that keeps structure and shapes: training with `chain(add_decayed_weights(w), t)` on gradients `G`
visits the same parameters as training with `t` on the gradients `G p + w p`. -/
theorem C139_is_l2 {α : Type} [Zero α] [One α] [Add α] [Sub α] [Mul α] [Div α] [Neg α] [JOps α] (w : α) (t : GT α) (ht : Preserves WithParams t) (σ : Spec)
    (grad grad' : ℕ → Params α → Params α) (G : ℕ → (ℕ → ℕ → α) → ℕ → ℕ → α) (hg : ∀ n p, grad n (mk σ p) = mk σ (G n p))
    (hg' : ∀ n p, grad' n (mk σ p) = mk σ (fun k i => G n p k i + w * p k i)) (p0 : ℕ → ℕ → α) :
    ∃ s0 s0', (chain [addDecayedWeights w, t]).init (mk σ p0) = .ok s0 ∧ t.init (mk σ p0) = .ok s0' ∧
      ∀ n, ∃ p s s', trainLoop (chain [addDecayedWeights w, t]) grad n s0 (mk σ p0) = .ok (mk σ p, s) ∧
        trainLoop t grad' n s0' (mk σ p0) = .ok (mk σ p, s') := by
  obtain ⟨I, h1, h2⟩ := ht σ
  obtain ⟨s0', hs0', hI⟩ := h1 p0
  refine ⟨some (⟨⟩, some (s0', (0 : ℕ))), s0', ?_, hs0', ?_⟩
  · show chainInit [addDecayedWeights w, t] (mk σ p0) = _
    simp only [chainInit, hs0', Res.ok_bind]; rfl
  suffices H : ∀ n, ∃ p s', trainLoop (chain [addDecayedWeights w, t]) grad n (some (⟨⟩, some (s0', (0 : ℕ)))) (mk σ p0) =
      .ok (mk σ p, some (⟨⟩, some (s', (0 : ℕ)))) ∧ trainLoop t grad' n s0' (mk σ p0) = .ok (mk σ p, s') ∧ I s' by
    intro n
    obtain ⟨p, s', h3, h4, _⟩ := H n
    exact ⟨p, _, s', h3, h4⟩
  intro n
  induction n with
  | zero => exact ⟨p0, s0', rfl, rfl, hI⟩
  | succ n ih =>
    obtain ⟨p, s', h3, h4, h5⟩ := ih
    obtain ⟨u, s'', h6, h7⟩ := h2 (fun k i => G n p k i + w * p k i) s' (some (mk σ p)) h5 ⟨p, rfl⟩
    refine ⟨fun k i => p k i + u k i, s'', ?_, ?_, h7⟩
    · refine trainLoop_succ _ grad n _ _ _ _ _ _ (mk σ u) h3 ?_ (C06_apply_updates σ p u)
      rw [hg]
      show (if ChainState.length [addDecayedWeights w, t] (some (⟨⟩, some (s', (0 : ℕ)))) ≠ 2 then valueError else
        chainLoop [addDecayedWeights w, t] (mk σ (G n p)) (some (⟨⟩, some (s', (0 : ℕ)))) (some (mk σ p))) = _
      rw [if_neg (by simp [ChainState.length])]
      simp only [chainLoop, tzip_mk, Res.ok_bind, Res.pure_eq, h6]
    · refine trainLoop_succ _ grad' n _ _ _ _ _ _ (mk σ u) h4 ?_ (C06_apply_updates σ p u)
      rw [hg']
      exact h6

variable (σ : Spec)

/-- **Specification.** the regularised loss -/
noncomputable def l2Objective (w : ℝ) (loss : Params ℝ → ℝ) (p : Params ℝ) : ℝ := loss p + w / 2 * globalNorm p ^ 2

theorem ridge_sandwich (w : ℝ) (p q : ℕ → ℕ → ℝ) :
    w / 2 * sqNorm σ q = w / 2 * sqNorm σ p + treeInner σ (fun k i => w * p k i) (fun k i => q k i - p k i) + w / 2 * sqDist σ q p := by
  unfold sqNorm sqDist treeInner
  rw [Finset.mul_sum, Finset.mul_sum, Finset.mul_sum, ← Finset.sum_add_distrib, ← Finset.sum_add_distrib]
  exact Finset.sum_congr rfl fun x _ => by ring

theorem inner_add (a b v : ℕ → ℕ → ℝ) : treeInner σ (fun k i => a k i + b k i) v = treeInner σ a v + treeInner σ b v := by
  unfold treeInner
  rw [← Finset.sum_add_distrib]
  exact Finset.sum_congr rfl fun x _ => by ring

theorem ridge_smooth {L w : ℝ} {loss : Params ℝ → ℝ} {G : (ℕ → ℕ → ℝ) → ℕ → ℕ → ℝ} (h : Smooth σ L loss G) :
    Smooth σ (L + w) (l2Objective w loss) (fun p k i => G p k i + w * p k i) := fun p q => by
  have h1 := h p q
  have h2 := ridge_sandwich σ w p q
  unfold l2Objective
  rw [inner_add, ← sqNorm_eq, ← sqNorm_eq]
  linarith

theorem ridge_convex {w : ℝ} {loss : Params ℝ → ℝ} {G : (ℕ → ℕ → ℝ) → ℕ → ℕ → ℝ} (h : StronglyConvex σ 0 loss G) :
    StronglyConvex σ w (l2Objective w loss) (fun p k i => G p k i + w * p k i) := fun p q => by
  have h1 := h p q
  have h2 := ridge_sandwich σ w p q
  unfold l2Objective
  rw [inner_add, ← sqNorm_eq, ← sqNorm_eq]
  linarith

theorem sqDist_comm' (a b : ℕ → ℕ → ℝ) : sqDist σ a b = sqDist σ b a := by
  unfold sqDist; exact Finset.sum_congr rfl fun x _ => by ring

/-- a strongly convex smooth loss has a minimiser, and gradient descent converges to it -/
theorem exists_minimiser {L μ η : ℝ} {loss : Params ℝ → ℝ} {g : (ℕ → ℕ → ℝ) → ℕ → ℕ → ℝ} (hs : Smooth σ L loss g)
    (hc : StronglyConvex σ μ loss g) (hη : 0 < η) (hμ : 0 < μ) (hL : L * η ≤ 1) (hμ1 : η * μ ≤ 1) :
    ∃ q : ℕ → ℕ → ℝ, ∀ r : ℕ → ℕ → ℝ, loss (mk σ q) + μ / 2 * sqDist σ q r ≤ loss (mk σ r) := by
  set P := plainSgd (LR.at (.scalar η)) (fun _ => g) (fun _ _ => 0) with hP
  have hstep : ∀ n, P (n + 1) = fun k i => P n k i - η * g (P n) k i := fun n => rfl
  set ρ := 1 - η * μ with hρ
  have hρ0 : 0 ≤ ρ := by linarith
  have hρ1 : ρ < 1 := by have := mul_pos hη hμ; linarith
  have step : ∀ n r, sqDist σ (P (n + 1)) r ≤ ρ * sqDist σ (P n) r - 2 * η * (loss (mk σ (P (n + 1))) - loss (mk σ r)) := fun n r => by
    have := convex_step σ hs hc (P n) r η hη.le hL
    rwa [← hstep] at this
  have dec : ∀ n, loss (mk σ (P (n + 1))) ≤ loss (mk σ (P n)) := fun n => by
    have h1 := descent_step σ hs (P n) η
    rw [← hstep] at h1
    have h2 := sqNorm_nonneg σ (g (P n))
    have h3 : 0 ≤ η * (1 - L * η / 2) := mul_nonneg hη.le (by linarith)
    have := mul_nonneg h3 h2
    linarith
  have anti : Antitone (fun n => loss (mk σ (P n))) := antitone_nat_of_succ_le dec
  -- contraction towards later iterates
  have contr : ∀ n m, sqDist σ (P n) (P (n + m)) ≤ ρ ^ n * sqDist σ (P 0) (P (n + m)) := by
    intro n
    induction n with
    | zero => intro m; simp
    | succ n ih =>
      intro m
      have h1 := step n (P (n + 1 + m))
      have h2 := anti (show n + 1 ≤ n + 1 + m by omega)
      have h3 := ih (m + 1)
      rw [show n + (m + 1) = n + 1 + m by ring] at h3
      have h4 := mul_le_mul_of_nonneg_left h3 hρ0
      have h5 : 0 ≤ 2 * η * (loss (mk σ (P (n + 1))) - loss (mk σ (P (n + 1 + m)))) := mul_nonneg (by linarith) (by simp only at h2; linarith)
      rw [pow_succ]
      linarith
  -- the iterates are bounded
  have bdd : ∃ C, ∀ n, sqDist σ (P 0) (P n) ≤ C := by
    refine ⟨4 * sqNorm σ (g (P 0)) / μ ^ 2, fun n => ?_⟩
    have h1 := hc (P 0) (P n)
    have h2 := anti (Nat.zero_le n)
    simp only at h2
    have h3 : -treeInner σ (g (P 0)) (fun k i => P n k i - P 0 k i) ≤ sqNorm σ (g (P 0)) / μ + μ / 4 * sqDist σ (P n) (P 0) := by
      unfold treeInner sqNorm sqDist
      rw [Finset.sum_div, Finset.mul_sum, ← Finset.sum_neg_distrib, ← Finset.sum_add_distrib]
      refine Finset.sum_le_sum fun x _ => ?_
      have := sq_nonneg (g (P 0) x.1 x.2 / μ + (P n x.1 x.2 - P 0 x.1 x.2) / 2)
      have e : μ * (g (P 0) x.1 x.2 / μ + (P n x.1 x.2 - P 0 x.1 x.2) / 2) ^ 2 =
        g (P 0) x.1 x.2 ^ 2 / μ + g (P 0) x.1 x.2 * (P n x.1 x.2 - P 0 x.1 x.2) + μ / 4 * (P n x.1 x.2 - P 0 x.1 x.2) ^ 2 := by
        field_simp; ring
      have := mul_nonneg hμ.le this
      linarith
    rw [sqDist_comm' σ (P 0), le_div_iff₀ (by positivity)]
    have h4 : μ / 4 * sqDist σ (P n) (P 0) ≤ sqNorm σ (g (P 0)) / μ := by linarith
    rw [le_div_iff₀ hμ] at h4
    nlinarith
  obtain ⟨C, hC⟩ := bdd
  have hC0 : 0 ≤ C := (sqDist_nonneg σ _ _).trans (hC 0)
  have cauchy : ∀ x ∈ idx σ, CauchySeq (fun n => P n x.1 x.2) := by
    intro x hx
    refine cauchySeq_of_le_tendsto_0 (fun n => 2 * Real.sqrt (ρ ^ n * C)) ?_ ?_
    · have half : ∀ N n, N ≤ n → |P N x.1 x.2 - P n x.1 x.2| ≤ Real.sqrt (ρ ^ N * C) := by
        intro N n hn
        obtain ⟨m, rfl⟩ := Nat.exists_eq_add_of_le hn
        refine Real.abs_le_sqrt ?_
        have h1 : (P N x.1 x.2 - P (N + m) x.1 x.2) ^ 2 ≤ sqDist σ (P N) (P (N + m)) := by
          unfold sqDist
          exact Finset.single_le_sum (f := fun y => (P N y.1 y.2 - P (N + m) y.1 y.2) ^ 2) (fun _ _ => sq_nonneg _) hx
        exact h1.trans ((contr N m).trans (mul_le_mul_of_nonneg_left (hC _) (pow_nonneg hρ0 N)))
      intro n m N hn hm
      rw [Real.dist_eq]
      have := abs_sub_le (P n x.1 x.2) (P N x.1 x.2) (P m x.1 x.2)
      have h1 := half N n hn
      have h2 := half N m hm
      rw [abs_sub_comm] at h1
      linarith
    · have h1 := (tendsto_pow_atTop_nhds_zero_of_lt_one hρ0 hρ1).mul_const C
      rw [zero_mul] at h1
      have h2 := (Real.continuous_sqrt.tendsto 0).comp h1
      rw [Real.sqrt_zero] at h2
      have h3 := h2.const_mul 2
      rw [mul_zero] at h3
      exact h3
  have lim : ∀ x : (_ : ℕ) × ℕ, ∃ l, x ∈ idx σ → Tendsto (fun n => P n x.1 x.2) atTop (𝓝 l) := fun x => by
    by_cases hx : x ∈ idx σ
    · obtain ⟨l, hl⟩ := cauchySeq_tendsto_of_complete (cauchy x hx)
      exact ⟨l, fun _ => hl⟩
    · exact ⟨0, fun h => absurd h hx⟩
  choose l hl using lim
  have hdist : ∀ r, Tendsto (fun n => sqDist σ (P n) r) atTop (𝓝 (sqDist σ (fun k i => l ⟨k, i⟩) r)) := fun r => by
    unfold sqDist
    exact tendsto_finsetSum _ fun x hx => ((hl x hx).sub_const _).pow 2
  refine ⟨fun k i => l ⟨k, i⟩, fun r => ?_⟩
  set q : ℕ → ℕ → ℝ := fun k i => l ⟨k, i⟩ with hq
  -- lower bound of the losses by the tangent at the limit
  have hin : Tendsto (fun n => treeInner σ (g q) (fun k i => P n k i - q k i)) atTop (𝓝 0) := by
    have : Tendsto (fun n => treeInner σ (g q) (fun k i => P n k i - q k i)) atTop (𝓝 (∑ x ∈ idx σ, g q x.1 x.2 * (l x - q x.1 x.2))) := by
      unfold treeInner
      exact tendsto_finsetSum _ fun x hx => ((hl x hx).sub_const _).const_mul _
    simpa [hq] using this
  have h1 : ∀ n, loss (mk σ q) + treeInner σ (g q) (fun k i => P (n + 1) k i - q k i) ≤
      loss (mk σ r) + (ρ * sqDist σ (P n) r - sqDist σ (P (n + 1)) r) / (2 * η) := fun n => by
    have h2 := step n r
    have h3 := hc q (P (n + 1))
    have h4 : 0 ≤ μ / 2 * sqDist σ (P (n + 1)) q := mul_nonneg (by linarith) (sqDist_nonneg σ _ _)
    have h5 : loss (mk σ (P (n + 1))) - loss (mk σ r) ≤ (ρ * sqDist σ (P n) r - sqDist σ (P (n + 1)) r) / (2 * η) := by
      rw [le_div_iff₀ (by linarith)]; linarith
    linarith
  have lhs : Tendsto (fun n => loss (mk σ q) + treeInner σ (g q) (fun k i => P (n + 1) k i - q k i)) atTop (𝓝 (loss (mk σ q) + 0)) :=
    (hin.comp (tendsto_add_atTop_nat 1)).const_add _
  have rhs : Tendsto (fun n => loss (mk σ r) + (ρ * sqDist σ (P n) r - sqDist σ (P (n + 1)) r) / (2 * η)) atTop
      (𝓝 (loss (mk σ r) + (ρ * sqDist σ q r - sqDist σ q r) / (2 * η))) :=
    ((((hdist r).const_mul ρ).sub ((hdist r).comp (tendsto_add_atTop_nat 1))).div_const _).const_add _
  have h6 := le_of_tendsto_of_tendsto' lhs rhs h1
  have e : (ρ * sqDist σ q r - sqDist σ q r) / (2 * η) = -(μ / 2 * sqDist σ q r) := by
    rw [hρ]; field_simp; ring
  rw [e] at h6
  linarith

/-- **C139 (convergence).** On a convex `L`-smooth loss, `chain(add_decayed_weights(w), sgd(η))` with `w > 0` and `η (L + w) ≤ 1` converges to the one minimiser `q` of
`loss + w/2 ‖p‖²`, from every start and at the rate `(1 - η w)^n`. -/
theorem C139_ridge (η : ℝ) (nes : Bool) (L w : ℝ) (hη : 0 < η) (hw : 0 < w) (hL0 : 0 ≤ L) (hL : η * (L + w) ≤ 1) (loss : Params ℝ → ℝ)
    (grad : ℕ → Params ℝ → Params ℝ) (G : (ℕ → ℕ → ℝ) → ℕ → ℕ → ℝ) (hg : ∀ n p, grad n (mk σ p) = mk σ (G p))
    (hs : Smooth σ L loss G) (hc : StronglyConvex σ 0 loss G) :
    ∃ q : ℕ → ℕ → ℝ, (∀ r : ℕ → ℕ → ℝ, l2Objective w loss (mk σ q) + w / 2 * treeDist σ q r ^ 2 ≤ l2Objective w loss (mk σ r)) ∧
      ∀ p0 : ℕ → ℕ → ℝ, ∃ P, P 0 = p0 ∧ Visits (chain [addDecayedWeights w, sgd (.scalar η) none nes]) grad σ P ∧
        ∀ N : ℕ, treeDist σ (P N) q ^ 2 ≤ (1 - η * w) ^ N * treeDist σ p0 q ^ 2 := by
  have hS := ridge_smooth σ (w := w) hs
  have hC := ridge_convex σ (w := w) hc
  have hηL := mul_nonneg hη.le hL0
  have hw1 : η * w ≤ 1 := by linarith
  obtain ⟨q, hq⟩ := exists_minimiser σ hS hC hη hw (by linarith) hw1
  refine ⟨q, fun r => by rw [← sqDist_eq]; exact hq r, fun p0 => ?_⟩
  set G' : (ℕ → ℕ → ℝ) → ℕ → ℕ → ℝ := fun p k i => G p k i + w * p k i with hG'
  let grad' : ℕ → Params ℝ → Params ℝ := fun n t => mk σ (fun k i => coord (grad n t) k i + w * coord t k i)
  have hg' : ∀ n p, grad' n (mk σ p) = mk σ (G' p) := fun n p => by
    show mk σ (fun k i => coord (grad n (mk σ p)) k i + w * coord (mk σ p) k i) = _
    rw [hg]
    refine mk_congr fun k s h1 i h2 => ?_
    rw [coord_mk _ _ _ _ s h1 h2, coord_mk _ _ _ _ s h1 h2]
  set P := plainSgd (LR.at (.scalar η)) (fun _ => G') p0 with hP
  have hstep : ∀ n, P (n + 1) = fun k i => P n k i - η * G' (P n) k i := fun n => rfl
  refine ⟨P, rfl, ?_, ?_⟩
  · obtain ⟨s1, h1, h2⟩ := sgd_visits σ (.scalar η) nes grad' (fun _ => G') hg' p0
    obtain ⟨s0, s0', h3, h4, h5⟩ := C139_is_l2 w (sgd (.scalar η) none nes) (preserves_sgd_any _ _ _).any σ grad grad' (fun _ => G) hg hg' p0
    refine ⟨s0, h3, fun n => ?_⟩
    obtain ⟨p, s, s', h6, h7⟩ := h5 n
    obtain ⟨s'', h8⟩ := h2 n
    have e : s1 = s0' := Except.ok.inj (h1.symm.trans h4)
    subst e
    have e2 := Except.ok.inj (h8.symm.trans h7)
    refine ⟨s, ?_⟩
    rw [show mk σ (P n) = mk σ p from congrArg Prod.fst e2]
    exact h6
  · intro N
    rw [← sqDist_eq, ← sqDist_eq]
    induction N with
    | zero => simp [hP, plainSgd]
    | succ N ih =>
      have h1 := convex_step σ hS hC (P N) q η hη.le (by linarith)
      rw [← hstep] at h1
      have h2 := hq (P (N + 1))
      have h5 := mul_nonneg (by linarith : 0 ≤ w / 2) (sqDist_nonneg σ q (P (N + 1)))
      have h3 : 0 ≤ 2 * η * (l2Objective w loss (mk σ (P (N + 1))) - l2Objective w loss (mk σ q)) := by
        apply mul_nonneg <;> linarith
      have h4 := mul_le_mul_of_nonneg_left ih (show 0 ≤ 1 - η * w by linarith)
      rw [pow_succ']
      linarith

/-- **C139 (regularised logistic regression).** Logits affine in the parameters, the mean of `sigmoid_binary_cross_entropy` over `M` examples with any labels, `w > 0`
and `η (mean ‖φᵣ‖²/4 + w) ≤ 1`: training converges geometrically to the one minimiser of the regularised loss, also on separable data. -/
theorem C139_logistic (M : ℕ) (hM : 0 < M) (c : ℕ → ℝ) (φ : ℕ → ℕ → ℕ → ℝ) (y : ℕ → ℝ) (loss : Params ℝ → ℝ)
    (hloss : ∀ p, ∃ T, sigmoidBCE (Tensor.tens [M] (fun r => c r + ∑ x ∈ idx σ, φ r x.1 x.2 * p x.1 x.2)) (Tensor.tens [M] y) = .ok T ∧ loss (mk σ p) = meanAll T)
    (grad : ℕ → Params ℝ → Params ℝ) (G : (ℕ → ℕ → ℝ) → ℕ → ℕ → ℝ) (hgrad : ∀ n p, grad n (mk σ p) = mk σ (G p)) (hG : IsGradient σ loss G)
    (η w : ℝ) (nes : Bool) (hη : 0 < η) (hw : 0 < w) (hL : η * ((∑ r ∈ range M, sqNorm σ (φ r)) + 4 * M * w) ≤ 4 * M) :
    ∃ q : ℕ → ℕ → ℝ, (∀ r : ℕ → ℕ → ℝ, l2Objective w loss (mk σ q) + w / 2 * treeDist σ q r ^ 2 ≤ l2Objective w loss (mk σ r)) ∧
      ∀ p0 : ℕ → ℕ → ℝ, ∃ P, P 0 = p0 ∧ Visits (chain [addDecayedWeights w, sgd (.scalar η) none nes]) grad σ P ∧
        ∀ N : ℕ, treeDist σ (P N) q ^ 2 ≤ (1 - η * w) ^ N * treeDist σ p0 q ^ 2 := by
  obtain ⟨hS, hC⟩ := logistic_convex σ M c φ y loss hloss G hG
  have hM' : (0 : ℝ) < M := Nat.cast_pos.2 hM
  refine C139_ridge σ η nes _ w hη hw (div_nonneg (Finset.sum_nonneg fun r _ => mul_nonneg (by norm_num) (sqNorm_nonneg σ _)) hM'.le) ?_ loss grad G hgrad hS hC
  rw [← Finset.mul_sum, div_add' _ _ _ hM'.ne', mul_div_assoc', div_le_one hM']
  linarith

/-- **C139 (regularised softmax regression).** The same for the mean of `softmax_cross_entropy`. -/
theorem C139_softmax (M K : ℕ) (hM : 0 < M) (hK : 0 < K) (c : ℕ → ℕ → ℝ) (φ : ℕ → ℕ → ℕ → ℕ → ℝ) (y : ℕ → ℕ → ℝ) (hy : ∀ r < M, 0 ≤ ∑ j ∈ range K, y r j)
    (B : ℕ → ℝ) (hB0 : ∀ r < M, 0 ≤ B r) (hB : ∀ r < M, ∀ v : ℕ → ℕ → ℝ, ∑ j ∈ range K, (∑ x ∈ idx σ, φ r j x.1 x.2 * v x.1 x.2) ^ 2 ≤ B r * sqNorm σ v)
    (loss : Params ℝ → ℝ)
    (hloss : ∀ p, ∃ T, softmaxCE (rowsT [M] K (fun r j => c r j + ∑ x ∈ idx σ, φ r j x.1 x.2 * p x.1 x.2)) (rowsT [M] K y) = .ok T ∧ loss (mk σ p) = meanAll T)
    (grad : ℕ → Params ℝ → Params ℝ) (G : (ℕ → ℕ → ℝ) → ℕ → ℕ → ℝ) (hgrad : ∀ n p, grad n (mk σ p) = mk σ (G p)) (hG : IsGradient σ loss G)
    (η w : ℝ) (nes : Bool) (hη : 0 < η) (hw : 0 < w) (hL : η * ((∑ r ∈ range M, (∑ j ∈ range K, y r j) * B r) + 2 * M * w) ≤ 2 * M) :
    ∃ q : ℕ → ℕ → ℝ, (∀ r : ℕ → ℕ → ℝ, l2Objective w loss (mk σ q) + w / 2 * treeDist σ q r ^ 2 ≤ l2Objective w loss (mk σ r)) ∧
      ∀ p0 : ℕ → ℕ → ℝ, ∃ P, P 0 = p0 ∧ Visits (chain [addDecayedWeights w, sgd (.scalar η) none nes]) grad σ P ∧
        ∀ N : ℕ, treeDist σ (P N) q ^ 2 ≤ (1 - η * w) ^ N * treeDist σ p0 q ^ 2 := by
  obtain ⟨hS, hC⟩ := softmax_convex σ M K hK c φ y hy B hB loss hloss G hG
  have hM' : (0 : ℝ) < M := Nat.cast_pos.2 hM
  refine C139_ridge σ η nes _ w hη hw (div_nonneg (Finset.sum_nonneg fun r hr => mul_nonneg (div_nonneg (hy r (mem_range.1 hr)) (by norm_num)) (hB0 r (mem_range.1 hr))) hM'.le) ?_ loss grad G hgrad hS hC
  have e : ∑ r ∈ range M, (∑ j ∈ range K, y r j) / 2 * B r = 1 / 2 * ∑ r ∈ range M, (∑ j ∈ range K, y r j) * B r := by
    rw [Finset.mul_sum]; exact Finset.sum_congr rfl fun r _ => by ring
  rw [e, div_add' _ _ _ hM'.ne', mul_div_assoc', div_le_one hM']
  linarith

/-- **C139 (ridge regression).** The same for the mean of `l2_loss` (`hub = none`) or `huber_loss`. -/
theorem C139_regression (M : ℕ) (hM : 0 < M) (hub : Option ℝ) (hhub : ∀ d, hub = some d → 0 < d) (c : ℕ → ℝ) (φ : ℕ → ℕ → ℕ → ℝ) (t : ℕ → ℝ)
    (loss : Params ℝ → ℝ)
    (hloss : ∀ p, ∃ T, (match hub with
        | none => l2Loss (Tensor.tens [M] (fun r => c r + ∑ x ∈ idx σ, φ r x.1 x.2 * p x.1 x.2)) (some (Tensor.tens [M] t))
        | some d => huberLoss (Tensor.tens [M] (fun r => c r + ∑ x ∈ idx σ, φ r x.1 x.2 * p x.1 x.2)) (some (Tensor.tens [M] t)) d) = .ok T ∧
      loss (mk σ p) = meanAll T)
    (grad : ℕ → Params ℝ → Params ℝ) (G : (ℕ → ℕ → ℝ) → ℕ → ℕ → ℝ) (hgrad : ∀ n p, grad n (mk σ p) = mk σ (G p)) (hG : IsGradient σ loss G)
    (η w : ℝ) (nes : Bool) (hη : 0 < η) (hw : 0 < w) (hL : η * ((∑ r ∈ range M, sqNorm σ (φ r)) + M * w) ≤ M) :
    ∃ q : ℕ → ℕ → ℝ, (∀ r : ℕ → ℕ → ℝ, l2Objective w loss (mk σ q) + w / 2 * treeDist σ q r ^ 2 ≤ l2Objective w loss (mk σ r)) ∧
      ∀ p0 : ℕ → ℕ → ℝ, ∃ P, P 0 = p0 ∧ Visits (chain [addDecayedWeights w, sgd (.scalar η) none nes]) grad σ P ∧
        ∀ N : ℕ, treeDist σ (P N) q ^ 2 ≤ (1 - η * w) ^ N * treeDist σ p0 q ^ 2 := by
  obtain ⟨hS, hC⟩ := regression_convex σ M hub hhub c φ t loss hloss G hG
  have hM' : (0 : ℝ) < M := Nat.cast_pos.2 hM
  refine C139_ridge σ η nes _ w hη hw (div_nonneg (Finset.sum_nonneg fun r _ => mul_nonneg (by norm_num) (sqNorm_nonneg σ _)) hM'.le) ?_ loss grad G hgrad hS hC
  simp only [one_mul]
  rw [div_add' _ _ _ hM'.ne', mul_div_assoc', div_le_one hM']
  linarith

/-- **C139 (why regularise).** Without decay (`w = 0`) on separable data with labels 0/1 the training loss tends to zero but the weights diverge: their global norm tends to infinity. -/
theorem C139_separable (M : ℕ) (c : ℕ → ℝ) (φ : ℕ → ℕ → ℕ → ℝ) (y : ℕ → ℝ) (loss : Params ℝ → ℝ)
    (hloss : ∀ p, ∃ T, sigmoidBCE (Tensor.tens [M] (fun r => c r + ∑ x ∈ idx σ, φ r x.1 x.2 * p x.1 x.2)) (Tensor.tens [M] y) = .ok T ∧ loss (mk σ p) = meanAll T)
    (grad : ℕ → Params ℝ → Params ℝ) (G : (ℕ → ℕ → ℝ) → ℕ → ℕ → ℝ) (hgrad : ∀ n p, grad n (mk σ p) = mk σ (G p)) (hG : IsGradient σ loss G)
    (η : ℝ) (nes : Bool) (hη : 0 < η) (hL : η * (∑ r ∈ range M, sqNorm σ (φ r)) ≤ 4 * M) (hM : 0 < M) (p0 : ℕ → ℕ → ℝ)
    (hy : ∀ r < M, c r = 0 ∧ (y r = 0 ∨ y r = 1))
    (hsep : ∃ (q : ℕ → ℕ → ℝ) (γ : ℝ), 0 < γ ∧ ∀ r < M, γ ≤ (2 * y r - 1) * ∑ x ∈ idx σ, φ r x.1 x.2 * q x.1 x.2) :
    ∃ P, P 0 = p0 ∧ Visits (sgd (.scalar η) none nes) grad σ P ∧ Tendsto (fun n => loss (mk σ (P n))) atTop (𝓝 0) ∧
      Tendsto (fun n => globalNorm (mk σ (P n))) atTop atTop := by
  obtain ⟨P, hP0, hV, _, hz⟩ := C134_logistic σ M c φ y loss hloss grad G hgrad hG η nes hη hL hM p0
  have hlim := hz hy hsep
  refine ⟨P, hP0, hV, hlim, ?_⟩
  have hM' : (0 : ℝ) < M := Nat.cast_pos.2 hM
  have hloss' : ∀ p, loss (mk σ p) = (∑ r ∈ range M, bernoulliCE (y r) (sigmoid (logit σ (fun r _ => c r) (fun r _ => φ r) p r 0))) / M := by
    intro p
    obtain ⟨T, h1, h2⟩ := hloss p
    rw [C58_sigmoid_bce] at h1
    rw [h2, ← Except.ok.inj h1, meanAll_tens]
    rfl
  have low : ∀ r < M, ∀ z : ℝ, Real.log (1 + Real.exp (-|z|)) ≤ bernoulliCE (y r) (sigmoid z) := by
    intro r hr z
    rw [bce_eq]
    rcases (hy r hr).2 with h | h <;> rw [h]
    · have := Real.log_le_log (x := 1 + Real.exp (-|z|)) (y := 1 + Real.exp z) (by positivity) (by
        have := Real.exp_le_exp.2 (neg_abs_le z); linarith)
      linarith
    · have e : Real.log (1 + Real.exp z) - 1 * z = Real.log (1 + Real.exp (-z)) := by
        have : 1 + Real.exp z = Real.exp z * (1 + Real.exp (-z)) := by
          rw [mul_add, ← Real.exp_add]; simp; ring
        rw [this, Real.log_mul (Real.exp_pos _).ne' (by positivity), Real.log_exp]
        ring
      rw [e]
      exact Real.log_le_log (by positivity) (by
        have := Real.exp_le_exp.2 (neg_le_neg (le_abs_self z)); linarith)
  have hpos : ∀ r < M, ∀ z : ℝ, 0 ≤ bernoulliCE (y r) (sigmoid z) := fun r hr z =>
    (Real.log_nonneg (by linarith [Real.exp_pos (-|z|)])).trans (low r hr z)
  rw [tendsto_atTop]
  intro R
  set A := Real.sqrt (sqNorm σ (φ 0)) * |R| with hA
  have hδ : 0 < Real.log (1 + Real.exp (-A)) / M := div_pos (Real.log_pos (by linarith [Real.exp_pos (-A)])) hM'
  filter_upwards [hlim.eventually (gt_mem_nhds hδ)] with n hn
  by_contra hcon
  push Not at hcon
  refine absurd hn (not_lt.2 ?_)
  rw [hloss', div_le_div_iff_of_pos_right hM']
  have hzle : |logit σ (fun r _ => c r) (fun r _ => φ r) (P n) 0 0| ≤ A := by
    unfold logit
    simp only [(hy 0 hM).1, zero_add]
    have h1 : |∑ x ∈ idx σ, φ 0 x.1 x.2 * P n x.1 x.2| ≤ Real.sqrt (sqNorm σ (φ 0) * sqNorm σ (P n)) :=
      Real.abs_le_sqrt (Finset.sum_mul_sq_le_sq_mul_sq _ _ _)
    rw [Real.sqrt_mul (sqNorm_nonneg σ _)] at h1
    refine h1.trans (mul_le_mul_of_nonneg_left ?_ (Real.sqrt_nonneg _))
    rw [sqNorm_eq, Real.sqrt_sq_eq_abs]
    exact abs_le_abs hcon.le (by
      have : 0 ≤ globalNorm (mk σ (P n)) := by rw [globalNorm_mk]; exact Real.sqrt_nonneg _
      linarith)
  calc Real.log (1 + Real.exp (-A)) ≤ Real.log (1 + Real.exp (-|logit σ (fun r _ => c r) (fun r _ => φ r) (P n) 0 0|)) :=
        Real.log_le_log (by positivity) (by have := Real.exp_le_exp.2 (neg_le_neg hzle); linarith)
    _ ≤ _ := low 0 hM _
    _ ≤ _ := Finset.single_le_sum (f := fun r => bernoulliCE (y r) (sigmoid (logit σ (fun r _ => c r) (fun r _ => φ r) (P n) r 0)))
        (fun r hr => hpos r (mem_range.1 hr) _) (mem_range.2 hM)

/-- Non-vacuity: for every data set the logistic loss and its gradient exist, and some learning rate meets the condition. -/
example (M : ℕ) (hM : 0 < M) (c : ℕ → ℝ) (φ : ℕ → ℕ → ℕ → ℝ) (y : ℕ → ℝ) (w : ℝ) (hw : 0 < w) (nes : Bool) :
    ∃ (loss : Params ℝ → ℝ) (grad : ℕ → Params ℝ → Params ℝ) (η : ℝ) (q : ℕ → ℕ → ℝ), 0 < η ∧
      (∀ p, ∃ T, sigmoidBCE (Tensor.tens [M] (fun r => c r + ∑ x ∈ idx σ, φ r x.1 x.2 * p x.1 x.2)) (Tensor.tens [M] y) = .ok T ∧ loss (mk σ p) = meanAll T) ∧
      ∀ p0 : ℕ → ℕ → ℝ, ∃ P, P 0 = p0 ∧ Visits (chain [addDecayedWeights w, sgd (.scalar η) none nes]) grad σ P ∧
        ∀ N : ℕ, treeDist σ (P N) q ^ 2 ≤ (1 - η * w) ^ N * treeDist σ p0 q ^ 2 := by
  obtain ⟨loss, h1, h2⟩ := logistic_gradient σ M c φ y
  have hM' : (0 : ℝ) < M := Nat.cast_pos.2 hM
  have h0 : 0 ≤ ∑ r ∈ range M, sqNorm σ (φ r) := Finset.sum_nonneg fun r _ => sqNorm_nonneg σ _
  set D := (∑ r ∈ range M, sqNorm σ (φ r)) + 4 * M * w with hD
  have hD0 : 0 < D := by have := mul_pos hM' hw; linarith
  let g : (ℕ → ℕ → ℝ) → ℕ → ℕ → ℝ := fun p k i => (∑ r ∈ range M, (sigmoid (c r + ∑ x ∈ idx σ, φ r x.1 x.2 * p x.1 x.2) - y r) * φ r k i) / M
  have hg : ∀ (n : ℕ) p, mk σ (g (coord (mk σ p))) = mk σ (g p) := fun n p => by
    refine mk_congr fun k s _ i _ => ?_
    show (∑ r ∈ range M, (sigmoid (c r + ∑ x ∈ idx σ, φ r x.1 x.2 * coord (mk σ p) x.1 x.2) - y r) * φ r k i) / M = _
    have e : ∀ r, ∑ x ∈ idx σ, φ r x.1 x.2 * coord (mk σ p) x.1 x.2 = ∑ x ∈ idx σ, φ r x.1 x.2 * p x.1 x.2 := fun r =>
      Finset.sum_congr rfl fun x hx => by
        obtain ⟨s, h1, h2⟩ := mem_idx.1 hx
        rw [coord_mk _ _ _ _ s h1 h2]
    simp only [e]
    rfl
  obtain ⟨q, _, h3⟩ := C139_logistic σ M hM c φ y loss h1 (fun _ t => mk σ (g (coord t))) g (fun n p => hg n p) h2 (4 * M / D) w nes (by positivity) hw
    (le_of_eq (div_mul_cancel₀ _ hD0.ne'))
  exact ⟨loss, fun _ t => mk σ (g (coord t)), 4 * M / D, q, by positivity, h1, h3⟩

end Optax
