import Verif.Props.Lookahead
import Verif.Props.FloatSgd

/-!
# C114: training with `lookahead` over `sgd` converges linearly
-/

set_option linter.unusedSectionVars false

namespace Optax
variable (σ : Spec)

/-- state of plain `sgd` with a constant rate -/
theorem sgdR_init (lr : ℝ) (nes : Bool) (p : Params ℝ) :
    (sgd (.scalar lr) none nes).init p = .ok (some ((⟨⟩ : EmptyState), some ((⟨⟩ : EmptyState), (0 : ℕ)))) := rfl

theorem sgdR_update (lr : ℝ) (nes : Bool) (g : ℕ → ℕ → ℝ) (pp : Option (Params ℝ)) :
    (sgd (.scalar lr) none nes).update (mk σ g) (some ((⟨⟩ : EmptyState), some ((⟨⟩ : EmptyState), (0 : ℕ)))) pp =
      .ok (mk σ fun k i => -lr * g k i, some ((⟨⟩ : EmptyState), some ((⟨⟩ : EmptyState), (0 : ℕ)))) := by
  refine (chain_two_update identity (scale (-lr)) (mk σ g) ⟨⟩ ⟨⟩ pp).trans ?_
  have h1 : (identity (α := ℝ)).update (mk σ g) ⟨⟩ pp = .ok (mk σ g, ⟨⟩) := rfl
  rw [h1, Res.ok_bind, scale_update_mk, Res.ok_bind]
  rfl

theorem treeDist_nonneg (x q : ℕ → ℕ → ℝ) : 0 ≤ treeDist σ x q := by rw [treeDist_l2]; exact l2_nonneg _ _

/-- moving from `s` a fraction `a` of the way to `f` -/
theorem treeDist_blend (a : ℝ) (ha : 0 ≤ a) (ha1 : a ≤ 1) (s f q : ℕ → ℕ → ℝ) :
    treeDist σ (fun k i => s k i + a * (f k i - s k i)) q ≤ (1 - a) * treeDist σ s q + a * treeDist σ f q := by
  simp only [treeDist_l2]
  have e : ∀ x ∈ idx σ, s x.1 x.2 + a * (f x.1 x.2 - s x.1 x.2) - q x.1 x.2 =
      (1 - a) * (s x.1 x.2 - q x.1 x.2) + a * (f x.1 x.2 - q x.1 x.2) := fun x _ => by ring
  rw [l2_congr _ e]
  refine (l2_add_le _ _ _).trans ?_
  rw [l2_smul, l2_smul, abs_of_nonneg ha, abs_of_nonneg (by linarith)]

/-- **C114.** `lookahead(sgd(η), k, a)` with `0 ≤ a ≤ 1` on an `L`-smooth `μ`-strongly convex loss (gradients taken at the fast
parameters, `ηL ≤ 1`, `ημ ≤ 1`), started from synchronised parameters: with `ρ = √(1 - ημ)`, after `j` full periods and `r < k`
further steps the slow parameters are within `(1 - a + aρ^k)^j ‖p₀ - q‖` of the minimiser and the fast ones within `ρ^r` times
that. -/
theorem C114_lookahead_sgd (η : ℝ) (nes : Bool) (L μ : ℝ) (hη : 0 ≤ η) (hL : L * η ≤ 1) (hμ : η * μ ≤ 1) (k : ℕ) (hk : 1 ≤ k)
    (hk' : k < 2 ^ 31) (a : ℝ) (ha : 0 ≤ a) (ha1 : a ≤ 1)
    (loss : Params ℝ → ℝ) (grad : ℕ → Params ℝ → Params ℝ) (G : (ℕ → ℕ → ℝ) → ℕ → ℕ → ℝ)
    (hg : ∀ n f s, grad n (lookaheadParams (mk σ f) (mk σ s)) = mk σ (G f)) (hs : Smooth σ L loss G)
    (hc : StronglyConvex σ μ loss G) (p0 q : ℕ → ℕ → ℝ) (hq : ∀ t, loss (mk σ q) ≤ loss t) :
    ∃ s0, (lookahead (sgd (.scalar η) none nes) k a none).init (initSynced (mk σ p0)) = .ok s0 ∧ ∀ j r : ℕ, r < k → ∃ f sl s,
      trainLoop (lookahead (sgd (.scalar η) none nes) k a none) grad (j * k + r) s0 (initSynced (mk σ p0)) =
        .ok (lookaheadParams (mk σ f) (mk σ sl), s) ∧
      treeDist σ sl q ≤ (1 - a + a * Real.sqrt (1 - η * μ) ^ k) ^ j * treeDist σ p0 q ∧
      treeDist σ f q ≤ Real.sqrt (1 - η * μ) ^ r * ((1 - a + a * Real.sqrt (1 - η * μ) ^ k) ^ j * treeDist σ p0 q) := by
  set ρ := Real.sqrt (1 - η * μ) with hρ
  have hρ0 : 0 ≤ ρ := Real.sqrt_nonneg _
  set c := 1 - a + a * ρ ^ k with hc'
  have hc0 : 0 ≤ c := by
    have := mul_nonneg ha (pow_nonneg hρ0 k)
    rw [hc']; linarith
  set ss : (sgd (.scalar η) none nes : GT ℝ).State := some ((⟨⟩ : EmptyState), some ((⟨⟩ : EmptyState), (0 : ℕ))) with hss
  refine ⟨⟨ss, ctr 0⟩, rfl, ?_⟩
  suffices H : ∀ j r, r < k → ∃ f sl,
      trainLoop (lookahead (sgd (.scalar η) none nes) k a none) grad (j * k + r) ⟨ss, ctr 0⟩ (initSynced (mk σ p0)) =
        .ok (lookaheadParams (mk σ f) (mk σ sl), ⟨ss, ctr r⟩) ∧
      treeDist σ sl q ≤ c ^ j * treeDist σ p0 q ∧ treeDist σ f q ≤ ρ ^ r * (c ^ j * treeDist σ p0 q) by
    intro j r hr
    obtain ⟨f, sl, h1, h2, h3⟩ := H j r hr
    exact ⟨f, sl, _, h1, h2, h3⟩
  -- one step
  have step : ∀ n r f sl, r < k →
      trainLoop (lookahead (sgd (.scalar η) none nes) k a none) grad n ⟨ss, ctr 0⟩ (initSynced (mk σ p0)) =
        .ok (lookaheadParams (mk σ f) (mk σ sl), ⟨ss, ctr r⟩) →
      trainLoop (lookahead (sgd (.scalar η) none nes) k a none) grad (n + 1) ⟨ss, ctr 0⟩ (initSynced (mk σ p0)) =
        .ok (if r + 1 = k then
            lookaheadParams (mk σ (fun x y => sl x y + a * (f x y + -η * G f x y - sl x y)))
              (mk σ (fun x y => sl x y + a * (f x y + -η * G f x y - sl x y)))
          else lookaheadParams (mk σ (fun x y => f x y + -η * G f x y)) (mk σ sl), ⟨ss, ctr ((r + 1) % k)⟩) := by
    intro n r f sl hr h
    obtain ⟨U, h1, h2⟩ := C19_step (sgd (.scalar η) none nes) k a σ hk hk' r hr (G f) f sl _ ss ss
      (sgdR_update σ η nes (G f) _)
    exact trainLoop_succ _ grad n _ _ _ _ _ _ U h (by rw [hg]; exact h1) h2
  have contract : ∀ f, treeDist σ (fun x y => f x y + -η * G f x y) q ≤ ρ * treeDist σ f q := by
    intro f
    have := exact_contract σ hη hL hμ hs hc q hq f
    refine le_trans (le_of_eq ?_) this
    congr 1
    funext x y; ring
  intro j
  induction j with
  | zero =>
    intro r
    induction r with
    | zero => intro _; exact ⟨p0, p0, by rw [Nat.zero_mul]; rfl, by simp, by simp⟩
    | succ r ih =>
      intro hr
      obtain ⟨f, sl, h1, h2, h3⟩ := ih (by omega)
      have h4 := step _ r f sl (by omega) h1
      rw [if_neg (by omega), Nat.mod_eq_of_lt hr] at h4
      refine ⟨_, sl, h4, h2, (contract f).trans ?_⟩
      rw [pow_succ', mul_assoc]
      exact mul_le_mul_of_nonneg_left h3 hρ0
  | succ j ihj =>
    intro r
    induction r with
    | zero =>
      intro _
      obtain ⟨f, sl, h1, h2, h3⟩ := ihj (k - 1) (by omega)
      have h4 := step _ (k - 1) f sl (by omega) h1
      rw [if_pos (by omega), show k - 1 + 1 = k by omega, Nat.mod_self, show j * k + (k - 1) + 1 = (j + 1) * k + 0 by
        rw [Nat.add_mul]; omega] at h4
      have h5 : treeDist σ (fun x y => sl x y + a * (f x y + -η * G f x y - sl x y)) q ≤ c ^ (j + 1) * treeDist σ p0 q := by
        refine (treeDist_blend σ a ha ha1 sl (fun x y => f x y + -η * G f x y) q).trans ?_
        have e1 := mul_le_mul_of_nonneg_left h2 (show 0 ≤ 1 - a by linarith)
        have e2 : a * treeDist σ (fun x y => f x y + -η * G f x y) q ≤ a * (ρ ^ k * (c ^ j * treeDist σ p0 q)) := by
          refine mul_le_mul_of_nonneg_left ((contract f).trans ?_) ha
          have : ρ ^ k = ρ * ρ ^ (k - 1) := by rw [← pow_succ', show k - 1 + 1 = k by omega]
          rw [this, mul_assoc]
          exact mul_le_mul_of_nonneg_left h3 hρ0
        calc _ ≤ (1 - a) * (c ^ j * treeDist σ p0 q) + a * (ρ ^ k * (c ^ j * treeDist σ p0 q)) := add_le_add e1 e2
          _ = c ^ (j + 1) * treeDist σ p0 q := by rw [pow_succ, hc']; ring
      exact ⟨_, _, h4, h5, by rw [pow_zero, one_mul]; exact h5⟩
    | succ r ih =>
      intro hr
      obtain ⟨f, sl, h1, h2, h3⟩ := ih (by omega)
      have h4 := step _ r f sl (by omega) h1
      rw [if_neg (by omega), Nat.mod_eq_of_lt hr] at h4
      refine ⟨_, sl, h4, h2, (contract f).trans ?_⟩
      rw [pow_succ' ρ r, mul_assoc]
      exact mul_le_mul_of_nonneg_left h3 hρ0

/-- **C114.** … so with `0 < a ≤ 1` and `0 < ημ` the factor per period is below 1. -/
theorem C114_rate (η μ a : ℝ) (hη : 0 < η * μ) (ha : 0 < a) (ha1 : a ≤ 1) (k : ℕ) (hk : 1 ≤ k) :
    0 ≤ 1 - a + a * Real.sqrt (1 - η * μ) ^ k ∧ 1 - a + a * Real.sqrt (1 - η * μ) ^ k < 1 := by
  have h0 : 0 ≤ Real.sqrt (1 - η * μ) := Real.sqrt_nonneg _
  have h1 : Real.sqrt (1 - η * μ) < 1 := by
    rw [Real.sqrt_lt' (by norm_num)]; linarith
  have h2 := pow_lt_one₀ h0 h1 (show k ≠ 0 by omega)
  have h3 := pow_nonneg h0 k
  constructor
  · have := mul_nonneg ha.le h3; linarith
  · nlinarith

/-- Non-vacuity: the gradient oracle exists and least squares meets the hypotheses. -/
example (c : ℕ → ℕ → ℝ) : ∃ grad : ℕ → Params ℝ → Params ℝ,
    (∀ n f s, grad n (lookaheadParams (mk σ f) (mk σ s)) = mk σ (fun k i => f k i - c k i)) ∧
    Smooth σ 1 (leastSquares σ c) (fun p k i => p k i - c k i) ∧ StronglyConvex σ 1 (leastSquares σ c) (fun p k i => p k i - c k i) ∧
    ∀ t, leastSquares σ c (mk σ c) ≤ leastSquares σ c t := by
  refine ⟨fun _ p => mk σ (fun k i => coord (fastOf p) k i - c k i), fun n f s => ?_, leastSquares_smooth σ c,
    leastSquares_convex σ c, leastSquares_min σ c⟩
  show mk σ (fun k i => coord (mk σ f) k i - c k i) = _
  exact mk_congr fun k sh h i hi => by rw [coord_mk _ _ _ _ sh h hi]

end Optax
