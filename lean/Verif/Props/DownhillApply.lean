import Verif.Props.Downhill
import Verif.Props.FloatDownhill

/-!
# C140, C142: the steps taken by `apply_updates`
-/

set_option linter.unusedSectionVars false

namespace Optax
open FP

/-- **C140 (apply_updates).** Applying the update of a downhill optimiser, scaled by any small enough positive factor, with `apply_updates` decreases the loss unless the gradient vanishes. -/
theorem C140_apply (σ : Spec) (t : GT ℝ) (ht : Downhill σ t) (loss : Params ℝ → ℝ) (G : (ℕ → ℕ → ℝ) → ℕ → ℕ → ℝ) (hG : IsGradient σ loss G)
    (N : ℕ) (p0 : ℕ → ℕ → ℝ) (g p : ℕ → ℕ → ℕ → ℝ) : ∃ us : List (Params ℝ),
    t.outs (mk σ p0) (hist σ g (fun n => some (mk σ (p n))) N) = .ok us ∧
    ∀ n < N, g n = G (p n) → globalNorm (mk σ (g n)) ≠ 0 →
      ∃ u, us[n]? = some u ∧ ∃ δ > 0, ∀ s : ℝ, 0 < s → s < δ → ∃ q, applyUpdates (mk σ (p n)) (tmap (s * ·) u) = .ok q ∧ loss q < loss (mk σ (p n)) := by
  obtain ⟨U, h1, h2⟩ := C140_loss σ t ht loss G hG N p0 g p
  refine ⟨_, h1, fun n hn hg hne => ⟨mk σ (U n), by simp [hn], ?_⟩⟩
  obtain ⟨δ, hδ, h⟩ := h2 n hn hg hne
  refine ⟨δ, hδ, fun s h0 h1 => ⟨_, ?_, h s h0 h1⟩⟩
  rw [tmap_mk, C06_apply_updates]

/-- **C142 (apply_updates).** With an optimiser that never steps uphill, `apply_updates` never moves a finite parameter in the direction of its gradient, at any step of any history. -/
theorem C142_apply {F : Format} (σ : Spec) (t : GT (FP F)) (ht : NeverUphill σ t) (N : ℕ) (p0 : ℕ → ℕ → FP F) (g p : ℕ → ℕ → ℕ → FP F) (hg : ∀ n k i, IsFin (g n k i)) :
    ∃ us : List (Params (FP F)), t.outs (mk σ p0) (hist σ g (fun n => some (mk σ (p n))) N) = .ok us ∧
      ∀ n < N, ∃ u q, us[n]? = some u ∧ applyUpdates (mk σ (p n)) u = .ok (mk σ q) ∧
        ∀ k i, IsFin (p n k i) → (0 ≤ g n k i → q k i ≤ p n k i) ∧ (g n k i ≤ 0 → p n k i ≤ q k i) := by
  obtain ⟨U, h1, h2⟩ := ht N p0 g p hg
  refine ⟨_, h1, fun n hn => ⟨mk σ (U n), _, by simp [hn], C06_apply_updates σ (p n) (U n), fun k i hf => ?_⟩⟩
  exact (h2 n hn k i).2.2.2 (p n k i) hf

/-- plain sgd in any format (the numbers `a`, `eps`, `d` only matter for the other two aliases) -/
example {F : Format} (lr : LR (FP F)) (hlr : LRPos lr) (eps d : FP F) (he : 0 < eps) (hf : IsFin (JOps.rsqrt eps : FP F)) (hd : Decay d) (σ : Spec) (N : ℕ)
    (p0 : ℕ → ℕ → FP F) (g p : ℕ → ℕ → ℕ → FP F) (hg : ∀ n k i, IsFin (g n k i)) :
    ∃ us : List (Params (FP F)), (sgd lr none false).outs (mk σ p0) (hist σ g (fun n => some (mk σ (p n))) N) = .ok us ∧
      ∀ n < N, ∃ u q, us[n]? = some u ∧ applyUpdates (mk σ (p n)) u = .ok (mk σ q) ∧
        ∀ k i, IsFin (p n k i) → (0 ≤ g n k i → q k i ≤ p n k i) ∧ (g n k i ≤ 0 → p n k i ≤ q k i) :=
  C142_apply σ _ (C142_aliases lr hlr false 0 eps d (FP.le_refl num_zero) he hf hd _ (by simp) σ) N p0 g p hg

end Optax
