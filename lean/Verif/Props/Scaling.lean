import Verif.Props.Adam
import Verif.Props.Moments
import Verif.Props.Norms

/-!
# C74: scale invariance and sign equivariance of the adaptive optimisers

Multiplying every gradient of a history by `c ≠ 0` (and the `eps` terms by the matching power of `|c|`) multiplies the
updates of Adam, AdaBelief, AdaGrad (`scale_by_rss`), RMSProp and its centred version by the sign of `c` only. With
`eps = eps_root = 0` a different factor may be used for every coordinate.
-/

set_option linter.unusedSectionVars false
set_option linter.unusedSimpArgs false

namespace Optax
open Finset

variable (σ : Spec) (p0 : ℕ → ℕ → ℝ) (g : ℕ → ℕ → ℕ → ℝ) (pp : ℕ → Option (Params ℝ)) (N : ℕ)

theorem debiased_smul (d c : ℝ) (x : ℕ → ℝ) (n : ℕ) : debiased d (fun j => c * x j) n = c * debiased d x n := by
  rw [debiased_eq, debiased_eq, geoSum_smul]; ring

theorem sqrt_sq_mul (c x : ℝ) : Real.sqrt (c ^ 2 * x) = |c| * Real.sqrt x := by
  rw [Real.sqrt_mul (sq_nonneg c), Real.sqrt_sq_eq_abs]

theorem mul_div_abs {c : ℝ} (hc : c ≠ 0) (a b : ℝ) : c * a / (|c| * b) = (SignType.sign c : ℝ) * (a / b) := by
  have h : (SignType.sign c : ℝ) = c / |c| := by
    rcases lt_or_gt_of_ne hc with h | h
    · rw [sign_neg h, abs_of_neg h]; simp [div_neg, hc]
    · rw [sign_pos h, abs_of_pos h]; simp [hc]
  rw [h, mul_div_mul_comm]

/-- the gradients of the history, coordinate `(k, i)` multiplied by `c k i` -/
def scaledBy (c : ℕ → ℕ → ℝ) (g : ℕ → ℕ → ℕ → ℝ) : ℕ → ℕ → ℕ → ℝ := fun n k i => c k i * g n k i

/-- the trees of a list, coordinate `(k, i)` multiplied by `c k i` -/
def timesCoord (σ : Spec) (c : ℕ → ℕ → ℝ) (us : List (Params ℝ)) : List (Params ℝ) :=
  us.map (fun u => mk σ (fun k i => c k i * coord u k i))

theorem timesCoord_mk (c : ℕ → ℕ → ℝ) (l : List ℕ) (U : ℕ → ℕ → ℕ → ℝ) :
    timesCoord σ c (l.map (fun n => mk σ (U n))) = l.map (fun n => mk σ (fun k i => c k i * U n k i)) := by
  unfold timesCoord
  rw [List.map_map]
  apply List.map_congr_left
  intro n _
  simp only [Function.comp]
  apply mk_congr
  intro k s hk i hi
  rw [coord_mk _ _ k i s hk hi]

/-- the sign of `c k i`, as a real number: 1, 0 or -1 -/
noncomputable def signs (c : ℕ → ℕ → ℝ) : ℕ → ℕ → ℝ := fun k i => (SignType.sign (c k i) : ℝ)

theorem adamStep_smul (b1 b2 eps er c : ℝ) (hc : c ≠ 0) (x : ℕ → ℝ) (n : ℕ) :
    adamStep b1 b2 (|c| * eps) (c ^ 2 * er) (fun j => c * x j) n = (SignType.sign c : ℝ) * adamStep b1 b2 eps er x n := by
  simp only [adamStep, mul_pow, geoSum_smul]
  rw [mul_left_comm (1 - b1), mul_div_assoc c, mul_left_comm (1 - b2), mul_div_assoc (c ^ 2), ← mul_add, sqrt_sq_mul, ← mul_add]
  exact mul_div_abs hc _ _

/-- **C74 (Adam).** Scaling all gradients of a history by `c ≠ 0`, `eps` by `|c|` and `eps_root` by `c²` changes the
updates by the sign of `c` only. -/
theorem C74_adam (b1 b2 eps er c : ℝ) (hc : c ≠ 0) :
    ∃ us, (scaleByAdam b1 b2 eps er).outs (mk σ p0) (hist σ g pp N) = .ok us ∧
      (scaleByAdam b1 b2 (|c| * eps) (c ^ 2 * er)).outs (mk σ p0) (hist σ (scaledBy (fun _ _ => c) g) pp N) =
        .ok (timesCoord σ (signs fun _ _ => c) us) := by
  unfold GT.outs
  rw [C26_saturated, C26_saturated]
  simp only [Res.ok_bind, Res.pure_eq]
  refine ⟨_, rfl, ?_⟩
  rw [timesCoord_mk]
  simp only [Except.ok.injEq]
  apply List.map_congr_left
  intro n _
  apply mk_congr
  intro k _ _ i _
  exact adamStep_smul b1 b2 eps er c hc _ n

/-- **C74 (Adam, per coordinate).** With `eps = eps_root = 0` every coordinate may be scaled by its own factor: Adam is
invariant under diagonal rescaling of the problem. -/
theorem C74_adam_diagonal (b1 b2 : ℝ) (c : ℕ → ℕ → ℝ) (hc : ∀ k i, c k i ≠ 0) :
    ∃ us, (scaleByAdam b1 b2 0 0).outs (mk σ p0) (hist σ g pp N) = .ok us ∧
      (scaleByAdam b1 b2 0 0).outs (mk σ p0) (hist σ (scaledBy c g) pp N) = .ok (timesCoord σ (signs c) us) := by
  unfold GT.outs
  rw [C26_saturated, C26_saturated]
  simp only [Res.ok_bind, Res.pure_eq]
  refine ⟨_, rfl, ?_⟩
  rw [timesCoord_mk]
  simp only [Except.ok.injEq]
  apply List.map_congr_left
  intro n _
  apply mk_congr
  intro k _ _ i _
  have := adamStep_smul b1 b2 0 0 (c k i) (hc k i) (fun j => g j k i) n
  simp only [mul_zero] at this
  exact this

/-- **C74 (AdaBelief).** -/
theorem C74_belief (b1 b2 eps er c : ℝ) (hc : c ≠ 0) :
    ∃ us, (scaleByBelief b1 b2 eps er).outs (mk σ p0) (hist σ g pp N) = .ok us ∧
      (scaleByBelief b1 b2 (|c| * eps) (c ^ 2 * er)).outs (mk σ p0) (hist σ (scaledBy (fun _ _ => c) g) pp N) =
        .ok (timesCoord σ (signs fun _ _ => c) us) := by
  obtain ⟨U, M, V, hx, hM, hV, hU⟩ := C28_saturated σ p0 g pp b1 b2 eps er
  obtain ⟨U', M', V', hx', hM', hV', hU'⟩ :=
    C28_saturated σ p0 (scaledBy (fun _ _ => c) g) pp b1 b2 (|c| * eps) (c ^ 2 * er)
  unfold GT.outs
  rw [hx N, hx' N]
  simp only [Res.ok_bind, Res.pure_eq]
  refine ⟨_, rfl, ?_⟩
  rw [timesCoord_mk]
  simp only [Except.ok.injEq]
  apply List.map_congr_left
  intro n _
  apply mk_congr
  intro k _ _ i _
  have eM : ∀ j, M' j k i = c * M j k i := by
    intro j
    rw [hM, hM']
    simp only [scaledBy, geoSum_smul]; ring
  have eV : ∀ j, V' j k i = c ^ 2 * V j k i := by
    intro j
    rw [hV, hV']
    have : ∀ j, (scaledBy (fun _ _ => c) g j k i - M' j k i) ^ 2 = c ^ 2 * (g j k i - M j k i) ^ 2 := by
      intro j; rw [eM]; simp only [scaledBy]; ring
    simp only [this, geoSum_smul]; ring
  rw [hU, hU', eM, eV, mul_div_assoc c, mul_div_assoc (c ^ 2), ← mul_add, sqrt_sq_mul, ← mul_add]
  exact mul_div_abs hc _ _

/-- **C74 (AdaGrad).** -/
theorem C74_rss (a eps c : ℝ) (hc : c ≠ 0) :
    ∃ us, (scaleByRss a eps).outs (mk σ p0) (hist σ g pp N) = .ok us ∧
      (scaleByRss (c ^ 2 * a) (c ^ 2 * eps)).outs (mk σ p0) (hist σ (scaledBy (fun _ _ => c) g) pp N) =
        .ok (timesCoord σ (signs fun _ _ => c) us) := by
  unfold GT.outs
  rw [C23_rss, C23_rss]
  simp only [Res.ok_bind, Res.pure_eq]
  refine ⟨_, rfl, ?_⟩
  rw [timesCoord_mk]
  simp only [Except.ok.injEq]
  apply List.map_congr_left
  intro n _
  apply mk_congr
  intro k _ _ i _
  have e : rssAcc (c ^ 2 * a) (fun j => scaledBy (fun _ _ => c) g j k i) (n + 1) =
      c ^ 2 * rssAcc a (fun j => g j k i) (n + 1) := by
    simp only [rssAcc, scaledBy, mul_pow, ← mul_sum]; ring
  rw [e]
  have hc2 : 0 < c ^ 2 := by positivity
  by_cases h : 0 < rssAcc a (fun j => g j k i) (n + 1)
  · rw [if_pos h, if_pos (by positivity), ← mul_add, sqrt_sq_mul]
    exact mul_div_abs hc _ _
  · rw [if_neg h, if_neg (by rw [mul_pos_iff_of_pos_left hc2]; exact h), mul_zero]

/-- **C74 (RMSProp).** -/
theorem C74_rms (d eps a c : ℝ) (hc : c ≠ 0) :
    ∃ us, (scaleByRms d eps a).outs (mk σ p0) (hist σ g pp N) = .ok us ∧
      (scaleByRms d (c ^ 2 * eps) (c ^ 2 * a)).outs (mk σ p0) (hist σ (scaledBy (fun _ _ => c) g) pp N) =
        .ok (timesCoord σ (signs fun _ _ => c) us) := by
  unfold GT.outs
  rw [C24_rms, C24_rms]
  simp only [Res.ok_bind, Res.pure_eq]
  refine ⟨_, rfl, ?_⟩
  rw [timesCoord_mk]
  simp only [Except.ok.injEq]
  apply List.map_congr_left
  intro n _
  apply mk_congr
  intro k _ _ i _
  have e : rmsAcc d (c ^ 2 * a) (fun j => scaledBy (fun _ _ => c) g j k i) (n + 1) =
      c ^ 2 * rmsAcc d a (fun j => g j k i) (n + 1) := by
    simp only [rmsAcc, scaledBy, mul_pow, geoSum_smul]; ring
  rw [e, ← mul_add, sqrt_sq_mul]
  exact mul_div_abs hc _ _

/-- **C74 (centred RMSProp).** -/
theorem C74_stddev (d eps a c : ℝ) (h0 : 0 ≤ d) (h1 : d ≤ 1) (ha : 0 ≤ a) (hc : c ≠ 0) :
    ∃ us, (scaleByStddev d eps a).outs (mk σ p0) (hist σ g pp N) = .ok us ∧
      (scaleByStddev d (c ^ 2 * eps) (c ^ 2 * a)).outs (mk σ p0) (hist σ (scaledBy (fun _ _ => c) g) pp N) =
        .ok (timesCoord σ (signs fun _ _ => c) us) := by
  obtain ⟨U, M, V, hx, hM, hV, -, hU⟩ := C25_stddev σ p0 g pp d eps a h0 h1 ha
  obtain ⟨U', M', V', hx', hM', hV', -, hU'⟩ :=
    C25_stddev σ p0 (scaledBy (fun _ _ => c) g) pp d (c ^ 2 * eps) (c ^ 2 * a) h0 h1 (by positivity)
  unfold GT.outs
  rw [hx N, hx' N]
  simp only [Res.ok_bind, Res.pure_eq]
  refine ⟨_, rfl, ?_⟩
  rw [timesCoord_mk]
  simp only [Except.ok.injEq]
  apply List.map_congr_left
  intro n _
  apply mk_congr
  intro k _ _ i _
  have e : V' (n + 1) k i - M' (n + 1) k i ^ 2 + c ^ 2 * eps = c ^ 2 * (V (n + 1) k i - M (n + 1) k i ^ 2 + eps) := by
    rw [hM, hM', hV, hV']
    simp only [scaledBy, mul_pow, geoSum_smul]; ring
  rw [hU, hU', e, sqrt_sq_mul]
  exact mul_div_abs hc _ _

/-- **C74 (trust ratio: LARS/LAMB/Fromage).** With `min_norm = 0`, scaling the updates of leaf `k` by `c k ≠ 0` changes the
output of `scale_by_trust_ratio` on that leaf by the sign of `c k` only, when both norms are non-zero. -/
theorem C74_trust_ratio (u p : ℕ → ℕ → ℝ) (c : ℕ → ℝ) (hc : ∀ k, c k ≠ 0) (s : EmptyState)
    (hp : ∀ k < σ.leaves.length, leafNorm σ p k ≠ 0) (hu : ∀ k < σ.leaves.length, leafNorm σ u k ≠ 0) :
    ∃ v, (scaleByTrustRatio 0).update (mk σ u) s (some (mk σ p)) = .ok (mk σ v, s) ∧
      (scaleByTrustRatio 0).update (mk σ (fun k i => c k * u k i)) s (some (mk σ p)) =
        .ok (mk σ (fun k i => (SignType.sign (c k) : ℝ) * v k i), s) := by
  refine ⟨_, C31_trust_ratio 0 σ u p s, ?_⟩
  rw [C31_trust_ratio 0 σ _ p s]
  congr 2
  apply mk_congr
  intro k _ hk i _
  replace hp := hp k (List.getElem?_eq_some_iff.mp hk).1
  replace hu := hu k (List.getElem?_eq_some_iff.mp hk).1
  have hn : leafNorm σ (fun k i => c k * u k i) k = |c k| * leafNorm σ u k := by
    unfold leafNorm
    rw [← sqrt_sq_mul]
    congr 1
    simp [mul_pow, ← mul_sum]
  have hpos : ∀ w, leafNorm σ w k ≠ 0 → max (leafNorm σ w k) 0 = leafNorm σ w k :=
    fun w _ => max_eq_left (Real.sqrt_nonneg _)
  have hcu : |c k| * leafNorm σ u k ≠ 0 := mul_ne_zero (abs_ne_zero.mpr (hc k)) hu
  unfold trustFactor
  rw [hn, hpos p hp, hpos u hu, max_eq_left (by rw [← hn]; exact Real.sqrt_nonneg _),
    if_neg (by simp only [not_or]; exact ⟨hp, hcu⟩), if_neg (by simp only [not_or]; exact ⟨hp, hu⟩)]
  have := mul_div_abs (hc k) (leafNorm σ p k * u k i) (leafNorm σ u k)
  rw [div_mul_eq_mul_div, div_mul_eq_mul_div, ← this]
  ring

/-- Non-vacuity: three steps with gradients scaled by -1000. -/
example : (-1000 : ℝ) ≠ 0 ∧ (3 : ℕ) ≤ 2147483647 ∧
    ∀ k < (PyTree.leaf [2] : Spec).leaves.length, leafNorm (.leaf [2]) (fun _ _ => 1) k ≠ 0 := by
  refine ⟨by norm_num, by norm_num, ?_⟩
  intro k hk
  simp only [PyTree.leaves, List.length_singleton, Nat.lt_one_iff] at hk
  subst hk
  simp [leafNorm, Spec.size, PyTree.leaves]

end Optax
