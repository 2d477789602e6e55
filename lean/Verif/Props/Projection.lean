import Verif.Props.Clipping
import Verif.Props.Constrain

/-!
# C75: the clipping transformations are non-expansive projections

`clip_by_global_norm(m)` maps the gradients to the point of the ball `global_norm ≤ m` nearest to them (in `global_norm`),
`clip(d)` to the nearest point of the cube `|x| ≤ d`; neither moves two gradient trees further apart; both keep a
descent direction a descent direction. `keep_params_nonnegative` moves the params to the point of the non-negative
orthant nearest to where the update would have moved them.
-/

set_option linter.unusedSectionVars false
set_option linter.unusedSimpArgs false

namespace Optax
open Finset

section
variable {ι : Type} (s : Finset ι)

theorem inner_le_l2 (f h : ι → ℝ) : ∑ x ∈ s, f x * h x ≤ l2 s f * l2 s h :=
  (le_abs_self _).trans (abs_inner_le_l2 s f h)

theorem l2_le_of_sq {a : ℝ} (ha : 0 ≤ a) {f : ι → ℝ} (h : ∑ x ∈ s, f x ^ 2 ≤ a ^ 2) : l2 s f ≤ a := by
  unfold l2
  exact Real.sqrt_le_iff.mpr ⟨ha, h⟩

theorem l2_mono_abs {f h : ι → ℝ} (e : ∀ x ∈ s, |f x| ≤ |h x|) : l2 s f ≤ l2 s h := by
  unfold l2
  exact Real.sqrt_le_sqrt (Finset.sum_le_sum fun x hx => sq_le_sq.mpr (e x hx))

/-- the radial retraction on the ball of radius `m` -/
noncomputable def radial (m : ℝ) (f : ι → ℝ) : ι → ℝ := fun x => (if l2 s f < m then 1 else m / l2 s f) * f x

theorem l2_sub_sq (f h : ι → ℝ) :
    l2 s (fun x => f x - h x) ^ 2 = l2 s f ^ 2 - 2 * ∑ x ∈ s, f x * h x + l2 s h ^ 2 := by
  rw [l2_sq, l2_sq, l2_sq, Finset.mul_sum, ← Finset.sum_sub_distrib, ← Finset.sum_add_distrib]
  exact Finset.sum_congr rfl fun x _ => by ring

/-- the variational inequality: `⟨f - P f, v - P f⟩ ≤ 0` for `v` in the ball -/
theorem radial_variational (m : ℝ) (hm : 0 < m) (f v : ι → ℝ) (hv : l2 s v ≤ m) :
    ∑ x ∈ s, (f x - radial s m f x) * (v x - radial s m f x) ≤ 0 := by
  by_cases h : l2 s f < m
  · simp [radial, h]
  · have hf : m ≤ l2 s f := not_lt.mp h
    have hf0 : 0 < l2 s f := hm.trans_le hf
    have e : ∀ x ∈ s, (f x - radial s m f x) * (v x - radial s m f x) =
        (1 - m / l2 s f) * (f x * v x) - (1 - m / l2 s f) * (m / l2 s f) * f x ^ 2 := by
      intro x _
      simp only [radial, h, if_false]; ring
    rw [Finset.sum_congr rfl e, Finset.sum_sub_distrib, ← Finset.mul_sum, ← Finset.mul_sum, ← l2_sq]
    have h1 := inner_le_l2 s f v
    have h2 : 0 ≤ 1 - m / l2 s f := by rw [sub_nonneg, div_le_one hf0]; exact hf
    have h3 : l2 s f * l2 s v ≤ l2 s f * m := mul_le_mul_of_nonneg_left hv hf0.le
    have h4 : m / l2 s f * l2 s f ^ 2 = l2 s f * m := by field_simp
    have h5 : (1 - m / l2 s f) * ∑ x ∈ s, f x * v x ≤ (1 - m / l2 s f) * (l2 s f * m) :=
      mul_le_mul_of_nonneg_left (h1.trans h3) h2
    rw [mul_assoc, h4]
    linarith

theorem radial_norm_le (m : ℝ) (hm : 0 < m) (f : ι → ℝ) : l2 s (radial s m f) ≤ m := by
  unfold radial
  rw [l2_smul]
  by_cases h : l2 s f < m
  · simp [h, h.le]
  · have hf0 : 0 < l2 s f := hm.trans_le (not_lt.mp h)
    rw [if_neg h, abs_of_pos (by positivity), div_mul_cancel₀ _ hf0.ne']

/-- a map satisfying the variational inequality is the nearest point -/
theorem nearest_of_variational (f p v : ι → ℝ) (h : ∑ x ∈ s, (f x - p x) * (v x - p x) ≤ 0) :
    l2 s (fun x => f x - p x) ≤ l2 s (fun x => f x - v x) := by
  apply l2_le_of_sq s (l2_nonneg _ _)
  rw [l2_sq]
  have e : ∑ x ∈ s, (f x - v x) ^ 2 = ∑ x ∈ s, (f x - p x) ^ 2 - 2 * ∑ x ∈ s, (f x - p x) * (v x - p x) +
      ∑ x ∈ s, (v x - p x) ^ 2 := by
    rw [Finset.mul_sum, ← Finset.sum_sub_distrib, ← Finset.sum_add_distrib]
    exact Finset.sum_congr rfl fun x _ => by ring
  have : 0 ≤ ∑ x ∈ s, (v x - p x) ^ 2 := Finset.sum_nonneg fun _ _ => sq_nonneg _
  rw [e]; linarith

/-- two points and their projections -/
theorem nonexpansive_of_variational (f h p q : ι → ℝ) (h1 : ∑ x ∈ s, (f x - p x) * (q x - p x) ≤ 0)
    (h2 : ∑ x ∈ s, (h x - q x) * (p x - q x) ≤ 0) :
    l2 s (fun x => p x - q x) ≤ l2 s (fun x => f x - h x) := by
  apply l2_le_of_sq s (l2_nonneg _ _)
  rw [l2_sq]
  have e : ∑ x ∈ s, (f x - h x) ^ 2 = ∑ x ∈ s, (p x - q x) ^ 2 +
      (-2) * (∑ x ∈ s, (f x - p x) * (q x - p x) + ∑ x ∈ s, (h x - q x) * (p x - q x)) +
      ∑ x ∈ s, ((f x - p x) - (h x - q x)) ^ 2 := by
    rw [← Finset.sum_add_distrib, Finset.mul_sum, ← Finset.sum_add_distrib, ← Finset.sum_add_distrib]
    exact Finset.sum_congr rfl fun x _ => by ring
  have : 0 ≤ ∑ x ∈ s, ((f x - p x) - (h x - q x)) ^ 2 := Finset.sum_nonneg fun _ _ => sq_nonneg _
  rw [e]; linarith

end

variable (σ : Spec)

/-- distance of two trees of the same structure: `global_norm` of the difference -/
noncomputable def treeDist (σ : Spec) (a b : ℕ → ℕ → ℝ) : ℝ := globalNorm (mk σ (fun k i => a k i - b k i))

/-- inner product of two trees: the sum over all entries of the products -/
noncomputable def treeInner (σ : Spec) (a b : ℕ → ℕ → ℝ) : ℝ := ∑ x ∈ idx σ, a x.1 x.2 * b x.1 x.2

theorem clipGN_eq_radial (m : ℝ) (hm : 0 < m) (g : ℕ → ℕ → ℝ) (s : EmptyState) (pp : Option (Params ℝ)) :
    ∃ u, (clipByGlobalNorm m).update (mk σ g) s pp = .ok (mk σ u, s) ∧
      ∀ x : (Σ _ : ℕ, ℕ), u x.1 x.2 = radial (idx σ) m (fun x => g x.1 x.2) x := by
  obtain ⟨u, h1, -, -, c, -⟩ := C12_clip_by_global_norm m hm σ g s pp
  refine ⟨fun k i => (if entryNorm σ g < m then 1 else m / entryNorm σ g) * g k i, ?_, fun x => rfl⟩
  rw [clipByGlobalNorm_update_mk]
  congr 2
  apply mk_congr
  intro k _ _ i _
  rw [globalNorm_mk]
  simp only [jlt_real, decide_eq_true_eq]
  by_cases h : entryNorm σ g < m
  · simp [h]
  · simp only [h, if_false]; ring

/-- **C75.** `clip_by_global_norm(m)` returns the tree of global norm at most `m` that is nearest to the gradients. -/
theorem C75_global_norm_projection (m : ℝ) (hm : 0 < m) (g : ℕ → ℕ → ℝ) (s : EmptyState) (pp : Option (Params ℝ)) :
    ∃ u, (clipByGlobalNorm m).update (mk σ g) s pp = .ok (mk σ u, s) ∧ globalNorm (mk σ u) ≤ m ∧
      ∀ v, globalNorm (mk σ v) ≤ m → treeDist σ g u ≤ treeDist σ g v := by
  obtain ⟨u, h1, h2⟩ := clipGN_eq_radial σ m hm g s pp
  refine ⟨u, h1, ?_, ?_⟩
  · rw [globalNorm_mk]
    unfold entryNorm
    rw [l2_congr (idx σ) fun x _ => h2 x]
    exact radial_norm_le _ m hm _
  · intro v hv
    rw [globalNorm_mk] at hv
    unfold treeDist
    rw [globalNorm_mk, globalNorm_mk]
    unfold entryNorm
    apply nearest_of_variational
    simp only [h2]
    exact radial_variational _ m hm _ _ hv

/-- **C75.** `clip_by_global_norm` does not move two gradient trees apart. -/
theorem C75_global_norm_nonexpansive (m : ℝ) (hm : 0 < m) (g g' : ℕ → ℕ → ℝ) (s : EmptyState)
    (pp pp' : Option (Params ℝ)) :
    ∃ u u', (clipByGlobalNorm m).update (mk σ g) s pp = .ok (mk σ u, s) ∧
      (clipByGlobalNorm m).update (mk σ g') s pp' = .ok (mk σ u', s) ∧ treeDist σ u u' ≤ treeDist σ g g' := by
  obtain ⟨u, h1, h2⟩ := clipGN_eq_radial σ m hm g s pp
  obtain ⟨u', h1', h2'⟩ := clipGN_eq_radial σ m hm g' s pp'
  refine ⟨u, u', h1, h1', ?_⟩
  unfold treeDist
  rw [globalNorm_mk, globalNorm_mk]
  unfold entryNorm
  apply nonexpansive_of_variational
  · simp only [h2, h2']
    exact radial_variational _ m hm _ _ (radial_norm_le _ m hm _)
  · simp only [h2, h2']
    exact radial_variational _ m hm _ _ (radial_norm_le _ m hm _)

/-- **C75.** The clipped gradients have the direction of the gradients: the inner product with the gradients is
`min(‖g‖, m)·‖g‖`, positive unless the gradients are 0. -/
theorem C75_global_norm_direction (m : ℝ) (hm : 0 < m) (g : ℕ → ℕ → ℝ) (s : EmptyState) (pp : Option (Params ℝ)) :
    ∃ u, (clipByGlobalNorm m).update (mk σ g) s pp = .ok (mk σ u, s) ∧
      treeInner σ u g = min (globalNorm (mk σ g)) m * globalNorm (mk σ g) := by
  obtain ⟨u, h1, h2⟩ := clipGN_eq_radial σ m hm g s pp
  refine ⟨u, h1, ?_⟩
  unfold treeInner
  rw [globalNorm_mk, Finset.sum_congr rfl fun x _ => by rw [h2 x]]
  change ∑ x ∈ idx σ, (if entryNorm σ g < m then 1 else m / entryNorm σ g) * g x.1 x.2 * g x.1 x.2 = _
  have e : ∀ x ∈ idx σ, (if entryNorm σ g < m then 1 else m / entryNorm σ g) * g x.1 x.2 * g x.1 x.2 =
      (if entryNorm σ g < m then 1 else m / entryNorm σ g) * (g x.1 x.2) ^ 2 := fun x _ => by ring
  rw [Finset.sum_congr rfl e, ← Finset.mul_sum]
  have e2 : ∑ x ∈ idx σ, (g x.1 x.2) ^ 2 = entryNorm σ g ^ 2 := (l2_sq _ _).symm
  rw [e2]
  by_cases h : entryNorm σ g < m
  · rw [if_pos h, min_eq_left h.le]; ring
  · rw [if_neg h, min_eq_right (not_lt.mp h)]
    have : entryNorm σ g ≠ 0 := (hm.trans_le (not_lt.mp h)).ne'
    field_simp

theorem clamp_nearest (d x y : ℝ) (hd : 0 ≤ d) (hy : |y| ≤ d) :
    (x - min (max x (-d)) d) * (y - min (max x (-d)) d) ≤ 0 := by
  rw [abs_le] at hy
  rcases le_total x (-d) with h | h
  · rw [max_eq_right h, min_eq_left (by linarith)]; nlinarith
  · rw [max_eq_left h]
    rcases le_total x d with h' | h'
    · rw [min_eq_left h']; simp
    · rw [min_eq_right h']; nlinarith

theorem clamp_abs_le (d x : ℝ) (hd : 0 ≤ d) : |min (max x (-d)) d| ≤ d :=
  abs_le.mpr ⟨le_min (le_max_right _ _) (by linarith), min_le_right _ _⟩

/-- **C75.** `clip(d)` returns the tree with entries in `[-d, d]` nearest to the gradients in global norm, and does not move
two gradient trees apart, neither in global norm nor in any single entry. -/
theorem C75_clip (d : ℝ) (hd : 0 ≤ d) (g g' : ℕ → ℕ → ℝ) (s : EmptyState) (pp pp' : Option (Params ℝ)) :
    ∃ u u', (clip d).update (mk σ g) s pp = .ok (mk σ u, s) ∧ (clip d).update (mk σ g') s pp' = .ok (mk σ u', s) ∧
      (∀ k i, |u k i| ≤ d) ∧ (∀ v, (∀ k i, |v k i| ≤ d) → treeDist σ g u ≤ treeDist σ g v) ∧
      treeDist σ u u' ≤ treeDist σ g g' ∧ (∀ k i, |u k i - u' k i| ≤ |g k i - g' k i|) ∧
      (∀ k i, |u k i| ≤ |g k i|) ∧ 0 ≤ treeInner σ u g := by
  refine ⟨_, _, clip_update_mk σ g pp d s, clip_update_mk σ g' pp' d s, ?_, ?_, ?_, ?_, ?_, ?_⟩
  all_goals simp only [jmin_real, jmax_real]
  · intro k i
    exact clamp_abs_le d _ hd
  · intro v hv
    unfold treeDist
    rw [globalNorm_mk, globalNorm_mk]
    unfold entryNorm
    apply nearest_of_variational
    exact Finset.sum_nonpos fun x _ => clamp_nearest d _ _ hd (hv _ _)
  · unfold treeDist
    rw [globalNorm_mk, globalNorm_mk]
    unfold entryNorm
    apply nonexpansive_of_variational
    · exact Finset.sum_nonpos fun x _ => clamp_nearest d _ _ hd (clamp_abs_le d _ hd)
    · exact Finset.sum_nonpos fun x _ => clamp_nearest d _ _ hd (clamp_abs_le d _ hd)
  · intro k i
    refine (abs_min_sub_min_le_max _ _ _ _).trans ?_
    rw [sub_self, abs_zero, max_eq_left (abs_nonneg _)]
    refine (abs_max_sub_max_le_max _ _ _ _).trans ?_
    rw [sub_self, abs_zero, max_eq_left (abs_nonneg _)]
  · intro k i
    rcases le_total 0 (g k i) with h | h
    · rw [max_eq_left (by linarith), abs_of_nonneg (le_min h hd), abs_of_nonneg h]
      exact min_le_left _ _
    · rw [min_eq_left (max_le (by linarith) (by linarith)), abs_of_nonpos (max_le h (by linarith)), abs_of_nonpos h]
      exact neg_le_neg (le_max_left _ _)
  · unfold treeInner
    refine Finset.sum_nonneg fun x _ => ?_
    rcases le_total 0 (g x.1 x.2) with h | h
    · exact mul_nonneg (le_min (h.trans (le_max_left _ _)) hd) h
    · exact mul_nonneg_of_nonpos_of_nonpos ((min_le_left _ _).trans (max_le h (by linarith))) h

/-- **C75.** `keep_params_nonnegative`: the new params are the point of the non-negative orthant nearest to where the
unconstrained update would have moved the params. -/
theorem C75_nonnegative (p u : ℕ → ℕ → ℝ) (s : EmptyState) :
    ∃ u' q, keepParamsNonnegative.update (mk σ u) s (some (mk σ p)) = .ok (mk σ u', s) ∧
      applyUpdates (mk σ p) (mk σ u') = .ok (mk σ q) ∧
      (∀ k i, 0 ≤ q k i) ∧
      (∀ v, (∀ k i, 0 ≤ v k i) →
        treeDist σ (fun k i => p k i + u k i) q ≤ treeDist σ (fun k i => p k i + u k i) v) := by
  obtain ⟨u', h1, h2, -, -⟩ := C09_step σ p u s
  refine ⟨u', _, h1, h2, fun k i => le_max_right _ _, ?_⟩
  intro v hv
  unfold treeDist
  rw [globalNorm_mk, globalNorm_mk]
  unfold entryNorm
  apply l2_mono_abs
  intro x _
  have := hv x.1 x.2
  dsimp only
  rcases le_total 0 (p x.1 x.2 + u x.1 x.2) with h | h
  · rw [max_eq_left h, sub_self, abs_zero]; exact abs_nonneg _
  · rw [max_eq_right h, sub_zero, abs_of_nonpos h, abs_of_nonpos (by linarith)]; linarith

/-- Non-vacuity: gradients outside the ball are moved. -/
example : ∃ g : ℕ → ℕ → ℝ, 1 < globalNorm (mk (.leaf [1]) g) := by
  refine ⟨fun _ _ => 2, ?_⟩
  rw [C61_concat]
  simp [mk, PyTree.mapIdx, PyTree.mapIdxFrom, PyTree.leaves, Tensor.tens]

end Optax
