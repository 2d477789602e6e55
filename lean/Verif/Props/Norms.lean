import Verif.Model.Dual
import Verif.Lemmas.Norm
import Verif.Props.Clipping

/-!
# C31 (`scale_by_trust_ratio`), C32 (`safe_norm`)
-/

set_option linter.unusedSectionVars false
set_option linter.unusedSimpArgs false

namespace Optax
open Finset

/-! ## C32 -/

/-- **C32.** `safe_norm(x, m) = max(‖x‖₂, m)` for every array (`l2` is `sqrt(Σ x_i²)`). -/
theorem C32_safe_norm (s : List ℕ) (v : ℕ → ℝ) (m : ℝ) :
    safeNorm (Tensor.tens s v) m = max (Real.sqrt (∑ i ∈ range s.prod, v i ^ 2)) m := by
  have hn : (Tensor.tens s v).norm = Real.sqrt (∑ i ∈ range s.prod, v i ^ 2) := norm_tens s v
  unfold safeNorm
  simp only [jle_real, hn]
  split
  · rename_i h; rw [max_eq_right h]
  · rename_i h; rw [hn, max_eq_left (not_le.mp h).le]

/-- **C32.** In particular `safe_norm(x, m) ≥ m`, for every array (any data). -/
theorem C32_ge (x : Tensor ℝ) (m : ℝ) : m ≤ safeNorm x m := by
  unfold safeNorm
  simp only [jle_real]
  split
  · exact le_rfl
  · rename_i h; exact (not_le.mp h).le

theorem norm_fin (s : List ℕ) (v : ℕ → ℝ) :
    (Tensor.tens s (fun i => XReal.fin (v i))).norm = XReal.fin (l2 (range s.prod) v) := by
  have h0 : (Tensor.tens s (fun i => XReal.fin (v i) * XReal.fin (v i))).sum =
      XReal.fin (∑ i ∈ range s.prod, v i ^ 2) := by
    simp only [Tensor.sum, Tensor.tens, XReal.fin_mul]
    rw [show (fun i => XReal.fin (v i * v i)) = XReal.fin ∘ (fun i => v i ^ 2) by
      funext i; simp [pow_two], ← List.map_map, XReal.sum_map_fin, sum_map_range]
  unfold Tensor.norm
  rw [Tensor.map_tens, h0]
  show (if _ < (0:ℝ) then XReal.nan else XReal.fin _) = _
  rw [if_neg (not_lt.mpr (Finset.sum_nonneg (fun _ _ => sq_nonneg _)))]
  rfl

theorem xle_fin (a b : ℝ) : (JOps.le (XReal.fin a) (XReal.fin b) = true) ↔ a ≤ b := by
  show (XReal.lt (.fin a) (.fin b) || XReal.eqb (.fin a) (.fin b)) = true ↔ _
  simp [XReal.lt, XReal.eqb, le_iff_lt_or_eq]

theorem xlt_fin (a b : ℝ) : (JOps.lt (XReal.fin a) (XReal.fin b) = true) ↔ a < b := by
  show XReal.lt (.fin a) (.fin b) = true ↔ _
  simp [XReal.lt]

theorem xeqb_fin (a b : ℝ) : (JOps.eqb (XReal.fin a) (XReal.fin b) = true) ↔ a = b := by
  show XReal.eqb (.fin a) (.fin b) = true ↔ _
  simp [XReal.eqb]

theorem safeNorm_fin (s : List ℕ) (v : ℕ → ℝ) (m : ℝ) :
    safeNorm (Tensor.tens s (fun i => XReal.fin (v i))) (XReal.fin m) =
      XReal.fin (max (l2 (range s.prod) v) m) := by
  unfold safeNorm
  simp only [norm_fin, xle_fin]
  split
  · rename_i h; rw [max_eq_right h]
  · rename_i h; rw [norm_fin, max_eq_left (not_le.mp h).le]

theorem Dual.sum_fin (l : List ℕ) (v t : ℕ → ℝ) :
    ((l.map (fun i => (⟨.fin (v i), .fin (t i)⟩ : Dual))).sum) =
      ⟨.fin ((l.map v).sum), .fin ((l.map t).sum)⟩ := by
  induction l with
  | nil => rfl
  | cons a l ih => rw [List.map_cons, List.sum_cons, ih]; rfl

theorem Dual.norm_fin (s : List ℕ) (v t : ℕ → ℝ) :
    (Tensor.tens s (fun i => (⟨.fin (v i), .fin (t i)⟩ : Dual))).norm =
      ⟨.fin (l2 (range s.prod) v), .fin (2 * ∑ i ∈ range s.prod, v i * t i) *
        (.fin (1 / 2) / .fin (l2 (range s.prod) v))⟩ := by
  unfold Tensor.norm
  rw [Tensor.map_tens]
  have e : (fun i => ((⟨.fin (v i), .fin (t i)⟩ : Dual) * ⟨.fin (v i), .fin (t i)⟩)) =
      fun i => (⟨.fin (v i ^ 2), .fin (2 * (v i * t i))⟩ : Dual) := by
    funext i
    show (⟨XReal.fin (v i) * .fin (v i), XReal.fin (t i) * .fin (v i) + .fin (v i) * .fin (t i)⟩ : Dual) = _
    simp only [XReal.fin_mul, XReal.fin_add, Dual.mk.injEq, XReal.fin.injEq]
    exact ⟨by ring, by ring⟩
  rw [e]
  simp only [Tensor.sum, Tensor.tens]
  rw [Dual.sum_fin, sum_map_range, sum_map_range, ← Finset.mul_sum]
  have h : (JOps.sqrt (XReal.fin (∑ i ∈ range s.prod, v i ^ 2)) : XReal) =
      .fin (l2 (range s.prod) v) := by
    show (if _ < (0:ℝ) then XReal.nan else XReal.fin _) = _
    rw [if_neg (not_lt.mpr (Finset.sum_nonneg (fun _ _ => sq_nonneg _)))]
    rfl
  show (⟨JOps.sqrt (XReal.fin (∑ i ∈ range s.prod, v i ^ 2)), XReal.fin _ *
    (JOps.ofRat (1 / 2) / JOps.sqrt (XReal.fin (∑ i ∈ range s.prod, v i ^ 2)))⟩ : Dual) = _
  rw [h]
  congr 3
  show XReal.fin ((1 / 2 : ℚ) : ℝ) = _
  norm_num

/-- **C32.** Forward-mode derivative: for every array, every direction and `m ≥ 0`, the tangent of `safe_norm(x, m)` is
finite; it is 0 where `‖x‖ ≤ m` (in particular at `x = 0`) and `⟨x, t⟩/‖x‖` elsewhere. -/
theorem C32_forward_derivative (s : List ℕ) (v t : ℕ → ℝ) (m : ℝ) (hm : 0 ≤ m) :
    safeNorm (Tensor.tens s (fun i => (⟨.fin (v i), .fin (t i)⟩ : Dual))) ⟨.fin m, .fin 0⟩ =
      ⟨.fin (max (l2 (range s.prod) v) m),
       .fin (if l2 (range s.prod) v ≤ m then 0
         else (∑ i ∈ range s.prod, v i * t i) / l2 (range s.prod) v)⟩ := by
  unfold safeNorm
  have hle : (JOps.le (Tensor.tens s (fun i => (⟨.fin (v i), .fin (t i)⟩ : Dual))).norm
      (⟨.fin m, .fin 0⟩ : Dual) = true) ↔ l2 (range s.prod) v ≤ m := by
    rw [Dual.norm_fin]
    exact xle_fin _ _
  simp only [hle]
  by_cases h : l2 (range s.prod) v ≤ m
  · simp only [h, if_true, max_eq_right]
  · simp only [h, if_false]
    have hp : l2 (range s.prod) v ≠ 0 := by linarith [not_le.mp h]
    rw [Dual.norm_fin, XReal.fin_div _ _ hp, XReal.fin_mul, max_eq_left (not_le.mp h).le]
    congr 2
    field_simp

/-- **C32.** Reverse-mode derivative: the gradient computed by back-propagation is finite everywhere (`m ≥ 0`), 0 where
`‖x‖ ≤ m` and `ct * x/‖x‖` elsewhere. -/
theorem C32_reverse_derivative (s : List ℕ) (v : ℕ → ℝ) (m ct : ℝ) (hm : 0 ≤ m) :
    safeNormVjp (Tensor.tens s (fun i => XReal.fin (v i))) (.fin m) (.fin ct) =
      Tensor.tens s (fun i => .fin (if l2 (range s.prod) v ≤ m then 0
         else ct * v i / l2 (range s.prod) v)) := by
  unfold safeNormVjp
  simp only [norm_fin, xle_fin]
  by_cases h : l2 (range s.prod) v ≤ m
  · simp only [h, if_true]; rfl
  · simp only [h, if_false]
    have hp : l2 (range s.prod) v ≠ 0 := by linarith [not_le.mp h]
    unfold normVjp
    rw [Tensor.map_tens]
    apply Tensor.tens_congr
    intro i _
    rw [norm_fin]
    have e : (JOps.ofRat (1 / 2) : XReal) = .fin (1 / 2) := by
      show XReal.fin ((1 / 2 : ℚ) : ℝ) = _; norm_num
    rw [e, XReal.fin_div _ _ hp]
    simp only [XReal.fin_mul, XReal.fin_add, XReal.fin.injEq]
    field_simp
    ring

/-- The replacement of `x` in the untaken branch is what makes this work: without it, back-propagation
at `x = 0` gives NaN. -/
theorem C32_naive_nan :
    naiveNormVjp (Tensor.tens [1] (fun _ => XReal.fin 0)) (.fin 0) (.fin 1) =
      Tensor.tens [1] (fun _ => .nan) := by
  unfold naiveNormVjp normVjp
  have hz : l2 (range ([1] : List ℕ).prod) (fun _ => (0:ℝ)) = 0 := by simp [l2]
  have hn := norm_fin [1] (fun _ => 0)
  rw [hz] at hn
  rw [hn]
  rw [Tensor.map_tens]
  apply Tensor.tens_congr
  intro i _
  have e : (JOps.ofRat (1 / 2) : XReal) / .fin 0 = .pinf := by
    show (if (0:ℝ) = 0 then XReal.infOf ((1/2 : ℚ) : ℝ) else _) = _
    simp [XReal.infOf]
  have e2 : ∀ b : Bool, b = true → (if b then (0 : XReal) else .fin 1) * .pinf = .nan := by
    rintro b rfl
    show XReal.infOf 0 = _
    simp [XReal.infOf]
  rw [e, e2 _ ((xle_fin 0 0).mpr le_rfl)]
  simp

/-! ## C31 -/

/-- `‖p‖` of the `k`-th leaf of a tree of shapes `σ` -/
noncomputable def leafNorm (σ : Spec) (v : ℕ → ℕ → ℝ) (k : ℕ) : ℝ :=
  Real.sqrt (∑ i ∈ range (σ.size k), v k i ^ 2)

theorem leafNorm_eq_l2 (σ : Spec) (v : ℕ → ℕ → ℝ) (k : ℕ) :
    leafNorm σ v k = l2 (range (σ.size k)) (v k) := rfl

/-- the factor by which leaf `k` is multiplied -/
noncomputable def trustFactor (σ : Spec) (m : ℝ) (g p : ℕ → ℕ → ℝ) (k : ℕ) : ℝ :=
  if max (leafNorm σ p k) m = 0 ∨ max (leafNorm σ g k) m = 0 then 1
  else max (leafNorm σ p k) m / max (leafNorm σ g k) m

/-- **C31.** `scale_by_trust_ratio(m)`: every leaf is multiplied by
`max(‖p‖,m)/max(‖u‖,m)`, or returned unchanged when one of these is 0. -/
theorem C31_trust_ratio (m : ℝ) (σ : Spec) (g p : ℕ → ℕ → ℝ) (s : EmptyState) :
    (scaleByTrustRatio m).update (mk σ g) s (some (mk σ p)) =
      .ok (mk σ (fun k i => trustFactor σ m g p k * g k i), s) := by
  rw [trustRatio_update_mk]
  simp only [Except.ok.injEq, Prod.mk.injEq, and_true, mk]
  apply PyTree.mapIdx_congr
  intro k sh hk
  have hsz : σ.size k = sh.prod := by simp [Spec.size, hk]
  unfold trustRatioLeaf
  simp only [C32_safe_norm, Tensor.map_tens, jeqb_real, Bool.or_eq_true]
  apply Tensor.tens_congr
  intro i _
  unfold trustFactor leafNorm
  rw [hsz, mul_comm]

/-- **C31.** With `min_norm = 0` and both norms of leaf `k` non-zero, the returned leaf has exactly the norm of the
parameters and is a positive multiple of the update. -/
theorem C31_norm (σ : Spec) (g p : ℕ → ℕ → ℝ) (s : EmptyState) :
    ∃ u, (scaleByTrustRatio 0).update (mk σ g) s (some (mk σ p)) = .ok (mk σ u, s) ∧
      (∀ k, leafNorm σ p k ≠ 0 → leafNorm σ g k ≠ 0 → leafNorm σ u k = leafNorm σ p k ∧
        ∃ c > 0, ∀ i, u k i = c * g k i) ∧
      (∀ k, leafNorm σ p k = 0 ∨ leafNorm σ g k = 0 → ∀ i, u k i = g k i) := by
  refine ⟨_, C31_trust_ratio 0 σ g p s, ?_, ?_⟩
  · intro k hp hg
    have hp0 : 0 < leafNorm σ p k := lt_of_le_of_ne (Real.sqrt_nonneg _) (Ne.symm hp)
    have hg0 : 0 < leafNorm σ g k := lt_of_le_of_ne (Real.sqrt_nonneg _) (Ne.symm hg)
    have hf : trustFactor σ 0 g p k = leafNorm σ p k / leafNorm σ g k := by
      unfold trustFactor
      rw [max_eq_left hp0.le, max_eq_left hg0.le, if_neg (by simp [hp, hg])]
    refine ⟨?_, _, div_pos hp0 hg0, fun i => by rw [hf]⟩
    rw [leafNorm_eq_l2, l2_smul, ← leafNorm_eq_l2, hf, abs_of_pos (div_pos hp0 hg0),
      div_mul_cancel₀ _ hg0.ne']
  · intro k h i
    have hf : trustFactor σ 0 g p k = 1 := by
      unfold trustFactor
      have h1 : 0 ≤ leafNorm σ p k := Real.sqrt_nonneg _
      have h2 : 0 ≤ leafNorm σ g k := Real.sqrt_nonneg _
      rw [max_eq_left h1, max_eq_left h2, if_pos h]
    rw [hf, one_mul]

/-- **C31.** With `min_norm = m > 0` the ratio is `max(‖p‖,m)/max(‖u‖,m)`, always. -/
theorem C31_min_norm (m : ℝ) (hm : 0 < m) (σ : Spec) (g p : ℕ → ℕ → ℝ) (s : EmptyState) :
    (scaleByTrustRatio m).update (mk σ g) s (some (mk σ p)) =
      .ok (mk σ (fun k i => max (leafNorm σ p k) m / max (leafNorm σ g k) m * g k i), s) := by
  rw [C31_trust_ratio]
  have : ∀ k, trustFactor σ m g p k = max (leafNorm σ p k) m / max (leafNorm σ g k) m := by
    intro k
    unfold trustFactor
    have h1 : max (leafNorm σ p k) m ≠ 0 := (lt_of_lt_of_le hm (le_max_right _ _)).ne'
    have h2 : max (leafNorm σ g k) m ≠ 0 := (lt_of_lt_of_le hm (le_max_right _ _)).ne'
    rw [if_neg (by simp [h1, h2])]
  simp only [this]

/-- **C31.** Never a division by zero that matters: with IEEE special values and finite inputs the result is finite and
equals the exact one (`m ≥ 0`). -/
theorem C31_finite (m : ℝ) (σ : Spec) (g p : ℕ → ℕ → ℝ) (s : EmptyState) :
    (scaleByTrustRatio (XReal.fin m)).update (mk σ (fun k i => .fin (g k i))) s
        (some (mk σ (fun k i => .fin (p k i)))) =
      .ok (mk σ (fun k i => .fin (trustFactor σ m g p k * g k i)), s) := by
  rw [trustRatio_update_mk]
  simp only [Except.ok.injEq, Prod.mk.injEq, and_true, mk]
  apply PyTree.mapIdx_congr
  intro k sh hk
  have hsz : σ.size k = sh.prod := by simp [Spec.size, hk]
  unfold trustRatioLeaf
  simp only [safeNorm_fin, Tensor.map_tens, XReal.zero_def, xeqb_fin, Bool.or_eq_true]
  apply Tensor.tens_congr
  intro i _
  unfold trustFactor
  rw [leafNorm_eq_l2, leafNorm_eq_l2, hsz]
  split
  · simp
  · rename_i h
    push Not at h
    rw [XReal.fin_div _ _ h.2, XReal.fin_mul, mul_comm]

/-- **C31.** Missing params raise ValueError. -/
theorem C31_requires_params (m : ℝ) (g : Params ℝ) (s : EmptyState) :
    (scaleByTrustRatio m).update g s none = .error .value := rfl

/-- non-vacuity: a leaf with both norms non-zero -/
example : leafNorm (.leaf [2]) (fun _ _ => 1) 0 ≠ 0 := by
  simp [leafNorm, Spec.size, PyTree.leaves]

end Optax
