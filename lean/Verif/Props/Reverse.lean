import Verif.Model.Reverse
import Verif.Props.Norms
import Verif.Props.Clipping
import Mathlib.Analysis.SpecialFunctions.Sqrt
import Mathlib.Analysis.Calculus.Deriv.Add
import Mathlib.Analysis.Calculus.Deriv.Mul
import Mathlib.Analysis.Calculus.Deriv.Inv
import Mathlib.Analysis.Calculus.Deriv.Pow

/-!
# C112: back-propagating through gradient clipping and the trust ratio
-/

set_option linter.unusedSectionVars false
set_option linter.unusedSimpArgs false

namespace Optax
open Finset

theorem l2_hasDerivAt {ι : Type} (s : Finset ι) (v d : ι → ℝ) (h : l2 s v ≠ 0) :
    HasDerivAt (fun r : ℝ => l2 s (fun i => v i + r * d i)) ((∑ i ∈ s, v i * d i) / l2 s v) 0 := by
  have h0 : ∑ i ∈ s, v i ^ 2 ≠ 0 := by
    intro h'; apply h; unfold l2; rw [h', Real.sqrt_zero]
  have hq : HasDerivAt (fun r : ℝ => ∑ i ∈ s, (v i + r * d i) ^ 2) (∑ i ∈ s, 2 * (v i * d i)) 0 := by
    refine HasDerivAt.fun_sum (fun i _ => ?_)
    have := (((hasDerivAt_id (0 : ℝ)).mul_const (d i)).const_add (v i)).pow 2
    exact this.congr_deriv (by simp; ring)
  have h2 : ∑ i ∈ s, (v i + 0 * d i) ^ 2 ≠ 0 := by simpa using h0
  refine (hq.sqrt h2).congr_deriv ?_
  unfold l2
  rw [← Finset.mul_sum]
  simp only [zero_mul, add_zero]
  have : √(∑ i ∈ s, v i ^ 2) ≠ 0 := h
  field_simp

theorem treeSum_mk (σ : Spec) (v : ℕ → ℕ → ℝ) : treeSum (mk σ v) = ∑ x ∈ idx σ, v x.1 x.2 := by
  unfold treeSum idx
  rw [Finset.sum_sigma, mk_leaves, map_mapIdx_list, sum_mapIdx _ _ ([] : List ℕ), PyTree.leaves_length]
  apply Finset.sum_congr rfl
  intro k hk
  rw [Finset.mem_range, ← PyTree.leaves_length] at hk
  simp only [Tensor.sum, Tensor.tens, Spec.size, List.getElem?_eq_getElem hk, Option.getD_some, Option.map_some]
  rw [sum_map_range]

theorem treeSum_fin (t : Params ℝ) : treeSum (tmap XReal.fin t) = XReal.fin (treeSum t) := by
  unfold treeSum
  rw [← XReal.sum_map_fin, tmap, PyTree.leaves_map, List.map_map, List.map_map]
  congr 1
  apply List.map_congr_left
  intro x _
  simp only [Function.comp, Tensor.map, Tensor.sum]
  rw [← XReal.sum_map_fin]

theorem globalNorm_mk_fin (σ : Spec) (v : ℕ → ℕ → ℝ) : globalNorm (mk σ (fun k i => XReal.fin (v k i))) = .fin (entryNorm σ v) := by
  have := globalNorm_fin (mk σ v)
  rwa [tmap_mk, globalNorm_mk] at this

theorem treeSum_mk_fin (σ : Spec) (v : ℕ → ℕ → ℝ) : treeSum (mk σ (fun k i => XReal.fin (v k i))) = .fin (∑ x ∈ idx σ, v x.1 x.2) := by
  have := treeSum_fin (mk σ v)
  rwa [tmap_mk, treeSum_mk] at this


theorem xhalf : (JOps.ofRat (1 / 2) : XReal) = .fin (1 / 2) := by
  show XReal.fin ((1 / 2 : ℚ) : ℝ) = _; norm_num

/-- what back-propagation through `clip_by_global_norm(m)` should return: the cotangent itself below the threshold, otherwise
`m/‖x‖ (ct - ⟨x, ct⟩/‖x‖² x)` -/
noncomputable def clipPullback (σ : Spec) (m : ℝ) (x ct : ℕ → ℕ → ℝ) (k i : ℕ) : ℝ :=
  if entryNorm σ x < m then ct k i
  else m / entryNorm σ x * (ct k i - (∑ y ∈ idx σ, x y.1 y.2 * ct y.1 y.2) / entryNorm σ x ^ 2 * x k i)

/-- **C112.** Wherever the updates are not all zero, back-propagation through `clip_by_global_norm` gives finite cotangents, … -/
theorem C112_clip_value (σ : Spec) (m : ℝ) (x ct : ℕ → ℕ → ℝ) (hx : entryNorm σ x ≠ 0) :
    clipGlobalVjp (XReal.fin m) (mk σ (fun k i => .fin (x k i))) (mk σ (fun k i => .fin (ct k i))) =
      .ok (mk σ (fun k i => .fin (clipPullback σ m x ct k i))) := by
  unfold clipGlobalVjp
  have hn2 : entryNorm σ x * entryNorm σ x ≠ 0 := mul_ne_zero hx hx
  simp only [globalNorm_mk_fin, xlt_fin, tmap_mk, tzip_mk, Res.ok_bind]
  by_cases h : entryNorm σ x < m
  · simp only [h, if_true, XReal.zero_def, XReal.one_def, XReal.fin_mul, XReal.fin_div _ _ hx, XReal.fin_div _ _ hn2,
      XReal.fin_neg, zero_mul, neg_zero, treeSum_mk_fin, Finset.sum_const_zero, xhalf, XReal.fin_add, zero_div, add_zero]
    refine congrArg _ (mk_congr fun k _ _ i _ => ?_)
    have e2 : (JOps.ofInt 2 : XReal) = .fin 2 := by show XReal.fin ((2 : ℤ) : ℝ) = _; norm_num
    rw [e2]
    simp [clipPullback, h]
  · simp only [h, if_false, XReal.zero_def, XReal.one_def, XReal.fin_mul, XReal.fin_div _ _ hx, XReal.fin_div _ _ hn2,
      XReal.fin_neg, treeSum_mk_fin, xhalf, XReal.fin_add]
    refine congrArg _ (mk_congr fun k _ _ i _ => ?_)
    have e2 : (JOps.ofInt 2 : XReal) = .fin 2 := by show XReal.fin ((2 : ℤ) : ℝ) = _; norm_num
    rw [e2]
    have e3 : ∑ y ∈ idx σ, -(ct y.1 y.2 * m * (1 / (entryNorm σ x * entryNorm σ x)) * x y.1 y.2) =
        -(m / entryNorm σ x ^ 2) * ∑ y ∈ idx σ, x y.1 y.2 * ct y.1 y.2 := by
      rw [Finset.mul_sum]
      exact Finset.sum_congr rfl (fun y _ => by field_simp)
    rw [e3]
    simp only [clipPullback, h, if_false, XReal.fin_mul, XReal.fin_add, XReal.fin.injEq]
    generalize ∑ y ∈ idx σ, x y.1 y.2 * ct y.1 y.2 = S
    field_simp
    ring

/-- the directional derivative of `⟨ct, clip_by_global_norm(m)(x)⟩` in the direction `d`: `f r` is the value at `x + r d` -/
def ClipLine (σ : Spec) (m : ℝ) (x ct d : ℕ → ℕ → ℝ) (f : ℝ → ℝ) : Prop :=
  ∀ r : ℝ, ∃ u s', (clipByGlobalNorm m).update (mk σ (fun k i => x k i + r * d k i)) ⟨⟩ none = .ok (mk σ u, s') ∧
    f r = ∑ y ∈ idx σ, ct y.1 y.2 * u y.1 y.2

/-- … and away from the threshold they are the transposed derivative: for every direction `d`, the derivative of `⟨ct, clip(x + r d)⟩`
at `r = 0` is `⟨cotangent, d⟩`. -/
theorem C112_clip_correct (σ : Spec) (m : ℝ) (hm : 0 < m) (x ct d : ℕ → ℕ → ℝ) (hne : entryNorm σ x ≠ m) :
    ∃ f, ClipLine σ m x ct d f ∧ (entryNorm σ x ≠ 0 →
      HasDerivAt f (∑ y ∈ idx σ, clipPullback σ m x ct y.1 y.2 * d y.1 y.2) 0) ∧
      (entryNorm σ x = 0 → HasDerivAt f (∑ y ∈ idx σ, ct y.1 y.2 * d y.1 y.2) 0) := by
  let n : ℝ → ℝ := fun r => l2 (idx σ) (fun y => x y.1 y.2 + r * d y.1 y.2)
  let U : ℝ → ℕ → ℕ → ℝ := fun r k i => if n r < m then x k i + r * d k i else (x k i + r * d k i) / n r * m
  have hn0 : n 0 = entryNorm σ x := by simp [n, entryNorm]
  have hnc : Continuous n := by
    unfold n l2
    fun_prop
  refine ⟨fun r => ∑ y ∈ idx σ, ct y.1 y.2 * U r y.1 y.2, fun r => ⟨U r, ⟨⟩, ?_, rfl⟩, ?_⟩
  · show Except.ok (tmap _ (mk σ _), _) = _
    rw [tmap_mk]
    congr 2
    apply mk_congr
    intro k _ _ i _
    rw [globalNorm_mk]
    simp only [jlt_real]
    rfl
  have below : n 0 < m → HasDerivAt (fun r => ∑ y ∈ idx σ, ct y.1 y.2 * U r y.1 y.2) (∑ y ∈ idx σ, ct y.1 y.2 * d y.1 y.2) 0 := by
    intro hlt
    have hev : ∀ᶠ r in nhds (0 : ℝ), n r < m := hnc.continuousAt.eventually_lt continuousAt_const hlt
    have h1 : HasDerivAt (fun r : ℝ => ∑ y ∈ idx σ, ct y.1 y.2 * (x y.1 y.2 + r * d y.1 y.2)) (∑ y ∈ idx σ, ct y.1 y.2 * d y.1 y.2) 0 := by
      refine HasDerivAt.fun_sum (fun y _ => ?_)
      have := (((hasDerivAt_id (0 : ℝ)).mul_const (d y.1 y.2)).const_add (x y.1 y.2)).const_mul (ct y.1 y.2)
      exact this.congr_deriv (by simp)
    refine h1.congr_of_eventuallyEq ?_
    filter_upwards [hev] with r hr
    exact Finset.sum_congr rfl (fun y _ => by simp only [U, if_pos hr])
  refine ⟨fun hx => ?_, fun hx => below (by rw [hn0, hx]; exact hm)⟩
  rcases lt_or_gt_of_ne hne with hlt | hgt
  · refine (below (by rw [hn0]; exact hlt)).congr_deriv ?_
    exact Finset.sum_congr rfl (fun y _ => by simp only [clipPullback, if_pos hlt])
  · have hev : ∀ᶠ r in nhds (0 : ℝ), m < n r := continuousAt_const.eventually_lt hnc.continuousAt (by rw [hn0]; exact hgt)
    have hnd : HasDerivAt n ((∑ y ∈ idx σ, x y.1 y.2 * d y.1 y.2) / entryNorm σ x) 0 :=
      l2_hasDerivAt (idx σ) (fun y => x y.1 y.2) (fun y => d y.1 y.2) hx
    have hx0 : n 0 ≠ 0 := by rw [hn0]; exact hx
    have h1 : HasDerivAt (fun r : ℝ => ∑ y ∈ idx σ, ct y.1 y.2 * ((x y.1 y.2 + r * d y.1 y.2) / n r * m))
        (∑ y ∈ idx σ, ct y.1 y.2 * ((d y.1 y.2 * n 0 - x y.1 y.2 * ((∑ y ∈ idx σ, x y.1 y.2 * d y.1 y.2) / entryNorm σ x)) / n 0 ^ 2 * m)) 0 := by
      refine HasDerivAt.fun_sum (fun y _ => ?_)
      have := (((((hasDerivAt_id (0 : ℝ)).mul_const (d y.1 y.2)).const_add (x y.1 y.2)).div hnd hx0).mul_const m).const_mul (ct y.1 y.2)
      exact this.congr_deriv (by simp)
    have h2 := h1.congr_of_eventuallyEq (f₁ := fun r => ∑ y ∈ idx σ, ct y.1 y.2 * U r y.1 y.2) (by
      filter_upwards [hev] with r hr
      exact Finset.sum_congr rfl (fun y _ => by simp only [U, if_neg (not_lt.mpr hr.le)]))
    refine h2.congr_deriv ?_
    rw [hn0]
    simp only [clipPullback, if_neg (not_lt.mpr hgt.le)]
    have e1 : ∀ y ∈ idx σ, ct y.1 y.2 * ((d y.1 y.2 * entryNorm σ x - x y.1 y.2 * ((∑ y ∈ idx σ, x y.1 y.2 * d y.1 y.2) / entryNorm σ x)) /
        entryNorm σ x ^ 2 * m) = m / entryNorm σ x * (ct y.1 y.2 * d y.1 y.2) -
        m * (∑ y ∈ idx σ, x y.1 y.2 * d y.1 y.2) / entryNorm σ x ^ 3 * (x y.1 y.2 * ct y.1 y.2) := fun y _ => by
      field_simp
    have e2 : ∀ y ∈ idx σ, m / entryNorm σ x * (ct y.1 y.2 - (∑ y ∈ idx σ, x y.1 y.2 * ct y.1 y.2) / entryNorm σ x ^ 2 * x y.1 y.2) * d y.1 y.2 =
        m / entryNorm σ x * (ct y.1 y.2 * d y.1 y.2) -
        m * (∑ y ∈ idx σ, x y.1 y.2 * ct y.1 y.2) / entryNorm σ x ^ 3 * (x y.1 y.2 * d y.1 y.2) := fun y _ => by
      field_simp
    rw [Finset.sum_congr rfl e1, Finset.sum_congr rfl e2, Finset.sum_sub_distrib, Finset.sum_sub_distrib, ← Finset.mul_sum, ← Finset.mul_sum,
      ← Finset.mul_sum]
    ring

theorem fin_zero_div_zero : XReal.fin 0 / XReal.fin 0 = .nan := by
  show (if (0 : ℝ) = 0 then XReal.infOf (0 : ℝ) else _) = _
  simp [XReal.infOf]

/-- **C112 (finding).** Where all updates are zero, `clip_by_global_norm` is the identity (its derivative is the identity,
`C112_clip_correct`), but back-propagation returns NaN for every entry, whatever the cotangent. -/
theorem C112_clip_nan (σ : Spec) (m : ℝ) (hm : 0 < m) (ct : ℕ → ℕ → ℝ) :
    clipGlobalVjp (XReal.fin m) (mk σ (fun _ _ => .fin 0)) (mk σ (fun k i => .fin (ct k i))) = .ok (mk σ (fun _ _ => .nan)) := by
  unfold clipGlobalVjp
  have h0 : entryNorm σ (fun _ _ => 0) = 0 := by simp [entryNorm, l2]
  have hg := globalNorm_mk_fin σ (fun _ _ => 0)
  rw [h0] at hg
  simp only [hg, xlt_fin, hm, if_true, tmap_mk, tzip_mk, Res.ok_bind]
  refine congrArg _ (mk_congr fun k _ _ i _ => ?_)
  simp only [XReal.zero_def, XReal.fin_mul, zero_mul, fin_zero_div_zero, XReal.add_nan, XReal.nan_add]

/-! ## The trust ratio -/

theorem xeqb_zero (a : ℝ) : (JOps.eqb (XReal.fin a) 0 = true) ↔ a = 0 := by
  show (XReal.eqb (.fin a) (.fin 0) = true) ↔ _
  simp [XReal.eqb]

/-- cotangents of update and param that back-propagation through one leaf of `scale_by_trust_ratio(m)` returns -/
noncomputable def trustPullback (s : List ℕ) (m : ℝ) (u p ct : ℕ → ℝ) : (ℕ → ℝ) × (ℕ → ℝ) :=
  let U := max (l2 (range s.prod) u) m
  let P := max (l2 (range s.prod) p) m
  let S := ∑ i ∈ range s.prod, ct i * u i
  if P = 0 then (ct, fun _ => 0)
  else (fun i => P / U * ct i - (if l2 (range s.prod) u ≤ m then 0 else P * S / U ^ 3 * u i),
    fun i => if l2 (range s.prod) p ≤ m then 0 else S / (U * P) * p i)

/-- **C112.** Back-propagation through `scale_by_trust_ratio(min_norm)` gives finite cotangents for update and param unless `min_norm = 0`
and the update is zero, … -/
theorem C112_trust_value (s : List ℕ) (m : ℝ) (hm : 0 ≤ m) (u p ct : ℕ → ℝ) (hU : max (l2 (range s.prod) u) m ≠ 0) :
    trustRatioVjp (XReal.fin m) (Tensor.tens s (fun i => .fin (u i))) (Tensor.tens s (fun i => .fin (p i))) (Tensor.tens s (fun i => .fin (ct i))) =
      .ok (Tensor.tens s (fun i => .fin ((trustPullback s m u p ct).1 i)), Tensor.tens s (fun i => .fin ((trustPullback s m u p ct).2 i))) := by
  unfold trustRatioVjp
  have hU2 : max (l2 (range s.prod) u) m * max (l2 (range s.prod) u) m ≠ 0 := mul_ne_zero hU hU
  have hsum : (Tensor.tens s (fun i => XReal.fin (ct i * u i))).sum = .fin (∑ i ∈ range s.prod, ct i * u i) := by
    simp only [Tensor.sum, Tensor.tens]
    rw [show (fun i => XReal.fin (ct i * u i)) = XReal.fin ∘ (fun i => ct i * u i) from rfl, ← List.map_map, XReal.sum_map_fin, sum_map_range]
  simp only [safeNorm_fin, Bool.or_eq_true, xeqb_zero, hU, or_false, Tensor.bop_tens, Res.ok_bind, XReal.fin_mul, hsum, XReal.one_def,
    XReal.fin_div _ _ hU, XReal.fin_div _ _ hU2]
  by_cases hP : max (l2 (range s.prod) p) m = 0
  · have hl : l2 (range s.prod) p ≤ m := by
      have h1 := le_max_left (l2 (range s.prod) p) m
      have h2 : 0 ≤ l2 (range s.prod) p := Real.sqrt_nonneg _
      linarith
    simp only [hP, if_true, XReal.zero_def, XReal.fin_div _ _ hU, XReal.fin_mul, XReal.fin_neg, C32_reverse_derivative _ _ _ _ hm,
      Tensor.bop_tens, Res.ok_bind, XReal.fin_add, Res.pure_eq, trustPullback]
    simp [hl]
  · simp only [hP, if_false, XReal.fin_div _ _ hU, XReal.fin_mul, XReal.fin_neg, C32_reverse_derivative _ _ _ _ hm,
      Tensor.bop_tens, Res.ok_bind, XReal.fin_add, Res.pure_eq, trustPullback]
    refine congrArg Except.ok (Prod.ext ?_ ?_)
    · apply Tensor.tens_congr
      intro i _
      simp only [XReal.fin.injEq]
      by_cases h : l2 (range s.prod) u ≤ m
      · simp only [h, if_true]; ring
      · simp only [h, if_false]
        rw [max_eq_left (not_le.mp h).le] at hU ⊢
        field_simp
        ring
    · apply Tensor.tens_congr
      intro i _
      simp only [XReal.fin.injEq]
      by_cases h : l2 (range s.prod) p ≤ m
      · simp only [h, if_true]
      · simp only [h, if_false]
        rw [max_eq_left (not_le.mp h).le] at hP ⊢
        field_simp

/-- a norm clipped from below, along a line -/
theorem maxNorm_hasDerivAt {ι : Type} (s : Finset ι) (v d : ι → ℝ) (m : ℝ) (hm : 0 ≤ m) (h : l2 s v ≠ m) :
    HasDerivAt (fun r : ℝ => max (l2 s (fun i => v i + r * d i)) m) (if l2 s v ≤ m then 0 else (∑ i ∈ s, v i * d i) / l2 s v) 0 := by
  have hc : Continuous (fun r : ℝ => l2 s (fun i => v i + r * d i)) := by unfold l2; fun_prop
  have h0 : l2 s (fun i => v i + 0 * d i) = l2 s v := by simp
  rcases lt_or_gt_of_ne h with hlt | hgt
  · rw [if_pos hlt.le]
    refine (hasDerivAt_const (0 : ℝ) m).congr_of_eventuallyEq ?_
    have : ∀ᶠ r in nhds (0 : ℝ), l2 s (fun i => v i + r * d i) < m := hc.continuousAt.eventually_lt continuousAt_const (by rw [h0]; exact hlt)
    filter_upwards [this] with r hr
    exact max_eq_right hr.le
  · rw [if_neg (not_le.mpr hgt)]
    refine (l2_hasDerivAt s v d (by linarith)).congr_of_eventuallyEq ?_
    have : ∀ᶠ r in nhds (0 : ℝ), m < l2 s (fun i => v i + r * d i) := continuousAt_const.eventually_lt hc.continuousAt (by rw [h0]; exact hgt)
    filter_upwards [this] with r hr
    exact max_eq_left hr.le

/-- … and away from the thresholds they are the transposed derivative: moving update and param along `a` and `b`, the derivative of
`⟨ct, scale_by_trust_ratio(update + r a, param + r b)⟩` is `⟨ct_update, a⟩ + ⟨ct_param, b⟩`. -/
theorem C112_trust_correct (s : List ℕ) (m : ℝ) (hm : 0 ≤ m) (u p ct a b : ℕ → ℝ) (hu : l2 (range s.prod) u ≠ m) (hp : l2 (range s.prod) p ≠ m) :
    ∃ f : ℝ → ℝ, (∀ r, ∃ w, trustRatioLeaf m (Tensor.tens s (fun i => u i + r * a i)) (Tensor.tens s (fun i => p i + r * b i)) = Tensor.tens s w ∧
        f r = ∑ i ∈ range s.prod, ct i * w i) ∧
      HasDerivAt f (∑ i ∈ range s.prod, (trustPullback s m u p ct).1 i * a i + ∑ i ∈ range s.prod, (trustPullback s m u p ct).2 i * b i) 0 := by
  set R := range s.prod with hR
  have hu0 : 0 ≤ l2 R u := Real.sqrt_nonneg _
  have hp0 : 0 ≤ l2 R p := Real.sqrt_nonneg _
  have hUpos : 0 < max (l2 R u) m := by
    rcases lt_or_gt_of_ne hu with h | h
    · rw [max_eq_right h.le]; linarith
    · rw [max_eq_left h.le]; linarith
  have hPpos : 0 < max (l2 R p) m := by
    rcases lt_or_gt_of_ne hp with h | h
    · rw [max_eq_right h.le]; linarith
    · rw [max_eq_left h.le]; linarith
  let nU : ℝ → ℝ := fun r => max (l2 R (fun i => u i + r * a i)) m
  let nP : ℝ → ℝ := fun r => max (l2 R (fun i => p i + r * b i)) m
  let fac : ℝ → ℝ := fun r => if nP r = 0 ∨ nU r = 0 then 1 else nP r / nU r
  refine ⟨fun r => ∑ i ∈ R, ct i * ((u i + r * a i) * fac r), fun r => ⟨fun i => (u i + r * a i) * fac r, ?_, rfl⟩, ?_⟩
  · unfold trustRatioLeaf
    simp only [C32_safe_norm, Tensor.map_tens, jeqb_real, Bool.or_eq_true]
    rfl
  have hdU := maxNorm_hasDerivAt R u a m hm hu
  have hdP := maxNorm_hasDerivAt R p b m hm hp
  have eU : nU 0 = max (l2 R u) m := by simp [nU]
  have eP : nP 0 = max (l2 R p) m := by simp [nP]
  have hfac : HasDerivAt fac (((if l2 R p ≤ m then 0 else (∑ i ∈ R, p i * b i) / l2 R p) * max (l2 R u) m -
      max (l2 R p) m * (if l2 R u ≤ m then 0 else (∑ i ∈ R, u i * a i) / l2 R u)) / max (l2 R u) m ^ 2) 0 := by
    have hU0 : nU 0 ≠ 0 := by rw [eU]; exact hUpos.ne'
    have h1 : HasDerivAt (fun r => nP r / nU r) _ 0 := hdP.div hdU hU0
    have h2 := h1.congr_of_eventuallyEq (f₁ := fac) (by
      have c1 : ∀ᶠ r in nhds (0 : ℝ), 0 < nU r := continuousAt_const.eventually_lt hdU.continuousAt (by show 0 < nU 0; rw [eU]; exact hUpos)
      have c2 : ∀ᶠ r in nhds (0 : ℝ), 0 < nP r := continuousAt_const.eventually_lt hdP.continuousAt (by show 0 < nP 0; rw [eP]; exact hPpos)
      filter_upwards [c1, c2] with r r1 r2
      show (if nP r = 0 ∨ nU r = 0 then 1 else nP r / nU r) = _
      rw [if_neg (by simp [r1.ne', r2.ne'])])
    refine h2.congr_deriv ?_
    simp only [zero_mul, add_zero, eU]
  have hf0 : fac 0 = max (l2 R p) m / max (l2 R u) m := by
    show (if nP 0 = 0 ∨ nU 0 = 0 then 1 else nP 0 / nU 0) = _
    rw [eU, eP, if_neg (by simp [hUpos.ne', hPpos.ne'])]
  generalize hD : ((if l2 R p ≤ m then 0 else (∑ i ∈ R, p i * b i) / l2 R p) * max (l2 R u) m -
      max (l2 R p) m * (if l2 R u ≤ m then 0 else (∑ i ∈ R, u i * a i) / l2 R u)) / max (l2 R u) m ^ 2 = D at hfac
  have hmain : HasDerivAt (fun r : ℝ => ∑ i ∈ R, ct i * ((u i + r * a i) * fac r)) (∑ i ∈ R, ct i * (a i * fac 0 + u i * D)) 0 := by
    refine HasDerivAt.fun_sum (fun i _ => ?_)
    have := ((((hasDerivAt_id (0 : ℝ)).mul_const (a i)).const_add (u i)).mul hfac).const_mul (ct i)
    exact this.congr_deriv (by simp)
  refine hmain.congr_deriv ?_
  rw [hf0]
  simp only [trustPullback, ← hR, if_neg hPpos.ne']
  have es : ∀ D : ℝ, ∑ i ∈ R, ct i * (a i * (max (l2 R p) m / max (l2 R u) m) + u i * D) =
      max (l2 R p) m / max (l2 R u) m * ∑ i ∈ R, ct i * a i + D * ∑ i ∈ R, ct i * u i := by
    intro D
    rw [Finset.mul_sum, Finset.mul_sum, ← Finset.sum_add_distrib]
    exact Finset.sum_congr rfl (fun i _ => by ring)
  rw [es, ← hD]
  generalize hS : ∑ i ∈ R, ct i * u i = S
  have e1 : ∑ i ∈ R, (max (l2 R p) m / max (l2 R u) m * ct i - (if l2 R u ≤ m then 0 else max (l2 R p) m * S / max (l2 R u) m ^ 3 * u i)) * a i =
      max (l2 R p) m / max (l2 R u) m * ∑ i ∈ R, ct i * a i -
        (if l2 R u ≤ m then 0 else max (l2 R p) m * S / max (l2 R u) m ^ 3 * ∑ i ∈ R, u i * a i) := by
    split
    · rw [Finset.mul_sum, sub_zero]
      exact Finset.sum_congr rfl (fun i _ => by ring)
    · rw [Finset.mul_sum, Finset.mul_sum, ← Finset.sum_sub_distrib]
      exact Finset.sum_congr rfl (fun i _ => by ring)
  have e2 : ∑ i ∈ R, (if l2 R p ≤ m then 0 else S / (max (l2 R u) m * max (l2 R p) m) * p i) * b i =
      if l2 R p ≤ m then 0 else S / (max (l2 R u) m * max (l2 R p) m) * ∑ i ∈ R, p i * b i := by
    split
    · simp
    · rw [Finset.mul_sum]
      exact Finset.sum_congr rfl (fun i _ => by ring)
  rw [e1, e2]
  generalize ∑ i ∈ R, u i * a i = X
  generalize ∑ i ∈ R, p i * b i = Y
  generalize ∑ i ∈ R, ct i * a i = Z
  have hU0 := hUpos.ne'
  have hP0 := hPpos.ne'
  by_cases h1 : l2 R u ≤ m <;> by_cases h2 : l2 R p ≤ m
  · simp only [h1, h2, if_true]; ring
  · simp only [h1, h2, if_true, if_false]
    rw [max_eq_left (not_le.mp h2).le] at hP0 ⊢
    generalize max (l2 R u) m = A at *
    field_simp
    ring
  · simp only [h1, h2, if_true, if_false]
    rw [max_eq_left (not_le.mp h1).le] at hU0 ⊢
    generalize max (l2 R p) m = A at *
    field_simp
    ring
  · simp only [h1, h2, if_false]
    rw [max_eq_left (not_le.mp h1).le] at hU0 ⊢
    rw [max_eq_left (not_le.mp h2).le] at hP0 ⊢
    field_simp
    ring

/-- **C112 (finding).** With `min_norm = 0` (the default, used by `lamb`): where the update of a leaf is zero and its parameters are not, the
returned update is zero for all parameters nearby, but back-propagation returns NaN for the cotangent of every parameter of the leaf. -/
theorem C112_trust_nan (s : List ℕ) (p ct : ℕ → ℝ) (hp : l2 (range s.prod) p ≠ 0) :
    trustRatioVjp (XReal.fin 0) (Tensor.tens s (fun _ => .fin 0)) (Tensor.tens s (fun i => .fin (p i))) (Tensor.tens s (fun i => .fin (ct i))) =
      .ok (Tensor.tens s (fun i => .fin (ct i)), Tensor.tens s (fun _ => .nan)) ∧
    ∀ q : ℕ → ℝ, trustRatioLeaf 0 (Tensor.tens s (fun _ => (0 : ℝ))) (Tensor.tens s q) = Tensor.tens s (fun _ => 0) := by
  constructor
  · have h0 : l2 (range s.prod) (fun _ => (0 : ℝ)) = 0 := by simp [l2]
    have hp0 : 0 < l2 (range s.prod) p := lt_of_le_of_ne (Real.sqrt_nonneg _) (Ne.symm hp)
    unfold trustRatioVjp
    simp only [safeNorm_fin, Bool.or_eq_true, xeqb_zero, h0, max_self, max_eq_left hp0.le, hp, or_true, if_true, Tensor.bop_tens, Res.ok_bind,
      XReal.fin_mul]
    simp only [XReal.zero_def, fin_zero_div_zero]
    have e1 : ∀ c, safeNormVjp (Tensor.tens s (fun _ => XReal.fin 0)) (.fin 0) c = Tensor.tens s (fun _ => .fin 0) := by
      intro c
      unfold safeNormVjp
      simp only [norm_fin, xle_fin, h0, le_refl, if_true]
      rfl
    have e2 : safeNormVjp (Tensor.tens s (fun i => XReal.fin (p i))) (.fin 0) .nan = Tensor.tens s (fun _ => .nan) := by
      unfold safeNormVjp normVjp
      simp only [norm_fin, xle_fin, not_le.mpr hp0, if_false, Tensor.map_tens, XReal.nan_mul, XReal.nan_add]
    rw [e1, e2]
    simp only [Tensor.bop_tens, Res.ok_bind, XReal.one_def, XReal.fin_mul, XReal.fin_add, mul_one, add_zero, Res.pure_eq]
  · intro q
    unfold trustRatioLeaf
    simp only [Tensor.map_tens, zero_mul]

/-- the hypotheses are met: updates (3, 4) of norm 5, threshold 1 -/
example : entryNorm (.leaf [2]) (fun _ i => if i = 0 then 3 else 4) ≠ 0 ∧ entryNorm (.leaf [2]) (fun _ i => if i = 0 then 3 else 4) ≠ 1 := by
  have : entryNorm (.leaf [2]) (fun _ i => if i = 0 then 3 else 4) = 5 := by
    have e : ∑ x ∈ idx (.leaf [2]), ((if x.2 = 0 then 3 else 4 : ℝ)) ^ 2 = 25 := by
      rw [idx, Finset.sum_sigma]
      simp [PyTree.numLeaves, Spec.size, PyTree.leaves, Finset.sum_range_succ]
      norm_num
    unfold entryNorm l2
    rw [e, show (25 : ℝ) = 5 ^ 2 by norm_num, Real.sqrt_sq (by norm_num)]
  rw [this]; norm_num

end Optax
