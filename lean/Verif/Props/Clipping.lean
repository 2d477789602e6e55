import Verif.Lemmas.Norm
import Verif.Props.Structure

/-!
# C11 (`clip`), C12 (`clip_by_global_norm`), C61 (`global_norm`)
-/

set_option linter.unusedSectionVars false
set_option linter.unusedSimpArgs false

namespace Optax
open Finset

/-! ## C11 -/

/-- **C11.** `clip d`, `d ≥ 0`: entries land in `[-d, d]`, entries in range are untouched, the sign is
kept (a positive entry does not become negative and vice versa), and the result is a closest
point of `[-d, d]`. -/
theorem C11_clip (d : ℝ) (hd : 0 ≤ d) (σ : Spec) (g : ℕ → ℕ → ℝ) (s : EmptyState)
    (pp : Option (Params ℝ)) :
    ∃ u, (clip d).update (mk σ g) s pp = .ok (mk σ u, s) ∧
      (∀ k i, |u k i| ≤ d) ∧
      (∀ k i, |g k i| ≤ d → u k i = g k i) ∧
      (∀ k i, 0 ≤ g k i → 0 ≤ u k i) ∧ (∀ k i, g k i ≤ 0 → u k i ≤ 0) ∧
      (∀ k i, d < g k i → u k i = d) ∧ (∀ k i, g k i < -d → u k i = -d) ∧
      (∀ k i y, |y| ≤ d → |g k i - u k i| ≤ |g k i - y|) := by
  refine ⟨_, clip_update_mk σ g pp d s, ?_, ?_, ?_, ?_, ?_, ?_, ?_⟩
  all_goals simp only [jmin_real, jmax_real]
  · intro k i
    rw [abs_le]
    exact ⟨le_min (le_max_right _ _) (by linarith), min_le_right _ _⟩
  · intro k i h
    rw [abs_le] at h
    rw [max_eq_left h.1, min_eq_left h.2]
  · intro k i h
    exact le_min (le_trans h (le_max_left _ _)) hd
  · intro k i h
    exact le_trans (min_le_left _ _) (max_le h (by linarith))
  · intro k i h
    rw [max_eq_left (by linarith), min_eq_right h.le]
  · intro k i h
    rw [max_eq_right h.le, min_eq_left (by linarith)]
  · intro k i y hy
    rw [abs_le] at hy
    rcases lt_or_ge (g k i) (-d) with h | h
    · rw [max_eq_right h.le, min_eq_left (by linarith), abs_of_nonpos (by linarith),
        abs_of_nonpos (by linarith)]
      linarith
    · rw [max_eq_left h]
      rcases le_or_gt (g k i) d with h' | h'
      · rw [min_eq_left h']; simp
      · rw [min_eq_right h'.le, abs_of_nonneg (by linarith), abs_of_nonneg (by linarith)]
        linarith

/-- **C11.** `clip` is idempotent: clipping the clipped updates changes nothing. -/
theorem C11_idempotent (d : ℝ) (hd : 0 ≤ d) (σ : Spec) (g u : ℕ → ℕ → ℝ) (s s' : EmptyState)
    (pp : Option (Params ℝ)) (h : (clip d).update (mk σ g) s pp = .ok (mk σ u, s')) :
    (clip d).update (mk σ u) s' pp = .ok (mk σ u, s') := by
  rw [clip_update_mk] at h ⊢
  simp only [Except.ok.injEq, Prod.mk.injEq] at h ⊢
  refine ⟨mk_congr ?_, trivial⟩
  intro k sh hk i hi
  rw [← mk_inj h.1 k sh hk i hi]
  simp only [jmin_real, jmax_real]
  rw [max_eq_left (le_min (le_max_right _ _) (by linarith)), min_eq_left (min_le_right _ _)]

/-- **C11.** `clip` is monotone, entry by entry. -/
theorem C11_monotone (d : ℝ) (σ : Spec) (g g' : ℕ → ℕ → ℝ) (s : EmptyState)
    (pp pp' : Option (Params ℝ)) (h : ∀ k i, g k i ≤ g' k i) :
    ∃ u u', (clip d).update (mk σ g) s pp = .ok (mk σ u, s) ∧
      (clip d).update (mk σ g') s pp' = .ok (mk σ u', s) ∧ ∀ k i, u k i ≤ u' k i := by
  refine ⟨_, _, clip_update_mk σ g pp d s, clip_update_mk σ g' pp' d s, ?_⟩
  intro k i
  simp only [jmin_real, jmax_real]
  exact min_le_min_right _ (max_le_max_right _ (h k i))

example : (0 : ℝ) ≤ 1 ∧ ∀ k i : ℕ, ((fun _ _ => -3 : ℕ → ℕ → ℝ) k i) ≤ (fun _ _ => 2 : ℕ → ℕ → ℝ) k i :=
  ⟨zero_le_one, fun _ _ => by norm_num⟩

/-! ## C61 -/

/-- **C61.** For every tree of arrays, `global_norm` is the Euclidean norm of the concatenation
of all entries of all leaves. -/
theorem C61_concat (t : Params ℝ) :
    globalNorm t = Real.sqrt (((t.leaves.flatMap Tensor.data).map (fun x => x ^ 2)).sum) := by
  unfold globalNorm
  rw [jsqrt_real]
  congr 1
  generalize t.leaves = l
  induction l with
  | nil => simp
  | cons x l ih =>
    simp only [List.map_cons, List.sum_cons, List.flatMap_cons, List.map_append, List.sum_append,
      ih]
    congr 1
    simp [Tensor.sum, Tensor.map, pow_two]

/-- **C61.** The grouping of entries into leaves and containers, the shapes and even the order of the
entries do not matter. -/
theorem C61_regroup (t u : Params ℝ)
    (h : (t.leaves.flatMap Tensor.data).Perm (u.leaves.flatMap Tensor.data)) :
    globalNorm t = globalNorm u := by
  rw [C61_concat, C61_concat]
  congr 1
  exact (h.map _).sum_eq

/-- **C61.** `global_norm` is non-negative. -/
theorem C61_nonneg (t : Params ℝ) : 0 ≤ globalNorm t := by
  rw [C61_concat]; exact Real.sqrt_nonneg _

/-- **C61.** `global_norm` is 0 exactly when all entries are 0. -/
theorem C61_eq_zero (t : Params ℝ) : globalNorm t = 0 ↔ ∀ x ∈ t.leaves, ∀ y ∈ x.data, y = 0 := by
  rw [C61_concat]
  have hn : ∀ l : List ℝ, 0 ≤ (l.map (fun x => x ^ 2)).sum := fun l =>
    List.sum_nonneg (by simp only [List.mem_map]; rintro _ ⟨a, _, rfl⟩; positivity)
  rw [Real.sqrt_eq_zero (hn _)]
  have key : ∀ l : List ℝ, (l.map (fun x => x ^ 2)).sum = 0 ↔ ∀ y ∈ l, y = 0 := by
    intro l
    induction l with
    | nil => simp
    | cons a l ih =>
      simp only [List.map_cons, List.sum_cons, List.mem_cons, forall_eq_or_imp, ← ih]
      constructor
      · intro h
        have := hn l
        have h2 := sq_nonneg a
        exact ⟨by nlinarith, by linarith⟩
      · rintro ⟨rfl, h⟩; rw [h]; simp
  rw [key]
  simp only [List.mem_flatMap]
  exact ⟨fun h x hx y hy => h y ⟨x, hx, hy⟩, fun h y ⟨x, hx, hy⟩ => h x hx y hy⟩

/-- **C61.** Absolute homogeneity: `global_norm(c * t) = |c| * global_norm(t)`. -/
theorem C61_smul (t : Params ℝ) (c : ℝ) :
    globalNorm (tmap (fun x => c * x) t) = |c| * globalNorm t := by
  rw [C61_concat, C61_concat, ← Real.sqrt_sq_eq_abs, ← Real.sqrt_mul (sq_nonneg c)]
  congr 1
  simp only [tmap, PyTree.leaves_map]
  generalize t.leaves = l
  induction l with
  | nil => simp
  | cons x l ih =>
    simp only [List.map_cons, List.flatMap_cons, List.map_append, List.sum_append, ih, mul_add]
    congr 1
    simp only [Tensor.map, List.map_map]
    generalize x.data = d
    induction d with
    | nil => simp
    | cons a d ih => simp only [List.map_cons, List.sum_cons, ih, Function.comp]; ring

/-- **C61.** Triangle inequality for trees of the same structure and shapes. -/
theorem C61_triangle (t u : Params ℝ) (ht : WF t) (hu : WF u) (hs : spec t = spec u) :
    ∃ w, tzip (fun a b => a + b) t u = .ok w ∧ globalNorm w ≤ globalNorm t + globalNorm u := by
  obtain ⟨v, hv⟩ := exists_mk t ht
  obtain ⟨v', hv'⟩ := exists_mk u hu
  rw [← hs] at hv'
  generalize spec t = σ at hv hv'
  subst hv hv'
  refine ⟨_, tzip_mk _ _ _ _, ?_⟩
  rw [globalNorm_mk, globalNorm_mk, globalNorm_mk]
  exact l2_add_le _ _ _

/-- non-vacuity: two well-formed trees of the same structure and shapes -/
example : ∃ t u : Params ℝ, WF t ∧ WF u ∧ spec t = spec u ∧ t ≠ u :=
  ⟨mk (.node .tuple [.leaf [2], .leaf []]) (fun _ i => i),
   mk (.node .tuple [.leaf [2], .leaf []]) (fun _ _ => 5), WF_mk _ _, WF_mk _ _, by simp, by
    intro h
    have := mk_inj h 0 [2] (by simp [PyTree.leaves, PyTree.leavesL]) 0 (by simp)
    norm_num at this⟩

/-! ## C12 -/

/-- **C12.** `clip_by_global_norm(m)`, `m > 0`: the result's global norm is exactly
`min(‖g‖, m)`; gradients of norm below `m` are returned unchanged; all entries are multiplied by one common
factor in `(0, 1]`, which is `m/‖g‖` whenever `‖g‖ ≥ m`. -/
theorem C12_clip_by_global_norm (m : ℝ) (hm : 0 < m) (σ : Spec) (g : ℕ → ℕ → ℝ) (s : EmptyState)
    (pp : Option (Params ℝ)) :
    ∃ u, (clipByGlobalNorm m).update (mk σ g) s pp = .ok (mk σ u, s) ∧
      globalNorm (mk σ u) = min (globalNorm (mk σ g)) m ∧
      (globalNorm (mk σ g) < m → mk σ u = mk σ g) ∧
      ∃ c, 0 < c ∧ c ≤ 1 ∧ (m ≤ globalNorm (mk σ g) → c = m / globalNorm (mk σ g)) ∧
        ∀ k i, u k i = c * g k i := by
  have h0 : 0 ≤ globalNorm (mk σ g) := C61_nonneg _
  by_cases h : globalNorm (mk σ g) < m
  · refine ⟨g, by rw [clipByGlobalNorm_update_mk]; simp only [jlt_real, h, if_true], by rw [min_eq_left h.le], fun _ => rfl, 1, one_pos, le_refl _, fun h' => ?_,
      by simp⟩
    exact absurd h (not_lt.mpr h')
  · have h' := not_lt.mp h
    have hp : 0 < globalNorm (mk σ g) := lt_of_lt_of_le hm h'
    have e : ∀ k i, g k i / globalNorm (mk σ g) * m = m / globalNorm (mk σ g) * g k i := by
      intro k i; ring
    refine ⟨fun k i => g k i / globalNorm (mk σ g) * m,
      by rw [clipByGlobalNorm_update_mk]; simp only [jlt_real, h, if_false], ?_, fun h' => absurd h' h, m / globalNorm (mk σ g), div_pos hm hp,
      (div_le_one hp).mpr h', fun _ => rfl, e⟩
    rw [min_eq_right h']
    have : mk σ (fun k i => g k i / globalNorm (mk σ g) * m) =
        tmap (fun x => m / globalNorm (mk σ g) * x) (mk σ g) := by
      rw [tmap_mk]; exact mk_congr (fun k _ _ i _ => e k i)
    rw [this, C61_smul, abs_of_pos (div_pos hm hp), div_mul_cancel₀ _ hp.ne']

/-- **C12.** Idempotent: a second application changes nothing. -/
theorem C12_idempotent (m : ℝ) (hm : 0 < m) (σ : Spec) (g u : ℕ → ℕ → ℝ) (s s' : EmptyState)
    (pp : Option (Params ℝ)) (h : (clipByGlobalNorm m).update (mk σ g) s pp = .ok (mk σ u, s')) :
    (clipByGlobalNorm m).update (mk σ u) s' pp = .ok (mk σ u, s') := by
  obtain ⟨u', h1, h2, -⟩ := C12_clip_by_global_norm m hm σ g s pp
  rw [h1] at h
  simp only [Except.ok.injEq, Prod.mk.injEq] at h
  obtain ⟨hu, hs⟩ := h
  obtain ⟨u'', h3, h4, h5, c, h6, h7, h8, h9⟩ := C12_clip_by_global_norm m hm σ u s' pp
  rw [h3]
  simp only [Except.ok.injEq, Prod.mk.injEq, and_true]
  rw [hu] at h2
  by_cases hlt : globalNorm (mk σ u) < m
  · exact h5 hlt
  · have hge := not_lt.mp hlt
    have heq : globalNorm (mk σ u) = m := le_antisymm (by rw [h2]; exact min_le_right _ _) hge
    rw [heq, div_self hm.ne'] at h8
    apply mk_congr
    intro k _ _ i _
    rw [h9, h8 le_rfl, one_mul]

section
open XReal
theorem XReal.sum_map_fin (l : List ℝ) : (l.map XReal.fin).sum = XReal.fin l.sum := by
  induction l with
  | nil => rfl
  | cons a l ih => rw [List.map_cons, List.sum_cons, ih, List.sum_cons]; rfl

/-- `global_norm` of finite entries, in IEEE special-value arithmetic. -/
theorem globalNorm_fin (t : Params ℝ) :
    globalNorm (tmap XReal.fin t) = XReal.fin (globalNorm t) := by
  have hsum : (List.map (fun x : Tensor XReal => (x.map (fun y => y * y)).sum)
      (tmap XReal.fin t).leaves).sum =
      XReal.fin ((t.leaves.map (fun x => (x.map (fun y => y * y)).sum)).sum) := by
    rw [← XReal.sum_map_fin, tmap, PyTree.leaves_map, List.map_map, List.map_map]
    congr 1
    apply List.map_congr_left
    intro x _
    simp only [Function.comp, Tensor.map, Tensor.sum, List.map_map]
    rw [← XReal.sum_map_fin, List.map_map]
    rfl
  unfold globalNorm
  rw [hsum]
  have hn : 0 ≤ (t.leaves.map (fun x => (x.map (fun y => y * y)).sum)).sum := by
    apply List.sum_nonneg
    simp only [List.mem_map]
    rintro _ ⟨x, _, rfl⟩
    apply List.sum_nonneg
    simp only [Tensor.map, List.mem_map]
    rintro _ ⟨y, _, rfl⟩
    exact mul_self_nonneg y
  show (if _ < (0 : ℝ) then XReal.nan else XReal.fin (Real.sqrt _)) = _
  rw [if_neg (not_lt.mpr hn)]
  rfl

/-- **C12.** Division by zero never shows: with IEEE special values, finite gradients and `m > 0` the result is finite
(even for zero gradients, where the unselected branch is 0/0), and it is the exact one. -/
theorem C12_finite (m : ℝ) (hm : 0 < m) (σ : Spec) (g : ℕ → ℕ → ℝ) (s : EmptyState)
    (pp : Option (Params XReal)) :
    ∃ u : ℕ → ℕ → ℝ, (clipByGlobalNorm (XReal.fin m)).update (mk σ (fun k i => .fin (g k i))) s pp =
        .ok (mk σ (fun k i => .fin (u k i)), s) ∧
      (clipByGlobalNorm m).update (mk σ g) s none = .ok (mk σ u, s) := by
  have hn : globalNorm (mk σ (fun k i => XReal.fin (g k i))) = XReal.fin (globalNorm (mk σ g)) := by
    rw [← globalNorm_fin, tmap_mk]
  rw [clipByGlobalNorm_update_mk, hn, clipByGlobalNorm_update_mk]
  by_cases h : globalNorm (mk σ g) < m
  · refine ⟨g, ?_, ?_⟩
    · have : (JOps.lt (XReal.fin (globalNorm (mk σ g))) (XReal.fin m)) = true := by
        show decide _ = true; simpa using h
      simp only [this, if_true]
    · simp only [jlt_real, h, if_true]
  · have hp : globalNorm (mk σ g) ≠ 0 := (lt_of_lt_of_le hm (not_lt.mp h)).ne'
    refine ⟨fun k i => g k i / globalNorm (mk σ g) * m, ?_, ?_⟩
    · have : (JOps.lt (XReal.fin (globalNorm (mk σ g))) (XReal.fin m)) = false := by
        show decide _ = false; simpa using h
      simp only [this, Bool.false_eq_true, if_false]
      simp only [XReal.fin_div _ _ hp, XReal.fin_mul]
    · simp only [jlt_real, h, if_false]

/-- Finding: with `max_norm = 0` a zero gradient becomes NaN (0/0). -/
theorem C12_zero_max_norm_nan (s : EmptyState) :
    (clipByGlobalNorm (XReal.fin 0)).update (mk (.leaf [1]) (fun _ _ => .fin 0)) s none =
      .ok (mk (.leaf [1]) (fun _ _ => .nan), s) := by
  have hn : globalNorm (mk (.leaf [1]) (fun _ _ => XReal.fin 0)) = XReal.fin 0 := by
    have := globalNorm_fin (mk (.leaf [1]) (fun _ _ => (0 : ℝ)))
    rw [tmap_mk] at this
    rw [this, (C61_eq_zero _).mpr]
    simp [mk, PyTree.mapIdx, PyTree.mapIdxFrom, PyTree.leaves, Tensor.tens]
  rw [clipByGlobalNorm_update_mk, hn]
  have h1 : (JOps.lt (XReal.fin 0) (XReal.fin 0)) = false := by
    show decide _ = false; simp
  have h2 : XReal.fin 0 / XReal.fin 0 = XReal.nan := by
    show (if (0:ℝ) = 0 then infOf 0 else _) = _
    simp [infOf]
  simp only [h1, Bool.false_eq_true, if_false, h2, XReal.nan_mul]
end

/-- non-vacuity: a gradient of norm 5 is clipped to norm 1 -/
example : ∃ (g : ℕ → ℕ → ℝ), globalNorm (mk (.leaf [2]) g) = 5 := by
  refine ⟨fun _ i => if i = 0 then 3 else 4, ?_⟩
  rw [C61_concat]
  simp only [mk, PyTree.mapIdx, PyTree.mapIdxFrom, PyTree.leaves, Tensor.tens]
  norm_num [List.range_succ]
  rw [show (25 : ℝ) = 5 ^ 2 by norm_num]
  exact Real.sqrt_sq (by norm_num)

end Optax
