import Verif.Lemmas.SM3
import Verif.Props.Moments

/-!
# C35: `scale_by_sm3`
-/

set_option linter.unusedSectionVars false
set_option linter.unusedSimpArgs false

namespace Optax
open Finset

/-! ## Specification

For one leaf of shape `s`, SM3 keeps for every axis `i` and every coordinate `r` along it an accumulator
`M i r`; the entry at flat position `j` has coordinate `coordAt s i j` along axis `i`. -/

/-- one leaf, all times: `M t i r` is the accumulator of axis `i`, coordinate `r` before step `t`, and
`acc t j` the accumulator the entry `j` is scaled with at step `t`, for gradients `g t j` -/
structure SM3Leaf (b2 : ℝ) (s : List ℕ) (g : ℕ → ℕ → ℝ) (M : ℕ → ℕ → ℕ → ℝ) (acc : ℕ → ℕ → ℝ) : Prop where
  /-- accumulators start at 0 -/
  start : ∀ i r, M 0 i r = 0
  /-- an entry's accumulator is `c0 g²` plus `b2` times the least of its axis accumulators -/
  entry : ∀ t, ∀ j < s.prod, ∃ m, IsLeast {x | ∃ i < s.length, x = M t i (coordAt s i j)} m ∧
    acc t j = (if b2 = 1 then 1 else 1 - b2) * g t j ^ 2 + b2 * m
  /-- an axis accumulator becomes the greatest of the accumulators of its entries -/
  axis : ∀ t, ∀ i < s.length, ∀ r < s.getD i 1,
    IsGreatest {x | ∃ j < s.prod, coordAt s i j = r ∧ x = acc t j} (M (t + 1) i r)

/-! ## lemmas -/

theorem minAxes_least (M : ℕ → ℕ → ℝ) (c : ℕ → ℕ) (m : ℕ) :
    IsLeast {x | ∃ i < m + 1, x = M i (c i)} (minAxes M c m) := by
  induction m with
  | zero =>
    refine ⟨⟨0, by omega, rfl⟩, ?_⟩
    rintro x ⟨i, hi, rfl⟩
    obtain rfl : i = 0 := by omega
    exact le_rfl
  | succ m ih =>
    simp only [minAxes, jmin_real]
    constructor
    · rcases min_choice (minAxes M c m) (M (m + 1) (c (m + 1))) with h | h
      · obtain ⟨i, hi, h'⟩ := ih.1
        exact ⟨i, by omega, by rw [h, h']⟩
      · exact ⟨m + 1, by omega, h⟩
    · rintro x ⟨i, hi, rfl⟩
      rcases Nat.lt_or_ge i (m + 1) with h | h
      · exact le_trans (min_le_left _ _) (ih.2 ⟨i, h, rfl⟩)
      · obtain rfl : i = m + 1 := by omega
        exact min_le_right _ _

theorem foldl_max_ge (l : List ℝ) (x : ℝ) : x ≤ l.foldl JOps.max x ∧ ∀ y ∈ l, y ≤ l.foldl JOps.max x := by
  induction l generalizing x with
  | nil => exact ⟨le_rfl, by simp⟩
  | cons z l ih =>
    obtain ⟨h1, h2⟩ := ih (JOps.max x z)
    simp only [List.foldl_cons]
    rw [jmax_real] at h1
    refine ⟨le_trans (le_max_left _ _) h1, ?_⟩
    intro y hy
    rcases List.mem_cons.mp hy with rfl | hy
    · exact le_trans (le_max_right _ _) h1
    · exact h2 y hy

theorem foldl_max_mem (l : List ℝ) (x : ℝ) : l.foldl JOps.max x ∈ x :: l := by
  induction l generalizing x with
  | nil => simp
  | cons z l ih =>
    simp only [List.foldl_cons]
    rcases List.mem_cons.mp (ih (JOps.max x z)) with h | h
    · rw [h, jmax_real]
      rcases max_choice x z with h' | h' <;> rw [h'] <;> simp
    · exact List.mem_cons_of_mem _ (List.mem_cons_of_mem _ h)

theorem maxFiber_greatest (s : List ℕ) (hp : ∀ d ∈ s, 0 < d) (i r : ℕ) (hi : i < s.length)
    (hr : r < s.getD i 1) (f : ℕ → ℝ) :
    IsGreatest {x | ∃ j < s.prod, coordAt s i j = r ∧ x = f j} (maxFiber s i r f) := by
  unfold maxFiber
  obtain ⟨j0, hj0, hc0⟩ := coordAt_surj s hp i r hi hr
  have hm0 := (mem_fiber_axis s i r j0 hi).mpr ⟨hj0, hc0⟩
  have hmem : ∀ x, x ∈ (Tensor.fiber s (Tensor.keepShape (fun a => a != i) s) r).map f ↔
      ∃ j < s.prod, coordAt s i j = r ∧ x = f j := by
    intro x
    simp only [List.mem_map, mem_fiber_axis s i r _ hi]
    constructor
    · rintro ⟨j, ⟨h1, h2⟩, rfl⟩; exact ⟨j, h1, h2, rfl⟩
    · rintro ⟨j, h1, h2, rfl⟩; exact ⟨j, ⟨h1, h2⟩, rfl⟩
  cases hl : (Tensor.fiber s (Tensor.keepShape (fun a => a != i) s) r).map f with
  | nil => rw [List.map_eq_nil_iff] at hl; rw [hl] at hm0; simp at hm0
  | cons x xs =>
    rw [hl] at hmem
    refine ⟨(hmem _).mp (foldl_max_mem xs x), ?_⟩
    rintro y hy
    rcases List.mem_cons.mp ((hmem y).mpr hy) with rfl | h
    · exact (foldl_max_ge xs _).1
    · exact (foldl_max_ge xs x).2 y h

/-- the per-axis accumulators of all leaves before step `t` -/
noncomputable def sm3M (σ : Spec) (b2 : ℝ) (g : ℕ → ℕ → ℕ → ℝ) : ℕ → ℕ → ℕ → ℕ → ℝ
  | 0 => fun _ _ _ => 0
  | t + 1 => fun k i r => maxFiber ((σ.leaves[k]?).getD []) i r
      (sm3Acc b2 ((σ.leaves[k]?).getD []) (g t k) (sm3M σ b2 g t k))

noncomputable def sm3A (σ : Spec) (b2 : ℝ) (g : ℕ → ℕ → ℕ → ℝ) (t k : ℕ) : ℕ → ℝ :=
  sm3Acc b2 ((σ.leaves[k]?).getD []) (g t k) (sm3M σ b2 g t k)

theorem sm3_leaf (σ : Spec) (hσ : SM3Spec σ) (b2 : ℝ) (g : ℕ → ℕ → ℕ → ℝ) (k : ℕ) (s : List ℕ)
    (hk : σ.leaves[k]? = some s) :
    SM3Leaf b2 s (fun t j => g t k j) (fun t => sm3M σ b2 g t k) (fun t => sm3A σ b2 g t k) := by
  obtain ⟨hs1, hs2⟩ := hσ s (List.mem_of_getElem? hk)
  refine ⟨fun i r => rfl, ?_, ?_⟩
  · intro t j hj
    refine ⟨_, minAxes_least (sm3M σ b2 g t k) (fun i => coordAt s i j) (s.length - 1) |>
      (fun h => by
        have : s.length - 1 + 1 = s.length := by
          have := List.length_pos_iff.mpr hs1; omega
        rw [this] at h; exact h), ?_⟩
    unfold sm3A sm3Acc
    simp only [hk, Option.getD_some, ipow_eq_pow]
    by_cases hb : b2 = 1
    · simp [hb]
    · have : JOps.eqb b2 1 = false := by rw [← Bool.not_eq_true, jeqb_real]; exact hb
      simp [this, hb]
  · intro t i hi r hr
    have := maxFiber_greatest s hs2 i r hi hr (sm3A σ b2 g t k)
    show IsGreatest _ (maxFiber ((σ.leaves[k]?).getD []) i r (sm3A σ b2 g t k))
    rw [hk]
    exact this

/-- **C35.** `scale_by_sm3(b1, b2, eps)`, for every tree whose leaves have rank at least 1 (any rank) and
no empty axis, and every history: the state holds, per leaf and axis, accumulators satisfying the SM3
recursion `SM3Leaf`; the update at each step is the exponential moving average with decay `b1` of the
gradients scaled by `1/sqrt(acc + eps)` (0 where the accumulator is not positive). -/
theorem C35_recursion (σ : Spec) (hσ : ∀ s ∈ σ.leaves, s ≠ [] ∧ ∀ d ∈ s, 0 < d) (b1 b2 eps : ℝ)
    (p0 : ℕ → ℕ → ℝ) (g : ℕ → ℕ → ℕ → ℝ) (pp : ℕ → Option (Params ℝ)) :
    ∃ (M : ℕ → ℕ → ℕ → ℕ → ℝ) (acc : ℕ → ℕ → ℕ → ℝ),
      (∀ k s, σ.leaves[k]? = some s →
        SM3Leaf b2 s (fun t j => g t k j) (fun t => M t k) (fun t => acc t k)) ∧
      ∀ N, ∃ ν, (scaleBySM3 b1 b2 eps).exec (mk σ p0) (hist σ g pp N) =
        .ok ((List.range N).map (fun n => mk σ (fun k j =>
            (1 - b1) * geoSum b1 (fun t => g t k j *
              (if 0 < acc t k j then 1 / Real.sqrt (acc t k j + eps) else 0)) (n + 1))),
          ⟨σ.mapIdx (fun k s => (List.range s.length).map (fun i => Tensor.tens [s.getD i 1] (M N k i))),
            ν⟩) := by
  refine ⟨sm3M σ b2 g, sm3A σ b2 g, fun k s hk => sm3_leaf σ hσ b2 g k s hk, ?_⟩
  intro N
  refine ⟨mk σ (fun k j => (1 - b1) * geoSum b1 (fun t => g t k j *
      (if 0 < sm3A σ b2 g t k j then 1 / Real.sqrt (sm3A σ b2 g t k j + eps) else 0)) N), ?_⟩
  refine exec_hist (scaleBySM3 b1 b2 eps) (mk σ p0) σ g pp N
    (fun n => sm3State σ (sm3M σ b2 g n) (fun k j => (1 - b1) * geoSum b1 (fun t => g t k j *
      (if 0 < sm3A σ b2 g t k j then 1 / Real.sqrt (sm3A σ b2 g t k j + eps) else 0)) n)) _ ?_ ?_
  · rw [sm3_init_mk]
    simp only [geoSum_zero, mul_zero]
    rfl
  · intro n _
    have h := sm3_update_mk σ hσ (g n) (sm3M σ b2 g n) (fun k j => (1 - b1) * geoSum b1 (fun t => g t k j *
      (if 0 < sm3A σ b2 g t k j then 1 / Real.sqrt (sm3A σ b2 g t k j + eps) else 0)) n) (pp n) b1 b2 eps
    have e : (fun k j => (1 - b1) * geoSum b1 (fun t => g t k j *
        (if 0 < sm3A σ b2 g t k j then 1 / Real.sqrt (sm3A σ b2 g t k j + eps) else 0)) (n + 1)) =
        (fun k i => (1 - b1) * ipow (g n k i * invSqrtPos eps (sm3Acc b2 ((σ.leaves[k]?).getD []) (g n k)
          (sm3M σ b2 g n k) i)) 1 + b1 * ((1 - b1) * geoSum b1 (fun t => g t k i *
        (if 0 < sm3A σ b2 g t k i then 1 / Real.sqrt (sm3A σ b2 g t k i + eps) else 0)) n)) := by
      funext k i
      rw [geoSum_succ]
      simp only [invSqrtPos, ipow_eq_pow, pow_one, jlt_real, jrsqrt_real]
      unfold sm3A
      ring
    rw [e]
    exact h

/-! ## Consequences of the recursion for `b2 = 1` -/

theorem SM3Leaf.dominates {s : List ℕ} {g : ℕ → ℕ → ℝ} {M : ℕ → ℕ → ℕ → ℝ} {acc : ℕ → ℕ → ℝ}
    (h : SM3Leaf 1 s g M acc) (t : ℕ) : ∀ j < s.prod,
      (∀ i < s.length, ∑ τ ∈ range t, g τ j ^ 2 ≤ M t i (coordAt s i j)) ∧
      ∑ τ ∈ range (t + 1), g τ j ^ 2 ≤ acc t j := by
  have step : ∀ t, (∀ j < s.prod, ∀ i < s.length, ∑ τ ∈ range t, g τ j ^ 2 ≤ M t i (coordAt s i j)) →
      ∀ j < s.prod, ∑ τ ∈ range (t + 1), g τ j ^ 2 ≤ acc t j := by
    intro t ih j hj
    obtain ⟨m, hm, ha⟩ := h.entry t j hj
    obtain ⟨i, hi, rfl⟩ := hm.1
    rw [ha, Finset.sum_range_succ, if_pos rfl]
    have := ih j hj i hi
    linarith
  have main : ∀ t, ∀ j < s.prod, ∀ i < s.length, ∑ τ ∈ range t, g τ j ^ 2 ≤ M t i (coordAt s i j) := by
    intro t
    induction t with
    | zero => intro j _ i _; rw [h.start]; simp
    | succ t ih =>
      intro j hj i hi
      refine le_trans (step t ih j hj) ?_
      exact (h.axis t i hi _ (coordAt_lt s i j hi hj)).2 ⟨j, hj, rfl, rfl⟩
  intro j hj
  exact ⟨main t j hj, step t (main t) j hj⟩

theorem SM3Leaf.nonneg {s : List ℕ} {g : ℕ → ℕ → ℝ} {M : ℕ → ℕ → ℕ → ℝ} {acc : ℕ → ℕ → ℝ}
    (h : SM3Leaf 1 s g M acc) (t : ℕ) (j : ℕ) (hj : j < s.prod) : 0 ≤ acc t j :=
  le_trans (Finset.sum_nonneg (fun _ _ => sq_nonneg _)) (h.dominates t j hj).2

theorem SM3Leaf.mono {s : List ℕ} {g : ℕ → ℕ → ℝ} {M : ℕ → ℕ → ℕ → ℝ} {acc : ℕ → ℕ → ℝ}
    (h : SM3Leaf 1 s g M acc) (t i : ℕ) (hi : i < s.length) (r : ℕ) (hr : r < s.getD i 1) :
    M t i r ≤ M (t + 1) i r := by
  cases t with
  | zero =>
    rw [h.start]
    obtain ⟨j, hj, _, he⟩ := (h.axis 0 i hi r hr).1
    rw [he]
    exact h.nonneg 0 j hj
  | succ t =>
    obtain ⟨j, hj, hc, he⟩ := (h.axis t i hi r hr).1
    obtain ⟨m, hm, ha⟩ := h.entry (t + 1) j hj
    have hge : M (t + 1) i r ≤ m := by
      obtain ⟨i', hi', rfl⟩ := hm.1
      rw [he]
      exact (h.axis t i' hi' _ (coordAt_lt s i' j hi' hj)).2 ⟨j, hj, rfl, rfl⟩
    have h2 := (h.axis (t + 1) i hi r hr).2 ⟨j, hj, hc, rfl⟩
    rw [ha, if_pos rfl] at h2
    nlinarith [sq_nonneg (g (t + 1) j)]

theorem SM3Leaf.rank_one {d : ℕ} {g : ℕ → ℕ → ℝ} {M : ℕ → ℕ → ℕ → ℝ} {acc : ℕ → ℕ → ℝ}
    (h : SM3Leaf 1 [d] g M acc) (t j : ℕ) (hj : j < d) :
    acc t j = ∑ τ ∈ range (t + 1), g τ j ^ 2 := by
  have hc : ∀ j, coordAt [d] 0 j = j := by intro j; simp [coordAt, Tensor.unravel]
  have hacc : ∀ t, ∀ j < d, acc t j = g t j ^ 2 + M t 0 j := by
    intro t j hj
    obtain ⟨m, hm, ha⟩ := h.entry t j (by simpa using hj)
    obtain ⟨i, hi, rfl⟩ := hm.1
    obtain rfl : i = 0 := by simpa using hi
    rw [ha, hc]; simp
  have hM : ∀ t, ∀ j < d, M (t + 1) 0 j = acc t j := by
    intro t j hj
    obtain ⟨j', hj', hc', he⟩ := (h.axis t 0 (by simp) j (by simpa using hj)).1
    rw [hc] at hc'
    rw [he, hc']
  induction t generalizing j with
  | zero => rw [hacc 0 j hj, h.start]; simp
  | succ t ih => rw [hacc _ j hj, hM t j hj, ih j hj, Finset.sum_range_succ _ (t + 1)]; ring

/-- **C35.** With `b2 = 1` (the default), on every tree of leaves of rank ≥ 1 and every history: the
accumulator scaling each entry is at least Adagrad's `Σ g²` for that entry, and equals it for rank-1
leaves; the per-axis accumulators in the state never decrease and dominate `Σ g²` of all their entries. -/
theorem C35_dominates (σ : Spec) (hσ : ∀ s ∈ σ.leaves, s ≠ [] ∧ ∀ d ∈ s, 0 < d) (b1 eps : ℝ)
    (p0 : ℕ → ℕ → ℝ) (g : ℕ → ℕ → ℕ → ℝ) (pp : ℕ → Option (Params ℝ)) :
    ∃ (M : ℕ → ℕ → ℕ → ℕ → ℝ) (acc : ℕ → ℕ → ℕ → ℝ),
      (∀ N, ∃ ν, (scaleBySM3 b1 1 eps).exec (mk σ p0) (hist σ g pp N) =
        .ok ((List.range N).map (fun n => mk σ (fun k j =>
            (1 - b1) * geoSum b1 (fun t => g t k j *
              (if 0 < acc t k j then 1 / Real.sqrt (acc t k j + eps) else 0)) (n + 1))),
          ⟨σ.mapIdx (fun k s => (List.range s.length).map (fun i => Tensor.tens [s.getD i 1] (M N k i))),
            ν⟩)) ∧
      ∀ k s, σ.leaves[k]? = some s →
        (∀ t, ∀ j < s.prod, ∑ τ ∈ range (t + 1), g τ k j ^ 2 ≤ acc t k j) ∧
        (s.length = 1 → ∀ t, ∀ j < s.prod, acc t k j = ∑ τ ∈ range (t + 1), g τ k j ^ 2) ∧
        (∀ i < s.length, ∀ r < s.getD i 1, ∀ t t', t ≤ t' → M t k i r ≤ M t' k i r) ∧
        (∀ t, ∀ j < s.prod, ∀ i < s.length,
          ∑ τ ∈ range t, g τ k j ^ 2 ≤ M t k i (coordAt s i j)) := by
  obtain ⟨M, acc, h1, h2⟩ := C35_recursion σ hσ b1 1 eps p0 g pp
  refine ⟨M, acc, h2, ?_⟩
  intro k s hk
  have h := h1 k s hk
  refine ⟨fun t j hj => (h.dominates t j hj).2, ?_, ?_, fun t j hj => (h.dominates t j hj).1⟩
  · intro hl t j hj
    match s, hl with
    | [d], _ => exact h.rank_one t j (by simpa using hj)
  · intro i hi r hr t t' htt
    induction htt with
    | refl => exact le_rfl
    | step _ ih => exact le_trans ih (h.mono _ i hi r hr)

/-- **C35.** Hence, run side by side on the same gradients with the same `eps ≥ 0`, `scale_by_sm3` (without
momentum, `b1 = 0`) never makes a larger step in any entry than Adagrad (`scale_by_rss` from 0), and makes
the same steps on rank-1 leaves. -/
theorem C35_vs_adagrad (σ : Spec) (hσ : ∀ s ∈ σ.leaves, s ≠ [] ∧ ∀ d ∈ s, 0 < d) (eps : ℝ) (he : 0 ≤ eps)
    (p0 : ℕ → ℕ → ℝ) (g : ℕ → ℕ → ℕ → ℝ) (pp : ℕ → Option (Params ℝ)) :
    ∃ U V : ℕ → ℕ → ℕ → ℝ,
      (∀ N, (scaleBySM3 0 1 eps).outs (mk σ p0) (hist σ g pp N) = .ok ((List.range N).map (fun n => mk σ (U n)))) ∧
      (∀ N, (scaleByRss 0 eps).outs (mk σ p0) (hist σ g pp N) = .ok ((List.range N).map (fun n => mk σ (V n)))) ∧
      ∀ k s, σ.leaves[k]? = some s → ∀ n, ∀ j < s.prod,
        |U n k j| ≤ |V n k j| ∧ 0 ≤ U n k j * V n k j ∧ (s.length = 1 → U n k j = V n k j) := by
  obtain ⟨M, acc, h1, h2⟩ := C35_dominates σ hσ 0 eps p0 g pp
  refine ⟨fun n k j => (1 - 0) * geoSum 0 (fun t => g t k j *
      if 0 < acc t k j then 1 / Real.sqrt (acc t k j + eps) else 0) (n + 1),
    fun n k j => if 0 < rssAcc 0 (fun t => g t k j) (n + 1) then
            g n k j / Real.sqrt (rssAcc 0 (fun t => g t k j) (n + 1) + eps) else 0,
    fun N => ?_, fun N => ?_, ?_⟩
  · obtain ⟨ν, hν⟩ := h1 N
    unfold GT.outs
    rw [hν]; rfl
  · unfold GT.outs
    rw [C23_rss σ p0 g pp N 0 eps]; rfl
  · intro k s hk n j hj
    obtain ⟨hd, hr, _, _⟩ := h2 k s hk
    have h3 : (1 - (0:ℝ)) * geoSum 0 (fun t => g t k j *
        (if 0 < acc t k j then 1 / Real.sqrt (acc t k j + eps) else 0)) (n + 1) =
        g n k j * (if 0 < acc n k j then 1 / Real.sqrt (acc n k j + eps) else 0) := by
      rw [geoSum_succ]; ring
    simp only []
    rw [h3]
    have h4 : rssAcc 0 (fun t => g t k j) (n + 1) = ∑ τ ∈ range (n + 1), g τ k j ^ 2 := by
      unfold rssAcc; rw [zero_add]
    rw [h4]
    have hdn := hd n j hj
    have h0 : 0 ≤ ∑ τ ∈ range (n + 1), g τ k j ^ 2 := Finset.sum_nonneg (fun _ _ => sq_nonneg _)
    by_cases hp : 0 < ∑ τ ∈ range (n + 1), g τ k j ^ 2
    · have hpa : 0 < acc n k j := lt_of_lt_of_le hp hdn
      rw [if_pos hp, if_pos hpa]
      have hs1 : 0 < Real.sqrt (∑ τ ∈ range (n + 1), g τ k j ^ 2 + eps) := Real.sqrt_pos.mpr (by linarith)
      have hs2 : 0 < Real.sqrt (acc n k j + eps) := Real.sqrt_pos.mpr (by linarith)
      have hs : Real.sqrt (∑ τ ∈ range (n + 1), g τ k j ^ 2 + eps) ≤ Real.sqrt (acc n k j + eps) :=
        Real.sqrt_le_sqrt (by linarith)
      refine ⟨?_, ?_, ?_⟩
      · rw [mul_one_div, abs_div, abs_div, abs_of_pos hs1, abs_of_pos hs2]
        exact div_le_div_of_nonneg_left (abs_nonneg _) hs1 hs
      · rw [mul_one_div, div_mul_div_comm]
        exact div_nonneg (mul_self_nonneg _) (mul_pos hs2 hs1).le
      · intro hl
        rw [hr hl n j hj, mul_one_div]
    · have hz : ∑ τ ∈ range (n + 1), g τ k j ^ 2 = 0 := le_antisymm (not_lt.mp hp) h0
      have hg : g n k j = 0 := by
        have := (Finset.sum_eq_zero_iff_of_nonneg (fun _ _ => sq_nonneg _)).mp hz n (by simp)
        exact pow_eq_zero_iff (two_ne_zero) |>.mp this
      rw [if_neg hp, hg]
      simp

/-- a tree the hypotheses hold for: a matrix, a vector and a rank-3 array -/
example : ∀ s ∈ (PyTree.node .tuple [.leaf [2, 3], .leaf [4], .leaf [2, 1, 3]] : Spec).leaves,
    s ≠ [] ∧ ∀ d ∈ s, 0 < d := by decide

/-- **C35** (limit). A rank-0 leaf is not supported: the first update raises IndexError (`v[0]` of an empty
list), for every gradient. -/
theorem C35_rank_zero (b1 b2 eps : ℝ) (p g : ℝ) (pp : Option (Params ℝ)) :
    (scaleBySM3 b1 b2 eps).outs (.leaf (Tensor.scalar p)) [(.leaf (Tensor.scalar g), pp)] =
      .error .index := rfl

section
open Tensor PyTree

theorem list_mapM_error {δ ε : Type} (l : List δ) (f : δ → Res ε) (e : Err)
    (h : ∀ x ∈ l, (∃ y, f x = .ok y) ∨ f x = .error e) (hx : ∃ x ∈ l, f x = .error e) : l.mapM f = .error e := by
  induction l with
  | nil => simp at hx
  | cons x l ih =>
    rw [List.mapM_cons]
    rcases h x (by simp) with ⟨y, hy⟩ | hy
    · rw [hy, Res.ok_bind, ih (fun z hz => h z (by simp [hz])) ?_]
      · rfl
      · obtain ⟨z, hz, hz'⟩ := hx
        rcases List.mem_cons.mp hz with rfl | hz
        · rw [hy] at hz'; cases hz'
        · exact ⟨z, hz, hz'⟩
    · rw [hy]; rfl

theorem list_mapM_total {δ ε : Type} (l : List δ) (f : δ → Res ε) (e : Err)
    (h : ∀ x ∈ l, (∃ y, f x = .ok y) ∨ f x = .error e) : (∃ y, l.mapM f = .ok y) ∨ l.mapM f = .error e := by
  induction l with
  | nil => exact Or.inl ⟨[], rfl⟩
  | cons x l ih =>
    rw [List.mapM_cons]
    rcases h x (by simp) with ⟨y, hy⟩ | hy
    · rcases ih (fun z hz => h z (by simp [hz])) with ⟨w, hw⟩ | hw
      · exact Or.inl ⟨y :: w, by rw [hy, Res.ok_bind, hw]; rfl⟩
      · exact Or.inr (by rw [hy, Res.ok_bind, hw]; rfl)
    · exact Or.inr (by rw [hy]; rfl)

mutual
theorem tree_mapM_total {β γ : Type} (f : β → Res γ) (e : Err) : ∀ t : PyTree β, 
    (∀ x ∈ t.leaves, (∃ y, f x = .ok y) ∨ f x = .error e) →
    (∃ y, mapM f t = .ok y) ∨ mapM f t = .error e
  | .leaf b, h => by
    rcases h b (by simp [leaves]) with ⟨y, hy⟩ | hy
    · exact Or.inl ⟨.leaf y, by simp only [mapM, hy]; rfl⟩
    · exact Or.inr (by simp only [mapM, hy]; rfl)
  | .node t cs, h => by
    rcases tree_mapML_total f e cs (by simpa [leaves] using h) with ⟨y, hy⟩ | hy
    · exact Or.inl ⟨.node t y, by simp only [mapM, hy]; rfl⟩
    · exact Or.inr (by simp only [mapM, hy]; rfl)
theorem tree_mapML_total {β γ : Type} (f : β → Res γ) (e : Err) : ∀ ts : List (PyTree β), 
    (∀ x ∈ leavesL ts, (∃ y, f x = .ok y) ∨ f x = .error e) →
    (∃ y, mapML f ts = .ok y) ∨ mapML f ts = .error e
  | [], h => Or.inl ⟨[], rfl⟩
  | c :: cs, h => by
    simp only [leavesL, List.mem_append] at h
    rcases tree_mapM_total f e c (fun x hx => h x (Or.inl hx)) with ⟨y, hy⟩ | hy
    · rcases tree_mapML_total f e cs (fun x hx => h x (Or.inr hx)) with ⟨z, hz⟩ | hz
      · exact Or.inl ⟨y :: z, by simp only [mapML, hy, hz]; rfl⟩
      · exact Or.inr (by simp only [mapML, hy, hz]; rfl)
    · exact Or.inr (by simp only [mapML, hy]; rfl)
end

mutual
theorem tree_mapM_ok_leaf {β γ : Type} (f : β → Res γ) : ∀ (t : PyTree β) (r : PyTree γ), mapM f t = .ok r →
    ∀ x ∈ t.leaves, ∃ y, f x = .ok y
  | .leaf b, r, h => by
    simp only [mapM, Res.bind_eq_ok] at h
    obtain ⟨y, hy, -⟩ := h
    intro x hx
    simp [leaves] at hx; subst hx; exact ⟨y, hy⟩
  | .node t cs, r, h => by
    simp only [mapM, Res.bind_eq_ok] at h
    obtain ⟨y, hy, -⟩ := h
    simpa [leaves] using tree_mapML_ok_leaf f cs y hy
theorem tree_mapML_ok_leaf {β γ : Type} (f : β → Res γ) : ∀ (ts : List (PyTree β)) (r : List (PyTree γ)), mapML f ts = .ok r →
    ∀ x ∈ leavesL ts, ∃ y, f x = .ok y
  | [], r, h => by simp [leavesL]
  | c :: cs, r, h => by
    simp only [mapML, Res.bind_eq_ok] at h
    obtain ⟨y, hy, z, hz, -⟩ := h
    intro x hx
    simp only [leavesL, List.mem_append] at hx
    rcases hx with hx | hx
    · exact tree_mapM_ok_leaf f c y hy x hx
    · exact tree_mapML_ok_leaf f cs z hz x hx
end

theorem tree_mapM_error {β γ : Type} (f : β → Res γ) (e : Err) (t : PyTree β)
    (h : ∀ x ∈ t.leaves, (∃ y, f x = .ok y) ∨ f x = .error e) (hx : ∃ x ∈ t.leaves, f x = .error e) :
    mapM f t = .error e := by
  rcases tree_mapM_total f e t h with ⟨y, hy⟩ | hy
  · obtain ⟨x, hx, hx'⟩ := hx
    obtain ⟨z, hz⟩ := tree_mapM_ok_leaf f t y hy x hx
    rw [hz] at hx'; cases hx'
  · exact hy

section
variable {α : Type} [Add α] [Sub α] [Neg α] [Mul α] [Div α] [Zero α] [One α] [JOps α]

theorem maxOther_total (s : List ℕ) (i : ℕ) (v : ℕ → α) :
    ((∃ y, (tens s v).maxOther i = .ok y) ∨ (tens s v).maxOther i = .error .value) ∧
    ((∃ a < s.length, a ≠ i ∧ s.getD a 1 = 0) → (tens s v).maxOther i = .error .value) := by
  constructor
  · unfold Tensor.maxOther
    split
    · exact Or.inr rfl
    · rcases list_mapM_total (List.range (keepShape (fun a => a != i) (tens s v).shape).prod) (fun i' =>
        listMax ((fiber (tens s v).shape (keepShape (fun a => a != i) (tens s v).shape) i').map
          (fun j => ((tens s v).data[j]?).getD 0))) .value (by
          intro x _
          cases (fiber (tens s v).shape (keepShape (fun a => a != i) (tens s v).shape) x).map
            (fun j => ((tens s v).data[j]?).getD 0) with
          | nil => exact Or.inr rfl
          | cons a l => exact Or.inl ⟨_, rfl⟩) with ⟨y, hy⟩ | hy
      · exact Or.inl ⟨_, by simp only [hy]; rfl⟩
      · exact Or.inr (by simp only [hy]; rfl)
  · rintro ⟨a, ha, hne, h0⟩
    unfold Tensor.maxOther
    rw [if_pos]
    simp only [tens_shape, List.any_eq_true, List.mem_range, Bool.and_eq_true, beq_iff_eq, bne_iff_ne]
    exact ⟨a, ha, hne, h0⟩

end

/-- **C35** (limit). If some leaf has at least two axes and one of them is empty (shape `(0, 3)`), the first update raises
ValueError (the maximum of an empty array), for every gradient; no leaf may be a scalar here, see `C35_rank_zero`. -/
theorem C35_empty_axis (b1 b2 eps : ℝ) (σ : Spec) (hσ : ∀ s ∈ σ.leaves, s ≠ []) (h0 : ∃ s ∈ σ.leaves, 2 ≤ s.length ∧ 0 ∈ s)
    (p g : ℕ → ℕ → ℝ) (pp : Option (Params ℝ)) :
    (scaleBySM3 b1 b2 eps).outs (mk σ p) [(mk σ g, pp)] = .error .value := by
  have key : ∀ A : ℕ → ℕ → ℝ, PyTree.mapM (fun (x : Tensor ℝ) =>
        (List.range x.shape.length).mapM (fun i => sm3NewMu x i)) (mk σ A) = .error .value := by
    intro A
    have hmem : ∀ x ∈ (mk σ A).leaves, ∃ s ∈ σ.leaves, ∃ v, x = tens s v := by
      intro x hx
      simp only [mk, leaves_mapIdx, List.mem_mapIdx] at hx
      obtain ⟨k, hk, rfl⟩ := hx
      exact ⟨_, List.getElem_mem hk, _, rfl⟩
    have hmu : ∀ (s : List ℕ) (v : ℕ → ℝ) (i : ℕ), i ∈ List.range s.length →
        (∃ y, sm3NewMu (tens s v) i = .ok y) ∨ sm3NewMu (tens s v) i = .error .value := by
      intro s v i hi
      unfold sm3NewMu
      split
      · exact Or.inl ⟨_, rfl⟩
      · exact (maxOther_total s i v).1
    apply tree_mapM_error
    · intro x hx
      obtain ⟨s, hs, v, rfl⟩ := hmem x hx
      exact list_mapM_total _ _ _ (hmu s v)
    · obtain ⟨s, hs, h2, hz⟩ := h0
      obtain ⟨k, hk⟩ := List.getElem?_of_mem hs
      refine ⟨tens s (A k), ?_, ?_⟩
      · simp only [mk, leaves_mapIdx, List.mem_mapIdx]
        obtain ⟨hk', rfl⟩ := List.getElem?_eq_some_iff.mp hk
        exact ⟨k, hk', rfl⟩
      · refine list_mapM_error _ _ _ (hmu s (A k)) ?_
        obtain ⟨a, ha, haz⟩ := List.getElem_of_mem hz
        have haz' : s.getD a 1 = 0 := by
          rw [List.getD_eq_getElem?_getD, List.getElem?_eq_getElem ha, Option.getD_some, haz]
        obtain ⟨i, hi, hia⟩ : ∃ i < s.length, a ≠ i := by
          by_cases h : a = 0
          · exact ⟨1, by omega, by omega⟩
          · exact ⟨0, by omega, h⟩
        refine ⟨i, by simpa using hi, ?_⟩
        unfold sm3NewMu
        rw [if_neg (by simp only [tens_shape]; omega)]
        exact (maxOther_total s i (A k)).2 ⟨a, ha, hia, haz'⟩
  have hu := sm3_update_pre σ hσ g (fun _ _ _ => 0) (fun _ _ => 0) pp b1 b2 eps
  have hu' : (scaleBySM3 b1 b2 eps).update (mk σ g) (sm3State σ (fun _ _ _ => 0) (fun _ _ => 0)) pp = .error .value := by
    refine hu.trans ?_
    rw [key]; rfl
  have h1 : (scaleBySM3 b1 b2 eps).outs (mk σ p) [(mk σ g, pp)] = (do
      let r ← (do
        let s ← (scaleBySM3 b1 b2 eps).init (mk σ p)
        (do
          let r ← (scaleBySM3 b1 b2 eps).update (mk σ g) s pp
          let rs ← (scaleBySM3 b1 b2 eps).run r.2 []
          return (r.1 :: rs.1, rs.2)))
      return r.1) := rfl
  rw [h1, sm3_init_mk, Res.ok_bind, hu']
  rfl

example : (∀ s ∈ (PyTree.node .tuple [.leaf [2, 3], .leaf [0, 3]] : Spec).leaves, s ≠ []) ∧
    ∃ s ∈ (PyTree.node .tuple [.leaf [2, 3], .leaf [0, 3]] : Spec).leaves, 2 ≤ s.length ∧ 0 ∈ s := by decide

end
end Optax
