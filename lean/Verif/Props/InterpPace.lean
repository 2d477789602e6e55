import Verif.Props.Interp
import Verif.Props.SchedulePace

/-!
# C135 for `piecewise_interpolate_schedule` and the one-cycle schedules
-/

set_option linter.unusedSectionVars false

namespace Optax

/-- two successive counts are on one segment between knots, or both after the last knot -/
theorem step_segment (d : List (ℤ × ℝ)) (hpos : ∀ x ∈ d, 0 < x.1) (hnd : (d.map Prod.fst).Nodup) (c : ℤ) (hc : 0 ≤ c) :
    (∃ x x', Consecutive d x x' ∧ x ≤ c ∧ c + 1 ≤ x') ∨ ∀ y ∈ d, y.1 ≤ c := by
  rcases segment_or_after d hpos hnd c hc with ⟨x, x', h, h1, h2⟩ | h
  · rcases h2.lt_or_eq with h2 | rfl
    · exact Or.inl ⟨x, x', h, h1, h2⟩
    · have both : (∃ y ∈ d, y.1 = c + 1) → ∃ x x', Consecutive d x x' ∧ x ≤ c ∧ c + 1 ≤ x' := fun hy =>
        ⟨c, c + 1, ⟨Or.inr h.2.1, hy, by omega, fun y _ => by omega⟩, le_rfl, le_rfl⟩
      rcases segment_or_after d hpos hnd (c + 1) (by omega) with ⟨z, z', k, k1, k2⟩ | k
      · by_cases hz : z ≤ c
        · exact Or.inl ⟨z, z', k, hz, k2⟩
        · have : z = c + 1 := by omega
          subst this
          rcases k.1 with k0 | k0
          · omega
          · exact Or.inl (both k0)
      · by_cases hy : ∃ y ∈ d, y.1 = c + 1
        · exact Or.inl (both hy)
        · refine Or.inr fun y hyd => ?_
          have := k y hyd
          have : y.1 ≠ c + 1 := fun e => hy ⟨y, hyd, e⟩
          omega
  · exact Or.inr h

theorem pace_of_steps (g : ℤ → ℝ) (K : ℝ) (h : ∀ c, 0 ≤ c → |g (c + 1) - g c| ≤ K) (c c' : ℤ) (hc : 0 ≤ c) (hc' : 0 ≤ c') :
    |g c - g c'| ≤ K * (|c - c'| : ℤ) := by
  have key : ∀ n : ℕ, ∀ a : ℤ, 0 ≤ a → |g (a + n) - g a| ≤ K * n := by
    intro n
    induction n with
    | zero => intro a _; simp
    | succ n ih =>
      intro a ha
      have e : g (a + (n + 1 : ℕ)) - g a = (g (a + n + 1) - g (a + n)) + (g (a + n) - g a) := by push_cast; rw [← add_assoc]; ring
      rw [e]
      refine (abs_add_le _ _).trans ?_
      have h1 := h (a + n) (by omega)
      have h2 := ih a ha
      push_cast; linarith
  rcases le_total c c' with hle | hle
  · obtain ⟨n, rfl⟩ : ∃ n : ℕ, c' = c + n := ⟨(c' - c).toNat, by omega⟩
    rw [abs_sub_comm]
    refine (key n c hc).trans (le_of_eq ?_)
    congr 1
    rw [show c - (c + n) = -(n : ℤ) by ring, abs_neg, abs_of_nonneg (by omega)]; push_cast; rfl
  · obtain ⟨n, rfl⟩ : ∃ n : ℕ, c = c' + n := ⟨(c - c').toNat, by omega⟩
    refine (key n c' hc').trans (le_of_eq ?_)
    congr 1
    rw [show c' + n - c' = (n : ℤ) by ring, abs_of_nonneg (by omega)]; push_cast; rfl

/-- the pace of an interpolation from the pace of the interpolating function -/
theorem interpolates_pace {f : ℝ → ℝ → ℝ → ℝ} {i : ℝ} {d : List (ℤ × ℝ)} {g : Schedule ℝ} (hg : Interpolates f i d g) (hpos : ∀ x ∈ d, 0 < x.1) (hnd : (d.map Prod.fst).Nodup) {κ K : ℝ}
    (hκ : 0 ≤ κ) (hK0 : 0 ≤ K) (hf : ∀ a b s t, |f a b s - f a b t| ≤ κ * |b - a| * |s - t|) (hK : ∀ x x', Consecutive d x x' → |g x' - g x| ≤ K * ((x' - x : ℤ) : ℝ))
    (c c' : ℤ) (hc : 0 ≤ c) (hc' : 0 ≤ c') : |g c - g c'| ≤ κ * K * (|c - c'| : ℤ) := by
  refine pace_of_steps g (κ * K) (fun c hc => ?_) c c' hc hc'
  rcases step_segment d hpos hnd c hc with ⟨x, x', h, h1, h2⟩ | h
  · rw [hg.between x x' (c + 1) h (by omega) h2, hg.between x x' c h h1 (by omega)]
    have hp : (0 : ℝ) < ((x' - x : ℤ) : ℝ) := by exact_mod_cast (by have := h.2.2.1; omega : 0 < x' - x)
    refine (hf _ _ _ _).trans ?_
    have e : ((c + 1 - x : ℤ) : ℝ) / ((x' - x : ℤ) : ℝ) - ((c - x : ℤ) : ℝ) / ((x' - x : ℤ) : ℝ) = 1 / ((x' - x : ℤ) : ℝ) := by
      rw [← sub_div]; congr 1; push_cast; ring
    rw [e, abs_of_pos (a := 1 / ((x' - x : ℤ) : ℝ)) (one_div_pos.2 hp), mul_one_div, div_le_iff₀ hp, mul_assoc]
    exact mul_le_mul_of_nonneg_left (hK x x' h) hκ
  · rw [hg.after c hc h, hg.after (c + 1) (by omega) (fun y hy => by have := h y hy; omega), sub_self, abs_zero]
    positivity

/-- **C135 (piecewise interpolation).** Positive distinct boundaries, non-negative factors.  If `K` bounds the slopes of the chords between neighbouring knots, then the linear schedule moves at
most `K` per step and the cosine one at most `K·π/2`, across knots too. -/
theorem C135_interpolate (i : ℝ) (d : List (ℤ × ℝ)) (hs : ∀ x ∈ d, 0 ≤ x.2) (hpos : ∀ x ∈ d, 0 < x.1) (hnd : (d.map Prod.fst).Nodup) :
    (∃ g, piecewiseInterpolateSchedule "linear" i d = .ok g ∧ ∀ K, 0 ≤ K → (∀ x x', Consecutive d x x' → |g x' - g x| ≤ K * ((x' - x : ℤ) : ℝ)) →
      ∀ c c', 0 ≤ c → 0 ≤ c' → |g c - g c'| ≤ K * (|c - c'| : ℤ)) ∧
    ∃ g, piecewiseInterpolateSchedule "cosine" i d = .ok g ∧ ∀ K, 0 ≤ K → (∀ x x', Consecutive d x x' → |g x' - g x| ≤ K * ((x' - x : ℤ) : ℝ)) →
      ∀ c c', 0 ≤ c → 0 ≤ c' → |g c - g c'| ≤ Real.pi / 2 * K * (|c - c'| : ℤ) := by
  constructor
  · obtain ⟨g, h1, h2, -⟩ := C43_linear i d hs hpos hnd
    refine ⟨g, h1, fun K hK0 hK c c' hc hc' => ?_⟩
    have := interpolates_pace h2 hpos hnd (κ := 1) zero_le_one hK0 (fun a b s t => by
      rw [show a + s * (b - a) - (a + t * (b - a)) = (b - a) * (s - t) by ring, abs_mul, one_mul]) hK c c' hc hc'
    rwa [one_mul] at this
  · obtain ⟨g, h1, h2, -⟩ := C43_cosine i d hs hpos hnd
    refine ⟨g, h1, fun K hK0 hK c c' hc hc' => ?_⟩
    refine interpolates_pace h2 hpos hnd (κ := Real.pi / 2) (by positivity) hK0 (fun a b s t => ?_) hK c c' hc hc'
    rw [show b + (a - b) * ((1 + Real.cos (Real.pi * s)) / 2) - (b + (a - b) * ((1 + Real.cos (Real.pi * t)) / 2)) =
      (a - b) * ((Real.cos (Real.pi * s) - Real.cos (Real.pi * t)) / 2) by ring, abs_mul, abs_div, abs_of_pos (two_pos : (0:ℝ) < 2), abs_sub_comm a b]
    have h := Real.abs_cos_sub_cos_le (Real.pi * s) (Real.pi * t)
    rw [← mul_sub, abs_mul, abs_of_pos Real.pi_pos] at h
    have h0 := abs_nonneg (b - a)
    nlinarith [mul_le_mul_of_nonneg_left h h0]

/-- **C135 (one cycle).** For lengths for which the boundaries `a = int(pct_start·n)`, `b = int(pct_final·n)` are positive and distinct (see C44), `linear_onecycle_schedule` moves per step at most
the largest of the slopes of its three legs, and `cosine_onecycle_schedule` at most π/2 times the larger of the slopes of its two legs. -/
theorem C135_onecycle (n : ℤ) (peak div fdiv : ℝ) (ps pf : ℚ) (hpeak : 0 ≤ peak) (hdiv : 1 ≤ div) (hfdiv : 1 ≤ fdiv) :
    (0 < ⌊ps * n⌋ → ⌊ps * n⌋ < ⌊pf * n⌋ → ⌊pf * n⌋ < n → ∃ g, linearOnecycleSchedule n peak ps pf div fdiv = .ok g ∧ ∀ c c', 0 ≤ c → 0 ≤ c' →
      |g c - g c'| ≤ max (max ((peak - peak / div) / ⌊ps * n⌋) ((peak - peak / div) / (⌊pf * n⌋ - ⌊ps * n⌋))) ((peak / div - peak / (div * fdiv)) / (n - ⌊pf * n⌋)) * (|c - c'| : ℤ)) ∧
    (0 < ⌊ps * n⌋ → ⌊ps * n⌋ < n → ∃ g, cosineOnecycleSchedule n peak ps div fdiv = .ok g ∧ ∀ c c', 0 ≤ c → 0 ≤ c' →
      |g c - g c'| ≤ Real.pi / 2 * max ((peak - peak / div) / ⌊ps * n⌋) ((peak - peak / (div * fdiv)) / (n - ⌊ps * n⌋)) * (|c - c'| : ℤ)) := by
  have hd0 : div ≠ 0 := by linarith
  have hf0 : fdiv ≠ 0 := by linarith
  have hdp : 0 < div := by linarith
  have hfp : 0 < fdiv := by linarith
  have hpd : peak / div ≤ peak := div_le_self hpeak hdiv
  have hpf : peak / (div * fdiv) ≤ peak := div_le_self hpeak (by nlinarith)
  have hpf' : peak / (div * fdiv) ≤ peak / div := by
    rw [← div_div]; exact div_le_self (by positivity) hfdiv
  have slope : ∀ {u v K : ℝ} {m : ℤ}, 0 < m → |u - v| / m ≤ K → |u - v| ≤ K * (m : ℝ) := by
    intro u v K m hm h
    have : (0 : ℝ) < m := by exact_mod_cast hm
    exact (div_le_iff₀ this).1 h
  constructor
  · intro h1 h2 h3
    obtain ⟨g, hg, g0, ga, gb, gn, -⟩ := C44_linear_partial n peak div fdiv ps pf hpeak hdiv hfdiv h1 h2 h3
    refine ⟨g, hg, ?_⟩
    set a := ⌊ps * n⌋ with ha
    set b := ⌊pf * n⌋ with hb
    have ea : truncQ (ps * n) = a := (truncQ_floor (q := ps * n) (by omega)).symm
    have eb : truncQ (pf * n) = b := (truncQ_floor (q := pf * n) (by omega)).symm
    have hpos : ∀ x ∈ [(a, div), (b, 1 / div), (n, 1 / fdiv)], 0 < x.1 := by simp; omega
    have hnd : ([(a, div), (b, 1 / div), (n, 1 / fdiv)].map Prod.fst).Nodup := by simp; omega
    obtain ⟨⟨g', hg', hpace⟩, -⟩ := C135_interpolate (peak / div) [(a, div), (b, 1 / div), (n, 1 / fdiv)] (by simp; exact ⟨hdp.le, hfp.le⟩) hpos hnd
    have hgg : g = g' := by
      unfold linearOnecycleSchedule at hg
      rw [if_neg (by omega), pyDiv_real _ _ hd0, Res.ok_bind, pyDiv_real _ _ hd0, Res.ok_bind, pyDiv_real _ _ hf0,
        Res.ok_bind, ea, eb, dict3 _ _ _ _ _ _ (by omega) (by omega) (by omega), hg'] at hg
      exact (Except.ok.inj hg).symm
    subst hgg
    refine hpace _ ?_ ?_
    · exact le_max_of_le_left (le_max_of_le_left (div_nonneg (by linarith) (by exact_mod_cast h1.le)))
    · intro x x' hx
      obtain ⟨k1, ⟨y, hy, rfl⟩, k3, k4⟩ := hx
      have q1 := k4 (a, div) (by simp)
      have q2 := k4 (b, 1 / div) (by simp)
      have q3 := k4 (n, 1 / fdiv) (by simp)
      simp only [List.mem_cons, List.not_mem_nil, or_false] at hy k1
      simp only at q1 q2 q3
      have gn' := gn n le_rfl
      rcases hy with rfl | rfl | rfl
      · have hx0 : x = 0 := by
          rcases k1 with h | ⟨z, rfl | rfl | rfl, h⟩ <;> simp only at h k3 q1 q2 q3 ⊢ <;> omega
        subst hx0
        refine slope (by simp only; omega) ?_
        simp only
        rw [ga, g0, sub_zero, abs_of_nonneg (by linarith)]
        exact le_max_of_le_left (le_max_left _ _)
      · have hx0 : x = a := by
          rcases k1 with h | ⟨z, rfl | rfl | rfl, h⟩ <;> simp only at h k3 q1 q2 q3 ⊢ <;> omega
        subst hx0
        refine slope (by simp only; omega) ?_
        simp only
        rw [ga, gb, abs_sub_comm, abs_of_nonneg (by linarith)]
        push_cast
        exact le_max_of_le_left (le_max_right _ _)
      · have hx0 : x = b := by
          rcases k1 with h | ⟨z, rfl | rfl | rfl, h⟩ <;> simp only at h k3 q1 q2 q3 ⊢ <;> omega
        subst hx0
        refine slope (by simp only; omega) ?_
        simp only
        rw [gb, gn', abs_sub_comm, abs_of_nonneg (by linarith)]
        push_cast
        exact le_max_right _ _
  · intro h1 h2
    obtain ⟨g, hg, g0, ga, gn, -⟩ := C44_cosine_partial n peak div fdiv ps hpeak hdiv hfdiv h1 h2
    refine ⟨g, hg, ?_⟩
    set a := ⌊ps * n⌋ with ha
    have ea : truncQ (ps * n) = a := (truncQ_floor (q := ps * n) (by omega)).symm
    have hpos : ∀ x ∈ [(a, div), (n, 1 / (div * fdiv))], 0 < x.1 := by simp; omega
    have hnd : ([(a, div), (n, 1 / (div * fdiv))].map Prod.fst).Nodup := by simp; omega
    obtain ⟨-, ⟨g', hg', hpace⟩⟩ := C135_interpolate (peak / div) [(a, div), (n, 1 / (div * fdiv))] (by simp; exact ⟨hdp.le, by positivity⟩) hpos hnd
    have hgg : g = g' := by
      unfold cosineOnecycleSchedule at hg
      rw [if_neg (by omega), pyDiv_real _ _ hd0, Res.ok_bind, pyDiv_real _ _ (by positivity), Res.ok_bind, ea, dict2 _ _ _ _ (by omega), hg'] at hg
      exact (Except.ok.inj hg).symm
    subst hgg
    refine hpace _ ?_ ?_
    · exact le_max_of_le_left (div_nonneg (by linarith) (by exact_mod_cast h1.le))
    · intro x x' hx
      obtain ⟨k1, ⟨y, hy, rfl⟩, k3, k4⟩ := hx
      have q1 := k4 (a, div) (by simp)
      have q3 := k4 (n, 1 / (div * fdiv)) (by simp)
      simp only [List.mem_cons, List.not_mem_nil, or_false] at hy k1
      simp only at q1 q3
      have gn' := gn n le_rfl
      rcases hy with rfl | rfl
      · have hx0 : x = 0 := by
          rcases k1 with h | ⟨z, rfl | rfl, h⟩ <;> simp only at h k3 q1 q3 ⊢ <;> omega
        subst hx0
        refine slope (by simp only; omega) ?_
        simp only
        rw [ga, g0, sub_zero, abs_of_nonneg (by linarith)]
        exact le_max_left _ _
      · have hx0 : x = a := by
          rcases k1 with h | ⟨z, rfl | rfl, h⟩ <;> simp only at h k3 q1 q3 ⊢ <;> omega
        subst hx0
        refine slope (by simp only; omega) ?_
        simp only
        rw [ga, gn', abs_sub_comm, abs_of_nonneg (by linarith)]
        push_cast
        exact le_max_right _ _

/-- the default one-cycle percentages over 100 steps meet the hypotheses -/
example : 0 < ⌊(3 / 10 : ℚ) * (100 : ℤ)⌋ ∧ ⌊(3 / 10 : ℚ) * (100 : ℤ)⌋ < ⌊(85 / 100 : ℚ) * (100 : ℤ)⌋ ∧ ⌊(85 / 100 : ℚ) * (100 : ℤ)⌋ < 100 := by
  refine ⟨?_, ?_, ?_⟩ <;> norm_num

end Optax
