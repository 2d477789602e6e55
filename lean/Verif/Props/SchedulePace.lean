import Verif.Props.Join
import Mathlib.Analysis.Convex.SpecificFunctions.Basic
import Mathlib.Analysis.MeanInequalitiesPow
import Mathlib.Analysis.SpecialFunctions.Trigonometric.Bounds

/-!
# C135: schedules change slowly
-/

namespace Optax

theorem abs_min_sub {α : Type*} [AddCommGroup α] [LinearOrder α] [IsOrderedAddMonoid α] (a b c : α) : |min a c - min b c| ≤ |a - b| := by
  have := abs_min_sub_min_le_max a c b c
  rwa [sub_self, abs_zero, max_eq_left (abs_nonneg _)] at this

theorem clamp_sub (steps b c c' : ℤ) : |min (max (c - b) 0) steps - min (max (c' - b) 0) steps| ≤ |c - c'| := by
  refine (abs_min_sub _ _ _).trans ((abs_max_sub_max_le_abs _ _ _).trans (le_of_eq ?_))
  rw [sub_sub_sub_cancel_right]

theorem remaining_sub (steps b c c' : ℤ) (hs : 0 < steps) : |remaining steps b c - remaining steps b c'| ≤ (|c - c'| : ℤ) / steps := by
  have hs' : (0:ℝ) < steps := by exact_mod_cast hs
  unfold remaining
  rw [show ∀ x y : ℝ, (1 - x / steps) - (1 - y / steps) = (y - x) / steps from fun x y => by ring, abs_div, abs_of_pos hs', div_le_div_iff_of_pos_right hs',
    abs_sub_comm]
  exact_mod_cast clamp_sub steps (max b 0) c c'

theorem remaining_mem (steps b c : ℤ) (hs : 0 < steps) : 0 ≤ remaining steps b c ∧ remaining steps b c ≤ 1 := by
  have hs' : (0:ℝ) < steps := by exact_mod_cast hs
  unfold remaining
  constructor
  · rw [sub_nonneg, div_le_one hs']
    exact_mod_cast min_le_right _ _
  · rw [sub_le_self_iff]
    refine div_nonneg ?_ hs'.le
    exact_mod_cast le_min (le_max_right _ _) hs.le

theorem rpow_lip {p x y : ℝ} (hp : 1 ≤ p) (hy : 0 ≤ y) (hxy : y ≤ x) (hx : x ≤ 1) : x ^ p - y ^ p ≤ p * (x - y) := by
  rcases (hy.trans hxy).eq_or_lt with h | h
  · have : y = 0 := le_antisymm (by rw [h]; exact hxy) hy
    rw [← h, this]; simp
  · have h1 := one_add_mul_self_le_rpow_one_add (s := y / x - 1) (by linarith [div_nonneg hy h.le]) hp
    rw [add_sub_cancel, Real.div_rpow hy h.le, le_div_iff₀ (Real.rpow_pos_of_pos h p)] at h1
    have h2 : x ^ p ≤ x := by
      have := Real.rpow_le_rpow_of_exponent_ge h hx hp
      rwa [Real.rpow_one] at this
    have h3 : (1 - y / x) * x = x - y := by field_simp
    have h4 : 0 ≤ 1 - y / x := by rw [sub_nonneg, div_le_one h]; exact hxy
    have h5 : p * ((1 - y / x) * x ^ p) ≤ p * ((1 - y / x) * x) := mul_le_mul_of_nonneg_left (mul_le_mul_of_nonneg_left h2 h4) (by linarith)
    rw [h3] at h5
    nlinarith

theorem rpow_hold {p x y : ℝ} (h0 : 0 ≤ p) (hp : p ≤ 1) (hy : 0 ≤ y) (hxy : y ≤ x) : x ^ p - y ^ p ≤ (x - y) ^ p := by
  have h := NNReal.rpow_add_le_add_rpow (⟨x - y, sub_nonneg.2 hxy⟩ : NNReal) ⟨y, hy⟩ h0 hp
  have h : ((x - y) + y) ^ p ≤ (x - y) ^ p + y ^ p := by exact_mod_cast h
  rw [sub_add_cancel] at h
  linarith

/-- **C135 (polynomial and linear schedules).** Between any two steps `c`, `c'` a polynomial schedule of power at least 1 moves by at most
`|init - end| · power / transition_steps` per step, one of power in (0, 1] by at most `|init - end| · (|c - c'| / transition_steps)^power`, a linear
one by at most `|init - end| / transition_steps` per step. -/
theorem C135_polynomial (i e p : ℝ) (steps begin_ : ℤ) (hs : 0 < steps) (c c' : ℤ) :
    (1 ≤ p → |polynomialSchedule i e p steps begin_ c - polynomialSchedule i e p steps begin_ c'| ≤ |i - e| * p / steps * (|c - c'| : ℤ)) ∧
    (0 < p → p ≤ 1 → |polynomialSchedule i e p steps begin_ c - polynomialSchedule i e p steps begin_ c'| ≤ |i - e| * ((|c - c'| : ℤ) / steps) ^ p) ∧
    |linearSchedule i e steps begin_ c - linearSchedule i e steps begin_ c'| ≤ |i - e| / steps * (|c - c'| : ℤ) := by
  have hs' : (0:ℝ) < steps := by exact_mod_cast hs
  have key : ∀ q : ℝ, |polynomialSchedule i e q steps begin_ c - polynomialSchedule i e q steps begin_ c'| =
      |i - e| * |remaining steps begin_ c ^ q - remaining steps begin_ c' ^ q| := by
    intro q
    rw [polynomial_eq _ _ _ _ _ hs, polynomial_eq _ _ _ _ _ hs, ← abs_mul]
    congr 1; ring
  have r := remaining_mem steps begin_ c hs
  have r' := remaining_mem steps begin_ c' hs
  have d := remaining_sub steps begin_ c c' hs
  have main : ∀ q : ℝ, 1 ≤ q → |polynomialSchedule i e q steps begin_ c - polynomialSchedule i e q steps begin_ c'| ≤ |i - e| * q / steps * (|c - c'| : ℤ) := by
    intro q hq
    rw [key]
    have h : |remaining steps begin_ c ^ q - remaining steps begin_ c' ^ q| ≤ q * |remaining steps begin_ c - remaining steps begin_ c'| := by
      rcases le_total (remaining steps begin_ c) (remaining steps begin_ c') with hle | hle
      · rw [abs_sub_comm, abs_sub_comm (remaining steps begin_ c), abs_of_nonneg (sub_nonneg.2 hle),
          abs_of_nonneg (sub_nonneg.2 (Real.rpow_le_rpow r.1 hle (by linarith)))]
        exact rpow_lip hq r.1 hle r'.2
      · rw [abs_of_nonneg (sub_nonneg.2 hle), abs_of_nonneg (sub_nonneg.2 (Real.rpow_le_rpow r'.1 hle (by linarith)))]
        exact rpow_lip hq r'.1 hle r.2
    calc _ ≤ |i - e| * (q * ((|c - c'| : ℤ) / steps)) := mul_le_mul_of_nonneg_left (h.trans (mul_le_mul_of_nonneg_left d (by linarith))) (abs_nonneg _)
      _ = _ := by ring
  refine ⟨main p, fun h0 h1 => ?_, ?_⟩
  · rw [key]
    refine mul_le_mul_of_nonneg_left ?_ (abs_nonneg _)
    refine le_trans ?_ (Real.rpow_le_rpow (abs_nonneg _) d h0.le)
    rcases le_total (remaining steps begin_ c) (remaining steps begin_ c') with hle | hle
    · rw [abs_sub_comm, abs_sub_comm (remaining steps begin_ c), abs_of_nonneg (sub_nonneg.2 hle),
        abs_of_nonneg (sub_nonneg.2 (Real.rpow_le_rpow r.1 hle h0.le))]
      exact rpow_hold h0.le h1 r.1 hle
    · rw [abs_of_nonneg (sub_nonneg.2 hle), abs_of_nonneg (sub_nonneg.2 (Real.rpow_le_rpow r'.1 hle h0.le))]
      exact rpow_hold h0.le h1 r'.1 hle
  · have := main 1 le_rfl
    rw [mul_one] at this
    exact this

/-- **C135 (cosine decay).** At most `|init (1 - alpha)| · π / (2 decay_steps)` per step. -/
theorem C135_cosine (i a : ℝ) (steps : ℤ) (hs : 0 < steps) :
    ∃ f, cosineDecaySchedule i steps a = .ok f ∧ ∀ c c', |f c - f c'| ≤ |i * (1 - a)| * Real.pi / (2 * steps) * (|c - c'| : ℤ) := by
  have hs' : (0:ℝ) < steps := by exact_mod_cast hs
  obtain ⟨f, h1, h2⟩ := cosine_ok i a steps hs
  refine ⟨f, h1, fun c c' => ?_⟩
  rw [h2, h2]
  set x := Real.pi * ((min c steps : ℤ) : ℝ) / steps
  set y := Real.pi * ((min c' steps : ℤ) : ℝ) / steps
  have e : i * ((1 - a) * ((1 + Real.cos x) / 2) + a) - i * ((1 - a) * ((1 + Real.cos y) / 2) + a) = i * (1 - a) * ((Real.cos x - Real.cos y) / 2) := by ring
  rw [e, abs_mul, abs_div, abs_of_pos (two_pos : (0:ℝ) < 2)]
  have hxy : |x - y| ≤ Real.pi / steps * (|c - c'| : ℤ) := by
    have : x - y = Real.pi / steps * ((min c steps - min c' steps : ℤ) : ℝ) := by push_cast; simp only [x, y]; push_cast; ring
    rw [this, abs_mul, abs_of_pos (div_pos Real.pi_pos hs')]
    refine mul_le_mul_of_nonneg_left ?_ (div_pos Real.pi_pos hs').le
    exact_mod_cast abs_min_sub c c' steps
  have := Real.abs_cos_sub_cos_le x y
  calc _ ≤ |i * (1 - a)| * (Real.pi / steps * (|c - c'| : ℤ) / 2) := mul_le_mul_of_nonneg_left (by linarith) (abs_nonneg _)
    _ = _ := by ring

/-- **C135 (exponential decay).** Without staircase, a decay rate in (0, 1], with or without `end_value`: at most `|init| · log(1/rate) / transition_steps` per step. -/
theorem C135_exponential (i r : ℝ) (steps begin_ : ℤ) (en : Option ℝ) (hs : 0 < steps) (hr : 0 < r) (hr1 : r ≤ 1) (c c' : ℤ) :
    |exponentialDecay i steps r begin_ false en c - exponentialDecay i steps r begin_ false en c'| ≤ |i| * (-Real.log r) / steps * (|c - c'| : ℤ) := by
  have hs' : (0:ℝ) < steps := by exact_mod_cast hs
  have hlog : 0 ≤ -Real.log r := by linarith [Real.log_nonpos hr.le hr1]
  have form : ∀ c : ℤ, exponentialDecay i steps r begin_ false none c = i * Real.exp (-(-Real.log r / steps * ((max (c - max begin_ 0) 0 : ℤ) : ℝ))) := by
    intro c
    rw [exponential_eq _ _ _ _ _ hs hr]
    split_ifs with h
    · rw [max_eq_right (show c - max begin_ 0 ≤ 0 by omega)]; simp
    · rw [max_eq_left (show 0 ≤ c - max begin_ 0 by omega)]
      unfold decayExponent
      rw [Real.rpow_def_of_pos hr]
      simp only [Bool.false_eq_true, if_false]
      congr 2; ring
  have hexp : ∀ x y : ℝ, 0 ≤ x → x ≤ y → |Real.exp (-x) - Real.exp (-y)| ≤ y - x := by
    intro x y hx hxy
    rw [abs_of_nonneg (sub_nonneg.2 (Real.exp_le_exp.2 (by linarith)))]
    have h1 : Real.exp (-y) = Real.exp (-x) * Real.exp (-(y - x)) := by rw [← Real.exp_add]; congr 1; ring
    have h2 := Real.add_one_le_exp (-(y - x))
    have h3 : Real.exp (-x) ≤ 1 := Real.exp_le_one_iff.2 (by linarith)
    have h4 := Real.exp_pos (-x)
    rw [h1]
    nlinarith
  have hexp' : ∀ x y : ℝ, 0 ≤ x → 0 ≤ y → |Real.exp (-x) - Real.exp (-y)| ≤ |x - y| := by
    intro x y hx hy
    rcases le_total x y with h | h
    · rw [abs_sub_comm x y, abs_of_nonneg (sub_nonneg.2 h)]; exact hexp x y hx h
    · rw [abs_of_nonneg (sub_nonneg.2 h), abs_sub_comm]; exact hexp y x hy h
  have main : |exponentialDecay i steps r begin_ false none c - exponentialDecay i steps r begin_ false none c'| ≤ |i| * (-Real.log r) / steps * (|c - c'| : ℤ) := by
    rw [form, form, ← mul_sub, abs_mul]
    have hk : ∀ c : ℤ, 0 ≤ -Real.log r / steps * ((max (c - max begin_ 0) 0 : ℤ) : ℝ) := fun c => by
      refine mul_nonneg (div_nonneg hlog hs'.le) ?_
      exact_mod_cast le_max_right _ _
    refine (mul_le_mul_of_nonneg_left (hexp' _ _ (hk c) (hk c')) (abs_nonneg i)).trans ?_
    rw [← mul_sub, abs_mul, abs_of_nonneg (div_nonneg hlog hs'.le)]
    have hm : |((max (c - max begin_ 0) 0 : ℤ) : ℝ) - ((max (c' - max begin_ 0) 0 : ℤ) : ℝ)| ≤ (|c - c'| : ℤ) := by
      have := abs_max_sub_max_le_abs (c - max begin_ 0) (c' - max begin_ 0) 0
      rw [sub_sub_sub_cancel_right] at this
      exact_mod_cast this
    calc _ ≤ |i| * (-Real.log r / steps * (|c - c'| : ℤ)) := mul_le_mul_of_nonneg_left (mul_le_mul_of_nonneg_left hm (div_nonneg hlog hs'.le)) (abs_nonneg _)
      _ = _ := by ring
  cases en with
  | none => exact main
  | some e =>
    rw [exponential_end i r e steps begin_ false hs hr, exponential_end i r e steps begin_ false hs hr]
    split_ifs
    · exact (abs_max_sub_max_le_abs _ _ _).trans main
    · exact (abs_min_sub _ _ _).trans main

/-- pieces that meet and both change by at most `K` per step -/
theorem join_lip (g : ℤ → ℝ) (w : ℤ) (K : ℝ) (h1 : ∀ c c', 0 ≤ c → c ≤ c' → c' ≤ w → |g c - g c'| ≤ K * ((c' - c : ℤ) : ℝ))
    (h2 : ∀ c c', w ≤ c → c ≤ c' → |g c - g c'| ≤ K * ((c' - c : ℤ) : ℝ)) (c c' : ℤ) (hc : 0 ≤ c) (hc' : 0 ≤ c') :
    |g c - g c'| ≤ K * (|c - c'| : ℤ) := by
  have main : ∀ c c', 0 ≤ c → c ≤ c' → |g c - g c'| ≤ K * ((c' - c : ℤ) : ℝ) := by
    intro c c' hc hcc
    rcases le_total c' w with h | h
    · exact h1 c c' hc hcc h
    · rcases le_total w c with h' | h'
      · exact h2 c c' h' hcc
      · have e1 := h1 c w hc h' le_rfl
        have e2 := h2 w c' le_rfl h
        have := abs_sub_le (g c) (g w) (g c')
        push_cast at e1 e2 ⊢
        nlinarith
  rcases le_total c c' with h | h
  · rw [show |c - c'| = c' - c by rw [abs_sub_comm]; exact abs_of_nonneg (sub_nonneg.2 h)]
    exact main c c' hc h
  · rw [abs_of_nonneg (sub_nonneg.2 h), abs_sub_comm]
    exact main c' c hc' h

/-- **C135 (warm-up then cosine).** No jump where the two meet: at most the larger of `|peak - init| / warmup_steps` and
`|peak - end| · π / (2 (decay_steps - warmup_steps))` per step over the whole run. -/
theorem C135_warmup_cosine (i p e : ℝ) (w n : ℤ) (hw : 0 < w) (hn : w < n) (hp : p ≠ 0) :
    ∃ g, warmupCosineDecaySchedule i p w n e = .ok g ∧
      ∀ c c', 0 ≤ c → 0 ≤ c' → |g c - g c'| ≤ max (|p - i| / w) (|p - e| * Real.pi / (2 * ((n - w : ℤ) : ℝ))) * (|c - c'| : ℤ) := by
  have hw' : (0:ℝ) < w := by exact_mod_cast hw
  obtain ⟨g, d, h1, h2, -, h4, h5, h6, -⟩ := C46_cosine i p e w n hw.le hn hp
  obtain ⟨d', h2', h7⟩ := C135_cosine p (e / p) (n - w) (by omega)
  rw [h2] at h2'
  cases h2'
  have e1 : p * (1 - e / p) = p - e := by field_simp
  rw [e1] at h7
  refine ⟨g, h1, join_lip g w _ (fun c c' hc hcc hcw => ?_) (fun c c' hc hcc => ?_)⟩
  · have line : ∀ c, 0 ≤ c → c ≤ w → g c = i + (p - i) * ((c : ℝ) / w) := by
      intro c h0 hcw
      rcases hcw.eq_or_lt with rfl | h
      · rw [h4]; field_simp; ring
      · exact (h5 c h0 h).1
    rw [line c hc (hcc.trans hcw), line c' (hc.trans hcc) hcw]
    have hcc' : (0:ℝ) ≤ ((c' - c : ℤ) : ℝ) := by exact_mod_cast sub_nonneg.2 hcc
    have : i + (p - i) * ((c : ℝ) / w) - (i + (p - i) * ((c' : ℝ) / w)) = -((p - i) / w * ((c' - c : ℤ) : ℝ)) := by push_cast; ring
    rw [this, abs_neg, abs_mul, abs_div, abs_of_pos hw', abs_of_nonneg hcc']
    exact mul_le_mul_of_nonneg_right (le_max_left _ _) hcc'
  · have hcc' : (0:ℝ) ≤ ((c' - c : ℤ) : ℝ) := by exact_mod_cast sub_nonneg.2 hcc
    rw [(h6 c hc).1, (h6 c' (hc.trans hcc)).1]
    have := h7 (c - w) (c' - w)
    rw [sub_sub_sub_cancel_right, abs_sub_comm c c', abs_of_nonneg (sub_nonneg.2 hcc)] at this
    exact this.trans (mul_le_mul_of_nonneg_right (le_max_right _ _) hcc')

/-- **C135 (staircase jumps).** With `staircase=True` there is no such bound: the whole factor is applied in one step, however large `transition_steps`. -/
theorem C135_jumps (i r : ℝ) (steps : ℤ) (hs : 0 < steps) (hr : 0 < r) :
    exponentialDecay i steps r 0 true none (steps - 1) = i ∧ exponentialDecay i steps r 0 true none steps = i * r := by
  have h := C41_closed_form i r steps 0 hs hr
  constructor
  · have := h.2.2.1 (steps - 1) (by omega)
    rw [show max (0:ℤ) 0 + (steps - 1) = steps - 1 by simp, Int.ediv_eq_zero_of_lt (by omega) (by omega)] at this
    simpa using this
  · have := (h.2.2.2 1).1
    simpa using this

/-- Non-vacuity: the values of a warm-up of 10 steps and 100 in all to a peak of 1 differ by at most 0.1 from one step to the next. -/
example : ∃ g, warmupCosineDecaySchedule (0:ℝ) 1 10 110 0 = .ok g ∧ ∀ c : ℤ, 0 ≤ c → |g (c + 1) - g c| ≤ 1 / 10 := by
  obtain ⟨g, h1, h2⟩ := C135_warmup_cosine 0 1 0 10 110 (by norm_num) (by norm_num) one_ne_zero
  refine ⟨g, h1, fun c hc => ?_⟩
  have := h2 (c + 1) c (by omega) hc
  have hm : max (|(1:ℝ) - 0| / (10 : ℤ)) (|(1:ℝ) - 0| * Real.pi / (2 * ((110 - 10 : ℤ) : ℝ))) ≤ 1 / 10 := by
    have := Real.pi_le_four
    refine max_le (by norm_num) ?_
    norm_num
    linarith
  have e : |c + 1 - c| = 1 := by simp
  rw [e] at this
  simp only [Int.cast_one, mul_one] at this
  exact this.trans hm

end Optax
