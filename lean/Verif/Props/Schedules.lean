import Verif.Model.Schedule
import Mathlib.Algebra.BigOperators.Group.List.Basic
import Mathlib.Analysis.SpecialFunctions.Trigonometric.Bounds

/-!
# C39–C42: polynomial, piecewise-constant, exponential and cosine schedules
-/

set_option linter.unusedSectionVars false
set_option linter.unusedSimpArgs false

namespace Optax

/-! ## C39 -/

/-- fraction of the transition still to go at `count`, between 0 and 1 -/
noncomputable def remaining (steps begin_ count : ℤ) : ℝ :=
  1 - ((min (max (count - max begin_ 0) 0) steps : ℤ) : ℝ) / (steps : ℝ)

theorem polynomial_eq (i e p : ℝ) (steps begin_ : ℤ) (hs : 0 < steps) (count : ℤ) :
    polynomialSchedule i e p steps begin_ count = (i - e) * remaining steps begin_ count ^ p + e := by
  unfold polynomialSchedule remaining
  rw [if_neg (by omega)]
  have : (if begin_ < 0 then 0 else begin_) = max begin_ 0 := by
    split
    · rw [max_eq_right (by omega)]
    · rw [max_eq_left (by omega)]
  simp only [this, jpow_real, jofInt_real]

theorem remaining_bounds (steps begin_ count : ℤ) (hs : 0 < steps) :
    0 ≤ remaining steps begin_ count ∧ remaining steps begin_ count ≤ 1 := by
  unfold remaining
  have hs' : (0:ℝ) < steps := by exact_mod_cast hs
  have h1 : ((min (max (count - max begin_ 0) 0) steps : ℤ) : ℝ) ≤ steps := by
    exact_mod_cast min_le_right _ _
  have h2 : (0:ℝ) ≤ ((min (max (count - max begin_ 0) 0) steps : ℤ) : ℝ) := by
    exact_mod_cast le_min (le_max_right _ _) hs.le
  constructor
  · rw [sub_nonneg, div_le_one hs']; exact h1
  · rw [sub_le_self_iff]; exact div_nonneg h2 hs'.le

theorem remaining_anti (steps begin_ : ℤ) (hs : 0 < steps) {c c' : ℤ} (h : c ≤ c') :
    remaining steps begin_ c' ≤ remaining steps begin_ c := by
  unfold remaining
  have hs' : (0:ℝ) < steps := by exact_mod_cast hs
  apply sub_le_sub_left
  rw [div_le_div_iff_of_pos_right hs']
  exact_mod_cast min_le_min_right _ (max_le_max_right _ (by omega))

/-- **C39.** `polynomial_schedule` with `transition_steps > 0` and `power > 0`: it is `init_value` up to
`transition_begin` (0 if negative), `end_value` from `transition_begin + transition_steps` on, always between the two
(in the order they have), and monotone in the count towards `end_value`. -/
theorem C39_polynomial (i e p : ℝ) (steps begin_ : ℤ) (hs : 0 < steps) (hp : 0 < p) :
    (∀ c, c ≤ max begin_ 0 → polynomialSchedule i e p steps begin_ c = i) ∧
    (∀ c, max begin_ 0 + steps ≤ c → polynomialSchedule i e p steps begin_ c = e) ∧
    (∀ c, min i e ≤ polynomialSchedule i e p steps begin_ c ∧
      polynomialSchedule i e p steps begin_ c ≤ max i e) ∧
    (e ≤ i → ∀ c c', c ≤ c' →
      polynomialSchedule i e p steps begin_ c' ≤ polynomialSchedule i e p steps begin_ c) ∧
    (i ≤ e → ∀ c c', c ≤ c' →
      polynomialSchedule i e p steps begin_ c ≤ polynomialSchedule i e p steps begin_ c') := by
  have hs' : (steps : ℝ) ≠ 0 := by exact_mod_cast hs.ne'
  have hr : ∀ c, 0 ≤ remaining steps begin_ c ^ p ∧ remaining steps begin_ c ^ p ≤ 1 := by
    intro c
    obtain ⟨h1, h2⟩ := remaining_bounds steps begin_ c hs
    exact ⟨Real.rpow_nonneg h1 p, Real.rpow_le_one h1 h2 hp.le⟩
  have hm : ∀ c c', c ≤ c' → remaining steps begin_ c' ^ p ≤ remaining steps begin_ c ^ p := by
    intro c c' h
    exact Real.rpow_le_rpow (remaining_bounds steps begin_ c' hs).1 (remaining_anti steps begin_ hs h) hp.le
  refine ⟨?_, ?_, ?_, ?_, ?_⟩
  · intro c hc
    rw [polynomial_eq _ _ _ _ _ hs]
    have : remaining steps begin_ c = 1 := by
      unfold remaining
      rw [max_eq_right (by omega : c - max begin_ 0 ≤ 0), min_eq_left hs.le]; simp
    rw [this, Real.one_rpow]; ring
  · intro c hc
    rw [polynomial_eq _ _ _ _ _ hs]
    have : remaining steps begin_ c = 0 := by
      unfold remaining
      rw [max_eq_left (by omega : 0 ≤ c - max begin_ 0), min_eq_right (by omega), div_self hs', sub_self]
    rw [this, Real.zero_rpow hp.ne']; ring
  · intro c
    rw [polynomial_eq _ _ _ _ _ hs]
    obtain ⟨h1, h2⟩ := hr c
    rcases le_total i e with h | h
    · rw [min_eq_left h, max_eq_right h]
      constructor <;> nlinarith
    · rw [min_eq_right h, max_eq_left h]
      constructor <;> nlinarith
  · intro h c c' hcc
    rw [polynomial_eq _ _ _ _ _ hs, polynomial_eq _ _ _ _ _ hs]
    have := hm c c' hcc
    nlinarith
  · intro h c c' hcc
    rw [polynomial_eq _ _ _ _ _ hs, polynomial_eq _ _ _ _ _ hs]
    have := hm c c' hcc
    nlinarith

/-- **C39.** Closed form inside the transition, for every power: `end + (init - end)(1 - k/steps)^power` at
`k` steps after the beginning. -/
theorem C39_closed_form (i e p : ℝ) (steps begin_ k : ℤ) (hs : 0 < steps) (hk0 : 0 ≤ k) (hk : k ≤ steps) :
    polynomialSchedule i e p steps begin_ (max begin_ 0 + k) = (i - e) * (1 - (k : ℝ) / steps) ^ p + e := by
  rw [polynomial_eq _ _ _ _ _ hs]
  unfold remaining
  rw [show max begin_ 0 + k - max begin_ 0 = k by ring, max_eq_left hk0, min_eq_left hk]

/-- **C39.** `linear_schedule` is the straight line from `init_value` to `end_value`. -/
theorem C39_linear (i e : ℝ) (steps begin_ k : ℤ) (hs : 0 < steps) (hk0 : 0 ≤ k) (hk : k ≤ steps) :
    linearSchedule i e steps begin_ (max begin_ 0 + k) = i + (e - i) * ((k : ℝ) / steps) ∧
    (∀ c, c ≤ max begin_ 0 → linearSchedule i e steps begin_ c = i) ∧
    (∀ c, max begin_ 0 + steps ≤ c → linearSchedule i e steps begin_ c = e) := by
  refine ⟨?_, fun c hc => ?_, fun c hc => ?_⟩
  · unfold linearSchedule
    rw [C39_closed_form _ _ _ _ _ _ hs hk0 hk, Real.rpow_one]; ring
  · exact (C39_polynomial i e 1 steps begin_ hs one_pos).1 c hc
  · exact (C39_polynomial i e 1 steps begin_ hs one_pos).2.1 c hc

/-- **C39.** Non-positive `transition_steps`: constant `init_value`; negative `transition_begin`: as 0;
`constant_schedule`: constant. -/
theorem C39_degenerate (i e p : ℝ) (steps begin_ count : ℤ) :
    (steps ≤ 0 → polynomialSchedule i e p steps begin_ count = i ∧ linearSchedule i e steps begin_ count = i) ∧
    (begin_ ≤ 0 → polynomialSchedule i e p steps begin_ count = polynomialSchedule i e p steps 0 count) ∧
    constantSchedule i count = i := by
  refine ⟨fun h => ?_, fun h => ?_, rfl⟩
  · unfold linearSchedule polynomialSchedule
    simp [h]
  · rcases h.lt_or_eq with h | h
    · unfold polynomialSchedule
      simp [h]
    · rw [h]

/-- e.g. 10 steps from 1 to 0 after 5: at count 8 it is 0.7 -/
example : linearSchedule (1:ℝ) 0 10 5 8 = 7 / 10 := by
  have := (C39_linear 1 0 10 5 3 (by norm_num) (by norm_num) (by norm_num)).1
  norm_num at this
  rw [this]

/-! ## C40 -/

/-- Specification: `init` times the factors of the boundaries not after `s` -/
noncomputable def boundaryProduct (i : ℝ) (d : List (ℤ × ℝ)) (s : ℤ) : ℝ :=
  i * ((d.filter (fun x => decide (x.1 ≤ s))).map Prod.snd).prod

theorem boundaryProduct_perm (i : ℝ) {d d' : List (ℤ × ℝ)} (h : d.Perm d') (s : ℤ) :
    boundaryProduct i d s = boundaryProduct i d' s := by
  unfold boundaryProduct
  rw [((h.filter _).map _).prod_eq]

theorem pc_fold (l : List (ℤ × ℝ)) (v : ℝ) (s : ℤ) :
    l.foldl (fun v ts =>
        let indicator : ℝ := JOps.max 0 (JOps.ofInt (ts.1 - s).sign)
        v * indicator + (1 - indicator) * ts.2 * v) v = boundaryProduct v l s := by
  induction l generalizing v with
  | nil => simp [boundaryProduct]
  | cons x l ih =>
    rw [List.foldl_cons, ih]
    unfold boundaryProduct
    simp only [jmax_real, jofInt_real]
    by_cases h : x.1 ≤ s
    · have hs : ((x.1 - s).sign : ℝ) ≤ 0 := by
        have : (x.1 - s).sign ≤ 0 := by
          rcases h.lt_or_eq with h' | h'
          · rw [Int.sign_eq_neg_one_of_neg (by omega)]; omega
          · rw [h']; simp
        exact_mod_cast this
      rw [max_eq_left hs, List.filter_cons_of_pos (by simpa using h), List.map_cons, List.prod_cons]
      ring
    · have hs : (x.1 - s).sign = 1 := Int.sign_eq_one_of_pos (by omega)
      rw [hs, List.filter_cons_of_neg (by simpa using h)]
      norm_num

theorem sortedItems_perm {β : Type} (d : List (ℤ × β)) : (sortedItems d).Perm d :=
  List.perm_insertionSort _ d

/-- **C40.** With non-negative factors, `piecewise_constant_schedule(init, d)` succeeds and at every count
`s` returns `init` times the product of the factors whose boundary is `≤ s`. -/
theorem C40_piecewise_constant (i : ℝ) (d : List (ℤ × ℝ)) (hd : ∀ x ∈ d, 0 ≤ x.2) :
    ∃ f, piecewiseConstantSchedule i d = .ok f ∧
      ∀ s, f s = i * ((d.filter (fun x => decide (x.1 ≤ s))).map Prod.snd).prod := by
  refine ⟨_, if_pos (by simpa using hd), ?_⟩
  intro s
  rw [pc_fold, boundaryProduct_perm i (sortedItems_perm d)]
  rfl

/-- **C40.** A negative factor is rejected with ValueError. -/
theorem C40_negative_rejected (i : ℝ) (d : List (ℤ × ℝ)) (x) (hx : x ∈ d) (h : x.2 < 0) :
    piecewiseConstantSchedule i d = .error .value := by
  refine if_neg ?_
  intro hall
  rw [List.all_eq_true] at hall
  have := hall x hx
  rw [jle_real] at this
  exact absurd h (not_lt.mpr this)

/-- **C40.** The order in which the boundaries are given does not matter. -/
theorem C40_order (i : ℝ) (d d' : List (ℤ × ℝ)) (h : d.Perm d') :
    (∃ f f', piecewiseConstantSchedule i d = .ok f ∧ piecewiseConstantSchedule i d' = .ok f' ∧ ∀ s, f s = f' s) ∨
    (piecewiseConstantSchedule i d = .error .value ∧ piecewiseConstantSchedule i d' = .error .value) := by
  by_cases hd : ∀ x ∈ d, 0 ≤ x.2
  · left
    obtain ⟨f, h1, h2⟩ := C40_piecewise_constant i d hd
    obtain ⟨f', h1', h2'⟩ := C40_piecewise_constant i d' (fun x hx => hd x (h.mem_iff.mpr hx))
    exact ⟨f, f', h1, h1', fun s => by rw [h2, h2']; exact boundaryProduct_perm i h s⟩
  · right
    push Not at hd
    obtain ⟨x, hx, hlt⟩ := hd
    exact ⟨C40_negative_rejected i d x hx hlt, C40_negative_rejected i d' x (h.mem_iff.mp hx) hlt⟩

/-- **C40.** At a count equal to a boundary its factor already applies (the docstring's "`b_i < s`" is not
what the code does): with one boundary `b` and factor `f`, the value at `b` is `init * f`. -/
theorem C40_at_boundary (i f : ℝ) (hf : 0 ≤ f) (b : ℤ) :
    ∃ sch, piecewiseConstantSchedule i [(b, f)] = .ok sch ∧ sch b = i * f ∧ ∀ s, s < b → sch s = i := by
  obtain ⟨sch, h1, h2⟩ := C40_piecewise_constant i [(b, f)] (by simpa using hf)
  refine ⟨sch, h1, by rw [h2]; simp, fun s hs => ?_⟩
  rw [h2]
  have : ¬ b ≤ s := by omega
  simp [this]

/-- e.g. boundaries given out of order -/
example : ∃ f, piecewiseConstantSchedule (8:ℝ) [(20, 1/2), (10, 1/4)] = .ok f ∧ f 9 = 8 ∧ f 10 = 2 ∧ f 25 = 1 := by
  obtain ⟨f, h1, h2⟩ := C40_piecewise_constant 8 [(20, 1/2), (10, 1/4)] (by simp)
  refine ⟨f, h1, ?_, ?_, ?_⟩ <;> rw [h2] <;> norm_num

/-! ## C41 -/

/-- the exponent: whole quotient with `staircase` -/
noncomputable def decayExponent (staircase : Bool) (k steps : ℤ) : ℝ :=
  if staircase then ((k / steps : ℤ) : ℝ) else (k : ℝ) / steps

theorem floor_div_cast (k steps : ℤ) (hs : 0 < steps) : ⌊(k : ℝ) / steps⌋ = k / steps := by
  have hs' : (0:ℝ) < steps := by exact_mod_cast hs
  rw [Int.floor_eq_iff]
  constructor
  · rw [le_div_iff₀ hs']
    exact_mod_cast Int.ediv_mul_le k hs.ne'
  · rw [div_lt_iff₀ hs']
    have := Int.lt_ediv_add_one_mul_self k hs
    exact_mod_cast this

/-- the schedule without `end_value` -/
theorem exponential_eq (i r : ℝ) (steps begin_ : ℤ) (st : Bool) (hs : 0 < steps) (hr : 0 < r) (c : ℤ) :
    exponentialDecay i steps r begin_ st none c =
      if c ≤ max begin_ 0 then i else i * r ^ decayExponent st (c - max begin_ 0) steps := by
  unfold exponentialDecay
  have hb : (if begin_ < 0 then 0 else begin_) = max begin_ 0 := by
    split
    · rw [max_eq_right (by omega)]
    · rw [max_eq_left (by omega)]
  rw [if_neg (by omega), if_neg (by rw [jeqb_real]; exact hr.ne')]
  simp only [hb, jpow_real, jofInt_real, jfloor_real, decayExponent]
  by_cases h : c ≤ max begin_ 0
  · rw [if_pos (by omega), if_pos h]
  · rw [if_neg (by omega), if_neg h]
    cases st
    · rfl
    · simp only [if_true]
      rw [floor_div_cast _ _ hs]

theorem exponential_end (i r e : ℝ) (steps begin_ : ℤ) (st : Bool) (hs : 0 < steps) (hr : 0 < r) (c : ℤ) :
    exponentialDecay i steps r begin_ st (some e) c =
      if r < 1 then max (exponentialDecay i steps r begin_ st none c) e
      else min (exponentialDecay i steps r begin_ st none c) e := by
  unfold exponentialDecay
  have h1 : ¬ steps ≤ 0 := by omega
  have h2 : ¬ (JOps.eqb r 0 = true) := by rw [jeqb_real]; exact hr.ne'
  simp only [if_neg h1, if_neg h2, jlt_real, jmax_real, jmin_real]

theorem decayExponent_mono (st : Bool) (steps : ℤ) (hs : 0 < steps) {k k' : ℤ} (h : k ≤ k') :
    decayExponent st k steps ≤ decayExponent st k' steps := by
  unfold decayExponent
  have hs' : (0:ℝ) < steps := by exact_mod_cast hs
  cases st
  · simp only [Bool.false_eq_true, if_false]
    rw [div_le_div_iff_of_pos_right hs']
    exact_mod_cast h
  · simp only [if_true]
    exact_mod_cast Int.ediv_le_ediv hs h

theorem decayExponent_nonneg (st : Bool) (steps : ℤ) (hs : 0 < steps) {k : ℤ} (h : 0 ≤ k) :
    0 ≤ decayExponent st k steps := by
  have := decayExponent_mono st steps hs h
  have h0 : decayExponent st 0 steps = 0 := by unfold decayExponent; cases st <;> simp
  rwa [h0] at this

/-- **C41.** Closed form (`transition_steps > 0`, `decay_rate > 0`, no `end_value`): `init` up to the beginning,
then `init * rate^(k/steps)` after `k` steps; with `staircase` the exponent is the integer quotient; at whole
multiples of `transition_steps` the two agree. -/
theorem C41_closed_form (i r : ℝ) (steps begin_ : ℤ) (hs : 0 < steps) (hr : 0 < r) :
    (∀ st c, c ≤ max begin_ 0 → exponentialDecay i steps r begin_ st none c = i) ∧
    (∀ k, 0 ≤ k → exponentialDecay i steps r begin_ false none (max begin_ 0 + k) = i * r ^ ((k : ℝ) / steps)) ∧
    (∀ k, 0 ≤ k → exponentialDecay i steps r begin_ true none (max begin_ 0 + k) =
      i * r ^ (((k / steps : ℤ)) : ℝ)) ∧
    (∀ m : ℕ, exponentialDecay i steps r begin_ true none (max begin_ 0 + m * steps) = i * r ^ m ∧
      exponentialDecay i steps r begin_ false none (max begin_ 0 + m * steps) = i * r ^ m) := by
  have key : ∀ st k, 0 ≤ k → exponentialDecay i steps r begin_ st none (max begin_ 0 + k) =
      i * r ^ decayExponent st k steps := by
    intro st k hk
    rw [exponential_eq _ _ _ _ _ hs hr]
    rcases hk.lt_or_eq with h | h
    · rw [if_neg (by omega)]
      congr 3
      omega
    · rw [if_pos (by omega), ← h]
      have h0 : decayExponent st 0 steps = 0 := by unfold decayExponent; cases st <;> simp
      rw [h0, Real.rpow_zero, mul_one]
  refine ⟨?_, ?_, ?_, ?_⟩
  · intro st c hc
    rw [exponential_eq _ _ _ _ _ hs hr, if_pos hc]
  · intro k hk; rw [key false k hk]; rfl
  · intro k hk; rw [key true k hk]; rfl
  · intro m
    have hm : 0 ≤ (m : ℤ) * steps := by positivity
    have hs' : (steps : ℝ) ≠ 0 := by exact_mod_cast hs.ne'
    constructor
    · rw [key true _ hm]
      unfold decayExponent
      rw [if_pos rfl, Int.mul_ediv_cancel _ hs.ne', Int.cast_natCast, Real.rpow_natCast]
    · rw [key false _ hm]
      unfold decayExponent
      rw [if_neg (by simp)]
      push_cast
      rw [mul_div_assoc, div_self hs', mul_one, Real.rpow_natCast]

/-- **C41.** Monotone in the count (for `init ≥ 0`): never increasing for `rate ≤ 1`, never decreasing for
`rate ≥ 1`, with or without `staircase`. -/
theorem C41_monotone (i r : ℝ) (hi : 0 ≤ i) (steps begin_ : ℤ) (hs : 0 < steps) (hr : 0 < r) (st : Bool)
    (c c' : ℤ) (h : c ≤ c') :
    (r ≤ 1 → exponentialDecay i steps r begin_ st none c' ≤ exponentialDecay i steps r begin_ st none c) ∧
    (1 ≤ r → exponentialDecay i steps r begin_ st none c ≤ exponentialDecay i steps r begin_ st none c') := by
  rw [exponential_eq _ _ _ _ _ hs hr, exponential_eq _ _ _ _ _ hs hr]
  constructor
  · intro hr1
    by_cases h1 : c' ≤ max begin_ 0
    · rw [if_pos h1, if_pos (by omega)]
    · rw [if_neg h1]
      have hnn := decayExponent_nonneg st steps hs (show 0 ≤ c' - max begin_ 0 by omega)
      by_cases h2 : c ≤ max begin_ 0
      · rw [if_pos h2]
        have := Real.rpow_le_one hr.le hr1 hnn
        nlinarith
      · rw [if_neg h2]
        apply mul_le_mul_of_nonneg_left _ hi
        exact Real.rpow_le_rpow_of_exponent_ge hr hr1 (decayExponent_mono st steps hs (by omega))
  · intro hr1
    by_cases h1 : c' ≤ max begin_ 0
    · rw [if_pos h1, if_pos (by omega)]
    · rw [if_neg h1]
      have hnn := decayExponent_nonneg st steps hs (show 0 ≤ c' - max begin_ 0 by omega)
      by_cases h2 : c ≤ max begin_ 0
      · rw [if_pos h2]
        have := Real.one_le_rpow hr1 hnn
        nlinarith
      · rw [if_neg h2]
        apply mul_le_mul_of_nonneg_left _ hi
        exact Real.rpow_le_rpow_of_exponent_le hr1 (decayExponent_mono st steps hs (by omega))

/-- **C41.** With `end_value`: never below it for `rate < 1`, never above it for `rate ≥ 1`, and equal to the
schedule without it wherever that has not passed the bound; the degenerate arguments (`steps ≤ 0`, zero rate) give the constant
`init`, and a negative beginning acts as 0. -/
theorem C41_end_value (i r e : ℝ) (steps begin_ : ℤ) (st : Bool) (hs : 0 < steps) (hr : 0 < r) (c : ℤ) :
    (r < 1 → e ≤ exponentialDecay i steps r begin_ st (some e) c ∧
      (e ≤ exponentialDecay i steps r begin_ st none c →
        exponentialDecay i steps r begin_ st (some e) c = exponentialDecay i steps r begin_ st none c) ∧
      (exponentialDecay i steps r begin_ st none c ≤ e →
        exponentialDecay i steps r begin_ st (some e) c = e)) ∧
    (1 ≤ r → exponentialDecay i steps r begin_ st (some e) c ≤ e ∧
      (exponentialDecay i steps r begin_ st none c ≤ e →
        exponentialDecay i steps r begin_ st (some e) c = exponentialDecay i steps r begin_ st none c) ∧
      (e ≤ exponentialDecay i steps r begin_ st none c →
        exponentialDecay i steps r begin_ st (some e) c = e)) := by
  rw [exponential_end _ _ _ _ _ _ hs hr]
  constructor
  · intro h
    rw [if_pos h]
    exact ⟨le_max_right _ _, fun h => max_eq_left h, fun h => max_eq_right h⟩
  · intro h
    rw [if_neg (not_lt.mpr h)]
    exact ⟨min_le_right _ _, fun h => min_eq_left h, fun h => min_eq_right h⟩

/-- **C41.** Monotone for every sign of `init` and with `end_value`: moving away from the initial value is always in one direction. -/
theorem C41_monotone_all (i r : ℝ) (e : Option ℝ) (steps begin_ : ℤ) (hs : 0 < steps) (hr : 0 < r) (st : Bool)
    (c c' : ℤ) (h : c ≤ c') :
    (0 ≤ i → r ≤ 1 → exponentialDecay i steps r begin_ st e c' ≤ exponentialDecay i steps r begin_ st e c) ∧
    (0 ≤ i → 1 ≤ r → exponentialDecay i steps r begin_ st e c ≤ exponentialDecay i steps r begin_ st e c') ∧
    (i ≤ 0 → r ≤ 1 → exponentialDecay i steps r begin_ st e c ≤ exponentialDecay i steps r begin_ st e c') ∧
    (i ≤ 0 → 1 ≤ r → exponentialDecay i steps r begin_ st e c' ≤ exponentialDecay i steps r begin_ st e c) := by
  have hneg : ∀ x, exponentialDecay (-i) steps r begin_ st none x = -exponentialDecay i steps r begin_ st none x := by
    intro x
    rw [exponential_eq _ _ _ _ _ hs hr, exponential_eq _ _ _ _ _ hs hr]
    split_ifs <;> ring
  have key : ∀ x y : ℤ, exponentialDecay i steps r begin_ st none x ≤ exponentialDecay i steps r begin_ st none y →
      exponentialDecay i steps r begin_ st e x ≤ exponentialDecay i steps r begin_ st e y := by
    intro x y hxy
    cases e with
    | none => exact hxy
    | some e =>
      obtain ⟨hx1, hx2⟩ := C41_end_value i r e steps begin_ st hs hr x
      obtain ⟨hy1, hy2⟩ := C41_end_value i r e steps begin_ st hs hr y
      rcases lt_or_ge r 1 with h1 | h1
      · obtain ⟨a1, a2, a3⟩ := hx1 h1
        obtain ⟨b1, b2, b3⟩ := hy1 h1
        rcases le_total e (exponentialDecay i steps r begin_ st none x) with q | q
        · rw [a2 q, b2 (q.trans hxy)]; exact hxy
        · rw [a3 q]; exact b1
      · obtain ⟨a1, a2, a3⟩ := hx2 h1
        obtain ⟨b1, b2, b3⟩ := hy2 h1
        rcases le_total (exponentialDecay i steps r begin_ st none y) e with q | q
        · rw [b2 q, a2 (hxy.trans q)]; exact hxy
        · rw [b3 q]; exact a1
  refine ⟨fun hi h1 => key _ _ ((C41_monotone i r hi steps begin_ hs hr st c c' h).1 h1),
    fun hi h1 => key _ _ ((C41_monotone i r hi steps begin_ hs hr st c c' h).2 h1), fun hi h1 => key _ _ ?_, fun hi h1 => key _ _ ?_⟩
  · have := (C41_monotone (-i) r (by linarith) steps begin_ hs hr st c c' h).1 h1
    rw [hneg, hneg] at this
    linarith
  · have := (C41_monotone (-i) r (by linarith) steps begin_ hs hr st c c' h).2 h1
    rw [hneg, hneg] at this
    linarith

theorem C41_degenerate (i r : ℝ) (e : Option ℝ) (steps begin_ : ℤ) (st : Bool) (c : ℤ) :
    (steps ≤ 0 → exponentialDecay i steps r begin_ st e c = i) ∧
    (r = 0 → exponentialDecay i steps r begin_ st e c = i) ∧
    (begin_ ≤ 0 → exponentialDecay i steps r begin_ st e c = exponentialDecay i steps r 0 st e c) := by
  refine ⟨fun h => ?_, fun h => ?_, fun h => ?_⟩
  · unfold exponentialDecay; rw [if_pos h]
  · unfold exponentialDecay
    rw [if_pos (by rw [jeqb_real]; exact h : JOps.eqb r 0 = true)]
    simp
  · rcases h.lt_or_eq with h | h
    · unfold exponentialDecay; simp [h]
    · rw [h]

/-- e.g. halving every 10 steps from 1, continuous and staircase -/
example : exponentialDecay (1:ℝ) 10 (1/2) 0 true none 25 = 1 / 4 := by
  have := (C41_closed_form 1 (1/2) 10 0 (by norm_num) (by norm_num)).2.2.1 25 (by norm_num)
  norm_num at this
  rw [this]

/-! ## C42 -/

theorem cosine_ok (i a : ℝ) (steps : ℤ) (hs : 0 < steps) :
    ∃ f, cosineDecaySchedule i steps a = .ok f ∧
      ∀ c, f c = i * ((1 - a) * ((1 + Real.cos (Real.pi * ((min c steps : ℤ) : ℝ) / steps)) / 2) + a) := by
  refine ⟨_, if_pos hs, ?_⟩
  intro c
  simp only [jcos_real, jpi_real, jofInt_real, jofRat_real]
  push_cast
  ring

/-- **C42.** `cosine_decay_schedule(init, decay_steps, alpha)`, `decay_steps > 0`: the closed form
`init * ((1-α)(1+cos(π k/steps))/2 + α)` for `0 ≤ k ≤ steps`; `init` at 0; `init * α` from `decay_steps` on;
between `init * α` and `init` (for `0 ≤ init`, `α ≤ 1`) and never increasing on counts `≥ 0`. -/
theorem C42_cosine_decay (i a : ℝ) (steps : ℤ) (hs : 0 < steps) :
    ∃ f, cosineDecaySchedule i steps a = .ok f ∧
      (∀ k, 0 ≤ k → k ≤ steps → f k = i * ((1 - a) * ((1 + Real.cos (Real.pi * (k : ℝ) / steps)) / 2) + a)) ∧
      f 0 = i ∧
      (∀ c, steps ≤ c → f c = i * a) ∧
      (0 ≤ i → a ≤ 1 → ∀ c, i * a ≤ f c ∧ f c ≤ i) ∧
      (0 ≤ i → a ≤ 1 → ∀ c c', 0 ≤ c → c ≤ c' → f c' ≤ f c) := by
  obtain ⟨f, h1, h2⟩ := cosine_ok i a steps hs
  have hs' : (0:ℝ) < steps := by exact_mod_cast hs
  refine ⟨f, h1, ?_, ?_, ?_, ?_, ?_⟩
  · intro k _ hk
    rw [h2, min_eq_left hk]
  · rw [h2, min_eq_left hs.le]; simp
  · intro c hc
    rw [h2, min_eq_right hc, mul_div_assoc, div_self hs'.ne', mul_one, Real.cos_pi]; ring
  · intro hi ha c
    rw [h2]
    have hc1 := Real.cos_le_one (Real.pi * ((min c steps : ℤ) : ℝ) / steps)
    have hc2 := Real.neg_one_le_cos (Real.pi * ((min c steps : ℤ) : ℝ) / steps)
    set x := Real.cos (Real.pi * ((min c steps : ℤ) : ℝ) / steps)
    have h3 : 0 ≤ (1 - a) * ((1 + x) / 2) := mul_nonneg (by linarith) (by linarith)
    have h4 : (1 - a) * ((1 + x) / 2) ≤ 1 - a := by nlinarith
    constructor <;> nlinarith
  · intro hi ha c c' hc hcc
    rw [h2, h2]
    have harg : ∀ m : ℤ, 0 ≤ m → m ≤ steps →
        0 ≤ Real.pi * (m : ℝ) / steps ∧ Real.pi * (m : ℝ) / steps ≤ Real.pi := by
      intro m h0 h1
      have h0' : (0:ℝ) ≤ m := by exact_mod_cast h0
      have h1' : (m:ℝ) ≤ steps := by exact_mod_cast h1
      refine ⟨div_nonneg (mul_nonneg Real.pi_pos.le h0') hs'.le, ?_⟩
      rw [div_le_iff₀ hs']
      exact mul_le_mul_of_nonneg_left h1' Real.pi_pos.le
    have hm0 : 0 ≤ min c steps := le_min hc hs.le
    have hm0' : 0 ≤ min c' steps := le_min (by omega) hs.le
    have hmono : Real.cos (Real.pi * ((min c' steps : ℤ) : ℝ) / steps) ≤
        Real.cos (Real.pi * ((min c steps : ℤ) : ℝ) / steps) := by
      apply Real.cos_le_cos_of_nonneg_of_le_pi (harg _ hm0 (min_le_right _ _)).1
        (harg _ hm0' (min_le_right _ _)).2
      rw [div_le_div_iff_of_pos_right hs']
      apply mul_le_mul_of_nonneg_left _ Real.pi_pos.le
      exact_mod_cast min_le_min_right _ hcc
    set x := Real.cos (Real.pi * ((min c steps : ℤ) : ℝ) / steps)
    set y := Real.cos (Real.pi * ((min c' steps : ℤ) : ℝ) / steps)
    apply mul_le_mul_of_nonneg_left _ hi
    have : (1 - a) * ((1 + y) / 2) ≤ (1 - a) * ((1 + x) / 2) :=
      mul_le_mul_of_nonneg_left (by linarith) (by linarith)
    linarith

/-- **C42.** Non-positive `decay_steps` raise ValueError. -/
theorem C42_rejects (i a : ℝ) (steps : ℤ) (hs : steps ≤ 0) :
    cosineDecaySchedule i steps a = .error .value := if_neg (by omega)

/-- e.g. half-way the value is the mean of `init` and `init * alpha` -/
example : ∃ f, cosineDecaySchedule (1:ℝ) 10 0 = .ok f ∧ f 5 = 1 / 2 := by
  obtain ⟨f, h1, h2, _⟩ := C42_cosine_decay 1 0 10 (by norm_num)
  refine ⟨f, h1, ?_⟩
  rw [h2 5 (by norm_num) (by norm_num)]
  have : Real.pi * ((5:ℤ):ℝ) / ((10:ℤ):ℝ) = Real.pi / 2 := by push_cast; ring
  rw [this, Real.cos_pi_div_two]; norm_num

end Optax
