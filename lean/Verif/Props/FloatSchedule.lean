import Verif.Lemmas.Float32
import Verif.Model.Schedule
import Verif.Props.Schedules

/-!
# C88: schedules in floating point
-/

set_option linter.unusedSectionVars false
set_option linter.unusedSimpArgs false

namespace Optax
open FP
open scoped Classical

variable {F : Format}

namespace FP

theorem div_mono_right {a b c : FP F} (ha : IsFin a) (hb : IsFin b) (hc : 0 < c) (hcf : IsFin c) (h : a ≤ b) : a / c ≤ b / c := by
  obtain ⟨r, hr, hc'⟩ := fin_pos hc hcf
  obtain ⟨x, hx⟩ := (isFin_iff a).1 ha
  obtain ⟨y, hy⟩ := (isFin_iff b).1 hb
  show of F (a.1 / c.1) ≤ of F (b.1 / c.1)
  rw [hx, hy, hc', XReal.fin_div _ _ hr.ne', XReal.fin_div _ _ hr.ne']
  exact of_fin_mono (div_le_div_of_nonneg_right ((le_fin hx hy).1 h) hr.le)

theorem div_self {c : FP F} (hc : 0 < c) (hcf : IsFin c) : c / c = 1 := by
  obtain ⟨r, hr, hc'⟩ := fin_pos hc hcf
  show of F (c.1 / c.1) = 1
  rw [hc', XReal.fin_div _ _ hr.ne', _root_.div_self hr.ne']; rfl

theorem sub_anti {a b c : FP F} (ha : IsFin a) (hb : IsFin b) (hc : IsFin c) (h : a ≤ b) : c - b ≤ c - a := by
  obtain ⟨x, hx⟩ := (isFin_iff a).1 ha
  obtain ⟨y, hy⟩ := (isFin_iff b).1 hb
  obtain ⟨z, hz⟩ := (isFin_iff c).1 hc
  show of F (c.1 - b.1) ≤ of F (c.1 - a.1)
  rw [hx, hy, hz, XReal.fin_sub, XReal.fin_sub]
  exact of_fin_mono (by linarith [(le_fin hx hy).1 h])

theorem sub_mono {a b c : FP F} (ha : IsFin a) (hb : IsFin b) (hc : IsFin c) (h : a ≤ b) : a - c ≤ b - c := by
  obtain ⟨x, hx⟩ := (isFin_iff a).1 ha
  obtain ⟨y, hy⟩ := (isFin_iff b).1 hb
  obtain ⟨z, hz⟩ := (isFin_iff c).1 hc
  show of F (a.1 - c.1) ≤ of F (b.1 - c.1)
  rw [hx, hy, hz, XReal.fin_sub, XReal.fin_sub]
  exact of_fin_mono (by linarith [(le_fin hx hy).1 h])

theorem add_mono_right {a b c : FP F} (ha : IsNum a) (hb : IsNum b) (hc : IsFin c) (h : a ≤ b) : a + c ≤ b + c := by
  obtain ⟨z, hz⟩ := (isFin_iff c).1 hc
  refine add_mono h (le_refl hc.isNum) ?_ ?_
  · show IsNum (of F (a.1 + c.1))
    rw [of_num, hz]
    cases h' : a.1 with
    | nan => exact absurd h' ((isNum_iff a).1 ha)
    | fin r => simp
    | pinf => intro h; cases h
    | ninf => intro h; cases h
  · show IsNum (of F (b.1 + c.1))
    rw [of_num, hz]
    cases h' : b.1 with
    | nan => exact absurd h' ((isNum_iff b).1 hb)
    | fin r => simp
    | pinf => intro h; cases h
    | ninf => intro h; cases h

theorem mul_mono_nonneg {c a b : FP F} (hc : 0 ≤ c) (hf : IsFin c) (ha : IsFin a) (hb : IsFin b) (h : a ≤ b) : c * a ≤ c * b := by
  obtain ⟨z, hz0, hz⟩ := fin_nonneg hc hf
  obtain ⟨x, hx⟩ := (isFin_iff a).1 ha
  obtain ⟨y, hy⟩ := (isFin_iff b).1 hb
  show of F (c.1 * a.1) ≤ of F (c.1 * b.1)
  rw [hx, hy, hz, XReal.fin_mul, XReal.fin_mul]
  exact of_fin_mono (mul_le_mul_of_nonneg_left ((le_fin hx hy).1 h) hz0)

theorem mul_anti_nonpos {c a b : FP F} (hc : c ≤ 0) (hf : IsFin c) (ha : IsFin a) (hb : IsFin b) (h : a ≤ b) : c * b ≤ c * a := by
  obtain ⟨z, hz⟩ := (isFin_iff c).1 hf
  obtain ⟨x, hx⟩ := (isFin_iff a).1 ha
  obtain ⟨y, hy⟩ := (isFin_iff b).1 hb
  rw [le_fin hz zero_val] at hc
  show of F (c.1 * b.1) ≤ of F (c.1 * a.1)
  rw [hx, hy, hz, XReal.fin_mul, XReal.fin_mul]
  exact of_fin_mono (mul_le_mul_of_nonpos_left ((le_fin hx hy).1 h) hc)

theorem pow_fin {a p : FP F} {x q : ℝ} (hx : a.1 = .fin x) (hq : p.1 = .fin q) : (JOps.pow a p : FP F) = of F (.fin (F.pow x q)) := by
  show of F (match a.1, p.1 with
    | .fin x, .fin y => .fin (F.pow x y)
    | _, _ => .nan) = _
  rw [hx, hq]

theorem pow_mono {a b p : FP F} (ha : 0 ≤ a) (haf : IsFin a) (hbf : IsFin b) (hp : 0 ≤ p) (hpf : IsFin p) (h : a ≤ b) :
    (JOps.pow a p : FP F) ≤ JOps.pow b p := by
  obtain ⟨x, hx0, hx⟩ := fin_nonneg ha haf
  obtain ⟨y, hy⟩ := (isFin_iff b).1 hbf
  obtain ⟨q, hq0, hq⟩ := fin_nonneg hp hpf
  rw [pow_fin hx hq, pow_fin hy hq]
  exact of_fin_mono (F.pow_mono x y q hx0 ((le_fin hx hy).1 h) hq0)

theorem pow_one_base {p : FP F} (hpf : IsFin p) : (JOps.pow 1 p : FP F) = 1 := by
  obtain ⟨q, hq⟩ := (isFin_iff p).1 hpf
  rw [pow_fin one_val hq, F.pow_one_base]; rfl

theorem pow_zero_base {p : FP F} (hp : 0 < p) (hpf : IsFin p) : (JOps.pow 0 p : FP F) = 0 := by
  obtain ⟨q, hq0, hq⟩ := fin_pos hp hpf
  rw [pow_fin zero_val hq, F.pow_zero_base q hq0]; rfl

theorem ofInt_mono {z w : ℤ} (h : z ≤ w) : (JOps.ofInt z : FP F) ≤ JOps.ofInt w :=
  of_fin_mono (F := F) (by exact_mod_cast h)

theorem ofInt_zero : (JOps.ofInt 0 : FP F) = 0 := by
  show of F (.fin ((0 : ℤ) : ℝ)) = of F (.fin 0)
  norm_num

theorem ofInt_one : (JOps.ofInt 1 : FP F) = 1 := by
  show of F (.fin ((1 : ℤ) : ℝ)) = of F (.fin 1)
  norm_num

theorem zero_le_one : (0 : FP F) ≤ 1 := (le_fin zero_val one_val).2 (by norm_num)

theorem ofInt_pos {T : ℤ} (h : 0 < T) : (0 : FP F) < JOps.ofInt T := by
  refine lt_of_lt_of_le (b := 1) ((lt_fin zero_val one_val).2 (by norm_num)) ?_
  rw [← ofInt_one]; exact ofInt_mono (by omega)

theorem sub_nonneg {a b : FP F} (ha : IsFin a) (hb : IsFin b) (h : b ≤ a) : 0 ≤ a - b := by
  have := sub_mono hb ha hb h
  rwa [sub_self hb] at this

theorem sub_nonpos {a b : FP F} (ha : IsFin a) (hb : IsFin b) (h : a ≤ b) : a - b ≤ 0 := by
  have := sub_mono ha hb hb h
  rwa [sub_self hb] at this

/-- the weight `(1 - c/T) ** p` of a polynomial schedule -/
noncomputable def weight (F : Format) (T : ℤ) (p : FP F) (c : ℤ) : FP F := JOps.pow (1 - JOps.ofInt c / JOps.ofInt T) p

theorem weight_facts {T : ℤ} (hT : 0 < T) (hTf : IsFin (JOps.ofInt T : FP F)) {p : FP F} (hp : 0 < p) (hpf : IsFin p) :
    weight F T p 0 = 1 ∧ weight F T p T = 0 ∧ (∀ c, 0 ≤ c → c ≤ T → 0 ≤ weight F T p c ∧ weight F T p c ≤ 1) ∧
    ∀ c c', 0 ≤ c → c ≤ c' → c' ≤ T → weight F T p c' ≤ weight F T p c := by
  have hx := ofInt_pos (F := F) hT
  have hz : (0 : FP F) / JOps.ofInt T = 0 := zero_div hTf.isNum (pos_ne_zero hx)
  have ofin : ∀ c, 0 ≤ c → c ≤ T → IsFin (JOps.ofInt c : FP F) := fun c h1 h2 =>
    fin_between fin_zero hTf (by rw [← ofInt_zero]; exact ofInt_mono h1) (ofInt_mono h2)
  have qm : ∀ c c', 0 ≤ c → c ≤ c' → c' ≤ T → (JOps.ofInt c / JOps.ofInt T : FP F) ≤ JOps.ofInt c' / JOps.ofInt T :=
    fun c c' h1 h2 h3 => div_mono_right (ofin c h1 (by omega)) (ofin c' (by omega) h3) hx hTf (ofInt_mono h2)
  have q0 : ∀ c, 0 ≤ c → c ≤ T → (0 : FP F) ≤ JOps.ofInt c / JOps.ofInt T := fun c h1 h2 => by
    have := qm 0 c (by omega) h1 h2
    rwa [ofInt_zero, hz] at this
  have q1 : ∀ c, 0 ≤ c → c ≤ T → (JOps.ofInt c / JOps.ofInt T : FP F) ≤ 1 := fun c h1 h2 => by
    have := qm c T h1 h2 (by omega)
    rwa [div_self hx hTf] at this
  have qf : ∀ c, 0 ≤ c → c ≤ T → IsFin (JOps.ofInt c / JOps.ofInt T : FP F) := fun c h1 h2 =>
    fin_between fin_zero fin_one (q0 c h1 h2) (q1 c h1 h2)
  have f0 : ∀ c, 0 ≤ c → c ≤ T → (0 : FP F) ≤ 1 - JOps.ofInt c / JOps.ofInt T := fun c h1 h2 =>
    sub_nonneg fin_one (qf c h1 h2) (q1 c h1 h2)
  have f1 : ∀ c, 0 ≤ c → c ≤ T → (1 - JOps.ofInt c / JOps.ofInt T : FP F) ≤ 1 := fun c h1 h2 => by
    have := sub_anti fin_zero (qf c h1 h2) fin_one (q0 c h1 h2)
    rwa [sub_zero] at this
  have ff : ∀ c, 0 ≤ c → c ≤ T → IsFin (1 - JOps.ofInt c / JOps.ofInt T : FP F) := fun c h1 h2 =>
    fin_between fin_zero fin_one (f0 c h1 h2) (f1 c h1 h2)
  have hp0 := lt_le hp
  refine ⟨?_, ?_, fun c h1 h2 => ⟨?_, ?_⟩, fun c c' h1 h2 h3 => ?_⟩
  · unfold weight
    rw [ofInt_zero, hz, sub_zero, pow_one_base hpf]
  · unfold weight
    rw [div_self hx hTf, sub_self fin_one, pow_zero_base hp hpf]
  · unfold weight
    have := pow_mono (le_refl num_zero) fin_zero (ff c h1 h2) hp0 hpf (f0 c h1 h2)
    rwa [pow_zero_base hp hpf] at this
  · unfold weight
    have := pow_mono (f0 c h1 h2) (ff c h1 h2) fin_one hp0 hpf (f1 c h1 h2)
    rwa [pow_one_base hpf] at this
  · unfold weight
    exact pow_mono (f0 c' (by omega) h3) (ff c' (by omega) h3) (ff c h1 (by omega)) hp0 hpf
      (sub_anti (qf c h1 (by omega)) (qf c' (by omega) h3) fin_one (qm c c' h1 h2 h3))

end FP

/-- **C88.** `polynomial_schedule` in floating point (`i`, `e` finite with a finite difference, positive finite power, and a
number of steps that does not overflow): from the last transition step on the value is *exactly* `end_value`; up to
`transition_begin` it is the computed `(init_value - end_value) + end_value` - which need not be `init_value`, see below -; in
between it never leaves the interval between these two, and it is monotone in the step count. -/
theorem C88_polynomial (i e p : FP F) (steps begin_ : ℤ) (hs : 0 < steps) (hsf : IsFin (JOps.ofInt steps : FP F))
    (hp : 0 < p) (hpf : IsFin p) (hi : IsFin i) (he : IsFin e) (hd : IsFin (i - e)) :
    (∀ c, max begin_ 0 + steps ≤ c → polynomialSchedule i e p steps begin_ c = e) ∧
    (∀ c, c ≤ max begin_ 0 → polynomialSchedule i e p steps begin_ c = (i - e) + e) ∧
    (e ≤ i → (∀ c, e ≤ polynomialSchedule i e p steps begin_ c ∧ polynomialSchedule i e p steps begin_ c ≤ (i - e) + e) ∧
      ∀ c c', c ≤ c' → polynomialSchedule i e p steps begin_ c' ≤ polynomialSchedule i e p steps begin_ c) ∧
    (i ≤ e → (∀ c, polynomialSchedule i e p steps begin_ c ≤ e ∧ (i - e) + e ≤ polynomialSchedule i e p steps begin_ c) ∧
      ∀ c c', c ≤ c' → polynomialSchedule i e p steps begin_ c ≤ polynomialSchedule i e p steps begin_ c') := by
  obtain ⟨w0, w1, wr, wm⟩ := FP.weight_facts (F := F) hs hsf hp hpf
  have key : ∀ c, polynomialSchedule i e p steps begin_ c =
      (i - e) * FP.weight F steps p (min (max (c - max begin_ 0) 0) steps) + e := by
    intro c
    unfold polynomialSchedule FP.weight
    rw [if_neg (by omega)]
    have hb : (if begin_ < 0 then (0 : ℤ) else begin_) = max begin_ 0 := by split <;> omega
    simp only [hb]
  have hr : ∀ c, 0 ≤ min (max (c - max begin_ 0) 0) steps ∧ min (max (c - max begin_ 0) 0) steps ≤ steps := fun c => by omega
  have wf : ∀ c, IsFin (FP.weight F steps p (min (max (c - max begin_ 0) 0) steps)) := fun c =>
    fin_between fin_zero fin_one (wr _ (hr c).1 (hr c).2).1 (wr _ (hr c).1 (hr c).2).2
  have mnum : ∀ c, IsNum ((i - e) * FP.weight F steps p (min (max (c - max begin_ 0) 0) steps)) := fun c =>
    mul_fin_num hd (wf c)
  have mm : ∀ c c', c ≤ c' → FP.weight F steps p (min (max (c' - max begin_ 0) 0) steps) ≤
      FP.weight F steps p (min (max (c - max begin_ 0) 0) steps) := fun c c' h =>
    wm _ _ (hr c).1 (by omega) (hr c').2
  have eend : ∀ c, max begin_ 0 + steps ≤ c → polynomialSchedule i e p steps begin_ c = e := by
    intro c hc
    rw [key, show min (max (c - max begin_ 0) 0) steps = steps by omega, w1, FP.mul_zero hd, FP.zero_add]
  have ebeg : ∀ c, c ≤ max begin_ 0 → polynomialSchedule i e p steps begin_ c = (i - e) + e := by
    intro c hc
    rw [key, show min (max (c - max begin_ 0) 0) steps = 0 by omega, w0, FP.mul_one]
  refine ⟨eend, ebeg, fun h => ?_, fun h => ?_⟩
  · have hd0 := FP.sub_nonneg hi he h
    have mono : ∀ c c', c ≤ c' → polynomialSchedule i e p steps begin_ c' ≤ polynomialSchedule i e p steps begin_ c := by
      intro c c' hc
      rw [key, key]
      exact FP.add_mono_right (mnum c') (mnum c) he (FP.mul_mono_nonneg hd0 hd (wf c') (wf c) (mm c c' hc))
    refine ⟨fun c => ⟨?_, ?_⟩, mono⟩
    · have := mono c (max c (max begin_ 0 + steps)) (by omega)
      rwa [eend (max c (max begin_ 0 + steps)) (by omega)] at this
    · have := mono (min c (max begin_ 0)) c (by omega)
      rwa [ebeg (min c (max begin_ 0)) (by omega)] at this
  · have hd0 := FP.sub_nonpos hi he h
    have mono : ∀ c c', c ≤ c' → polynomialSchedule i e p steps begin_ c ≤ polynomialSchedule i e p steps begin_ c' := by
      intro c c' hc
      rw [key, key]
      exact FP.add_mono_right (mnum c) (mnum c') he (FP.mul_anti_nonpos hd0 hd (wf c') (wf c) (mm c c' hc))
    refine ⟨fun c => ⟨?_, ?_⟩, mono⟩
    · have := mono c (max c (max begin_ 0 + steps)) (by omega)
      rwa [eend (max c (max begin_ 0 + steps)) (by omega)] at this
    · have := mono (min c (max begin_ 0)) c (by omega)
      rwa [ebeg (min c (max begin_ 0)) (by omega)] at this

/-- **C88.** `linear_schedule` likewise. -/
theorem C88_linear (i e : FP F) (steps begin_ : ℤ) (hs : 0 < steps) (hsf : IsFin (JOps.ofInt steps : FP F))
    (hi : IsFin i) (he : IsFin e) (hd : IsFin (i - e)) :
    (∀ c, max begin_ 0 + steps ≤ c → linearSchedule i e steps begin_ c = e) ∧
    (∀ c, c ≤ max begin_ 0 → linearSchedule i e steps begin_ c = (i - e) + e) ∧
    (e ≤ i → ∀ c c', c ≤ c' → linearSchedule i e steps begin_ c' ≤ linearSchedule i e steps begin_ c) ∧
    (i ≤ e → ∀ c c', c ≤ c' → linearSchedule i e steps begin_ c ≤ linearSchedule i e steps begin_ c') := by
  have h := C88_polynomial i e 1 steps begin_ hs hsf ((lt_fin zero_val one_val).2 (by norm_num)) fin_one hi he hd
  exact ⟨h.1, h.2.1, fun h' => (h.2.2.1 h').2, fun h' => (h.2.2.2 h').2⟩

/-- **C88.** The start of a linear schedule need not be `init_value`: in single precision, warming up from `2^-30` (about
`1e-9`) to 1 starts at 0, although `2^-30` is a single precision number. -/
theorem C88_start_lost : ∃ i : FP Format.float32, IsFin i ∧ 0 < i ∧ IsFin (i - 1) ∧
    ∀ steps : ℤ, 0 < steps → IsFin (JOps.ofInt steps : FP Format.float32) → linearSchedule i 1 steps 0 0 = 0 := by
  have hr : Format.float32.rnd (2 ^ (-30 : ℤ)) = .fin (2 ^ (-30 : ℤ)) := by
    have := Format.float32_mem 1 (-30) (by norm_num) (by norm_num) (by norm_num)
    rwa [Int.cast_one, _root_.one_mul] at this
  -- the difference is rounded to -1
  have hd : of Format.float32 (.fin (2 ^ (-30 : ℤ))) - 1 = of Format.float32 (.fin (-1)) := by
    rw [one_eq_of, of_sub_of hr Format.float32.rnd_one]
    exact FP.ext (Format.float32_near_neg_one (by norm_num) (by norm_num))
  refine ⟨of Format.float32 (.fin (2 ^ (-30 : ℤ))), of_fin_of hr, of_pos_of hr (by positivity), ?_, fun steps hs hsf => ?_⟩
  · rw [hd]; exact of_fin_of (Format.float32.rnd_neg 1 Format.float32.rnd_one)
  · have hf : IsFin (of Format.float32 (.fin (2 ^ (-30 : ℤ))) - 1) := by
      rw [hd]; exact of_fin_of (Format.float32.rnd_neg 1 Format.float32.rnd_one)
    rw [(C88_linear _ 1 steps 0 hs hsf (of_fin_of hr) fin_one hf).2.1 0 (by omega), hd, one_eq_of,
      of_add_of (Format.float32.rnd_neg 1 Format.float32.rnd_one) Format.float32.rnd_one]
    norm_num
    rfl

/-- **C88.** `piecewise_constant_schedule` in floating point is exactly the initial value multiplied, in the order of the
boundaries, by the factors of the boundaries reached - provided the intermediate products do not overflow. -/
theorem C88_piecewise_constant (i : FP F) (d : List (ℤ × FP F)) (hd : ∀ x ∈ d, 0 ≤ x.2 ∧ IsFin x.2) :
    ∃ f, piecewiseConstantSchedule i d = .ok f ∧ ∀ s,
      (∀ l, l <+: (d.insertionSort (fun a b => a.1 ≤ b.1)).filter (fun x => decide (x.1 ≤ s)) →
        IsFin (l.foldl (fun v x => x.2 * v) i)) →
      f s = ((d.insertionSort (fun a b => a.1 ≤ b.1)).filter (fun x => decide (x.1 ≤ s))).foldl (fun v x => x.2 * v) i := by
  refine ⟨_, if_pos ?_, fun s hl => ?_⟩
  · rw [List.all_eq_true]; exact fun x hx => (hd x hx).1
  · have hd' : ∀ x ∈ d.insertionSort (fun a b => a.1 ≤ b.1), IsFin x.2 := fun x hx =>
      (hd x ((List.mem_insertionSort _).1 hx)).2
    unfold sortedItems
    generalize d.insertionSort (fun a b => a.1 ≤ b.1) = l at hl hd'
    induction l generalizing i with
    | nil => rfl
    | cons x l ih =>
      have hi : IsFin i := hl [] (List.nil_prefix)
      rw [List.foldl_cons]
      by_cases hx : x.1 ≤ s
      · have e : (JOps.max 0 (JOps.ofInt (x.1 - s).sign) : FP F) = 0 := by
          have hn : (JOps.ofInt (x.1 - s).sign : FP F) ≤ 0 := by
            rw [← FP.ofInt_zero]; exact FP.ofInt_mono (by have := Int.sign_nonpos_iff.2 (show x.1 - s ≤ 0 by omega); exact this)
          rw [FP.max_cases _ _ num_zero (le_num hn).1, if_neg ((FP.not_lt num_zero (le_num hn).1).2 hn)]
        rw [List.filter_cons_of_pos (by simpa using hx)] at hl ⊢
        rw [e]
        dsimp only
        rw [FP.mul_zero hi, FP.zero_add, FP.sub_zero, FP.one_mul, List.foldl_cons]
        refine ih (x.2 * i) ?_ (fun y hy => hd' y (by simp [hy]))
        intro l' hl'
        exact hl (x :: l') (List.cons_prefix_cons.2 ⟨rfl, hl'⟩)
      · have e : (JOps.max 0 (JOps.ofInt (x.1 - s).sign) : FP F) = 1 := by
          rw [Int.sign_eq_one_of_pos (by omega), FP.ofInt_one, FP.max_cases _ _ num_zero num_one,
            if_pos ((lt_fin zero_val one_val).2 (by norm_num))]
        rw [List.filter_cons_of_neg (by simpa using hx)] at hl ⊢
        rw [e]
        dsimp only
        rw [FP.mul_one, FP.sub_self fin_one, FP.zero_mul (hd' x (by simp)), FP.zero_mul hi, FP.add_zero]
        exact ih i hl (fun y hy => hd' y (by simp [hy]))

theorem FP.cos_facts {a : FP F} (h : IsFin a) : (-1 : FP F) ≤ JOps.cos a ∧ (JOps.cos a : FP F) ≤ 1 := by
  obtain ⟨x, hx⟩ := (FP.isFin_iff a).1 h
  have e : (JOps.cos a : FP F) = of F (.fin (F.cos x)) := by
    show of F (XReal.lift (fun r => .fin (F.cos r)) .nan .nan a.1) = _
    rw [hx]; rfl
  have e1 : (-1 : FP F) = of F (.fin (-1)) := neg_of F.rnd_one
  rw [e, e1]
  exact ⟨of_fin_mono (F.cos_ge_neg_one x), of_fin_mono (F.cos_le_one x)⟩

theorem FP.cos_zero : (JOps.cos (0 : FP F)) = 1 := by
  have e : (JOps.cos (0 : FP F)) = of F (.fin (F.cos 0)) := by
    show of F (XReal.lift (fun r => .fin (F.cos r)) .nan .nan (0 : FP F).1) = _
    rw [zero_val]; rfl
  rw [e, F.cos_zero]; rfl

/-- **C88.** `cosine_decay_schedule` in floating point (`0 ≤ alpha ≤ 1`, `init_value ≥ 0`, a number of steps that does not
overflow, and a format in which `½ (1 + 1) = 1`): the value always lies between `init_value * alpha` and
`init_value * ((1 - alpha) + alpha)`, and starts at the latter. -/
theorem C88_cosine (i a : FP F) (steps : ℤ) (hs : 0 < steps) (hsf : IsFin (JOps.pi * JOps.ofInt steps : FP F))
    (hsf' : IsFin (JOps.ofInt steps : FP F))
    (h2 : (JOps.ofRat (1 / 2) * (1 + 1) : FP F) = 1) (h2f : IsFin (1 + 1 : FP F)) (hi : 0 ≤ i) (hif : IsFin i) (ha : 0 ≤ a) (ha1 : a ≤ 1)
    (htop : IsFin ((1 - a) + a)) :
    ∃ f, cosineDecaySchedule i steps a = .ok f ∧ f 0 = i * ((1 - a) + a) ∧
      ∀ c, 0 ≤ c → i * a ≤ f c ∧ f c ≤ i * ((1 - a) + a) := by
  have haf := fin_between fin_zero fin_one ha ha1
  have hx := FP.ofInt_pos (F := F) hs
  have hz : (0 : FP F) / JOps.ofInt steps = 0 := FP.zero_div hsf'.isNum (FP.pos_ne_zero hx)
  have hpi : (0 : FP F) ≤ JOps.pi := of_fin_nonneg (F := F) Real.pi_pos.le
  have hpif : IsFin (JOps.pi : FP F) := by
    by_contra h
    have h' := nonneg_not_fin hpi h
    rw [h'] at hsf
    obtain ⟨x, hx0, hx'⟩ := fin_pos hx hsf'
    have : (FP.inf * JOps.ofInt steps : FP F) = FP.inf := by
      apply FP.ext
      rw [mul_val, inf_val, hx']
      show F.round (XReal.infOf x) = _
      rw [XReal.infOf, if_pos hx0]; rfl
    rw [this] at hsf
    obtain ⟨y, hy⟩ := (FP.isFin_iff _).1 hsf
    cases hy
  have ofin : ∀ c, 0 ≤ c → c ≤ steps → (0 : FP F) ≤ JOps.ofInt c ∧ IsFin (JOps.ofInt c : FP F) := fun c h1 h2 => by
    have : (0 : FP F) ≤ JOps.ofInt c := by rw [← FP.ofInt_zero]; exact FP.ofInt_mono h1
    exact ⟨this, fin_between fin_zero hsf' this (FP.ofInt_mono h2)⟩
  have pfin : ∀ c, 0 ≤ c → c ≤ steps → (0 : FP F) ≤ JOps.pi * JOps.ofInt c ∧ IsFin (JOps.pi * JOps.ofInt c : FP F) := by
    intro c h1 h2
    have o := ofin c h1 h2
    have h3 := FP.mul_nonneg' hpi o.1 hpif o.2
    exact ⟨h3, fin_between fin_zero hsf h3 (FP.mul_mono_nonneg hpi hpif o.2 hsf' (FP.ofInt_mono h2))⟩
  have qfin : ∀ c, 0 ≤ c → c ≤ steps → IsFin (JOps.pi * JOps.ofInt c / JOps.ofInt steps : FP F) := by
    intro c h1 h2
    obtain ⟨n1, n2⟩ := pfin c h1 h2
    have h1x : (1 : FP F) ≤ JOps.ofInt steps := by rw [← FP.ofInt_one]; exact FP.ofInt_mono (by omega)
    have := div_bound n2 fin_zero n2 n1 (FP.le_refl n2.isNum) (FP.le_refl num_zero) n1
      ((lt_fin zero_val one_val).2 (by norm_num)) fin_one h1x
    have e1 : (0 : FP F) / 1 = 0 := FP.zero_div num_one (FP.pos_ne_zero ((lt_fin zero_val one_val).2 (by norm_num)))
    have e2 : (JOps.pi * JOps.ofInt c : FP F) / 1 = JOps.pi * JOps.ofInt c := by
      obtain ⟨x, hx⟩ := (FP.isFin_iff _).1 n2
      apply FP.ext
      rw [div_val, hx, one_val, XReal.fin_div _ _ one_ne_zero, div_one, ← hx]
      exact FP.round_eq _
    rw [e1, e2] at this
    exact fin_between fin_zero n2 this.1 this.2
  have hhalf : (0 : FP F) ≤ JOps.ofRat (1 / 2) := of_fin_nonneg (F := F) (by norm_num)
  have hhalff : IsFin (JOps.ofRat (1 / 2) : FP F) := by
    have : (JOps.ofRat (1 / 2) : FP F) ≤ 1 := of_fin_mono (F := F) (by norm_num)
    exact fin_between fin_zero fin_one hhalf this
  have m1 : IsFin (-1 : FP F) := by rw [FP.isFin_iff, neg_val, one_val]; exact ⟨-1, by simp⟩
  have dec : ∀ c, 0 ≤ c → c ≤ steps → (0 : FP F) ≤ JOps.ofRat (1 / 2) * (1 + JOps.cos (JOps.pi * JOps.ofInt c / JOps.ofInt steps)) ∧
      (JOps.ofRat (1 / 2) * (1 + JOps.cos (JOps.pi * JOps.ofInt c / JOps.ofInt steps)) : FP F) ≤ 1 := by
    intro c h1 h2'
    have hc := FP.cos_facts (qfin c h1 h2')
    have hcf := fin_between m1 fin_one hc.1 hc.2
    generalize (JOps.cos (JOps.pi * JOps.ofInt c / JOps.ofInt steps) : FP F) = y at hc hcf
    have l0 : (0 : FP F) ≤ 1 + y := by
      have := FP.add_mono (FP.le_refl (num_one (F := F))) hc.1 (add_fin_num fin_one m1) (add_fin_num fin_one hcf)
      rwa [FP.add_neg fin_one] at this
    have l1 : 1 + y ≤ (1 + 1 : FP F) :=
      FP.add_mono (FP.le_refl num_one) hc.2 (add_fin_num fin_one hcf) (add_fin_num fin_one fin_one)
    have lf := fin_between fin_zero h2f l0 l1
    refine ⟨FP.mul_nonneg' hhalf l0 hhalff lf, ?_⟩
    have := FP.mul_mono_nonneg hhalf hhalff lf h2f l1
    rwa [h2] at this
  have h1a : (0 : FP F) ≤ 1 - a := FP.sub_nonneg fin_one haf ha1
  have h1af : IsFin (1 - a) := by
    have := FP.sub_anti fin_zero haf fin_one ha
    rw [FP.sub_zero] at this
    exact fin_between fin_zero fin_one h1a this
  refine ⟨_, if_pos hs, ?_, fun c hc => ?_⟩
  · dsimp only
    rw [min_eq_left hs.le, FP.ofInt_zero, FP.mul_zero hpif, hz, FP.cos_zero, h2, FP.mul_one]
  · dsimp only
    have d := dec (min c steps) (by omega) (by omega)
    generalize (JOps.ofRat (1 / 2) * (1 + JOps.cos (JOps.pi * JOps.ofInt (min c steps) / JOps.ofInt steps)) : FP F) = y at d
    have yf := fin_between fin_zero fin_one d.1 d.2
    have p0 : 0 ≤ (1 - a) * y := FP.mul_nonneg' h1a d.1 h1af yf
    have p1 : (1 - a) * y ≤ 1 - a := by
      have := FP.mul_mono_nonneg h1a h1af yf fin_one d.2
      rwa [FP.mul_one] at this
    have pf := fin_between fin_zero h1af p0 p1
    have q0 : a ≤ (1 - a) * y + a := le_add p0 ha
    have q1 : (1 - a) * y + a ≤ (1 - a) + a := FP.add_mono_right pf.isNum h1af.isNum haf p1
    have qf := fin_between haf htop q0 q1
    exact ⟨FP.mul_mono_nonneg hi hif haf qf q0, FP.mul_mono_nonneg hi hif qf htop q1⟩

theorem FP.not_max_lt (v e : FP F) : ¬ (JOps.max v e < e) := by
  by_cases hv : IsNum v
  · by_cases he : IsNum e
    · rw [FP.max_cases v e hv he]
      split
      · exact FP.lt_irrefl e
      · assumption
    · intro h; exact he (le_num (lt_le h)).2
  · intro h; exact FP.max_nan v e (Or.inl hv) (le_num (lt_le h)).1

theorem FP.not_lt_min (v e : FP F) : ¬ (e < JOps.min v e) := by
  by_cases hv : IsNum v
  · by_cases he : IsNum e
    · rw [FP.min_cases v e hv he]
      split
      · exact FP.lt_irrefl e
      · assumption
    · intro h; exact he (le_num (lt_le h)).1
  · intro h; exact FP.min_nan v e (Or.inl hv) (le_num (lt_le h)).2

/-- **C88.** `exponential_decay` in floating point: exactly `init_value` up to `transition_begin`; and with an `end_value` the
value is never beyond it - never below for a decay rate below 1, never above otherwise - whatever happens to the power. -/
theorem C88_exponential (i r : FP F) (steps begin_ : ℤ) (st : Bool) (hs : 0 < steps) (hr : r ≠ 0) :
    (∀ c, c ≤ max begin_ 0 → exponentialDecay i steps r begin_ st none c = i) ∧
    (∀ e c, r < 1 → ¬ (exponentialDecay i steps r begin_ st (some e) c < e)) ∧
    (∀ e c, ¬ r < 1 → ¬ (e < exponentialDecay i steps r begin_ st (some e) c)) := by
  have h0 : ¬ (JOps.eqb r 0 = true) := by
    show ¬ (JOps.eqb r.1 (0 : FP F).1 = true)
    rw [XReal.eqb_iff]
    rintro ⟨-, -, h⟩
    exact hr (FP.ext h)
  refine ⟨fun c hc => ?_, fun e c h1 => ?_, fun e c h1 => ?_⟩
  · unfold exponentialDecay
    rw [if_neg (by omega), if_neg h0]
    have hb : (if begin_ < 0 then (0 : ℤ) else begin_) = max begin_ 0 := by split <;> omega
    simp only [hb]
    rw [if_pos (by omega)]
  · unfold exponentialDecay
    rw [if_neg (by omega), if_neg h0]
    dsimp only
    rw [if_pos (show JOps.lt r 1 = true from h1)]
    exact FP.not_max_lt _ _
  · unfold exponentialDecay
    rw [if_neg (by omega), if_neg h0]
    dsimp only
    rw [if_neg (show ¬ JOps.lt r 1 = true from h1)]
    exact FP.not_lt_min _ _

/-- the hypotheses of `C88_polynomial` and `C88_cosine` are met in single precision, e.g. for 1000 steps -/
example : IsFin (JOps.ofInt 1000 : FP Format.float32) ∧ (JOps.ofRat (1 / 2) * (1 + 1) : FP Format.float32) = 1 ∧
    IsFin (1 + 1 : FP Format.float32) ∧ IsFin (JOps.pi * JOps.ofInt 1000 : FP Format.float32) := by
  have h1000 : Format.float32.rnd ((1000 : ℤ) : ℝ) = .fin ((1000 : ℤ) : ℝ) := Format.float32_int 1000 (by norm_num)
  have h2 : Format.float32.rnd (2 : ℝ) = .fin 2 := by exact_mod_cast Format.float32_int 2 (by norm_num)
  have e2 : (1 + 1 : FP Format.float32) = of Format.float32 (.fin 2) := by
    rw [one_eq_of, of_add_of Format.float32.rnd_one Format.float32.rnd_one]; norm_num
  have eh : (JOps.ofRat (1 / 2) : FP Format.float32) = of Format.float32 (.fin (1 / 2)) := by
    show of Format.float32 (.fin (((1 / 2 : ℚ)) : ℝ)) = _
    norm_num
  refine ⟨of_fin_of h1000, ?_, ?_, ?_⟩
  · rw [e2, eh, of_mul_of Format.float32_half h2, one_eq_of]; norm_num
  · rw [e2]; exact of_fin_of h2
  · have hpi : (JOps.pi : FP Format.float32) ≤ of Format.float32 (.fin 4) := of_fin_mono Real.pi_le_four
    have hpi0 : (0 : FP Format.float32) ≤ JOps.pi := of_fin_nonneg (F := Format.float32) Real.pi_pos.le
    have h4 : Format.float32.rnd (4 : ℝ) = .fin 4 := by exact_mod_cast Format.float32_int 4 (by norm_num)
    have h4000 : Format.float32.rnd (4000 : ℝ) = .fin 4000 := by exact_mod_cast Format.float32_int 4000 (by norm_num)
    obtain ⟨x, hx⟩ := (FP.isFin_iff _).1 (fin_between fin_zero (of_fin_of h4) hpi0 hpi)
    have hx4 : x ≤ 4 := (le_fin hx (show (of Format.float32 (.fin 4)).1 = .fin 4 from h4)).1 hpi
    have hx0 : 0 ≤ x := (le_fin zero_val hx).1 hpi0
    have e : (JOps.pi * JOps.ofInt 1000 : FP Format.float32) = of Format.float32 (.fin (x * ((1000 : ℤ) : ℝ))) := by
      show of _ ((JOps.pi : FP Format.float32).1 * Format.float32.rnd ((1000 : ℤ) : ℝ)) = _
      rw [hx, h1000, XReal.fin_mul]
    rw [e]
    exact fin_between fin_zero (of_fin_of h4000) (of_fin_nonneg (by push_cast; positivity)) (of_fin_mono (by push_cast; linarith))

end Optax
