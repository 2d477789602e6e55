import Verif.Lemmas.Counter

/-!
# C01: counters saturate

`Saturates t c`: whatever the arithmetic, the params, the gradients (well-formed or not), after any
history of `n` successful updates from `init`, counter `c` of the state is `min(n, 2^31 - 1)`.
-/

set_option linter.unusedSectionVars false
set_option linter.unusedSimpArgs false

namespace Optax

/-- See the module documentation. -/
def Saturates {α : Type} (t : GT α) (c : t.State → BitVec 32) : Prop :=
  ∀ (p : Params α) (h : List (Call α)) (us : List (Params α)) (s : t.State),
    t.exec p h = .ok (us, s) → (c s).toInt = min (h.length : ℤ) (2 ^ 31 - 1)

theorem saturates_of_step {α : Type} (t : GT α) (c : t.State → BitVec 32)
    (h0 : ∀ p s, t.init p = .ok s → c s = 0#32)
    (hs : ∀ g s p u s', t.update g s p = .ok (u, s') → c s' = safeInt32Increment (c s)) :
    Saturates t c := by
  intro p h us s he
  rw [count_of_exec t c h0 hs p h us s he, cntAt_toInt]
  norm_num

/-- **C01.** One increment: never wraps, also on the last representable value. -/
theorem C01_increment (c : BitVec 32) (h : 0 ≤ c.toInt) :
    (safeInt32Increment c).toInt = min (c.toInt + 1) (2 ^ 31 - 1) := by
  rw [safeInt32Increment_toInt c h]; norm_num

/-- **C01.** For any int32 value at all (also negative ones), incrementing never yields a smaller value. -/
theorem C01_increment_mono (c : BitVec 32) : c.toInt ≤ (safeInt32Increment c).toInt := by
  have hm : maxInt32.toInt = 2147483647 := by decide
  have hlt := BitVec.toInt_lt (x := c)
  have hge := BitVec.le_toInt (x := c)
  unfold safeInt32Increment
  split
  · rename_i hc
    rw [BitVec.slt_iff_toInt_lt, hm] at hc
    rw [BitVec.toInt_add, show (1#32).toInt = 1 by decide, Int.bmod_def]
    split <;> omega
  · rw [hm]; omega

/-- **C01.** A saturating counter is never negative and never decreases along a history. -/
theorem C01_nonneg_mono {α : Type} (t : GT α) (c : t.State → BitVec 32) (hsat : Saturates t c)
    (p : Params α) (h h' : List (Call α)) (us us' : List (Params α)) (s s' : t.State)
    (he : t.exec p h = .ok (us, s)) (he' : t.exec p (h ++ h') = .ok (us', s')) :
    0 ≤ (c s).toInt ∧ (c s).toInt ≤ (c s').toInt := by
  rw [hsat p h us s he, hsat p (h ++ h') us' s' he', List.length_append]
  constructor
  · apply le_min <;> [omega; norm_num]
  · push_cast
    apply min_le_min_right
    omega

section
variable {α : Type} [Zero α] [One α] [Add α] [Sub α] [Mul α] [Div α] [Neg α] [JOps α]

/-- **C01** for `ema`. -/
theorem C01_ema (decay : α) (debias : Bool) (acc : Option (α → α)) :
    Saturates (ema decay debias acc) EmaState.count := by
  apply saturates_of_step
  · rintro p s h
    simp only [ema, Except.ok.injEq] at h
    rw [← h]
  · rintro g s p u s' h
    simp only [ema, Res.bind_eq_ok, Res.pure_eq, Except.ok.injEq, Prod.mk.injEq] at h
    obtain ⟨_, _, _, h⟩ := h
    rw [← h]

/-- **C01** for `scale_by_adam`. -/
theorem C01_adam (b1 b2 eps er : α) : Saturates (scaleByAdam b1 b2 eps er) AdamState.count := by
  apply saturates_of_step
  · rintro p s h
    simp only [scaleByAdam, Except.ok.injEq] at h
    rw [← h]
  · rintro g s p u s' h
    simp only [scaleByAdam, Res.bind_eq_ok, Res.pure_eq, Except.ok.injEq, Prod.mk.injEq] at h
    obtain ⟨_, _, _, _, _, _, _, h⟩ := h
    rw [← h]

/-- **C01** for `scale_by_belief`. -/
theorem C01_belief (b1 b2 eps er : α) :
    Saturates (scaleByBelief b1 b2 eps er) AdamState.count := by
  apply saturates_of_step
  · rintro p s h
    simp only [scaleByBelief, Except.ok.injEq] at h
    rw [← h]
  · rintro g s p u s' h
    simp only [scaleByBelief, Res.bind_eq_ok, Res.pure_eq, Except.ok.injEq, Prod.mk.injEq] at h
    obtain ⟨_, _, _, _, _, _, _, _, _, h⟩ := h
    rw [← h]

/-- **C01** for `scale_by_yogi`. -/
theorem C01_yogi (b1 b2 eps er a : α) :
    Saturates (scaleByYogi b1 b2 eps er a) AdamState.count := by
  apply saturates_of_step
  · rintro p s h
    simp only [scaleByYogi, Except.ok.injEq] at h
    rw [← h]
  · rintro g s p u s' h
    simp only [scaleByYogi, Res.bind_eq_ok, Res.pure_eq, Except.ok.injEq, Prod.mk.injEq] at h
    obtain ⟨_, _, _, _, _, _, _, _, _, h⟩ := h
    rw [← h]

/-- **C01** for `scale_by_radam`. -/
theorem C01_radam (b1 b2 eps er th : α) :
    Saturates (scaleByRadam b1 b2 eps er th) AdamState.count := by
  apply saturates_of_step
  · rintro p s h
    simp only [scaleByRadam, Except.ok.injEq] at h
    rw [← h]
  · rintro g s p u s' h
    simp only [scaleByRadam, Res.bind_eq_ok, Res.pure_eq, Except.ok.injEq, Prod.mk.injEq] at h
    obtain ⟨_, _, _, _, _, _, _, h⟩ := h
    rw [← h]

/-- **C01** for `scale_by_schedule`. -/
theorem C01_schedule (f : Schedule α) : Saturates (scaleBySchedule f) ScheduleState.count := by
  apply saturates_of_step
  · rintro p s h
    simp only [scaleBySchedule, Except.ok.injEq] at h
    rw [← h]
  · rintro g s p u s' h
    simp only [scaleBySchedule, Except.ok.injEq, Prod.mk.injEq] at h
    obtain ⟨_, h⟩ := h
    rw [← h]

/-- **C01** for `add_noise`. -/
theorem C01_add_noise (normal : Normal α) (eta gamma : α) (seed : ℤ) :
    Saturates (addNoise normal eta gamma seed) NoiseState.count := by
  apply saturates_of_step
  · rintro p s h
    simp only [addNoise, Except.ok.injEq] at h
    rw [← h]
  · rintro g s p u s' h
    simp only [addNoise, Res.bind_eq_ok, Res.pure_eq] at h
    obtain ⟨_, _, _, _, _, _, _, _, h⟩ := h
    simp only [Except.ok.injEq, Prod.mk.injEq] at h
    obtain ⟨_, h⟩ := h
    rw [← h]

end

/-- `exec` does succeed, e.g. for `scale_by_schedule` on every history (so C01 is not vacuous); in
particular for histories longer than `2^31`. -/
theorem C01_schedule_total (f : Schedule ℝ) (p : Params ℝ) (h : List (Call ℝ)) :
    ∃ us s, (scaleBySchedule f).exec p h = .ok (us, s) := by
  have key : ∀ (h : List (Call ℝ)) (s0 : ScheduleState),
      ∃ us s, (scaleBySchedule f).run s0 h = .ok (us, s) := by
    intro h
    induction h with
    | nil => intro s0; exact ⟨[], s0, rfl⟩
    | cons x h ih =>
      intro s0
      obtain ⟨us, s, h1⟩ := ih ⟨safeInt32Increment s0.count⟩
      exact ⟨_, s, by rw [GT.run_cons]; simp only [Res.ok_bind]; rw [h1]; rfl⟩
  exact key h ⟨0#32⟩

/-- the last increment before saturation, saturation itself -/
example : safeInt32Increment 2147483646#32 = 2147483647#32 ∧
    safeInt32Increment 2147483647#32 = 2147483647#32 := by decide

end Optax
