import Verif.Props.Interp

/-!
# C45–C47: joined, warm-up and SGDR schedules
-/

set_option linter.unusedSectionVars false
set_option linter.unusedSimpArgs false

namespace Optax

section gen
variable {α : Type} [Zero α] [One α] [Add α] [Sub α] [Mul α] [Div α] [Neg α] [JOps α]

theorem joinFold (step : ℤ) (boundaries : List ℤ) (rest : List (Schedule α)) (o : α)
    (hl : rest.length = boundaries.length) (hsort : boundaries.Pairwise (· ≤ ·)) :
    (List.zip boundaries rest).foldl
        (fun output bs => if step < bs.1 then output else bs.2 (step - bs.1)) o =
      match boundaries.countP (fun b => decide (b ≤ step)) with
      | 0 => o
      | j + 1 => ((rest[j]?).map (fun s => s (step - boundaries.getD j 0))).getD o := by
  induction boundaries generalizing rest o with
  | nil => rfl
  | cons b bs ih =>
    obtain ⟨s, rest', rfl⟩ : ∃ s rest', rest = s :: rest' := by
      cases rest with
      | nil => simp at hl
      | cons s r => exact ⟨s, r, rfl⟩
    rw [List.pairwise_cons] at hsort
    rw [List.zip_cons_cons, List.foldl_cons, ih rest' _ (by simpa using hl) hsort.2]
    by_cases hb : b ≤ step
    · rw [List.countP_cons_of_pos (by simpa using hb)]
      have : ¬ step < b := by omega
      simp only [this, if_false]
      generalize hj : bs.countP (fun b => decide (b ≤ step)) = j
      cases j with
      | zero => simp
      | succ j =>
        have hlt : j < rest'.length := by
          have h1 := List.countP_le_length (p := fun b => decide (b ≤ step)) (l := bs)
          simp at hl
          omega
        simp [hlt]
    · have h0 : bs.countP (fun b => decide (b ≤ step)) = 0 := by
        rw [List.countP_eq_zero]
        intro x hx
        have := hsort.1 x hx
        simp; omega
      rw [List.countP_cons_of_neg (by simpa using hb), h0]
      have : step < b := by omega
      simp [this]

/-- **C45.** With non-decreasing boundaries, one less than schedules, `join_schedules` returns at every step
`schedules[j](step - b_j)`, where `j` is the number of boundaries `≤ step` and `b_0 = 0`. -/
theorem C45_join (schedules : List (Schedule α)) (boundaries : List ℤ)
    (hl : schedules.length = boundaries.length + 1) (hsort : boundaries.Pairwise (· ≤ ·)) :
    ∃ f, joinSchedules schedules boundaries = .ok f ∧ ∀ step, ∃ s b,
      schedules[boundaries.countP (fun b => decide (b ≤ step))]? = some s ∧
      (0 :: boundaries)[boundaries.countP (fun b => decide (b ≤ step))]? = some b ∧
      f step = s (step - b) := by
  obtain ⟨s0, rest, rfl⟩ : ∃ s rest, schedules = s :: rest := by
    cases schedules with
    | nil => simp at hl
    | cons s r => exact ⟨s, r, rfl⟩
  refine ⟨_, rfl, ?_⟩
  intro step
  have hl' : rest.length = boundaries.length := by simpa using hl
  show ∃ (s : Schedule α) (b : ℤ), _ ∧ _ ∧ (List.zip boundaries rest).foldl _ (s0 step) = s (step - b)
  rw [joinFold step boundaries rest (s0 step) hl' hsort]
  have hle := List.countP_le_length (p := fun b => decide (b ≤ step)) (l := boundaries)
  generalize hj : boundaries.countP (fun b => decide (b ≤ step)) = j
  rw [hj] at hle
  cases j with
  | zero => exact ⟨s0, 0, rfl, rfl, by simp⟩
  | succ j =>
    have h1 : j < rest.length := by omega
    have h2 : j < boundaries.length := by omega
    exact ⟨rest[j], boundaries[j], by simp [h1], by simp [h2], by simp [h1, h2]⟩

/-- **C45.** No schedules: IndexError (in the code when called). -/
theorem C45_empty (boundaries : List ℤ) : joinSchedules ([] : List (Schedule α)) boundaries = .error .index := rfl

/-- e.g. three schedules joined at 10 and 20: at 25 the third one sees 5 -/
example (s0 s1 s2 : Schedule ℝ) : ∃ f, joinSchedules [s0, s1, s2] [10, 20] = .ok f ∧
    f 25 = s2 5 ∧ f 10 = s1 0 ∧ f 9 = s0 9 := by
  obtain ⟨f, h1, h2⟩ := C45_join [s0, s1, s2] [10, 20] (by simp) (by simp)
  refine ⟨f, h1, ?_, ?_, ?_⟩
  · obtain ⟨s, b, e1, e2, e3⟩ := h2 25
    simp at e1 e2; rw [e3, ← e1, ← e2]; rfl
  · obtain ⟨s, b, e1, e2, e3⟩ := h2 10
    simp at e1 e2; rw [e3, ← e1, ← e2]; rfl
  · obtain ⟨s, b, e1, e2, e3⟩ := h2 9
    simp at e1 e2; rw [e3, ← e1, ← e2]; rfl

theorem join_two (s0 s1 : Schedule α) (b : ℤ) :
    joinSchedules [s0, s1] [b] = .ok (fun step => if step < b then s0 step else s1 (step - b)) := rfl

/-! ## C47 -/

/-- the cycle's own schedule -/
def cycleSchedule (kw : CosineKwargs α) : Res (Schedule α) :=
  warmupCosineDecaySchedule kw.initValue kw.peakValue kw.warmupSteps kw.decaySteps kw.endValue

/-- end of each cycle, counted from `t` -/
def cycleEnds : ℤ → List (CosineKwargs α) → List ℤ
  | _, [] => []
  | t, kw :: rest => (t + kw.decaySteps) :: cycleEnds (t + kw.decaySteps) rest

theorem sgdrLoop_eq (F : CosineKwargs α → Schedule α) (kws : List (CosineKwargs α)) (t : ℤ)
    (hF : ∀ kw ∈ kws, cycleSchedule kw = .ok (F kw)) :
    sgdrLoop t kws = .ok (kws.map F, cycleEnds t kws) := by
  induction kws generalizing t with
  | nil => rfl
  | cons kw rest ih =>
    unfold sgdrLoop
    rw [show warmupCosineDecaySchedule kw.initValue kw.peakValue kw.warmupSteps kw.decaySteps kw.endValue =
      .ok (F kw) from hF kw (by simp), Res.ok_bind, ih _ (fun k hk => hF k (List.mem_cons_of_mem _ hk)), Res.ok_bind]
    rfl

/-- the fold in `join_schedules` -/
def joinStep (step : ℤ) (output : α) (bs : ℤ × Schedule α) : α :=
  if step < bs.1 then output else bs.2 (step - bs.1)

theorem sgdr_skip (F : CosineKwargs α → Schedule α) (step : ℤ) (rest : List (CosineKwargs α)) (k0 : CosineKwargs α)
    (t : ℤ) (o : α) (hd : ∀ kw ∈ rest, 0 ≤ kw.decaySteps) (h : step < t + k0.decaySteps) :
    (List.zip (cycleEnds t (k0 :: rest)).dropLast ((k0 :: rest).map F).tail).foldl (joinStep step) o = o := by
  induction rest generalizing t k0 o with
  | nil => rfl
  | cons k1 rest ih =>
    have e : (cycleEnds t (k0 :: k1 :: rest)).dropLast =
        (t + k0.decaySteps) :: (cycleEnds (t + k0.decaySteps) (k1 :: rest)).dropLast := rfl
    rw [e]
    simp only [List.map_cons, List.tail_cons]
    rw [List.zip_cons_cons, List.foldl_cons]
    have : joinStep step o (t + k0.decaySteps, F k1) = o := if_pos h
    rw [this]
    have h1 := hd k1 (by simp)
    exact ih k1 _ o (fun kw hk => hd kw (List.mem_cons_of_mem _ hk)) (by omega)

theorem sgdr_fold (F : CosineKwargs α → Schedule α) (step : ℤ) (pre : List (CosineKwargs α)) :
    ∀ (k0 : CosineKwargs α) (rest : List (CosineKwargs α)) (kw : CosineKwargs α) (post : List (CosineKwargs α)) (t : ℤ),
      (∀ k ∈ k0 :: rest, 0 ≤ k.decaySteps) → k0 :: rest = pre ++ kw :: post →
      t + (pre.map (fun k => k.decaySteps)).sum ≤ step →
      (step < t + (pre.map (fun k => k.decaySteps)).sum + kw.decaySteps ∨ post = []) →
      (List.zip (cycleEnds t (k0 :: rest)).dropLast ((k0 :: rest).map F).tail).foldl (joinStep step)
        (F k0 (step - t)) = F kw (step - (t + (pre.map (fun k => k.decaySteps)).sum)) := by
  induction pre with
  | nil =>
    intro k0 rest kw post t hd he h1 h2
    simp only [List.nil_append, List.cons.injEq] at he
    obtain ⟨rfl, rfl⟩ := he
    simp only [List.map_nil, List.sum_nil, add_zero] at h1 h2 ⊢
    rcases h2 with h2 | rfl
    · exact sgdr_skip F step rest k0 t _ (fun k hk => hd k (List.mem_cons_of_mem _ hk)) h2
    · rfl
  | cons p0 pre ih =>
    intro k0 rest kw post t hd he h1 h2
    simp only [List.cons_append, List.cons.injEq] at he
    obtain ⟨rfl, hrest⟩ := he
    obtain ⟨k1, rest', rfl⟩ : ∃ k1 rest', rest = k1 :: rest' := by
      cases pre with
      | nil => exact ⟨kw, post, hrest⟩
      | cons a b => exact ⟨a, b ++ kw :: post, hrest⟩
    have hnn : 0 ≤ (pre.map (fun k => k.decaySteps)).sum := by
      apply List.sum_nonneg
      intro x hx
      obtain ⟨k, hk, rfl⟩ := List.mem_map.mp hx
      apply hd k
      apply List.mem_cons_of_mem
      rw [hrest]
      exact List.mem_append_left _ hk
    simp only [List.map_cons, List.sum_cons] at h1 h2 ⊢
    have e : (cycleEnds t (k0 :: k1 :: rest')).dropLast =
        (t + k0.decaySteps) :: (cycleEnds (t + k0.decaySteps) (k1 :: rest')).dropLast := rfl
    rw [e]
    simp only [List.tail_cons]
    rw [List.zip_cons_cons, List.foldl_cons]
    have : joinStep step (F k0 (step - t)) (t + k0.decaySteps, F k1) = F k1 (step - (t + k0.decaySteps)) :=
      if_neg (by simp; omega)
    rw [this]
    have := ih k1 rest' kw post (t + k0.decaySteps) (fun k hk => hd k (List.mem_cons_of_mem _ hk)) hrest
      (by omega) (by rcases h2 with h2 | h2
                     · left; omega
                     · right; exact h2)
    rw [show t + (k0.decaySteps + (pre.map (fun k => k.decaySteps)).sum) =
      t + k0.decaySteps + (pre.map (fun k => k.decaySteps)).sum by ring]
    exact this

/-- **C47.** If every cycle's warm-up cosine schedule is valid, `sgdr_schedule` returns in each cycle (from the sum of
the previous `decay_steps` to the next sum; the last one goes on for ever) that cycle's schedule at the step counted from
its start. -/
theorem C47_sgdr (kwargs : List (CosineKwargs α)) (hne : kwargs ≠ []) (F : CosineKwargs α → Schedule α)
    (hF : ∀ kw ∈ kwargs, warmupCosineDecaySchedule kw.initValue kw.peakValue kw.warmupSteps kw.decaySteps kw.endValue =
      .ok (F kw)) (hd : ∀ kw ∈ kwargs, 0 ≤ kw.decaySteps) :
    ∃ g, sgdrSchedule kwargs = .ok g ∧ ∀ pre kw post, kwargs = pre ++ kw :: post → ∀ step,
      (pre.map (fun k => k.decaySteps)).sum ≤ step →
      (step < (pre.map (fun k => k.decaySteps)).sum + kw.decaySteps ∨ post = []) →
      g step = F kw (step - (pre.map (fun k => k.decaySteps)).sum) := by
  obtain ⟨k0, rest, rfl⟩ : ∃ k r, kwargs = k :: r := by
    cases kwargs with
    | nil => exact absurd rfl hne
    | cons k r => exact ⟨k, r, rfl⟩
  refine ⟨fun step => (List.zip (cycleEnds 0 (k0 :: rest)).dropLast (rest.map F)).foldl (joinStep step) (F k0 step),
    ?_, ?_⟩
  · unfold sgdrSchedule
    rw [sgdrLoop_eq F _ 0 hF, Res.ok_bind]
    rfl
  · intro pre kw post he step h1 h2
    have := sgdr_fold F step pre k0 rest kw post 0 hd he (by omega)
      (by rcases h2 with h2 | h2
          · left; omega
          · right; exact h2)
    simp only [sub_zero, zero_add] at this
    exact this

/-- **C47.** The first invalid cycle's error is raised; an empty list of cycles raises IndexError (when the schedule is
called). -/
theorem C47_errors (pre post : List (CosineKwargs α)) (kw : CosineKwargs α) (F : CosineKwargs α → Schedule α)
    (hF : ∀ k ∈ pre, warmupCosineDecaySchedule k.initValue k.peakValue k.warmupSteps k.decaySteps k.endValue = .ok (F k))
    (e : Err)
    (he : warmupCosineDecaySchedule kw.initValue kw.peakValue kw.warmupSteps kw.decaySteps kw.endValue = .error e) :
    sgdrSchedule (pre ++ kw :: post) = .error e ∧ sgdrSchedule ([] : List (CosineKwargs α)) = .error .index := by
  refine ⟨?_, rfl⟩
  have : ∀ t, sgdrLoop t (pre ++ kw :: post) = .error e := by
    induction pre with
    | nil =>
      intro t
      rw [List.nil_append]
      unfold sgdrLoop
      rw [he]; rfl
    | cons k pre ih =>
      intro t
      rw [List.cons_append]
      unfold sgdrLoop
      rw [hF k (by simp), Res.ok_bind, ih (fun k hk => hF k (List.mem_cons_of_mem _ hk))]
      rfl
  unfold sgdrSchedule
  rw [this]; rfl

end gen

/-! ## C46 -/

/-- the linear warm-up -/
theorem warmup_line (i p : ℝ) (w c : ℤ) (hw : 0 < w) (h0 : 0 ≤ c) (hc : c ≤ w) :
    linearSchedule i p w 0 c = i + (p - i) * ((c : ℝ) / w) := by
  have := (C39_linear i p w 0 c hw h0 hc).1
  simpa using this

theorem line_between (i p : ℝ) (w c : ℤ) (hw : 0 < w) (h0 : 0 ≤ c) (hc : c ≤ w) :
    min i p ≤ i + (p - i) * ((c : ℝ) / w) ∧ i + (p - i) * ((c : ℝ) / w) ≤ max i p := by
  obtain ⟨f0, f1⟩ := frac_bounds hw h0 hc
  simp only [sub_zero] at f0 f1
  have := linear_between i p ((c : ℝ) / w) f0 f1
  unfold linearInterpolate at this
  rw [show i + (p - i) * ((c : ℝ) / w) = (p - i) * ((c : ℝ) / w) + i by ring]
  exact this

/-- **C46 (cosine).** With `0 ≤ warmup < decay` and a non-zero peak: during warm-up the straight line from
`init_value` to `peak_value` (between them, starting at `init_value`), exactly `peak_value` at `warmup_steps`; then
`cosine_decay_schedule(peak, decay-warmup, end/peak)` restarted at 0, i.e. between peak and end; exactly `end_value` from
`decay_steps` on. -/
theorem C46_cosine (i p e : ℝ) (w n : ℤ) (hw : 0 ≤ w) (hn : w < n) (hp : p ≠ 0) :
    ∃ g d, warmupCosineDecaySchedule i p w n e = .ok g ∧ cosineDecaySchedule p (n - w) (e / p) = .ok d ∧
      (0 < w → g 0 = i) ∧ g w = p ∧
      (∀ c, 0 ≤ c → c < w → g c = i + (p - i) * ((c : ℝ) / w) ∧ min i p ≤ g c ∧ g c ≤ max i p) ∧
      (∀ c, w ≤ c → g c = d (c - w) ∧ min e p ≤ g c ∧ g c ≤ max e p) ∧
      (∀ c, n ≤ c → g c = e) := by
  obtain ⟨d, hd, hf⟩ := cosine_ok p (e / p) (n - w) (by omega)
  have hform : ∀ c, d c = (p - e) * ((1 + Real.cos (Real.pi * ((min c (n - w) : ℤ) : ℝ) / ((n - w : ℤ) : ℝ))) / 2) + e := by
    intro c
    rw [hf c]
    field_simp
  have hw' : (0:ℝ) < ((n - w : ℤ) : ℝ) := by exact_mod_cast (by omega : 0 < n - w)
  have hpost : ∀ c, w ≤ c → (if c < w then linearSchedule i p w 0 c else d (c - w)) = d (c - w) :=
    fun c hc => if_neg (by omega)
  refine ⟨fun c => if c < w then linearSchedule i p w 0 c else d (c - w), d, ?_, hd, ?_, ?_, ?_, ?_, ?_⟩
  · unfold warmupCosineDecaySchedule
    rw [pyDiv_real _ _ hp, Res.ok_bind, hd, Res.ok_bind, join_two]
  · intro h
    show (if 0 < w then _ else _) = i
    rw [if_pos h, warmup_line _ _ _ _ h le_rfl h.le]; simp
  · show (if w < w then _ else _) = p
    rw [hpost w le_rfl, hform, sub_self, min_eq_left (by omega)]; simp
  · intro c h0 hc
    show (if c < w then _ else _) = _ ∧ min i p ≤ (if c < w then _ else _) ∧ (if c < w then _ else _) ≤ max i p
    rw [if_pos hc, warmup_line _ _ _ _ (by omega) h0 hc.le]
    exact ⟨rfl, line_between i p w c (by omega) h0 hc.le⟩
  · intro c hc
    show (if c < w then _ else _) = _ ∧ min e p ≤ (if c < w then _ else _) ∧ (if c < w then _ else _) ≤ max e p
    rw [hpost c hc]
    refine ⟨rfl, ?_⟩
    rw [hform]
    have hc1 := Real.cos_le_one (Real.pi * ((min (c - w) (n - w) : ℤ) : ℝ) / ((n - w : ℤ) : ℝ))
    have hc2 := Real.neg_one_le_cos (Real.pi * ((min (c - w) (n - w) : ℤ) : ℝ) / ((n - w : ℤ) : ℝ))
    set t := (1 + Real.cos (Real.pi * ((min (c - w) (n - w) : ℤ) : ℝ) / ((n - w : ℤ) : ℝ))) / 2 with ht
    have := linear_between e p t (by linarith) (by linarith)
    unfold linearInterpolate at this
    exact this
  · intro c hc
    show (if c < w then _ else _) = e
    rw [hpost c (by omega), hform, min_eq_right (by omega), mul_div_assoc, div_self hw'.ne', mul_one, Real.cos_pi]
    ring

/-- **C46 (exponential).** With `warmup > 0`: the straight line from `init_value` to `peak_value` during warm-up,
then `exponential_decay(peak, …)` restarted at 0.  The value at `warmup_steps` is exactly `peak_value` (unless `end_value`
already clips the peak). -/
theorem C46_exponential (i p r : ℝ) (w n begin_ : ℤ) (st : Bool) (en : Option ℝ) (hw : 0 < w) (hn : 0 < n)
    (hr : 0 < r) (hen : ∀ e, en = some e → (r < 1 → e ≤ p) ∧ (1 ≤ r → p ≤ e)) :
    ∃ g, warmupExponentialDecaySchedule i p w n r begin_ st en = .ok g ∧
      g 0 = i ∧ g w = p ∧
      (∀ c, 0 ≤ c → c < w → g c = i + (p - i) * ((c : ℝ) / w) ∧ min i p ≤ g c ∧ g c ≤ max i p) ∧
      (∀ c, w ≤ c → g c = exponentialDecay p n r begin_ st en (c - w)) := by
  have hpost : ∀ c, w ≤ c → (if c < w then linearSchedule i p w 0 c else exponentialDecay p n r begin_ st en (c - w)) =
      exponentialDecay p n r begin_ st en (c - w) := fun c hc => if_neg (by omega)
  refine ⟨fun c => if c < w then linearSchedule i p w 0 c else exponentialDecay p n r begin_ st en (c - w),
    join_two _ _ _, ?_, ?_, ?_, hpost⟩
  · show (if 0 < w then _ else _) = i
    rw [if_pos hw, warmup_line _ _ _ _ hw le_rfl hw.le]; simp
  · show (if w < w then _ else _) = p
    rw [hpost w le_rfl, sub_self]
    have h0 : exponentialDecay p n r begin_ st none 0 = p := (C41_closed_form p r n begin_ hn hr).1 st 0 (le_max_right _ _)
    cases en with
    | none => exact h0
    | some e =>
      rw [exponential_end p r e n begin_ st hn hr, h0]
      obtain ⟨h1, h2⟩ := hen e rfl
      split
      · rename_i h; exact max_eq_left (h1 h)
      · rename_i h; exact min_eq_left (h2 (not_lt.mp h))
  · intro c h0 hc
    show (if c < w then _ else _) = _ ∧ min i p ≤ (if c < w then _ else _) ∧ (if c < w then _ else _) ≤ max i p
    rw [if_pos hc, warmup_line _ _ _ _ (by omega) h0 hc.le]
    exact ⟨rfl, line_between i p w c (by omega) h0 hc.le⟩

/-- **C46.** What is rejected: a zero peak (ZeroDivisionError), and `decay_steps ≤ warmup_steps` (ValueError). -/
theorem C46_rejects (i p e : ℝ) (w n : ℤ) :
    (p = 0 → warmupCosineDecaySchedule i p w n e = .error .zeroDiv) ∧
    (p ≠ 0 → n ≤ w → warmupCosineDecaySchedule i p w n e = .error .value) := by
  constructor
  · rintro rfl
    unfold warmupCosineDecaySchedule pyDiv
    rw [if_pos (by rw [jeqb_real])]
    rfl
  · intro hp hn
    unfold warmupCosineDecaySchedule
    rw [pyDiv_real _ _ hp, Res.ok_bind, show cosineDecaySchedule p (n - w) (e / p) = .error .value from
      if_neg (by omega)]
    rfl

/-- e.g. warm-up over 10 steps from 0 to 1, back to 0.1 at 100 -/
example : ∃ g, warmupCosineDecaySchedule (0:ℝ) 1 10 100 (1/10) = .ok g ∧ g 5 = 1/2 ∧ g 10 = 1 ∧ g 200 = 1/10 := by
  obtain ⟨g, d, h1, -, -, h2, h3, -, h4⟩ := C46_cosine 0 1 (1/10) 10 100 (by norm_num) (by norm_num) (by norm_num)
  refine ⟨g, h1, ?_, h2, h4 200 (by norm_num)⟩
  rw [(h3 5 (by norm_num) (by norm_num)).1]; norm_num

/-- two cycles of 100 steps meet the hypotheses of C47: at 105 the second one is half-way up its warm-up -/
example : ∃ g, sgdrSchedule [(⟨0, 1, 10, 100, 1/10⟩ : CosineKwargs ℝ), ⟨0, 2, 10, 100, 1/10⟩] = .ok g ∧
    g 10 = 1 ∧ g 105 = 1 ∧ g 110 = 2 := by
  obtain ⟨g1, -, h1, -, -, a1, -⟩ := C46_cosine 0 1 (1/10) 10 100 (by norm_num) (by norm_num) (by norm_num)
  obtain ⟨g2, -, h2, -, -, a2, b2, -⟩ := C46_cosine 0 2 (1/10) 10 100 (by norm_num) (by norm_num) (by norm_num)
  obtain ⟨g, hg, hs⟩ := C47_sgdr [(⟨0, 1, 10, 100, 1/10⟩ : CosineKwargs ℝ), ⟨0, 2, 10, 100, 1/10⟩] (by simp)
    (fun k => if k.peakValue = 1 then g1 else g2)
    (by
      intro kw hk
      simp only [List.mem_cons, List.not_mem_nil, or_false] at hk
      rcases hk with rfl | rfl
      · simpa using h1
      · simpa using h2)
    (by simp)
  refine ⟨g, hg, ?_, ?_, ?_⟩
  · rw [hs [] ⟨0, 1, 10, 100, 1/10⟩ [⟨0, 2, 10, 100, 1/10⟩] rfl 10 (by simp) (by simp)]
    simpa using a1
  · rw [hs [⟨0, 1, 10, 100, 1/10⟩] ⟨0, 2, 10, 100, 1/10⟩ [] rfl 105 (by simp) (by simp)]
    have := (b2 5 (by norm_num) (by norm_num)).1
    norm_num at this
    simpa using this
  · rw [hs [⟨0, 1, 10, 100, 1/10⟩] ⟨0, 2, 10, 100, 1/10⟩ [] rfl 110 (by simp) (by simp)]
    simpa using a2

end Optax
