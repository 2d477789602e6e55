import Verif.Props.FloatExact
import Verif.Model.Alias

/-!
# C89: what changes nothing in floating point
-/

set_option linter.unusedSectionVars false
set_option linter.unusedSimpArgs false

namespace Optax
open FP
open scoped Classical

variable {F : Format}

/-- Zero gradients give zero updates, from the initial state on (closed under `chain`). -/
def Stationary {α : Type} [Zero α] (t : GT α) : Prop :=
  ∀ σ : Spec, ∃ I : t.State → Prop,
    (∀ p, ∃ s, t.init (mk σ p) = .ok s ∧ I s) ∧
    (∀ s p, I s → ∃ s', t.update (mk σ fun _ _ => 0) s (some (mk σ p)) = .ok (mk σ fun _ _ => 0, s') ∧ I s')

theorem Stationary.chain {α : Type} [Zero α] (ts : List (GT α)) (h : ∀ t ∈ ts, Stationary t) : Stationary (chain ts) := by
  intro σ
  induction ts with
  | nil =>
    refine ⟨fun s => s = (0 : ℕ), fun p => ⟨(0 : ℕ), rfl, rfl⟩, ?_⟩
    rintro s p rfl
    exact ⟨(0 : ℕ), rfl, rfl⟩
  | cons t ts ih =>
    obtain ⟨I, h1, h2⟩ := h t (by simp) σ
    obtain ⟨J, h3, h4⟩ := ih (fun t ht => h t (by simp [ht]))
    refine ⟨fun s => ∃ a r, s = some (a, r) ∧ I a ∧ J r ∧ ChainState.length ts r = ts.length, ?_, ?_⟩
    · intro p
      obtain ⟨a, ha, hI⟩ := h1 p
      obtain ⟨r, hr, hJ⟩ := h3 p
      refine ⟨some (a, r), ?_, a, r, rfl, hI, hJ, chain_length_init ts _ r hr⟩
      show chainInit (t :: ts) (mk σ p) = _
      simp only [chainInit, ha, Res.ok_bind]
      have hr' : chainInit ts (mk σ p) = .ok r := hr
      rw [hr']; rfl
    · rintro s p ⟨a, r, rfl, hI, hJ, hl⟩
      obtain ⟨a', hu, hI'⟩ := h2 a p hI
      obtain ⟨r', hu', hJ'⟩ := h4 r p hJ
      have e : chainLoop ts (mk σ fun _ _ => 0) r (some (mk σ p)) = .ok (mk σ fun _ _ => 0, r') := by
        simpa [Optax.chain, hl] using hu'
      refine ⟨some (a', r'), ?_, a', r', rfl, hI', hJ', chainLoop_length ts _ r _ hl e⟩
      simp only [Optax.chain, ChainState.length, List.length_cons, hl, Nat.add_comm, ne_eq,
        not_true_eq_false, if_false, chainLoop, hu, Res.ok_bind, e]
      rfl

theorem stationary_identity : Stationary (α := FP F) identity := fun _ =>
  ⟨fun _ => True, fun _ => ⟨⟨⟩, rfl, trivial⟩, fun s _ _ => ⟨s, rfl, trivial⟩⟩

theorem stationary_scale {c : FP F} (hc : IsFin c) : Stationary (scale c) := fun σ =>
  ⟨fun _ => True, fun _ => ⟨⟨⟩, rfl, trivial⟩, fun s p _ => ⟨s, by
    rw [scale_update_mk]; simp only [FP.mul_zero hc], trivial⟩⟩

theorem stationary_schedule {f : Schedule (FP F)} (hf : ∀ n, IsFin (f n)) : Stationary (scaleBySchedule f) := fun σ =>
  ⟨fun _ => True, fun _ => ⟨_, rfl, trivial⟩, fun s p _ => ⟨⟨safeInt32Increment s.count⟩, by
    obtain ⟨c⟩ := s
    rw [scaleBySchedule_update_mk]; simp only [FP.mul_zero (hf _)], trivial⟩⟩

theorem stationary_clip {d : FP F} (hd : 0 ≤ d) : Stationary (clip d) := fun σ =>
  ⟨fun _ => True, fun _ => ⟨⟨⟩, rfl, trivial⟩, fun s p _ => ⟨s, by
    obtain ⟨u, h1, h2⟩ := C84_clip d hd σ (fun _ _ => 0) s (some (mk σ p))
    rw [h1]
    congr 2
    exact mk_congr fun k sh _ i _ => (h2 k i).2.1 ⟨FP.neg_nonpos hd, hd⟩, trivial⟩⟩

theorem stationary_trace {d : FP F} (hd : IsFin d) (nes : Bool) : Stationary (trace d nes none) := fun σ =>
  ⟨fun s => s = ⟨mk σ fun _ _ => 0⟩, fun p => ⟨_, trace_init_mk σ p d nes none, rfl⟩, by
    rintro s p rfl
    refine ⟨_, ?_, rfl⟩
    rw [trace_update_mk]
    simp only [FP.mul_zero hd, FP.zero_add, Option.getD_none, id, ite_self]⟩

theorem stationary_rms {d eps a : FP F} (hd : Decay d) (he : 0 < eps) (hf : IsFin (JOps.rsqrt eps : FP F)) (ha : 0 ≤ a) :
    Stationary (scaleByRms d eps a) := fun σ =>
  ⟨fun s => ∃ v, s = ⟨mk σ v⟩ ∧ ∀ k i, 0 ≤ v k i, fun p => ⟨_, rms_init_mk σ p d eps a, _, rfl, fun _ _ => ha⟩, by
    rintro s p ⟨v, rfl, hv⟩
    have hm : ∀ k i, 0 ≤ (1 - d) * ipow 0 2 + d * v k i := fun k i => moment_step hd num_zero (hv k i)
    refine ⟨_, ?_, _, rfl, hm⟩
    rw [rms_update_mk]
    simp only [fun k i => FP.zero_mul (rsqrt_nonneg_fin he hf (hm k i)).2]⟩

theorem stationary_rss {eps a : FP F} (he : 0 < eps) (hf : IsFin (JOps.rsqrt eps : FP F)) (ha : 0 ≤ a) :
    Stationary (scaleByRss a eps) := fun σ =>
  ⟨fun s => ∃ v, s = ⟨mk σ v⟩ ∧ ∀ k i, 0 ≤ v k i, fun p => ⟨_, rss_init_mk σ p a eps, _, rfl, fun _ _ => ha⟩, by
    rintro s p ⟨v, rfl, hv⟩
    have hm : ∀ k i, 0 ≤ 0 * 0 + v k i := fun k i => FP.add_nonneg (FP.sq_nonneg num_zero) (hv k i)
    refine ⟨_, ?_, _, rfl, hm⟩
    rw [rss_update_mk]
    simp only [fun k i => FP.mul_zero (invSqrtPos_nonneg_fin he hf (hm k i)).2]⟩

/-- what stationarity asks of Adam's numbers -/
structure AdamStat (b1 b2 eps er : FP F) : Prop where
  d1 : Decay b1
  d2 : Decay b2
  eps_pos : 0 < eps
  er_nonneg : 0 ≤ er
  bias1 : ∀ n, 0 < 1 - JOps.pow b1 (cnt (cntAt (n + 1)))
  bias2 : ∀ n, 0 < 1 - JOps.pow b2 (cnt (cntAt (n + 1)))

theorem adam_zero_step {b1 b2 eps er : FP F} (h : AdamStat b1 b2 eps er) (n : ℕ) :
    0 / (1 - JOps.pow b1 (cnt (cntAt (n + 1)))) /
      (JOps.sqrt (0 / (1 - JOps.pow b2 (cnt (cntAt (n + 1)))) + er) + eps) = 0 ∧
    (1 - b1) * 0 + b1 * 0 = 0 ∧ (1 - b2) * (0 * 0) + b2 * 0 = 0 := by
  have e1 : (1 - b1) * 0 + b1 * 0 = 0 := by rw [FP.mul_zero h.d1.cfin, FP.mul_zero h.d1.fin, FP.zero_add]
  have e2 : (1 - b2) * (0 * 0) + b2 * 0 = 0 := by
    rw [FP.mul_zero fin_zero, FP.mul_zero h.d2.cfin, FP.mul_zero h.d2.fin, FP.zero_add]
  have f : ∀ x : FP F, 0 < x → (0 : FP F) / x = 0 := fun x hx => FP.zero_div (le_num (lt_le hx)).2 (FP.pos_ne_zero hx)
  refine ⟨?_, e1, e2⟩
  rw [f _ (h.bias1 n), f _ (h.bias2 n), FP.zero_add]
  exact f _ (FP.pos_add (FP.sqrt_nonneg h.er_nonneg) h.eps_pos)

theorem stationary_adam {b1 b2 eps er : FP F} (h : AdamStat b1 b2 eps er) : Stationary (scaleByAdam b1 b2 eps er) := fun σ =>
  ⟨fun s => ∃ n, s = ⟨cntAt n, mk σ fun _ _ => 0, mk σ fun _ _ => 0⟩, fun p => ⟨_, adam_init_mk σ p b1 b2 eps er, 0, rfl⟩, by
    rintro s p ⟨n, rfl⟩
    obtain ⟨h1, h2, h3⟩ := adam_zero_step h n
    refine ⟨_, ?_, n + 1, rfl⟩
    rw [adam_update_mk, safeInt32Increment_cntAt]
    simp only [ipow_two, ipow_one, h1, h2, h3]⟩

theorem stationary_belief {b1 b2 eps er : FP F} (h : AdamStat b1 b2 eps er) : Stationary (scaleByBelief b1 b2 eps er) := fun σ =>
  ⟨fun s => ∃ n, s = ⟨cntAt n, mk σ fun _ _ => 0, mk σ fun _ _ => 0⟩, fun p => ⟨_, belief_init_mk σ p b1 b2 eps er, 0, rfl⟩, by
    rintro s p ⟨n, rfl⟩
    obtain ⟨h1, h2, h3⟩ := adam_zero_step h n
    refine ⟨_, ?_, n + 1, rfl⟩
    rw [belief_update_mk, safeInt32Increment_cntAt]
    simp only [ipow_two, ipow_one, FP.sub_zero, h1, h2, h3]⟩

/-- a learning rate or schedule with finite values -/
def LRFin : LR (FP F) → Prop
  | .scalar x => IsFin x
  | .schedule f => ∀ n, IsFin (f n)

theorem stationary_lr {lr : LR (FP F)} (h : LRFin lr) : Stationary (scaleByLearningRate lr) := by
  cases lr with
  | scalar x => exact stationary_scale (FP.isFin_neg h)
  | schedule f => exact stationary_schedule fun n => FP.isFin_neg (h n)

theorem stationary_momentum {m : Option (FP F)} (h : ∀ x ∈ m, IsFin x) (nes : Bool) : Stationary (momentumOrIdentity m nes) := by
  cases m with
  | none => exact stationary_identity
  | some x => exact stationary_trace (h x rfl) nes

/-- **C89.** With zero gradients, training with any stationary optimiser in floating point returns exactly the initial
parameters (whatever they are, infinities and NaNs included), after any number of steps. -/
theorem C89_training (t : GT (FP F)) (h : Stationary t) (σ : Spec) (p0 : ℕ → ℕ → FP F) (N : ℕ) :
    ∃ s0, t.init (mk σ p0) = .ok s0 ∧ ∃ s, trainLoop t (fun _ _ => mk σ fun _ _ => 0) N s0 (mk σ p0) = .ok (mk σ p0, s) := by
  obtain ⟨I, h1, h2⟩ := h σ
  obtain ⟨s0, hs0, hI0⟩ := h1 p0
  refine ⟨s0, hs0, ?_⟩
  have main : ∀ n, ∃ s, trainLoop t (fun _ _ => mk σ fun _ _ => 0) n s0 (mk σ p0) = .ok (mk σ p0, s) ∧ I s := by
    intro n
    induction n with
    | zero => exact ⟨s0, rfl, hI0⟩
    | succ n ih =>
      obtain ⟨s, h3, h4⟩ := ih
      obtain ⟨s', h5, h6⟩ := h2 s p0 h4
      refine ⟨s', ?_, h6⟩
      refine trainLoop_succ _ _ n _ _ _ _ _ _ _ h3 h5 ?_
      rw [C06_apply_updates]
      simp only [FP.add_zero]
  obtain ⟨s, hs, _⟩ := main N
  exact ⟨s, hs⟩

/-- **C89.** … which `sgd` (with or without momentum), `adagrad`, `rmsprop`, `adam` and `adabelief` are. -/
theorem C89_optimisers :
    (∀ (lr : LR (FP F)) (m : Option (FP F)) (nes : Bool), LRFin lr → (∀ x ∈ m, IsFin x) → Stationary (sgd lr m nes)) ∧
    (∀ (lr : LR (FP F)) (a eps : FP F), LRFin lr → 0 ≤ a → 0 < eps → IsFin (JOps.rsqrt eps : FP F) → Stationary (adagrad lr a eps)) ∧
    (∀ (lr : LR (FP F)) (d eps a : FP F) (m : Option (FP F)) (nes : Bool), LRFin lr → (∀ x ∈ m, IsFin x) → Decay d → 0 ≤ a →
      0 < eps → IsFin (JOps.rsqrt eps : FP F) → Stationary (rmsprop lr d eps a false m nes)) ∧
    (∀ (lr : LR (FP F)) (b1 b2 eps er : FP F), LRFin lr → AdamStat b1 b2 eps er → Stationary (adam lr b1 b2 eps er)) ∧
    (∀ (lr : LR (FP F)) (b1 b2 eps : FP F), LRFin lr → AdamStat b1 b2 eps (JOps.ofRat (1 / 10 ^ 16)) →
      Stationary (adabelief lr b1 b2 eps)) := by
  refine ⟨fun lr m nes h1 h2 => ?_, fun lr a eps h1 h2 h3 h4 => ?_, fun lr d eps a m nes h1 h2 h3 h4 h5 h6 => ?_,
    fun lr b1 b2 eps er h1 h2 => ?_, fun lr b1 b2 eps h1 h2 => ?_⟩
  · refine Stationary.chain _ fun t ht => ?_
    simp only [List.mem_cons, List.not_mem_nil, or_false] at ht
    rcases ht with rfl | rfl
    · exact stationary_momentum h2 nes
    · exact stationary_lr h1
  · refine Stationary.chain _ fun t ht => ?_
    simp only [List.mem_cons, List.not_mem_nil, or_false] at ht
    rcases ht with rfl | rfl
    · exact stationary_rss h3 h4 h2
    · exact stationary_lr h1
  · refine Stationary.chain _ fun t ht => ?_
    simp only [List.mem_cons, List.not_mem_nil, or_false] at ht
    rcases ht with rfl | rfl | rfl
    · exact stationary_rms h3 h5 h6 h4
    · exact stationary_lr h1
    · exact stationary_momentum h2 nes
  · refine Stationary.chain _ fun t ht => ?_
    simp only [List.mem_cons, List.not_mem_nil, or_false] at ht
    rcases ht with rfl | rfl
    · exact stationary_adam h2
    · exact stationary_lr h1
  · refine Stationary.chain _ fun t ht => ?_
    simp only [List.mem_cons, List.not_mem_nil, or_false] at ht
    rcases ht with rfl | rfl
    · exact stationary_belief h2
    · exact stationary_lr h1

/-- **C89.** `incremental_update` in floating point: step size 1 gives exactly the new tensors (old ones finite), step size 0
exactly the old ones (new ones finite). -/
theorem C89_incremental_update (σ : Spec) (new old : ℕ → ℕ → FP F) :
    ((∀ k i, IsFin (old k i)) → incrementalUpdate (mk σ new) (mk σ old) 1 = .ok (mk σ new)) ∧
    ((∀ k i, IsFin (new k i)) → incrementalUpdate (mk σ new) (mk σ old) 0 = .ok (mk σ old)) := by
  constructor
  · intro h
    simp only [incrementalUpdate, tzip_mk, FP.one_mul, FP.sub_self fin_one, fun k i => FP.zero_mul (h k i), FP.add_zero]
  · intro h
    simp only [incrementalUpdate, tzip_mk, FP.sub_zero, FP.one_mul, fun k i => FP.zero_mul (h k i), FP.zero_add]

/-- **C89.** Without `eps` a zero gradient is not harmless: the first RMSProp update is then NaN. -/
theorem C89_rms_without_eps (d : FP F) (hd : Decay d) (σ : Spec) (p : ℕ → ℕ → FP F) (pp : Option (Params (FP F))) :
    ∃ s0 u s1, (scaleByRms d 0 0).init (mk σ p) = .ok s0 ∧
      (scaleByRms d 0 0).update (mk σ fun _ _ => 0) s0 pp = .ok (mk σ u, s1) ∧ ∀ k i, ¬ IsNum (u k i) := by
  refine ⟨_, _, _, rms_init_mk σ p d 0 0, rms_update_mk σ _ _ pp d 0 0, fun k i => ?_⟩
  rw [ipow_two, FP.mul_zero fin_zero, FP.mul_zero hd.cfin, FP.mul_zero hd.fin, FP.zero_add, FP.zero_add]
  rw [FP.isNum_iff, not_not]
  have e : (JOps.rsqrt (0 : FP F)).1 = .pinf := by
    show F.round (XReal.lift (fun r => if r < 0 then .nan else if r = 0 then .pinf else .fin (F.rsqrt r)) (.fin 0) .nan (0 : FP F).1) = _
    rw [zero_val]
    simp [XReal.lift, Format.round]
  rw [mul_val, e, zero_val]
  show F.round (XReal.infOf 0) = _
  simp [XReal.infOf, Format.round]

/-- the hypotheses on Adam's numbers are met in single precision -/
example : AdamStat (p32 (-1)) (p32 (-1)) (p32 (-26)) 0 where
  d1 := decay_half
  d2 := decay_half
  eps_pos := of_pos_of (p32_rep (by norm_num) (by norm_num)) (by positivity)
  er_nonneg := FP.le_refl num_zero
  bias1 n := by
    rw [p32_half]
    exact lt_of_lt_of_le (of_pos_of Format.float32_half (by norm_num)) (float32_bias_half n)
  bias2 n := by
    rw [p32_half]
    exact lt_of_lt_of_le (of_pos_of Format.float32_half (by norm_num)) (float32_bias_half n)

end Optax
