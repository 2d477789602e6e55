import Verif.Lemmas.Counter
import Mathlib.Algebra.BigOperators.Intervals

/-!
# C33 (`apply_every`), C37 (params required / ignored), C38 (`scale_by_schedule`)
-/

set_option linter.unusedSectionVars false
set_option linter.unusedSimpArgs false

namespace Optax
open Finset

variable (σ : Spec) (p0 : ℕ → ℕ → ℝ) (g : ℕ → ℕ → ℕ → ℝ) (pp : ℕ → Option (Params ℝ)) (N : ℕ)

/-! ## C33 -/

/-- **C33.** `apply_every(k)` with `1 ≤ k < 2^31`, for every number of calls: call number `n` (from 0) returns the sum of
the gradients of the last `k` calls `n+1-k, …, n` if `k` divides `n+1`, and 0 otherwise. -/
theorem C33_apply_every (k : ℕ) (hk : 1 ≤ k) (hk' : k ≤ 2147483647) :
    (applyEvery (k : ℤ)).outs (mk σ p0) (hist σ g pp N) =
      .ok ((List.range N).map (fun n => mk σ (fun l i =>
        if k ∣ n + 1 then ∑ j ∈ Ico (n + 1 - k) (n + 1), g j l i else 0))) := by
  have hcnt : ∀ n : ℕ, (cntAt (n % k)).toInt = ((n % k : ℕ) : ℤ) := by
    intro n
    have := Nat.mod_lt n (show 0 < k by omega)
    rw [cntAt_toInt, min_eq_left (by omega)]
  have hfm : ∀ n : ℕ, (cntAt (n % k)).toInt.fmod (k : ℤ) = ((n % k : ℕ) : ℤ) := by
    intro n
    rw [hcnt, Int.fmod_eq_emod_of_nonneg _ (by omega)]
    rw [← Int.natCast_mod, Nat.mod_mod]
  refine outs_hist (applyEvery (k : ℤ)) (mk σ p0) σ g pp N
    (fun n => ⟨cntAt (n % k), mk σ (fun l i =>
      if n = 0 then 0 else ∑ j ∈ Ico (n - 1 - (n - 1) % k) n, g j l i)⟩) _ ?_ ?_
  · rw [applyEvery_init_mk]
    simp [cntAt_zero]
  · intro n _
    rw [applyEvery_update_mk]
    simp only [hfm]
    have hlt := Nat.mod_lt n (show 0 < k by omega)
    -- the new accumulator
    have hacc : ∀ l i, (boolNum (((n % k : ℕ) : ℤ) != 0) : ℝ) *
        (if n = 0 then 0 else ∑ j ∈ Ico (n - 1 - (n - 1) % k) n, g j l i) + g n l i =
        ∑ j ∈ Ico (n - n % k) (n + 1), g j l i := by
      intro l i
      rw [Finset.sum_Ico_succ_top (by omega)]
      congr 1
      by_cases hz : n % k = 0
      · simp [hz, boolNum]
      · have hn0 : n ≠ 0 := by rintro rfl; simp at hz
        have h1 : (boolNum (((n % k : ℕ) : ℤ) != 0) : ℝ) = 1 := by
          simp only [boolNum]
          rw [if_pos]
          simp only [bne_iff_ne, ne_eq]
          omega
        rw [h1, one_mul, if_neg hn0]
        have h2 : (n - 1) % k + 1 = n % k := by
          obtain ⟨m, rfl⟩ : ∃ m, n = m + 1 := ⟨n - 1, by omega⟩
          simp only [Nat.add_sub_cancel]
          have hmk := Nat.mod_lt m (show 0 < k by omega)
          have hd := Nat.div_add_mod m k
          by_cases hlast : m % k + 1 = k
          · exfalso; apply hz
            have : m + 1 = k * (m / k + 1) := by rw [mul_add, mul_one]; omega
            rw [this]; exact Nat.mul_mod_right _ _
          · have hsmall : m % k + 1 < k := by omega
            have : m + 1 = (m % k + 1) + k * (m / k) := by omega
            rw [this, Nat.add_mul_mod_self_left, Nat.mod_eq_of_lt hsmall]
        congr 2
        omega
    simp only [hacc]
    have hemit : (((n % k : ℕ) : ℤ) == (k : ℤ) - 1) = decide (k ∣ n + 1) := by
      have : (n % k = k - 1) ↔ k ∣ n + 1 := by
        constructor
        · intro h
          refine ⟨n / k + 1, ?_⟩
          have hd := Nat.div_add_mod n k
          rw [mul_add, mul_one]; omega
        · rintro ⟨c, hc⟩
          cases c with
          | zero => omega
          | succ c =>
            have : n = (k - 1) + k * c := by rw [mul_add, mul_one] at hc; omega
            rw [this, Nat.add_mul_mod_self_left, Nat.mod_eq_of_lt (by omega)]
      rw [Bool.eq_iff_iff]
      simp only [beq_iff_eq, decide_eq_true_eq, ← this]
      omega
    rw [hemit]
    have hcount : BitVec.ofInt 32 ((safeInt32Increment (cntAt (n % k))).toInt.fmod (k : ℤ)) =
        cntAt ((n + 1) % k) := by
      rw [safeInt32Increment_cntAt, cntAt_toInt, min_eq_left (by omega),
        Int.fmod_eq_emod_of_nonneg _ (by omega), ← Int.natCast_mod]
      rw [Nat.mod_add_mod]
      have := Nat.mod_lt (n + 1) (show 0 < k by omega)
      unfold cntAt
      rw [min_eq_left (by omega)]
      exact BitVec.ofInt_natCast _ _
    rw [hcount]
    simp only [Except.ok.injEq, Prod.mk.injEq, ApplyEveryState.mk.injEq, true_and]
    refine ⟨mk_congr ?_, mk_congr ?_⟩
    · intro l _ _ i _
      by_cases hd : k ∣ n + 1
      · have hmod : n % k = k - 1 := by
          have := hemit; simp only [hd, decide_true, beq_iff_eq] at this; omega
        have h3 : n - n % k = n + 1 - k := by
          have := Nat.le_of_dvd (by omega) hd
          omega
        simp [hd, boolNum, h3]
      · simp [hd, boolNum]
    · intro l _ _ i _
      simp

/-- **C33.** After any whole number `m` of periods, the total emitted equals the total of the gradients. -/
theorem C33_total (k m : ℕ) (hk : 1 ≤ k) (x : ℕ → ℝ) :
    ∑ n ∈ range (m * k), (if k ∣ n + 1 then ∑ j ∈ Ico (n + 1 - k) (n + 1), x j else 0) =
      ∑ n ∈ range (m * k), x n := by
  induction m with
  | zero => simp
  | succ m ih =>
    have hle : m * k ≤ (m + 1) * k := Nat.mul_le_mul_right _ (by omega)
    rw [← Finset.sum_range_add_sum_Ico _ hle, ih, ← Finset.sum_range_add_sum_Ico x hle]
    congr 1
    have hlast : (m + 1) * k = ((m + 1) * k - 1) + 1 := by
      have : 0 < (m + 1) * k := by positivity
      omega
    rw [hlast, Finset.sum_Ico_succ_top (by rw [add_mul, one_mul]; omega)]
    have hz : ∑ n ∈ Ico (m * k) ((m + 1) * k - 1),
        (if k ∣ n + 1 then ∑ j ∈ Ico (n + 1 - k) (n + 1), x j else 0) = 0 := by
      apply Finset.sum_eq_zero
      intro n hn
      rw [Finset.mem_Ico] at hn
      rw [if_neg]
      rintro ⟨c, hc⟩
      have h1 : m * k < k * c := by omega
      have h2 : k * c < (m + 1) * k := by omega
      rw [mul_comm k c] at h1 h2
      have h3 := Nat.lt_of_mul_lt_mul_right h1
      have h4 := Nat.lt_of_mul_lt_mul_right h2
      omega
    rw [hz, zero_add, ← hlast, if_pos (Dvd.intro_left _ rfl)]
    congr 1
    rw [add_mul, one_mul]; simp

/-- **C33.** `k = 1` is the identity. -/
theorem C33_one : (applyEvery 1).outs (mk σ p0) (hist σ g pp N) =
    .ok ((List.range N).map (fun n => mk σ (g n))) := by
  have h := C33_apply_every σ p0 g pp N 1 le_rfl (by norm_num)
  simp only [Nat.cast_one] at h
  rw [h]
  simp

/-- Finding: the accumulator is cleared by multiplying with 0, so an infinite gradient of an earlier period
turns all later outputs into NaN (`apply_every(1)`, gradients `∞, 1`). -/
theorem C33_inf_leaks :
    ∃ s1 s2 u1, (applyEvery 1).init (mk (.leaf [1]) (fun _ _ => XReal.fin 0)) = .ok s1 ∧
      (applyEvery 1).update (mk (.leaf [1]) (fun _ _ => XReal.pinf)) s1 none = .ok (u1, s2) ∧
      ∃ s3, (applyEvery 1).update (mk (.leaf [1]) (fun _ _ => XReal.fin 1)) s2 none =
        .ok (mk (.leaf [1]) (fun _ _ => XReal.nan), s3) := by
  refine ⟨_, _, _, applyEvery_init_mk _ _ 1, applyEvery_update_mk _ _ _ none 1 _, ?_⟩
  rw [applyEvery_update_mk]
  have h0 : (0#32).toInt.fmod 1 = 0 := by decide
  have h1 : (BitVec.ofInt 32 ((safeInt32Increment 0#32).toInt.fmod 1)).toInt.fmod 1 = 0 := by decide
  have e1 : (boolNum (0 == (1:ℤ) - 1) : XReal) = .fin 1 := by simp [boolNum]
  have e0 : (boolNum ((0:ℤ) != 0) : XReal) = .fin 0 := by simp [boolNum]
  have e2 : XReal.fin 0 * XReal.pinf = .nan := by
    show XReal.infOf 0 = _
    simp [XReal.infOf]
  have e3 : XReal.fin 0 * (0 : XReal) + XReal.pinf = .pinf := by
    show XReal.fin (0 * 0) + XReal.pinf = _; rfl
  simp only [h0, h1, e1, e0, e3, e2, XReal.nan_add, XReal.mul_nan]
  exact ⟨_, rfl⟩

example : (1 : ℕ) ≤ 4 ∧ 4 ≤ 2147483647 ∧ 4 ∣ 7 + 1 := by decide

/-! ## C37 -/

section
variable {α : Type} [Zero α] [One α] [Add α] [Sub α] [Mul α] [Div α] [Neg α] [JOps α]

/-- `update` never looks at params. -/
def IgnoresParams (t : GT α) : Prop := ∀ g s pp pp', t.update g s pp = t.update g s pp'
/-- `update` without params raises ValueError. -/
def RequiresParams (t : GT α) : Prop := ∀ g s, t.update g s none = .error .value

/-- **C37.** Without params: ValueError, for every gradient and state. -/
theorem C37_required (w mn cl eps : α) :
    RequiresParams (addDecayedWeights w) ∧ RequiresParams (scaleByTrustRatio mn) ∧
    RequiresParams (keepParamsNonnegative (α := α)) ∧ RequiresParams (adaptiveGradClip cl eps) :=
  ⟨fun _ _ => rfl, fun _ _ => rfl, fun _ _ => rfl, fun _ _ => rfl⟩

/-- **C37.** The other transformations ignore params. -/
theorem C37_ignored (a b c d e : α) (nes deb : Bool) (acc : Option (α → α)) (f : Schedule α) (k : ℤ)
    (nrm : Normal α) :
    IgnoresParams (identity (α := α)) ∧ IgnoresParams (trace a nes acc) ∧ IgnoresParams (ema a deb acc) ∧
    IgnoresParams (scaleByRss a b) ∧ IgnoresParams (scaleByRms a b c) ∧
    IgnoresParams (scaleByStddev a b c) ∧ IgnoresParams (scaleByAdam a b c d) ∧
    IgnoresParams (scaleByBelief a b c d) ∧ IgnoresParams (scaleByYogi a b c d e) ∧
    IgnoresParams (scaleByRadam a b c d e) ∧ IgnoresParams (scale a) ∧
    IgnoresParams (scaleBySchedule f) ∧ IgnoresParams (applyEvery (α := α) k) ∧
    IgnoresParams (centralize (α := α)) ∧ IgnoresParams (clip a) ∧ IgnoresParams (clipByGlobalNorm a) ∧
    IgnoresParams (zeroNans (α := α)) ∧ IgnoresParams (addNoise nrm a b k) ∧
    IgnoresParams (scaleBySM3 a b c) := by
  refine ⟨?_, ?_, ?_, ?_, ?_, ?_, ?_, ?_, ?_, ?_, ?_, ?_, ?_, ?_, ?_, ?_, ?_, ?_, ?_⟩ <;>
    intro _ _ _ _ <;> rfl

theorem chainLoop_ignores (ts : List (GT α)) (h : ∀ t ∈ ts, IgnoresParams t) :
    ∀ g s pp pp', chainLoop ts g s pp = chainLoop ts g s pp' := by
  induction ts with
  | nil => intro g s pp pp'; rfl
  | cons t ts ih =>
    intro g s pp pp'
    cases s with
    | none => rfl
    | some ar =>
      obtain ⟨a, r⟩ := ar
      simp only [chainLoop]
      rw [h t (by simp) g a pp pp']
      congr 1
      funext x
      rw [ih (fun t ht => h t (by simp [ht])) x.1 r pp pp']

/-- **C37.** Chains of transformations that ignore params ignore params. -/
theorem C37_chain_ignored (ts : List (GT α)) (h : ∀ t ∈ ts, IgnoresParams t) :
    IgnoresParams (chain ts) := by
  intro g s pp pp'
  show (if _ then valueError else chainLoop ts g s pp) = if _ then valueError else chainLoop ts g s pp'
  rw [chainLoop_ignores ts h g s pp pp']

/-- **C37.** A chain containing a transformation that requires params fails without them, whatever comes
before or after it: it raises ValueError provided the preceding transformations succeed. -/
theorem C37_chain_required (ts us : List (GT α)) (t : GT α) (ht : RequiresParams t) (g : Params α)
    (s : ChainState (ts ++ t :: us)) :
    ∀ u s', (chain (ts ++ t :: us)).update g s none ≠ .ok (u, s') := by
  intro u s' h
  have hl : ¬ ChainState.length (ts ++ t :: us) s ≠ (ts ++ t :: us).length := by
    intro hne
    have : (chain (ts ++ t :: us)).update g s none = valueError := by
      show (if _ then valueError else _) = _
      rw [if_pos hne]
    rw [this] at h
    cases h
  have h' : chainLoop (ts ++ t :: us) g s none = .ok (u, s') := by
    have e : (chain (ts ++ t :: us)).update g s none = chainLoop (ts ++ t :: us) g s none := by
      show (if _ then valueError else _) = _
      rw [if_neg hl]
    rw [← e, h]
  push Not at hl
  clear h
  induction ts generalizing g u with
  | nil =>
    cases s with
    | none => simp [ChainState.length] at hl
    | some ar =>
      obtain ⟨a, r⟩ := ar
      simp only [List.nil_append, chainLoop, ht g a, Res.error_bind] at h'
      cases h'
  | cons x ts ih =>
    cases s with
    | none => simp [ChainState.length] at hl
    | some ar =>
      obtain ⟨a, r⟩ := ar
      simp only [List.cons_append, chainLoop, Res.bind_eq_ok] at h'
      obtain ⟨b, _, c, hc, h2⟩ := h'
      simp only [List.cons_append, ChainState.length, List.length_cons] at hl
      exact ih b.1 r c.1 c.2 hc (by omega)

/-! ## C38 -/

/-- **C38.** Call number `n` (from 0) multiplies by the schedule at `min(n, 2^31-1)`, for every arithmetic, schedule and
number of calls. -/
theorem C38_scale_by_schedule (f : Schedule α) (σ : Spec) (p0 : Params α) (g : ℕ → ℕ → ℕ → α)
    (pp : ℕ → Option (Params α)) (N : ℕ) :
    (scaleBySchedule f).exec p0 (hist σ g pp N) =
      .ok ((List.range N).map (fun n : ℕ => mk σ (fun k i => f (min (n : ℤ) 2147483647) * g n k i)),
        ⟨cntAt N⟩) := by
  refine exec_hist (scaleBySchedule f) p0 σ g pp N (fun n => ⟨cntAt n⟩) _ ?_ ?_
  · rfl
  · intro n _
    rw [scaleBySchedule_update_mk, cntAt_toInt, safeInt32Increment_cntAt]

end
end Optax
