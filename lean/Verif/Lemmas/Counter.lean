import Verif.Lemmas.Steps

/-! Saturating int32 counters. -/

set_option linter.unusedSectionVars false
set_option linter.unusedSimpArgs false

namespace Optax

/-- The int32 counter after `n` saturating increments from 0. -/
def cntAt (n : ℕ) : BitVec 32 := BitVec.ofNat 32 (min n 2147483647)

theorem cntAt_toNat (n : ℕ) : (cntAt n).toNat = min n 2147483647 := by
  simp only [cntAt, BitVec.toNat_ofNat]
  apply Nat.mod_eq_of_lt
  omega

theorem cntAt_toInt (n : ℕ) : (cntAt n).toInt = min (n : ℤ) 2147483647 := by
  rw [BitVec.toInt_eq_toNat_of_lt]
  · rw [cntAt_toNat]; omega
  · rw [cntAt_toNat]; omega

theorem cntAt_zero : cntAt 0 = 0#32 := rfl

theorem safeInt32Increment_toInt (c : BitVec 32) (h : 0 ≤ c.toInt) :
    (safeInt32Increment c).toInt = min (c.toInt + 1) 2147483647 := by
  have hm : maxInt32.toInt = 2147483647 := by decide
  unfold safeInt32Increment
  have hlt := BitVec.toInt_lt (x := c)
  by_cases hc : c.slt maxInt32
  · rw [if_pos hc]
    rw [BitVec.slt_iff_toInt_lt, hm] at hc
    rw [BitVec.toInt_add]
    have : (1#32).toInt = 1 := by decide
    rw [this, Int.bmod_def]
    split <;> omega
  · rw [if_neg hc, hm]
    rw [BitVec.slt_iff_toInt_lt, hm] at hc
    omega

theorem safeInt32Increment_cntAt (n : ℕ) : safeInt32Increment (cntAt n) = cntAt (n + 1) := by
  apply BitVec.eq_of_toInt_eq
  rw [safeInt32Increment_toInt _ (by rw [cntAt_toInt]; omega), cntAt_toInt, cntAt_toInt]
  push_cast
  omega

theorem cnt_cntAt' (n : ℕ) : (cnt (cntAt n) : ℝ) = ((min n 2147483647 : ℕ) : ℝ) := by
  simp only [cnt, jofInt_real, cntAt_toInt]
  push_cast
  rfl

theorem cnt_cntAt (n : ℕ) (h : n ≤ 2147483647) : (cnt (cntAt n) : ℝ) = n := by
  simp only [cnt, jofInt_real, cntAt_toInt]
  rw [min_eq_left (by omega)]
  simp

/-- A counter that starts at 0 and is advanced by `safe_int32_increment` holds `cntAt` of the number of
calls. -/
theorem count_of_exec {α : Type} (t : GT α) (c : t.State → BitVec 32)
    (h0 : ∀ p s, t.init p = .ok s → c s = 0#32)
    (hs : ∀ g s p u s', t.update g s p = .ok (u, s') → c s' = safeInt32Increment (c s))
    (p : Params α) (h : List (Call α)) (us : List (Params α)) (s : t.State)
    (he : t.exec p h = .ok (us, s)) : c s = cntAt h.length := by
  unfold GT.exec at he
  rw [Res.bind_eq_ok] at he
  obtain ⟨s0, hi, hr⟩ := he
  have key : ∀ (h : List (Call α)) (n : ℕ) (s0 : t.State) (us : List (Params α)),
      c s0 = cntAt n → t.run s0 h = .ok (us, s) → c s = cntAt (n + h.length) := by
    intro h
    induction h with
    | nil => intro n s0 us hc hr; simp at hr; rw [← hr.2]; simpa using hc
    | cons x h ih =>
      intro n s0 us hc hr
      rw [GT.run_cons, Res.bind_eq_ok] at hr
      obtain ⟨r, h1, hr⟩ := hr
      rw [Res.bind_eq_ok] at hr
      obtain ⟨rs, h2, hr⟩ := hr
      simp only [Except.ok.injEq, Prod.mk.injEq] at hr
      have h3 := hs x.1 s0 x.2 r.1 r.2 h1
      rw [hc, safeInt32Increment_cntAt] at h3
      have := ih (n + 1) r.2 rs.1 h3 (by rw [h2, ← hr.2])
      rw [this, List.length_cons]
      congr 1; omega
  have := key h 0 s0 us (by rw [h0 p s0 hi, cntAt_zero]) hr
  simpa using this

end Optax
