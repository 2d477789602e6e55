import Verif.Lemmas.Float
import Verif.Lemmas.Counter

/-!
# Single precision numbers, for the examples
-/

namespace Optax
open FP Classical

namespace Format

theorem nearest_rnd_mem {S : Finset ℝ} {T : ℝ} {near : ℝ → ℝ} {hS hnear h0 h1 hneg hT} {s : ℝ} (hs : s ∈ S) :
    (nearest S T near hS hnear h0 h1 hneg hT).rnd s = .fin s := by
  show (if T ≤ s then XReal.pinf else if s ≤ -T then .ninf else .fin (near s)) = .fin s
  have h3 := hT s hs
  have h4 := hT (-s) (hneg s hs)
  have h := hnear s s hs
  rw [_root_.sub_self, abs_zero] at h
  have := abs_nonpos_iff.1 h
  rw [if_neg (by linarith), if_neg (by linarith), show near s = s by linarith]

theorem binary_mem (p : ℕ) (emin emax : ℤ) (hp he he') (m e : ℤ) (hm : |m| < 2 ^ p) (h1 : emin ≤ e) (h2 : e ≤ emax) :
    (binary p emin emax hp he he').rnd ((m : ℝ) * 2 ^ e) = .fin ((m : ℝ) * 2 ^ e) := by
  unfold binary
  exact nearest_rnd_mem (mem_binarySet.2 ⟨m, e, hm, h1, h2, rfl⟩)

theorem binary_overflow (p : ℕ) (emin emax : ℤ) (hp he he') {x : ℝ} (h : ((2 : ℝ) ^ p - 1 / 2) * 2 ^ emax ≤ x) :
    (binary p emin emax hp he he').rnd x = .pinf := if_pos h

/-- a number `m · 2^e` of the format is not rounded -/
theorem float32_mem (m e : ℤ) (hm : |m| < 2 ^ 24) (h1 : -149 ≤ e) (h2 : e ≤ 104) :
    float32.rnd ((m : ℝ) * 2 ^ e) = .fin ((m : ℝ) * 2 ^ e) :=
  binary_mem 24 (-149) 104 _ _ _ m e hm h1 h2

theorem float32_int (m : ℤ) (hm : |m| < 2 ^ 24) : float32.rnd (m : ℝ) = .fin (m : ℝ) := by
  have := float32_mem m 0 hm (by norm_num) (by norm_num)
  rwa [zpow_zero, _root_.mul_one] at this

theorem float32_half : float32.rnd (1 / 2) = .fin (1 / 2) := by
  have := float32_mem 1 (-1) (by norm_num) (by norm_num) (by norm_num)
  norm_num at this ⊢
  exact this

/-- overflow -/
theorem float32_overflow {x : ℝ} (h : 2 ^ 128 ≤ x) : float32.rnd x = .pinf :=
  binary_overflow 24 (-149) 104 _ _ _ (_root_.le_trans (by norm_num) h)

theorem neg_one_mem (p : ℕ) (emin emax : ℤ) (hp : 1 ≤ p) (he : emin ≤ 0) (he' : 0 ≤ emax) : (-1 : ℝ) ∈ binarySet p emin emax :=
  mem_binarySet.2 ⟨-1, 0, by
    rw [abs_neg, abs_one]; exact one_lt_pow₀ (by norm_num) (by omega), he, he', by norm_num⟩

/-- numbers just above -1 are rounded to -1: there is no number of the format between `-1` and `-1 + 2^-24` -/
theorem binary_near_neg_one (p : ℕ) (emin emax : ℤ) (hp he he') (hp24 : p = 24) {x : ℝ} (h1 : -1 ≤ x) (h2 : x < -1 + 2 ^ (-25 : ℤ)) :
    (binary p emin emax hp he he').rnd x = .fin (-1) := by
  have hm1 := neg_one_mem p emin emax hp he he'
  have key : ∀ (near : ℝ → ℝ), (∀ x, near x ∈ binarySet p emin emax) →
      (∀ x, ∀ s ∈ binarySet p emin emax, |x - near x| ≤ |x - s|) → near x = -1 := by
    intro near hS hn
    have h := hn x (-1) hm1
    obtain ⟨m, e, hm, -, -, hv⟩ := mem_binarySet.1 (hS x)
    rw [hp24] at hm
    by_contra hne
    -- the nearest number is within 2^-24 above -1
    rw [show x - -1 = x + 1 by ring, abs_of_nonneg (show (0 : ℝ) ≤ x + 1 by linarith)] at h
    have hlo : near x < -1 + 2 ^ (-24 : ℤ) := by
      have := (abs_le.1 h).1
      have e2 : (2 : ℝ) ^ (-24 : ℤ) = 2 * 2 ^ (-25 : ℤ) := by norm_num
      rw [e2]; linarith
    have hgt : -1 ≤ near x := by
      have := (abs_le.1 h).2
      linarith
    have hgt' : -1 < near x := lt_of_le_of_ne hgt (Ne.symm hne)
    rw [hv] at hlo hgt'
    -- m * 2^e strictly between -1 and -1 + 2^-24 with |m| < 2^24: scale by 2^24
    have hmneg : m < 0 := by
      by_contra hc
      have : (0 : ℝ) ≤ (m : ℝ) * 2 ^ e := by
        have : (0 : ℝ) ≤ m := by exact_mod_cast not_lt.1 hc
        positivity
      norm_num at hlo
      linarith
    have hmR : (m : ℝ) ≤ -1 := by exact_mod_cast (show m ≤ -1 by omega)
    have hmlt : -(2 : ℝ) ^ 24 < m := by
      have := (abs_lt.1 hm).1
      exact_mod_cast this
    by_cases he : e ≤ -24
    · have hle : (2 : ℝ) ^ e ≤ 2 ^ (-24 : ℤ) := zpow_le_zpow_right₀ (by norm_num) he
      have hpos : (0 : ℝ) < 2 ^ e := by positivity
      have hm' : -((2 : ℝ) ^ 24 - 1) ≤ m := by
        have : -(2 ^ 24 - 1) ≤ m := by have := (abs_lt.1 hm).1; omega
        exact_mod_cast this
      have : -((2 : ℝ) ^ 24 - 1) * 2 ^ (-24 : ℤ) ≤ (m : ℝ) * 2 ^ e := by nlinarith
      norm_num at this hlo
      linarith
    · -- e ≥ -23: the number is a multiple of 2^-23
      obtain ⟨k, hk⟩ : ∃ k : ℕ, e = -23 + k := ⟨(e + 23).toNat, by omega⟩
      rw [hk, zpow_add₀ (by norm_num), zpow_natCast] at hlo hgt'
      have hint : (m : ℝ) * (2 ^ (-23 : ℤ) * 2 ^ k) = ((m * 2 ^ k : ℤ) : ℝ) * 2 ^ (-23 : ℤ) := by push_cast; ring
      rw [hint] at hlo hgt'
      have a1 : (-(2 ^ 23) : ℝ) < ((m * 2 ^ k : ℤ) : ℝ) := by
        norm_num at hgt' ⊢
        linarith
      have a2 : ((m * 2 ^ k : ℤ) : ℝ) < (-(2 ^ 23) + 1 : ℝ) := by
        norm_num at hlo ⊢
        linarith
      have b1 : (-(2 ^ 23) : ℤ) < m * 2 ^ k := by exact_mod_cast a1
      have b2 : m * 2 ^ k < (-(2 ^ 23) + 1 : ℤ) := by exact_mod_cast a2
      omega
  have big : (1 : ℝ) < (2 ^ p - 1 / 2) * 2 ^ emax := by
    have a1 : (1 : ℝ) ≤ 2 ^ emax := one_le_zpow₀ (by norm_num) he'
    rw [hp24]
    nlinarith
  show (if _ ≤ x then XReal.pinf else if x ≤ _ then .ninf else .fin _) = _
  rw [if_neg, if_neg]
  · congr 1
    exact key (nearEven p emin emax) (nearEven_mem p emin emax hp he he') (nearEven_le p emin emax hp)
  · have := big; linarith
  · have := big; norm_num at h2; linarith

theorem float32_near_neg_one {x : ℝ} (h1 : -1 ≤ x) (h2 : x < -1 + 2 ^ (-25 : ℤ)) : float32.rnd x = float32.rnd (-1) := by
  rw [float32.rnd_neg 1 float32.rnd_one]
  exact binary_near_neg_one 24 (-149) 104 _ _ _ rfl h1 h2

end Format

namespace FP

/-- arithmetic on exactly representable numbers whose result is rounded -/
theorem of_add_of {F : Format} {a b : ℝ} (ha : F.rnd a = .fin a) (hb : F.rnd b = .fin b) :
    of F (.fin a) + of F (.fin b) = of F (.fin (a + b)) := by
  show of F ((F.rnd a) + (F.rnd b)) = _
  rw [ha, hb, XReal.fin_add]

theorem of_sub_of {F : Format} {a b : ℝ} (ha : F.rnd a = .fin a) (hb : F.rnd b = .fin b) :
    of F (.fin a) - of F (.fin b) = of F (.fin (a - b)) := by
  show of F ((F.rnd a) - (F.rnd b)) = _
  rw [ha, hb, XReal.fin_sub]

theorem of_mul_of {F : Format} {a b : ℝ} (ha : F.rnd a = .fin a) (hb : F.rnd b = .fin b) :
    of F (.fin a) * of F (.fin b) = of F (.fin (a * b)) := by
  show of F ((F.rnd a) * (F.rnd b)) = _
  rw [ha, hb, XReal.fin_mul]

theorem of_div_of {F : Format} {a b : ℝ} (ha : F.rnd a = .fin a) (hb : F.rnd b = .fin b) (h : b ≠ 0) :
    of F (.fin a) / of F (.fin b) = of F (.fin (a / b)) := by
  show of F ((F.rnd a) / (F.rnd b)) = _
  rw [ha, hb, XReal.fin_div a b h]

theorem neg_of {F : Format} {a : ℝ} (ha : F.rnd a = .fin a) : -of F (.fin a) = of F (.fin (-a)) := by
  show of F (-(F.rnd a)) = _
  rw [ha, XReal.fin_neg]

theorem of_fin_of {F : Format} {a : ℝ} (ha : F.rnd a = .fin a) : IsFin (of F (.fin a)) :=
  (isFin_iff _).2 ⟨a, ha⟩

theorem of_pos_of {F : Format} {a : ℝ} (ha : F.rnd a = .fin a) (h : 0 < a) : 0 < of F (.fin a) :=
  (pos_iff _).2 (Or.inr ⟨a, h, ha⟩)

theorem one_eq_of {F : Format} : (1 : FP F) = of F (.fin 1) := rfl
theorem zero_eq_of {F : Format} : (0 : FP F) = of F (.fin 0) := rfl

end FP

/-- step counts from 1 on, in single precision: a number between 1 and `2^31` -/
theorem float32_cnt (n : ℕ) : ∃ r : ℝ, 1 ≤ r ∧ (cnt (cntAt (n + 1)) : FP Format.float32).1 = .fin r := by
  have e : (cnt (cntAt (n + 1)) : FP Format.float32) = of Format.float32 (.fin ((cntAt (n + 1)).toInt : ℝ)) := rfl
  have h1 : (1 : ℝ) ≤ ((cntAt (n + 1)).toInt : ℝ) := by
    rw [cntAt_toInt]; norm_cast; omega
  have h2 : ((cntAt (n + 1)).toInt : ℝ) ≤ 2 ^ 31 := by
    rw [cntAt_toInt]
    have : min ((n + 1 : ℕ) : ℤ) 2147483647 ≤ 2147483647 := min_le_right _ _
    calc ((min ((n + 1 : ℕ) : ℤ) 2147483647 : ℤ) : ℝ) ≤ ((2147483647 : ℤ) : ℝ) := by exact_mod_cast this
      _ ≤ 2 ^ 31 := by norm_num
  have h3 : Format.float32.rnd (2 ^ 31 : ℝ) = .fin (2 ^ 31) := by
    have := Format.float32_mem 1 31 (by norm_num) (by norm_num) (by norm_num)
    rw [Int.cast_one, _root_.one_mul] at this
    exact_mod_cast this
  have a1 : (1 : FP Format.float32) ≤ cnt (cntAt (n + 1)) := by rw [e]; exact of_fin_mono h1
  have a2 : (cnt (cntAt (n + 1)) : FP Format.float32) ≤ of _ (.fin (2 ^ 31)) := by rw [e]; exact of_fin_mono h2
  obtain ⟨r, hr⟩ := (FP.isFin_iff _).1 (fin_between fin_one (of_fin_of h3) a1 a2)
  exact ⟨r, (le_fin one_val hr).1 a1, hr⟩

/-- bias corrections of `b = 1/2` in single precision -/
theorem float32_bias_half (n : ℕ) : of Format.float32 (.fin (1 / 2)) ≤
    1 - JOps.pow (of Format.float32 (.fin (1 / 2))) (cnt (cntAt (n + 1))) := by
  obtain ⟨r, hr, hc⟩ := float32_cnt n
  have hh : (of Format.float32 (.fin (1 / 2))).1 = .fin (1 / 2) := Format.float32_half
  have e : (JOps.pow (of Format.float32 (.fin (1 / 2))) (cnt (cntAt (n + 1))) : FP Format.float32) =
      of Format.float32 (.fin ((1 / 2 : ℝ) ^ r)) := by
    show of _ (match (of Format.float32 (.fin (1 / 2))).1, (cnt (cntAt (n + 1)) : FP Format.float32).1 with
      | .fin x, .fin y => .fin (x ^ y)
      | _, _ => .nan) = _
    rw [hh, hc]
  have h1 : ((1 / 2 : ℝ) ^ r) ≤ 1 / 2 := by
    calc ((1 / 2 : ℝ) ^ r) ≤ (1 / 2 : ℝ) ^ (1 : ℝ) :=
          Real.rpow_le_rpow_of_exponent_ge (by norm_num) (by norm_num) hr
      _ = 1 / 2 := Real.rpow_one _
  have h0 : (0 : ℝ) ≤ (1 / 2 : ℝ) ^ r := by positivity
  rw [e]
  have a1 : (0 : FP Format.float32) ≤ of _ (.fin ((1 / 2 : ℝ) ^ r)) := of_fin_nonneg h0
  have a2 : of Format.float32 (.fin ((1 / 2 : ℝ) ^ r)) ≤ of _ (.fin (1 / 2)) := of_fin_mono h1
  obtain ⟨q, hq⟩ := (FP.isFin_iff _).1 (fin_between fin_zero (of_fin_of Format.float32_half) a1 a2)
  rw [le_fin hq hh] at a2
  show _ ≤ of Format.float32 ((1 : FP Format.float32).1 - _)
  rw [one_val, hq, XReal.fin_sub]
  exact of_fin_mono (by linarith)

end Optax
