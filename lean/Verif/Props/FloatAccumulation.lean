import Verif.Props.MultiStepsFaults
import Verif.Props.FloatMoments
import Verif.Props.ApplyEvery

/-!
# C146: gradient accumulation in floating point
-/

set_option linter.unusedSectionVars false
set_option linter.unusedSimpArgs false

namespace Optax
open FP Classical Finset
variable {F : Format}

/-- summing `m` numbers one after another, with rounding -/
theorem accSum_err {u η M : ℝ} (hF : ErrModel F u η M) (hu : 0 ≤ u) (hη : 0 ≤ η) (g : ℕ → FP F) (x : ℕ → ℝ) (a m : ℕ)
    (hg : ∀ n, a ≤ n → n < a + m → (g n).1 = .fin (x n)) (hM : (1 + u) ^ m * (∑ j ∈ range m, |x (a + j)| + m * η) ≤ M) :
    ∃ v, (accSum g a m).1 = .fin v ∧
      |v - ∑ j ∈ range m, x (a + j)| ≤ (1 + u) ^ m * (∑ j ∈ range m, |x (a + j)| + m * η) - ∑ j ∈ range m, |x (a + j)| := by
  induction m with
  | zero => exact ⟨0, zero_val, by simp⟩
  | succ m ih =>
    have h1 : 1 ≤ (1 + u) ^ m := one_le_pow₀ (by linarith)
    have hS : 0 ≤ ∑ j ∈ range m, |x (a + j)| := Finset.sum_nonneg fun _ _ => abs_nonneg _
    have hX : |∑ j ∈ range m, x (a + j)| ≤ ∑ j ∈ range m, |x (a + j)| := Finset.abs_sum_le_sum_abs _ _
    simp only [Finset.sum_range_succ] at hM ⊢
    set S := ∑ j ∈ range m, |x (a + j)|
    set X := ∑ j ∈ range m, x (a + j)
    set c := (1 + u) ^ m with hc
    have hx0 := abs_nonneg (x (a + m))
    have hm0 : (0 : ℝ) ≤ m := Nat.cast_nonneg m
    rw [pow_succ, ← hc] at hM ⊢
    push_cast at hM ⊢
    have hmη : 0 ≤ (m : ℝ) * η := by positivity
    have hcu : 0 ≤ c * u := by positivity
    have hcη : η ≤ c * η := by nlinarith
    have hcx : |x (a + m)| ≤ c * |x (a + m)| := by nlinarith
    have big : c * (S + m * η) + c * (|x (a + m)| + η) ≤ M := by
      have h2 : 0 ≤ c * u * (S + m * η + |x (a + m)| + η) := by positivity
      nlinarith
    obtain ⟨v, hv, he⟩ := ih (fun n h h' => hg n h (by omega)) (by nlinarith)
    have hav : |v| ≤ c * (S + m * η) := by
      have := abs_sub_abs_le_abs_sub v X
      linarith
    have haw : |x (a + m) + v| ≤ c * (S + m * η) + |x (a + m)| := (abs_add_le _ _).trans (by linarith)
    obtain ⟨w, hw, hwe⟩ := hF (x (a + m) + v) (by linarith)
    refine ⟨w, ?_, ?_⟩
    · show (g (a + m) + accSum g a m).1 = _
      rw [add_val, hg (a + m) (by omega) (by omega), hv, XReal.fin_add]
      exact hw
    · have e : w - (X + x (a + m)) = (w - (x (a + m) + v)) + (v - X) := by ring
      rw [e]
      refine (abs_add_le _ _).trans ?_
      have h3 : u * |x (a + m) + v| ≤ u * (c * (S + m * η) + |x (a + m)|) := mul_le_mul_of_nonneg_left haw hu
      have h4 : u * |x (a + m)| ≤ c * u * |x (a + m)| := by nlinarith [mul_nonneg hu hx0]
      have h5 : 0 ≤ c * u * η := by positivity
      nlinarith

/-- `(1+u)^k ≤ 1 + 2ku` -/
theorem pow_one_add_two_le {u : ℝ} (hu : 0 ≤ u) (k : ℕ) (hk : k * u ≤ 1 / 2) : (1 + u) ^ k ≤ 1 + 2 * (k * u) := by
  rcases Nat.eq_zero_or_pos k with rfl | hpos
  · simp
  have hk1 : (1 : ℝ) ≤ k := by exact_mod_cast hpos
  have hu1 : u ≤ 1 / 2 := by nlinarith
  have hb := one_add_mul_le_pow (show (-2 : ℝ) ≤ -u by linarith) k
  have h1 : (1 + u) ^ k * (1 + -u) ^ k ≤ 1 := by
    rw [← mul_pow]
    exact pow_le_one₀ (by nlinarith) (by nlinarith)
  have hp : 0 < (1 + u) ^ k := by positivity
  have h2 : (1 + u) ^ k * (1 + k * -u) ≤ 1 := (mul_le_mul_of_nonneg_left hb hp.le).trans h1
  set y := (k : ℝ) * u with hy
  have h3 : (1 + u) ^ k * (1 - y) ≤ 1 := by
    have : (k : ℝ) * -u = -y := by rw [hy]; ring
    rw [this] at h2
    linarith
  have hy0 : 0 ≤ y := by positivity
  have h4 : 1 ≤ (1 + 2 * y) * (1 - y) := by nlinarith
  exact le_of_mul_le_mul_right (h3.trans h4) (by linarith)

/-- the sum of the values of a group, its error in terms of the average magnitude -/
theorem accSum_err' {u η M : ℝ} (hF : ErrModel F u η M) (hu : 0 ≤ u) (hη : 0 ≤ η) (g : ℕ → FP F) (x : ℕ → ℝ) (a m : ℕ)
    (hg : ∀ n, a ≤ n → n < a + m → (g n).1 = .fin (x n)) (hmu : m * u ≤ 1 / 2) (hM : 2 * (∑ j ∈ range m, |x (a + j)| + m * η) ≤ M) :
    ∃ v, (accSum g a m).1 = .fin v ∧
      |v - ∑ j ∈ range m, x (a + j)| ≤ 2 * (m * u) * ∑ j ∈ range m, |x (a + j)| + 2 * (m * η) := by
  have hS : 0 ≤ ∑ j ∈ range m, |x (a + j)| := Finset.sum_nonneg fun _ _ => abs_nonneg _
  have hc := pow_one_add_two_le hu m hmu
  have hmη : 0 ≤ (m : ℝ) * η := by positivity
  have h0 : 0 ≤ ∑ j ∈ range m, |x (a + j)| + m * η := by linarith
  have h1 := mul_le_mul_of_nonneg_right hc h0
  have h2 : (m : ℝ) * u * (m * η) ≤ 1 / 2 * (m * η) := mul_le_mul_of_nonneg_right hmu hmη
  have h3 : (m : ℝ) * u * (∑ j ∈ range m, |x (a + j)| + m * η) ≤ 1 / 2 * (∑ j ∈ range m, |x (a + j)| + m * η) :=
    mul_le_mul_of_nonneg_right hmu h0
  obtain ⟨v, hv, he⟩ := accSum_err hF hu hη g x a m hg (by nlinarith)
  exact ⟨v, hv, he.trans (by nlinarith)⟩

/-- the average of the values of a group -/
theorem accMean_err {u η M : ℝ} (hF : ErrModel F u η M) (hu : 0 ≤ u) (hu8 : u ≤ 1 / 8) (hη : 0 ≤ η) (hηu : η ≤ u) (g : ℕ → FP F) (x : ℕ → ℝ) (a m : ℕ) (hm : 1 ≤ m)
    (hg : ∀ n, a ≤ n → n < a + m → (g n).1 = .fin (x n)) (hmu : m * u ≤ 1 / 2) (hmM : (m : ℝ) ≤ M) (hM : 3 * (∑ j ∈ range m, |x (a + j)| + m * η) ≤ M) :
    ∃ v, (accSum g a m / JOps.ofInt ((m : ℕ) : ℤ)).1 = .fin v ∧
      |v - (∑ j ∈ range m, x (a + j)) / m| ≤ 8 * (m * u) * ((∑ j ∈ range m, |x (a + j)|) / m) + 4 * η := by
  have hS : 0 ≤ ∑ j ∈ range m, |x (a + j)| := Finset.sum_nonneg fun _ _ => abs_nonneg _
  have hX : |∑ j ∈ range m, x (a + j)| ≤ ∑ j ∈ range m, |x (a + j)| := Finset.abs_sum_le_sum_abs _ _
  have hm1 : (1 : ℝ) ≤ m := by exact_mod_cast hm
  have hmη : 0 ≤ (m : ℝ) * η := by positivity
  obtain ⟨v, hv, he⟩ := accSum_err' hF hu hη g x a m hg hmu (by linarith)
  set S := ∑ j ∈ range m, |x (a + j)|
  set X := ∑ j ∈ range m, x (a + j)
  obtain ⟨kv, hkv, hke⟩ := hF (m : ℝ) (by rw [abs_of_nonneg (by linarith)]; exact hmM)
  rw [abs_of_nonneg (by linarith : (0 : ℝ) ≤ m)] at hke
  have hum : η ≤ u * m := by nlinarith
  have hke' : |kv - m| ≤ 2 * (u * m) := by linarith
  have hum4 : 2 * (u * m) ≤ m / 4 := by nlinarith
  have hkpos : 3 / 4 * (m : ℝ) ≤ kv := by have := (abs_le.1 hke').1; linarith
  have hkp : 0 < kv := by linarith
  have hmp : (0 : ℝ) < m := by linarith
  have hof : (JOps.ofInt ((m : ℕ) : ℤ) : FP F).1 = .fin kv := by
    show F.rnd (((m : ℕ) : ℤ) : ℝ) = _
    rw [Int.cast_natCast]; exact hkv
  have hs : S = S / m * m := by field_simp
  have hx : X = X / m * m := by field_simp
  set s := S / (m : ℝ) with hsd
  set y := X / (m : ℝ) with hyd
  have hs0 : 0 ≤ s := div_nonneg hS hmp.le
  have hys : |y| ≤ s := by
    rw [hyd, abs_div, abs_of_pos hmp]; exact div_le_div_of_nonneg_right hX hmp.le
  -- the exact quotient of the rounded numbers
  have hq : |v / kv - y| ≤ 4 / 3 * (2 * (m * u) * s + 2 * η) + 8 / 3 * u * s := by
    have e1 : v / kv - y = ((v - X) + y * (m - kv)) / kv := by
      rw [hx]; field_simp; ring
    rw [e1, abs_div, abs_of_pos hkp, div_le_iff₀ hkp]
    have h1 : |y * (m - kv)| ≤ s * (2 * (u * m)) := by
      rw [abs_mul, abs_sub_comm (m : ℝ) kv]
      exact mul_le_mul hys hke' (abs_nonneg _) hs0
    have h2 : 0 ≤ 4 / 3 * (2 * (m * u) * s + 2 * η) + 8 / 3 * u * s := by positivity
    have h3 := mul_le_mul_of_nonneg_left hkpos h2
    refine (abs_add_le _ _).trans (le_trans ?_ h3)
    rw [hs] at he
    nlinarith
  have hus : (m : ℝ) * u * s ≤ 1 / 2 * s := mul_le_mul_of_nonneg_right hmu hs0
  have hus8 : u * s ≤ 1 / 8 * s := mul_le_mul_of_nonneg_right hu8 hs0
  have hus0 : 0 ≤ u * s := by positivity
  have husm : u * s ≤ m * u * s := by nlinarith
  have hqa : |v / kv| ≤ 8 / 3 * s + 8 / 3 * η := by
    have := abs_sub_abs_le_abs_sub (v / kv) y
    linarith
  have hsM : 3 * (s * m + m * η) ≤ M := by rw [← hs]; exact hM
  obtain ⟨r, hr, hre⟩ := hF (v / kv) (by
    have : s ≤ s * m := by nlinarith
    have : η ≤ m * η := by nlinarith
    linarith)
  refine ⟨r, ?_, ?_⟩
  · rw [div_val, hv, hof]
    show F.round (XReal.fin v / XReal.fin kv) = _
    rw [XReal.fin_div _ _ hkp.ne']
    exact hr
  · have e2 : r - y = (r - v / kv) + (v / kv - y) := by ring
    rw [e2]
    refine (abs_add_le _ _).trans ?_
    have h4 : u * |v / kv| ≤ u * (8 / 3 * s + 8 / 3 * η) := mul_le_mul_of_nonneg_left hqa hu
    have h5 : u * η ≤ 1 / 8 * η := mul_le_mul_of_nonneg_right hu8 hη
    nlinarith

theorem add_comm_fp (a b : FP F) : a + b = b + a := by
  apply FP.ext
  rw [add_val, add_val, XReal.add_comm']

theorem groupSum_range (k : ℕ → ℕ) (f : ℕ → ℝ) (j : ℕ) : ∑ n ∈ Ico (groupStart k j) (groupStart k (j + 1)), f n = ∑ i ∈ range (k j), f (groupStart k j + i) := by
  rw [Finset.sum_Ico_eq_sum_range]
  congr 1
  rw [groupStart_succ, Nat.add_sub_cancel_left]

/-- **C146 (`MultiSteps`).** In floating point with unit roundoff `u` and underflow `η`, for gradients that are finite numbers (`x` in the reals) and groups of at most `1/(2u)` calls whose
gradients do not come near overflow: the wrapped optimiser receives, for each group, finite gradients, within `8ku` times the average magnitude of the gradients of the group, plus `4η`, of the exact
average (within `2ku` times the sum of the magnitudes, plus `2kη`, of the exact sum, if sums are asked for); the rest is as in exact arithmetic. -/
theorem C146_multi_steps {u η M : ℝ} (hF : ErrModel F u η M) (hu : 0 ≤ u) (hu8 : u ≤ 1 / 8) (hη : 0 ≤ η) (hηu : η ≤ u) (opt : GT (FP F)) (everyK : ℤ → ℤ) (mean : Bool)
    (σ : Spec) (p0 : ℕ → ℕ → FP F) (g : ℕ → ℕ → ℕ → FP F) (x : ℕ → ℕ → ℕ → ℝ) (pp : ℕ → Option (Params (FP F))) (hg : ∀ n, Reads σ (g n) (x n))
    (k : ℕ → ℕ) (hk : ∀ j, 1 ≤ k j) (hK : ∀ j : ℕ, everyK j = k j) (hku : ∀ j, k j * u ≤ 1 / 2) (hkM : ∀ j, (k j : ℝ) ≤ M)
    (hM : ∀ j, ∀ y ∈ idx σ, 3 * (∑ n ∈ Ico (groupStart k j) (groupStart k (j + 1)), |x n y.1 y.2| + k j * η) ≤ M)
    (N : ℕ) (hN : N < 2 ^ 31) (us : List (Params (FP F))) (s : (multiSteps opt everyK mean).State)
    (hrun : (multiSteps opt everyK mean).exec (mk σ p0) (hist σ g pp N) = .ok (us, s)) :
    ∃ J vs, ∃ γ : ℕ → ℕ → ℕ → FP F, ∃ z : ℕ → ℕ → ℕ → ℝ, groupStart k J ≤ N ∧ N < groupStart k (J + 1) ∧
      opt.exec (mk σ p0) (hist σ γ (fun _ => none) J) = .ok (vs, s.innerOptState) ∧
      us.length = N ∧
      (∀ n < N, ∀ j, n + 1 = groupStart k (j + 1) → us[n]? = vs[j]?) ∧
      (∀ n < N, (∀ j, n + 1 ≠ groupStart k (j + 1)) → us[n]? = some (mk σ (fun _ _ => 0))) ∧
      (∀ j, Reads σ (γ j) (z j)) ∧
      ∀ j, ∀ y ∈ idx σ, |z j y.1 y.2 - groupGrad k mean x j y.1 y.2| ≤
        if mean then 8 * (k j * u) * ((∑ n ∈ Ico (groupStart k j) (groupStart k (j + 1)), |x n y.1 y.2|) / k j) + 4 * η
        else 2 * (k j * u) * (∑ n ∈ Ico (groupStart k j) (groupStart k (j + 1)), |x n y.1 y.2|) + 2 * (k j * η) := by
  obtain ⟨J, vs, h1, h2, h3, h4, h5, h6, -⟩ := C15_any_arithmetic opt everyK mean σ p0 g pp k hk hK N hN us s hrun
  have key : ∀ j, ∀ y : Σ _ : ℕ, ℕ, ∃ v : ℝ, y ∈ idx σ → (groupAcc k mean g j y.1 y.2).1 = .fin v ∧ |v - groupGrad k mean x j y.1 y.2| ≤
        if mean then 8 * (k j * u) * ((∑ n ∈ Ico (groupStart k j) (groupStart k (j + 1)), |x n y.1 y.2|) / k j) + 4 * η
        else 2 * (k j * u) * (∑ n ∈ Ico (groupStart k j) (groupStart k (j + 1)), |x n y.1 y.2|) + 2 * (k j * η) := by
    intro j y
    by_cases hy : y ∈ idx σ
    · have hM' := hM j y hy
      unfold groupAcc groupGrad
      rw [groupSum_range k (fun n => x n y.1 y.2), groupSum_range k (fun n => |x n y.1 y.2|)]
      rw [groupSum_range k (fun n => |x n y.1 y.2|)] at hM'
      have hm : (0 : ℝ) ≤ ∑ i ∈ range (k j), |x (groupStart k j + i) y.1 y.2| := Finset.sum_nonneg fun _ _ => abs_nonneg _
      have hkη : (0 : ℝ) ≤ k j * η := by positivity
      cases mean
      · obtain ⟨v, hv, he⟩ := accSum_err' hF hu hη (fun n => g n y.1 y.2) (fun n => x n y.1 y.2) (groupStart k j) (k j) (fun n _ _ => hg n y hy) (hku j) (by linarith)
        exact ⟨v, fun _ => ⟨hv, he⟩⟩
      · obtain ⟨v, hv, he⟩ := accMean_err hF hu hu8 hη hηu (fun n => g n y.1 y.2) (fun n => x n y.1 y.2) (groupStart k j) (k j) (hk j) (fun n _ _ => hg n y hy) (hku j) (hkM j) hM'
        exact ⟨v, fun _ => ⟨hv, he⟩⟩
    · exact ⟨0, fun h => absurd h hy⟩
  choose z hz using key
  exact ⟨J, vs, groupAcc k mean g, fun j l i => z j ⟨l, i⟩, h1, h2, h3, h4, h5, h6, fun j y hy => (hz j y hy).1, fun j y hy => (hz j y hy).2⟩

/-- **C146 (`apply_every`).** The same for `apply_every(k)`: on every `k`-th call a sum of the last `k` gradients that is off by at most `2ku` times the sum of their magnitudes, plus `2kη`, and exact zeros otherwise. -/
theorem C146_apply_every {u η M B : ℝ} (hF : ErrModel F u η M) (hu : 0 ≤ u) (hη : 0 ≤ η) (σ : Spec) (p0 : ℕ → ℕ → FP F) (g : ℕ → ℕ → ℕ → FP F) (x : ℕ → ℕ → ℕ → ℝ)
    (pp : ℕ → Option (Params (FP F))) (hg : ∀ n, Reads σ (g n) (x n)) (hB : ∀ n, ∀ y ∈ idx σ, |x n y.1 y.2| ≤ B) (k : ℕ) (hk : 1 ≤ k) (hk' : k ≤ 2147483647)
    (hku : k * u ≤ 1 / 2) (hM : 2 * (k * (B + η)) ≤ M) (N : ℕ) :
    ∃ γ : ℕ → ℕ → ℕ → FP F, ∃ z : ℕ → ℕ → ℕ → ℝ,
      (applyEvery (k : ℤ)).outs (mk σ p0) (hist σ g pp N) = .ok ((List.range N).map (fun n => mk σ (fun l i => if k ∣ n + 1 then γ n l i else 0))) ∧
      (∀ n, Reads σ (γ n) (z n)) ∧ ∀ n, k ∣ n + 1 → ∀ y ∈ idx σ,
        |z n y.1 y.2 - ∑ j ∈ Ico (n + 1 - k) (n + 1), x j y.1 y.2| ≤ 2 * (k * u) * (∑ j ∈ Ico (n + 1 - k) (n + 1), |x j y.1 y.2|) + 2 * (k * η) := by
  -- the accumulator after the call number `n`
  set acc : ℕ → ℕ → ℕ → FP F := fun n l i => accSum (fun m => g m l i) (n - n % k) (n % k + 1) with hacc
  have key : ∀ n, ∀ y : Σ _ : ℕ, ℕ, ∃ v : ℝ, y ∈ idx σ → (acc n y.1 y.2).1 = .fin v ∧ (k ∣ n + 1 →
        |v - ∑ j ∈ Ico (n + 1 - k) (n + 1), x j y.1 y.2| ≤ 2 * (k * u) * (∑ j ∈ Ico (n + 1 - k) (n + 1), |x j y.1 y.2|) + 2 * (k * η)) := by
    intro n y
    by_cases hy : y ∈ idx σ
    · have hlt := Nat.mod_lt n (show 0 < k by omega)
      have hle : ((n % k + 1 : ℕ) : ℝ) ≤ k := by exact_mod_cast hlt
      have hB0 : 0 ≤ B := (abs_nonneg _).trans (hB 0 y hy)
      obtain ⟨v, hv, he⟩ := accSum_err' hF hu hη (fun m => g m y.1 y.2) (fun m => x m y.1 y.2) (n - n % k) (n % k + 1) (fun m _ _ => hg m y hy)
        ((mul_le_mul_of_nonneg_right hle hu).trans hku) (by
          have h1 : ∑ j ∈ range (n % k + 1), |x (n - n % k + j) y.1 y.2| ≤ ((n % k + 1 : ℕ) : ℝ) * B := by
            refine (Finset.sum_le_card_nsmul _ _ B fun j _ => hB _ y hy).trans (le_of_eq ?_)
            rw [Finset.card_range, nsmul_eq_mul]
          have h2 := mul_le_mul_of_nonneg_right hle (show 0 ≤ B + η by linarith)
          linarith)
      refine ⟨v, fun _ => ⟨hv, fun hd => ?_⟩⟩
      have hmod : n % k + 1 = k := by
        obtain ⟨c, hc⟩ := hd
        cases c with
        | zero => omega
        | succ c =>
          have : n = (k - 1) + k * c := by rw [Nat.mul_succ] at hc; omega
          rw [this, Nat.add_mul_mod_self_left, Nat.mod_eq_of_lt (by omega)]; omega
      have hkn : k ≤ n + 1 := Nat.le_of_dvd (by omega) hd
      have e1 : n - n % k = n + 1 - k := by omega
      rw [Finset.sum_Ico_eq_sum_range, Finset.sum_Ico_eq_sum_range, show n + 1 - (n + 1 - k) = k by omega]
      rw [e1, hmod] at he
      exact he
    · exact ⟨0, fun h => absurd h hy⟩
  choose z hz using key
  refine ⟨acc, fun n l i => z n ⟨l, i⟩, ?_, fun n y hy => (hz n y hy).1, fun n hd y hy => (hz n y hy).2 hd⟩
  have hfinite : ∀ n l s i, σ.leaves[l]? = some s → i < s.prod → IsFin (acc n l i) := by
    intro n l s i h1 h2
    exact (isFin_iff _).2 ⟨_, (hz n ⟨l, i⟩ (mem_idx.2 ⟨s, h1, h2⟩)).1⟩
  have hcnt : ∀ n : ℕ, (cntAt (n % k)).toInt = ((n % k : ℕ) : ℤ) := by
    intro n
    have := Nat.mod_lt n (show 0 < k by omega)
    rw [cntAt_toInt, min_eq_left (by omega)]
  have hfm : ∀ n : ℕ, (cntAt (n % k)).toInt.fmod (k : ℤ) = ((n % k : ℕ) : ℤ) := by
    intro n
    rw [hcnt, Int.fmod_eq_emod_of_nonneg _ (by omega)]
    rw [← Int.natCast_mod, Nat.mod_mod]
  refine outs_hist (applyEvery (k : ℤ)) (mk σ p0) σ g pp N
    (fun n => ⟨cntAt (n % k), mk σ (fun l i => if n = 0 then 0 else acc (n - 1) l i)⟩) _ ?_ ?_
  · rw [applyEvery_init_mk]
    simp [cntAt_zero]
  · intro n _
    rw [applyEvery_update_mk]
    simp only [hfm]
    have hlt := Nat.mod_lt n (show 0 < k by omega)
    have hstep : ∀ l s i, σ.leaves[l]? = some s → i < s.prod →
        (boolNum (((n % k : ℕ) : ℤ) != 0) : FP F) * (if n = 0 then 0 else acc (n - 1) l i) + g n l i = acc n l i := by
      intro l s i h1 h2
      by_cases hz : n % k = 0
      · have e : acc n l i = g n l i := by
          simp only [hacc, hz]
          show g (n - 0 + 0) l i + 0 = _
          rw [FP.add_zero]; rfl
        rw [e]
        have hb : (boolNum (((n % k : ℕ) : ℤ) != 0) : FP F) = 0 := by simp [hz, boolNum]
        rw [hb, FP.zero_mul, FP.zero_add]
        split_ifs
        · exact fin_zero
        · exact hfinite _ l s i h1 h2
      · have hn0 : n ≠ 0 := by rintro rfl; simp at hz
        have h1 : (boolNum (((n % k : ℕ) : ℤ) != 0) : FP F) = 1 := by
          simp only [boolNum]
          rw [if_pos]
          simp only [bne_iff_ne, ne_eq]
          omega
        rw [h1, FP.one_mul, if_neg hn0]
        have h2 : (n - 1) % k + 1 = n % k := by
          obtain ⟨m, rfl⟩ : ∃ m, n = m + 1 := ⟨n - 1, by omega⟩
          simp only [Nat.add_sub_cancel]
          have hmk := Nat.mod_lt m (show 0 < k by omega)
          have hd := Nat.div_add_mod m k
          by_cases hlast : m % k + 1 = k
          · exfalso; apply hz
            have : m + 1 = k * (m / k + 1) := by rw [Nat.mul_succ]; omega
            rw [this]; exact Nat.mul_mod_right _ _
          · have hsmall : m % k + 1 < k := by omega
            have : m + 1 = (m % k + 1) + k * (m / k) := by omega
            rw [this, Nat.add_mul_mod_self_left, Nat.mod_eq_of_lt hsmall]
        have hle : n % k ≤ n := Nat.mod_le _ _
        simp only [hacc]
        rw [show accSum (fun m => g m l i) (n - n % k) (n % k + 1) = g (n - n % k + n % k) l i + accSum (fun m => g m l i) (n - n % k) (n % k) from rfl,
          show n - n % k + n % k = n by omega, h2, show n - 1 - (n - 1) % k = n - n % k by omega]
        exact add_comm_fp _ _
    have hemit : (((n % k : ℕ) : ℤ) == (k : ℤ) - 1) = decide (k ∣ n + 1) := by
      have : (n % k = k - 1) ↔ k ∣ n + 1 := by
        constructor
        · intro h
          refine ⟨n / k + 1, ?_⟩
          have hd := Nat.div_add_mod n k
          rw [Nat.mul_succ]; omega
        · rintro ⟨c, hc⟩
          cases c with
          | zero => omega
          | succ c =>
            have : n = (k - 1) + k * c := by rw [Nat.mul_succ] at hc; omega
            rw [this, Nat.add_mul_mod_self_left, Nat.mod_eq_of_lt (by omega)]
      rw [Bool.eq_iff_iff]
      simp only [beq_iff_eq, decide_eq_true_eq, ← this]
      omega
    rw [hemit]
    have hcount : BitVec.ofInt 32 ((safeInt32Increment (cntAt (n % k))).toInt.fmod (k : ℤ)) = cntAt ((n + 1) % k) := by
      rw [safeInt32Increment_cntAt, cntAt_toInt, min_eq_left (by omega),
        Int.fmod_eq_emod_of_nonneg _ (by omega), ← Int.natCast_mod]
      rw [Nat.mod_add_mod]
      have := Nat.mod_lt (n + 1) (show 0 < k by omega)
      unfold cntAt
      rw [min_eq_left (by omega)]
      exact BitVec.ofInt_natCast _ _
    rw [hcount]
    simp only [Except.ok.injEq, Prod.mk.injEq, ApplyEveryState.mk.injEq, true_and]
    refine ⟨mk_congr ?_, mk_congr ?_⟩
    · intro l s h1 i h2
      rw [hstep l s i h1 h2]
      by_cases hd : k ∣ n + 1
      · simp only [hd, decide_true, boolNum, if_true, FP.one_mul]
      · simp only [hd, decide_false, boolNum, if_false]
        exact FP.zero_mul (hfinite n l s i h1 h2)
    · intro l s h1 i h2
      rw [hstep l s i h1 h2]
      simp

/-- **C146 (float32).** In single precision, with groups of `k ≤ 2^20` calls and gradients of magnitude at most `G ≤ 2^100`: the wrapped optimiser receives averages with an error of at most
`k · 2^-21 · G + 2^-148`. -/
theorem C146_float32 {G : ℝ} (hG : G ≤ 2 ^ 100) (opt : GT (FP Format.float32)) (σ : Spec) (p0 : ℕ → ℕ → FP Format.float32) (g : ℕ → ℕ → ℕ → FP Format.float32)
    (x : ℕ → ℕ → ℕ → ℝ) (pp : ℕ → Option (Params (FP Format.float32))) (hg : ∀ n, Reads σ (g n) (x n)) (hx : ∀ n, ∀ y ∈ idx σ, |x n y.1 y.2| ≤ G)
    (k : ℕ) (hk : 1 ≤ k) (hk' : k ≤ 2 ^ 20) (N : ℕ) (hN : N < 2 ^ 31) (us : List (Params (FP Format.float32))) (s : (multiSteps opt (fun _ => k) true).State)
    (hrun : (multiSteps opt (fun _ => k) true).exec (mk σ p0) (hist σ g pp N) = .ok (us, s)) :
    ∃ vs, ∃ γ : ℕ → ℕ → ℕ → FP Format.float32, ∃ z : ℕ → ℕ → ℕ → ℝ,
      opt.exec (mk σ p0) (hist σ γ (fun _ => none) (N / k)) = .ok (vs, s.innerOptState) ∧
      (∀ n < N, ∀ j, n + 1 = (j + 1) * k → us[n]? = vs[j]?) ∧ (∀ j, Reads σ (γ j) (z j)) ∧
      ∀ j, ∀ y ∈ idx σ, |z j y.1 y.2 - (∑ n ∈ Ico (j * k) ((j + 1) * k), x n y.1 y.2) / k| ≤ k * 2 ^ (-21 : ℤ) * G + 2 ^ (-148 : ℤ) := by
  have hkr : (k : ℝ) ≤ 2 ^ 20 := by exact_mod_cast hk'
  have hk1 : (1 : ℝ) ≤ k := by exact_mod_cast hk
  have hkp : (0 : ℝ) < k := by linarith
  have hgs : ∀ j, groupStart (fun _ => k) j = j * k := by intro j; simp [groupStart]
  have hsum : ∀ j, ∀ y ∈ idx σ, ∑ n ∈ Ico (groupStart (fun _ => k) j) (groupStart (fun _ => k) (j + 1)), |x n y.1 y.2| ≤ k * G := by
    intro j y hy
    refine (Finset.sum_le_card_nsmul _ _ G fun n _ => hx n y hy).trans (le_of_eq ?_)
    rw [Nat.card_Ico, groupStart_succ, Nat.add_sub_cancel_left, nsmul_eq_mul]
  obtain ⟨J, vs, γ, z, h1, h2, h3, -, h5, -, h7, h8⟩ := C146_multi_steps Format.float32_err (by positivity) (by norm_num) (by positivity) (by norm_num) opt (fun _ => k) true σ p0 g x pp hg
    (fun _ => k) (fun _ => hk) (fun _ => rfl) (fun _ => by norm_num; linarith) (fun _ => by norm_num; linarith)
    (fun j y hy => by
      have a := hsum j y hy
      have hG0 : 0 ≤ G := (abs_nonneg _).trans (hx 0 y hy)
      have b : (k : ℝ) * G ≤ 2 ^ 20 * 2 ^ 100 := mul_le_mul hkr hG hG0 (by positivity)
      have c : (k : ℝ) * 2 ^ (-150 : ℤ) ≤ 2 ^ 20 * 2 ^ (-150 : ℤ) := mul_le_mul_of_nonneg_right hkr (by positivity)
      norm_num at b c ⊢
      linarith) N hN us s hrun
  have hJ : N / k = J := by
    rw [hgs] at h1 h2
    rw [Nat.div_eq_iff (by omega)]
    rw [Nat.add_mul] at h2
    omega
  refine ⟨vs, γ, z, by rw [hJ]; exact h3, fun n hn j hj => h5 n hn j (by rw [hgs]; exact hj), h7, fun j y hy => ?_⟩
  have a := h8 j y hy
  have b := hsum j y hy
  simp only [if_true] at a
  rw [show groupGrad (fun _ => k) true x j y.1 y.2 = (∑ n ∈ Ico (j * k) ((j + 1) * k), x n y.1 y.2) / k by
    unfold groupGrad; rw [if_pos rfl, hgs, hgs]] at a
  refine a.trans ?_
  have c : (∑ n ∈ Ico (groupStart (fun _ => k) j) (groupStart (fun _ => k) (j + 1)), |x n y.1 y.2|) / k ≤ G := by
    rw [div_le_iff₀ hkp]; linarith
  have d := mul_le_mul_of_nonneg_left c (show (0 : ℝ) ≤ 8 * (k * 2 ^ (-24 : ℤ)) by positivity)
  have e1 : (8 : ℝ) * (k * 2 ^ (-24 : ℤ)) = k * 2 ^ (-21 : ℤ) := by norm_num; ring
  have e2 : (4 : ℝ) * 2 ^ (-150 : ℤ) = 2 ^ (-148 : ℤ) := by norm_num
  rw [e1] at d
  rw [e1, e2]
  linarith

/-- gradients, group sizes and an optimiser that meet the hypotheses: all gradients 1, groups of 4, `sgd` with momentum, on a vector of 3 numbers -/
example : ∃ us s, (multiSteps (sgd (.scalar (1 : FP Format.float32)) (some 1) false) (fun _ => ((4 : ℕ) : ℤ)) true).exec (mk (.leaf [3]) (fun _ _ => 0))
      (hist (.leaf [3]) (fun _ _ _ => 1) (fun _ => none) 9) = .ok (us, s) ∧
    (∀ n : ℕ, Reads (.leaf [3]) ((fun _ _ _ => 1 : ℕ → ℕ → ℕ → FP Format.float32) n) ((fun _ _ _ => 1 : ℕ → ℕ → ℕ → ℝ) n)) := by
  have hp : Preserves AnyParams (multiSteps (sgd (.scalar (1 : FP Format.float32)) (some 1) false) (fun _ => ((4 : ℕ) : ℤ)) true) :=
    C15_preserves_any _ _ _ (preserves_two _ _ (preserves_momentum _ _) (preserves_lr _)).any
  obtain ⟨U, hU⟩ := hp.outs (.leaf [3]) 9 (fun _ _ => 0) (fun _ _ _ => 1) (fun _ => none) (fun _ => trivial)
  unfold GT.outs at hU
  cases h : (multiSteps (sgd (.scalar (1 : FP Format.float32)) (some 1) false) (fun _ => ((4 : ℕ) : ℤ)) true).exec (mk (.leaf [3]) (fun _ _ => 0))
      (hist (.leaf [3]) (fun _ _ _ => 1) (fun _ => none) 9) with
  | error e => rw [h] at hU; cases hU
  | ok r => exact ⟨r.1, r.2, rfl, fun n y hy => one_val⟩

/-! ## stagnation -/

namespace Format

/-- `2^p + 1` is halfway between two numbers of the format, and rounded down -/
theorem binary_tie (p : ℕ) (emin emax : ℤ) (hp he he') (h2 : 2 ≤ p) (h1 : 1 ≤ emax) : (binary p emin emax hp he he').rnd (1 + 2 ^ p) = .fin (2 ^ p) := by
  have hpow : (4 : ℝ) ≤ 2 ^ p := by
    calc (4 : ℝ) = 2 ^ 2 := by norm_num
      _ ≤ 2 ^ p := pow_le_pow_right₀ (by norm_num) h2
  have hemax : (2 : ℝ) ≤ 2 ^ emax := by
    calc (2 : ℝ) = 2 ^ (1 : ℤ) := by norm_num
      _ ≤ 2 ^ emax := zpow_le_zpow_right₀ (by norm_num) h1
  have hlt : |(1 : ℝ) + 2 ^ p| < (2 ^ p - 1 / 2) * 2 ^ emax := by
    rw [abs_of_pos (by positivity)]; nlinarith
  have hlog : Int.log 2 |(1 : ℝ) + 2 ^ p| = p := by
    rw [abs_of_pos (by positivity)]
    have : (1 : ℝ) + 2 ^ p = ((1 + 2 ^ p : ℕ) : ℝ) := by push_cast; rfl
    rw [this, Int.log_natCast]
    congr 1
    have hp4 : 4 ≤ 2 ^ p := by
      calc 4 = 2 ^ 2 := by norm_num
        _ ≤ 2 ^ p := Nat.pow_le_pow_right (by norm_num) h2
    rw [Nat.log_eq_iff (Or.inr ⟨by norm_num, by omega⟩), pow_succ]
    constructor <;> omega
  have hdig : lastDigit p emin (1 + 2 ^ p) = 1 := by
    unfold lastDigit
    rw [hlog]
    rw [max_eq_right] <;> omega
  obtain ⟨q, rfl⟩ : ∃ q, p = q + 2 := ⟨p - 2, by omega⟩
  have hhalf : ((1 : ℝ) + 2 ^ (q + 2)) / 2 ^ (1 : ℤ) = 1 / 2 + ((2 ^ (q + 1) : ℤ) : ℝ) := by
    push_cast; rw [zpow_one, pow_succ 2 (q + 1)]; ring
  have hfl : ⌊((1 : ℝ) + 2 ^ (q + 2)) / 2 ^ (1 : ℤ)⌋ = 2 ^ (q + 1) := by
    rw [hhalf, Int.floor_add_intCast]; norm_num
  have hfr : Int.fract (((1 : ℝ) + 2 ^ (q + 2)) / 2 ^ (1 : ℤ)) = 1 / 2 := by
    rw [hhalf, Int.fract_add_intCast]; norm_num
  have hev : halfEven (((1 : ℝ) + 2 ^ (q + 2)) / 2 ^ (1 : ℤ)) = 2 ^ (q + 1) := by
    unfold halfEven
    rw [hfr, hfl, if_neg (_root_.lt_irrefl (1 / 2 : ℝ)), if_neg (_root_.lt_irrefl (1 / 2 : ℝ)), if_pos]
    rw [pow_succ]; exact even_two.mul_left _
  have hto : toEven (q + 2) emin (1 + 2 ^ (q + 2)) = 2 ^ (q + 2) := by
    unfold toEven
    rw [hdig, hev]; push_cast; rw [zpow_one, ← pow_succ]
  obtain ⟨l1, l2⟩ := abs_lt.1 hlt
  show (if _ ≤ _ then XReal.pinf else if _ ≤ _ then .ninf else .fin (nearEven _ emin emax _)) = _
  rw [if_neg (not_le.2 l2), if_neg (not_le.2 l1)]
  unfold nearEven
  rw [if_pos hlt, hto]

end Format

/-- a running count with steps of 1 stops at `2^p` -/
theorem accSum_ones (p : ℕ) (emin emax : ℤ) (hp he he') (h2 : 2 ≤ p) (h1 : 1 ≤ emax) (a m : ℕ) :
    (accSum (fun _ => (1 : FP (Format.binary p emin emax hp he he'))) a m).1 = .fin ((min m (2 ^ p) : ℕ) : ℝ) := by
  induction m with
  | zero => simp [accSum]
  | succ m ih =>
    show ((1 : FP (Format.binary p emin emax hp he he')) + accSum _ a m).1 = _
    rw [add_val, ih, one_val, XReal.fin_add]
    show (Format.binary p emin emax hp he he').rnd _ = _
    by_cases hm : m < 2 ^ p
    · rw [min_eq_left hm.le, min_eq_left (by omega : m + 1 ≤ 2 ^ p)]
      have e : (1 : ℝ) + m = ((m + 1 : ℕ) : ℝ) := by push_cast; ring
      rw [e]
      rcases (show m + 1 ≤ 2 ^ p from hm).lt_or_eq with h | h
      · have := Format.binary_mem p emin emax hp he he' ((m + 1 : ℕ) : ℤ) 0 (by rw [abs_of_nonneg (by positivity)]; exact_mod_cast h) he he'
        rw [zpow_zero, _root_.mul_one, Int.cast_natCast] at this
        exact this
      · obtain ⟨q, rfl⟩ : ∃ q, p = q + 1 := ⟨p - 1, by omega⟩
        have := Format.binary_mem (q + 1) emin emax hp he he' (2 ^ q) 1 (by
          rw [abs_of_pos (by positivity), pow_succ]; have : (0 : ℤ) < 2 ^ q := by positivity
          omega) (by omega) h1
        have e2 : (((2 : ℤ) ^ q : ℤ) : ℝ) * 2 ^ (1 : ℤ) = ((m + 1 : ℕ) : ℝ) := by
          rw [h]; push_cast; rw [zpow_one, pow_succ]
        rw [e2] at this
        exact this
    · rw [min_eq_right (by omega : 2 ^ p ≤ m), min_eq_right (by omega : 2 ^ p ≤ m + 1)]
      push_cast
      exact Format.binary_tie p emin emax hp he he' h2 h1

/-- **C146 (bfloat16).** The bound on the group size matters.  With parameters in bfloat16, gradients all equal to 1 and groups of `2^(8+d)` calls, the sums stop growing at 256, and
`MultiSteps` hands the optimiser `2^-d` in place of the average 1: a quarter of it for groups of 1024, …. -/
theorem C146_bfloat16 (d : ℕ) (hd : d ≤ 22) (opt : GT (FP Format.bfloat16)) (σ : Spec) (p0 : ℕ → ℕ → FP Format.bfloat16) (pp : ℕ → Option (Params (FP Format.bfloat16)))
    (N : ℕ) (hN : N < 2 ^ 31) (us : List (Params (FP Format.bfloat16))) (s : (multiSteps opt (fun _ => 2 ^ (8 + d)) true).State)
    (hrun : (multiSteps opt (fun _ => 2 ^ (8 + d)) true).exec (mk σ p0) (hist σ (fun _ _ _ => 1) pp N) = .ok (us, s)) :
    ∃ vs, opt.exec (mk σ p0) (hist σ (fun _ _ _ => FP.of _ (.fin (2 ^ (-(d : ℤ))))) (fun _ => none) (N / 2 ^ (8 + d))) = .ok (vs, s.innerOptState) ∧
      (FP.of Format.bfloat16 (.fin (2 ^ (-(d : ℤ))))).1 = .fin (2 ^ (-(d : ℤ))) ∧
      (∀ n < N, ∀ j, n + 1 = (j + 1) * 2 ^ (8 + d) → us[n]? = vs[j]?) := by
  have hpos : 0 < 2 ^ (8 + d) := by positivity
  obtain ⟨J, vs, h1, h2, h3, h4, h5, h6, -⟩ := C15_any_arithmetic opt (fun _ => 2 ^ (8 + d)) true σ p0 (fun _ _ _ => 1) pp (fun _ => 2 ^ (8 + d)) (fun _ => hpos)
    (fun j => by push_cast; rfl) N hN us s hrun
  have hgs : ∀ j, groupStart (fun _ => 2 ^ (8 + d)) j = j * 2 ^ (8 + d) := by
    intro j; simp [groupStart]
  have hJ : N / 2 ^ (8 + d) = J := by
    rw [hgs] at h1 h2
    rw [Nat.div_eq_iff hpos]
    rw [Nat.add_mul] at h2
    omega
  have hexact : ∀ e : ℤ, -133 ≤ e → e ≤ 120 → Format.bfloat16.rnd (2 ^ e) = .fin (2 ^ e) := by
    intro e a b
    have := Format.binary_mem 8 (-133) 120 (by norm_num) (by norm_num) (by norm_num) 1 e (by norm_num) a b
    rw [Int.cast_one, _root_.one_mul] at this
    exact this
  have hval : ∀ j l i, groupAcc (fun _ => 2 ^ (8 + d)) true (fun _ _ _ => (1 : FP Format.bfloat16)) j l i = FP.of _ (.fin (2 ^ (-(d : ℤ)))) := by
    intro j l i
    apply FP.ext
    show (accSum (fun _ => (1 : FP Format.bfloat16)) _ (2 ^ (8 + d)) / JOps.ofInt ((2 ^ (8 + d) : ℕ) : ℤ)).1 = _
    rw [div_val, show (accSum (fun _ => (1 : FP Format.bfloat16)) (groupStart (fun _ => 2 ^ (8 + d)) j) (2 ^ (8 + d))).1 = .fin ((min (2 ^ (8 + d)) (2 ^ 8) : ℕ) : ℝ) from
      accSum_ones 8 (-133) 120 (by norm_num) (by norm_num) (by norm_num) (by norm_num) (by norm_num) _ _]
    have hk : (JOps.ofInt ((2 ^ (8 + d) : ℕ) : ℤ) : FP Format.bfloat16).1 = .fin (2 ^ ((8 + d : ℕ) : ℤ)) := by
      show Format.bfloat16.rnd (((2 ^ (8 + d) : ℕ) : ℤ) : ℝ) = _
      rw [← hexact ((8 + d : ℕ) : ℤ) (by omega) (by push_cast; omega)]
      congr 1
      push_cast
      rw [← zpow_natCast]; push_cast; rfl
    rw [hk, min_eq_right (Nat.pow_le_pow_right (by norm_num) (by omega))]
    rw [XReal.fin_div _ _ (by positivity)]
    show Format.bfloat16.rnd _ = Format.bfloat16.rnd _
    congr 1
    rw [show (-(d : ℤ)) = 8 - ((8 + d : ℕ) : ℤ) by push_cast; ring, zpow_sub₀ (by norm_num)]
    norm_num
  have hfun : groupAcc (fun _ => 2 ^ (8 + d)) true (fun _ _ _ => (1 : FP Format.bfloat16)) = fun _ _ _ => FP.of _ (.fin (2 ^ (-(d : ℤ)))) := by
    funext j l i; exact hval j l i
  rw [hfun] at h3
  refine ⟨vs, by rw [hJ]; exact h3, hexact _ (by omega) (by omega), fun n hn j hj => h5 n hn j (by rw [hgs]; exact hj)⟩

end Optax
