import Verif.Lemmas.FloatErr
import Verif.Model.PyFloat
import Verif.Props.FloatSgd
import Verif.Props.Adam

/-!
# C124: the moment accumulators in floating point
-/

set_option linter.unusedSectionVars false

namespace Optax
open FP Classical
variable (σ : Spec) {F : Format}

/-- the hyper-parameter conversion: `q` is rounded with relative error at most `2u` -/
theorem const_err {u η M : ℝ} (hF : ErrModel F u η M) {q : ℚ} (hq0 : 0 ≤ (q : ℝ)) (hqM : (q : ℝ) ≤ M) (hη : η ≤ u * q) :
    ∃ v, (JOps.ofRat q : FP F).1 = .fin v ∧ |v - q| ≤ 2 * u * q := by
  obtain ⟨v, hv, he⟩ := hF q (by rw [abs_of_nonneg hq0]; exact hqM)
  refine ⟨v, hv, he.trans ?_⟩
  rw [abs_of_nonneg hq0]
  linarith

/-- one step `a + β * m` of an accumulator, rounded -/
theorem affine_step {u η M : ℝ} (hF : ErrModel F u η M) (hu : 0 ≤ u) (hu4 : u ≤ 1 / 4) (hη : 0 ≤ η) {b K α e : ℝ} (hb0 : 0 ≤ b)
    (hb1 : b ≤ 1) {A Mx av βv mv : ℝ} {a β m : FP F} (ha : a.1 = .fin av) (hβ : β.1 = .fin βv) (hm : m.1 = .fin mv)
    (hA : |A| ≤ K) (hα : |av - A| ≤ α) (hβb : |βv - b| ≤ 2 * u * b) (hMx : |Mx| ≤ K) (he : |mv - Mx| ≤ e) (heK : e ≤ K)
    (hM : 5 * K + α + η ≤ M) :
    ∃ v, (a + β * m).1 = .fin v ∧ |v - (A + b * Mx)| ≤ b * e + (2 * α + 3 * η + 12 * u * K) := by
  have hK : 0 ≤ K := (abs_nonneg _).trans hA
  have hα0 : 0 ≤ α := (abs_nonneg _).trans hα
  have he0 : 0 ≤ e := (abs_nonneg _).trans he
  have hmv : |mv| ≤ 2 * K := by
    have := abs_sub_abs_le_abs_sub mv Mx
    linarith
  have hβv : |βv| ≤ (1 + 2 * u) * b := by
    have := abs_sub_abs_le_abs_sub βv b
    rw [abs_of_nonneg hb0] at this
    linarith
  have uK : 0 ≤ u * K := by positivity
  have uK4 : u * K ≤ K / 4 := by nlinarith
  have hprod : |βv * mv| ≤ (1 + 2 * u) * (2 * K) := by
    rw [abs_mul]
    have h1 : (1 + 2 * u) * b ≤ (1 + 2 * u) * 1 := mul_le_mul_of_nonneg_left hb1 (by linarith)
    exact (mul_le_mul (hβv.trans h1) hmv (abs_nonneg _) (by linarith)).trans (by linarith)
  have hprod3 : |βv * mv| ≤ 3 * K := by nlinarith
  obtain ⟨pv, hp, hpe⟩ := hF (βv * mv) (by linarith)
  have hpe' : |pv - βv * mv| ≤ 3 * (u * K) + η := by nlinarith
  have e2 : |βv * mv - b * Mx| ≤ 4 * (u * K) + b * e := by
    have : βv * mv - b * Mx = (βv - b) * mv + b * (mv - Mx) := by ring
    rw [this]
    refine (abs_add_le _ _).trans ?_
    rw [abs_mul, abs_mul, abs_of_nonneg hb0]
    have h1 : |βv - b| * |mv| ≤ (2 * u * b) * (2 * K) := mul_le_mul hβb hmv (abs_nonneg _) (by positivity)
    have h2 : (2 * u * b) * (2 * K) ≤ 4 * (u * K) := by nlinarith
    have h3 := mul_le_mul_of_nonneg_left he hb0
    linarith
  have hsum : |av + pv| ≤ 5 * K + α + η := by
    have h1 := abs_sub_abs_le_abs_sub av A
    have h2 := abs_sub_abs_le_abs_sub pv (βv * mv)
    have h3 := abs_add_le av pv
    linarith
  obtain ⟨v, hv, hve⟩ := hF (av + pv) (by linarith)
  refine ⟨v, ?_, ?_⟩
  · rw [add_val, mul_val, hβ, hm, XReal.fin_mul, ha]
    show F.round (.fin av + F.rnd (βv * mv)) = _
    rw [hp, XReal.fin_add]; exact hv
  · have : v - (A + b * Mx) = (v - (av + pv)) + (av - A) + (pv - βv * mv) + (βv * mv - b * Mx) := by ring
    rw [this]
    have h1 := abs_add_le (v - (av + pv) + (av - A) + (pv - βv * mv)) (βv * mv - b * Mx)
    have h2 := abs_add_le (v - (av + pv) + (av - A)) (pv - βv * mv)
    have h3 := abs_add_le (v - (av + pv)) (av - A)
    have h4 : u * |av + pv| ≤ 5 * (u * K) + α / 4 + η / 4 := by nlinarith
    linarith

/-- the source term `γ * p` of a moving average, rounded -/
theorem source_step {u η M : ℝ} (hF : ErrModel F u η M) (hu : 0 ≤ u) (hu4 : u ≤ 1 / 4) (hη : 0 ≤ η) {c B : ℝ} (hc0 : 0 ≤ c)
    (hc1 : c ≤ 1) {A γv pv : ℝ} {γ p : FP F} (hγ : γ.1 = .fin γv) (hp : p.1 = .fin pv) (hA : |A| ≤ B)
    (hγc : |γv - c| ≤ 2 * u * c) (hpA : |pv - A| ≤ u * |A| + η) (hM : 2 * B + 2 * η ≤ M) :
    ∃ v, (γ * p).1 = .fin v ∧ |v - c * A| ≤ 6 * u * (c * B) + 3 * η := by
  have hB : 0 ≤ B := (abs_nonneg _).trans hA
  have hpv : |pv| ≤ (1 + u) * B + η := by
    have := abs_sub_abs_le_abs_sub pv A
    nlinarith
  have hγv : |γv| ≤ (1 + 2 * u) * c := by
    have := abs_sub_abs_le_abs_sub γv c
    rw [abs_of_nonneg hc0] at this
    linarith
  have hcB : 0 ≤ c * B := by positivity
  have hcη : c * η ≤ η := by nlinarith
  have hcη0 : 0 ≤ c * η := by positivity
  have hcB1 : c * B ≤ B := by nlinarith
  have ucB : 0 ≤ u * (c * B) := by positivity
  have ucB4 : u * (c * B) ≤ c * B / 4 := by nlinarith
  have ucη : u * (c * η) ≤ c * η / 4 := by nlinarith
  have ucη0 : 0 ≤ u * (c * η) := by positivity
  have uucB : u * (u * (c * B)) ≤ u * (c * B) / 4 := by nlinarith
  have hprod : |γv * pv| ≤ c * B + 3 * (u * (c * B)) + 2 * (u * (u * (c * B))) + c * η + 2 * (u * (c * η)) := by
    rw [abs_mul]
    refine (mul_le_mul hγv hpv (abs_nonneg _) (by positivity)).trans (le_of_eq (by ring))
  have hprod2 : |γv * pv| ≤ 2 * B + 2 * η := by linarith
  obtain ⟨v, hv, hve⟩ := hF (γv * pv) (by linarith)
  refine ⟨v, ?_, ?_⟩
  · rw [mul_val, hγ, hp, XReal.fin_mul]; exact hv
  · have : v - c * A = (v - γv * pv) + (γv - c) * pv + c * (pv - A) := by ring
    rw [this]
    have h1 := abs_add_le (v - γv * pv + (γv - c) * pv) (c * (pv - A))
    have h2 := abs_add_le (v - γv * pv) ((γv - c) * pv)
    have h3 : |(γv - c) * pv| ≤ 2 * (u * (c * B)) + 2 * (u * (u * (c * B))) + 2 * (u * (c * η)) := by
      rw [abs_mul]
      refine (mul_le_mul hγc hpv (abs_nonneg _) (by positivity)).trans (le_of_eq (by ring))
    have h4 : |c * (pv - A)| ≤ u * (c * B) + c * η := by
      rw [abs_mul, abs_of_nonneg hc0]
      refine (mul_le_mul_of_nonneg_left hpA hc0).trans ?_
      have := mul_le_mul_of_nonneg_left hA (show 0 ≤ c * u by positivity)
      linarith
    have h5 : u * |γv * pv| ≤ u * (c * B) + 3 * (u * (c * B)) / 4 + 2 * (u * (c * B)) / 16 + c * η / 4 + 2 * (c * η / 4) / 4 := by
      nlinarith
    nlinarith

/-- the accumulator `m ← a n + β m` from zero, rounded, stays close to the geometric sum of the exact sources, for ever -/
theorem accumulate {u η M : ℝ} (hF : ErrModel F u η M) (hu : 0 ≤ u) (hu4 : u ≤ 1 / 4) (hη : 0 ≤ η) {b K α : ℝ} (hb0 : 0 ≤ b)
    (hb1 : b < 1) {β : FP F} {βv : ℝ} (hβ : β.1 = .fin βv) (hβb : |βv - b| ≤ 2 * u * b) (a : ℕ → FP F) (A : ℕ → ℝ)
    (ha : ∀ n, ∃ v, (a n).1 = .fin v ∧ |v - A n| ≤ α) (hA : ∀ n, |A n| ≤ (1 - b) * K)
    (hE : 2 * α + 3 * η + 12 * u * K ≤ (1 - b) * K) (hM : 5 * K + α + η ≤ M) (m : ℕ → FP F) (m0 : m 0 = 0)
    (ms : ∀ n, m (n + 1) = a n + β * m n) (n : ℕ) :
    ∃ v, (m n).1 = .fin v ∧ |v - geoSum b A n| ≤ (2 * α + 3 * η + 12 * u * K) / (1 - b) := by
  have h1b : 0 < 1 - b := by linarith
  have hK : 0 ≤ K := by
    have := (abs_nonneg _).trans (hA 0)
    exact nonneg_of_mul_nonneg_right this h1b
  induction n with
  | zero =>
    refine ⟨0, by rw [m0]; simp, ?_⟩
    obtain ⟨v, -, hv⟩ := ha 0
    have : 0 ≤ α := (abs_nonneg _).trans hv
    simp only [geoSum_zero, _root_.sub_self, abs_zero]
    positivity
  | succ n ih =>
    obtain ⟨mv, hm, hme⟩ := ih
    obtain ⟨av, hav, hae⟩ := ha n
    have hgeo : |geoSum b A n| ≤ K := by
      have := abs_geoSum_le (d := b) (G := (1 - b) * K) (by rw [abs_of_nonneg hb0]; exact hb1) (by positivity) (x := A) n
        (fun j _ => hA j)
      rw [abs_of_nonneg hb0, mul_div_assoc, mul_div_cancel₀] at this
      · exact this
      · exact h1b.ne'
    have hEK : (2 * α + 3 * η + 12 * u * K) / (1 - b) ≤ K := by
      rw [div_le_iff₀ h1b]; linarith
    obtain ⟨v, hv, hve⟩ := affine_step hF hu hu4 hη hb0 hb1.le (A := A n) (Mx := geoSum b A n) hav hβ hm
      ((hA n).trans (by nlinarith)) hae hβb hgeo hme hEK hM
    refine ⟨v, by rw [ms]; exact hv, ?_⟩
    rw [geoSum_succ]
    refine hve.trans (le_of_eq ?_)
    field_simp
    ring


theorem scaleByAdamPy_update_mk {α : Type} [Zero α] [One α] [Add α] [Sub α] [Mul α] [Div α] [Neg α] [JOps α] (b1 b2 eps er : ℚ)
    (g m n : ℕ → ℕ → α) (c : BitVec 32) (pp : Option (Params α)) :
    (scaleByAdamPy b1 b2 eps er).update (mk σ g) ⟨c, mk σ m, mk σ n⟩ pp =
      .ok (mk σ (fun k i =>
          ((JOps.ofRat (1 - b1) * ipow (g k i) 1 + JOps.ofRat b1 * m k i) / JOps.ofRat (1 - b1 ^ (safeInt32Increment c).toInt.toNat)) /
          (JOps.sqrt (((JOps.ofRat (1 - b2) * ipow (g k i) 2 + JOps.ofRat b2 * n k i) /
              JOps.ofRat (1 - b2 ^ (safeInt32Increment c).toInt.toNat)) + JOps.ofRat er) + JOps.ofRat eps)),
        ⟨safeInt32Increment c, mk σ (fun k i => JOps.ofRat (1 - b1) * ipow (g k i) 1 + JOps.ofRat b1 * m k i),
          mk σ (fun k i => JOps.ofRat (1 - b2) * ipow (g k i) 2 + JOps.ofRat b2 * n k i)⟩) := by
  simp [scaleByAdamPy, updateMomentPy, biasCorrectionPy]

/-- **C124.** Over the exact reals the two models agree: `scale_by_adam` with python-float hyper-parameters is the
`scale_by_adam` of the other properties, in every history. -/
theorem C124_model (b1 b2 eps er : ℚ) (p0 : ℕ → ℕ → ℝ) (g : ℕ → ℕ → ℕ → ℝ) (pp : ℕ → Option (Params ℝ)) (N : ℕ) :
    (scaleByAdamPy b1 b2 eps er).exec (mk σ p0) (hist σ g pp N) =
      (scaleByAdam (b1 : ℝ) b2 eps er).exec (mk σ p0) (hist σ g pp N) := by
  rw [C26_saturated]
  refine exec_hist (scaleByAdamPy b1 b2 eps er) (mk σ p0) σ g pp N
    (fun n => ⟨cntAt n, mk σ (fun k i => (1 - b1) * geoSum b1 (fun j => g j k i) n),
      mk σ (fun k i => (1 - b2) * geoSum b2 (fun j => g j k i ^ 2) n)⟩) _ ?_ ?_
  · simp [scaleByAdamPy, cntAt_zero]
  · intro n hn
    rw [scaleByAdamPy_update_mk]
    have hc : (cntAt (n + 1)).toInt.toNat = min (n + 1) 2147483647 := by rw [cntAt_toInt]; omega
    have e : ∀ (b : ℝ) (x : ℕ → ℝ), (1 - b) * x n + b * ((1 - b) * geoSum b x n) = (1 - b) * geoSum b x (n + 1) := by
      intro b x; rw [geoSum_succ]; ring
    simp only [safeInt32Increment_cntAt, ipow_eq_pow, pow_one, jsqrt_real, jofRat_real, hc, adamStep, ← e,
      Rat.cast_sub, Rat.cast_one, Rat.cast_pow]

/-! ## The accumulators -/

/-- run rule for the state alone -/
theorem exec_hist_state {α : Type} (t : GT α) (p : Params α) (g : ℕ → ℕ → ℕ → α) (pp : ℕ → Option (Params α)) (N : ℕ)
    (S : ℕ → t.State) (h0 : t.init p = .ok (S 0)) (hs : ∀ n < N, ∃ u, t.update (mk σ (g n)) (S n) (pp n) = .ok (u, S (n + 1))) :
    ∃ us, t.exec p (hist σ g pp N) = .ok (us, S N) := by
  have : ∀ n, ∃ u, n < N → t.update (mk σ (g n)) (S n) (pp n) = .ok (u, S (n + 1)) := fun n => by
    by_cases h : n < N
    · obtain ⟨u, hu⟩ := hs n h; exact ⟨u, fun _ => hu⟩
    · exact ⟨.node .none_ [], fun h' => absurd h' h⟩
  choose U hU using this
  exact ⟨_, exec_hist t p σ g pp N S U h0 hU⟩

/-- the momentum accumulator of the code: `t ← g + decay * t`, from zero -/
noncomputable def accF (β : FP F) (a : ℕ → FP F) : ℕ → FP F
  | 0 => 0
  | n + 1 => a n + β * accF β a n

/-- **C124.** Heavy-ball momentum in floating point: for every history of finite gradients of size at most `G`, of any length,
the accumulator `trace` holds is finite and its distance to the exact discounted sum of the gradients never exceeds
`(12 u K + 3 η) / (1 - decay)` with `K = G / (1 - decay)`: the rounding errors do not build up. -/
theorem C124_trace {u η M : ℝ} (hF : ErrModel F u η M) (hu : 0 ≤ u) (hu4 : u ≤ 1 / 4) (hη : 0 ≤ η) (d : ℚ) (hd0 : 0 ≤ (d : ℝ))
    (hd1 : (d : ℝ) < 1) (hdη : η ≤ u * d) {G K : ℝ} (hK : G = (1 - d) * K) (hE : 12 * u * K + 3 * η ≤ G) (h1M : 1 ≤ M)
    (hM : 5 * K + η ≤ M) (nes : Bool) (p0 : ℕ → ℕ → FP F) (g : ℕ → ℕ → ℕ → FP F) (x : ℕ → ℕ → ℕ → ℝ) (pp : ℕ → Option (Params (FP F)))
    (hg : ∀ n, Reads σ (g n) (x n)) (hx : ∀ n, ∀ y ∈ idx σ, |x n y.1 y.2| ≤ G) (N : ℕ) :
    ∃ (us : List (Params (FP F))) (t : ℕ → ℕ → FP F) (v : ℕ → ℕ → ℝ),
      (trace (JOps.ofRat d : FP F) nes).exec (mk σ p0) (hist σ g pp N) = .ok (us, ⟨mk σ t⟩) ∧ Reads σ t v ∧
      ∀ y ∈ idx σ, |v y.1 y.2 - geoSum d (fun j => x j y.1 y.2) N| ≤ (12 * u * K + 3 * η) / (1 - d) := by
  obtain ⟨βv, hβ, hβe⟩ := const_err (F := F) hF hd0 (by linarith) hdη
  have key : ∀ y : (_ : ℕ) × ℕ, y ∈ idx σ → ∃ v, (accF (JOps.ofRat d) (fun n => g n y.1 y.2) N).1 = .fin v ∧
      |v - geoSum d (fun j => x j y.1 y.2) N| ≤ (12 * u * K + 3 * η) / (1 - d) := by
    intro y hy
    obtain ⟨v, hv, he⟩ := accumulate (α := 0) (K := K) hF hu hu4 hη hd0 hd1 hβ hβe (fun n => g n y.1 y.2) (fun n => x n y.1 y.2)
      (fun n => ⟨_, hg n y hy, by simp⟩) (fun n => by rw [← hK]; exact hx n y hy) (by rw [← hK]; linarith) (by linarith)
      (accF (JOps.ofRat d) (fun n => g n y.1 y.2)) rfl (fun n => rfl) N
    exact ⟨v, hv, he.trans (le_of_eq (by ring))⟩
  choose! v hv he using key
  obtain ⟨us, hus⟩ := exec_hist_state σ (trace (JOps.ofRat d : FP F) nes) (mk σ p0) g pp N
      (fun n => ⟨mk σ (fun k i => accF (JOps.ofRat d) (fun n => g n k i) n)⟩) (by rw [trace_init_mk]; rfl)
      (fun n _ => ⟨_, by rw [trace_update_mk]; rfl⟩)
  exact ⟨us, _, fun k i => v ⟨k, i⟩, hus, fun y hy => hv y hy, fun y hy => he y hy⟩

/-- **C124.** Adam's moment estimates in floating point: for every history of finite gradients of size at most `G`, of any
length, the moments held by `scale_by_adam` are finite, the first is within `(24 u G + 9 η) / (1 - b1)` of the exact exponential
moving average of the gradients, the second within `(24 u G² + 9 η) / (1 - b2)` of that of their squares. -/
theorem C124_adam {u η M : ℝ} (hF : ErrModel F u η M) (hu : 0 ≤ u) (hu4 : u ≤ 1 / 4) (hη : 0 ≤ η) (b1 b2 eps er : ℚ)
    (h10 : 0 ≤ (b1 : ℝ)) (h11 : (b1 : ℝ) < 1) (h20 : 0 ≤ (b2 : ℝ)) (h21 : (b2 : ℝ) < 1) (hη1 : η ≤ u * b1) (hη2 : η ≤ u * b2)
    (hη1' : η ≤ u * (1 - b1)) (hη2' : η ≤ u * (1 - b2)) {G : ℝ} (hE1 : 24 * u * G + 9 * η ≤ (1 - b1) * G)
    (hE2 : 24 * u * G ^ 2 + 9 * η ≤ (1 - b2) * G ^ 2) (h1M : 1 ≤ M) (hM1 : 7 * G + 4 * η ≤ M) (hM2 : 7 * G ^ 2 + 4 * η ≤ M)
    (p0 : ℕ → ℕ → FP F) (g : ℕ → ℕ → ℕ → FP F) (x : ℕ → ℕ → ℕ → ℝ) (pp : ℕ → Option (Params (FP F)))
    (hg : ∀ n, Reads σ (g n) (x n)) (hx : ∀ n, ∀ y ∈ idx σ, |x n y.1 y.2| ≤ G) (N : ℕ) :
    ∃ (us : List (Params (FP F))) (c : BitVec 32) (m s : ℕ → ℕ → FP F) (mv sv : ℕ → ℕ → ℝ),
      (scaleByAdamPy b1 b2 eps er).exec (mk σ p0) (hist σ g pp N) = .ok (us, ⟨c, mk σ m, mk σ s⟩) ∧
      Reads σ m mv ∧ Reads σ s sv ∧
      ∀ y ∈ idx σ,
        |mv y.1 y.2 - (1 - b1) * geoSum b1 (fun j => x j y.1 y.2) N| ≤ (24 * u * G + 9 * η) / (1 - b1) ∧
        |sv y.1 y.2 - (1 - b2) * geoSum b2 (fun j => x j y.1 y.2 ^ 2) N| ≤ (24 * u * G ^ 2 + 9 * η) / (1 - b2) := by
  -- one accumulator
  have one : ∀ (b : ℚ), 0 ≤ (b : ℝ) → (b : ℝ) < 1 → η ≤ u * b → η ≤ u * (1 - b) → ∀ B : ℝ, 24 * u * B + 9 * η ≤ (1 - b) * B →
      7 * B + 4 * η ≤ M → ∀ (p : ℕ → FP F) (z : ℕ → ℝ), (∀ n, |z n| ≤ B) → (∀ n, ∃ v, (p n).1 = .fin v ∧ |v - z n| ≤ u * |z n| + η) →
      ∃ v, (accF (JOps.ofRat b) (fun n => JOps.ofRat (1 - b) * p n) N).1 = .fin v ∧
        |v - (1 - b) * geoSum b z N| ≤ (24 * u * B + 9 * η) / (1 - b) := by
    intro b hb0 hb1 hηb hηb' B hEB hMB p z hz hp
    have h1b : 0 < 1 - (b : ℝ) := by linarith
    have hB : 0 ≤ B := (abs_nonneg _).trans (hz 0)
    obtain ⟨βv, hβ, hβe⟩ := const_err (F := F) hF hb0 (by linarith) hηb
    obtain ⟨γv, hγ, hγe⟩ := const_err (F := F) (q := 1 - b) hF (by push_cast; linarith) (by push_cast; linarith)
      (by push_cast; exact hηb')
    push_cast at hγe
    have huB : 0 ≤ u * B := by positivity
    have hub : u * ((1 - b) * B) ≤ u * B := by
      have : (1 - (b : ℝ)) * B ≤ 1 * B := mul_le_mul_of_nonneg_right (by linarith) hB
      nlinarith
    have hub0 : 0 ≤ u * ((1 - b) * B) := by positivity
    have huB4 : u * B ≤ B / 4 := by nlinarith
    have hsrc : ∀ n, ∃ v, (JOps.ofRat (1 - b) * p n).1 = .fin v ∧ |v - (1 - b) * z n| ≤ 6 * u * ((1 - b) * B) + 3 * η := by
      intro n
      obtain ⟨pv, hpv, hpe⟩ := hp n
      exact source_step hF hu hu4 hη h1b.le (by linarith) hγ hpv (hz n) hγe hpe (by linarith)
    obtain ⟨v, hv, he⟩ := accumulate (α := 6 * u * ((1 - b) * B) + 3 * η) (K := B) hF hu hu4 hη hb0 hb1 hβ hβe _ (fun n => (1 - b) * z n) hsrc
      (fun n => by rw [abs_mul, abs_of_pos h1b]; exact mul_le_mul_of_nonneg_left (hz n) h1b.le) (by linarith) (by linarith)
      (accF (JOps.ofRat b) (fun n => JOps.ofRat (1 - b) * p n)) rfl (fun n => rfl) N
    refine ⟨v, hv, ?_⟩
    rw [geoSum_smul] at he
    exact he.trans (div_le_div_of_nonneg_right (by linarith) h1b.le)
  have k1 : ∀ y : (_ : ℕ) × ℕ, y ∈ idx σ → ∃ v, (accF (JOps.ofRat b1) (fun n => JOps.ofRat (1 - b1) * ipow (g n y.1 y.2) 1) N).1 = .fin v ∧
      |v - (1 - b1) * geoSum b1 (fun j => x j y.1 y.2) N| ≤ (24 * u * G + 9 * η) / (1 - b1) := by
    intro y hy
    refine one b1 h10 h11 hη1 hη1' G hE1 hM1 _ _ (fun n => hx n y hy) fun n => ⟨_, hg n y hy, ?_⟩
    rw [_root_.sub_self, abs_zero]; positivity
  have k2 : ∀ y : (_ : ℕ) × ℕ, y ∈ idx σ → ∃ v, (accF (JOps.ofRat b2) (fun n => JOps.ofRat (1 - b2) * ipow (g n y.1 y.2) 2) N).1 = .fin v ∧
      |v - (1 - b2) * geoSum b2 (fun j => x j y.1 y.2 ^ 2) N| ≤ (24 * u * G ^ 2 + 9 * η) / (1 - b2) := by
    intro y hy
    have hsq : ∀ n, |x n y.1 y.2 ^ 2| ≤ G ^ 2 := fun n => by
      rw [abs_pow]; exact pow_le_pow_left₀ (abs_nonneg _) (hx n y hy) 2
    refine one b2 h20 h21 hη2 hη2' (G ^ 2) hE2 hM2 _ _ hsq fun n => ?_
    obtain ⟨r, hr, he⟩ := hF (x n y.1 y.2 ^ 2) (by have := hsq n; have := _root_.sq_nonneg G; linarith)
    refine ⟨r, ?_, he⟩
    show (g n y.1 y.2 * g n y.1 y.2).1 = _
    rw [mul_val, hg n y hy, XReal.fin_mul, ← pow_two]; exact hr
  choose! mv hm hme using k1
  choose! sv hs hse using k2
  obtain ⟨us, hus⟩ := exec_hist_state σ (scaleByAdamPy b1 b2 eps er) (mk σ p0) g pp N
      (fun n => ⟨cntAt n, mk σ (fun k i => accF (JOps.ofRat b1) (fun n => JOps.ofRat (1 - b1) * ipow (g n k i) 1) n),
        mk σ (fun k i => accF (JOps.ofRat b2) (fun n => JOps.ofRat (1 - b2) * ipow (g n k i) 2) n)⟩)
      (by simp [scaleByAdamPy, cntAt_zero, accF])
      (fun n _ => ⟨_, by rw [scaleByAdamPy_update_mk]; simp only [safeInt32Increment_cntAt]; rfl⟩)
  exact ⟨us, _, _, _, fun k i => mv ⟨k, i⟩, fun k i => sv ⟨k, i⟩, hus, fun y hy => hm y hy, fun y hy => hs y hy,
    fun y hy => ⟨hme y hy, hse y hy⟩⟩

/-- **C124.** In float32 with the default decays 0.9 and 0.999 and gradients of size at most `G`, `2^-50 ≤ G ≤ 2^60`: for ever, Adam's
first moment is within `2·10⁻⁵ G` and its second within `2·10⁻³ G²` of the exact moving averages. -/
theorem C124_float32 {G : ℝ} (hG : 2 ^ (-50 : ℤ) ≤ G) (hG' : G ≤ 2 ^ 60) (eps er : ℚ)
    (p0 : ℕ → ℕ → FP Format.float32) (g : ℕ → ℕ → ℕ → FP Format.float32) (x : ℕ → ℕ → ℕ → ℝ)
    (pp : ℕ → Option (Params (FP Format.float32))) (hg : ∀ n, Reads σ (g n) (x n)) (hx : ∀ n, ∀ y ∈ idx σ, |x n y.1 y.2| ≤ G) (N : ℕ) :
    ∃ (us : List (Params (FP Format.float32))) (c : BitVec 32) (m s : ℕ → ℕ → FP Format.float32) (mv sv : ℕ → ℕ → ℝ),
      (scaleByAdamPy (9 / 10) (999 / 1000) eps er).exec (mk σ p0) (hist σ g pp N) = .ok (us, ⟨c, mk σ m, mk σ s⟩) ∧
      Reads σ m mv ∧ Reads σ s sv ∧
      ∀ y ∈ idx σ,
        |mv y.1 y.2 - (1 - 9 / 10) * geoSum (9 / 10) (fun j => x j y.1 y.2) N| ≤ 2e-5 * G ∧
        |sv y.1 y.2 - (1 - 999 / 1000) * geoSum (999 / 1000) (fun j => x j y.1 y.2 ^ 2) N| ≤ 2e-3 * G ^ 2 := by
  have hG0 : (0 : ℝ) < 2 ^ (-50 : ℤ) := by norm_num
  have hη : (2 : ℝ) ^ (-150 : ℤ) ≤ 2 ^ (-40 : ℤ) * G := by norm_num at hG ⊢; linarith
  have hGG : (2 ^ (-50 : ℤ) : ℝ) * 2 ^ (-50 : ℤ) ≤ G ^ 2 := by rw [pow_two]; exact mul_le_mul hG hG hG0.le (by linarith)
  have hGG' : G ^ 2 ≤ (2 ^ 60 : ℝ) * 2 ^ 60 := by rw [pow_two]; exact mul_le_mul hG' hG' (by linarith) (by norm_num)
  have hη2 : (2 : ℝ) ^ (-150 : ℤ) ≤ 2 ^ (-40 : ℤ) * G ^ 2 := by norm_num at hGG ⊢; linarith
  obtain ⟨us, c, m, s, mv, sv, h1, h2, h3, h4⟩ := C124_adam σ Format.float32_err (by norm_num) (by norm_num) (by norm_num) (9 / 10) (999 / 1000)
    eps er (by norm_num) (by norm_num) (by norm_num) (by norm_num) (by norm_num) (by norm_num) (by norm_num) (by norm_num) (G := G)
    (by norm_num at hη ⊢; linarith) (by norm_num at hη2 ⊢; linarith) (by norm_num) (by norm_num at hG' ⊢; linarith)
    (by norm_num at hGG' ⊢; linarith) p0 g x pp hg hx N
  refine ⟨us, c, m, s, mv, sv, h1, h2, h3, fun y hy => ?_⟩
  obtain ⟨a, b⟩ := h4 y hy
  push_cast at a b
  refine ⟨a.trans ?_, b.trans ?_⟩
  · norm_num at hη ⊢; linarith
  · norm_num at hη2 ⊢; linarith

/-! ## bfloat16 -/

namespace Format

/-- numbers just below 1 are rounded to 1 in formats with 8 significant bits -/
theorem binary8_near_one (p : ℕ) (emin emax : ℤ) (hp he he') (hp8 : p = 8) {x : ℝ} (h1 : x ≤ 1) (h2 : 1 - 2 ^ (-9 : ℤ) < x) :
    (binary p emin emax hp he he').rnd x = .fin 1 := by
  have hm1 : (1 : ℝ) ∈ binarySet p emin emax :=
    mem_binarySet.2 ⟨1, 0, by rw [abs_one]; exact one_lt_pow₀ (by norm_num) (by omega), he, he', by norm_num⟩
  have key : ∀ (near : ℝ → ℝ), (∀ x, near x ∈ binarySet p emin emax) →
      (∀ x, ∀ s ∈ binarySet p emin emax, |x - near x| ≤ |x - s|) → near x = 1 := by
    intro near hS hn
    have h := hn x 1 hm1
    obtain ⟨m, e, hm, -, -, hv⟩ := mem_binarySet.1 (hS x)
    rw [hp8] at hm
    by_contra hne
    rw [abs_sub_comm x 1, abs_of_nonneg (show (0 : ℝ) ≤ 1 - x by linarith)] at h
    have hlo : 1 - 2 ^ (-8 : ℤ) < near x := by
      have := (abs_le.1 h).2
      have e2 : (2 : ℝ) ^ (-8 : ℤ) = 2 * 2 ^ (-9 : ℤ) := by norm_num
      rw [e2]; linarith
    have hgt : near x ≤ 1 := by
      have := (abs_le.1 h).1
      linarith
    have hgt' : near x < 1 := lt_of_le_of_ne hgt hne
    rw [hv] at hlo hgt'
    have hmpos : 0 < m := by
      by_contra hc
      have : (m : ℝ) * 2 ^ e ≤ 0 := by
        have : (m : ℝ) ≤ 0 := by exact_mod_cast not_lt.1 hc
        exact mul_nonpos_of_nonpos_of_nonneg this (by positivity)
      norm_num at hlo
      linarith
    by_cases he : e ≤ -8
    · have hle : (2 : ℝ) ^ e ≤ 2 ^ (-8 : ℤ) := zpow_le_zpow_right₀ (by norm_num) he
      have hpos : (0 : ℝ) < 2 ^ e := by positivity
      have hm' : (m : ℝ) ≤ 2 ^ 8 - 1 := by
        have : m ≤ 2 ^ 8 - 1 := by have := (abs_lt.1 hm).2; omega
        exact_mod_cast this
      have : (m : ℝ) * 2 ^ e ≤ ((2 : ℝ) ^ 8 - 1) * 2 ^ (-8 : ℤ) := mul_le_mul hm' hle hpos.le (by norm_num)
      norm_num at this hlo
      linarith
    · obtain ⟨k, hk⟩ : ∃ k : ℕ, e = -7 + k := ⟨(e + 7).toNat, by omega⟩
      rw [hk, zpow_add₀ (by norm_num), zpow_natCast] at hlo hgt'
      have hint : (m : ℝ) * (2 ^ (-7 : ℤ) * 2 ^ k) = ((m * 2 ^ k : ℤ) : ℝ) * 2 ^ (-7 : ℤ) := by push_cast; ring
      rw [hint] at hlo hgt'
      have a1 : ((m * 2 ^ k : ℤ) : ℝ) < 128 := by
        norm_num at hgt' ⊢
        linarith
      have a2 : (127 : ℝ) < ((m * 2 ^ k : ℤ) : ℝ) := by
        norm_num at hlo ⊢
        linarith
      have b1 : m * 2 ^ k < (128 : ℤ) := by exact_mod_cast a1
      have b2 : (127 : ℤ) < m * 2 ^ k := by exact_mod_cast a2
      omega
  have big : (1 : ℝ) < (2 ^ p - 1 / 2) * 2 ^ emax := by
    have a1 : (1 : ℝ) ≤ 2 ^ emax := one_le_zpow₀ (by norm_num) he'
    rw [hp8]
    nlinarith
  show (if _ ≤ x then XReal.pinf else if x ≤ _ then .ninf else .fin _) = _
  rw [if_neg, if_neg]
  · congr 1
    exact key (nearEven p emin emax) (nearEven_mem p emin emax hp he he') (nearEven_le p emin emax hp)
  · have := big; norm_num at h2; linarith
  · have := big; linarith

end Format

/-- the default `b2` in bfloat16 -/
theorem bfloat16_b2 {b2 : ℚ} (h0 : 998046875 / 1000000000 < b2) (h1 : b2 < 1) : (JOps.ofRat b2 : FP Format.bfloat16) = 1 := by
  apply FP.ext
  rw [one_val]
  have h0' : ((998046875 / 1000000000 : ℚ) : ℝ) < b2 := by exact_mod_cast h0
  have h1' : ((b2 : ℚ) : ℝ) ≤ 1 := by exact_mod_cast h1.le
  push_cast at h0'
  exact Format.binary8_near_one 8 (-133) 120 (by norm_num) (by norm_num) (by norm_num) rfl h1' (by norm_num at h0' ⊢; linarith)

/-- **C124 (bfloat16).** If the parameters are bfloat16, the second-moment decay `b2` of the default (0.999), and every
`b2 > 0.99805`, is rounded to 1: nothing is ever forgotten.  In every history of gradients that are not NaN, every entry of
the second moment after `n` calls is at most the entry after `n'` calls, `n ≤ n'`: the "moving average" only grows, whatever
the gradients do (for instance when they vanish). -/
theorem C124_bfloat16 (b1 b2 eps er : ℚ) (h0 : 998046875 / 1000000000 < b2) (h1 : b2 < 1) (p0 : ℕ → ℕ → FP Format.bfloat16)
    (g : ℕ → ℕ → ℕ → FP Format.bfloat16) (pp : ℕ → Option (Params (FP Format.bfloat16))) (hg : ∀ n k i, IsNum (g n k i))
    (hγ : 0 < (JOps.ofRat (1 - b2) : FP Format.bfloat16)) :
    ∃ s : ℕ → ℕ → ℕ → FP Format.bfloat16,
      (∀ N, ∃ us c m, (scaleByAdamPy b1 b2 eps er).exec (mk σ p0) (hist σ g pp N) = .ok (us, ⟨c, m, mk σ (s N)⟩)) ∧
      (∀ k i, s 0 k i = 0) ∧ (∀ n n' k i, n ≤ n' → s n k i ≤ s n' k i) ∧
      -- and stops exactly: with zero gradients from some call on, it stays what it is, bit for bit
      ∀ n n' k i, n ≤ n' → (∀ j, n ≤ j → g j k i = 0) → s n' k i = s n k i := by
  have hfin : IsFin (JOps.ofRat (1 - b2) : FP Format.bfloat16) := by
    obtain ⟨r, hr, -⟩ := Format.bfloat16_err ((1 - b2 : ℚ) : ℝ) (by
      have h0' : ((998046875 / 1000000000 : ℚ) : ℝ) < b2 := by exact_mod_cast h0
      have h1' : ((b2 : ℚ) : ℝ) < 1 := by exact_mod_cast h1
      push_cast at h0' ⊢
      rw [abs_of_pos (by linarith)]
      norm_num at h0' ⊢
      linarith)
    exact (isFin_iff _).2 ⟨r, hr⟩
  have src : ∀ n k i, 0 ≤ JOps.ofRat (1 - b2) * ipow (g n k i) 2 := fun n k i =>
    FP.mul_nonneg hγ hfin (FP.sq_nonneg (hg n k i))
  have nonneg : ∀ n k i, 0 ≤ accF (JOps.ofRat b2) (fun n => JOps.ofRat (1 - b2) * ipow (g n k i) 2) n := by
    intro n k i
    induction n with
    | zero => exact FP.le_refl num_zero
    | succ n ih =>
      show 0 ≤ _ + _ * _
      rw [bfloat16_b2 h0 h1, FP.one_mul]
      exact FP.add_nonneg (src n k i) (by rwa [bfloat16_b2 h0 h1] at ih)
  have step : ∀ n k i, accF (JOps.ofRat b2) (fun n => JOps.ofRat (1 - b2) * ipow (g n k i) 2) (n + 1) =
      JOps.ofRat (1 - b2) * ipow (g n k i) 2 + accF (JOps.ofRat b2) (fun n => JOps.ofRat (1 - b2) * ipow (g n k i) 2) n := by
    intro n k i
    conv_lhs => unfold accF
    rw [bfloat16_b2 h0 h1, FP.one_mul]
  refine ⟨fun n k i => accF (JOps.ofRat b2) (fun n => JOps.ofRat (1 - b2) * ipow (g n k i) 2) n, ?_, fun k i => rfl, ?_, ?_⟩
  · intro N
    obtain ⟨us, hus⟩ := exec_hist_state σ (scaleByAdamPy b1 b2 eps er) (mk σ p0) g pp N
      (fun n => ⟨cntAt n, mk σ (fun k i => accF (JOps.ofRat b1) (fun n => JOps.ofRat (1 - b1) * ipow (g n k i) 1) n),
        mk σ (fun k i => accF (JOps.ofRat b2) (fun n => JOps.ofRat (1 - b2) * ipow (g n k i) 2) n)⟩)
      (by simp [scaleByAdamPy, cntAt_zero, accF])
      (fun n _ => ⟨_, by rw [scaleByAdamPy_update_mk]; simp only [safeInt32Increment_cntAt]; rfl⟩)
    exact ⟨us, _, _, hus⟩
  · intro n n' k i h
    induction n', h using Nat.le_induction with
    | base => exact FP.le_refl (FP.le_num (nonneg n k i)).2
    | succ n' _ ih =>
      refine FP.le_trans ih ?_
      beta_reduce
      rw [step]
      exact FP.le_add (src n' k i) (nonneg n' k i)
  · intro n n' k i h hz
    induction n', h using Nat.le_induction with
    | base => rfl
    | succ n' hn ih =>
      beta_reduce at ih ⊢
      rw [step, hz n' hn]
      have : (ipow (0 : FP Format.bfloat16) 2) = 0 := FP.zero_mul fin_zero
      rw [this, FP.mul_zero hfin, FP.zero_add]
      exact ih

/-- the weight of new gradients at the default `b2` is a positive bfloat16 number, so the hypotheses of `C124_bfloat16` are met -/
example : 0 < (JOps.ofRat (1 - 999 / 1000) : FP Format.bfloat16) := by
  obtain ⟨r, hr, he⟩ := Format.bfloat16_err (((1 - 999 / 1000 : ℚ)) : ℝ) (by norm_num)
  refine (pos_iff _).2 (Or.inr ⟨r, ?_, hr⟩)
  have := (abs_le.1 he).1
  rw [abs_of_pos (by norm_num)] at this
  norm_num at this ⊢
  linarith

/-- a history for `C124_float32`: gradients alternating between 1 and -1 -/
example : ∃ (g : ℕ → ℕ → ℕ → FP Format.float32) (x : ℕ → ℕ → ℕ → ℝ), (∀ n, Reads (.leaf [3]) (g n) (x n)) ∧
    (∀ n, ∀ y ∈ idx (.leaf [3]), |x n y.1 y.2| ≤ 1) ∧ x 0 0 0 ≠ x 1 0 0 :=
  ⟨fun n _ _ => if n % 2 = 0 then 1 else -1, fun n _ _ => if n % 2 = 0 then 1 else -1,
    fun n y _ => by
      rcases Nat.mod_two_eq_zero_or_one n with h | h <;> simp [h, neg_val, XReal.fin_neg],
    fun n y _ => by rcases Nat.mod_two_eq_zero_or_one n with h | h <;> simp [h], by norm_num⟩

end Optax
