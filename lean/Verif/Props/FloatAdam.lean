import Verif.Props.FloatMoments
import Verif.Props.Defaults

/-!
# C131: Adam's updates in floating point

C124 bounds the moments absolutely.  Adam divides them, so absolute errors are not enough: here the errors are measured relative to
the moments of the absolute values of the gradients, and the whole update (two moving averages, two bias corrections, square
root, `eps`, division) is compared with exact arithmetic.
-/

set_option linter.unusedSectionVars false

namespace Optax
open FP Classical
variable (σ : Spec) {F : Format}

set_option maxHeartbeats 1000000 in
/-- one step `γ p + β m` of a moving average, rounded: relative errors are measured against the average `A` of the absolute values -/
theorem rel_step {u η M : ℝ} (hF : ErrModel F u η M) (hu : 0 ≤ u) (hu16 : u ≤ 1 / 256) (hη : 0 ≤ η) {b R e : ℝ} (hb0 : 0 ≤ b)
    (hb1 : b ≤ 1) (hR0 : 3 * u ≤ R) (hR : R ≤ 1 / 16) (he0 : 0 ≤ e) {z m A av βv mv : ℝ} {a β mf : FP F} (ha : a.1 = .fin av) (hβ : β.1 = .fin βv) (hm : mf.1 = .fin mv)
    {zz : ℝ} (hz : |z| ≤ zz) (haz : |av - z| ≤ 6 * u * zz + 3 * η) (hβb : |βv - b| ≤ 2 * u * b) (hmA : |m| ≤ A) (hme : |mv - m| ≤ R * A + e)
    (hM : 4 * zz + 4 * A + 4 * e + 8 * η ≤ M) :
    ∃ v, (a + β * mf).1 = .fin v ∧ |v - (z + b * m)| ≤ (R + 5 * u) * (zz + b * A) + (b * e * (1 + 6 * u) + 6 * η) := by
  have hA0 : 0 ≤ A := (abs_nonneg _).trans hmA
  have hzz : 0 ≤ zz := (abs_nonneg _).trans hz
  have hmv : |mv| ≤ (1 + R) * A + e := by
    have := abs_sub_abs_le_abs_sub mv m
    linarith
  have hβv : |βv| ≤ (1 + 2 * u) * b := by
    have := abs_sub_abs_le_abs_sub βv b
    rw [abs_of_nonneg hb0] at this
    linarith
  have hR0' : 0 ≤ R := by linarith
  -- monomials
  have bA : 0 ≤ b * A := by positivity
  have be : 0 ≤ b * e := by positivity
  have ubA : 0 ≤ u * (b * A) := by positivity
  have ube : 0 ≤ u * (b * e) := by positivity
  have RbA : R * (b * A) ≤ b * A / 16 := by nlinarith
  have RbA0 : 0 ≤ R * (b * A) := by positivity
  have ubA16 : u * (b * A) ≤ b * A / 256 := by nlinarith
  have ube16 : u * (b * e) ≤ b * e / 256 := by nlinarith
  have uRbA : u * (R * (b * A)) ≤ u * (b * A) / 16 := (mul_le_mul_of_nonneg_left RbA hu).trans (le_of_eq (by ring))
  have uRbA0 : 0 ≤ u * (R * (b * A)) := by positivity
  have uubA : u * (u * (b * A)) ≤ u * (b * A) / 256 := by nlinarith
  have uuRbA : u * (u * (R * (b * A))) ≤ u * (b * A) / 256 := by
    have := mul_le_mul_of_nonneg_left uRbA hu
    linarith
  have uube : u * (u * (b * e)) ≤ u * (b * e) / 256 := by nlinarith
  have bA1 : b * A ≤ A := by nlinarith
  have be1 : b * e ≤ e := by nlinarith
  have uη : u * η ≤ η / 256 := by nlinarith
  have uη0 : 0 ≤ u * η := by positivity
  have uzz : u * zz ≤ zz / 256 := by nlinarith
  have uzz0 : 0 ≤ u * zz := by positivity
  have uuzz : u * (u * zz) ≤ u * zz / 256 := by nlinarith
  have hprod : |βv * mv| ≤ b * A + R * (b * A) + b * e + 2 * (u * (b * A)) + 2 * (u * (R * (b * A))) + 2 * (u * (b * e)) := by
    rw [abs_mul]
    refine (mul_le_mul hβv hmv (abs_nonneg _) (by positivity)).trans (le_of_eq (by ring))
  have hprodM : |βv * mv| ≤ M := by linarith
  obtain ⟨pv, hp, hpe⟩ := hF (βv * mv) hprodM
  have hup : u * |βv * mv| ≤ u * (b * A) + u * (R * (b * A)) + u * (b * e) + 2 * (u * (u * (b * A))) + 2 * (u * (u * (R * (b * A)))) + 2 * (u * (u * (b * e))) :=
    (mul_le_mul_of_nonneg_left hprod hu).trans (le_of_eq (by ring))
  have e2 : |βv * mv - b * m| ≤ 2 * (u * (b * A)) + 2 * (u * (R * (b * A))) + 2 * (u * (b * e)) + R * (b * A) + b * e := by
    have : βv * mv - b * m = (βv - b) * mv + b * (mv - m) := by ring
    rw [this]
    refine (abs_add_le _ _).trans ?_
    rw [abs_mul, abs_mul, abs_of_nonneg hb0]
    have h1 : |βv - b| * |mv| ≤ (2 * u * b) * ((1 + R) * A + e) := mul_le_mul hβb hmv (abs_nonneg _) (by positivity)
    have h3 := mul_le_mul_of_nonneg_left hme hb0
    linarith
  have e3 : |pv - b * m| ≤ R * (b * A) + b * e + 13 / 4 * (u * (b * A)) + 31 / 10 * (u * (b * e)) + η := by
    have h1 := abs_add_le (pv - βv * mv) (βv * mv - b * m)
    rw [show pv - βv * mv + (βv * mv - b * m) = pv - b * m by ring] at h1
    linarith
  have hsum : |av + pv| ≤ zz + b * A + 6 * (u * zz) + 3 * η + R * (b * A) + b * e + 13 / 4 * (u * (b * A)) + 31 / 10 * (u * (b * e)) + η := by
    have h1 := abs_sub_abs_le_abs_sub av z
    have h2 := abs_sub_abs_le_abs_sub pv (b * m)
    have h3 := abs_add_le av pv
    have h4 : |b * m| ≤ b * A := by rw [abs_mul, abs_of_nonneg hb0]; exact mul_le_mul_of_nonneg_left hmA hb0
    linarith
  obtain ⟨v, hv, hve⟩ := hF (av + pv) (by linarith)
  refine ⟨v, ?_, ?_⟩
  · rw [add_val, mul_val, hβ, hm, XReal.fin_mul, ha]
    show F.round (.fin av + F.rnd (βv * mv)) = _
    rw [hp, XReal.fin_add]; exact hv
  · have : v - (z + b * m) = (v - (av + pv)) + (av - z) + (pv - b * m) := by ring
    rw [this]
    have h1 := abs_add_le (v - (av + pv) + (av - z)) (pv - b * m)
    have h2 := abs_add_le (v - (av + pv)) (av - z)
    have h4 := mul_le_mul_of_nonneg_left hsum hu
    have Rzz : 3 * (u * zz) ≤ R * zz := by nlinarith
    have : u * (zz + b * A + 6 * (u * zz) + 3 * η + R * (b * A) + b * e + 13 / 4 * (u * (b * A)) + 31 / 10 * (u * (b * e)) + η) =
      u * zz + u * (b * A) + 6 * (u * (u * zz)) + 4 * (u * η) + u * (R * (b * A)) + u * (b * e) + 13 / 4 * (u * (u * (b * A))) + 31 / 10 * (u * (u * (b * e))) := by ring
    rw [this] at h4
    have e5 : (R + 5 * u) * (zz + b * A) + (b * e * (1 + 6 * u) + 6 * η) =
      R * zz + R * (b * A) + 5 * (u * zz) + 5 * (u * (b * A)) + b * e + 6 * (u * (b * e)) + 6 * η := by ring
    rw [e5]
    linarith

/-- the moving average from zero, rounded: the error relative to the average of the absolute values grows by `5u` per step -/
theorem rel_accumulate {u η M : ℝ} (hF : ErrModel F u η M) (hu : 0 ≤ u) (hu16 : u ≤ 1 / 256) (hη : 0 ≤ η) {b B : ℝ} (hb0 : 0 ≤ b)
    (hb1 : b < 1) (hb6 : b * (1 + 6 * u) ≤ 1) {β : FP F} {βv : ℝ} (hβ : β.1 = .fin βv) (hβb : |βv - b| ≤ 2 * u * b) (a : ℕ → FP F) (z zz : ℕ → ℝ)
    (hz : ∀ n, |z n| ≤ zz n) (ha : ∀ n, ∃ v, (a n).1 = .fin v ∧ |v - z n| ≤ 6 * u * zz n + 3 * η) (hB : ∀ n, zz n ≤ (1 - b) * B) (N : ℕ)
    (hN : (5 * N + 3) * u ≤ 1 / 16) (hM : 8 * B + (24 * N + 8) * η ≤ M) :
    ∀ n ≤ N, ∃ v, (accF β a n).1 = .fin v ∧ |v - geoSum b z n| ≤ (5 * n + 3) * u * geoSum b zz n + 6 * n * η := by
  have h1b : 0 < 1 - b := by linarith
  have hzz : ∀ n, 0 ≤ zz n := fun n => (abs_nonneg _).trans (hz n)
  have hB0 : 0 ≤ B := nonneg_of_mul_nonneg_right ((hzz 0).trans (hB 0)) h1b
  have hA : ∀ n, geoSum b zz n ≤ B := fun n => by
    have := abs_geoSum_le (d := b) (G := (1 - b) * B) (by rw [abs_of_nonneg hb0]; exact hb1) (by positivity) (x := zz) n
      (fun j _ => by rw [abs_of_nonneg (hzz j)]; exact hB j)
    rw [abs_of_nonneg hb0, mul_div_assoc, mul_div_cancel₀ _ h1b.ne'] at this
    exact (le_abs_self _).trans this
  have habs : ∀ n, |geoSum b z n| ≤ geoSum b zz n := fun n => by
    induction n with
    | zero => simp
    | succ n ih =>
      rw [geoSum_succ, geoSum_succ]
      refine (abs_add_le _ _).trans ?_
      rw [abs_mul, abs_of_nonneg hb0]
      exact _root_.add_le_add (hz n) (mul_le_mul_of_nonneg_left ih hb0)
  intro n
  induction n with
  | zero => intro _; exact ⟨0, by simp [accF], by simp⟩
  | succ n ih =>
    intro hn
    have hnN : ((n : ℕ) : ℝ) + 1 ≤ N := by exact_mod_cast hn
    obtain ⟨mv, hm, hme⟩ := ih (by omega)
    obtain ⟨av, hav, hae⟩ := ha n
    have hn0 : (0 : ℝ) ≤ n := Nat.cast_nonneg n
    obtain ⟨v, hv, hve⟩ := rel_step hF hu hu16 hη hb0 hb1.le (R := (5 * n + 3) * u) (e := 6 * n * η) (by nlinarith)
      (by nlinarith) (by positivity) hav hβ hm (hz n) hae hβb (habs n) hme (by
        have := hA n
        have h2 : zz n ≤ B := (hB n).trans (by nlinarith)
        nlinarith)
    refine ⟨v, hv, ?_⟩
    rw [geoSum_succ, geoSum_succ]
    refine hve.trans ?_
    have h3 : b * (6 * n * η) * (1 + 6 * u) ≤ 6 * n * η := by
      have := mul_le_mul_of_nonneg_right hb6 (show 0 ≤ 6 * n * η by positivity)
      linarith
    push_cast
    have : ((5 * n + 3) * u + 5 * u) * (zz n + b * geoSum b zz n) = (5 * (n + 1) + 3) * u * (zz n + b * geoSum b zz n) := by ring
    linarith

/-- a quotient of two approximate numbers, rounded -/
theorem div_err {u η M : ℝ} (hF : ErrModel F u η M) (hu : 0 ≤ u) (hu16 : u ≤ 1 / 256) {r e ρ x X c av cv : ℝ} {a cf : FP F} (ha : a.1 = .fin av)
    (hc : cf.1 = .fin cv) (hc0 : 0 < c) (hx : |x| ≤ X) (hr0 : 0 ≤ r) (hr : r ≤ 1 / 8) (hρ0 : 0 ≤ ρ) (hρ : ρ ≤ 1 / 8) (he : 0 ≤ e)
    (hax : |av - x| ≤ r * X + e) (hcc : |cv - c| ≤ ρ * c) (hM : 2 * (X / c) + 2 * (e / c) ≤ M) :
    ∃ v, (a / cf).1 = .fin v ∧ |v - x / c| ≤ (r + 13 / 10 * ρ + 2 * u) * (X / c) + 2 * (e / c) + η := by
  have hX : 0 ≤ X := (abs_nonneg _).trans hx
  have hcv : (1 - ρ) * c ≤ cv := by have := (abs_le.1 hcc).1; linarith
  have hcv0 : 0 < cv := lt_of_lt_of_le (mul_pos (by linarith) hc0) hcv
  set Y := X / c with hY
  set E := e / c with hE
  have hY0 : 0 ≤ Y := by positivity
  have hE0 : 0 ≤ E := by positivity
  have hXY : X = Y * c := by rw [hY]; field_simp
  have heE : e = E * c := by rw [hE]; field_simp
  have hq : |av / cv - x / c| ≤ (r * Y + ρ * Y + E) * (1 + 8 / 7 * ρ) := by
    have e1 : av / cv - x / c = ((av - x) + x / c * (c - cv)) / cv := by field_simp; ring
    have h1 : |(av - x) + x / c * (c - cv)| ≤ (r * Y + ρ * Y + E) * c := by
      refine (abs_add_le _ _).trans ?_
      rw [abs_mul, abs_div, abs_of_pos hc0, abs_sub_comm c cv]
      have h2 : |x| / c * |cv - c| ≤ Y * (ρ * c) :=
        mul_le_mul (div_le_div_of_nonneg_right hx hc0.le) hcc (abs_nonneg _) hY0
      rw [hXY, heE] at hax
      linarith
    rw [e1, abs_div, abs_of_pos hcv0, div_le_iff₀ hcv0]
    refine h1.trans ?_
    have h3 : c ≤ (1 + 8 / 7 * ρ) * cv := by
      have h4 := mul_le_mul_of_nonneg_left hcv (show 0 ≤ 1 + 8 / 7 * ρ by positivity)
      have h5 : 1 ≤ (1 + 8 / 7 * ρ) * (1 - ρ) := by nlinarith
      nlinarith
    have h6 := mul_le_mul_of_nonneg_left h3 (show 0 ≤ r * Y + ρ * Y + E by positivity)
    linarith
  have rY : r * Y ≤ Y / 8 := by nlinarith
  have ρY : ρ * Y ≤ Y / 8 := by nlinarith
  have ρY0 : 0 ≤ ρ * Y := by positivity
  have rY0 : 0 ≤ r * Y := by positivity
  have hq2 : |av / cv - x / c| ≤ r * Y + 9 / 7 * (ρ * Y) + 8 / 7 * E := by
    refine hq.trans ?_
    have h1 : ρ * (r * Y) ≤ ρ * Y / 8 := by nlinarith
    have h2 : ρ * (ρ * Y) ≤ ρ * Y / 8 := by nlinarith
    have h3 : ρ * E ≤ E / 8 := by nlinarith
    linarith
  have hxc : |x / c| ≤ Y := by rw [abs_div, abs_of_pos hc0]; exact div_le_div_of_nonneg_right hx hc0.le
  have hqa : |av / cv| ≤ Y + (r * Y + 9 / 7 * (ρ * Y) + 8 / 7 * E) := by
    have := abs_sub_abs_le_abs_sub (av / cv) (x / c)
    linarith
  obtain ⟨v, hv, hve⟩ := hF (av / cv) (by linarith)
  refine ⟨v, ?_, ?_⟩
  · rw [div_val, ha, hc, XReal.fin_div _ _ hcv0.ne']; exact hv
  · have h1 := abs_add_le (v - av / cv) (av / cv - x / c)
    rw [show v - av / cv + (av / cv - x / c) = v - x / c by ring] at h1
    have h2 := mul_le_mul_of_nonneg_left hqa hu
    have uY : 0 ≤ u * Y := by positivity
    have urY : u * (r * Y) ≤ u * Y / 8 := (mul_le_mul_of_nonneg_left rY hu).trans (le_of_eq (by ring))
    have uρY : u * (ρ * Y) ≤ u * Y / 8 := (mul_le_mul_of_nonneg_left ρY hu).trans (le_of_eq (by ring))
    have uE : u * E ≤ E / 256 := by nlinarith
    have e2 : u * (Y + (r * Y + 9 / 7 * (ρ * Y) + 8 / 7 * E)) = u * Y + u * (r * Y) + 9 / 7 * (u * (ρ * Y)) + 8 / 7 * (u * E) := by ring
    rw [e2] at h2
    have e3 : (r + 13 / 10 * ρ + 2 * u) * Y = r * Y + 13 / 10 * (ρ * Y) + 2 * (u * Y) := by ring
    rw [e3]
    linarith

/-- a square root with relative and absolute error -/
theorem sqrt_err {a x r e : ℝ} (hx : 0 ≤ x) (hr0 : 0 ≤ r) (hr : r ≤ 1) (he : 0 ≤ e) (h : |a - x| ≤ r * x + e) :
    |Real.sqrt a - Real.sqrt x| ≤ r * Real.sqrt x + Real.sqrt e := by
  have h1 := (abs_le.1 h).1
  have h2 := (abs_le.1 h).2
  have sx := Real.sqrt_nonneg x
  have se := Real.sqrt_nonneg e
  have qx := Real.sq_sqrt hx
  have qe := Real.sq_sqrt he
  have p1 : 0 ≤ Real.sqrt x * Real.sqrt e := by positivity
  rw [abs_le]
  constructor
  · have : Real.sqrt x - r * Real.sqrt x - Real.sqrt e ≤ Real.sqrt a := by
      by_cases h0 : Real.sqrt x - r * Real.sqrt x - Real.sqrt e ≤ 0
      · exact h0.trans (Real.sqrt_nonneg a)
      · refine Real.le_sqrt_of_sq_le ?_
        have h3 : Real.sqrt e ≤ (1 - r) * Real.sqrt x := by linarith
        have h4 : Real.sqrt e * Real.sqrt e ≤ Real.sqrt e * ((1 - r) * Real.sqrt x) := mul_le_mul_of_nonneg_left h3 se
        have h5 : ((1 - r) * Real.sqrt x) ^ 2 ≤ (1 - r) * x := by
          rw [mul_pow, qx]
          nlinarith [mul_nonneg hr0 hx, mul_nonneg (mul_nonneg hr0 hx) (sub_nonneg.2 hr)]
        nlinarith
    linarith
  · have : Real.sqrt a ≤ (1 + r) * Real.sqrt x + Real.sqrt e := by
      rw [Real.sqrt_le_left (by positivity)]
      have h5 : (1 + r) * x ≤ ((1 + r) * Real.sqrt x) ^ 2 := by
        rw [mul_pow, qx]
        nlinarith [mul_nonneg hr0 hx, mul_nonneg (mul_nonneg hr0 hx) hr0]
      nlinarith [mul_nonneg hr0 p1]
    linarith

set_option maxHeartbeats 4000000 in
/-- the last stage: bias corrections, square root, division -/
theorem adam_final {u η M : ℝ} (hF : ErrModel F u η M) (hu : 0 ≤ u) (hu16 : u ≤ 1 / 256) (hη : 0 ≤ η) {R e m A v c1 c2 eps mv sv c1v c2v epsv Q k1 k2 : ℝ}
    {mf sf c1f c2f epsf : FP F} (hm : mf.1 = .fin mv) (hs : sf.1 = .fin sv) (h1 : c1f.1 = .fin c1v) (h2 : c2f.1 = .fin c2v) (hε : epsf.1 = .fin epsv)
    (hR0 : 0 ≤ R) (hR : R + 10 * u ≤ 1 / 8) (he0 : 0 ≤ e) (hmA : |m| ≤ A) (hme : |mv - m| ≤ R * A + e) (hv0 : 0 ≤ v) (hsv : 0 ≤ sv) (hse : |sv - v| ≤ R * v + e)
    (hk1 : 0 < k1) (hk2 : 0 < k2) (hc1 : k1 ≤ c1) (hc2 : k2 ≤ c2) (h1e : |c1v - c1| ≤ 2 * u * c1) (h2e : |c2v - c2| ≤ 2 * u * c2) (hε0 : 0 < eps) (hεe : |epsv - eps| ≤ 2 * u * eps)
    (hsmall : 4 * Real.sqrt (2 * e / k2 + η) + 4 * η ≤ u * eps) (hε1 : eps ≤ 1)
    (hQ1 : (A + e + 1) / k1 ≤ Q * eps) (hQ2 : (v + e + 1) / k2 ≤ Q) (hQ : 16 * Q ≤ M) (hk1' : k1 ≤ 1) (hk2' : k2 ≤ 1) :
    ∃ r, ((mf / c1f) / (JOps.sqrt (sf / c2f) + epsf)).1 = .fin r ∧
      |r - m / c1 / (Real.sqrt (v / c2) + eps)| ≤ (23 / 10 * R + 20 * u) * (A / c1 / (Real.sqrt (v / c2) + eps)) + (4 * e / k1 + 3 * η) / eps := by
  have hc10 : 0 < c1 := by linarith
  have hc20 : 0 < c2 := by linarith
  have hA0 : 0 ≤ A := (abs_nonneg _).trans hmA
  have hQ1' : 1 ≤ Q := by
    refine le_trans ?_ hQ2
    rw [le_div_iff₀ hk2]; linarith
  have hQε : Q * eps ≤ Q := by
    have : 0 ≤ Q := le_trans (by positivity) hQ2
    nlinarith
  have div1 : ∀ t, 0 ≤ t → t / c1 ≤ t / k1 := fun t ht => div_le_div_of_nonneg_left ht hk1 hc1
  have div2 : ∀ t, 0 ≤ t → t / c2 ≤ t / k2 := fun t ht => div_le_div_of_nonneg_left ht hk2 hc2
  -- the first moment
  obtain ⟨pv, hp, hpe⟩ := div_err hF hu hu16 (r := R) (e := e) (ρ := 2 * u) (X := A) hm h1 hc10 hmA hR0 (by linarith) (by linarith) (by linarith) he0 hme h1e (by
    have := div1 (A + e + 1) (by linarith)
    have e1 : 2 * (A / c1) + 2 * (e / c1) ≤ 2 * ((A + e + 1) / c1) := by
      rw [add_div, add_div]; have : 0 ≤ 1 / c1 := by positivity
      linarith
    have : 0 ≤ Q := le_trans (by positivity) hQ2
    linarith)
  -- the second moment
  obtain ⟨nv, hn, hne⟩ := div_err hF hu hu16 (r := R) (e := e) (ρ := 2 * u) (X := v) hs h2 hc20 (le_of_eq (abs_of_nonneg hv0)) hR0 (by linarith) (by linarith) (by linarith) he0 hse h2e (by
    have := div2 (v + e + 1) (by linarith)
    have e1 : 2 * (v / c2) + 2 * (e / c2) ≤ 2 * ((v + e + 1) / c2) := by
      rw [add_div, add_div]; have : 0 ≤ 1 / c2 := by positivity
      linarith
    have : 0 ≤ Q := le_trans (by positivity) hQ2
    linarith)
  have hnv : 0 ≤ nv := by
    have hc2v : 0 < c2v := by
      have := (abs_le.1 h2e).1
      nlinarith
    have h3 : (0 : FP F) ≤ sf := (nonneg_iff _).2 (.inr ⟨sv, hsv, hs⟩)
    have h4 : (0 : FP F) < c2f := (FP.lt_fin zero_val h2).2 hc2v
    have h5 := div_nonneg_of_pos h3 h4 ((isFin_iff _).2 ⟨_, h2⟩)
    exact (FP.le_fin zero_val hn).1 h5
  set mh := m / c1 with hmh
  set Ah := A / c1 with hAh
  set vh := v / c2 with hvh
  have hvh0 : 0 ≤ vh := by positivity
  have hAh0 : 0 ≤ Ah := by positivity
  have hmAh : |mh| ≤ Ah := by rw [hmh, abs_div, abs_of_pos hc10]; exact div_le_div_of_nonneg_right hmA hc10.le
  have hp' : |pv - mh| ≤ (R + 5 * u) * Ah + (2 * (e / k1) + η) := by
    refine hpe.trans ?_
    have := div1 e he0
    have h3 : (R + 13 / 10 * (2 * u) + 2 * u) * Ah ≤ (R + 5 * u) * Ah := mul_le_mul_of_nonneg_right (by linarith) hAh0
    linarith
  have hn' : |nv - vh| ≤ (R + 5 * u) * vh + (2 * e / k2 + η) := by
    refine hne.trans ?_
    have := div2 e he0
    have h3 : (R + 13 / 10 * (2 * u) + 2 * u) * vh ≤ (R + 5 * u) * vh := mul_le_mul_of_nonneg_right (by linarith) hvh0
    have e1 : 2 * e / k2 = 2 * (e / k2) := by ring
    linarith
  set E2 := 2 * e / k2 + η with hE2
  have hE20 : 0 ≤ E2 := by positivity
  have hsq := sqrt_err (a := nv) hvh0 (show 0 ≤ R + 5 * u by linarith) (by linarith) hE20 hn'
  set w := Real.sqrt vh with hw
  have hw0 : 0 ≤ w := Real.sqrt_nonneg _
  set t := Real.sqrt E2 with ht
  have ht0 : 0 ≤ t := Real.sqrt_nonneg _
  have hsqa : Real.sqrt nv ≤ w + ((R + 5 * u) * w + t) := by have := (abs_le.1 hsq).2; linarith
  have hwQ : w ≤ Q := by
    have h3 : vh ≤ Q := by
      have h4 := div2 (v + e + 1) (by linarith)
      have h5 : vh ≤ (v + e + 1) / c2 := div_le_div_of_nonneg_right (by linarith) hc20.le
      linarith
    rw [hw, Real.sqrt_le_left (by linarith)]
    nlinarith
  have Rw : (R + 5 * u) * w ≤ w / 8 := by nlinarith
  have tu : 4 * t + 4 * η ≤ u * eps := hsmall
  have ue : u * eps ≤ 1 / 256 := by nlinarith
  obtain ⟨wv, hwv, hwe⟩ := hF (Real.sqrt nv) (by rw [abs_of_nonneg (Real.sqrt_nonneg _)]; linarith)
  have hsf : (JOps.sqrt (sf / c2f) : FP F).1 = .fin wv := by
    have h3 : (JOps.sqrt (sf / c2f) : FP F).1 = F.round (JOps.sqrt (sf / c2f).1) := rfl
    have h4 : (JOps.sqrt (XReal.fin nv) : XReal) = .fin (Real.sqrt nv) := by
      show (if nv < 0 then XReal.nan else .fin (Real.sqrt nv)) = _
      rw [if_neg (not_lt.2 hnv)]
    rw [h3, hn, h4]; exact hwv
  have hwe' : |wv - w| ≤ (R + 7 * u) * w + 2 * t + η := by
    have h3 := abs_add_le (wv - Real.sqrt nv) (Real.sqrt nv - w)
    rw [show wv - Real.sqrt nv + (Real.sqrt nv - w) = wv - w by ring, ] at h3
    rw [abs_of_nonneg (Real.sqrt_nonneg nv)] at hwe
    have h4 := mul_le_mul_of_nonneg_left hsqa hu
    have h5 : u * ((R + 5 * u) * w) ≤ u * w / 8 := (mul_le_mul_of_nonneg_left Rw hu).trans (le_of_eq (by ring))
    have h6 : u * t ≤ t / 256 := by nlinarith
    have h7 : 0 ≤ u * w := by positivity
    nlinarith
  set d := w + eps with hd
  have hd0 : 0 < d := by linarith
  have hdε : eps ≤ d := by linarith
  have hsum : |wv + epsv - d| ≤ (R + 7 * u) * d + 2 * t + η := by
    have h3 := abs_add_le (wv - w) (epsv - eps)
    rw [show wv - w + (epsv - eps) = wv + epsv - d by rw [hd]; ring] at h3
    have h4 : 2 * u * eps ≤ (R + 7 * u) * eps := mul_le_mul_of_nonneg_right (by linarith) hε0.le
    have h5 : (R + 7 * u) * d = (R + 7 * u) * w + (R + 7 * u) * eps := by rw [hd]; ring
    linarith
  have Rd : (R + 7 * u) * d ≤ d / 8 := by nlinarith
  have hsa : |wv + epsv| ≤ d + ((R + 7 * u) * d + 2 * t + η) := by
    have := abs_sub_abs_le_abs_sub (wv + epsv) d
    rw [abs_of_pos hd0] at this
    linarith
  obtain ⟨dv, hdv, hde⟩ := hF (wv + epsv) (by linarith)
  have hdf : (JOps.sqrt (sf / c2f) + epsf).1 = .fin dv := by
    rw [add_val, hsf, hε, XReal.fin_add]; exact hdv
  have hde' : |dv - d| ≤ (R + 10 * u) * d := by
    have h3 := abs_add_le (dv - (wv + epsv)) (wv + epsv - d)
    rw [show dv - (wv + epsv) + (wv + epsv - d) = dv - d by ring] at h3
    have h4 := mul_le_mul_of_nonneg_left hsa hu
    have h5 : u * ((R + 7 * u) * d) ≤ u * d / 8 := (mul_le_mul_of_nonneg_left Rd hu).trans (le_of_eq (by ring))
    have h6 : u * t ≤ t / 256 := by nlinarith
    have h7 : u * η ≤ η / 256 := by nlinarith
    have h8 : u * eps ≤ u * d := mul_le_mul_of_nonneg_left hdε hu
    nlinarith
  have hAQ : Ah + 2 * (e / k1) + η ≤ 3 * (Q * eps) := by
    have h3 := div1 A hA0
    have h4 : (A + e + 1) / k1 = A / k1 + e / k1 + 1 / k1 := by ring
    have h5 : 1 ≤ 1 / k1 := by rw [le_div_iff₀ hk1]; linarith
    have h6 : 0 ≤ A / k1 := by positivity
    have h7 : 0 ≤ e / k1 := by positivity
    linarith
  obtain ⟨rv, hrv, hre⟩ := div_err hF hu hu16 (r := R + 5 * u) (e := 2 * (e / k1) + η) (ρ := R + 10 * u) (X := Ah) hp hdf hd0 hmAh (by linarith) (by linarith) (by linarith)
    hR (by positivity) hp' hde' (by
      have h3 : 2 * (Ah / d) + 2 * ((2 * (e / k1) + η) / d) = 2 * ((Ah + 2 * (e / k1) + η) / d) := by ring
      have h4 : (Ah + 2 * (e / k1) + η) / d ≤ 3 * Q := by
        rw [div_le_iff₀ hd0]
        nlinarith
      rw [h3]; linarith)
  refine ⟨rv, hrv, hre.trans ?_⟩
  have h3 : (R + 5 * u + 13 / 10 * (R + 10 * u) + 2 * u) * (Ah / d) = (23 / 10 * R + 20 * u) * (Ah / d) := by ring
  have h4 : (2 * (e / k1) + η) / d ≤ (2 * (e / k1) + η) / eps := div_le_div_of_nonneg_left (by positivity) hε0 hdε
  have h5 : η ≤ η / eps := by rw [le_div_iff₀ hε0]; nlinarith
  have h6 : (4 * e / k1 + 3 * η) / eps = 2 * ((2 * (e / k1) + η) / eps) + η / eps := by ring
  rw [h3, h6]
  linarith


/-- the float accumulator of non-negative terms is non-negative -/
theorem accF_nonneg {β : FP F} (hβ : 0 ≤ β) (hβf : IsFin β) {a : ℕ → FP F} (ha : ∀ n, 0 ≤ a n) (N : ℕ)
    (h : ∀ n ≤ N, IsFin (accF β a n)) : ∀ n ≤ N, 0 ≤ accF β a n := by
  intro n
  induction n with
  | zero => intro _; exact (FP.le_fin zero_val zero_val).2 le_rfl
  | succ n ih =>
    intro hn
    exact FP.add_nonneg (ha n) (FP.mul_nonneg' hβ (ih (by omega)) hβf (h n (by omega)))

set_option maxHeartbeats 1000000 in
/-- one moment estimate of Adam in floating point, relative to the estimate for the absolute values -/
theorem moment_rel {u η M : ℝ} (hF : ErrModel F u η M) (hu : 0 ≤ u) (hu16 : u ≤ 1 / 256) (hη : 0 ≤ η) (h1M : 1 ≤ M) (b : ℚ) (hb0 : 0 ≤ (b : ℝ))
    (hb1 : (b : ℝ) < 1) (hb6 : (b : ℝ) * (1 + 6 * u) ≤ 1) (hηb : η ≤ u * b) (hηb' : η ≤ u * (1 - b)) {B : ℝ} (p : ℕ → FP F) (z : ℕ → ℝ)
    (hz : ∀ n, |z n| ≤ B) (hp : ∀ n, ∃ v, (p n).1 = .fin v ∧ |v - z n| ≤ u * |z n| + η) (N : ℕ) (hN : (5 * N + 3) * u ≤ 1 / 16)
    (hM : 8 * B + (24 * N + 8) * η ≤ M) :
    ∀ n ≤ N, ∃ v, (accF (JOps.ofRat b) (fun n => JOps.ofRat (1 - b) * p n) n).1 = .fin v ∧
      |v - (1 - b) * geoSum b z n| ≤ (5 * n + 3) * u * ((1 - b) * geoSum b (fun j => |z j|) n) + 6 * n * η := by
  have h1b : 0 < 1 - (b : ℝ) := by linarith
  obtain ⟨βv, hβ, hβe⟩ := const_err (F := F) hF hb0 (by linarith) hηb
  obtain ⟨γv, hγ, hγe⟩ := const_err (F := F) (q := 1 - b) hF (by push_cast; linarith) (by push_cast; linarith)
    (by push_cast; exact hηb')
  push_cast at hγe
  have hB0 : 0 ≤ B := (abs_nonneg _).trans (hz 0)
  have hNη : 0 ≤ (N : ℝ) * η := by positivity
  have := rel_accumulate hF hu hu16 hη hb0 hb1 hb6 hβ hβe (fun n => JOps.ofRat (1 - b) * p n) (fun n => (1 - b) * z n) (fun n => (1 - b) * |z n|)
    (fun n => by rw [abs_mul, abs_of_pos h1b]) (fun n => by
      obtain ⟨pv, hpv, hpe⟩ := hp n
      exact source_step hF hu (by linarith) hη h1b.le (by linarith) hγ hpv le_rfl hγe hpe (by have := hz n; linarith))
    (B := B) (fun n => mul_le_mul_of_nonneg_left (hz n) h1b.le) N hN hM
  intro n hn
  obtain ⟨v, hv, he⟩ := this n hn
  rw [geoSum_smul, geoSum_smul] at he
  exact ⟨v, hv, he⟩

set_option maxHeartbeats 2000000 in
/-- **C131.** Adam's updates in floating point: for every history of `N` finite gradients of size at most `G`, every update
`scale_by_adam` returns is finite, and the `n`-th (from zero) differs from the update of exact arithmetic by at most `(12 (n+1) + 27) u` times the update
exact Adam returns for the absolute values of the gradients, plus an underflow term of order `n η / eps`. -/
theorem C131_adam {u η M : ℝ} (hF : ErrModel F u η M) (hu : 0 ≤ u) (hu16 : u ≤ 1 / 256) (hη : 0 ≤ η) (b1 b2 eps : ℚ)
    (h10 : 0 ≤ (b1 : ℝ)) (h11 : (b1 : ℝ) < 1) (h20 : 0 ≤ (b2 : ℝ)) (h21 : (b2 : ℝ) < 1) (h16 : (b1 : ℝ) * (1 + 6 * u) ≤ 1) (h26 : (b2 : ℝ) * (1 + 6 * u) ≤ 1)
    (hη1 : η ≤ u * b1) (hη2 : η ≤ u * b2) (hη1' : η ≤ u * (1 - b1)) (hη2' : η ≤ u * (1 - b2)) (hε0 : 0 < (eps : ℝ)) (hε1 : (eps : ℝ) ≤ 1) (hηε : η ≤ u * eps)
    {G Q : ℝ} (N : ℕ) (hN : (5 * N + 3) * u ≤ 1 / 16) (hsmall : 4 * Real.sqrt (2 * (6 * N * η) / (1 - b2) + η) + 4 * η ≤ u * eps)
    (hQ1 : (G + 6 * N * η + 1) / (1 - b1) ≤ Q * eps) (hQ2 : (G ^ 2 + 6 * N * η + 1) / (1 - b2) ≤ Q) (hQ : 16 * Q ≤ M)
    (hM : 8 * G + (24 * N + 8) * η ≤ M) (hM2 : 8 * G ^ 2 + (24 * N + 8) * η ≤ M) (h1M : 1 ≤ M)
    (p0 : ℕ → ℕ → FP F) (g : ℕ → ℕ → ℕ → FP F) (x : ℕ → ℕ → ℕ → ℝ) (pp : ℕ → Option (Params (FP F))) (q0 : ℕ → ℕ → ℝ) (pq : ℕ → Option (Params ℝ))
    (hg : ∀ n, Reads σ (g n) (x n)) (hx : ∀ n, ∀ y ∈ idx σ, |x n y.1 y.2| ≤ G) :
    ∃ (U : ℕ → ℕ → ℕ → FP F) (r ex ab : ℕ → ℕ → ℕ → ℝ),
      (scaleByAdamPy b1 b2 eps 0).outs (mk σ p0) (hist σ g pp N) = .ok ((List.range N).map fun n => mk σ (U n)) ∧
      (scaleByAdam (b1 : ℝ) b2 eps 0).outs (mk σ q0) (hist σ x pq N) = .ok ((List.range N).map fun n => mk σ (ex n)) ∧
      (scaleByAdam (b1 : ℝ) b2 eps 0).outs (mk σ q0) (hist σ (fun n k i => |x n k i|) pq N) = .ok ((List.range N).map fun n => mk σ (ab n)) ∧
      ∀ n < N, Reads σ (U n) (r n) ∧
        ∀ y ∈ idx σ, |r n y.1 y.2 - ex n y.1 y.2| ≤
          (12 * (n + 1) + 27) * u * ab n y.1 y.2 + (24 * (n + 1) * η / (1 - b1) + 3 * η) / eps := by
  have e2 : (scaleByAdam (b1 : ℝ) b2 eps 0).outs (mk σ q0) (hist σ x pq N) =
      .ok ((List.range N).map fun n => mk σ (fun k i => adamStep b1 b2 eps 0 (fun j => x j k i) n)) := by
    unfold GT.outs; rw [C26_saturated]; rfl
  have e3 : (scaleByAdam (b1 : ℝ) b2 eps 0).outs (mk σ q0) (hist σ (fun n k i => |x n k i|) pq N) =
      .ok ((List.range N).map fun n => mk σ (fun k i => adamStep b1 b2 eps 0 (fun j => |x j k i|) n)) := by
    unfold GT.outs; rw [C26_saturated]; rfl
  set a1 : ℕ → ℕ → ℕ → FP F := fun k i => accF (JOps.ofRat b1) (fun n => JOps.ofRat (1 - b1) * ipow (g n k i) 1) with ha1
  set a2 : ℕ → ℕ → ℕ → FP F := fun k i => accF (JOps.ofRat b2) (fun n => JOps.ofRat (1 - b2) * ipow (g n k i) 2) with ha2
  have e1 : (scaleByAdamPy b1 b2 eps 0).outs (mk σ p0) (hist σ g pp N) = .ok ((List.range N).map fun n => mk σ (fun k i =>
      (a1 k i (n + 1) / JOps.ofRat (1 - b1 ^ min (n + 1) 2147483647)) /
        (JOps.sqrt (a2 k i (n + 1) / JOps.ofRat (1 - b2 ^ min (n + 1) 2147483647) + JOps.ofRat 0) + JOps.ofRat eps))) := by
    refine outs_hist (scaleByAdamPy b1 b2 eps 0) (mk σ p0) σ g pp N (fun n => ⟨cntAt n, mk σ (fun k i => a1 k i n), mk σ (fun k i => a2 k i n)⟩) _
      (by simp [scaleByAdamPy, cntAt_zero, accF, a1, a2]) (fun n _ => ?_)
    have hc : (cntAt (n + 1)).toInt.toNat = min (n + 1) 2147483647 := by rw [cntAt_toInt]; omega
    rw [scaleByAdamPy_update_mk]
    simp only [safeInt32Increment_cntAt, hc]
    rfl
  have hNη : 0 ≤ (N : ℝ) * η := by positivity
  have key : ∀ n, ∀ y : (_ : ℕ) × ℕ, n < N → y ∈ idx σ → ∃ r,
      ((a1 y.1 y.2 (n + 1) / JOps.ofRat (1 - b1 ^ min (n + 1) 2147483647)) /
        (JOps.sqrt (a2 y.1 y.2 (n + 1) / JOps.ofRat (1 - b2 ^ min (n + 1) 2147483647) + JOps.ofRat 0) + JOps.ofRat eps)).1 = .fin r ∧
      |r - adamStep b1 b2 eps 0 (fun j => x j y.1 y.2) n| ≤
          (12 * (n + 1) + 27) * u * adamStep b1 b2 eps 0 (fun j => |x j y.1 y.2|) n + (24 * (n + 1) * η / (1 - b1) + 3 * η) / eps := by
    intro n y hn hy
    have hnN : (n : ℝ) + 1 ≤ N := by exact_mod_cast hn
    have hn0 : (0 : ℝ) ≤ n := Nat.cast_nonneg n
    have hb1' : 0 < 1 - (b1 : ℝ) := by linarith
    have hb2' : 0 < 1 - (b2 : ℝ) := by linarith
    have hG0 : 0 ≤ G := (abs_nonneg _).trans (hx 0 y hy)
    have hsq : ∀ n, |x n y.1 y.2 ^ 2| ≤ G ^ 2 := fun n => by
      rw [abs_pow]; exact pow_le_pow_left₀ (abs_nonneg _) (hx n y hy) 2
    have hG2 : G ^ 2 ≤ M := by have := _root_.sq_nonneg G; nlinarith
    -- the moments
    have m1 := moment_rel hF hu hu16 hη h1M b1 h10 h11 h16 hη1 hη1' (fun n => ipow (g n y.1 y.2) 1) (fun n => x n y.1 y.2) (fun n => hx n y hy)
      (fun n => ⟨_, hg n y hy, by rw [_root_.sub_self, abs_zero]; positivity⟩) N hN hM
    have hsqf : ∀ n, ∃ v, (ipow (g n y.1 y.2) 2).1 = .fin v ∧ |v - x n y.1 y.2 ^ 2| ≤ u * |x n y.1 y.2 ^ 2| + η := fun n => by
      obtain ⟨r, hr, he⟩ := hF (x n y.1 y.2 ^ 2) ((hsq n).trans hG2)
      refine ⟨r, ?_, he⟩
      show (g n y.1 y.2 * g n y.1 y.2).1 = _
      rw [mul_val, hg n y hy, XReal.fin_mul, ← pow_two]; exact hr
    have m2 := moment_rel hF hu hu16 hη h1M b2 h20 h21 h26 hη2 hη2' (fun n => ipow (g n y.1 y.2) 2) (fun n => x n y.1 y.2 ^ 2) hsq hsqf N hN hM2
    obtain ⟨mv, hmv, hme⟩ := m1 (n + 1) hn
    obtain ⟨sv, hsv, hse⟩ := m2 (n + 1) hn
    -- constants
    have cst : ∀ b : ℚ, 0 ≤ (b : ℝ) → (b : ℝ) < 1 → η ≤ u * (1 - b) → ∃ c cv : ℝ, c = 1 - (b : ℝ) ^ min (n + 1) 2147483647 ∧ 1 - b ≤ c ∧
        (JOps.ofRat (1 - b ^ min (n + 1) 2147483647) : FP F).1 = .fin cv ∧ |cv - c| ≤ 2 * u * c := by
      intro b hb0 hb1 hbη
      have hp : (b : ℝ) ^ min (n + 1) 2147483647 ≤ b := pow_le_of_le_one hb0 hb1.le (by omega)
      have hp0 : 0 ≤ (b : ℝ) ^ min (n + 1) 2147483647 := by positivity
      obtain ⟨cv, h, h'⟩ := const_err (F := F) (q := 1 - b ^ min (n + 1) 2147483647) hF (by push_cast; linarith) (by push_cast; linarith)
        (by push_cast; nlinarith)
      push_cast at h'
      exact ⟨_, cv, rfl, by linarith, h, h'⟩
    obtain ⟨c1, c1v, hc1, hc1k, hc1f, hc1e⟩ := cst b1 h10 h11 hη1'
    obtain ⟨c2, c2v, hc2, hc2k, hc2f, hc2e⟩ := cst b2 h20 h21 hη2'
    obtain ⟨ev, hev, hee⟩ := const_err (F := F) (q := eps) hF hε0.le (by linarith) hηε
    -- signs
    obtain ⟨βv, hβ, hβe⟩ := const_err (F := F) hF h20 (by linarith) hη2
    obtain ⟨γv, hγ, hγe⟩ := const_err (F := F) (q := 1 - b2) hF (by push_cast; linarith) (by push_cast; linarith)
      (by push_cast; exact hη2')
    push_cast at hγe
    have hβ0 : (0 : FP F) ≤ JOps.ofRat b2 := (FP.le_fin zero_val hβ).2 (by have := (abs_le.1 hβe).1; nlinarith)
    have hγ0 : (0 : FP F) ≤ JOps.ofRat (1 - b2) := (FP.le_fin zero_val hγ).2 (by have := (abs_le.1 hγe).1; nlinarith)
    have hsv0 : 0 ≤ sv := by
      refine (FP.le_fin zero_val hsv).1 (accF_nonneg hβ0 ((isFin_iff _).2 ⟨_, hβ⟩) (fun j => ?_) (n + 1) (fun j hj => ?_) (n + 1) le_rfl)
      · obtain ⟨w, hw, _⟩ := hsqf j
        refine mul_nonneg' hγ0 ?_ ((isFin_iff _).2 ⟨_, hγ⟩) ((isFin_iff _).2 ⟨_, hw⟩)
        have hnum : IsNum (g j y.1 y.2) := (isNum_iff _).2 (by rw [hg j y hy]; simp)
        exact FP.sq_nonneg hnum
      · obtain ⟨w, hw, _⟩ := m2 j (by omega)
        exact (isFin_iff _).2 ⟨_, hw⟩
    -- sizes
    have size : ∀ (b B : ℝ) (z : ℕ → ℝ), 0 ≤ b → b < 1 → 0 ≤ B → (∀ j, |z j| ≤ B) → |(1 - b) * geoSum b z (n + 1)| ≤ B := by
      intro b B z h0 h1 hB hz
      have h1b : 0 < 1 - b := by linarith
      have := abs_geoSum_le (d := b) (G := B) (by rw [abs_of_nonneg h0]; exact h1) hB (x := z) (n + 1) (fun j _ => hz j)
      rw [abs_of_nonneg h0, le_div_iff₀ h1b] at this
      rw [abs_mul, abs_of_pos h1b]; linarith
    have pos : ∀ (b : ℝ) (z : ℕ → ℝ), 0 ≤ b → (∀ j, 0 ≤ z j) → ∀ m, 0 ≤ geoSum b z m := by
      intro b z h0 hz m
      induction m with
      | zero => simp
      | succ m ih => rw [geoSum_succ]; have := hz m; positivity
    have hmA : |(1 - b1) * geoSum b1 (fun j => x j y.1 y.2) (n + 1)| ≤ (1 - b1) * geoSum b1 (fun j => |x j y.1 y.2|) (n + 1) := by
      rw [abs_mul, abs_of_pos hb1']
      refine mul_le_mul_of_nonneg_left ?_ hb1'.le
      have : ∀ m, |geoSum b1 (fun j => x j y.1 y.2) m| ≤ geoSum b1 (fun j => |x j y.1 y.2|) m := fun m => by
        induction m with
        | zero => simp
        | succ m ih =>
          rw [geoSum_succ, geoSum_succ]
          refine (abs_add_le _ _).trans ?_
          rw [abs_mul, abs_of_nonneg h10]
          exact _root_.add_le_add le_rfl (mul_le_mul_of_nonneg_left ih h10)
      exact this _
    have hA := (le_abs_self _).trans (size b1 G (fun j => |x j y.1 y.2|) h10 h11 hG0 (fun j => by rw [abs_abs]; exact hx j y hy))
    have hV := (le_abs_self _).trans (size b2 (G ^ 2) (fun j => x j y.1 y.2 ^ 2) h20 h21 (by positivity) hsq)
    have hV0 : 0 ≤ (1 - b2) * geoSum b2 (fun j => x j y.1 y.2 ^ 2) (n + 1) := _root_.mul_nonneg hb2'.le (pos _ _ h20 (fun j => _root_.sq_nonneg _) _)
    have habs2 : (fun j => |x j y.1 y.2 ^ 2|) = fun j => x j y.1 y.2 ^ 2 := by funext j; exact abs_of_nonneg (_root_.sq_nonneg _)
    have habs3 : (fun j => |x j y.1 y.2| ^ 2) = fun j => x j y.1 y.2 ^ 2 := by funext j; exact sq_abs _
    rw [habs2] at hse
    have heN : 6 * ((n : ℝ) + 1) * η ≤ 6 * N * η := by nlinarith
    push_cast at hme hse
    have hz0 : (JOps.ofRat 0 : FP F) = 0 := by
      apply ext; rw [zero_val]; show F.round (.fin ((0 : ℚ) : ℝ)) = _; rw [Rat.cast_zero]; exact F.rnd_zero
    obtain ⟨r, hr, hre⟩ := adam_final (R := (5 * (n + 1) + 3) * u) (e := 6 * (n + 1) * η) (k1 := 1 - b1) (k2 := 1 - b2) (Q := Q) hF hu hu16 hη hmv hsv hc1f hc2f hev
      (by positivity) (by nlinarith) (by positivity) hmA hme hV0 hsv0 hse hb1' hb2' hc1k hc2k hc1e hc2e hε0 hee
      (by
        refine le_trans ?_ hsmall
        have : 2 * (6 * ((n : ℝ) + 1) * η) / (1 - b2) + η ≤ 2 * (6 * N * η) / (1 - b2) + η := by
          have := div_le_div_of_nonneg_right (mul_le_mul_of_nonneg_left heN (show (0 : ℝ) ≤ 2 by norm_num)) hb2'.le
          linarith
        have := Real.sqrt_le_sqrt this
        linarith) hε1
      ((div_le_div_of_nonneg_right (by linarith) hb1'.le).trans hQ1) ((div_le_div_of_nonneg_right (by linarith) hb2'.le).trans hQ2) hQ (by linarith) (by linarith)
    refine ⟨r, ?_, ?_⟩
    · rw [hz0, FP.add_zero]; exact hr
    · unfold adamStep
      rw [habs3, ← hc1, ← hc2, _root_.add_zero]
      refine hre.trans ?_
      have hc10 : 0 < c1 := by linarith
      have hA0 : 0 ≤ (1 - b1) * geoSum b1 (fun j => |x j y.1 y.2|) (n + 1) / c1 /
          (Real.sqrt ((1 - b2) * geoSum b2 (fun j => x j y.1 y.2 ^ 2) (n + 1) / c2) + eps) := by
        have := (abs_nonneg _).trans hmA
        positivity
      refine _root_.add_le_add (mul_le_mul_of_nonneg_right ?_ hA0) (le_of_eq (by ring))
      nlinarith
  choose! r hr he using key
  exact ⟨_, fun n k i => r n ⟨k, i⟩, _, _, e1, e2, e3, fun n hn => ⟨fun y hy => hr n y hn hy, fun y hy => he n y hn hy⟩⟩


/-- **C131.** In float32 with the default hyper-parameters of `adam`, over up to 200000 steps and gradients of size at most `10^15`: every
update is finite and the `n`-th (from zero) is within `(12 (n+1) + 27) · 2⁻²⁴` of the update of exact arithmetic, relative to the update exact Adam
returns for the absolute values of the gradients (which C27 bounds by a constant), up to `10⁻²⁹`. -/
theorem C131_float32 {G : ℝ} (hG0 : 0 ≤ G) (hG : G ≤ 10 ^ 15) (N : ℕ) (hN : N ≤ 200000)
    (p0 : ℕ → ℕ → FP Format.float32) (g : ℕ → ℕ → ℕ → FP Format.float32) (x : ℕ → ℕ → ℕ → ℝ)
    (pp : ℕ → Option (Params (FP Format.float32))) (q0 : ℕ → ℕ → ℝ) (pq : ℕ → Option (Params ℝ))
    (hg : ∀ n, Reads σ (g n) (x n)) (hx : ∀ n, ∀ y ∈ idx σ, |x n y.1 y.2| ≤ G) :
    ∃ (U : ℕ → ℕ → ℕ → FP Format.float32) (r ex ab : ℕ → ℕ → ℕ → ℝ),
      (scaleByAdamPy (9 / 10) (999 / 1000) (1 / 10 ^ 8) 0).outs (mk σ p0) (hist σ g pp N) = .ok ((List.range N).map fun n => mk σ (U n)) ∧
      (scaleByAdam (9 / 10 : ℝ) (999 / 1000) (1 / 10 ^ 8) 0).outs (mk σ q0) (hist σ x pq N) = .ok ((List.range N).map fun n => mk σ (ex n)) ∧
      (scaleByAdam (9 / 10 : ℝ) (999 / 1000) (1 / 10 ^ 8) 0).outs (mk σ q0) (hist σ (fun n k i => |x n k i|) pq N) =
        .ok ((List.range N).map fun n => mk σ (ab n)) ∧
      ∀ n < N, Reads σ (U n) (r n) ∧
        ∀ y ∈ idx σ, |r n y.1 y.2 - ex n y.1 y.2| ≤ (12 * (n + 1) + 27) * 2 ^ (-24 : ℤ) * ab n y.1 y.2 + 1 / 10 ^ 29 := by
  have hN' : (N : ℝ) ≤ 200000 := by exact_mod_cast hN
  have hN0 : (0 : ℝ) ≤ N := Nat.cast_nonneg N
  have hGG : G ^ 2 ≤ (10 ^ 15 : ℝ) ^ 2 := pow_le_pow_left₀ hG0 hG 2
  obtain ⟨U, r, ex, ab, h1, h2, h3, h4⟩ := C131_adam σ Format.float32_err (by norm_num) (by norm_num) (by norm_num) (9 / 10) (999 / 1000) (1 / 10 ^ 8)
    (by norm_num) (by norm_num) (by norm_num) (by norm_num) (by norm_num) (by norm_num) (by norm_num) (by norm_num) (by norm_num) (by norm_num)
    (by norm_num) (by norm_num) (by norm_num) (G := G) (Q := 2 * 10 ^ 33) N (by norm_num; linarith)
    (by
      have : Real.sqrt (2 * (6 * N * 2 ^ (-150 : ℤ)) / (1 - ((999 / 1000 : ℚ) : ℝ)) + 2 ^ (-150 : ℤ)) ≤ 2 ^ (-59 : ℤ) := by
        rw [Real.sqrt_le_left (by norm_num)]
        norm_num; linarith
      norm_num at this ⊢; linarith)
    (by norm_num; linarith) (by norm_num at hGG ⊢; linarith) (by norm_num) (by norm_num; linarith) (by norm_num at hGG ⊢; linarith) (by norm_num)
    p0 g x pp q0 pq hg hx
  norm_num at h2 h3
  refine ⟨U, r, ex, ab, h1, by norm_num; exact h2, by norm_num; exact h3, fun n hn => ⟨(h4 n hn).1, fun y hy => ((h4 n hn).2 y hy).trans ?_⟩⟩
  have hn' : (n : ℝ) + 1 ≤ 200000 := by exact_mod_cast (by omega : n + 1 ≤ 200000)
  refine _root_.add_le_add le_rfl ?_
  norm_num; linarith

/-- a history for `C131_float32`: gradients alternating between 1 and -1, so the exact moments do cancel -/
example : ∃ (g : ℕ → ℕ → ℕ → FP Format.float32) (x : ℕ → ℕ → ℕ → ℝ), (∀ n, Reads (.leaf [3]) (g n) (x n)) ∧
    (∀ n, ∀ y ∈ idx (.leaf [3]), |x n y.1 y.2| ≤ 1) ∧ x 0 0 0 ≠ x 1 0 0 ∧ (0 : ℝ) ≤ 1 ∧ (1 : ℝ) ≤ 10 ^ 15 :=
  ⟨fun n _ _ => if n % 2 = 0 then 1 else -1, fun n _ _ => if n % 2 = 0 then 1 else -1,
    fun n y _ => by
      rcases Nat.mod_two_eq_zero_or_one n with h | h <;> simp [h, neg_val, XReal.fin_neg],
    fun n y _ => by rcases Nat.mod_two_eq_zero_or_one n with h | h <;> simp [h], by norm_num, by norm_num, by norm_num⟩

end Optax
