import Verif.Props.Convergence
import Verif.Props.Schedules
import Verif.Props.LookaheadConv

/-!
# C123: what a learning rate schedule lets sgd achieve
-/

set_option linter.unusedSectionVars false
set_option linter.unusedSimpArgs false

namespace Optax
open Finset
variable (σ : Spec)

/-! ## Specification

`∑ n ∈ range N, lr.at n` is the sum of the first `N` learning rates (`lr.at n` is the rate at step `n`: the constant, or the
schedule at the step count). -/

/-- **C123 (budget).** On a convex `L`-smooth loss, `sgd` with any schedule of rates in `[0, 1/L]`: the loss gap to any `q` after `N` steps,
times twice the sum of the rates, is at most the squared initial distance. -/
theorem C123_budget (lr : LR ℝ) (nes : Bool) (L : ℝ) (hlr : ∀ n, 0 ≤ lr.at n ∧ L * lr.at n ≤ 1) (loss : Params ℝ → ℝ)
    (grad : ℕ → Params ℝ → Params ℝ) (G : (ℕ → ℕ → ℝ) → ℕ → ℕ → ℝ) (hg : ∀ n p, grad n (mk σ p) = mk σ (G p))
    (hs : Smooth σ L loss G) (hc : StronglyConvex σ 0 loss G) (p0 q : ℕ → ℕ → ℝ) :
    ∃ P, P 0 = p0 ∧ Visits (sgd lr none nes) grad σ P ∧
      ∀ N : ℕ, 2 * (∑ n ∈ range N, lr.at n) * (loss (mk σ (P N)) - loss (mk σ q)) ≤ sqDist σ p0 q := by
  set P := plainSgd lr.at (fun _ => G) p0 with hP
  have hstep : ∀ n, P (n + 1) = fun k i => P n k i - lr.at n * G (P n) k i := fun n => rfl
  have hdec : ∀ n, loss (mk σ (P (n + 1))) ≤ loss (mk σ (P n)) := by
    intro n
    rw [hstep]
    have h1 := descent_step σ hs (P n) (lr.at n)
    have h2 := sqNorm_nonneg σ (G (P n))
    have h3 : 0 ≤ lr.at n * (1 - L * lr.at n / 2) := mul_nonneg (hlr n).1 (by linarith [(hlr n).2])
    have := mul_nonneg h3 h2
    linarith
  refine ⟨P, rfl, sgd_visits σ lr nes grad (fun _ => G) hg p0, fun N => ?_⟩
  have key : ∀ N : ℕ, 2 * (∑ n ∈ range N, lr.at n) * (loss (mk σ (P N)) - loss (mk σ q)) + sqDist σ (P N) q ≤ sqDist σ p0 q := by
    intro N
    induction N with
    | zero => simp [hP, plainSgd]
    | succ N ih =>
      have h1 := convex_step σ hs hc (P N) q (lr.at N) (hlr N).1 (hlr N).2
      rw [← hstep, mul_zero, sub_zero, one_mul] at h1
      have h0 : 0 ≤ 2 * ∑ n ∈ range N, lr.at n := mul_nonneg (by norm_num) (Finset.sum_nonneg fun n _ => (hlr n).1)
      have h2 : 2 * (∑ n ∈ range N, lr.at n) * (loss (mk σ (P (N + 1))) - loss (mk σ q)) ≤
          2 * (∑ n ∈ range N, lr.at n) * (loss (mk σ (P N)) - loss (mk σ q)) :=
        mul_le_mul_of_nonneg_left (by linarith [hdec N]) h0
      rw [Finset.sum_range_succ]
      linarith
  have := key N
  have := sqDist_nonneg σ (P N) q
  linarith

/-! ## The sums of the schedules -/

theorem sum_cos (T : ℕ) (hT : 0 < T) : ∑ n ∈ range T, Real.cos (Real.pi * (n : ℝ) / T) = 1 := by
  obtain ⟨m, rfl⟩ : ∃ m, T = m + 1 := ⟨T - 1, by omega⟩
  rw [Finset.sum_range_succ']
  have hm : ((m + 1 : ℕ) : ℝ) ≠ 0 := by positivity
  have h := Finset.sum_range_reflect (fun j : ℕ => Real.cos (Real.pi * ((j + 1 : ℕ) : ℝ) / ((m + 1 : ℕ) : ℝ))) m
  have e : ∑ j ∈ range m, Real.cos (Real.pi * ((m - 1 - j + 1 : ℕ) : ℝ) / ((m + 1 : ℕ) : ℝ)) =
      -∑ j ∈ range m, Real.cos (Real.pi * ((j + 1 : ℕ) : ℝ) / ((m + 1 : ℕ) : ℝ)) := by
    rw [← Finset.sum_neg_distrib]
    apply Finset.sum_congr rfl
    intro j hj
    have hj := Finset.mem_range.mp hj
    rw [← Real.cos_pi_sub]
    congr 1
    have : ((m - 1 - j + 1 : ℕ) : ℝ) = ((m + 1 : ℕ) : ℝ) - ((j + 1 : ℕ) : ℝ) := by
      rw [← Nat.cast_sub (by omega)]; congr 1; omega
    rw [this]
    field_simp
  have h2 : ∑ j ∈ range m, Real.cos (Real.pi * ((j + 1 : ℕ) : ℝ) / ((m + 1 : ℕ) : ℝ)) = 0 := by linarith
  rw [h2]
  simp

theorem at_schedule (f : Schedule ℝ) (n : ℕ) (hn : n < 2147483648) : (LR.schedule f).at n = f n := by
  show f (min (n : ℤ) 2147483647) = _
  rw [min_eq_left (by omega)]

/-- the rates of `cosine_decay_schedule(η, T, α)` up to the end of the decay add up to `η((1-α)(T+1)/2 + αT)` -/
theorem C123_cosine_sum (η a : ℝ) (T : ℕ) (hT : 0 < T) (hT2 : T ≤ 2147483648) :
    ∃ f, cosineDecaySchedule η (T : ℤ) a = .ok f ∧ ∑ n ∈ range T, (LR.schedule f).at n = η * ((1 - a) * ((T + 1 : ℝ) / 2) + a * T) := by
  obtain ⟨f, h1, h2, -⟩ := C42_cosine_decay η a (T : ℤ) (by exact_mod_cast hT)
  refine ⟨f, h1, ?_⟩
  have e : ∀ n ∈ range T, (LR.schedule f).at n = η * (1 - a) / 2 * Real.cos (Real.pi * (n : ℝ) / T) + η * ((1 - a) / 2 + a) := by
    intro n hn
    have hn := Finset.mem_range.mp hn
    rw [at_schedule f n (by omega), h2 n (by omega) (by omega)]
    push_cast
    ring
  rw [Finset.sum_congr rfl e, Finset.sum_add_distrib, ← Finset.mul_sum, sum_cos T hT, Finset.sum_const, Finset.card_range, nsmul_eq_mul]
  ring

/-- the rates of `linear_schedule(η, e, T)` up to the end of the decay add up to `((T+1)η + (T-1)e)/2` -/
theorem C123_linear_sum (η e : ℝ) (T : ℕ) (hT : 0 < T) (hT2 : T ≤ 2147483648) :
    ∑ n ∈ range T, (LR.schedule (linearSchedule η e (T : ℤ) 0)).at n = ((T + 1 : ℝ) * η + (T - 1 : ℝ) * e) / 2 := by
  have hT' : (T : ℝ) ≠ 0 := by positivity
  have h : ∀ n ∈ range T, (LR.schedule (linearSchedule η e (T : ℤ) 0)).at n = (e - η) / T * (n : ℝ) + η := by
    intro n hn
    have hn := Finset.mem_range.mp hn
    rw [at_schedule _ n (by omega)]
    have := (C39_linear η e (T : ℤ) 0 (n : ℤ) (by omega) (by omega) (by omega)).1
    rw [max_self, zero_add] at this
    rw [this]
    push_cast
    ring
  rw [Finset.sum_congr rfl h, Finset.sum_add_distrib, ← Finset.mul_sum, Finset.sum_const, Finset.card_range, nsmul_eq_mul]
  have hg : ∑ n ∈ range T, (n : ℝ) = T * (T - 1) / 2 := by
    clear h hT hT2 hT'
    induction T with
    | zero => simp
    | succ n ih => rw [Finset.sum_range_succ, ih]; push_cast; ring
  rw [hg]
  field_simp
  ring

/-- **C123 (cosine decay).** `sgd(cosine_decay_schedule(η, T, α))`, `0 < η ≤ 1/L`, `0 ≤ α ≤ 1`, on a convex `L`-smooth loss: after the `T` steps of
the decay the loss is within `‖p₀ - q‖²/(η((1-α)(T+1) + 2αT))` of the loss at `q`; at the default `α = 0`, `‖p₀ - q‖²/(η(T+1))`. -/
theorem C123_cosine (η a : ℝ) (T : ℕ) (hT : 0 < T) (hT2 : T ≤ 2147483648) (hη : 0 < η) (ha : 0 ≤ a ∧ a ≤ 1) (nes : Bool) (L : ℝ)
    (hL0 : 0 ≤ L) (hL : L * η ≤ 1) (loss : Params ℝ → ℝ)
    (grad : ℕ → Params ℝ → Params ℝ) (G : (ℕ → ℕ → ℝ) → ℕ → ℕ → ℝ) (hg : ∀ n p, grad n (mk σ p) = mk σ (G p))
    (hs : Smooth σ L loss G) (hc : StronglyConvex σ 0 loss G) (p0 q : ℕ → ℕ → ℝ) :
    ∃ f P, cosineDecaySchedule η (T : ℤ) a = .ok f ∧ P 0 = p0 ∧ Visits (sgd (.schedule f) none nes) grad σ P ∧
      loss (mk σ (P T)) - loss (mk σ q) ≤ sqDist σ p0 q / (η * ((1 - a) * (T + 1) + 2 * a * T)) := by
  obtain ⟨f, h1, hsum⟩ := C123_cosine_sum η a T hT hT2
  obtain ⟨f', h1', -, -, -, h5, -⟩ := C42_cosine_decay η a (T : ℤ) (by exact_mod_cast hT)
  obtain rfl : f = f' := by rw [h1] at h1'; exact Except.ok.inj h1'
  have hlr : ∀ n, 0 ≤ (LR.schedule f).at n ∧ L * (LR.schedule f).at n ≤ 1 := by
    intro n
    obtain ⟨h6, h7⟩ := h5 hη.le ha.2 (min (n : ℤ) 2147483647)
    exact ⟨le_trans (mul_nonneg hη.le ha.1) h6, le_trans (mul_le_mul_of_nonneg_left h7 hL0) hL⟩
  obtain ⟨P, hP0, hv, hb⟩ := C123_budget σ (.schedule f) nes L hlr loss grad G hg hs hc p0 q
  refine ⟨f, P, h1, hP0, hv, ?_⟩
  have hb := hb T
  rw [hsum] at hb
  have hT' : (0 : ℝ) < T := by exact_mod_cast hT
  have hpos : 0 < η * ((1 - a) * (T + 1) + 2 * a * T) := by
    apply mul_pos hη
    have h8 : 0 ≤ (1 - a) * (T + 1 - T) := mul_nonneg (by linarith [ha.2]) (by linarith)
    have h9 : 0 ≤ a * T := mul_nonneg ha.1 hT'.le
    nlinarith
  rw [le_div_iff₀ hpos]
  linarith

/-- **C123 (linear decay).** The same for `linear_schedule(η, e, T)`, `0 ≤ e`, `0 < η`, both at most `1/L`. -/
theorem C123_linear (η e : ℝ) (T : ℕ) (hT : 0 < T) (hT2 : T ≤ 2147483648) (hη : 0 < η) (he : 0 ≤ e) (nes : Bool) (L : ℝ)
    (hL : L * η ≤ 1) (hLe : L * e ≤ 1) (loss : Params ℝ → ℝ)
    (grad : ℕ → Params ℝ → Params ℝ) (G : (ℕ → ℕ → ℝ) → ℕ → ℕ → ℝ) (hg : ∀ n p, grad n (mk σ p) = mk σ (G p))
    (hs : Smooth σ L loss G) (hc : StronglyConvex σ 0 loss G) (p0 q : ℕ → ℕ → ℝ) :
    ∃ P, P 0 = p0 ∧ Visits (sgd (.schedule (linearSchedule η e (T : ℤ) 0)) none nes) grad σ P ∧
      loss (mk σ (P T)) - loss (mk σ q) ≤ sqDist σ p0 q / ((T + 1) * η + (T - 1) * e) := by
  have hT' : (1 : ℝ) ≤ T := by exact_mod_cast hT
  have hlr : ∀ n, 0 ≤ (LR.schedule (linearSchedule η e (T : ℤ) 0)).at n ∧ L * (LR.schedule (linearSchedule η e (T : ℤ) 0)).at n ≤ 1 := by
    intro n
    obtain ⟨c, hc, hn⟩ : ∃ c : ℝ, (0 ≤ c ∧ c ≤ 1) ∧ (LR.schedule (linearSchedule η e (T : ℤ) 0)).at n = η + (e - η) * c := by
      show ∃ c : ℝ, _ ∧ linearSchedule η e (T : ℤ) 0 (min (n : ℤ) 2147483647) = _
      obtain ⟨m, hm⟩ : ∃ m : ℤ, m = min (n : ℤ) 2147483647 := ⟨_, rfl⟩
      have hm0 : 0 ≤ m := by omega
      rw [← hm]
      by_cases h : m ≤ T
      · have := (C39_linear η e (T : ℤ) 0 m (by omega) hm0 h).1
        rw [max_self, zero_add] at this
        refine ⟨_, ⟨?_, ?_⟩, this⟩
        · have : (0 : ℝ) ≤ m := by exact_mod_cast hm0
          positivity
        · rw [div_le_one (by exact_mod_cast hT)]
          exact_mod_cast h
      · have := (C39_linear η e (T : ℤ) 0 0 (by omega) le_rfl (by omega)).2.2 m (by simp; omega)
        exact ⟨1, ⟨by norm_num, le_rfl⟩, by rw [this]; ring⟩
    rw [hn]
    constructor
    · nlinarith [mul_nonneg hη.le (by linarith : 0 ≤ 1 - c), mul_nonneg he hc.1]
    · nlinarith [mul_le_mul_of_nonneg_right hL (by linarith : 0 ≤ 1 - c), mul_le_mul_of_nonneg_right hLe hc.1]
  obtain ⟨P, hP0, hv, hb⟩ := C123_budget σ (.schedule (linearSchedule η e (T : ℤ) 0)) nes L hlr loss grad G hg hs hc p0 q
  refine ⟨P, hP0, hv, ?_⟩
  have hb := hb T
  rw [C123_linear_sum η e T hT hT2] at hb
  have hpos : 0 < (T + 1) * η + (T - 1) * e := by
    have := mul_nonneg (by linarith : (0:ℝ) ≤ T - 1) he
    positivity
  rw [le_div_iff₀ hpos]
  linarith

/-! ## Exponential decay -/

/-- **C123 (travel).** With gradients of global norm at most `B`, `sgd` moves at most `B` times the sum of the rates. -/
theorem C123_travel (lr : LR ℝ) (nes : Bool) (hlr : ∀ n, 0 ≤ lr.at n) (grad : ℕ → Params ℝ → Params ℝ)
    (G : ℕ → (ℕ → ℕ → ℝ) → ℕ → ℕ → ℝ) (hg : ∀ n p, grad n (mk σ p) = mk σ (G n p)) (B : ℝ)
    (hB : ∀ n p, globalNorm (grad n (mk σ p)) ≤ B) (p0 : ℕ → ℕ → ℝ) :
    ∃ P, P 0 = p0 ∧ Visits (sgd lr none nes) grad σ P ∧ ∀ (N : ℕ) (q : ℕ → ℕ → ℝ),
      treeDist σ p0 q - B * (∑ n ∈ range N, lr.at n) ≤ treeDist σ (P N) q ∧
      treeDist σ (P N) q ≤ treeDist σ p0 q + B * (∑ n ∈ range N, lr.at n) := by
  set P := plainSgd lr.at G p0 with hP
  refine ⟨P, rfl, sgd_visits σ lr nes grad G hg p0, fun N q => ?_⟩
  have hB' : ∀ n p, l2 (idx σ) (fun x => G n p x.1 x.2) ≤ B := by
    intro n p
    have := hB n p
    rwa [hg, globalNorm_mk] at this
  induction N with
  | zero => simp [hP, plainSgd]
  | succ N ih =>
    rw [Finset.sum_range_succ]
    have e : l2 (idx σ) (fun x => lr.at N * G N (P N) x.1 x.2) ≤ lr.at N * B := by
      rw [l2_smul, abs_of_nonneg (hlr N)]
      exact mul_le_mul_of_nonneg_left (hB' N (P N)) (hlr N)
    simp only [treeDist_l2] at ih ⊢
    have h1 : l2 (idx σ) (fun x => P (N + 1) x.1 x.2 - q x.1 x.2) ≤
        l2 (idx σ) (fun x => P N x.1 x.2 - q x.1 x.2) + l2 (idx σ) (fun x => lr.at N * G N (P N) x.1 x.2) := by
      have hh := l2_add_le (idx σ) (fun x => P N x.1 x.2 - q x.1 x.2) (fun x => -1 * (lr.at N * G N (P N) x.1 x.2))
      rw [l2_smul (idx σ) (fun x => lr.at N * G N (P N) x.1 x.2) (-1)] at hh
      simp only [abs_neg, abs_one, one_mul] at hh
      refine le_trans (le_of_eq (l2_congr _ fun x _ => ?_)) hh
      show P N x.1 x.2 - lr.at N * G N (P N) x.1 x.2 - q x.1 x.2 = _
      ring
    have h2 : l2 (idx σ) (fun x => P N x.1 x.2 - q x.1 x.2) ≤
        l2 (idx σ) (fun x => P (N + 1) x.1 x.2 - q x.1 x.2) + l2 (idx σ) (fun x => lr.at N * G N (P N) x.1 x.2) := by
      refine le_trans (le_of_eq (l2_congr _ fun x _ => ?_)) (l2_add_le (idx σ) _ _)
      show _ = (P N x.1 x.2 - lr.at N * G N (P N) x.1 x.2 - q x.1 x.2) + _
      ring
    constructor <;> nlinarith [ih.1, ih.2]

/-- **C123 (exponential decay).** `exponential_decay(η, T, r)`, `0 < r < 1`: the rates of any number of steps up to 2³¹ add up to at most
`η/(1 - r^(1/T))` (with `staircase`, `η/(r (1 - r^(1/T)))`). -/
theorem C123_exponential_sum (η r : ℝ) (T : ℕ) (hT : 0 < T) (hη : 0 ≤ η) (hr : 0 < r ∧ r < 1) (N : ℕ) (hN : N ≤ 2147483648) :
    ∑ n ∈ range N, (LR.schedule (exponentialDecay η (T : ℤ) r 0 false none)).at n ≤ η / (1 - r ^ (1 / (T : ℝ))) ∧
    ∑ n ∈ range N, (LR.schedule (exponentialDecay η (T : ℤ) r 0 true none)).at n ≤ η / (r * (1 - r ^ (1 / (T : ℝ)))) := by
  obtain ⟨-, h1, h2, -⟩ := C41_closed_form η r (T : ℤ) 0 (by exact_mod_cast hT) hr.1
  have hT' : (0 : ℝ) < T := by exact_mod_cast hT
  obtain ⟨ρ, hρ⟩ : ∃ ρ, ρ = r ^ (1 / (T : ℝ)) := ⟨_, rfl⟩
  have hρ0 : 0 ≤ ρ := by rw [hρ]; exact Real.rpow_nonneg hr.1.le _
  have hρ1 : ρ < 1 := by rw [hρ]; exact Real.rpow_lt_one hr.1.le hr.2 (by positivity)
  have hpow : ∀ n : ℕ, r ^ ((n : ℝ) / T) = ρ ^ n := by
    intro n
    rw [hρ, ← Real.rpow_natCast, ← Real.rpow_mul hr.1.le]
    congr 1
    ring
  have hgeo : ∑ n ∈ range N, ρ ^ n ≤ 1 / (1 - ρ) := by
    rw [geom_sum_eq hρ1.ne, le_div_iff₀ (by linarith)]
    have : (ρ ^ N - 1) / (ρ - 1) * (1 - ρ) = 1 - ρ ^ N := by
      have : ρ - 1 ≠ 0 := by linarith
      field_simp
      ring
    rw [this]
    linarith [pow_nonneg hρ0 N]
  rw [← hρ]
  have hval : ∀ st, ∀ n ∈ range N, (LR.schedule (exponentialDecay η (T : ℤ) r 0 st none)).at n = exponentialDecay η (T : ℤ) r 0 st none (n : ℤ) := by
    intro st n hn
    exact at_schedule _ n (by have := Finset.mem_range.mp hn; omega)
  constructor
  · have e : ∀ n ∈ range N, (LR.schedule (exponentialDecay η (T : ℤ) r 0 false none)).at n = η * ρ ^ n := by
      intro n hn
      rw [hval false n hn]
      have := h1 (n : ℤ) (by omega)
      rw [max_self, zero_add] at this
      rw [this, ← hpow]
      push_cast
      rfl
    rw [Finset.sum_congr rfl e, ← Finset.mul_sum, div_eq_mul_one_div]
    exact mul_le_mul_of_nonneg_left hgeo hη
  · have e : ∀ n ∈ range N, (LR.schedule (exponentialDecay η (T : ℤ) r 0 true none)).at n ≤ η / r * ρ ^ n := by
      intro n hn
      rw [hval true n hn]
      have := h2 (n : ℤ) (by omega)
      rw [max_self, zero_add] at this
      rw [this, ← hpow, div_mul_eq_mul_div, mul_div_assoc]
      apply mul_le_mul_of_nonneg_left _ hη
      rw [le_div_iff₀ hr.1]
      nth_rewrite 2 [← Real.rpow_one r]
      rw [← Real.rpow_add hr.1]
      apply Real.rpow_le_rpow_of_exponent_ge hr.1 hr.2.le
      have h3 : (n : ℤ) < ((n : ℤ) / T + 1) * T := Int.lt_ediv_add_one_mul_self _ (by exact_mod_cast hT)
      have h4 : (n : ℝ) < (((n : ℤ) / (T : ℤ) : ℤ) + 1 : ℝ) * T := by exact_mod_cast h3
      rw [div_le_iff₀ hT']
      exact h4.le
    refine (Finset.sum_le_sum e).trans ?_
    rw [← Finset.mul_sum]
    have : η / (r * (1 - ρ)) = η / r * (1 / (1 - ρ)) := by
      have : 1 - ρ ≠ 0 := by linarith
      have := hr.1.ne'
      field_simp
    rw [this]
    exact mul_le_mul_of_nonneg_left hgeo (div_nonneg hη hr.1.le)

/-- **C123 (exponential decay stops).** `sgd(exponential_decay(η, T, r))`, `0 < r < 1`, with gradients of norm at most `B`: in 2³¹ steps the parameters get no
closer to any `q` than `‖p₀ - q‖ - Bη/(1 - r^(1/T))`.  Started farther than that from every minimiser, training never reaches one, on any loss. -/
theorem C123_exponential (η r : ℝ) (T : ℕ) (hT : 0 < T) (hη : 0 ≤ η) (hr : 0 < r ∧ r < 1) (nes : Bool) (grad : ℕ → Params ℝ → Params ℝ)
    (G : ℕ → (ℕ → ℕ → ℝ) → ℕ → ℕ → ℝ) (hg : ∀ n p, grad n (mk σ p) = mk σ (G n p)) (B : ℝ) (hB0 : 0 ≤ B)
    (hB : ∀ n p, globalNorm (grad n (mk σ p)) ≤ B) (p0 : ℕ → ℕ → ℝ) :
    ∃ P, P 0 = p0 ∧ Visits (sgd (.schedule (exponentialDecay η (T : ℤ) r 0 false none)) none nes) grad σ P ∧
      ∀ N : ℕ, N ≤ 2147483648 → ∀ q, treeDist σ p0 q - B * (η / (1 - r ^ (1 / (T : ℝ)))) ≤ treeDist σ (P N) q := by
  have hlr : ∀ n, 0 ≤ (LR.schedule (exponentialDecay η (T : ℤ) r 0 false none)).at n := by
    intro n
    show 0 ≤ exponentialDecay η (T : ℤ) r 0 false none (min (n : ℤ) 2147483647)
    have := (C41_closed_form η r (T : ℤ) 0 (by exact_mod_cast hT) hr.1).2.1 (min (n : ℤ) 2147483647) (by omega)
    rw [max_self, zero_add] at this
    rw [this]
    exact mul_nonneg hη (Real.rpow_nonneg hr.1.le _)
  obtain ⟨P, h0, hv, hd⟩ := C123_travel σ _ nes hlr grad G hg B hB p0
  refine ⟨P, h0, hv, fun N hN q => ?_⟩
  have h1 := (hd N q).1
  have h2 := mul_le_mul_of_nonneg_left (C123_exponential_sum η r T hT hη hr N hN).1 hB0
  linarith

/-- Non-vacuity: rate 0.1 halved every 1000 steps, 5000 steps; a 1-smooth loss has `L · 0.1 ≤ 1`. -/
example : (0 : ℕ) < 1000 ∧ (0 : ℝ) ≤ 0.1 ∧ (0 < (1 / 2 : ℝ) ∧ (1 / 2 : ℝ) < 1) ∧ (5000 : ℕ) ≤ 2147483648 ∧ (1 : ℝ) * 0.1 ≤ 1 := by norm_num

end Optax
