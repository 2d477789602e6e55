import Verif.Model.Dual
import Verif.Props.MetaGrad
import Verif.Props.Loss
import Verif.Props.LossGrad
import Verif.Props.Reverse
import Mathlib.Analysis.SpecialFunctions.Log.Deriv

/-!
# C122: gradients of the losses by automatic differentiation
-/

set_option linter.unusedSectionVars false
set_option linter.unusedSimpArgs false

namespace Optax
open Finset

/-! ## Specification

`Tracks s0 f d` (MetaGrad): the dual number `d` is the value of the curve `f` at `s0` together with its true derivative there, both finite. -/

/-- Automatic differentiation of the loss `F` is right at `s0`: `F` takes predictions and targets of shape `sh` and returns an
array of shape `out`, `FD` is the same program run on dual numbers.  Whenever the entries of predictions and targets track
curves (meeting the condition `ok` at `s0`), neither fails, and every entry of the result tracks the entry of the loss along the
curves. -/
def ADLoss (s0 : ℝ) (sh out : List ℕ) (F : Tensor ℝ → Tensor ℝ → Res (Tensor ℝ)) (FD : Tensor Dual → Tensor Dual → Res (Tensor Dual))
    (ok : (ℕ → ℝ) → Prop) : Prop :=
  ∀ (x y : ℝ → ℕ → ℝ) (xd yd : ℕ → Dual), (∀ i < sh.prod, Tracks s0 (fun s => x s i) (xd i)) →
    (∀ i < sh.prod, Tracks s0 (fun s => y s i) (yd i)) → ok (x s0) → ok (y s0) →
    ∃ (L : ℝ → ℕ → ℝ) (Ld : ℕ → Dual), (∀ s, F (Tensor.tens sh (x s)) (Tensor.tens sh (y s)) = .ok (Tensor.tens out (L s))) ∧
      FD (Tensor.tens sh xd) (Tensor.tens sh yd) = .ok (Tensor.tens out Ld) ∧ ∀ i < out.prod, Tracks s0 (fun s => L s i) (Ld i)

/-! ## Rules -/

section rules
variable {s0 : ℝ} {f g : ℝ → ℝ} {a b : Dual}

theorem xmax_fin (x y : ℝ) : JOps.max (XReal.fin x) (XReal.fin y) = .fin (max x y) := by
  show (if XReal.lt (.fin x) (.fin y) = true then XReal.fin y else .fin x) = _
  by_cases h : x < y
  · rw [if_pos (by simpa [XReal.lt] using h), max_eq_right h.le]
  · rw [if_neg (by simpa [XReal.lt] using h), max_eq_left (not_lt.mp h)]

theorem xmin_fin (x y : ℝ) : JOps.min (XReal.fin x) (XReal.fin y) = .fin (min x y) := by
  show (if XReal.lt (.fin y) (.fin x) = true then XReal.fin y else .fin x) = _
  by_cases h : y < x
  · rw [if_pos (by simpa [XReal.lt] using h), min_eq_right h.le]
  · rw [if_neg (by simpa [XReal.lt] using h), min_eq_left (not_lt.mp h)]

theorem balancedEq_fin (x m y : ℝ) :
    Dual.balancedEq (.fin x) (.fin m) (.fin y) = .fin ((if x = m then 1 else 0) / (if y = m then 2 else 1)) := by
  have e : ∀ u v : ℝ, (JOps.eqb (XReal.fin u) (.fin v) = true) ↔ u = v := xeqb_fin
  unfold Dual.balancedEq
  simp only [e]
  have h2 : (JOps.ofRat 2 : XReal) = .fin 2 := by show XReal.fin ((2 : ℚ) : ℝ) = _; norm_num
  rw [h2]
  split_ifs <;> simp only [XReal.one_def, XReal.zero_def] <;> rw [XReal.fin_div _ _ (by norm_num)]

theorem dual_max (x t y u : ℝ) : JOps.max (⟨.fin x, .fin t⟩ : Dual) ⟨.fin y, .fin u⟩ =
    ⟨.fin (max x y), .fin (if x < y then u else if y < x then t else (t + u) / 2)⟩ := by
  show (⟨JOps.max (XReal.fin x) (.fin y), XReal.fin t * Dual.balancedEq (.fin x) (JOps.max (XReal.fin x) (.fin y)) (.fin y) +
    XReal.fin u * Dual.balancedEq (.fin y) (JOps.max (XReal.fin x) (.fin y)) (.fin x)⟩ : Dual) = _
  rw [xmax_fin, balancedEq_fin, balancedEq_fin]
  simp only [XReal.fin_mul, XReal.fin_add, Dual.mk.injEq, XReal.fin.injEq, true_and]
  rcases lt_trichotomy x y with h | h | h
  · simp [max_eq_right h.le, h, h.ne]
  · subst h; simp; ring
  · simp [max_eq_left h.le, h, h.ne, not_lt.mpr h.le]

theorem dual_min (x t y u : ℝ) : JOps.min (⟨.fin x, .fin t⟩ : Dual) ⟨.fin y, .fin u⟩ =
    ⟨.fin (min x y), .fin (if x < y then t else if y < x then u else (t + u) / 2)⟩ := by
  show (⟨JOps.min (XReal.fin x) (.fin y), XReal.fin t * Dual.balancedEq (.fin x) (JOps.min (XReal.fin x) (.fin y)) (.fin y) +
    XReal.fin u * Dual.balancedEq (.fin y) (JOps.min (XReal.fin x) (.fin y)) (.fin x)⟩ : Dual) = _
  rw [xmin_fin, balancedEq_fin, balancedEq_fin]
  simp only [XReal.fin_mul, XReal.fin_add, Dual.mk.injEq, XReal.fin.injEq, true_and]
  rcases lt_trichotomy x y with h | h | h
  · simp [min_eq_left h.le, h, h.ne']
  · subst h; simp; ring
  · simp [min_eq_right h.le, h, h.ne', not_lt.mpr h.le]

theorem dual_abs (x t : ℝ) : JOps.abs (⟨.fin x, .fin t⟩ : Dual) = ⟨.fin |x|, .fin (t * JOps.sign x)⟩ := rfl

theorem Tracks.exp (ha : Tracks s0 f a) : Tracks s0 (fun s => JOps.exp (f s)) (JOps.exp a) := by
  obtain ⟨f', h1, rfl⟩ := ha
  refine ⟨Real.exp (f s0) * f', h1.exp, ?_⟩
  show (⟨_, XReal.fin f' * XReal.fin (Real.exp (f s0))⟩ : Dual) = _
  rw [XReal.fin_mul, mul_comm]
  rfl

theorem xlog_fin {x : ℝ} (h : 0 < x) : JOps.log (XReal.fin x) = .fin (Real.log x) := by
  show (if x < 0 then XReal.nan else if x = 0 then XReal.ninf else _) = _
  rw [if_neg (not_lt.mpr h.le), if_neg h.ne']

theorem Tracks.log (ha : Tracks s0 f a) (h : 0 < f s0) : Tracks s0 (fun s => JOps.log (f s)) (JOps.log a) := by
  obtain ⟨f', h1, rfl⟩ := ha
  refine ⟨f' / f s0, h1.log h.ne', ?_⟩
  show (⟨JOps.log (XReal.fin (f s0)), XReal.fin f' / XReal.fin (f s0)⟩ : Dual) = _
  rw [XReal.fin_div _ _ h.ne', xlog_fin h]
  rfl

theorem Tracks.listSum {ι : Type} (v : ℝ → ι → ℝ) (w : ι → Dual) : ∀ l : List ι, (∀ j ∈ l, Tracks s0 (fun s => v s j) (w j)) →
    Tracks s0 (fun s => (l.map (v s)).sum) ((l.map w).sum)
  | [], _ => Tracks.zero
  | j :: l, h => by
    simp only [List.map_cons, List.sum_cons]
    exact (h j List.mem_cons_self).add (Tracks.listSum v w l (fun i hi => h i (List.mem_cons_of_mem _ hi)))

/-- a dual number with finite components tracks the straight line through it -/
theorem tracks_line (x t : ℝ) : Tracks s0 (fun s => x + t * (s - s0)) ⟨.fin x, .fin t⟩ := by
  refine ⟨t, ?_, by simp⟩
  have := (((hasDerivAt_id s0).sub_const s0).const_mul t).const_add x
  simpa using this

theorem Tracks.fin (ha : Tracks s0 f a) : ∃ t, a = ⟨.fin (f s0), .fin t⟩ := ⟨_, ha.choose_spec.2⟩

theorem rowMax_fin : ∀ (l : List Dual) (m : Dual), (∃ x t, m = ⟨.fin x, .fin t⟩) → (∀ d ∈ l, ∃ x t, d = ⟨.fin x, .fin t⟩) →
    ∃ x t, l.foldl JOps.max m = ⟨.fin x, .fin t⟩
  | [], _, hm, _ => hm
  | d :: l, m, ⟨x, t, hm⟩, h => by
    obtain ⟨y, u, hd⟩ := h d List.mem_cons_self
    rw [List.foldl_cons]
    refine rowMax_fin l _ ?_ (fun e he => h e (List.mem_cons_of_mem _ he))
    rw [hm, hd, dual_max]
    exact ⟨_, _, rfl⟩

theorem dual_log1pexp (z t : ℝ) : JOps.log (1 + JOps.exp (-(⟨.fin z, .fin t⟩ : Dual))) =
    ⟨.fin (Real.log (1 + Real.exp (-z))), .fin (-t * Real.exp (-z) / (1 + Real.exp (-z)))⟩ := by
  have hp : 0 < 1 + Real.exp (-z) := by positivity
  have e : (1 + JOps.exp (-(⟨.fin z, .fin t⟩ : Dual)) : Dual) = ⟨.fin (1 + Real.exp (-z)), .fin (-t * Real.exp (-z))⟩ := by
    show (⟨XReal.fin 1 + .fin (Real.exp (-z)), XReal.fin 0 + XReal.fin (-t) * .fin (Real.exp (-z))⟩ : Dual) = _
    simp only [XReal.fin_mul, XReal.fin_add, zero_add]
  rw [e]
  show (⟨JOps.log (XReal.fin _), XReal.fin _ / XReal.fin _⟩ : Dual) = _
  rw [xlog_fin hp, XReal.fin_div _ _ hp.ne']

/-- `jnp.logaddexp`: the tangent is the derivative of `log(exp a + exp b)` everywhere, also where the arguments are equal -/
theorem Tracks.logaddexp (ha : Tracks s0 f a) (hb : Tracks s0 g b) : Tracks s0 (fun s => logaddexp (f s) (g s)) (logaddexp a b) := by
  obtain ⟨f', h1, rfl⟩ := ha
  obtain ⟨g', h2, rfl⟩ := hb
  have e : (fun s => Optax.logaddexp (f s) (g s)) = fun s => Real.log (Real.exp (f s) + Real.exp (g s)) := by
    funext s; rw [logaddexp_real]
  have hpos : 0 < Real.exp (f s0) + Real.exp (g s0) := by positivity
  refine ⟨(Real.exp (f s0) * f' + Real.exp (g s0) * g') / (Real.exp (f s0) + Real.exp (g s0)), ?_, ?_⟩
  · rw [e]
    exact (h1.exp.add h2.exp).log hpos.ne'
  · show Optax.logaddexp _ _ = (⟨XReal.fin (Optax.logaddexp (f s0) (g s0)), _⟩ : Dual)
    rw [logaddexp_real]
    obtain ⟨x, hx⟩ : ∃ x, x = f s0 := ⟨_, rfl⟩
    obtain ⟨y, hy⟩ : ∃ y, y = g s0 := ⟨_, rfl⟩
    rw [← hx, ← hy] at *
    unfold Optax.logaddexp
    have hd : (⟨.fin x, .fin f'⟩ : Dual) - ⟨.fin y, .fin g'⟩ = ⟨.fin (x - y), .fin (f' - g')⟩ := by
      show (⟨_, _⟩ : Dual) = _
      simp only [XReal.fin_sub]
    have hn : JOps.isnan (⟨.fin (x - y), .fin (f' - g')⟩ : Dual) = false := rfl
    simp only [hd, hn, Bool.false_eq_true, if_false, dual_max, dual_abs]
    rw [dual_log1pexp]
    show (⟨XReal.fin _ + XReal.fin _, XReal.fin _ + XReal.fin _⟩ : Dual) = _
    rw [XReal.fin_add, XReal.fin_add]
    have hv : max x y + Real.log (1 + Real.exp (-|x - y|)) = Real.log (Real.exp x + Real.exp y) := by
      rw [← logaddexp_real]; simp [Optax.logaddexp]
    rw [hv]
    congr 2
    have ex := Real.exp_pos x
    have ey := Real.exp_pos y
    rcases lt_trichotomy x y with h | h | h
    · have hs : JOps.sign (x - y) = (-1 : ℝ) := by rw [jsign_real, if_pos (by linarith)]
      rw [if_pos h, hs, abs_of_neg (by linarith), neg_neg, Real.exp_sub]
      field_simp
      ring
    · subst h
      have hs : JOps.sign (x - x) = (0 : ℝ) := by simp [JOps.sign]
      simp only [lt_irrefl, if_false, hs]
      field_simp
      ring
    · have hs : JOps.sign (x - y) = (1 : ℝ) := by rw [jsign_real, if_neg (by linarith), if_pos (by linarith)]
      rw [if_neg (not_lt.mpr h.le), if_pos h, hs, abs_of_pos (by linarith), neg_sub, Real.exp_sub]
      field_simp
      ring

theorem dual_huber (d e t : ℝ) (hd : 0 < d) : huberEntry (⟨.fin d, .fin 0⟩ : Dual) ⟨.fin e, .fin t⟩ =
    ⟨.fin (huberEntry d e), .fin (t * clipTo d e)⟩ := by
  unfold huberEntry
  simp only [dual_abs, dual_min]
  have h2 : (JOps.ofRat (1 / 2) : Dual) = ⟨.fin (1 / 2), .fin 0⟩ := by
    show (⟨XReal.fin ((1 / 2 : ℚ) : ℝ), XReal.fin 0⟩ : Dual) = _; norm_num
  rw [h2]
  obtain ⟨q, hq⟩ : ∃ q, q = (if |e| < d then t * JOps.sign e else if d < |e| then 0 else (t * JOps.sign e + 0) / 2) := ⟨_, rfl⟩
  rw [← hq]
  show (⟨XReal.fin (1 / 2) * (XReal.fin (min |e| d) * XReal.fin (min |e| d)) + XReal.fin d * (XReal.fin |e| - .fin (min |e| d)),
    XReal.fin 0 * (XReal.fin (min |e| d) * XReal.fin (min |e| d)) + XReal.fin (1 / 2) * (XReal.fin q * .fin (min |e| d) + .fin (min |e| d) * .fin q) +
    (XReal.fin 0 * (XReal.fin |e| - .fin (min |e| d)) + XReal.fin d * (XReal.fin (t * JOps.sign e) - .fin q))⟩ : Dual) = _
  simp only [XReal.fin_mul, XReal.fin_add, XReal.fin_sub, Dual.mk.injEq, XReal.fin.injEq]
  refine ⟨by simp [sq], ?_⟩
  show _ = t * max (-d) (min e d)
  rw [jsign_real] at hq
  rw [jsign_real, hq]
  rcases lt_trichotomy e 0 with h0 | h0 | h0
  · rw [abs_of_neg h0, if_pos h0, min_eq_left (by linarith : e ≤ d)]
    rcases lt_trichotomy (-e) d with h | h | h
    · rw [if_pos h, min_eq_left h.le, max_eq_right (by linarith)]; ring
    · rw [if_neg (by linarith), if_neg (by linarith), min_eq_left h.le, max_eq_right (by linarith), ← h]; ring
    · rw [if_neg (by linarith), if_pos h, min_eq_right h.le, max_eq_left (by linarith)]; ring
  · subst h0
    simp [hd, hd.le]
  · rw [abs_of_pos h0, if_neg (not_lt.mpr h0.le), if_pos h0]
    rcases lt_trichotomy e d with h | h | h
    · rw [if_pos h, min_eq_left h.le, max_eq_right (by linarith)]; ring
    · rw [if_neg (by linarith), if_neg (by linarith), min_eq_left h.le, max_eq_right (by linarith), ← h]; ring
    · rw [if_neg (by linarith), if_pos h, min_eq_right h.le, max_eq_right (by linarith)]; ring

theorem Tracks.huber (d : ℝ) (hd : 0 < d) (ha : Tracks s0 f a) : Tracks s0 (fun s => huberEntry d (f s)) (huberEntry ⟨.fin d, .fin 0⟩ a) := by
  obtain ⟨f', h1, rfl⟩ := ha
  exact ⟨f' * clipTo d (f s0), ((C56_derivative d (f s0) hd).1.comp s0 h1).congr_deriv (mul_comm _ _), dual_huber d _ _ hd⟩

theorem Tracks.logSigmoid (ha : Tracks s0 f a) : Tracks s0 (fun s => logSigmoid (f s)) (logSigmoid a) :=
  (ha.neg.logaddexp Tracks.zero).neg

theorem Tracks.congr (ha : Tracks s0 f a) (h : ∀ s, g s = f s) : Tracks s0 g a := by
  rw [show g = f from funext h]; exact ha

/-- `jax.nn.log_softmax` -/
theorem Tracks.logSoftmaxRow (K : ℕ) (x : ℝ → ℕ → ℝ) (xd : ℕ → Dual) (hx : ∀ j < K, Tracks s0 (fun s => x s j) (xd j)) (j : ℕ) (hj : j < K) :
    Tracks s0 (fun s => logSoftmaxRow ((List.range K).map (x s)) (x s j)) (logSoftmaxRow ((List.range K).map xd) (xd j)) := by
  have hm : ∃ z t, rowMax ((List.range K).map xd) = ⟨.fin z, .fin t⟩ := by
    have hall : ∀ d ∈ (List.range K).map xd, ∃ z t, d = (⟨.fin z, .fin t⟩ : Dual) := by
      intro d hd
      obtain ⟨l, hl, rfl⟩ := List.mem_map.mp hd
      obtain ⟨t, ht⟩ := (hx l (List.mem_range.mp hl)).fin
      exact ⟨_, t, ht⟩
    cases hl : (List.range K).map xd with
    | nil => exact ⟨0, 0, rfl⟩
    | cons d l =>
      rw [hl] at hall
      exact rowMax_fin l d (hall d List.mem_cons_self) (fun e he => hall e (List.mem_cons_of_mem _ he))
  obtain ⟨z, t, hm⟩ := hm
  have hml := tracks_line (s0 := s0) z t
  unfold Optax.logSoftmaxRow
  rw [hm]
  have hsum := Tracks.listSum (s0 := s0) (fun s l => JOps.exp (x s l - (z + t * (s - s0)))) (fun l => JOps.exp (xd l - ⟨.fin z, .fin t⟩))
    (List.range K) (fun l hl => ((hx l (List.mem_range.mp hl)).sub hml).exp)
  have hpos : ∀ s, 0 < ((List.range K).map (fun l => JOps.exp (x s l - (z + t * (s - s0))))).sum := by
    intro s
    rw [list_sum_range]
    exact Finset.sum_pos (fun l _ => Real.exp_pos _) ⟨j, Finset.mem_range.mpr hj⟩
  have h := ((hx j hj).sub hml).sub (hsum.log (hpos s0))
  simp only [List.map_map, Function.comp_def]
  refine h.congr (fun s => ?_)
  have e1 := logSoftmaxRow_real K (x s) j hj
  unfold Optax.logSoftmaxRow at e1
  simp only [List.map_map, Function.comp_def] at e1
  refine e1.trans ?_
  unfold softmax
  generalize z + t * (s - s0) = m
  have hp : 0 < ∑ l ∈ range K, Real.exp (x s l) := Finset.sum_pos (fun l _ => Real.exp_pos _) ⟨j, Finset.mem_range.mpr hj⟩
  simp only [jexp_real, jlog_real]
  rw [list_sum_range]
  have e : ∑ l ∈ range K, Real.exp (x s l - m) = Real.exp (-m) * ∑ l ∈ range K, Real.exp (x s l) := by
    rw [Finset.mul_sum]
    exact Finset.sum_congr rfl (fun l _ => by rw [← Real.exp_add]; ring_nf)
  rw [e, Real.log_mul (Real.exp_pos _).ne' hp.ne', Real.log_exp, Real.log_div (Real.exp_pos _).ne' hp.ne', Real.log_exp]
  ring

theorem Tracks.safeNorm (K : ℕ) (m : ℝ) (hm : 0 ≤ m) (x : ℝ → ℕ → ℝ) (xd : ℕ → Dual) (hx : ∀ j < K, Tracks s0 (fun s => x s j) (xd j))
    (hne : rowNorm K (x s0) ≠ m) :
    Tracks s0 (fun s => safeNorm ⟨[K], (List.range K).map (x s)⟩ m) (safeNorm ⟨[K], (List.range K).map xd⟩ ⟨.fin m, .fin 0⟩) := by
  have ht : ∀ j, ∃ t, j < K → HasDerivAt (fun s => x s j) t s0 ∧ xd j = ⟨.fin (x s0 j), .fin t⟩ := by
    intro j
    by_cases hj : j < K
    · obtain ⟨t, h⟩ := hx j hj
      exact ⟨t, fun _ => h⟩
    · exact ⟨0, fun h => absurd h hj⟩
  choose t ht using ht
  have e1 : (⟨[K], (List.range K).map xd⟩ : Tensor Dual) = Tensor.tens [K] (fun i => ⟨.fin (x s0 i), .fin (t i)⟩) := by
    unfold Tensor.tens
    simp only [List.prod_cons, List.prod_nil, mul_one]
    congr 1
    exact List.map_congr_left (fun i hi => (ht i (List.mem_range.mp hi)).2)
  rw [e1, C32_forward_derivative [K] (x s0) t m hm]
  simp only [List.prod_cons, List.prod_nil, mul_one]
  have e2 : (fun s => Optax.safeNorm ⟨[K], (List.range K).map (x s)⟩ m) = fun s => max (rowNorm K (x s)) m := by
    funext s; rw [safeNorm_row]
  rw [e2]
  have hl : l2 (range K) (x s0) = rowNorm K (x s0) := rfl
  rw [hl]
  have hsq : HasDerivAt (fun s => ∑ j ∈ range K, x s j ^ 2) (∑ j ∈ range K, 2 * x s0 j * t j) s0 := by
    refine HasDerivAt.fun_sum (fun j hj => ?_)
    have := (ht j (Finset.mem_range.mp hj)).1.fun_pow 2
    simpa using this
  have hcont : ContinuousAt (fun s => rowNorm K (x s)) s0 := (Real.continuous_sqrt.continuousAt).comp hsq.continuousAt
  rcases lt_or_gt_of_ne hne with h | h
  · rw [if_pos h.le]
    refine ⟨0, ?_, rfl⟩
    refine (hasDerivAt_const s0 m).congr_of_eventuallyEq ?_
    filter_upwards [hcont.eventually (gt_mem_nhds h)] with s hs
    exact max_eq_right hs.le
  · rw [if_neg (not_le.mpr h)]
    refine ⟨_, ?_, rfl⟩
    have hp : 0 < rowNorm K (x s0) := lt_of_le_of_lt hm h
    have hp2 : ∑ j ∈ range K, x s0 j ^ 2 ≠ 0 := by
      intro h0
      unfold rowNorm at hp
      rw [h0, Real.sqrt_zero] at hp
      exact lt_irrefl _ hp
    have h3 : HasDerivAt (fun s => rowNorm K (x s)) ((∑ j ∈ range K, x s0 j * t j) / rowNorm K (x s0)) s0 := by
      refine (hsq.sqrt hp2).congr_deriv ?_
      show _ / (2 * rowNorm K (x s0)) = _
      rw [show ∑ j ∈ range K, 2 * x s0 j * t j = 2 * ∑ j ∈ range K, x s0 j * t j by rw [Finset.mul_sum]; simp only [mul_assoc]]
      field_simp
    refine h3.congr_of_eventuallyEq ?_
    filter_upwards [hcont.eventually (lt_mem_nhds h)] with s hs
    exact max_eq_left hs.le

end rules

/-! ## C122 -/

/-- **C122 (regression losses).** The gradients of `l2_loss` and `huber_loss` with respect to anything predictions and targets
depend on are right everywhere, including the kinks of the Huber loss (error zero, error `± delta`). -/
theorem C122_regression (s0 : ℝ) (sh : List ℕ) (d : ℝ) (hd : 0 < d) :
    ADLoss s0 sh sh (fun x y => l2Loss x (some y)) (fun x y => l2Loss x (some y)) (fun _ => True) ∧
    ADLoss s0 sh sh (fun x y => huberLoss x (some y) d) (fun x y => huberLoss x (some y) ⟨.fin d, .fin 0⟩) (fun _ => True) := by
  constructor
  · intro x y xd yd hx hy _ _
    refine ⟨fun s i => l2Entry (x s i - y s i), fun i => l2Entry (xd i - yd i), fun s => ?_, ?_, fun i hi => ?_⟩
    · simp only [l2Loss, lossErrors, Tensor.bop_tens, Res.ok_bind, Res.pure_eq, Tensor.map_tens]
    · simp only [l2Loss, lossErrors, Tensor.bop_tens, Res.ok_bind, Res.pure_eq, Tensor.map_tens]
    · have := (Tracks.ofRat (s0 := s0) (1 / 2)).mul (((hx i hi).sub (hy i hi)).ipow 2)
      exact this
  · intro x y xd yd hx hy _ _
    refine ⟨fun s i => huberEntry d (x s i - y s i), fun i => huberEntry ⟨.fin d, .fin 0⟩ (xd i - yd i), fun s => ?_, ?_, fun i hi => ?_⟩
    · simp only [huberLoss, lossErrors, Tensor.bop_tens, Res.ok_bind, Res.pure_eq, Tensor.map_tens]
    · simp only [huberLoss, lossErrors, Tensor.bop_tens, Res.ok_bind, Res.pure_eq, Tensor.map_tens]
    · exact ((hx i hi).sub (hy i hi)).huber d hd

/-- **C122 (sigmoid cross entropy).** -/
theorem C122_sigmoid (s0 : ℝ) (sh : List ℕ) : ADLoss s0 sh sh sigmoidBCE sigmoidBCE (fun _ => True) := by
  intro x y xd yd hx hy _ _
  refine ⟨fun s i => -y s i * logSigmoid (x s i) - (1 - y s i) * logSigmoid (-x s i),
    fun i => -yd i * logSigmoid (xd i) - (1 - yd i) * logSigmoid (-xd i), fun s => ?_, ?_, fun i hi => ?_⟩
  · simp only [sigmoidBCE, Tensor.tens_shape, assertBroadcastable_self, Res.ok_bind, Tensor.map_tens, Tensor.bop_tens]
  · simp only [sigmoidBCE, Tensor.tens_shape, assertBroadcastable_self, Res.ok_bind, Tensor.map_tens, Tensor.bop_tens]
  · exact ((hy i hi).neg.mul (hx i hi).logSigmoid).sub ((Tracks.one.sub (hy i hi)).mul (hx i hi).neg.logSigmoid)

/-- the entry of row `r`, column `j` of an array of shape `b ++ [K]` -/
def entryOf (K : ℕ) (v : ℕ → ℝ) (r j : ℕ) : ℝ := v (r * K + j)

theorem tens_rows {α : Type} [Zero α] (b : List ℕ) (K : ℕ) (v : ℕ → α) :
    Tensor.tens (b ++ [K]) v = rowsT b K (fun r j => v (r * K + j)) := by
  unfold rowsT
  apply Tensor.tens_congr
  intro i _
  show v i = v (i / K * K + i % K)
  rw [Nat.div_add_mod']

theorem lossRow_lt {b : List ℕ} {K r j : ℕ} (hr : r < b.prod) (hj : j < K) : r * K + j < (b ++ [K]).prod := by
  rw [prod_snoc]
  calc r * K + j < r * K + K := by omega
    _ = (r + 1) * K := by ring
    _ ≤ b.prod * K := Nat.mul_le_mul_right _ hr

section
variable {α : Type} [Zero α] [One α] [Add α] [Sub α] [Mul α] [Div α] [Neg α] [JOps α]

theorem softmaxCE_rows (b : List ℕ) (K : ℕ) (hK : 0 < K) (x y : ℕ → ℕ → α) :
    softmaxCE (rowsT b K x) (rowsT b K y) =
      .ok (Tensor.tens b (fun r => -((List.range K).map (fun j => y r j * logSoftmaxRow ((List.range K).map (x r)) (x r j))).sum)) := by
  unfold softmaxCE
  have hs1 : (rowsT b K x).shape = b ++ [K] := rfl
  have hs2 : (rowsT b K y).shape = b ++ [K] := rfl
  rw [hs1, hs2, assertBroadcastable_self, Res.ok_bind]
  have hls : logSoftmax (rowsT b K x) = .ok (rowsT b K (fun r j => logSoftmaxRow ((List.range K).map (x r)) (x r j))) := by
    unfold logSoftmax
    have h1 : (rowsT b K x).lastDim = .ok K := lastDim_rowsT b K _
    rw [h1, Res.ok_bind, if_neg hK.ne', Res.pure_eq, hs1]
    congr 1
    apply Tensor.tens_congr
    intro i hi
    obtain ⟨h2, h3⟩ := lastRow_lt hi
    rw [lastRow_rowsT b K x _ h2]
    unfold rowsT
    rw [List.getD_eq_getElem?_getD, Tensor.getD_tens _ _ _ hi]
  rw [hls, Res.ok_bind]
  have hb : Tensor.bop (fun y l => y * l) (rowsT b K y) (rowsT b K (fun r j => logSoftmaxRow ((List.range K).map (x r)) (x r j))) =
      .ok (rowsT b K (fun r j => y r j * logSoftmaxRow ((List.range K).map (x r)) (x r j))) := by
    unfold rowsT; rw [Tensor.bop_tens]
  rw [hb, Res.ok_bind, reduceLast_rowsT, Res.ok_bind, Res.pure_eq, Tensor.map_tens]

theorem cosine_rows (b : List ℕ) (K : ℕ) (x y : ℕ → ℕ → α) (e : α) :
    cosineSimilarity (rowsT b K x) (rowsT b K y) e =
      .ok (Tensor.tens b (fun r => ((List.range K).map (fun j =>
        y r j / safeNorm ⟨[K], (List.range K).map (y r)⟩ e * (x r j / safeNorm ⟨[K], (List.range K).map (x r)⟩ e))).sum)) := by
  unfold cosineSimilarity
  have hs : ∀ z : ℕ → ℕ → α, (rowsT b K z).shape = b ++ [K] := fun _ => rfl
  rw [hs, hs, assertBroadcastable_self, Res.ok_bind]
  have hu : ∀ z : ℕ → ℕ → α, unitRows e (rowsT b K z) =
      .ok (rowsT b K (fun r j => z r j / safeNorm ⟨[K], (List.range K).map (z r)⟩ e)) := by
    intro z
    unfold unitRows
    have h1 : (rowsT b K z).lastDim = .ok K := lastDim_rowsT b K _
    rw [h1, Res.ok_bind, Res.pure_eq, hs]
    congr 1
    apply Tensor.tens_congr
    intro i hi
    obtain ⟨h2, h3⟩ := lastRow_lt hi
    rw [lastRow_rowsT b K z _ h2]
    unfold rowsT
    rw [List.getD_eq_getElem?_getD, Tensor.getD_tens _ _ _ hi]
  rw [hu, Res.ok_bind, hu, Res.ok_bind]
  have hb : ∀ z w : ℕ → ℕ → α, Tensor.bop (fun a b => a * b) (rowsT b K z) (rowsT b K w) =
      .ok (rowsT b K (fun r j => z r j * w r j)) := by
    intro z w; unfold rowsT; rw [Tensor.bop_tens]
  rw [hb, Res.ok_bind, reduceLast_rowsT]

end

/-- **C122 (softmax cross entropy).** Everywhere, also where the largest logit is attained more than once. -/
theorem C122_softmax (s0 : ℝ) (b : List ℕ) (K : ℕ) (hK : 0 < K) : ADLoss s0 (b ++ [K]) b softmaxCE softmaxCE (fun _ => True) := by
  intro x y xd yd hx hy _ _
  refine ⟨fun s r => -((List.range K).map (fun j => y s (r * K + j) * logSoftmaxRow ((List.range K).map (fun l => x s (r * K + l))) (x s (r * K + j)))).sum,
    fun r => -((List.range K).map (fun j => yd (r * K + j) * logSoftmaxRow ((List.range K).map (fun l => xd (r * K + l))) (xd (r * K + j)))).sum,
    fun s => ?_, ?_, ?_⟩
  · rw [tens_rows b K, tens_rows b K]
    exact softmaxCE_rows b K hK _ _
  · rw [tens_rows b K, tens_rows b K]
    exact softmaxCE_rows b K hK _ _
  · intro r hr
    refine (Tracks.listSum (fun s j => y s (r * K + j) * logSoftmaxRow ((List.range K).map (fun l => x s (r * K + l))) (x s (r * K + j))) _ _ (fun j hj => ?_)).neg
    have hj := List.mem_range.mp hj
    exact (hy _ (lossRow_lt hr hj)).mul (Tracks.logSoftmaxRow K (fun s l => x s (r * K + l)) (fun l => xd (r * K + l))
      (fun l hl => hx _ (lossRow_lt hr hl)) j hj)

/-- **C122 (cosine losses).** Wherever no row of predictions or targets has norm exactly `epsilon ≥ 0` (for the default
`epsilon = 0`: no row is zero). -/
theorem C122_cosine (s0 : ℝ) (b : List ℕ) (K : ℕ) (e : ℝ) (he : 0 ≤ e) :
    ADLoss s0 (b ++ [K]) b (fun x y => cosineSimilarity x y e) (fun x y => cosineSimilarity x y ⟨.fin e, .fin 0⟩)
      (fun v => ∀ r < b.prod, rowNorm K (entryOf K v r) ≠ e) ∧
    ADLoss s0 (b ++ [K]) b (fun x y => cosineDistance x y e) (fun x y => cosineDistance x y ⟨.fin e, .fin 0⟩)
      (fun v => ∀ r < b.prod, rowNorm K (entryOf K v r) ≠ e) := by
  have key : ADLoss s0 (b ++ [K]) b (fun x y => cosineSimilarity x y e) (fun x y => cosineSimilarity x y ⟨.fin e, .fin 0⟩)
      (fun v => ∀ r < b.prod, rowNorm K (entryOf K v r) ≠ e) := by
    intro x y xd yd hx hy hnx hny
    refine ⟨fun s r => ((List.range K).map (fun j => y s (r * K + j) / safeNorm ⟨[K], (List.range K).map (fun l => y s (r * K + l))⟩ e *
        (x s (r * K + j) / safeNorm ⟨[K], (List.range K).map (fun l => x s (r * K + l))⟩ e))).sum,
      fun r => ((List.range K).map (fun j => yd (r * K + j) / safeNorm ⟨[K], (List.range K).map (fun l => yd (r * K + l))⟩ ⟨.fin e, .fin 0⟩ *
        (xd (r * K + j) / safeNorm ⟨[K], (List.range K).map (fun l => xd (r * K + l))⟩ ⟨.fin e, .fin 0⟩))).sum, fun s => ?_, ?_, ?_⟩
    · simp only
      rw [tens_rows b K, tens_rows b K]
      exact cosine_rows b K _ _ e
    · simp only
      rw [tens_rows b K, tens_rows b K]
      exact cosine_rows b K _ _ _
    · intro r hr
      have hpos : ∀ v : ℕ → ℝ, rowNorm K (entryOf K v r) ≠ e → safeNorm ⟨[K], (List.range K).map (fun j => v (r * K + j))⟩ e ≠ 0 := by
        intro v hv
        rw [safeNorm_row]
        have h0 : 0 ≤ rowNorm K (fun j => v (r * K + j)) := Real.sqrt_nonneg _
        rcases lt_or_gt_of_ne hv with h | h
        · exact (lt_of_lt_of_le (lt_of_le_of_lt h0 h) (le_max_right _ _)).ne'
        · exact (lt_of_lt_of_le (lt_of_le_of_lt he h) (le_max_left _ _)).ne'
      refine Tracks.listSum (fun s j => y s (r * K + j) / safeNorm ⟨[K], (List.range K).map (fun l => y s (r * K + l))⟩ e *
        (x s (r * K + j) / safeNorm ⟨[K], (List.range K).map (fun l => x s (r * K + l))⟩ e)) _ _ (fun j hj => ?_)
      have hj := List.mem_range.mp hj
      refine Tracks.mul (Tracks.div (hy _ (lossRow_lt hr hj)) ?_ (hpos _ (hny r hr))) (Tracks.div (hx _ (lossRow_lt hr hj)) ?_ (hpos _ (hnx r hr)))
      · exact Tracks.safeNorm K e he (fun s l => y s (r * K + l)) (fun l => yd (r * K + l)) (fun l hl => hy _ (lossRow_lt hr hl)) (hny r hr)
      · exact Tracks.safeNorm K e he (fun s l => x s (r * K + l)) (fun l => xd (r * K + l)) (fun l hl => hx _ (lossRow_lt hr hl)) (hnx r hr)
  refine ⟨key, ?_⟩
  intro x y xd yd hx hy hnx hny
  obtain ⟨L, Ld, h1, h2, h3⟩ := key x y xd yd hx hy hnx hny
  refine ⟨fun s i => 1 - L s i, fun i => 1 - Ld i, fun s => ?_, ?_, fun i hi => Tracks.one.sub (h3 i hi)⟩
  · have h1 := h1 s
    simp only at h1
    simp only [cosineDistance, Tensor.tens_shape, assertBroadcastable_self, Res.ok_bind]
    rw [h1, Res.ok_bind, Res.pure_eq, Tensor.map_tens]
  · simp only at h2
    simp only [cosineDistance, Tensor.tens_shape, assertBroadcastable_self, Res.ok_bind]
    rw [h2, Res.ok_bind, Res.pure_eq, Tensor.map_tens]

/-- **C122 (the kinks).** In numbers: the tangent of the Huber loss is the tangent of the error times the error clipped to
`[-delta, delta]`, for every error.  The tangent of `clip` passes inside the interval, stops outside, and is halved
exactly at a bound. -/
theorem C122_kinks (d e t : ℝ) (hd : 0 < d) :
    (∃ v, huberLoss (Tensor.tens [] (fun _ => (⟨.fin e, .fin t⟩ : Dual))) none ⟨.fin d, .fin 0⟩ =
      .ok (Tensor.tens [] (fun _ => ⟨v, .fin (t * max (-d) (min e d))⟩))) ∧
    ∀ (σ : Spec) (g h : ℕ → ℕ → ℝ), (clip (⟨.fin d, .fin 0⟩ : Dual)).update (mk σ (fun k i => ⟨.fin (g k i), .fin (h k i)⟩)) ⟨⟩ none =
      .ok (mk σ (fun k i => ⟨.fin (max (-d) (min (g k i) d)),
        .fin (if |g k i| < d then h k i else if |g k i| = d then h k i / 2 else 0)⟩), ⟨⟩) := by
  constructor
  · refine ⟨.fin (huberEntry d e), ?_⟩
    simp only [huberLoss, lossErrors, Res.ok_bind, Res.pure_eq, Tensor.map_tens]
    rw [dual_huber d e t hd]
    rfl
  · intro σ g h
    show Except.ok (tmap _ _, _) = _
    rw [tmap_mk]
    congr 2
    apply mk_congr
    intro k sh hk i hi
    have hn : (-(⟨.fin d, .fin 0⟩ : Dual)) = ⟨.fin (-d), .fin 0⟩ := by
      show (⟨XReal.fin (-d), XReal.fin (-0)⟩ : Dual) = _
      rw [neg_zero]
    show JOps.min (JOps.max _ _) _ = _
    rw [hn, dual_max, dual_min]
    simp only [Dual.mk.injEq, XReal.fin.injEq]
    generalize g k i = x
    generalize h k i = y
    constructor
    · rw [max_comm, max_min_distrib_left, max_eq_right (by linarith : -d ≤ d)]
    · rcases lt_trichotomy x (-d) with h | h | h
      · rw [if_pos h, max_eq_right h.le, if_pos (by linarith), abs_of_neg (by linarith), if_neg (by linarith), if_neg (by linarith)]
      · subst h
        simp [hd, abs_of_pos hd, (by linarith : -d < d)]
      · have i1 : (if x < -d then (0:ℝ) else if -d < x then y else (y + 0) / 2) = y := by
          rw [if_neg (not_lt.mpr h.le), if_pos h]
        rw [max_eq_left h.le, i1]
        rcases lt_trichotomy x d with h' | h' | h'
        · rw [if_pos h', if_pos (abs_lt.mpr ⟨h, h'⟩)]
        · subst h'
          simp [abs_of_pos hd]
        · rw [if_neg (not_lt.mpr h'.le), if_pos h', abs_of_pos (hd.trans h'), if_neg (not_lt.mpr h'.le), if_neg h'.ne']

/-- **C122 (logits).** In numbers: with constant labels the tangent of the sigmoid cross entropy is
`(sigmoid(logit) - label) * tangent`, for every logit, however large. -/
theorem C122_sigmoid_tangent (sh : List ℕ) (x t y : ℕ → ℝ) :
    ∃ v : ℕ → ℝ, sigmoidBCE (Tensor.tens sh (fun i => (⟨.fin (x i), .fin (t i)⟩ : Dual))) (Tensor.tens sh (fun i => ⟨.fin (y i), .fin 0⟩)) =
      .ok (Tensor.tens sh (fun i => ⟨.fin (v i), .fin ((sigmoid (x i) - y i) * t i)⟩)) := by
  obtain ⟨L, Ld, h1, h2, h3⟩ := C122_sigmoid 0 sh (fun s i => x i + t i * (s - 0)) (fun _ i => y i) _ _
    (fun i _ => tracks_line (s0 := 0) (x i) (t i)) (fun i _ => Tracks.const (y i)) trivial trivial
  refine ⟨fun i => L 0 i, ?_⟩
  rw [h2]
  congr 1
  apply Tensor.tens_congr
  intro i hi
  obtain ⟨f', hf, he⟩ := h3 i hi
  rw [he]
  congr 2
  have e1 : ∀ s, L s i = bernoulliCE (y i) (sigmoid (x i + t i * (s - 0))) := by
    intro s
    have h := (h1 s).symm.trans (C58_sigmoid_bce sh _ _)
    have h := congrArg (fun r : Res (Tensor ℝ) => (match r with | .ok t => t.data.getD i 0 | .error _ => 0)) h
    simp only [List.getD_eq_getElem?_getD, Tensor.getD_tens _ _ _ hi] at h
    exact h
  have e2 : HasDerivAt (fun s => L s i) ((sigmoid (x i) - y i) * t i) 0 := by
    rw [show (fun s => L s i) = fun s => bernoulliCE (y i) (sigmoid (x i + t i * (s - 0))) from funext e1]
    have hl : HasDerivAt (fun s : ℝ => x i + t i * (s - 0)) (t i) 0 := by
      have := (((hasDerivAt_id (0:ℝ)).sub_const 0).const_mul (t i)).const_add (x i)
      simpa using this
    have hb := bce_deriv (y i) (x i + t i * (0 - 0))
    have := hb.comp (0:ℝ) hl
    simpa [Function.comp_def] using this
  exact hf.unique e2

/-- The condition of `C122_cosine` is needed: at the default `epsilon = 0`, a zero row of predictions makes loss and gradient
NaN. -/
theorem C122_cosine_zero (t : ℝ) :
    cosineSimilarity (Tensor.tens ([] ++ [1]) (fun _ => (⟨.fin 0, .fin t⟩ : Dual))) (Tensor.tens ([] ++ [1]) (fun _ => ⟨.fin 1, .fin 0⟩)) ⟨.fin 0, .fin 0⟩ =
      .ok (Tensor.tens [] (fun _ => ⟨.nan, .nan⟩)) := by
  rw [tens_rows [] 1, tens_rows [] 1, cosine_rows [] 1]
  have hz : l2 (range 1) (fun _ => (0:ℝ)) = 0 := by simp [l2]
  have e : (⟨[1], (List.range 1).map (fun _ => (⟨.fin 0, .fin t⟩ : Dual))⟩ : Tensor Dual) = Tensor.tens [1] (fun _ => ⟨.fin 0, .fin t⟩) := by
    unfold Tensor.tens; simp
  have h := C32_forward_derivative [1] (fun _ => 0) (fun _ => t) 0 le_rfl
  simp only [List.prod_cons, List.prod_nil, mul_one, hz, max_self, le_refl, if_true] at h
  rw [e, h]
  congr 2
  funext r
  have h0 : (⟨.fin 0, .fin t⟩ : Dual) / ⟨.fin 0, .fin 0⟩ = ⟨.nan, .nan⟩ := by
    show (⟨XReal.fin 0 / XReal.fin 0, XReal.fin t / .fin 0 - XReal.fin 0 * (XReal.fin 0 / XReal.fin 0) / XReal.fin 0⟩ : Dual) = _
    rw [fin_zero_div_zero, XReal.mul_nan]
    have : (XReal.nan / XReal.fin 0) = .nan := rfl
    rw [this]
    congr 1
    generalize XReal.fin t / XReal.fin 0 = q
    cases q <;> rfl
  simp only [List.range_one, List.map_cons, List.map_nil, List.sum_cons, List.sum_nil, h0]
  generalize (⟨.fin 1, .fin 0⟩ : Dual) / _ = q
  show (⟨q.val * XReal.nan + XReal.fin 0, (q.tan * XReal.nan + q.val * XReal.nan) + XReal.fin 0⟩ : Dual) = _
  simp only [XReal.mul_nan, XReal.nan_add]

/-- Non-vacuity: the curve `s ↦ (s, 2 s)` at `s = 1` with its dual numbers. -/
example : ∀ i < ([2] : List ℕ).prod, Tracks 1 (fun s => (i + 1 : ℝ) * s) (⟨.fin (i + 1), .fin (i + 1)⟩ : Dual) := by
  intro i _
  refine ⟨i + 1, ?_, by simp⟩
  simpa using (hasDerivAt_id (1:ℝ)).const_mul ((i:ℝ) + 1)

end Optax
