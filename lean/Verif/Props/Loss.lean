import Verif.Model.Loss
import Verif.Lemmas.Norm
import Verif.Lemmas.Axes
import Verif.Props.Norms
import Mathlib.Analysis.SpecialFunctions.Log.Deriv
import Mathlib.Analysis.Calculus.Deriv.Basic

/-!
# C56–C60: losses
-/

set_option linter.unusedSectionVars false
set_option linter.unusedSimpArgs false

namespace Optax
open Finset

/-! ## C56 -/

/-- the Huber function of the documentation -/
noncomputable def huber (d e : ℝ) : ℝ := if |e| ≤ d then 1 / 2 * e ^ 2 else 1 / 2 * d ^ 2 + d * (|e| - d)

/-- `e` clipped to `[-d, d]` -/
noncomputable def clipTo (d e : ℝ) : ℝ := max (-d) (min e d)

theorem huberEntry_eq (d e : ℝ) : huberEntry d e = huber d e := by
  unfold huberEntry huber
  simp only [jabs_real, jmin_real, ipow_eq_pow, jofRat_real]
  push_cast
  split
  · rename_i h
    rw [min_eq_left h, sq_abs]; ring
  · rename_i h
    rw [min_eq_right (not_le.mp h).le]

/-- **C56.** Entry by entry, `huber_loss` is the piecewise function of the error. -/
theorem C56_huber (s : List ℕ) (x t : ℕ → ℝ) (d : ℝ) :
    huberLoss (Tensor.tens s x) (some (Tensor.tens s t)) d = .ok (Tensor.tens s (fun i => huber d (x i - t i))) ∧
    huberLoss (Tensor.tens s x) none d = .ok (Tensor.tens s (fun i => huber d (x i))) := by
  constructor <;> simp [huberLoss, lossErrors, huberEntry_eq]

/-- **C56.** `l2_loss` is half the squared error. -/
theorem C56_l2 (s : List ℕ) (x t : ℕ → ℝ) :
    l2Loss (Tensor.tens s x) (some (Tensor.tens s t)) = .ok (Tensor.tens s (fun i => 1 / 2 * (x i - t i) ^ 2)) ∧
    l2Loss (Tensor.tens s x) none = .ok (Tensor.tens s (fun i => 1 / 2 * x i ^ 2)) := by
  constructor <;> simp [l2Loss, lossErrors, l2Entry]

/-- tangent lines: the Huber function lies above each of its tangents, whose slope is the clipped error, and
below the parabola of curvature 1 -/
theorem huber_tangent {d : ℝ} (hd : 0 < d) (e x : ℝ) :
    0 ≤ huber d x - huber d e - clipTo d e * (x - e) ∧ huber d x - huber d e - clipTo d e * (x - e) ≤ 1 / 2 * (x - e) ^ 2 := by
  have key : ∀ y : ℝ, (y ≤ -d ∧ huber d y = 1 / 2 * d ^ 2 + d * (-y - d) ∧ clipTo d y = -d) ∨
      (-d ≤ y ∧ y ≤ d ∧ huber d y = 1 / 2 * y ^ 2 ∧ clipTo d y = y) ∨
      (d ≤ y ∧ huber d y = 1 / 2 * d ^ 2 + d * (y - d) ∧ clipTo d y = d) := by
    intro y
    unfold huber clipTo
    rcases le_total y (-d) with h | h
    · left
      refine ⟨h, ?_, by rw [min_eq_left (by linarith), max_eq_left h]⟩
      rw [abs_of_nonpos (by linarith)]
      split
      · have : y = -d := by linarith
        subst this; ring
      · rfl
    · rcases le_total y d with h' | h'
      · right; left
        refine ⟨h, h', ?_, by rw [min_eq_left h', max_eq_right h]⟩
        rw [if_pos (abs_le.mpr ⟨h, h'⟩)]
      · right; right
        refine ⟨h', ?_, by rw [min_eq_right h', max_eq_right (by linarith)]⟩
        rw [abs_of_nonneg (by linarith)]
        split
        · have : y = d := by linarith
          subst this; ring
        · rfl
  rcases key e with ⟨h1, h2, h3⟩ | ⟨h1, h1', h2, h3⟩ | ⟨h1, h2, h3⟩ <;>
    rcases key x with ⟨g1, g2, -⟩ | ⟨g1, g1', g2, -⟩ | ⟨g1, g2, -⟩ <;> rw [h2, h3, g2] <;> constructor <;>
    nlinarith [sq_nonneg (x - e), sq_nonneg (x + d), sq_nonneg (x - d), sq_nonneg (e + d), sq_nonneg (e - d),
      mul_nonneg hd.le hd.le]

/-- **C56.** Properties of the value: non-negative, at most the `l2` loss, even, above all its tangents (so convex). -/
theorem C56_bounds (d e : ℝ) (hd : 0 < d) :
    0 ≤ huberEntry d e ∧ huberEntry d e ≤ l2Entry e ∧ huberEntry d (-e) = huberEntry d e ∧
    ∀ x, huberEntry d e + clipTo d e * (x - e) ≤ huberEntry d x := by
  simp only [huberEntry_eq]
  have h0 : huber d 0 = 0 := by unfold huber; simp [hd.le]
  have hc : clipTo d 0 = 0 := by unfold clipTo; rw [min_eq_left hd.le, max_eq_right (by linarith)]
  have h := huber_tangent hd 0 e
  rw [h0, hc] at h
  refine ⟨by linarith [h.1], ?_, ?_, fun x => by linarith [(huber_tangent hd e x).1]⟩
  · unfold l2Entry
    simp only [ipow_eq_pow, jofRat_real]
    push_cast
    have := h.2
    simp only [sub_zero, zero_mul] at this
    linarith
  · unfold huber; simp

theorem hasDerivAt_of_sq_bound {f : ℝ → ℝ} {f' e : ℝ} (h : ∀ x, |f x - f e - f' * (x - e)| ≤ 1 / 2 * (x - e) ^ 2) :
    HasDerivAt f f' e := by
  rw [hasDerivAt_iff_isLittleO]
  rw [Asymptotics.isLittleO_iff]
  intro c hc
  have : ∀ᶠ x in nhds e, |x - e| < c := by
    have := Metric.ball_mem_nhds e hc
    filter_upwards [this] with x hx
    simpa [Real.dist_eq] using hx
  filter_upwards [this] with x hx
  simp only [smul_eq_mul, Real.norm_eq_abs]
  have h1 := h x
  rw [mul_comm] at h1
  have h2 : f x - f e - (x - e) * f' = f x - f e - f' * (x - e) := by ring
  rw [h2]
  refine (h x).trans ?_
  rw [← sq_abs]
  nlinarith [abs_nonneg (x - e)]

/-- **C56.** The derivative at *every* error `e`, including the kinks `±delta`, is the error clipped to
`[-delta, delta]`, i.e. the clipped derivative `e` of the `l2` loss. -/
theorem C56_derivative (d e : ℝ) (hd : 0 < d) :
    HasDerivAt (huberEntry d) (clipTo d e) e ∧ HasDerivAt (l2Entry (α := ℝ)) e e := by
  constructor
  · have : huberEntry d = huber d := funext (huberEntry_eq d)
    rw [this]
    apply hasDerivAt_of_sq_bound
    intro x
    obtain ⟨h1, h2⟩ := huber_tangent hd e x
    rw [abs_of_nonneg h1]; exact h2
  · apply hasDerivAt_of_sq_bound
    intro x
    unfold l2Entry
    simp only [ipow_eq_pow, jofRat_real]
    push_cast
    have : 1 / 2 * x ^ 2 - 1 / 2 * e ^ 2 - e * (x - e) = 1 / 2 * (x - e) ^ 2 := by ring
    rw [this, abs_of_nonneg (by positivity)]

/-- e.g. far from 0: huber(1, 3) = 2.5 with slope 1, and inside: slope = the error -/
example : huberEntry (1 : ℝ) 3 = 5 / 2 ∧ clipTo 1 3 = 1 ∧ clipTo 1 (1 / 2) = 1 / 2 := by
  rw [huberEntry_eq]; unfold huber clipTo; norm_num

/-! ## Batches of rows -/

/-- a batch of shape `b` of rows of length `K`: the row at flat batch index `r` is `y r` -/
def rowsT {α : Type} (b : List ℕ) (K : ℕ) (y : ℕ → ℕ → α) : Tensor α :=
  Tensor.tens (b ++ [K]) (fun i => y (i / K) (i % K))

/-- every array whose last dimension is `K` is of this form -/
theorem exists_rowsT {α : Type} [Zero α] (t : Tensor α) (h : t.WF) (b : List ℕ) (K : ℕ) (hs : t.shape = b ++ [K]) :
    ∃ y, t = rowsT b K y := by
  refine ⟨fun r j => t.data.getD (r * K + j) 0, ?_⟩
  refine h.eq_tens.trans ?_
  rw [hs]
  unfold rowsT
  apply Tensor.tens_congr
  intro i hi
  show t.data[i]?.getD 0 = t.data.getD (i / K * K + i % K) 0
  rw [show i / K * K + i % K = i by rw [Nat.mul_comm]; exact Nat.div_add_mod i K]
  rw [List.getD_eq_getElem?_getD]

section
variable {α : Type} [Zero α] [One α] [Add α] [Sub α] [Mul α] [Div α] [Neg α] [JOps α]

theorem prod_snoc (b : List ℕ) (K : ℕ) : (b ++ [K]).prod = b.prod * K := by simp

theorem lastDim_rowsT (b : List ℕ) (K : ℕ) (v : ℕ → α) : (Tensor.tens (b ++ [K]) v).lastDim = .ok K := by
  simp [Tensor.lastDim, Tensor.tens]

theorem lastRow_lt {b : List ℕ} {K i : ℕ} (h : i < (b ++ [K]).prod) : i / K < b.prod ∧ i % K < K := by
  rw [prod_snoc] at h
  have hK : 0 < K := by
    rcases Nat.eq_zero_or_pos K with h0 | h0
    · subst h0; simp at h
    · exact h0
  exact ⟨(Nat.div_lt_iff_lt_mul hK).mpr h, Nat.mod_lt _ hK⟩

theorem lastRow_rowsT (b : List ℕ) (K : ℕ) (y : ℕ → ℕ → α) (r : ℕ) (hr : r < b.prod) :
    (rowsT b K y).lastRow K r = (List.range K).map (y r) := by
  unfold Tensor.lastRow
  apply List.map_congr_left
  intro j hj
  rw [List.mem_range] at hj
  have hlt : r * K + j < (b ++ [K]).prod := by
    rw [prod_snoc]
    calc r * K + j < r * K + K := by omega
      _ = (r + 1) * K := by ring
      _ ≤ b.prod * K := Nat.mul_le_mul_right _ hr
  have hd : (r * K + j) / K = r := by
    rw [Nat.add_comm, Nat.add_mul_div_right _ _ (by omega), Nat.div_eq_of_lt hj]; simp
  have hm : (r * K + j) % K = j := by
    rw [Nat.add_comm, Nat.add_mul_mod_self_right, Nat.mod_eq_of_lt hj]
  unfold rowsT
  rw [List.getD_eq_getElem?_getD, Tensor.getD_tens _ _ _ hlt, hd, hm]

theorem reduceLast_rowsT (f : List α → α) (b : List ℕ) (K : ℕ) (y : ℕ → ℕ → α) :
    (rowsT b K y).reduceLast f = .ok (Tensor.tens b (fun r => f ((List.range K).map (y r)))) := by
  unfold Tensor.reduceLast
  have h1 : (rowsT b K y).lastDim = .ok K := lastDim_rowsT b K _
  rw [h1, Res.ok_bind, Res.pure_eq]
  have h2 : (rowsT b K y).shape.dropLast = b := by simp [rowsT, Tensor.tens]
  rw [h2]
  congr 1
  apply Tensor.tens_congr
  intro r hr
  rw [lastRow_rowsT b K y r hr]

theorem broadcastableRev_self : ∀ s : List ℕ, broadcastableRev s s = true
  | [] => rfl
  | a :: s => by simp [broadcastableRev, broadcastableRev_self s]

theorem assertBroadcastable_self (s : List ℕ) : assertBroadcastable s s = .ok () := by
  simp [assertBroadcastable, broadcastableRev_self]

end

/-! ## C57 -/

/-- **C57.** `smooth_labels` on any batch: each row `y` becomes `(1-alpha) y + alpha/K`. -/
theorem C57_smooth_labels (b : List ℕ) (K : ℕ) (hK : 0 < K) (y : ℕ → ℕ → ℝ) (a : ℝ) :
    smoothLabels (rowsT b K y) a = .ok (rowsT b K (fun r j => (1 - a) * y r j + a / K)) := by
  unfold smoothLabels
  have h1 : (rowsT b K y).lastDim = .ok K := lastDim_rowsT b K _
  rw [h1, Res.ok_bind]
  unfold smoothShare
  rw [if_neg hK.ne', Res.ok_bind]
  simp [rowsT]

/-- **C57.** The rows stay distributions: sums of 1 are preserved; with non-negative labels and `0 ≤ alpha ≤ 1` every
entry is at least `alpha/K`; the order of the entries is preserved (strictly if `alpha < 1`); the hot class
of a one-hot row gets `(1-alpha) + alpha/K` and every other class `alpha/K`. -/
theorem C57_distribution (b : List ℕ) (K : ℕ) (hK : 0 < K) (y : ℕ → ℕ → ℝ) (a : ℝ) :
    ∃ z, smoothLabels (rowsT b K y) a = .ok (rowsT b K z) ∧ ∀ r,
      (∑ j ∈ range K, y r j = 1 → ∑ j ∈ range K, z r j = 1) ∧
      (0 ≤ a → a ≤ 1 → (∀ j < K, 0 ≤ y r j) → ∀ j < K, a / K ≤ z r j) ∧
      (a ≤ 1 → ∀ i j, y r i ≤ y r j → z r i ≤ z r j) ∧
      (a < 1 → ∀ i j, y r i < y r j → z r i < z r j) ∧
      (∀ c, (∀ j, y r j = if j = c then 1 else 0) → z r c = (1 - a) + a / K ∧ ∀ j, j ≠ c → z r j = a / K) := by
  refine ⟨_, C57_smooth_labels b K hK y a, fun r => ⟨?_, ?_, ?_, ?_, ?_⟩⟩
  · intro h
    have hK' : (K : ℝ) ≠ 0 := by exact_mod_cast hK.ne'
    rw [Finset.sum_add_distrib, ← Finset.mul_sum, h]
    simp
    field_simp
    ring
  · intro h0 h1 hy j hj
    have := mul_nonneg (sub_nonneg.mpr h1) (hy j hj)
    linarith
  · intro h1 i j h
    have := mul_le_mul_of_nonneg_left h (sub_nonneg.mpr h1)
    linarith
  · intro h1 i j h
    have := mul_lt_mul_of_pos_left h (sub_pos.mpr h1)
    linarith
  · intro c hc
    refine ⟨by simp [hc], fun j hj => by simp [hc, hj]⟩

/-- **C57.** Rank-0 labels raise IndexError, an empty class axis ZeroDivisionError. -/
theorem C57_rejects (t : Tensor ℝ) (a : ℝ) (b : List ℕ) :
    (t.shape = [] → smoothLabels t a = .error .index) ∧ (t.shape = b ++ [0] → smoothLabels t a = .error .zeroDiv) := by
  constructor
  · intro h; simp [smoothLabels, Tensor.lastDim, h]
  · intro h; simp [smoothLabels, Tensor.lastDim, h, smoothShare]

/-! ## C58 -/

/-- the logistic function -/
noncomputable def sigmoid (x : ℝ) : ℝ := 1 / (1 + Real.exp (-x))

/-- the Bernoulli cross entropy of a label (probability) `y` and a predicted probability `q` -/
noncomputable def bernoulliCE (y q : ℝ) : ℝ := -y * Real.log q - (1 - y) * Real.log (1 - q)

theorem sigmoid_pos (x : ℝ) : 0 < sigmoid x := by unfold sigmoid; positivity
theorem one_sub_sigmoid (x : ℝ) : 1 - sigmoid x = sigmoid (-x) := by
  unfold sigmoid
  have h1 : (1 + Real.exp (-x)) ≠ 0 := by positivity
  have h2 : (1 + Real.exp x) ≠ 0 := by positivity
  have h3 : Real.exp (-x) * Real.exp x = 1 := by rw [← Real.exp_add]; simp
  rw [neg_neg, sub_eq_iff_eq_add, div_add_div _ _ h2 h1, eq_div_iff (mul_ne_zero h2 h1)]
  nlinarith
theorem sigmoid_lt_one (x : ℝ) : sigmoid x < 1 := by
  have := sigmoid_pos (-x); rw [← one_sub_sigmoid] at this; linarith

theorem logaddexp_real (a b : ℝ) : logaddexp a b = Real.log (Real.exp a + Real.exp b) := by
  unfold logaddexp
  simp only [jisnan_real, Bool.false_eq_true, if_false, jmax_real, jlog_real, jexp_real, jabs_real]
  rcases le_total a b with h | h
  · rw [max_eq_right h, abs_of_nonpos (by linarith), neg_neg]
    rw [show Real.exp a + Real.exp b = Real.exp b * (1 + Real.exp (a - b)) by
      rw [mul_add, ← Real.exp_add]; ring_nf]
    rw [Real.log_mul (Real.exp_pos _).ne' (by positivity), Real.log_exp]
  · rw [max_eq_left h, abs_of_nonneg (by linarith), neg_sub]
    rw [show Real.exp a + Real.exp b = Real.exp a * (1 + Real.exp (b - a)) by
      rw [mul_add, ← Real.exp_add]; ring_nf]
    rw [Real.log_mul (Real.exp_pos _).ne' (by positivity), Real.log_exp]

theorem logSigmoid_real (x : ℝ) : logSigmoid x = Real.log (sigmoid x) := by
  unfold logSigmoid sigmoid
  rw [logaddexp_real, Real.exp_zero, one_div, Real.log_inv, add_comm]

/-- **C58.** Entry by entry the loss is the Bernoulli cross entropy of the label and the predicted probability
`sigmoid(logit)`. -/
theorem C58_sigmoid_bce (s : List ℕ) (x y : ℕ → ℝ) :
    sigmoidBCE (Tensor.tens s x) (Tensor.tens s y) =
      .ok (Tensor.tens s (fun i => bernoulliCE (y i) (sigmoid (x i)))) := by
  unfold sigmoidBCE
  simp only [Tensor.tens_shape, assertBroadcastable_self, Res.ok_bind, Tensor.map_tens, Tensor.bop_tens]
  congr 1
  apply Tensor.tens_congr
  intro i _
  rw [logSigmoid_real, logSigmoid_real, bernoulliCE, one_sub_sigmoid]

theorem log_le_zero_of {x : ℝ} (h0 : 0 < x) (h1 : x < 1) : Real.log x ≤ 0 := Real.log_nonpos h0.le h1.le

/-- Gibbs' inequality for two outcomes -/
theorem bernoulliCE_ge (y q : ℝ) (h0 : 0 ≤ y) (h1 : y ≤ 1) (q0 : 0 < q) (q1 : q < 1) :
    bernoulliCE y y ≤ bernoulliCE y q := by
  have key : ∀ a c : ℝ, 0 ≤ a → 0 < c → a * Real.log c ≤ a * Real.log a + (c - a) := by
    intro a c ha hc
    rcases ha.eq_or_lt with rfl | ha'
    · simp; exact hc.le
    · have h := Real.log_le_sub_one_of_pos (show 0 < c / a by positivity)
      rw [Real.log_div hc.ne' ha'.ne'] at h
      have h2 := mul_le_mul_of_nonneg_left h ha
      have h3 : a * (c / a - 1) = c - a := by field_simp
      linarith
  have h2 := key y q h0 q0
  have h3 := key (1 - y) (1 - q) (by linarith) (by linarith)
  unfold bernoulliCE
  linarith

/-- **C58.** For a label in `[0,1]`: the loss is non-negative, symmetric under `(x, y) ↦ (-x, 1-y)`, has derivative
`sigmoid(x) - y` in the logit, and is minimal where `sigmoid(x) = y`. -/
theorem C58_properties (x y : ℝ) (h0 : 0 ≤ y) (h1 : y ≤ 1) :
    0 ≤ bernoulliCE y (sigmoid x) ∧
    bernoulliCE (1 - y) (sigmoid (-x)) = bernoulliCE y (sigmoid x) ∧
    HasDerivAt (fun x => bernoulliCE y (sigmoid x)) (sigmoid x - y) x ∧
    (sigmoid x = y → ∀ x', bernoulliCE y (sigmoid x) ≤ bernoulliCE y (sigmoid x')) := by
  refine ⟨?_, ?_, ?_, ?_⟩
  · have h2 := log_le_zero_of (sigmoid_pos x) (sigmoid_lt_one x)
    have h3 := log_le_zero_of (sigmoid_pos (-x)) (sigmoid_lt_one (-x))
    rw [← one_sub_sigmoid] at h3
    unfold bernoulliCE
    nlinarith
  · unfold bernoulliCE
    rw [one_sub_sigmoid (-x), neg_neg, ← one_sub_sigmoid x]
    ring
  · have e : (fun x => bernoulliCE y (sigmoid x)) =
        fun x => y * Real.log (1 + Real.exp (-x)) + (1 - y) * Real.log (1 + Real.exp x) := by
      funext x
      unfold bernoulliCE
      rw [one_sub_sigmoid]
      unfold sigmoid
      rw [one_div, one_div, Real.log_inv, Real.log_inv, neg_neg]
      ring
    rw [e]
    have h2 : HasDerivAt (fun x : ℝ => 1 + Real.exp (-x)) (-Real.exp (-x)) x := by
      have := ((hasDerivAt_neg x).exp).const_add 1
      simpa using this
    have h3 : HasDerivAt (fun x : ℝ => 1 + Real.exp x) (Real.exp x) x := (Real.hasDerivAt_exp x).const_add 1
    have h4 := ((h2.log (by positivity)).const_mul y).add ((h3.log (by positivity)).const_mul (1 - y))
    have h5 : Real.exp x / (1 + Real.exp x) = sigmoid x := by
      unfold sigmoid
      rw [div_eq_div_iff (by positivity) (by positivity)]
      rw [mul_add, ← Real.exp_add]; simp; ring
    have h6 : Real.exp (-x) / (1 + Real.exp (-x)) = 1 - sigmoid x := by
      unfold sigmoid
      have : (1 + Real.exp (-x)) ≠ 0 := by positivity
      field_simp
      ring
    exact h4.congr_deriv (by rw [neg_div, h5, h6]; ring)
  · intro h x'
    rw [h]
    exact bernoulliCE_ge y (sigmoid x') h0 h1 (sigmoid_pos _) (sigmoid_lt_one _)

/-- every probability strictly between 0 and 1 is attained, so the minimum exists for such labels -/
example (y : ℝ) (h0 : 0 < y) (h1 : y < 1) : sigmoid (Real.log (y / (1 - y))) = y := by
  unfold sigmoid
  have h2 : 0 < 1 - y := by linarith
  rw [← Real.log_inv, Real.exp_log (by positivity), inv_div]
  field_simp
  ring

/-- an array of shape `s` can be broadcast to shape `t`: it has no more axes and, counted from the last axis, each of its
axes has size 1 or the size of the corresponding axis of `t` -/
def BroadcastsTo (s t : List ℕ) : Prop := s.length ≤ t.length ∧ ∀ i < s.length, s.reverse[i]? = some 1 ∨ s.reverse[i]? = t.reverse[i]?

theorem broadcastableRev_iff : ∀ s t : List ℕ,
    broadcastableRev s t = true ↔ s.length ≤ t.length ∧ ∀ i < s.length, s[i]? = some 1 ∨ s[i]? = t[i]?
  | [], t => by simp [broadcastableRev]
  | a :: s, [] => by simp [broadcastableRev]
  | a :: s, b :: t => by
    rw [broadcastableRev, Bool.and_eq_true, broadcastableRev_iff s t]
    simp only [List.length_cons, Bool.or_eq_true, beq_iff_eq]
    constructor
    · rintro ⟨h1, h2, h3⟩
      refine ⟨by omega, fun i hi => ?_⟩
      cases i with
      | zero => rcases h1 with h | h <;> simp [h]
      | succ i => simpa using h3 i (by omega)
    · rintro ⟨h2, h3⟩
      refine ⟨by simpa using h3 0 (by omega), by omega, fun i hi => ?_⟩
      simpa using h3 (i + 1) (by omega)

theorem assertBroadcastable_iff (s t : List ℕ) : assertBroadcastable s t = .ok () ↔ BroadcastsTo s t := by
  unfold assertBroadcastable BroadcastsTo
  have h := broadcastableRev_iff s.reverse t.reverse
  simp only [List.length_reverse] at h
  rw [← h]
  split <;> simp_all

theorem assertBroadcastable_error (s t : List ℕ) (h : ¬ BroadcastsTo s t) : assertBroadcastable s t = .error .assertion := by
  rw [← assertBroadcastable_iff] at h
  unfold assertBroadcastable at *
  split at h
  · exact absurd rfl h
  · rw [if_neg (by assumption)]

/-- **C58, C59, C60.** Shapes that do not broadcast are rejected with AssertionError before anything is computed. -/
theorem C58_rejects (x y : Tensor ℝ) (e : ℝ) (h : ¬ BroadcastsTo x.shape y.shape) :
    sigmoidBCE x y = .error .assertion ∧ softmaxCE x y = .error .assertion ∧
    cosineSimilarity x y e = .error .assertion ∧ cosineDistance x y e = .error .assertion := by
  simp [sigmoidBCE, softmaxCE, cosineSimilarity, cosineDistance, assertBroadcastable_error _ _ h]

theorem mapM_error {β γ : Type} (f : β → Res γ) (e : Err) : ∀ l : List β, l.mapM f = .error e → ∃ b ∈ l, f b = .error e
  | [], h => by simp at h
  | b :: l, h => by
    rw [List.mapM_cons] at h
    cases hb : f b with
    | error e' =>
      rw [hb, Res.error_bind] at h
      exact ⟨b, by simp, by rw [hb]; injection h with h; rw [h]⟩
    | ok c =>
      rw [hb, Res.ok_bind] at h
      cases hl : l.mapM f with
      | error e' =>
        rw [hl, Res.error_bind] at h
        obtain ⟨b', h1, h2⟩ := mapM_error f e l (by rw [hl]; exact h)
        exact ⟨b', by simp [h1], h2⟩
      | ok cs => rw [hl, Res.ok_bind] at h; cases h

theorem bop_ne_assertion {β γ δ : Type} (f : β → γ → δ) (a : Tensor β) (b : Tensor γ) : Tensor.bop f a b ≠ .error .assertion := by
  unfold Tensor.bop
  split
  · simp
  · split
    · simp
    · rename_i out _
      intro h
      generalize hm : (List.range out.prod).mapM (fun i =>
        match a.data[Tensor.bproj out a.shape i]?, b.data[Tensor.bproj out b.shape i]? with
        | some x, some y => (Except.ok (f x y) : Res δ)
        | _, _ => .error .index) = r at h
      cases r with
      | ok xs => cases h
      | error e =>
        obtain ⟨i, -, hi⟩ := mapM_error _ _ _ hm
        cases h
        split at hi <;> cases hi

theorem lastDim_ne_assertion (x : Tensor ℝ) : x.lastDim ≠ .error .assertion := by
  unfold Tensor.lastDim
  split <;> simp

theorem bind_ne_assertion {β γ : Type} {x : Res β} {f : β → Res γ} (h : x ≠ .error .assertion)
    (h' : ∀ b, f b ≠ .error .assertion) : (x >>= f) ≠ .error .assertion := by
  cases x with
  | error e => intro hc; apply h; rw [Res.error_bind] at hc; injection hc with hc; rw [hc]
  | ok b => exact h' b

/-- **C58, C59, C60.** … and no others: with shapes that do broadcast there is no AssertionError. -/
theorem C58_accepts (x y : Tensor ℝ) (e : ℝ) (h : BroadcastsTo x.shape y.shape) :
    sigmoidBCE x y ≠ .error .assertion ∧ softmaxCE x y ≠ .error .assertion ∧
    cosineSimilarity x y e ≠ .error .assertion ∧ cosineDistance x y e ≠ .error .assertion := by
  have ha := (assertBroadcastable_iff _ _).2 h
  have red : ∀ (f : List ℝ → ℝ) (t : Tensor ℝ), t.reduceLast f ≠ .error .assertion := fun f t =>
    bind_ne_assertion (lastDim_ne_assertion t) (fun _ => by simp)
  have unit : ∀ t : Tensor ℝ, unitRows e t ≠ .error .assertion := fun t =>
    bind_ne_assertion (lastDim_ne_assertion t) (fun _ => by simp)
  have cs : cosineSimilarity x y e ≠ .error .assertion := by
    unfold cosineSimilarity
    rw [ha, Res.ok_bind]
    exact bind_ne_assertion (unit _) fun _ => bind_ne_assertion (unit _) fun _ =>
      bind_ne_assertion (bop_ne_assertion _ _ _) fun _ => red _ _
  refine ⟨?_, ?_, cs, ?_⟩
  · unfold sigmoidBCE
    rw [ha, Res.ok_bind]
    exact bind_ne_assertion (bop_ne_assertion _ _ _) fun _ => bind_ne_assertion (bop_ne_assertion _ _ _) fun _ =>
      bop_ne_assertion _ _ _
  · unfold softmaxCE
    rw [ha, Res.ok_bind]
    refine bind_ne_assertion ?_ fun _ => bind_ne_assertion (bop_ne_assertion _ _ _) fun _ =>
      bind_ne_assertion (red _ _) fun _ => by simp
    refine bind_ne_assertion (lastDim_ne_assertion x) fun k => ?_
    split
    · simp [valueError]
    · simp
  · unfold cosineDistance
    rw [ha, Res.ok_bind]
    exact bind_ne_assertion cs fun _ => by simp

/-- … e.g. predictions for 2 rows and labels for 3 -/
example : ¬ BroadcastsTo [2, 4] [3, 4] ∧ BroadcastsTo [1, 4] [3, 4] ∧ BroadcastsTo [4] [3, 4] := by
  refine ⟨?_, ?_, ?_⟩
  · rintro ⟨_, h⟩; have := h 1 (by simp); simp at this
  · refine ⟨by simp, fun i hi => ?_⟩
    match i, hi with
    | 0, _ => simp
    | 1, _ => simp
  · refine ⟨by simp, fun i hi => ?_⟩
    match i, hi with
    | 0, _ => simp

/-! ## C59 -/

/-- the softmax probability of class `j` -/
noncomputable def softmax (K : ℕ) (x : ℕ → ℝ) (j : ℕ) : ℝ := Real.exp (x j) / ∑ l ∈ range K, Real.exp (x l)

theorem list_sum_range (K : ℕ) (f : ℕ → ℝ) : ((List.range K).map f).sum = ∑ j ∈ range K, f j := sum_map_range K f

theorem logSoftmaxRow_real (K : ℕ) (x : ℕ → ℝ) (j : ℕ) (hj : j < K) :
    logSoftmaxRow ((List.range K).map x) (x j) = Real.log (softmax K x j) := by
  unfold logSoftmaxRow softmax
  have hpos : 0 < ∑ l ∈ range K, Real.exp (x l) :=
    Finset.sum_pos (fun l _ => Real.exp_pos _) ⟨j, Finset.mem_range.mpr hj⟩
  generalize rowMax ((List.range K).map x) = m
  simp only [List.map_map, Function.comp_def, jexp_real, jlog_real]
  rw [list_sum_range]
  have e : ∑ l ∈ range K, Real.exp (x l - m) = Real.exp (-m) * ∑ l ∈ range K, Real.exp (x l) := by
    rw [Finset.mul_sum]
    apply Finset.sum_congr rfl
    intro l _
    rw [← Real.exp_add]; ring_nf
  rw [e, Real.log_mul (Real.exp_pos _).ne' hpos.ne', Real.log_exp, Real.log_div (Real.exp_pos _).ne' hpos.ne',
    Real.log_exp]
  ring

/-- **C59.** On any batch of rows the loss of a row is `-Σ_j y_j log softmax(x)_j`. -/
theorem C59_softmax_ce (b : List ℕ) (K : ℕ) (hK : 0 < K) (x y : ℕ → ℕ → ℝ) :
    softmaxCE (rowsT b K x) (rowsT b K y) =
      .ok (Tensor.tens b (fun r => -∑ j ∈ range K, y r j * Real.log (softmax K (x r) j))) := by
  unfold softmaxCE
  have hs1 : (rowsT b K x).shape = b ++ [K] := rfl
  have hs2 : (rowsT b K y).shape = b ++ [K] := rfl
  rw [hs1, hs2, assertBroadcastable_self, Res.ok_bind]
  have hls : logSoftmax (rowsT b K x) = .ok (rowsT b K (fun r j => Real.log (softmax K (x r) j))) := by
    unfold logSoftmax
    have h1 : (rowsT b K x).lastDim = .ok K := lastDim_rowsT b K _
    rw [h1, Res.ok_bind, if_neg hK.ne', Res.pure_eq, hs1]
    congr 1
    apply Tensor.tens_congr
    intro i hi
    obtain ⟨h2, h3⟩ := lastRow_lt hi
    rw [lastRow_rowsT b K x _ h2]
    unfold rowsT
    rw [List.getD_eq_getElem?_getD, Tensor.getD_tens _ _ _ hi]
    exact logSoftmaxRow_real K (x (i / K)) (i % K) h3
  rw [hls, Res.ok_bind]
  have hb : Tensor.bop (fun y l => y * l) (rowsT b K y) (rowsT b K (fun r j => Real.log (softmax K (x r) j))) =
      .ok (rowsT b K (fun r j => y r j * Real.log (softmax K (x r) j))) := by
    unfold rowsT; rw [Tensor.bop_tens]
  rw [hb, Res.ok_bind, reduceLast_rowsT, Res.ok_bind, Res.pure_eq, Tensor.map_tens]
  simp only [list_sum_range]

/-- **C59.** Adding a constant to all logits of a row does not change the loss. -/
theorem C59_shift (b : List ℕ) (K : ℕ) (hK : 0 < K) (x y : ℕ → ℕ → ℝ) (c : ℕ → ℝ) :
    softmaxCE (rowsT b K (fun r j => x r j + c r)) (rowsT b K y) = softmaxCE (rowsT b K x) (rowsT b K y) := by
  rw [C59_softmax_ce b K hK, C59_softmax_ce b K hK]
  have : ∀ r j, softmax K (fun j => x r j + c r) j = softmax K (x r) j := by
    intro r j
    unfold softmax
    simp only [Real.exp_add, ← Finset.sum_mul]
    rw [mul_div_mul_right _ _ (Real.exp_pos _).ne']
  simp only [this]

/-- **C59.** For every row whose labels form a distribution, the loss is non-negative and at least the entropy of the
labels, with equality if the softmax equals the labels; if all the mass is on class `c` it is
`-log softmax(x)_c`. -/
theorem C59_bounds (b : List ℕ) (K : ℕ) (hK : 0 < K) (x y : ℕ → ℕ → ℝ) :
    ∃ L, softmaxCE (rowsT b K x) (rowsT b K y) = .ok (Tensor.tens b L) ∧
      ∀ r, (∀ j < K, 0 ≤ y r j) → ∑ j ∈ range K, y r j = 1 →
        0 ≤ L r ∧ -∑ j ∈ range K, y r j * Real.log (y r j) ≤ L r ∧
        ((∀ j < K, softmax K (x r) j = y r j) → L r = -∑ j ∈ range K, y r j * Real.log (y r j)) ∧
        (∀ c < K, (∀ j < K, y r j = if j = c then 1 else 0) → L r = -Real.log (softmax K (x r) c)) := by
  refine ⟨_, C59_softmax_ce b K hK x y, ?_⟩
  intro r hy hsum
  have hpos : 0 < ∑ l ∈ range K, Real.exp (x r l) :=
    Finset.sum_pos (fun l _ => Real.exp_pos _) ⟨0, Finset.mem_range.mpr hK⟩
  have hsm : ∀ j, 0 < softmax K (x r) j := fun j => div_pos (Real.exp_pos _) hpos
  have hss : ∑ j ∈ range K, softmax K (x r) j = 1 := by
    unfold softmax; rw [← Finset.sum_div, div_self hpos.ne']
  have hle : ∀ j < K, softmax K (x r) j ≤ 1 := by
    intro j hj
    rw [← hss]
    exact Finset.single_le_sum (f := softmax K (x r)) (fun l _ => (hsm l).le) (Finset.mem_range.mpr hj)
  refine ⟨?_, ?_, ?_, ?_⟩
  · rw [Left.nonneg_neg_iff]
    apply Finset.sum_nonpos
    intro j hj
    rw [Finset.mem_range] at hj
    exact mul_nonpos_of_nonneg_of_nonpos (hy j hj) (Real.log_nonpos (hsm j).le (hle j hj))
  · rw [neg_le_neg_iff]
    have key : ∀ j ∈ range K, y r j * Real.log (softmax K (x r) j) ≤
        y r j * Real.log (y r j) + (softmax K (x r) j - y r j) := by
      intro j hj
      rw [Finset.mem_range] at hj
      rcases (hy j hj).eq_or_lt with h0 | h0
      · rw [← h0]; simp; exact (hsm j).le
      · have h := Real.log_le_sub_one_of_pos (show 0 < softmax K (x r) j / y r j from div_pos (hsm j) h0)
        rw [Real.log_div (hsm j).ne' h0.ne'] at h
        have h2 := mul_le_mul_of_nonneg_left h h0.le
        have h3 : y r j * (softmax K (x r) j / y r j - 1) = softmax K (x r) j - y r j := by field_simp
        linarith
    refine (Finset.sum_le_sum key).trans ?_
    rw [Finset.sum_add_distrib, Finset.sum_sub_distrib, hss, hsum]
    simp
  · intro h
    congr 1
    apply Finset.sum_congr rfl
    intro j hj
    rw [h j (Finset.mem_range.mp hj)]
  · intro c hc hone
    congr 1
    rw [Finset.sum_eq_single c]
    · rw [hone c hc]; simp
    · intro j hj hne
      rw [hone j (Finset.mem_range.mp hj)]; simp [hne]
    · intro h; exact absurd (Finset.mem_range.mpr hc) h

/-- the softmax can equal any positive distribution `q`: logits `log q` -/
example (K : ℕ) (q : ℕ → ℝ) (hq : ∀ j < K, 0 < q j) (hs : ∑ j ∈ range K, q j = 1) :
    ∀ j < K, softmax K (fun j => Real.log (q j)) j = q j := by
  intro j hj
  unfold softmax
  rw [Finset.sum_congr rfl (fun l hl => Real.exp_log (hq l (Finset.mem_range.mp hl))), hs, Real.exp_log (hq j hj), div_one]

/-! ## C60 -/

/-- the Euclidean norm of a row -/
noncomputable def rowNorm (K : ℕ) (x : ℕ → ℝ) : ℝ := Real.sqrt (∑ j ∈ range K, x j ^ 2)

theorem safeNorm_row (K : ℕ) (x : ℕ → ℝ) (e : ℝ) :
    safeNorm ⟨[K], (List.range K).map x⟩ e = max (rowNorm K x) e := by
  have h : (⟨[K], (List.range K).map x⟩ : Tensor ℝ) = Tensor.tens [K] x := by
    unfold Tensor.tens; simp
  rw [h, C32_safe_norm]
  simp [rowNorm]

/-- **C60.** On any batch of rows: the inner product of the rows divided by their norms (each at least `epsilon`). -/
theorem C60_value (b : List ℕ) (K : ℕ) (x y : ℕ → ℕ → ℝ) (e : ℝ) :
    cosineSimilarity (rowsT b K x) (rowsT b K y) e =
      .ok (Tensor.tens b (fun r => ∑ j ∈ range K,
        y r j / max (rowNorm K (y r)) e * (x r j / max (rowNorm K (x r)) e))) := by
  unfold cosineSimilarity
  have hs : ∀ z : ℕ → ℕ → ℝ, (rowsT b K z).shape = b ++ [K] := fun _ => rfl
  rw [hs, hs, assertBroadcastable_self, Res.ok_bind]
  have hu : ∀ z : ℕ → ℕ → ℝ, unitRows e (rowsT b K z) = .ok (rowsT b K (fun r j => z r j / max (rowNorm K (z r)) e)) := by
    intro z
    unfold unitRows
    have h1 : (rowsT b K z).lastDim = .ok K := lastDim_rowsT b K _
    rw [h1, Res.ok_bind, Res.pure_eq, hs]
    congr 1
    apply Tensor.tens_congr
    intro i hi
    obtain ⟨h2, h3⟩ := lastRow_lt hi
    rw [lastRow_rowsT b K z _ h2, safeNorm_row]
    unfold rowsT
    rw [List.getD_eq_getElem?_getD, Tensor.getD_tens _ _ _ hi]
  rw [hu, Res.ok_bind, hu, Res.ok_bind]
  have hb : ∀ z w : ℕ → ℕ → ℝ, Tensor.bop (fun a b => a * b) (rowsT b K z) (rowsT b K w) =
      .ok (rowsT b K (fun r j => z r j * w r j)) := by
    intro z w; unfold rowsT; rw [Tensor.bop_tens]
  rw [hb, Res.ok_bind, reduceLast_rowsT]
  simp only [list_sum_range]

theorem cos_sum_eq (K : ℕ) (x y : ℕ → ℝ) (p q : ℝ) :
    ∑ j ∈ range K, y j / q * (x j / p) = (∑ j ∈ range K, y j * x j) / (q * p) := by
  rw [Finset.sum_div]
  apply Finset.sum_congr rfl
  intro j _
  ring

theorem rowNorm_eq_l2 (K : ℕ) (x : ℕ → ℝ) : rowNorm K x = l2 (range K) x := rfl

/-- **C60.** With `epsilon ≥ 0`, for *all* rows (zero ones included): the similarity is in `[-1,1]` and symmetric, the
distance is `1 - similarity`, in `[0,2]`. -/
theorem C60_range (b : List ℕ) (K : ℕ) (x y : ℕ → ℕ → ℝ) (e : ℝ) (he : 0 ≤ e) :
    ∃ c, cosineSimilarity (rowsT b K x) (rowsT b K y) e = .ok (Tensor.tens b c) ∧
      cosineSimilarity (rowsT b K y) (rowsT b K x) e = .ok (Tensor.tens b c) ∧
      cosineDistance (rowsT b K x) (rowsT b K y) e = .ok (Tensor.tens b (fun r => 1 - c r)) ∧
      ∀ r, -1 ≤ c r ∧ c r ≤ 1 ∧ 0 ≤ 1 - c r ∧ 1 - c r ≤ 2 := by
  refine ⟨_, C60_value b K x y e, ?_, ?_, ?_⟩
  · rw [C60_value]
    congr 1
    apply Tensor.tens_congr
    intro r _
    apply Finset.sum_congr rfl
    intro j _
    ring
  · unfold cosineDistance
    have hs : ∀ z : ℕ → ℕ → ℝ, (rowsT b K z).shape = b ++ [K] := fun _ => rfl
    rw [hs, hs, assertBroadcastable_self, Res.ok_bind, C60_value, Res.ok_bind, Res.pure_eq, Tensor.map_tens]
  · intro r
    have h : |∑ j ∈ range K, y r j / max (rowNorm K (y r)) e * (x r j / max (rowNorm K (x r)) e)| ≤ 1 := by
      rw [cos_sum_eq, abs_div]
      have hq : 0 ≤ max (rowNorm K (y r)) e := le_max_of_le_right he
      have hp : 0 ≤ max (rowNorm K (x r)) e := le_max_of_le_right he
      rw [abs_of_nonneg (mul_nonneg hq hp)]
      apply div_le_one_of_le₀ _ (mul_nonneg hq hp)
      refine (abs_inner_le_l2 (range K) (y r) (x r)).trans ?_
      rw [← rowNorm_eq_l2, ← rowNorm_eq_l2]
      exact mul_le_mul (le_max_left _ _) (le_max_left _ _) (Real.sqrt_nonneg _) hq
    rw [abs_le] at h
    exact ⟨h.1, h.2, by linarith [h.2], by linarith [h.1]⟩

/-- **C60.** `epsilon = 0`: rescaling the rows by positive factors changes nothing, and parallel non-zero rows have
similarity 1 (opposite ones -1). -/
theorem C60_scale (b : List ℕ) (K : ℕ) (x y : ℕ → ℕ → ℝ) (s t : ℕ → ℝ) (hs : ∀ r, 0 < s r) (ht : ∀ r, 0 < t r) :
    cosineSimilarity (rowsT b K (fun r j => s r * x r j)) (rowsT b K (fun r j => t r * y r j)) 0 =
      cosineSimilarity (rowsT b K x) (rowsT b K y) 0 ∧
    ∃ c d, cosineSimilarity (rowsT b K (fun r j => s r * x r j)) (rowsT b K x) 0 = .ok (Tensor.tens b c) ∧
      cosineSimilarity (rowsT b K (fun r j => -s r * x r j)) (rowsT b K x) 0 = .ok (Tensor.tens b d) ∧
      ∀ r, rowNorm K (x r) ≠ 0 → c r = 1 ∧ d r = -1 := by
  have hn : ∀ (a : ℝ) (z : ℕ → ℝ), rowNorm K (fun j => a * z j) = |a| * rowNorm K z := by
    intro a z; rw [rowNorm_eq_l2, l2_smul, rowNorm_eq_l2]
  have h0 : ∀ z : ℕ → ℝ, max (rowNorm K z) 0 = rowNorm K z := fun z => max_eq_left (Real.sqrt_nonneg _)
  have h0' : ∀ (r : ℕ) (z : ℕ → ℝ), max (s r * rowNorm K z) 0 = s r * rowNorm K z := fun r z =>
    max_eq_left (mul_nonneg (hs r).le (Real.sqrt_nonneg _))
  have h0t : ∀ (r : ℕ) (z : ℕ → ℝ), max (t r * rowNorm K z) 0 = t r * rowNorm K z := fun r z =>
    max_eq_left (mul_nonneg (ht r).le (Real.sqrt_nonneg _))
  constructor
  · rw [C60_value, C60_value]
    congr 1
    apply Tensor.tens_congr
    intro r _
    simp only [hn, h0, h0', h0t, abs_of_pos (hs r), abs_of_pos (ht r)]
    apply Finset.sum_congr rfl
    intro j _
    rw [mul_div_mul_left _ _ (ht r).ne', mul_div_mul_left _ _ (hs r).ne']
  · refine ⟨_, _, C60_value b K _ x 0, C60_value b K _ x 0, ?_⟩
    intro r hr
    have hx : 0 < rowNorm K (x r) := lt_of_le_of_ne (Real.sqrt_nonneg _) (Ne.symm hr)
    have hsq : ∑ j ∈ range K, x r j ^ 2 = rowNorm K (x r) ^ 2 := by
      unfold rowNorm; rw [Real.sq_sqrt (Finset.sum_nonneg fun i _ => sq_nonneg _)]
    have hsr := hs r
    constructor
    · rw [cos_sum_eq]
      simp only [hn, h0, h0', h0t, abs_of_pos (hs r)]
      have : ∑ j ∈ range K, x r j * (s r * x r j) = s r * rowNorm K (x r) ^ 2 := by
        rw [← hsq, Finset.mul_sum]; apply Finset.sum_congr rfl; intro j _; ring
      rw [this]
      field_simp
    · rw [cos_sum_eq]
      simp only [hn, h0, h0', h0t, abs_neg, abs_of_pos (hs r)]
      have : ∑ j ∈ range K, x r j * (-s r * x r j) = -(s r * rowNorm K (x r) ^ 2) := by
        rw [← hsq, Finset.mul_sum, ← Finset.sum_neg_distrib]; apply Finset.sum_congr rfl; intro j _; ring
      rw [this]
      field_simp

end Optax
