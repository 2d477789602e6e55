import Verif.Props.FloatSchedule
import Verif.Props.FloatExact
import Verif.Props.Loss

/-!
# C90: signs of the losses in floating point
-/

set_option linter.unusedSectionVars false
set_option linter.unusedSimpArgs false

namespace Optax
open FP
open scoped Classical

variable {F : Format}

namespace FP

theorem nan_or_nonneg {a : FP F} (h : ¬ a < 0) : ¬ IsNum a ∨ 0 ≤ a := by
  by_cases hn : IsNum a
  · exact Or.inr ((not_lt hn num_zero).1 h)
  · exact Or.inl hn

theorem nan_or_nonpos {a : FP F} (h : ¬ 0 < a) : ¬ IsNum a ∨ a ≤ 0 := by
  by_cases hn : IsNum a
  · exact Or.inr ((not_lt num_zero hn).1 h)
  · exact Or.inl hn

theorem not_neg_of_nonneg {a : FP F} (h : 0 ≤ a) : ¬ a < 0 := (not_lt (le_num h).2 num_zero).2 h
theorem not_pos_of_nonpos {a : FP F} (h : a ≤ 0) : ¬ 0 < a := (not_lt num_zero (le_num h).1).2 h
theorem not_neg_of_nan {a : FP F} (h : ¬ IsNum a) : ¬ a < 0 := fun h' => h (le_num (lt_le h')).1
theorem not_pos_of_nan {a : FP F} (h : ¬ IsNum a) : ¬ 0 < a := fun h' => h (le_num (lt_le h')).2

theorem nan_of {a : FP F} : ¬ IsNum a ↔ a.1 = .nan := by rw [isNum_iff, not_not]

theorem neg_pos_iff {a : FP F} : -a < 0 ↔ 0 < a := by
  rw [lt_iff, lt_iff, neg_val, zero_val]
  cases h : a.1 with
  | fin r => rw [XReal.fin_neg]; simp [XReal.toE]
  | pinf => simp [XReal.toE, Neg.neg, XReal.neg]
  | ninf => simp [XReal.toE, Neg.neg, XReal.neg]
  | nan => simp [XReal.toE, Neg.neg, XReal.neg]

theorem nonneg_neg {a : FP F} (h : a ≤ 0) : 0 ≤ -a := by
  have hn := neg_num.2 (le_num h).1
  exact (not_lt hn num_zero).1 (fun h' => not_pos_of_nonpos h (neg_pos_iff.1 h'))

theorem not_pos_add {a b : FP F} (ha : ¬ 0 < a) (hb : ¬ 0 < b) : ¬ 0 < a + b := by
  by_cases hs : IsNum (a + b)
  · have hn : a.1 + b.1 ≠ .nan := of_num.1 hs
    obtain ⟨h1, h2⟩ := XReal.add_ne_nan hn
    have h1' := (not_lt num_zero ((isNum_iff a).2 h1)).1 ha
    have h2' := (not_lt num_zero ((isNum_iff b).2 h2)).1 hb
    apply not_pos_of_nonpos
    have := add_mono h1' h2' hs (add_fin_num fin_zero fin_zero)
    rwa [zero_add] at this
  · exact not_pos_of_nan hs

theorem not_pos_mul {a b : FP F} (ha : 0 ≤ a) (haf : IsFin a) (hb : ¬ 0 < b) : ¬ 0 < a * b := by
  obtain ⟨x, hx0, hx⟩ := fin_nonneg ha haf
  rcases nan_or_nonpos hb with h | h
  · apply not_pos_of_nan
    rw [nan_of] at h ⊢
    rw [mul_val, h, XReal.mul_nan]; rfl
  · rw [lt_iff, mul_val, hx, zero_val]
    rintro ⟨-, h1, h2⟩
    rw [le_iff, zero_val] at h
    cases hb' : b.1 with
    | fin y =>
      rw [hb', XReal.fin_mul] at h2
      have hy : y ≤ 0 := by rw [hb'] at h; simpa [XReal.toE] using h.2.2
      have : of F (.fin (x * y)) ≤ of F (.fin 0) := of_fin_mono (mul_nonpos_of_nonneg_of_nonpos hx0 hy)
      rw [le_iff] at this
      have e : (of F (.fin 0)).1 = .fin 0 := zero_val
      rw [e] at this
      exact absurd (this.2.2) (not_le.2 h2)
    | pinf => rw [hb'] at h; simp [XReal.toE] at h
    | nan => exact h.1 hb'
    | ninf =>
      rw [hb'] at h1 h2
      have e : (XReal.fin x * XReal.ninf) = XReal.infOf (-x) := rfl
      rw [e] at h1 h2
      rcases hx0.lt_or_eq with h0 | h0
      · have : XReal.infOf (-x) = .ninf := by rw [XReal.infOf, if_neg (by linarith), if_pos (by linarith)]
        rw [this] at h2
        simp [XReal.toE, Format.round] at h2
      · have : XReal.infOf (-x) = .nan := by rw [XReal.infOf, ← h0]; simp
        rw [this] at h1
        exact h1 rfl

theorem not_neg_add {a b : FP F} (ha : ¬ a < 0) (hb : ¬ b < 0) : ¬ a + b < 0 := by
  by_cases hs : IsNum (a + b)
  · have hn : a.1 + b.1 ≠ .nan := of_num.1 hs
    obtain ⟨h1, h2⟩ := XReal.add_ne_nan hn
    exact not_neg_of_nonneg (add_nonneg ((not_lt ((isNum_iff a).2 h1) num_zero).1 ha)
      ((not_lt ((isNum_iff b).2 h2) num_zero).1 hb))
  · exact not_neg_of_nan hs

theorem not_neg_mul {a b : FP F} (ha : 0 ≤ a) (haf : IsFin a) (hb : ¬ b < 0) : ¬ a * b < 0 := by
  rcases nan_or_nonneg hb with h | h
  · apply not_neg_of_nan
    rw [nan_of] at h ⊢
    rw [mul_val, h, XReal.mul_nan]; rfl
  · by_cases hbf : IsFin b
    · exact not_neg_of_nonneg (mul_nonneg' ha h haf hbf)
    · by_cases h0 : 0 < a
      · exact not_neg_of_nonneg (mul_nonneg h0 haf h)
      · apply not_neg_of_nan
        have e : a = 0 := le_antisymm ((not_lt num_zero haf.isNum).1 h0) ha
        rw [nan_of, e, nonneg_not_fin h hbf, mul_val, zero_val, inf_val]
        show F.round (XReal.infOf 0) = _
        simp [XReal.infOf, Format.round]

/-- a non-positive factor times something not positive -/
theorem not_neg_mul_nonpos {a b : FP F} (ha : a ≤ 0) (haf : IsFin a) (hb : ¬ 0 < b) : ¬ a * b < 0 := by
  obtain ⟨x, hx⟩ := (isFin_iff a).1 haf
  have hx0 : x ≤ 0 := (le_fin hx zero_val).1 ha
  rcases nan_or_nonpos hb with h | h
  · apply not_neg_of_nan
    rw [nan_of] at h ⊢
    rw [mul_val, h, XReal.mul_nan]; rfl
  · cases hb' : b.1 with
    | fin y =>
      have hy : y ≤ 0 := (le_fin hb' zero_val).1 h
      apply not_neg_of_nonneg
      show 0 ≤ of F (a.1 * b.1)
      rw [hx, hb', XReal.fin_mul]
      exact of_fin_nonneg (mul_nonneg_of_nonpos_of_nonpos hx0 hy)
    | pinf => rw [le_iff, hb', zero_val] at h; simp [XReal.toE] at h
    | nan => rw [le_iff] at h; exact absurd hb' h.1
    | ninf =>
      have e : (a * b).1 = F.round (XReal.infOf (-x)) := by rw [mul_val, hx, hb']; rfl
      rcases hx0.lt_or_eq with h0 | h0
      · apply not_neg_of_nonneg
        rw [nonneg_iff, e, XReal.infOf, if_pos (by linarith)]
        exact Or.inl rfl
      · apply not_neg_of_nan
        rw [nan_of, e, XReal.infOf, h0]
        simp [Format.round]

theorem not_neg_sub {a b : FP F} (ha : ¬ a < 0) (hb : ¬ 0 < b) : ¬ a - b < 0 := by
  have e : a - b = a + -b := ext (by rw [sub_val, add_val, neg_val]; rfl)
  rw [e]
  exact not_neg_add ha (fun h => hb (neg_pos_iff.1 h))

theorem exp_nonneg (a : FP F) (h : IsNum a) : 0 ≤ (JOps.exp a : FP F) := by
  show 0 ≤ of F (XReal.lift (fun r => .fin (F.exp r)) .pinf (.fin 0) a.1)
  cases h' : a.1 with
  | fin r => exact of_fin_nonneg (F.exp_nonneg r)
  | pinf => exact nonneg_inf
  | ninf => exact le_refl num_zero
  | nan => exact absurd h' ((isNum_iff a).1 h)

theorem exp_zero : (JOps.exp (0 : FP F)) = 1 := by
  have e : (JOps.exp (0 : FP F)) = of F (.fin (F.exp 0)) := by
    show of F (XReal.lift (fun r => .fin (F.exp r)) .pinf (.fin 0) (0 : FP F).1) = _
    rw [zero_val]; rfl
  rw [e, F.exp_zero]; rfl

theorem log_nonneg {a : FP F} (h : 1 ≤ a) : 0 ≤ (JOps.log a : FP F) := by
  show 0 ≤ of F (XReal.lift (fun r => if r < 0 then .nan else if r = 0 then .ninf else .fin (F.log r)) .pinf .nan a.1)
  rcases (nonneg_iff a).1 (le_trans zero_le_one h) with h' | ⟨r, hr, h'⟩
  · rw [h']; exact nonneg_inf
  · rw [h']
    have h1 : 1 ≤ r := (le_fin one_val h').1 h
    simp only [XReal.lift]
    rw [if_neg (by linarith), if_neg (by linarith)]
    exact of_fin_nonneg (F.log_nonneg r h1)

/-- a non-positive number minus a non-negative one is a non-positive number -/
theorem sub_nonpos' {a b : FP F} (ha : a ≤ 0) (hb : 0 ≤ b) : a - b ≤ 0 := by
  have hs : a - b ≤ 0 ↔ of F (a.1 - b.1) ≤ 0 := Iff.rfl
  rw [hs]
  have hn : IsNum (0 : FP F) := num_zero
  rw [le_iff, zero_val] at ha
  rcases (nonneg_iff b).1 hb with h | ⟨q, hq, h⟩
  · rw [h]
    cases h' : a.1 with
    | fin r => exact of_le (x := .ninf) (by simp) hn bot_le
    | pinf => rw [h'] at ha; simp [XReal.toE] at ha
    | ninf => exact of_le (x := .ninf) (by simp) hn bot_le
    | nan => exact absurd h' ha.1
  · rw [h]
    cases h' : a.1 with
    | fin r =>
      rw [XReal.fin_sub]
      refine of_le (by simp) hn ?_
      rw [zero_val]
      rw [h'] at ha
      have hr : r ≤ 0 := by simpa [XReal.toE] using ha.2.2
      simp only [XReal.toE, EReal.coe_le_coe_iff]; linarith
    | pinf => rw [h'] at ha; simp [XReal.toE] at ha
    | ninf => exact of_le (x := .ninf) (by simp) hn bot_le
    | nan => exact absurd h' ha.1

theorem foldl_max_spec (l : List (FP F)) (a : FP F) (ha : IsNum a) (hl : ∀ x ∈ l, IsNum x) :
    a ≤ l.foldl JOps.max a ∧ (∀ x ∈ l, x ≤ l.foldl JOps.max a) ∧ (l.foldl JOps.max a = a ∨ l.foldl JOps.max a ∈ l) := by
  induction l generalizing a with
  | nil => exact ⟨le_refl ha, by simp, Or.inl rfl⟩
  | cons b l ih =>
    have hb := hl b (by simp)
    rw [List.foldl_cons, max_cases a b ha hb]
    split
    · rename_i h
      obtain ⟨h1, h2, h3⟩ := ih b hb fun x hx => hl x (by simp [hx])
      refine ⟨le_trans (lt_le h) h1, ?_, Or.inr ?_⟩
      · intro x hx
        rcases List.mem_cons.1 hx with rfl | hx
        · exact h1
        · exact h2 x hx
      · rcases h3 with h3 | h3
        · rw [h3]; simp
        · exact List.mem_cons_of_mem _ h3
    · rename_i h
      obtain ⟨h1, h2, h3⟩ := ih a ha fun x hx => hl x (by simp [hx])
      refine ⟨h1, ?_, ?_⟩
      · intro x hx
        rcases List.mem_cons.1 hx with rfl | hx
        · exact le_trans ((not_lt ha hb).1 h) h1
        · exact h2 x hx
      · rcases h3 with h3 | h3
        · exact Or.inl h3
        · exact Or.inr (List.mem_cons_of_mem _ h3)

theorem le_sum_of_mem (l : List (FP F)) (hl : ∀ x ∈ l, 0 ≤ x) (a : FP F) (ha : a ∈ l) : 0 ≤ l.sum ∧ a ≤ l.sum := by
  induction l with
  | nil => simp at ha
  | cons b l ih =>
    have hs : 0 ≤ l.sum := by
      clear ih ha
      induction l with
      | nil => exact le_refl num_zero
      | cons c l ih2 =>
        rw [List.sum_cons]
        refine add_nonneg (hl c (by simp)) (ih2 fun x hx => ?_)
        rcases List.mem_cons.1 hx with rfl | hx
        · exact hl _ (by simp)
        · exact hl x (by simp [hx])
    have hb := hl b (by simp)
    rw [List.sum_cons]
    refine ⟨add_nonneg hb hs, ?_⟩
    rcases List.mem_cons.1 ha with rfl | ha
    · have h1 := le_add hs hb
      have e : a + l.sum = l.sum + a := ext (by rw [add_val, add_val, XReal.add_comm'])
      rwa [e]
    · exact le_trans (ih (fun x hx => hl x (by simp [hx])) ha).2 (le_add hb hs)

end FP

/-- **C90.** `log_softmax` of finite logits is a non-positive number, possibly `-∞`, in floating point: never NaN, never
positive. -/
theorem C90_log_softmax (row : List (FP F)) (hrow : ∀ y ∈ row, IsFin y) (x : FP F) (hx : x ∈ row) : logSoftmaxRow row x ≤ 0 := by
  cases row with
  | nil => simp at hx
  | cons a l =>
    have hm := FP.foldl_max_spec l a (hrow a (by simp)).isNum fun y hy => (hrow y (by simp [hy])).isNum
    have hmem : l.foldl JOps.max a ∈ a :: l := by
      rcases hm.2.2 with h | h
      · rw [h]; simp
      · exact List.mem_cons_of_mem _ h
    have hle : ∀ y ∈ a :: l, y ≤ l.foldl JOps.max a := by
      intro y hy
      rcases List.mem_cons.1 hy with rfl | hy
      · exact hm.1
      · exact hm.2.1 y hy
    show x - l.foldl JOps.max a - JOps.log (((a :: l).map fun y => JOps.exp (y - l.foldl JOps.max a)).sum) ≤ 0
    generalize l.foldl JOps.max a = m at hmem hle
    have hmf := hrow m hmem
    have h1 : 1 ≤ ((a :: l).map fun y => JOps.exp (y - m)).sum := by
      refine (FP.le_sum_of_mem _ ?_ 1 ?_).2
      · intro z hz
        obtain ⟨y, hy, rfl⟩ := List.mem_map.1 hz
        exact FP.exp_nonneg _ (sub_fin_num (hrow y hy) hmf)
      · refine List.mem_map.2 ⟨m, hmem, ?_⟩
        rw [FP.sub_self hmf, FP.exp_zero]
    exact FP.sub_nonpos' (FP.sub_nonpos (hrow x hx) hmf (hle x hx)) (FP.log_nonneg h1)

theorem sum_not_pos (l : List (FP F)) (h : ∀ x ∈ l, ¬ 0 < x) : ¬ 0 < l.sum := by
  induction l with
  | nil => exact FP.lt_irrefl _
  | cons a l ih =>
    rw [List.sum_cons]
    exact FP.not_pos_add (h a (by simp)) (ih fun x hx => h x (by simp [hx]))

/-- **C90.** `softmax_cross_entropy` of finite logits with non-negative finite labels is never negative in floating point (it
is NaN only if a label 0 meets a log-probability `-∞`). -/
theorem C90_softmax_ce (b : List ℕ) (K : ℕ) (hK : 0 < K) (x y : ℕ → ℕ → FP F) (hx : ∀ r j, IsFin (x r j))
    (hy : ∀ r j, 0 ≤ y r j ∧ IsFin (y r j)) :
    ∃ L, softmaxCE (rowsT b K x) (rowsT b K y) = .ok (Tensor.tens b L) ∧ ∀ r, ¬ L r < 0 := by
  refine ⟨fun r => -((List.range K).map fun j => y r j * logSoftmaxRow ((List.range K).map (x r)) (x r j)).sum, ?_, fun r => ?_⟩
  · unfold softmaxCE
    have hs1 : (rowsT b K x).shape = b ++ [K] := rfl
    have hs2 : (rowsT b K y).shape = b ++ [K] := rfl
    rw [hs1, hs2, assertBroadcastable_self, Res.ok_bind]
    have hls : logSoftmax (rowsT b K x) = .ok (rowsT b K (fun r j => logSoftmaxRow ((List.range K).map (x r)) (x r j))) := by
      unfold logSoftmax
      have h1 : (rowsT b K x).lastDim = .ok K := lastDim_rowsT b K _
      rw [h1, Res.ok_bind, if_neg hK.ne', Res.pure_eq, hs1]
      congr 1
      apply Tensor.tens_congr
      intro i hi
      obtain ⟨h2, h3⟩ := lastRow_lt hi
      rw [lastRow_rowsT b K x _ h2]
      unfold rowsT
      rw [List.getD_eq_getElem?_getD, Tensor.getD_tens _ _ _ hi]
    rw [hls, Res.ok_bind]
    have hb : Tensor.bop (fun y l => y * l) (rowsT b K y)
        (rowsT b K (fun r j => logSoftmaxRow ((List.range K).map (x r)) (x r j))) =
        .ok (rowsT b K (fun r j => y r j * logSoftmaxRow ((List.range K).map (x r)) (x r j))) := by
      unfold rowsT; rw [Tensor.bop_tens]
    rw [hb, Res.ok_bind, reduceLast_rowsT, Res.ok_bind, Res.pure_eq, Tensor.map_tens]
  · rw [FP.neg_pos_iff]
    refine sum_not_pos _ fun z hz => ?_
    obtain ⟨j, hj, rfl⟩ := List.mem_map.1 hz
    refine FP.not_pos_mul (hy r j).1 (hy r j).2 (FP.not_pos_of_nonpos (C90_log_softmax _ ?_ _ ?_))
    · intro z hz
      obtain ⟨k, -, rfl⟩ := List.mem_map.1 hz
      exact hx r k
    · exact List.mem_map.2 ⟨j, hj, rfl⟩

theorem FP.abs_nonneg {a : FP F} (h : IsNum a) : 0 ≤ (JOps.abs a : FP F) := by
  show 0 ≤ of F (JOps.abs a.1)
  cases h' : a.1 with
  | fin r => exact of_fin_nonneg (_root_.abs_nonneg r)
  | pinf => exact nonneg_inf
  | ninf => exact nonneg_inf
  | nan => exact absurd h' ((FP.isNum_iff a).1 h)

/-- **C90.** `log_sigmoid` of a finite number is at most 0. -/
theorem C90_log_sigmoid (x : FP F) (hx : IsFin x) : logSigmoid x ≤ 0 := by
  unfold logSigmoid logaddexp
  have hnf := FP.isFin_neg hx
  have hd : (-x : FP F) - 0 = -x := FP.sub_zero _
  have hnn : ¬ (JOps.isnan ((-x : FP F) - 0) = true) := by
    rw [hd]
    have := hnf.isNum
    unfold FP.IsNum at this
    rw [this]; simp
  dsimp only
  rw [if_neg hnn, hd]
  apply FP.neg_nonpos
  have hmax : 0 ≤ (JOps.max (-x) 0 : FP F) := by
    rw [FP.max_cases _ _ hnf.isNum num_zero]
    split
    · exact FP.le_refl num_zero
    · rename_i h; exact (FP.not_lt hnf.isNum num_zero).1 h
  have hlog : 1 ≤ (1 + JOps.exp (-(JOps.abs (-x))) : FP F) := by
    have habs := FP.abs_nonneg hnf.isNum
    have h0 := FP.exp_nonneg (-(JOps.abs (-x)) : FP F) (neg_num.2 (le_num habs).2)
    have h1 := le_add h0 (FP.zero_le_one (F := F))
    have e : (1 + JOps.exp (-(JOps.abs (-x))) : FP F) = JOps.exp (-(JOps.abs (-x))) + 1 :=
      FP.ext (by rw [add_val, add_val, XReal.add_comm'])
    rwa [e]
  exact FP.add_nonneg hmax (FP.log_nonneg hlog)

/-- **C90.** `sigmoid_binary_cross_entropy` of finite logits with labels in `[0, 1]` is never negative in floating point. -/
theorem C90_sigmoid_bce (s : List ℕ) (x y : ℕ → FP F) (hx : ∀ i, IsFin (x i)) (hy : ∀ i, 0 ≤ y i ∧ y i ≤ 1) :
    ∃ L, sigmoidBCE (Tensor.tens s x) (Tensor.tens s y) = .ok (Tensor.tens s L) ∧ ∀ i, ¬ L i < 0 := by
  refine ⟨fun i => -(y i) * logSigmoid (x i) - (1 - y i) * logSigmoid (-(x i)), ?_, fun i => ?_⟩
  · unfold sigmoidBCE
    have h1 : (Tensor.tens s x).shape = s := rfl
    have h2 : (Tensor.tens s y).shape = s := rfl
    rw [h1, h2, assertBroadcastable_self, Res.ok_bind]
    simp only [Tensor.map_tens, Tensor.bop_tens, Res.ok_bind]
  · have hyf := fin_between fin_zero fin_one (hy i).1 (hy i).2
    have p1 := FP.not_neg_mul_nonpos (FP.neg_nonpos (hy i).1) (FP.isFin_neg hyf)
      (FP.not_pos_of_nonpos (C90_log_sigmoid (x i) (hx i)))
    have h1y : 0 ≤ 1 - y i := FP.sub_nonneg fin_one hyf (hy i).2
    have h1yf : IsFin (1 - y i) := by
      have := FP.sub_anti fin_zero hyf fin_one (hy i).1
      rw [FP.sub_zero] at this
      exact fin_between fin_zero fin_one h1y this
    exact FP.not_neg_sub p1 (FP.not_pos_mul h1y h1yf (FP.not_pos_of_nonpos (C90_log_sigmoid _ (FP.isFin_neg (hx i)))))

theorem FP.half_facts : (0 : FP F) ≤ JOps.ofRat (1 / 2) ∧ IsFin (JOps.ofRat (1 / 2) : FP F) := by
  have h0 : (0 : FP F) ≤ JOps.ofRat (1 / 2) := of_fin_nonneg (F := F) (by norm_num)
  have h1 : (JOps.ofRat (1 / 2) : FP F) ≤ 1 := of_fin_mono (F := F) (by norm_num)
  exact ⟨h0, fin_between fin_zero fin_one h0 h1⟩

theorem FP.sq_not_neg (a : FP F) : ¬ a * a < 0 := by
  by_cases h : IsNum a
  · exact FP.not_neg_of_nonneg (FP.sq_nonneg h)
  · apply FP.not_neg_of_nan
    rw [FP.nan_of] at h ⊢
    rw [mul_val, h, XReal.mul_nan]; rfl

/-- **C90.** `l2_loss` is never negative in floating point, for any inputs. -/
theorem C90_l2 (s : List ℕ) (x t : ℕ → FP F) :
    ∃ L, l2Loss (Tensor.tens s x) (some (Tensor.tens s t)) = .ok (Tensor.tens s L) ∧ ∀ i, ¬ L i < 0 := by
  refine ⟨fun i => l2Entry (x i - t i), by simp [l2Loss, lossErrors], fun i => ?_⟩
  exact FP.not_neg_mul FP.half_facts.1 FP.half_facts.2 (FP.sq_not_neg _)

/-- **C90.** `huber_loss` with a positive finite `delta` is never negative in floating point, for any inputs. -/
theorem C90_huber (s : List ℕ) (x t : ℕ → FP F) (d : FP F) (hd : 0 < d) (hdf : IsFin d) :
    ∃ L, huberLoss (Tensor.tens s x) (some (Tensor.tens s t)) d = .ok (Tensor.tens s L) ∧ ∀ i, ¬ L i < 0 := by
  refine ⟨fun i => huberEntry d (x i - t i), by simp [huberLoss, lossErrors], fun i => ?_⟩
  show ¬ huberEntry d (x i - t i) < 0
  generalize x i - t i = e
  unfold huberEntry
  dsimp only
  refine FP.not_neg_add (FP.not_neg_mul FP.half_facts.1 FP.half_facts.2 (FP.sq_not_neg _))
    (FP.not_neg_mul (lt_le hd) hdf ?_)
  by_cases he : IsNum e
  · have ha := FP.abs_nonneg he
    have han := (le_num ha).2
    rw [FP.min_cases _ _ han hdf.isNum]
    split
    · rename_i h
      -- |e| > d
      have hs : (JOps.abs e : FP F) - d = of F ((JOps.abs e : FP F).1 - d.1) := rfl
      apply FP.not_neg_of_nonneg
      rw [hs]
      obtain ⟨q, hq, hd'⟩ := fin_pos hd hdf
      rcases (FP.nonneg_iff _).1 ha with h' | ⟨r, hr, h'⟩
      · rw [h', hd']; exact nonneg_inf
      · rw [h', hd', XReal.fin_sub]
        exact of_fin_nonneg (by have := (lt_fin hd' h').1 h; linarith)
    · by_cases hf : IsFin (JOps.abs e : FP F)
      · rw [FP.sub_self hf]; exact FP.lt_irrefl _
      · apply FP.not_neg_of_nan
        rw [FP.nan_of, nonneg_not_fin ha hf, sub_val, inf_val]; rfl
  · apply FP.not_neg_of_nan
    rw [FP.nan_of] at he ⊢
    have e1 : (JOps.abs e : FP F).1 = .nan := by
      show F.round (JOps.abs e.1) = _
      rw [he]; rfl
    rw [sub_val, e1]
    cases (JOps.min (JOps.abs e) d : FP F).1 <;> rfl

/-- hypotheses of `C90_softmax_ce` and `C90_sigmoid_bce` are met by the logit and label 1 in any format -/
example : IsFin (1 : FP F) ∧ (0 : FP F) ≤ 1 ∧ (1 : FP F) ≤ 1 := ⟨fin_one, FP.zero_le_one, FP.le_refl num_one⟩

end Optax
