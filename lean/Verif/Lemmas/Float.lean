import Verif.Model.Float
import Mathlib.Data.EReal.Operations

/-! Order and arithmetic of floating point numbers, for every format. -/

set_option linter.unusedSectionVars false
set_option linter.unusedSimpArgs false

namespace Optax

namespace XReal

theorem lt_iff (x y : XReal) : JOps.lt x y = true ↔ x ≠ .nan ∧ y ≠ .nan ∧ x.toE < y.toE := by
  show XReal.lt x y = true ↔ _
  cases x <;> cases y <;> simp [XReal.lt, toE]

theorem eqb_iff (x y : XReal) : JOps.eqb x y = true ↔ x ≠ .nan ∧ y ≠ .nan ∧ x = y := by
  show XReal.eqb x y = true ↔ _
  cases x <;> cases y <;> simp [XReal.eqb]

theorem toE_inj {x y : XReal} (hx : x ≠ .nan) (hy : y ≠ .nan) (h : x.toE = y.toE) : x = y := by
  cases x <;> cases y <;> simp_all [toE]

theorem le_iff (x y : XReal) : JOps.le x y = true ↔ x ≠ .nan ∧ y ≠ .nan ∧ x.toE ≤ y.toE := by
  show (XReal.lt x y || XReal.eqb x y) = true ↔ _
  rw [Bool.or_eq_true, le_iff_lt_or_eq]
  have h1 := lt_iff x y
  have h2 := eqb_iff x y
  change XReal.lt x y = true ↔ _ at h1
  change XReal.eqb x y = true ↔ _ at h2
  rw [h1, h2]
  constructor
  · rintro (⟨a, b, c⟩ | ⟨a, b, rfl⟩)
    · exact ⟨a, b, Or.inl c⟩
    · exact ⟨a, b, Or.inr rfl⟩
  · rintro ⟨a, b, c | c⟩
    · exact Or.inl ⟨a, b, c⟩
    · exact Or.inr ⟨a, b, toE_inj a b c⟩

theorem add_toE {x y : XReal} (h : x + y ≠ .nan) : (x + y).toE = x.toE + y.toE := by
  cases x <;> cases y <;> first
    | rfl
    | exact absurd rfl h

theorem add_comm' (x y : XReal) : x + y = y + x := by
  cases x <;> cases y <;> first | rfl | (rw [fin_add, fin_add, _root_.add_comm])

theorem add_ne_nan {x y : XReal} (h : x + y ≠ .nan) : x ≠ .nan ∧ y ≠ .nan := by
  constructor
  · rintro rfl; exact h (by simp)
  · rintro rfl; exact h (by simp)

end XReal

namespace FP
variable {F : Format}
open Classical

/-- `a <= b` as jax computes it (false for NaN) -/
instance : LE (FP F) := ⟨fun a b => JOps.le a b = true⟩
/-- `a < b` as jax computes it (false for NaN) -/
instance : LT (FP F) := ⟨fun a b => JOps.lt a b = true⟩

/-- not NaN -/
def IsNum (a : FP F) : Prop := JOps.isnan a = false
/-- neither NaN nor infinite -/
def IsFin (a : FP F) : Prop := JOps.isfinite a = true

theorem isNum_iff (a : FP F) : IsNum a ↔ a.1 ≠ .nan := by
  unfold IsNum
  show XReal.isnan a.1 = false ↔ _
  cases a.1 <;> simp [XReal.isnan]

theorem isFin_iff (a : FP F) : IsFin a ↔ ∃ r, a.1 = .fin r := by
  unfold IsFin
  show XReal.isfinite a.1 = true ↔ _
  cases a.1 <;> simp [XReal.isfinite]

theorem IsFin.isNum {a : FP F} (h : IsFin a) : IsNum a := by
  obtain ⟨r, hr⟩ := (isFin_iff a).1 h
  rw [isNum_iff, hr]; simp

theorem le_iff (a b : FP F) : a ≤ b ↔ a.1 ≠ .nan ∧ b.1 ≠ .nan ∧ a.1.toE ≤ b.1.toE := XReal.le_iff a.1 b.1
theorem lt_iff (a b : FP F) : a < b ↔ a.1 ≠ .nan ∧ b.1 ≠ .nan ∧ a.1.toE < b.1.toE := XReal.lt_iff a.1 b.1
theorem jle_iff (a b : FP F) : JOps.le a b = true ↔ a ≤ b := Iff.rfl
theorem jlt_iff (a b : FP F) : JOps.lt a b = true ↔ a < b := Iff.rfl

theorem ext {a b : FP F} (h : a.1 = b.1) : a = b := Subtype.ext h

theorem of_val (a : FP F) : of F a.1 = a := Subtype.ext a.2

theorem round_eq (a : FP F) : F.round a.1 = a.1 := a.2

theorem rnd_val {a : FP F} {r : ℝ} (h : a.1 = .fin r) : F.rnd r = .fin r := by
  have := a.2
  unfold Format.Rep at this
  rw [h] at this
  exact this

@[simp] theorem zero_val : (0 : FP F).1 = .fin 0 := F.rnd_zero
@[simp] theorem one_val : (1 : FP F).1 = .fin 1 := F.rnd_one

theorem round_ne_nan {x : XReal} : F.round x ≠ .nan ↔ x ≠ .nan := by
  cases x with
  | fin r => simp only [Format.round]; simp [F.rnd_ne_nan r]
  | _ => simp [Format.round]

theorem round_mono {x y : XReal} (hx : x ≠ .nan) (hy : y ≠ .nan) (h : x.toE ≤ y.toE) : (F.round x).toE ≤ (F.round y).toE := by
  cases x with
  | nan => exact absurd rfl hx
  | ninf => exact bot_le
  | pinf =>
    cases y with
    | nan => exact absurd rfl hy
    | pinf => exact le_refl _
    | fin r => simp [XReal.toE] at h
    | ninf => simp [XReal.toE] at h
  | fin r =>
    cases y with
    | nan => exact absurd rfl hy
    | pinf => exact le_top
    | fin q => exact F.rnd_mono r q (by simpa [XReal.toE] using h)
    | ninf => simp [XReal.toE] at h

theorem of_mono {x y : XReal} (hx : x ≠ .nan) (hy : y ≠ .nan) (h : x.toE ≤ y.toE) : of F x ≤ of F y := by
  rw [le_iff]
  exact ⟨round_ne_nan.2 hx, round_ne_nan.2 hy, round_mono hx hy h⟩

theorem of_num {x : XReal} : IsNum (of F x) ↔ x ≠ .nan := by rw [isNum_iff]; exact round_ne_nan

/-- a value between two numbers of the format is rounded to a value between them -/
theorem of_le {x : XReal} {b : FP F} (hx : x ≠ .nan) (hb : IsNum b) (h : x.toE ≤ b.1.toE) : of F x ≤ b := by
  have := of_mono (F := F) hx ((isNum_iff b).1 hb) h
  rwa [of_val] at this

theorem le_of {x : XReal} {b : FP F} (hx : x ≠ .nan) (hb : IsNum b) (h : b.1.toE ≤ x.toE) : b ≤ of F x := by
  have := of_mono (F := F) ((isNum_iff b).1 hb) hx h
  rwa [of_val] at this

@[simp] theorem num_zero : IsNum (0 : FP F) := by rw [isNum_iff]; simp
@[simp] theorem num_one : IsNum (1 : FP F) := by rw [isNum_iff]; simp
@[simp] theorem fin_zero : IsFin (0 : FP F) := by rw [isFin_iff]; exact ⟨0, by simp⟩
@[simp] theorem fin_one : IsFin (1 : FP F) := by rw [isFin_iff]; exact ⟨1, by simp⟩

/-! ### order -/

theorem le_refl {a : FP F} (h : IsNum a) : a ≤ a := by
  rw [le_iff]; rw [isNum_iff] at h; exact ⟨h, h, _root_.le_refl _⟩
theorem le_trans {a b c : FP F} (h1 : a ≤ b) (h2 : b ≤ c) : a ≤ c := by
  rw [le_iff] at *; exact ⟨h1.1, h2.2.1, h1.2.2.trans h2.2.2⟩
theorem le_antisymm {a b : FP F} (h1 : a ≤ b) (h2 : b ≤ a) : a = b := by
  rw [le_iff] at *; exact ext (XReal.toE_inj h1.1 h1.2.1 (_root_.le_antisymm h1.2.2 h2.2.2))
theorem le_total {a b : FP F} (ha : IsNum a) (hb : IsNum b) : a ≤ b ∨ b ≤ a := by
  rw [le_iff, le_iff]; rw [isNum_iff] at ha hb
  rcases _root_.le_total a.1.toE b.1.toE with h | h
  · exact Or.inl ⟨ha, hb, h⟩
  · exact Or.inr ⟨hb, ha, h⟩
theorem not_lt {a b : FP F} (ha : IsNum a) (hb : IsNum b) : ¬ a < b ↔ b ≤ a := by
  rw [lt_iff, le_iff]; rw [isNum_iff] at ha hb
  simp [ha, hb]
theorem lt_le {a b : FP F} (h : a < b) : a ≤ b := by
  rw [lt_iff] at h; rw [le_iff]; exact ⟨h.1, h.2.1, h.2.2.le⟩
theorem lt_of_lt_of_le {a b c : FP F} (h1 : a < b) (h2 : b ≤ c) : a < c := by
  rw [lt_iff] at *; rw [le_iff] at h2; exact ⟨h1.1, h2.2.1, h1.2.2.trans_le h2.2.2⟩
theorem le_num {a b : FP F} (h : a ≤ b) : IsNum a ∧ IsNum b := by
  rw [le_iff] at h; exact ⟨(isNum_iff a).2 h.1, (isNum_iff b).2 h.2.1⟩
theorem lt_irrefl (a : FP F) : ¬ a < a := by
  rw [lt_iff]; rintro ⟨_, _, h⟩; exact _root_.lt_irrefl _ h

/-! ### values -/

theorem add_val (a b : FP F) : (a + b).1 = F.round (a.1 + b.1) := rfl
theorem sub_val (a b : FP F) : (a - b).1 = F.round (a.1 - b.1) := rfl
theorem mul_val (a b : FP F) : (a * b).1 = F.round (a.1 * b.1) := rfl
theorem div_val (a b : FP F) : (a / b).1 = F.round (a.1 / b.1) := rfl
/-- negation is exact -/
theorem neg_val (a : FP F) : (-a).1 = -a.1 := by
  show F.round (-a.1) = -a.1
  cases h : a.1 with
  | fin r => exact F.rnd_neg r (rnd_val h)
  | _ => rfl

theorem neg_num {a : FP F} : IsNum (-a) ↔ IsNum a := by
  rw [isNum_iff, isNum_iff, neg_val]
  cases a.1 <;> simp [Neg.neg, XReal.neg]

/-- maximum is exact -/
theorem max_cases (a b : FP F) (ha : IsNum a) (hb : IsNum b) : JOps.max a b = if a < b then b else a := by
  rw [isNum_iff] at ha hb
  apply ext
  show F.round (if XReal.isnan a.1 then .nan else if XReal.isnan b.1 then .nan else if XReal.lt a.1 b.1 then b.1 else a.1) = _
  have h1 : XReal.isnan a.1 = false := (isNum_iff a).2 ha
  have h2 : XReal.isnan b.1 = false := (isNum_iff b).2 hb
  simp only [h1, h2, Bool.false_eq_true, if_false]
  have e : (a < b) = (XReal.lt a.1 b.1 = true) := rfl
  simp only [e]
  split
  · exact round_eq b
  · exact round_eq a

theorem min_cases (a b : FP F) (ha : IsNum a) (hb : IsNum b) : JOps.min a b = if b < a then b else a := by
  rw [isNum_iff] at ha hb
  apply ext
  show F.round (if XReal.isnan a.1 then .nan else if XReal.isnan b.1 then .nan else if XReal.lt b.1 a.1 then b.1 else a.1) = _
  have h1 : XReal.isnan a.1 = false := (isNum_iff a).2 ha
  have h2 : XReal.isnan b.1 = false := (isNum_iff b).2 hb
  simp only [h1, h2, Bool.false_eq_true, if_false]
  have e : (b < a) = (XReal.lt b.1 a.1 = true) := rfl
  simp only [e]
  split
  · exact round_eq b
  · exact round_eq a

theorem max_nan (a b : FP F) (h : ¬ IsNum a ∨ ¬ IsNum b) : ¬ IsNum (JOps.max a b) := by
  simp only [isNum_iff, not_not] at *
  show F.round (if XReal.isnan a.1 then .nan else if XReal.isnan b.1 then .nan else if XReal.lt a.1 b.1 then b.1 else a.1) = _
  rcases h with h | h
  · simp [h, XReal.isnan, Format.round]
  · simp [h, XReal.isnan, Format.round]

theorem min_nan (a b : FP F) (h : ¬ IsNum a ∨ ¬ IsNum b) : ¬ IsNum (JOps.min a b) := by
  simp only [isNum_iff, not_not] at *
  show F.round (if XReal.isnan a.1 then .nan else if XReal.isnan b.1 then .nan else if XReal.lt b.1 a.1 then b.1 else a.1) = _
  rcases h with h | h
  · simp [h, XReal.isnan, Format.round]
  · simp [h, XReal.isnan, Format.round]

/-! ### exact special cases -/

theorem add_zero (a : FP F) : a + 0 = a := by
  apply ext
  rw [add_val, zero_val]
  cases h : a.1 with
  | fin r => rw [XReal.fin_add, _root_.add_zero]; exact rnd_val h
  | _ => rfl

theorem zero_add (a : FP F) : 0 + a = a := by
  apply ext
  rw [add_val, zero_val]
  cases h : a.1 with
  | fin r => rw [XReal.fin_add, _root_.zero_add]; exact rnd_val h
  | _ => rfl

theorem sub_zero (a : FP F) : a - 0 = a := by
  apply ext
  rw [sub_val, zero_val]
  cases h : a.1 with
  | fin r => rw [XReal.fin_sub, _root_.sub_zero]; exact rnd_val h
  | _ => rfl

theorem one_mul (a : FP F) : 1 * a = a := by
  apply ext
  rw [mul_val, one_val]
  cases h : a.1 with
  | fin r => rw [XReal.fin_mul, _root_.one_mul]; exact rnd_val h
  | pinf => show F.round (XReal.infOf 1) = _; simp [XReal.infOf, Format.round]
  | ninf => show F.round (XReal.infOf (-1)) = _; rw [XReal.infOf, if_neg (by norm_num), if_pos (by norm_num)]; rfl
  | nan => rfl

theorem mul_one (a : FP F) : a * 1 = a := by
  apply ext
  rw [mul_val, one_val]
  cases h : a.1 with
  | fin r => rw [XReal.fin_mul, _root_.mul_one]; exact rnd_val h
  | pinf => show F.round (XReal.infOf 1) = _; simp [XReal.infOf, Format.round]
  | ninf => show F.round (XReal.infOf (-1)) = _; rw [XReal.infOf, if_neg (by norm_num), if_pos (by norm_num)]; rfl
  | nan => rfl

theorem zero_mul {a : FP F} (h : IsFin a) : 0 * a = 0 := by
  obtain ⟨r, hr⟩ := (isFin_iff a).1 h
  apply ext
  rw [mul_val, zero_val, hr, XReal.fin_mul, MulZeroClass.zero_mul]; exact F.rnd_zero

theorem mul_zero {a : FP F} (h : IsFin a) : a * 0 = 0 := by
  obtain ⟨r, hr⟩ := (isFin_iff a).1 h
  apply ext
  rw [mul_val, zero_val, hr, XReal.fin_mul, MulZeroClass.mul_zero]; exact F.rnd_zero

theorem sub_self {a : FP F} (h : IsFin a) : a - a = 0 := by
  obtain ⟨r, hr⟩ := (isFin_iff a).1 h
  apply ext
  rw [sub_val, hr, XReal.fin_sub, _root_.sub_self, zero_val]; exact F.rnd_zero

theorem add_neg {a : FP F} (h : IsFin a) : a + -a = 0 := by
  obtain ⟨r, hr⟩ := (isFin_iff a).1 h
  apply ext
  rw [add_val, neg_val, hr, XReal.fin_neg, XReal.fin_add, _root_.add_neg_cancel, zero_val]; exact F.rnd_zero

theorem neg_zero : -(0 : FP F) = 0 := by
  apply ext; rw [neg_val, zero_val, XReal.fin_neg, _root_.neg_zero]

/-- `0 / b = 0` for every number `b ≠ 0` -/
theorem zero_div {b : FP F} (hb : IsNum b) (h0 : b ≠ 0) : 0 / b = 0 := by
  rw [isNum_iff] at hb
  apply ext
  rw [div_val, zero_val]
  cases h : b.1 with
  | fin r =>
    have hr : r ≠ 0 := by
      rintro rfl
      exact h0 (ext (by rw [h, zero_val]))
    rw [XReal.fin_div _ _ hr, _root_.zero_div]; exact F.rnd_zero
  | pinf => exact F.rnd_zero
  | ninf => exact F.rnd_zero
  | nan => exact absurd h hb

/-! ### signs -/

theorem nonneg_iff (a : FP F) : 0 ≤ a ↔ a.1 = .pinf ∨ ∃ r, 0 ≤ r ∧ a.1 = .fin r := by
  rw [le_iff, zero_val]
  cases a.1 <;> simp [XReal.toE]

theorem pos_iff (a : FP F) : 0 < a ↔ a.1 = .pinf ∨ ∃ r, 0 < r ∧ a.1 = .fin r := by
  rw [lt_iff, zero_val]
  cases a.1 <;> simp [XReal.toE]

theorem of_nonneg {x : XReal} (hx : x ≠ .nan) (h : 0 ≤ x.toE) : 0 ≤ of F x :=
  le_of hx num_zero (by rw [zero_val]; simpa [XReal.toE] using h)

theorem of_fin_nonneg {r : ℝ} (h : 0 ≤ r) : 0 ≤ of F (.fin r) :=
  of_nonneg (by simp) (by simpa [XReal.toE] using h)

theorem add_nonneg {a b : FP F} (ha : 0 ≤ a) (hb : 0 ≤ b) : 0 ≤ a + b := by
  rw [nonneg_iff] at ha hb
  rcases ha with h | ⟨r, hr, h⟩ <;> rcases hb with h' | ⟨q, hq, h'⟩
  · show 0 ≤ of F (a.1 + b.1); rw [h, h']; exact of_nonneg (x := .pinf) (by simp) (by simp [XReal.toE])
  · show 0 ≤ of F (a.1 + b.1); rw [h, h']; exact of_nonneg (x := .pinf) (by simp) (by simp [XReal.toE])
  · show 0 ≤ of F (a.1 + b.1); rw [h, h']; exact of_nonneg (x := .pinf) (by simp) (by simp [XReal.toE])
  · show 0 ≤ of F (a.1 + b.1); rw [h, h']; exact of_fin_nonneg (by linarith)

/-- adding something non-negative never decreases a non-negative number -/
theorem le_add {a b : FP F} (ha : 0 ≤ a) (hb : 0 ≤ b) : b ≤ a + b := by
  have hn := (le_num hb).2
  rw [nonneg_iff] at ha hb
  rcases ha with h | ⟨r, hr, h⟩ <;> rcases hb with h' | ⟨q, hq, h'⟩
  · exact le_of (x := a.1 + b.1) (by rw [h, h']; simp [HAdd.hAdd, Add.add, XReal.add]) hn (by rw [h, h']; exact le_top)
  · exact le_of (x := a.1 + b.1) (by rw [h, h']; simp [HAdd.hAdd, Add.add, XReal.add]) hn (by rw [h, h']; exact le_top)
  · exact le_of (x := a.1 + b.1) (by rw [h, h']; simp [HAdd.hAdd, Add.add, XReal.add]) hn (by rw [h, h']; exact le_top)
  · refine le_of (x := a.1 + b.1) (by rw [h, h']; simp) hn ?_
    rw [h, h', XReal.fin_add]
    simp only [XReal.toE, EReal.coe_le_coe_iff]; linarith

theorem sq_nonneg {a : FP F} (ha : IsNum a) : 0 ≤ a * a := by
  rw [isNum_iff] at ha
  show 0 ≤ of F (a.1 * a.1)
  cases h : a.1 with
  | fin r => rw [XReal.fin_mul]; exact of_fin_nonneg (mul_self_nonneg r)
  | pinf => exact of_nonneg (x := .pinf) (by simp) (by simp [XReal.toE])
  | ninf => exact of_nonneg (x := .pinf) (by simp) (by simp [XReal.toE])
  | nan => exact absurd h ha

/-- product of non-negative numbers, one of them positive and finite -/
theorem mul_nonneg {a b : FP F} (ha : 0 < a) (hf : IsFin a) (hb : 0 ≤ b) : 0 ≤ a * b := by
  obtain ⟨r, hr⟩ := (isFin_iff a).1 hf
  rw [pos_iff, hr] at ha
  have hr0 : 0 < r := by
    rcases ha with h | ⟨q, hq, h⟩
    · cases h
    · cases h; exact hq
  rw [nonneg_iff] at hb
  show 0 ≤ of F (a.1 * b.1)
  rcases hb with h' | ⟨q, hq, h'⟩
  · rw [hr, h']
    show 0 ≤ of F (XReal.infOf r)
    rw [XReal.infOf, if_pos hr0]
    exact of_nonneg (x := .pinf) (by simp) (by simp [XReal.toE])
  · rw [hr, h', XReal.fin_mul]; exact of_fin_nonneg (by positivity)

/-- product of finite non-negative numbers -/
theorem mul_nonneg' {a b : FP F} (ha : 0 ≤ a) (hb : 0 ≤ b) (hfa : IsFin a) (hfb : IsFin b) : 0 ≤ a * b := by
  obtain ⟨r, hr⟩ := (isFin_iff a).1 hfa
  obtain ⟨q, hq⟩ := (isFin_iff b).1 hfb
  rw [nonneg_iff, hr] at ha
  rw [nonneg_iff, hq] at hb
  show 0 ≤ of F (a.1 * b.1)
  rw [hr, hq, XReal.fin_mul]
  apply of_fin_nonneg
  rcases ha with h | ⟨r', h1, h⟩
  · cases h
  rcases hb with h' | ⟨q', h2, h'⟩
  · cases h'
  cases h; cases h'
  exact _root_.mul_nonneg h1 h2

theorem sqrt_nonneg {a : FP F} (ha : 0 ≤ a) : 0 ≤ (JOps.sqrt a : FP F) := by
  rw [nonneg_iff] at ha
  show 0 ≤ of F (JOps.sqrt a.1)
  rcases ha with h | ⟨r, hr, h⟩
  · rw [h]; exact of_nonneg (x := .pinf) (by simp) (by simp [XReal.toE])
  · rw [h]
    show 0 ≤ of F (if r < 0 then .nan else .fin (Real.sqrt r))
    rw [if_neg (by linarith)]
    exact of_fin_nonneg (Real.sqrt_nonneg r)

/-- `sqrt` of a negative number or NaN is NaN -/
theorem sqrt_num {a : FP F} : IsNum (JOps.sqrt a : FP F) ↔ 0 ≤ a := by
  constructor
  · intro h
    rw [nonneg_iff]
    have h1 : (JOps.sqrt a.1 : XReal) ≠ .nan := of_num.1 h
    cases h2 : a.1 with
    | fin r =>
      rw [h2] at h1
      change (if r < 0 then XReal.nan else .fin (Real.sqrt r)) ≠ .nan at h1
      by_cases h3 : r < 0
      · rw [if_pos h3] at h1; exact absurd rfl h1
      · exact Or.inr ⟨r, by linarith, rfl⟩
    | pinf => exact Or.inl rfl
    | ninf => rw [h2] at h1; exact absurd rfl h1
    | nan => rw [h2] at h1; exact absurd rfl h1
  · intro h; exact (le_num (sqrt_nonneg h)).2

theorem pos_ne_zero {a : FP F} (h : 0 < a) : a ≠ 0 := by
  rintro rfl; exact lt_irrefl _ h

theorem pos_add {a b : FP F} (ha : 0 ≤ a) (hb : 0 < b) : 0 < a + b := lt_of_lt_of_le hb (le_add ha (lt_le hb))

theorem add_mono {a b c d : FP F} (h1 : a ≤ b) (h2 : c ≤ d) (hn : IsNum (a + c)) (hn' : IsNum (b + d)) : a + c ≤ b + d := by
  have e1 : a.1 + c.1 ≠ .nan := of_num.1 hn
  have e2 : b.1 + d.1 ≠ .nan := of_num.1 hn'
  refine of_mono e1 e2 ?_
  rw [XReal.add_toE e1, XReal.add_toE e2]
  rw [le_iff] at h1 h2
  exact add_le_add h1.2.2 h2.2.2

/-! ### more monotonicity, and infinities -/

theorem fin_pos {a : FP F} (h : 0 < a) (hf : IsFin a) : ∃ r, 0 < r ∧ a.1 = .fin r := by
  rcases (pos_iff a).1 h with h | h
  · obtain ⟨r, hr⟩ := (isFin_iff a).1 hf
    rw [hr] at h; cases h
  · exact h

theorem fin_nonneg {a : FP F} (h : 0 ≤ a) (hf : IsFin a) : ∃ r, 0 ≤ r ∧ a.1 = .fin r := by
  rcases (nonneg_iff a).1 h with h | h
  · obtain ⟨r, hr⟩ := (isFin_iff a).1 hf
    rw [hr] at h; cases h
  · exact h

theorem le_fin {a b : FP F} {r q : ℝ} (ha : a.1 = .fin r) (hb : b.1 = .fin q) : a ≤ b ↔ r ≤ q := by
  rw [le_iff, ha, hb]; simp [XReal.toE]

theorem lt_fin {a b : FP F} {r q : ℝ} (ha : a.1 = .fin r) (hb : b.1 = .fin q) : a < b ↔ r < q := by
  rw [lt_iff, ha, hb]; simp [XReal.toE]

theorem of_fin_mono {r q : ℝ} (h : r ≤ q) : of F (.fin r) ≤ of F (.fin q) :=
  of_mono (by simp) (by simp) (by simpa [XReal.toE] using h)

theorem of_fin_num (r : ℝ) : IsNum (of F (.fin r)) := of_num.2 (by simp)

/-- multiplication by a positive finite number is monotone -/
theorem mul_mono_left {c a b : FP F} (hc : 0 < c) (hf : IsFin c) (h : a ≤ b) : c * a ≤ c * b := by
  obtain ⟨r, hr, hc'⟩ := fin_pos hc hf
  rw [le_iff] at h
  show of F (c.1 * a.1) ≤ of F (c.1 * b.1)
  rw [hc']
  obtain ⟨h1, h2, h3⟩ := h
  have hr' : ¬ (r < 0) := by linarith
  cases ha : a.1 with
  | nan => exact absurd ha h1
  | fin x =>
    cases hb : b.1 with
    | nan => exact absurd hb h2
    | fin y =>
      rw [ha, hb] at h3
      rw [XReal.fin_mul, XReal.fin_mul]
      exact of_fin_mono (mul_le_mul_of_nonneg_left (by simpa [XReal.toE] using h3) hr.le)
    | pinf =>
      show of F _ ≤ of F (XReal.infOf r)
      rw [XReal.infOf, if_pos hr, XReal.fin_mul]
      exact of_mono (by simp) (by simp) le_top
    | ninf => rw [ha, hb] at h3; simp [XReal.toE] at h3
  | pinf =>
    have hb : b.1 = .pinf := by
      cases hb : b.1 with
      | pinf => rfl
      | nan => exact absurd hb h2
      | fin y => rw [ha, hb] at h3; simp [XReal.toE] at h3
      | ninf => rw [ha, hb] at h3; simp [XReal.toE] at h3
    rw [hb]
    show of F (XReal.infOf r) ≤ of F (XReal.infOf r)
    rw [XReal.infOf, if_pos hr]
    exact of_mono (by simp) (by simp) _root_.le_rfl
  | ninf =>
    have hninf : (XReal.fin r * XReal.ninf) = .ninf := by
      show XReal.infOf (-r) = _
      rw [XReal.infOf, if_neg (by linarith), if_pos (by linarith)]
    rw [hninf]
    refine of_mono (by simp) ?_ bot_le
    cases hb : b.1 with
    | nan => exact absurd hb h2
    | fin y => rw [XReal.fin_mul]; simp
    | pinf => show XReal.infOf r ≠ _; rw [XReal.infOf, if_pos hr]; simp
    | ninf => rw [hninf]; simp

/-- a quotient by a denominator at least `β > 0` (possibly `+∞`) is bounded like the numerator over `β` -/
theorem div_bound {m lo hi β c : FP F} (hm : IsFin m) (hlo : IsFin lo) (hhi : IsFin hi) (h1 : lo ≤ m) (h2 : m ≤ hi)
    (hlo0 : lo ≤ 0) (hhi0 : 0 ≤ hi) (hβ : 0 < β) (hβf : IsFin β) (hc : β ≤ c) : lo / β ≤ m / c ∧ m / c ≤ hi / β := by
  obtain ⟨b, hb, hb'⟩ := fin_pos hβ hβf
  obtain ⟨x, hx⟩ := (isFin_iff m).1 hm
  obtain ⟨l, hl⟩ := (isFin_iff lo).1 hlo
  obtain ⟨u, hu⟩ := (isFin_iff hi).1 hhi
  rw [le_fin hl hx] at h1
  rw [le_fin hx hu] at h2
  rw [le_fin hl zero_val] at hlo0
  rw [le_fin zero_val hu] at hhi0
  have e1 : lo / β = of F (.fin (l / b)) := by
    show of F (lo.1 / β.1) = _
    rw [hl, hb']; show of F (if b = 0 then _ else _) = _; rw [if_neg hb.ne']
  have e2 : hi / β = of F (.fin (u / b)) := by
    show of F (hi.1 / β.1) = _
    rw [hu, hb']; show of F (if b = 0 then _ else _) = _; rw [if_neg hb.ne']
  rw [e1, e2]
  have hcp := lt_of_lt_of_le hβ hc
  rcases (pos_iff c).1 hcp with hc' | ⟨y, hy, hc'⟩
  · have e3 : m / c = of F (.fin 0) := by show of F (m.1 / c.1) = _; rw [hx, hc']; rfl
    rw [e3]
    exact ⟨of_fin_mono (div_nonpos_of_nonpos_of_nonneg hlo0 hb.le), of_fin_mono (div_nonneg hhi0 hb.le)⟩
  · have e3 : m / c = of F (.fin (x / y)) := by
      show of F (m.1 / c.1) = _
      rw [hx, hc']; show of F (if y = 0 then _ else _) = _; rw [if_neg hy.ne']
    rw [le_fin hb' hc'] at hc
    rw [e3]
    have hinv : 1 / y ≤ 1 / b := one_div_le_one_div_of_le hb hc
    have hyp : 0 < 1 / y := by positivity
    constructor
    · apply of_fin_mono
      rw [div_eq_mul_one_div l, div_eq_mul_one_div x]; nlinarith
    · apply of_fin_mono
      rw [div_eq_mul_one_div u, div_eq_mul_one_div x]; nlinarith

theorem div_nonneg_of_pos {v c : FP F} (hv : 0 ≤ v) (hc : 0 < c) (hf : IsFin c) : 0 ≤ v / c := by
  obtain ⟨b, hb, hb'⟩ := fin_pos hc hf
  show 0 ≤ of F (v.1 / c.1)
  rw [hb']
  rcases (nonneg_iff v).1 hv with h | ⟨r, hr, h⟩
  · rw [h]; show 0 ≤ of F (if 0 ≤ b then _ else _); rw [if_pos hb.le]; exact of_nonneg (by simp) le_top
  · rw [h]; show 0 ≤ of F (if b = 0 then _ else _); rw [if_neg hb.ne']; exact of_fin_nonneg (by positivity)

theorem fin_between {lo a hi : FP F} (hlo : IsFin lo) (hhi : IsFin hi) (h1 : lo ≤ a) (h2 : a ≤ hi) : IsFin a := by
  obtain ⟨l, hl⟩ := (isFin_iff lo).1 hlo
  obtain ⟨u, hu⟩ := (isFin_iff hi).1 hhi
  rw [le_iff, hl] at h1
  rw [le_iff, hu] at h2
  rw [isFin_iff]
  cases ha : a.1 with
  | fin r => exact ⟨r, rfl⟩
  | pinf => rw [ha] at h2; simp [XReal.toE] at h2
  | ninf => rw [ha] at h1; simp [XReal.toE] at h1
  | nan => exact absurd ha h1.2.1

theorem mul_fin_num {a b : FP F} (ha : IsFin a) (hb : IsFin b) : IsNum (a * b) := by
  obtain ⟨r, hr⟩ := (isFin_iff a).1 ha
  obtain ⟨q, hq⟩ := (isFin_iff b).1 hb
  show IsNum (of F (a.1 * b.1))
  rw [of_num, hr, hq]; simp

theorem add_fin_num {a b : FP F} (ha : IsFin a) (hb : IsFin b) : IsNum (a + b) := by
  obtain ⟨r, hr⟩ := (isFin_iff a).1 ha
  obtain ⟨q, hq⟩ := (isFin_iff b).1 hb
  show IsNum (of F (a.1 + b.1))
  rw [of_num, hr, hq]; simp

theorem sub_fin_num {a b : FP F} (ha : IsFin a) (hb : IsFin b) : IsNum (a - b) := by
  obtain ⟨r, hr⟩ := (isFin_iff a).1 ha
  obtain ⟨q, hq⟩ := (isFin_iff b).1 hb
  show IsNum (of F (a.1 - b.1))
  rw [of_num, hr, hq]; simp

/-- `+∞` -/
noncomputable def inf : FP F := of F .pinf

@[simp] theorem inf_val : (inf : FP F).1 = .pinf := rfl

theorem eq_inf_iff {a : FP F} : a = inf ↔ a.1 = .pinf := ⟨fun h => by rw [h]; rfl, fun h => ext h⟩

theorem nonneg_not_fin {a : FP F} (h : 0 ≤ a) (hf : ¬ IsFin a) : a = inf := by
  rcases (nonneg_iff a).1 h with h | ⟨r, -, h⟩
  · exact eq_inf_iff.2 h
  · exact absurd ((isFin_iff a).2 ⟨r, h⟩) hf

theorem inf_add {a : FP F} (h : 0 ≤ a) : inf + a = inf := by
  rw [eq_inf_iff]
  rcases (nonneg_iff a).1 h with h | ⟨r, -, h⟩ <;> rw [add_val, h] <;> rfl

theorem add_inf {a : FP F} (h : 0 ≤ a) : a + inf = inf := by
  rw [eq_inf_iff]
  rcases (nonneg_iff a).1 h with h | ⟨r, -, h⟩ <;> rw [add_val, h] <;> rfl

theorem mul_inf {a : FP F} (h : 0 < a) : a * inf = inf := by
  rw [eq_inf_iff]
  rcases (pos_iff a).1 h with h | ⟨r, hr, h⟩ <;> rw [mul_val, h]
  · rfl
  · show F.round (XReal.infOf r) = _
    rw [XReal.infOf, if_pos hr]; rfl

theorem inf_div {a : FP F} (h : 0 < a) (hf : IsFin a) : inf / a = inf := by
  rw [eq_inf_iff]
  obtain ⟨r, hr, h⟩ := fin_pos h hf
  rw [div_val, h]
  show F.round (if 0 ≤ r then _ else _) = _
  rw [if_pos hr.le]; rfl

theorem sqrt_inf : (JOps.sqrt (inf : FP F)) = inf := rfl

theorem rsqrt_inf : (JOps.rsqrt (inf : FP F)) = 0 := rfl

theorem div_inf {a : FP F} (h : IsFin a) : a / inf = 0 := by
  obtain ⟨r, hr⟩ := (isFin_iff a).1 h
  apply ext
  rw [div_val, hr]
  rfl

theorem nonneg_inf : 0 ≤ (inf : FP F) := (nonneg_iff _).2 (Or.inl rfl)

theorem le_inf {a : FP F} (h : IsNum a) : a ≤ inf := by
  rw [le_iff]; exact ⟨(isNum_iff a).1 h, by simp, le_top⟩

theorem inf_le {a : FP F} (h : inf ≤ a) : a = inf := le_antisymm (le_inf (le_num h).2) h

end FP

end Optax
