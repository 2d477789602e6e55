import Verif.Props.Schedules
import Verif.Lemmas.Run

/-!
# C43, C44: interpolated and one-cycle schedules
-/

set_option linter.unusedSectionVars false
set_option linter.unusedSimpArgs false

namespace Optax

section gen
variable {α : Type} [Zero α] [One α] [Add α] [Sub α] [Mul α] [Div α] [Neg α] [JOps α]

theorem cumprod_ne (x : α) (l : List α) : cumprod x l ≠ [] := by cases l <;> simp [cumprod]

theorem cumprod_head (x : α) (l : List α) : cumprod x l = x :: (cumprod x l).tail := by
  cases l <;> simp [cumprod]

end gen

/-- the sum `interpolate` computes, one interval at a time -/
noncomputable def sumPairs (f : ℝ → ℝ → ℝ → ℝ) : ℤ → ℝ → List (ℤ × ℝ) → ℤ → ℝ
  | b0, v0, [], c => boolNum (decide (b0 ≤ c)) * v0
  | b0, v0, (b, s) :: rest, c =>
    boolNum (decide (b0 ≤ c) && decide (c < b)) * f v0 (v0 * s) (((c - b0 : ℤ) : ℝ) / ((b - b0 : ℤ) : ℝ)) +
      sumPairs f b (v0 * s) rest c

theorem sumPairs_eq (f : ℝ → ℝ → ℝ → ℝ) (items : List (ℤ × ℝ)) (b0 : ℤ) (v0 : ℝ) (c : ℤ) :
    ((List.zip (List.zip (b0 :: items.map Prod.fst).dropLast (b0 :: items.map Prod.fst).tail)
      (List.zip (cumprod v0 (items.map Prod.snd)).dropLast (cumprod v0 (items.map Prod.snd)).tail)).map
      (fun x =>
        boolNum (decide (x.1.1 ≤ c) && decide (c < x.1.2)) *
          f x.2.1 x.2.2 (JOps.ofInt (c - x.1.1) / JOps.ofInt (x.1.2 - x.1.1)))).sum +
      boolNum (decide ((b0 :: items.map Prod.fst).getLastD 0 ≤ c)) *
        (cumprod v0 (items.map Prod.snd)).getLastD 0 = sumPairs f b0 v0 items c := by
  induction items generalizing b0 v0 with
  | nil => simp [cumprod, sumPairs]
  | cons x rest ih =>
    obtain ⟨b, s⟩ := x
    have h := ih b (v0 * s)
    simp only [List.map_cons, cumprod, sumPairs, List.tail_cons] at h ⊢
    rw [List.dropLast_cons_of_ne_nil (List.cons_ne_nil _ _), List.dropLast_cons_of_ne_nil (cumprod_ne _ _)]
    rw [← h]
    conv_lhs => rw [cumprod_head (v0 * s) (rest.map Prod.snd)]
    rw [List.zip_cons_cons, List.zip_cons_cons, List.zip_cons_cons, List.map_cons, List.sum_cons]
    simp only [List.tail_cons]
    rw [← cumprod_head]
    have h1 : (b0 :: b :: rest.map Prod.fst).getLastD 0 = (b :: rest.map Prod.fst).getLastD 0 := by
      simp [List.getLastD_eq_getLast?]
    have h2 : (v0 :: cumprod (v0 * s) (rest.map Prod.snd)).getLastD 0 =
        (cumprod (v0 * s) (rest.map Prod.snd)).getLastD 0 := by
      rw [cumprod_head (v0 * s)]
      simp [List.getLastD_eq_getLast?]
    rw [h1, h2, add_assoc]
    simp only [jofInt_real]

theorem interpolate_eq (f : ℝ → ℝ → ℝ → ℝ) (i : ℝ) (items : List (ℤ × ℝ)) (c : ℤ) :
    interpolate f i items c = sumPairs f 0 i items c := sumPairs_eq f items 0 i c

theorem boolNum_false' : (boolNum false : ℝ) = 0 := rfl
theorem boolNum_true' : (boolNum true : ℝ) = 1 := rfl

/-- strictly increasing from `b0` -/
def Incr : ℤ → List (ℤ × ℝ) → Prop
  | _, [] => True
  | b0, x :: rest => b0 < x.1 ∧ Incr x.1 rest

theorem Incr.lt {b0 : ℤ} {items : List (ℤ × ℝ)} (h : Incr b0 items) : ∀ x ∈ items, b0 < x.1 := by
  induction items generalizing b0 with
  | nil => simp
  | cons y rest ih =>
    intro x hx
    rcases List.mem_cons.mp hx with rfl | hx
    · exact h.1
    · exact h.1.trans (ih h.2 x hx)

theorem sumPairs_before (f : ℝ → ℝ → ℝ → ℝ) (items : List (ℤ × ℝ)) (b0 : ℤ) (v0 : ℝ) (c : ℤ)
    (hi : Incr b0 items) (hc : c < b0) : sumPairs f b0 v0 items c = 0 := by
  induction items generalizing b0 v0 with
  | nil =>
    have : ¬ b0 ≤ c := by omega
    simp [sumPairs, this, boolNum_false']
  | cons x rest ih =>
    have h1 : ¬ b0 ≤ c := by omega
    have h2 := hi.1
    unfold sumPairs
    rw [ih _ _ hi.2 (by omega)]
    simp [h1, boolNum_false']

theorem boundaryProduct_none (v0 : ℝ) (items : List (ℤ × ℝ)) (c : ℤ) (h : ∀ x ∈ items, c < x.1) :
    boundaryProduct v0 items c = v0 := by
  unfold boundaryProduct
  rw [List.filter_eq_nil_iff.mpr]
  · simp
  · intro x hx
    have := h x hx
    simp; omega

theorem boundaryProduct_cons (v0 : ℝ) (x : ℤ × ℝ) (rest : List (ℤ × ℝ)) (c : ℤ) (h : x.1 ≤ c) :
    boundaryProduct v0 (x :: rest) c = boundaryProduct (v0 * x.2) rest c := by
  unfold boundaryProduct
  rw [List.filter_cons_of_pos (by simpa using h), List.map_cons, List.prod_cons, mul_assoc]

theorem sumPairs_seg (f : ℝ → ℝ → ℝ → ℝ) (items : List (ℤ × ℝ)) (b0 : ℤ) (v0 : ℝ) (c x x' : ℤ)
    (hi : Incr b0 items) (hx : x = b0 ∨ ∃ y ∈ items, y.1 = x) (hx' : ∃ y ∈ items, y.1 = x') (hlt : x < x')
    (hno : ∀ y ∈ items, ¬ (x < y.1 ∧ y.1 < x')) (hc : x ≤ c) (hc' : c < x') :
    sumPairs f b0 v0 items c = f (boundaryProduct v0 items x) (boundaryProduct v0 items x')
      (((c - x : ℤ) : ℝ) / ((x' - x : ℤ) : ℝ)) := by
  induction items generalizing b0 v0 with
  | nil => obtain ⟨y, hy, _⟩ := hx'; simp at hy
  | cons z rest ih =>
    obtain ⟨b, s⟩ := z
    have hb : b0 < b := hi.1
    have hr := Incr.lt hi.2
    unfold sumPairs
    by_cases hxb : x < b
    · have hx0 : x = b0 := by
        rcases hx with h | ⟨y, hy, rfl⟩
        · exact h
        · rcases List.mem_cons.mp hy with rfl | hy
          · simp at hxb
          · have := hr y hy; simp at this; omega
      have hxe : x' = b := by
        obtain ⟨y, hy, rfl⟩ := hx'
        rcases List.mem_cons.mp hy with rfl | hy
        · rfl
        · exact absurd ⟨hxb, hr y hy⟩ (hno (b, s) (by simp))
      subst hx0; subst hxe
      rw [sumPairs_before f rest x' _ c hi.2 hc']
      rw [boundaryProduct_none v0 _ x (Incr.lt hi), boundaryProduct_cons v0 _ _ x' (le_refl _),
        boundaryProduct_none _ rest x' hr]
      simp [hc, hc', boolNum_true']
    · have hbx : b ≤ x := by omega
      have h1 : ¬ c < b := by omega
      rw [boundaryProduct_cons v0 _ _ x hbx, boundaryProduct_cons v0 _ _ x' (by simp; omega)]
      rw [ih b (v0 * s) hi.2 ?_ ?_ (fun y hy => hno y (List.mem_cons_of_mem _ hy))]
      · simp [h1, boolNum_false']
      · rcases hx with h | ⟨y, hy, rfl⟩
        · omega
        · rcases List.mem_cons.mp hy with rfl | hy
          · left; rfl
          · right; exact ⟨y, hy, rfl⟩
      · obtain ⟨y, hy, rfl⟩ := hx'
        rcases List.mem_cons.mp hy with rfl | hy
        · simp at hlt; omega
        · exact ⟨y, hy, rfl⟩

theorem sumPairs_last (f : ℝ → ℝ → ℝ → ℝ) (items : List (ℤ × ℝ)) (b0 : ℤ) (v0 : ℝ) (c : ℤ)
    (hi : Incr b0 items) (h0 : b0 ≤ c) (hc : ∀ y ∈ items, y.1 ≤ c) :
    sumPairs f b0 v0 items c = boundaryProduct v0 items c := by
  induction items generalizing b0 v0 with
  | nil => simp [sumPairs, h0, boundaryProduct, boolNum_true']
  | cons z rest ih =>
    obtain ⟨b, s⟩ := z
    have hb : b ≤ c := hc (b, s) (by simp)
    have h1 : ¬ c < b := by omega
    unfold sumPairs
    rw [ih b (v0 * s) hi.2 hb (fun y hy => hc y (List.mem_cons_of_mem _ hy)), boundaryProduct_cons v0 _ _ c hb]
    simp [h1, boolNum_false']

theorem sumPairs_knot (f : ℝ → ℝ → ℝ → ℝ) (hf : ∀ a b, f a b 0 = a) (items : List (ℤ × ℝ)) (b0 : ℤ) (v0 : ℝ)
    (x : ℤ) (hi : Incr b0 items) (hx : x = b0 ∨ ∃ y ∈ items, y.1 = x) :
    sumPairs f b0 v0 items x = boundaryProduct v0 items x := by
  induction items generalizing b0 v0 with
  | nil =>
    rcases hx with rfl | ⟨y, hy, _⟩
    · simp [sumPairs, boundaryProduct, boolNum_true']
    · simp at hy
  | cons z rest ih =>
    obtain ⟨b, s⟩ := z
    have hb : b0 < b := hi.1
    have hr := Incr.lt hi.2
    unfold sumPairs
    rcases hx with rfl | hx
    · rw [sumPairs_before f rest b _ x hi.2 hb, boundaryProduct_none v0 _ x (Incr.lt hi)]
      simp [hb, hf, boolNum_true']
    · have hbx : b ≤ x := by
        obtain ⟨y, hy, rfl⟩ := hx
        rcases List.mem_cons.mp hy with rfl | hy
        · exact le_refl _
        · exact (hr y hy).le
      have h1 : ¬ x < b := by omega
      rw [ih b (v0 * s) hi.2 ?_, boundaryProduct_cons v0 _ _ x hbx]
      · simp [h1, boolNum_false']
      · obtain ⟨y, hy, rfl⟩ := hx
        rcases List.mem_cons.mp hy with rfl | hy
        · left; rfl
        · right; exact ⟨y, hy, rfl⟩

theorem incr_of_pairwise (items : List (ℤ × ℝ)) (b0 : ℤ) (h : items.Pairwise (fun a b => a.1 < b.1))
    (h0 : ∀ x ∈ items, b0 < x.1) : Incr b0 items := by
  induction items generalizing b0 with
  | nil => trivial
  | cons x rest ih =>
    rw [List.pairwise_cons] at h
    exact ⟨h0 x (by simp), ih x.1 h.2 h.1⟩

theorem sortedItems_lt {β : Type} (d : List (ℤ × β)) (hnd : (d.map Prod.fst).Nodup) :
    (sortedItems d).Pairwise (fun a b => a.1 < b.1) := by
  have : IsTrans (ℤ × β) (fun a b => a.1 ≤ b.1) := ⟨fun a b c h1 h2 => le_trans h1 h2⟩
  have : Std.Total (fun a b : ℤ × β => a.1 ≤ b.1) := ⟨fun a b => le_total a.1 b.1⟩
  have h1 := List.pairwise_insertionSort (fun a b : ℤ × β => a.1 ≤ b.1) d
  have h2 : ((sortedItems d).map Prod.fst).Nodup := ((sortedItems_perm d).map _).nodup_iff.mpr hnd
  have h3 : (sortedItems d).Pairwise (fun a b => a.1 ≠ b.1) := by
    rw [List.Nodup, List.pairwise_map] at h2
    exact h2
  exact (h1.and h3).imp (fun h => lt_of_le_of_ne h.1 h.2)

/-- `x` and `x'` are neighbours in `0` and the boundaries of `d` -/
def Consecutive (d : List (ℤ × ℝ)) (x x' : ℤ) : Prop :=
  (x = 0 ∨ ∃ y ∈ d, y.1 = x) ∧ (∃ y ∈ d, y.1 = x') ∧ x < x' ∧ ∀ y ∈ d, ¬ (x < y.1 ∧ y.1 < x')

theorem piecewise_ok (ty : String) (f : ℝ → ℝ → ℝ → ℝ) (i : ℝ) (d : List (ℤ × ℝ))
    (hty : interpolateFn ty = .ok f)
    (hs : ∀ x ∈ d, 0 ≤ x.2) :
    piecewiseInterpolateSchedule ty i d = .ok (fun c => sumPairs f 0 i (sortedItems d) c) := by
  unfold piecewiseInterpolateSchedule
  rw [hty, Res.ok_bind, if_pos]
  · exact congrArg _ (funext fun c => interpolate_eq f i _ c)
  · rw [List.all_eq_true]
    intro x hx
    rw [jle_real]
    exact hs x ((sortedItems_perm d).mem_iff.mp hx)

/-- what the property says of a schedule `g` interpolating by `f` -/
structure Interpolates (f : ℝ → ℝ → ℝ → ℝ) (i : ℝ) (d : List (ℤ × ℝ)) (g : Schedule ℝ) : Prop where
  /-- at count 0 the initial value -/
  start : g 0 = i
  /-- at a boundary the initial value times the factors up to and including its own -/
  knot : ∀ b s, (b, s) ∈ d → g b = i * ((d.filter (fun y => decide (y.1 ≤ b))).map Prod.snd).prod
  /-- between neighbouring knots, the interpolation of the knot values -/
  between : ∀ x x' c, Consecutive d x x' → x ≤ c → c ≤ x' →
    g c = f (g x) (g x') (((c - x : ℤ) : ℝ) / ((x' - x : ℤ) : ℝ))
  /-- after the last boundary, the initial value times all factors -/
  after : ∀ c, 0 ≤ c → (∀ y ∈ d, y.1 ≤ c) → g c = i * (d.map Prod.snd).prod

theorem interpolates_of (ty : String) (f : ℝ → ℝ → ℝ → ℝ) (hf0 : ∀ a b, f a b 0 = a) (hf1 : ∀ a b, f a b 1 = b)
    (i : ℝ) (d : List (ℤ × ℝ))
    (hty : interpolateFn ty = .ok f)
    (hs : ∀ x ∈ d, 0 ≤ x.2) (hpos : ∀ x ∈ d, 0 < x.1) (hnd : (d.map Prod.fst).Nodup) :
    ∃ g, piecewiseInterpolateSchedule ty i d = .ok g ∧ Interpolates f i d g := by
  refine ⟨_, piecewise_ok ty f i d hty hs, ?_⟩
  have hm : ∀ x, x ∈ sortedItems d ↔ x ∈ d := fun x => (sortedItems_perm d).mem_iff
  have hi : Incr 0 (sortedItems d) := incr_of_pairwise _ 0 (sortedItems_lt d hnd)
    (fun x hx => hpos x ((hm x).mp hx))
  have hk : ∀ x, (x = 0 ∨ ∃ y ∈ d, y.1 = x) → sumPairs f 0 i (sortedItems d) x = boundaryProduct i d x := by
    intro x hx
    rw [sumPairs_knot f hf0 _ 0 i x hi (hx.imp id fun ⟨y, hy, e⟩ => ⟨y, (hm y).mpr hy, e⟩),
      boundaryProduct_perm i (sortedItems_perm d)]
  refine ⟨?_, ?_, ?_, ?_⟩
  · show sumPairs f 0 i (sortedItems d) 0 = i
    rw [hk 0 (Or.inl rfl), boundaryProduct_none i d 0 hpos]
  · intro b s hb
    exact hk b (Or.inr ⟨_, hb, rfl⟩)
  · intro x x' c hcons hc hc'
    obtain ⟨h1, h2, h3, h4⟩ := hcons
    show sumPairs f 0 i (sortedItems d) c = f (sumPairs f 0 i (sortedItems d) x) (sumPairs f 0 i (sortedItems d) x') _
    rcases hc'.lt_or_eq with hc' | rfl
    · rw [hk x h1, hk x' (Or.inr h2)]
      rw [sumPairs_seg f (sortedItems d) 0 i c x x' hi (h1.imp id fun ⟨y, hy, e⟩ => ⟨y, (hm y).mpr hy, e⟩)
        (by obtain ⟨y, hy, e⟩ := h2; exact ⟨y, (hm y).mpr hy, e⟩) h3 (fun y hy => h4 y ((hm y).mp hy)) hc hc',
        boundaryProduct_perm i (sortedItems_perm d), boundaryProduct_perm i (sortedItems_perm d)]
    · rw [div_self (by exact_mod_cast (by omega : c - x ≠ 0)), hf1]
  · intro c h0 hc
    show sumPairs f 0 i (sortedItems d) c = _
    rw [sumPairs_last f _ 0 i c hi h0 (fun y hy => hc y ((hm y).mp hy)),
      boundaryProduct_perm i (sortedItems_perm d)]
    unfold boundaryProduct
    rw [List.filter_eq_self.mpr]
    intro y hy
    simpa using hc y hy

theorem linear_zero (a b : ℝ) : linearInterpolate a b 0 = a := by simp [linearInterpolate]
theorem linear_one (a b : ℝ) : linearInterpolate a b 1 = b := by simp [linearInterpolate]
theorem cosine_zero (a b : ℝ) : cosineInterpolate a b 0 = a := by
  simp only [cosineInterpolate, jcos_real, jpi_real, jofRat_real]
  simp; ring
theorem cosine_one (a b : ℝ) : cosineInterpolate a b 1 = b := by
  simp only [cosineInterpolate, jcos_real, jpi_real, jofRat_real]
  simp

theorem linear_between (a b t : ℝ) (h0 : 0 ≤ t) (h1 : t ≤ 1) :
    min a b ≤ linearInterpolate a b t ∧ linearInterpolate a b t ≤ max a b := by
  unfold linearInterpolate
  rcases le_total a b with h | h
  · rw [min_eq_left h, max_eq_right h]; constructor <;> nlinarith
  · rw [min_eq_right h, max_eq_left h]; constructor <;> nlinarith

theorem cosine_between (a b t : ℝ) :
    min a b ≤ cosineInterpolate a b t ∧ cosineInterpolate a b t ≤ max a b := by
  simp only [cosineInterpolate, jcos_real, jpi_real, jofRat_real]
  have h1 := Real.neg_one_le_cos (Real.pi * t)
  have h2 := Real.cos_le_one (Real.pi * t)
  push_cast
  rcases le_total a b with h | h
  · rw [min_eq_left h, max_eq_right h]; constructor <;> nlinarith
  · rw [min_eq_right h, max_eq_left h]; constructor <;> nlinarith

theorem frac_bounds {x x' c : ℤ} (h : x < x') (hc : x ≤ c) (hc' : c ≤ x') :
    0 ≤ ((c - x : ℤ) : ℝ) / ((x' - x : ℤ) : ℝ) ∧ ((c - x : ℤ) : ℝ) / ((x' - x : ℤ) : ℝ) ≤ 1 := by
  have hp : (0:ℝ) < ((x' - x : ℤ) : ℝ) := by exact_mod_cast (by omega : 0 < x' - x)
  constructor
  · exact div_nonneg (by exact_mod_cast (by omega : 0 ≤ c - x)) hp.le
  · rw [div_le_one hp]; exact_mod_cast (by omega : c - x ≤ x' - x)

/-- **C43 (linear).** With positive distinct boundaries and non-negative factors: `init` at 0; at each boundary `init`
times the factors up to and including its own; between neighbouring knots the chord, hence between the knot values;
constant after the last boundary. -/
theorem C43_linear (i : ℝ) (d : List (ℤ × ℝ)) (hs : ∀ x ∈ d, 0 ≤ x.2) (hpos : ∀ x ∈ d, 0 < x.1)
    (hnd : (d.map Prod.fst).Nodup) :
    ∃ g, piecewiseInterpolateSchedule "linear" i d = .ok g ∧
      Interpolates (fun a b t => a + t * (b - a)) i d g ∧
      ∀ x x' c, Consecutive d x x' → x ≤ c → c ≤ x' → min (g x) (g x') ≤ g c ∧ g c ≤ max (g x) (g x') := by
  obtain ⟨g, h1, h2⟩ := interpolates_of "linear" linearInterpolate linear_zero linear_one i d rfl hs hpos hnd
  refine ⟨g, h1, ⟨h2.start, h2.knot, ?_, h2.after⟩, ?_⟩
  · intro x x' c hcons hc hc'
    rw [h2.between x x' c hcons hc hc']
    unfold linearInterpolate; ring
  · intro x x' c hcons hc hc'
    rw [h2.between x x' c hcons hc hc']
    obtain ⟨f0, f1⟩ := frac_bounds hcons.2.2.1 hc hc'
    exact linear_between _ _ _ f0 f1

/-- **C43 (cosine).** The same with the half-cosine `b + (a-b)(1 + cos πt)/2` between knots. -/
theorem C43_cosine (i : ℝ) (d : List (ℤ × ℝ)) (hs : ∀ x ∈ d, 0 ≤ x.2) (hpos : ∀ x ∈ d, 0 < x.1)
    (hnd : (d.map Prod.fst).Nodup) :
    ∃ g, piecewiseInterpolateSchedule "cosine" i d = .ok g ∧
      Interpolates (fun a b t => b + (a - b) * ((1 + Real.cos (Real.pi * t)) / 2)) i d g ∧
      ∀ x x' c, Consecutive d x x' → x ≤ c → c ≤ x' → min (g x) (g x') ≤ g c ∧ g c ≤ max (g x) (g x') := by
  obtain ⟨g, h1, h2⟩ := interpolates_of "cosine" cosineInterpolate cosine_zero cosine_one i d rfl hs hpos hnd
  refine ⟨g, h1, ⟨h2.start, h2.knot, ?_, h2.after⟩, ?_⟩
  · intro x x' c hcons hc hc'
    rw [h2.between x x' c hcons hc hc']
    simp only [cosineInterpolate, jcos_real, jpi_real, jofRat_real]
    push_cast; ring
  · intro x x' c hcons hc hc'
    rw [h2.between x x' c hcons hc hc']
    exact cosine_between _ _ _

/-- **C43.** The order of the dictionary does not matter. -/
theorem C43_order (ty : String) (i : ℝ) (d d' : List (ℤ × ℝ)) (hnd : (d.map Prod.fst).Nodup) (h : d.Perm d') :
    piecewiseInterpolateSchedule ty i d = piecewiseInterpolateSchedule ty i d' := by
  have hs : sortedItems d = sortedItems d' := by
    refine List.Perm.eq_of_pairwise (le := fun a b => a.1 < b.1) ?_
      (sortedItems_lt d hnd) (sortedItems_lt d' ((h.map _).nodup_iff.mp hnd))
      ((sortedItems_perm d).trans (h.trans (sortedItems_perm d').symm))
    intro a b _ _ h1 h2
    exact absurd h1 (not_lt.mpr h2.le)
  unfold piecewiseInterpolateSchedule
  rw [hs]

/-- **C43.** An unknown type or a negative factor raises ValueError. -/
theorem C43_rejects (ty : String) (i : ℝ) (d : List (ℤ × ℝ))
    (h : (ty ≠ "linear" ∧ ty ≠ "cosine") ∨ ∃ x ∈ d, x.2 < 0) :
    piecewiseInterpolateSchedule ty i d = .error .value := by
  by_cases hty : ty ≠ "linear" ∧ ty ≠ "cosine"
  · unfold piecewiseInterpolateSchedule
    rw [interpolateFn, if_neg hty.1, if_neg hty.2]
    rfl
  · obtain ⟨x, hx, hlt⟩ := h.resolve_left hty
    have hno : ¬ (sortedItems d).all (fun x => JOps.le 0 x.2) = true := by
      intro hall
      rw [List.all_eq_true] at hall
      have := hall x ((sortedItems_perm d).mem_iff.mpr hx)
      rw [jle_real] at this
      exact absurd hlt (not_lt.mpr this)
    unfold piecewiseInterpolateSchedule
    by_cases h1 : ty = "linear"
    · rw [interpolateFn, if_pos h1, Res.ok_bind, if_neg hno]; rfl
    · have h2 : ty = "cosine" := by
        by_contra h2; exact hty ⟨h1, h2⟩
      rw [interpolateFn, if_neg h1, if_pos h2, Res.ok_bind, if_neg hno]; rfl

/-- e.g. two boundaries given out of order, linear: at 15, halfway between 20·½ (at 10) and 20·½·2 (at 20) -/
example : ∃ g, piecewiseInterpolateSchedule "linear" (20:ℝ) [(20, 2), (10, 1/2)] = .ok g ∧
    g 0 = 20 ∧ g 10 = 10 ∧ g 15 = 15 ∧ g 30 = 20 := by
  obtain ⟨g, h1, h2, -⟩ := C43_linear 20 [(20, 2), (10, 1/2)] (by simp) (by simp) (by simp)
  have e10 : g 10 = 10 := by rw [h2.knot 10 (1/2) (by simp)]; norm_num
  have e20 : g 20 = 20 := by rw [h2.knot 20 2 (by simp)]; norm_num
  refine ⟨g, h1, h2.start, e10, ?_, ?_⟩
  · rw [h2.between 10 20 15 ⟨Or.inr ⟨(10, 1/2), by simp, rfl⟩, ⟨(20, 2), by simp, rfl⟩, by norm_num, by simp⟩
      (by norm_num) (by norm_num), e10, e20]
    norm_num
  · rw [h2.after 30 (by norm_num) (by simp)]; norm_num

/-! ## C44 -/

theorem pyDiv_real (a b : ℝ) (hb : b ≠ 0) : pyDiv a b = .ok (a / b) := by
  unfold pyDiv
  rw [if_neg (by rw [jeqb_real]; exact hb)]

theorem dict3 {β : Type} (a b c : ℤ) (x y z : β) (h1 : a ≠ b) (h2 : a ≠ c) (h3 : b ≠ c) :
    dictUpdate [] [(a, x), (b, y), (c, z)] = [(a, x), (b, y), (c, z)] := by
  simp [dictUpdate, dictSet, h1, h2, h3]

theorem dict2 {β : Type} (a b : ℤ) (x y : β) (h1 : a ≠ b) :
    dictUpdate [] [(a, x), (b, y)] = [(a, x), (b, y)] := by
  simp [dictUpdate, dictSet, h1]

/-- any count from 0 on is on a segment between knots or after the last one -/
theorem segment_or_after (d : List (ℤ × ℝ)) (hpos : ∀ x ∈ d, 0 < x.1) (hnd : (d.map Prod.fst).Nodup) (c : ℤ)
    (hc : 0 ≤ c) : (∃ x x', Consecutive d x x' ∧ x ≤ c ∧ c ≤ x') ∨ ∀ y ∈ d, y.1 ≤ c := by
  have key : ∀ (items : List (ℤ × ℝ)) (b0 : ℤ), Incr b0 items → b0 ≤ c →
      (∃ x x', ((x = b0 ∨ ∃ y ∈ items, y.1 = x) ∧ (∃ y ∈ items, y.1 = x') ∧ x < x' ∧
        ∀ y ∈ items, ¬ (x < y.1 ∧ y.1 < x')) ∧ x ≤ c ∧ c ≤ x') ∨ ∀ y ∈ items, y.1 ≤ c := by
    intro items
    induction items with
    | nil => intro b0 _ _; right; simp
    | cons z rest ih =>
      intro b0 hi h0
      by_cases hz : c < z.1
      · left
        refine ⟨b0, z.1, ⟨Or.inl rfl, ⟨z, by simp, rfl⟩, hi.1, ?_⟩, h0, hz.le⟩
        intro y hy ⟨h1, h2⟩
        rcases List.mem_cons.mp hy with rfl | hy
        · omega
        · have := Incr.lt hi.2 y hy; omega
      · rcases ih z.1 hi.2 (by omega) with ⟨x, x', ⟨h1, ⟨y', hy', e'⟩, h3, h4⟩, h5⟩ | h
        · left
          have hxz : z.1 ≤ x := by
            rcases h1 with rfl | ⟨y, hy, rfl⟩
            · exact le_refl _
            · exact (Incr.lt hi.2 y hy).le
          refine ⟨x, x', ⟨?_, ⟨y', by simp [hy'], e'⟩, h3, ?_⟩, h5⟩
          · right
            rcases h1 with rfl | ⟨y, hy, rfl⟩
            · exact ⟨z, by simp, rfl⟩
            · exact ⟨y, by simp [hy], rfl⟩
          · intro y hy
            rcases List.mem_cons.mp hy with rfl | hy
            · omega
            · exact h4 y hy
        · right
          intro y hy
          rcases List.mem_cons.mp hy with rfl | hy
          · omega
          · exact h y hy
  have hm : ∀ x, x ∈ sortedItems d ↔ x ∈ d := fun x => (sortedItems_perm d).mem_iff
  have hi : Incr 0 (sortedItems d) := incr_of_pairwise _ 0 (sortedItems_lt d hnd)
    (fun x hx => hpos x ((hm x).mp hx))
  rcases key _ 0 hi hc with ⟨x, x', ⟨h1, ⟨y, hy, e⟩, h3, h4⟩, h5⟩ | h
  · left
    exact ⟨x, x', ⟨h1.imp id fun ⟨y, hy, e⟩ => ⟨y, (hm y).mp hy, e⟩, ⟨y, (hm y).mp hy, e⟩, h3,
      fun y hy => h4 y ((hm y).mpr hy)⟩, h5⟩
  · right
    exact fun y hy => h y ((hm y).mpr hy)

/-- python's `int(x)` of a non-negative number is its floor -/
theorem truncQ_floor {q : ℚ} (h : 0 ≤ ⌊q⌋) : ⌊q⌋ = truncQ q := (if_pos (Int.floor_nonneg.mp h)).symm

/-- **C44 (linear), partial.** Missing: transition lengths so small that the integer boundaries collide or reach 0, where
the claim is false (`C44_zero_boundary_nan`, `C44_collision`).  If `0 < int(pct_start*steps) < int(pct_final*steps) <
steps`, the schedule starts at `peak/div`, attains `peak` at `int(pct_start*steps)`, is back at `peak/div` at
`int(pct_final*steps)`, is `peak/(div*final_div)` from `steps` on, and never exceeds `peak`. -/
theorem C44_linear_partial (n : ℤ) (peak div fdiv : ℝ) (ps pf : ℚ) (hpeak : 0 ≤ peak) (hdiv : 1 ≤ div)
    (hfdiv : 1 ≤ fdiv) (h1 : 0 < ⌊ps * n⌋) (h2 : ⌊ps * n⌋ < ⌊pf * n⌋)
    (h3 : ⌊pf * n⌋ < n) :
    ∃ g, linearOnecycleSchedule n peak ps pf div fdiv = .ok g ∧
      g 0 = peak / div ∧ g ⌊ps * n⌋ = peak ∧ g ⌊pf * n⌋ = peak / div ∧
      (∀ c, n ≤ c → g c = peak / (div * fdiv)) ∧ (∀ c, 0 ≤ c → g c ≤ peak) := by
  rw [truncQ_floor (q := ps * n) (by omega), truncQ_floor (q := pf * n) (by omega)] at *
  have hd0 : div ≠ 0 := by linarith
  have hf0 : fdiv ≠ 0 := by linarith
  have hdp : 0 < div := by linarith
  have hfp : 0 < fdiv := by linarith
  set a := truncQ (ps * n) with ha
  set b := truncQ (pf * n) with hb
  obtain ⟨g, hg, hI, hbet⟩ := C43_linear (peak / div) [(a, div), (b, 1 / div), (n, 1 / fdiv)]
    (by simp; exact ⟨hdp.le, hfp.le⟩) (by simp; omega) (by simp; omega)
  have ea : g a = peak := by
    rw [hI.knot a div (by simp)]
    have e1 : ¬ b ≤ a := by omega
    have e2 : ¬ n ≤ a := by omega
    simp [e1, e2]; field_simp
  have eb : g b = peak / div := by
    rw [hI.knot b (1 / div) (by simp)]
    have e1 : a ≤ b := by omega
    have e2 : ¬ n ≤ b := by omega
    simp [e1, e2]; field_simp
  have en : ∀ c, n ≤ c → g c = peak / (div * fdiv) := by
    intro c hc
    rw [hI.after c (by omega) (by simp; omega)]
    simp; field_simp
  have hpd : peak / div ≤ peak := div_le_self hpeak hdiv
  have hpf : peak / (div * fdiv) ≤ peak := div_le_self hpeak (by nlinarith)
  refine ⟨g, ?_, hI.start, ea, eb, en, ?_⟩
  · unfold linearOnecycleSchedule
    rw [if_neg (by omega), pyDiv_real _ _ hd0, Res.ok_bind, pyDiv_real _ _ hd0, Res.ok_bind, pyDiv_real _ _ hf0,
      Res.ok_bind, ← ha, ← hb, dict3 _ _ _ _ _ _ (by omega) (by omega) (by omega)]
    exact hg
  · intro c hc
    have hk : ∀ x, (x = 0 ∨ ∃ y ∈ [(a, div), (b, 1 / div), (n, 1 / fdiv)], y.1 = x) → g x ≤ peak := by
      intro x hx
      rcases hx with rfl | ⟨y, hy, rfl⟩
      · rw [hI.start]; exact hpd
      · simp at hy
        rcases hy with rfl | rfl | rfl
        · exact ea.le
        · exact eb.le.trans hpd
        · exact (en n le_rfl).le.trans hpf
    rcases segment_or_after [(a, div), (b, 1 / div), (n, 1 / fdiv)] (by simp; omega) (by simp; omega) c hc with
      ⟨x, x', hcons, hx, hx'⟩ | h
    · exact (hbet x x' c hcons hx hx').2.trans (max_le (hk x hcons.1) (hk x' (Or.inr hcons.2.1)))
    · rw [en c (by simp at h; omega)]; exact hpf

/-- **C44 (cosine), partial.** Missing as above; assumes `0 < int(pct_start*steps) < steps`. -/
theorem C44_cosine_partial (n : ℤ) (peak div fdiv : ℝ) (ps : ℚ) (hpeak : 0 ≤ peak) (hdiv : 1 ≤ div)
    (hfdiv : 1 ≤ fdiv) (h1 : 0 < ⌊ps * n⌋) (h2 : ⌊ps * n⌋ < n) :
    ∃ g, cosineOnecycleSchedule n peak ps div fdiv = .ok g ∧
      g 0 = peak / div ∧ g ⌊ps * n⌋ = peak ∧
      (∀ c, n ≤ c → g c = peak / (div * fdiv)) ∧ (∀ c, 0 ≤ c → g c ≤ peak) := by
  rw [truncQ_floor (q := ps * n) (by omega)] at *
  have hd0 : div ≠ 0 := by linarith
  have hf0 : fdiv ≠ 0 := by linarith
  have hdp : 0 < div := by linarith
  have hfp : 0 < fdiv := by linarith
  set a := truncQ (ps * n) with ha
  obtain ⟨g, hg, hI, hbet⟩ := C43_cosine (peak / div) [(a, div), (n, 1 / (div * fdiv))]
    (by simp; exact ⟨hdp.le, by positivity⟩) (by simp; omega) (by simp; omega)
  have ea : g a = peak := by
    rw [hI.knot a div (by simp)]
    have e2 : ¬ n ≤ a := by omega
    simp [e2]; field_simp
  have en : ∀ c, n ≤ c → g c = peak / (div * fdiv) := by
    intro c hc
    rw [hI.after c (by omega) (by simp; omega)]
    simp; field_simp
  have hpd : peak / div ≤ peak := div_le_self hpeak hdiv
  have hpf : peak / (div * fdiv) ≤ peak := div_le_self hpeak (by nlinarith)
  refine ⟨g, ?_, hI.start, ea, en, ?_⟩
  · unfold cosineOnecycleSchedule
    rw [if_neg (by omega), pyDiv_real _ _ hd0, Res.ok_bind, pyDiv_real _ _ (mul_ne_zero hd0 hf0),
      Res.ok_bind, ← ha, dict2 _ _ _ _ (by omega)]
    exact hg
  · intro c hc
    have hk : ∀ x, (x = 0 ∨ ∃ y ∈ [(a, div), (n, 1 / (div * fdiv))], y.1 = x) → g x ≤ peak := by
      intro x hx
      rcases hx with rfl | ⟨y, hy, rfl⟩
      · rw [hI.start]; exact hpd
      · simp at hy
        rcases hy with rfl | rfl
        · exact ea.le
        · exact (en n le_rfl).le.trans hpf
    rcases segment_or_after [(a, div), (n, 1 / (div * fdiv))] (by simp; omega) (by simp; omega) c hc with
      ⟨x, x', hcons, hx, hx'⟩ | h
    · exact (hbet x x' c hcons hx hx').2.trans (max_le (hk x hcons.1) (hk x' (Or.inr hcons.2.1)))
    · rw [en c (by simp at h; omega)]; exact hpf

/-- **C44.** Non-positive `transition_steps` raise ValueError. -/
theorem C44_rejects (n : ℤ) (hn : n ≤ 0) (peak div fdiv : ℝ) (ps pf : ℚ) :
    linearOnecycleSchedule n peak ps pf div fdiv = .error .value ∧
    cosineOnecycleSchedule n peak ps div fdiv = .error .value := by
  unfold linearOnecycleSchedule cosineOnecycleSchedule
  rw [if_pos hn, if_pos hn]
  exact ⟨rfl, rfl⟩

/-- `x / 0` is never finite -/
theorem xdiv_zero (a : ℝ) : XReal.fin a / XReal.fin 0 = XReal.pinf ∨ XReal.fin a / XReal.fin 0 = XReal.ninf ∨
    XReal.fin a / XReal.fin 0 = XReal.nan := by
  have : XReal.fin a / XReal.fin 0 = XReal.infOf a := by
    show (if (0:ℝ) = 0 then XReal.infOf a else _) = _
    simp
  rw [this]
  unfold XReal.infOf
  split
  · left; rfl
  · split
    · right; left; rfl
    · right; right; rfl

theorem zero_mul_linear (u v a : ℝ) :
    XReal.fin 0 * linearInterpolate (XReal.fin u) (XReal.fin v) (XReal.fin a / XReal.fin 0) = XReal.nan := by
  have h0 : ∀ x : XReal, (x = .pinf ∨ x = .ninf ∨ x = .nan) → XReal.fin 0 * x = .nan := by
    rintro x (rfl | rfl | rfl)
    · show XReal.infOf 0 = _; simp [XReal.infOf]
    · show XReal.infOf (-0) = _; simp [XReal.infOf]
    · rfl
  apply h0
  unfold linearInterpolate
  rw [XReal.fin_sub]
  have hm : ∀ r : ℝ, ∀ x : XReal, (x = .pinf ∨ x = .ninf ∨ x = .nan) →
      (XReal.fin r * x = .pinf ∨ XReal.fin r * x = .ninf ∨ XReal.fin r * x = .nan) := by
    have hi : ∀ r, XReal.infOf r = .pinf ∨ XReal.infOf r = .ninf ∨ XReal.infOf r = .nan := by
      intro r
      unfold XReal.infOf
      split
      · left; rfl
      · split
        · right; left; rfl
        · right; right; rfl
    rintro r x (rfl | rfl | rfl)
    · exact hi r
    · exact hi (-r)
    · right; right; rfl
  rcases hm (v - u) _ (xdiv_zero a) with h | h | h <;> rw [h]
  · left; rfl
  · right; left; rfl
  · right; right; rfl

theorem xcos_inf (x : XReal) (h : x = .pinf ∨ x = .ninf ∨ x = .nan) : JOps.cos x = .nan := by
  rcases h with rfl | rfl | rfl <;> rfl

theorem zero_mul_cosine (u v a : ℝ) :
    XReal.fin 0 * cosineInterpolate (XReal.fin u) (XReal.fin v) (XReal.fin a / XReal.fin 0) = XReal.nan := by
  unfold cosineInterpolate
  have hp : JOps.pi * (XReal.fin a / XReal.fin 0) = .pinf ∨ JOps.pi * (XReal.fin a / XReal.fin 0) = .ninf ∨
      JOps.pi * (XReal.fin a / XReal.fin 0) = .nan := by
    have hpi : (JOps.pi : XReal) = XReal.fin Real.pi := rfl
    rw [hpi]
    rcases xdiv_zero a with h | h | h <;> rw [h]
    · left; show XReal.infOf Real.pi = _; simp [XReal.infOf, Real.pi_pos]
    · right; left; show XReal.infOf (-Real.pi) = _
      have : ¬ 0 < -Real.pi := by linarith [Real.pi_pos]
      simp [XReal.infOf, Real.pi_pos, this]
    · right; right; rfl
  rw [xcos_inf _ hp]
  simp

/-- **C43/C44: a boundary at 0 makes the schedule NaN at every count.** With IEEE special values, whenever the smallest
boundary is 0 (and the factors are non-negative), both schedules are accepted and return NaN everywhere, because the
empty first interval contributes `0 * (c/0)`. -/
theorem C44_zero_boundary_nan (ty : String) (hty : ty = "linear" ∨ ty = "cosine") (i s : ℝ) (hs : 0 ≤ s)
    (rest : List (ℤ × XReal)) (hpos : ∀ x ∈ rest, 0 < x.1) (hsort : rest.Pairwise (fun a b => a.1 ≤ b.1))
    (hfac : ∀ x ∈ rest, JOps.le 0 x.2 = true) :
    ∃ g, piecewiseInterpolateSchedule ty (XReal.fin i) ((0, XReal.fin s) :: rest) = .ok g ∧
      ∀ c, g c = XReal.nan := by
  have hso : sortedItems ((0, XReal.fin s) :: rest) = (0, XReal.fin s) :: rest := by
    apply List.Pairwise.insertionSort_eq
    rw [List.pairwise_cons]
    exact ⟨fun x hx => (hpos x hx).le, hsort⟩
  have hall : ((0, XReal.fin s) :: rest).all (fun x => JOps.le 0 x.2) = true := by
    rw [List.all_eq_true]
    intro x hx
    rcases List.mem_cons.mp hx with rfl | hx
    · show (XReal.lt (.fin 0) (.fin s) || XReal.eqb (.fin 0) (.fin s)) = true
      rcases hs.lt_or_eq with h | h
      · simp [XReal.lt, h]
      · simp [XReal.eqb, h]
    · exact hfac x hx
  have key : ∀ f : XReal → XReal → XReal → XReal,
      (∀ u v a : ℝ, XReal.fin 0 * f (.fin u) (.fin v) (.fin a / .fin 0) = .nan) → ∀ c,
      interpolate f (XReal.fin i) ((0, XReal.fin s) :: rest) c = .nan := by
    intro f hf c
    unfold interpolate
    simp only [List.map_cons, cumprod, List.tail_cons]
    rw [List.dropLast_cons_of_ne_nil (List.cons_ne_nil _ _), List.dropLast_cons_of_ne_nil (cumprod_ne _ _)]
    rw [cumprod_head (XReal.fin i * XReal.fin s) (rest.map Prod.snd)]
    rw [List.zip_cons_cons, List.zip_cons_cons, List.zip_cons_cons, List.map_cons, List.sum_cons]
    have hfalse : (decide ((0:ℤ) ≤ c) && decide (c < 0)) = false := by
      by_cases h : 0 ≤ c
      · have : ¬ c < 0 := by omega
        simp [this]
      · simp [h]
    have hb : (boolNum (decide ((0:ℤ) ≤ c) && decide (c < 0)) : XReal) = XReal.fin 0 := by rw [hfalse]; rfl
    rw [hb]
    have : XReal.fin 0 * f (XReal.fin i) (XReal.fin i * XReal.fin s)
        (JOps.ofInt (c - 0) / JOps.ofInt (0 - 0)) = .nan := by
      have e := hf i (i * s) ((c - 0 : ℤ) : ℝ)
      have z : (JOps.ofInt (0 - 0) : XReal) = .fin 0 := by show XReal.fin (((0 - 0 : ℤ)) : ℝ) = _; simp
      rw [z]
      exact e
    rw [this]
    simp
  unfold piecewiseInterpolateSchedule
  rcases hty with rfl | rfl
  · refine ⟨_, ?_, key linearInterpolate zero_mul_linear⟩
    rw [hso]
    show (Except.ok linearInterpolate >>= _) = _
    rw [Res.ok_bind, if_pos hall]
  · refine ⟨_, ?_, key cosineInterpolate zero_mul_cosine⟩
    rw [hso]
    show (Except.ok cosineInterpolate >>= _) = _
    rw [Res.ok_bind, if_pos hall]

/-- **C44 is false for short transitions.** If `int(pct_start*steps) = 0` (with the documented default 0.3, for
`transition_steps ≤ 3`) and `0 < int(pct_final*steps) < steps`, `linear_onecycle_schedule` is accepted and returns NaN at
every count. -/
theorem C44_short_transition_nan (n : ℤ) (peak div fdiv : ℝ) (ps pf : ℚ) (hdiv : 0 < div) (hfdiv : 0 < fdiv)
    (h0 : ⌊ps * n⌋ = 0) (h1 : 0 < ⌊pf * n⌋) (h2 : ⌊pf * n⌋ < n) :
    ∃ g, linearOnecycleSchedule n (XReal.fin peak) ps pf (.fin div) (.fin fdiv) = .ok g ∧ ∀ c, g c = .nan := by
  rw [truncQ_floor (q := ps * n) (by omega)] at h0
  have hf := truncQ_floor (q := pf * n) (by omega)
  rw [hf] at h1 h2
  have hx : ∀ a b : ℝ, 0 < b → pyDiv (XReal.fin a) (XReal.fin b) = .ok (XReal.fin (a / b)) := by
    intro a b hb
    unfold pyDiv
    rw [if_neg, XReal.fin_div _ _ hb.ne']
    show ¬ decide (b = 0) = true
    simp [hb.ne']
  have hle : ∀ b : ℝ, 0 < b → JOps.le (0 : XReal) (XReal.fin (1 / b)) = true := by
    intro b hb
    show (XReal.lt (.fin 0) (.fin (1 / b)) || XReal.eqb (.fin 0) (.fin (1 / b))) = true
    have : (0:ℝ) < 1 / b := by positivity
    simp [XReal.lt, hb]
  obtain ⟨g, hg, hn⟩ := C44_zero_boundary_nan "linear" (Or.inl rfl) (peak / div) div hdiv.le
    [(truncQ (pf * n), .fin (1 / div)), (n, .fin (1 / fdiv))] (by simp; omega)
    (by simp; omega) (by
      intro x hx
      simp at hx
      rcases hx with rfl | rfl
      · have := hle div hdiv; simpa using this
      · have := hle fdiv hfdiv; simpa using this)
  refine ⟨g, ?_, hn⟩
  unfold linearOnecycleSchedule
  rw [if_neg (by omega), hx _ _ hdiv, Res.ok_bind, XReal.one_def, hx _ _ hdiv, Res.ok_bind, hx _ _ hfdiv, Res.ok_bind,
    h0, dict3 _ _ _ _ _ _ (by omega) (by omega) (by omega)]
  exact hg

/-- with the documented defaults and 3 steps -/
example : ∃ g, linearOnecycleSchedule 3 (XReal.fin 1) (3/10) (85/100) (.fin 25) (.fin 10000) = .ok g ∧
    ∀ c, g c = .nan := by
  have e1 : ⌊(3/10 : ℚ) * ((3 : ℤ) : ℚ)⌋ = 0 := by rw [Int.floor_eq_iff]; norm_num
  have e2 : ⌊(85/100 : ℚ) * ((3 : ℤ) : ℚ)⌋ = 2 := by rw [Int.floor_eq_iff]; norm_num
  exact C44_short_transition_nan 3 1 25 10000 _ _ (by norm_num) (by norm_num) e1 (by rw [e2]; norm_num)
    (by rw [e2]; norm_num)

/-- **C44 is false when the boundaries collide.** If `int(pct_start*steps) = int(pct_final*steps)`, the second dict entry
overwrites the first: at that step the schedule is `peak/div²`, not `peak`. -/
theorem C44_collision (n : ℤ) (peak div fdiv : ℝ) (ps pf : ℚ) (hdiv : 0 < div) (hfdiv : 0 < fdiv)
    (h1 : 0 < ⌊ps * n⌋) (h2 : ⌊ps * n⌋ = ⌊pf * n⌋) (h3 : ⌊pf * n⌋ < n) :
    ∃ g, linearOnecycleSchedule n peak ps pf div fdiv = .ok g ∧ g ⌊ps * n⌋ = peak / div ^ 2 := by
  rw [truncQ_floor (q := ps * n) (by omega), truncQ_floor (q := pf * n) (by omega)] at *
  obtain ⟨g, hg, hI, hbet⟩ := C43_linear (peak / div) [(truncQ (pf * n), 1 / div), (n, 1 / fdiv)]
    (by simp; exact ⟨hdiv.le, hfdiv.le⟩) (by simp; omega) (by simp; omega)
  have hd : dictUpdate [] [(truncQ (pf * n), div), (truncQ (pf * n), 1 / div), (n, 1 / fdiv)] =
      [(truncQ (pf * n), 1 / div), (n, 1 / fdiv)] := by
    have : truncQ (pf * n) ≠ n := by omega
    simp [dictUpdate, dictSet, this]
  refine ⟨g, ?_, ?_⟩
  · unfold linearOnecycleSchedule
    rw [if_neg (by omega), pyDiv_real _ _ hdiv.ne', Res.ok_bind, pyDiv_real _ _ hdiv.ne', Res.ok_bind,
      pyDiv_real _ _ hfdiv.ne', Res.ok_bind, h2, hd]
    exact hg
  · rw [h2, hI.knot _ (1 / div) (by simp)]
    have : ¬ n ≤ truncQ (pf * n) := by omega
    simp [this]; field_simp

/-- the documented defaults with 100 steps meet the hypotheses -/
example : ∃ g, linearOnecycleSchedule (100 : ℤ) (1:ℝ) (3/10) (85/100) 25 10000 = .ok g ∧ g 30 = 1 := by
  have e1 : ⌊(3/10 : ℚ) * ((100 : ℤ) : ℚ)⌋ = 30 := by rw [Int.floor_eq_iff]; norm_num
  have e2 : ⌊(85/100 : ℚ) * ((100 : ℤ) : ℚ)⌋ = 85 := by rw [Int.floor_eq_iff]; norm_num
  obtain ⟨g, h1, -, h3, -⟩ := C44_linear_partial 100 1 25 10000 (3/10) (85/100) (by norm_num) (by norm_num) (by norm_num)
    (by rw [e1]; norm_num) (by rw [e1, e2]; norm_num) (by rw [e2]; norm_num)
  rw [e1] at h3
  exact ⟨g, h1, h3⟩

end Optax
