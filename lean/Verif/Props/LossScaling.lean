import Verif.Lemmas.Unbounded
import Verif.Lemmas.Steps
import Verif.Props.Locality
import Verif.Model.Alias

/-!
# C136: loss scaling by powers of two is exact
-/

set_option linter.unusedSectionVars false
set_option linter.unusedSimpArgs false

namespace Optax

/-- A family of "scalings by `c^k`" of the numbers of type `α` that the arithmetic respects exactly. -/
structure Graded {α : Type} [Zero α] [One α] [Add α] [Sub α] [Mul α] [Div α] [Neg α] [JOps α] (sc : ℤ → α → α) : Prop where
  id : ∀ x, sc 0 x = x
  zero : ∀ k, sc k 0 = 0
  add : ∀ k a b, sc k a + sc k b = sc k (a + b)
  sub : ∀ k a b, sc k a - sc k b = sc k (a - b)
  mul : ∀ j k a b, sc j a * sc k b = sc (j + k) (a * b)
  div : ∀ j k a b, sc j a / sc k b = sc (j - k) (a / b)
  neg : ∀ k a, -sc k a = sc k (-a)
  sqrt : ∀ k a, JOps.sqrt (sc (2 * k) a) = sc k (JOps.sqrt a)
  rsqrt : ∀ k a, JOps.rsqrt (sc (2 * k) a) = sc (-k) (JOps.rsqrt a)
  lt : ∀ k a b, JOps.lt (sc k a) (sc k b) = JOps.lt a b
  isnan : ∀ k a, JOps.isnan (sc k a) = JOps.isnan a
  max : ∀ k a b, JOps.max (sc k a) (sc k b) = sc k (JOps.max a b)
  min : ∀ k a b, JOps.min (sc k a) (sc k b) = sc k (JOps.min a b)

namespace XReal

/-- multiplication by a positive real number -/
def xs (c : ℝ) : XReal → XReal
  | fin r => fin (c * r)
  | x => x

variable {c d : ℝ} (hc : 0 < c) (hd : 0 < d)
include hc

theorem infOf_xs (r : ℝ) : infOf (c * r) = infOf r := by
  unfold infOf
  have h1 : c * r < 0 ↔ r < 0 := by constructor <;> intro h <;> nlinarith
  have h2 : 0 < c * r ↔ 0 < r := by constructor <;> intro h <;> nlinarith
  simp only [h1, h2]

theorem xs_inf (r : ℝ) : xs c (infOf r) = infOf r := by
  unfold infOf; split_ifs <;> rfl

theorem xs_neg (a : XReal) : -(xs c a) = xs c (-a) := by
  cases a <;> first | rfl | exact congrArg XReal.fin (by ring)

theorem xs_add (a b : XReal) : xs c a + xs c b = xs c (a + b) := by
  cases a <;> cases b <;> first | rfl | exact congrArg XReal.fin (by ring)

theorem xs_sub (a b : XReal) : xs c a - xs c b = xs c (a - b) := by
  have h : ∀ x y : XReal, x - y = x + -y := fun _ _ => rfl
  rw [h, h, xs_neg hc, xs_add hc]

include hd in
theorem xs_mul (a b : XReal) : xs c a * xs d b = xs (c * d) (a * b) := by
  have hcd := mul_pos hc hd
  have e : ∀ x y : XReal, x * y = XReal.mul x y := fun _ _ => rfl
  rw [e, e]
  cases a <;> cases b <;> simp only [xs, XReal.mul]
  · exact congrArg XReal.fin (by ring)
  all_goals first
    | rfl
    | (rw [infOf_xs hc]; exact (xs_inf hcd _).symm)
    | (rw [infOf_xs hd]; exact (xs_inf hcd _).symm)
    | (rw [← mul_neg, infOf_xs hc]; exact (xs_inf hcd _).symm)
    | (rw [← mul_neg, infOf_xs hd]; exact (xs_inf hcd _).symm)

include hd in
theorem xs_div (a b : XReal) : xs c a / xs d b = xs (c / d) (a / b) := by
  have hcd := div_pos hc hd
  have e : ∀ x y : XReal, x / y = XReal.div x y := fun _ _ => rfl
  rw [e, e]
  have h0 : ∀ r : ℝ, (0 ≤ d * r) = (0 ≤ r) := fun r => by
    rw [eq_iff_iff]; constructor <;> intro h <;> nlinarith
  cases a <;> cases b <;> simp only [xs, XReal.div, h0, mul_zero]
  · rename_i a b
    by_cases hb : b = 0
    · rw [if_pos (by rw [hb, mul_zero]), if_pos hb, infOf_xs hc]; exact (xs_inf hcd _).symm
    · rw [if_neg (mul_ne_zero hd.ne' hb), if_neg hb]
      exact congrArg XReal.fin (by field_simp)
  all_goals first
    | rfl
    | (split_ifs <;> rfl)

theorem xs_lt (a b : XReal) : lt (xs c a) (xs c b) = lt a b := by
  cases a <;> cases b <;> simp only [xs, lt]
  exact decide_eq_decide.2 (mul_lt_mul_iff_right₀ hc)

theorem xs_isnan (a : XReal) : isnan (xs c a) = isnan a := by cases a <;> rfl

theorem xs_max (a b : XReal) : JOps.max (xs c a) (xs c b) = xs c (JOps.max a b) := by
  show (if isnan (xs c a) = true then nan else if isnan (xs c b) = true then nan else if lt (xs c a) (xs c b) = true then xs c b else xs c a) =
    xs c (if isnan a = true then nan else if isnan b = true then nan else if lt a b = true then b else a)
  rw [xs_isnan hc, xs_isnan hc, xs_lt hc]
  split_ifs <;> rfl

theorem xs_min (a b : XReal) : JOps.min (xs c a) (xs c b) = xs c (JOps.min a b) := by
  show (if isnan (xs c a) = true then nan else if isnan (xs c b) = true then nan else if lt (xs c b) (xs c a) = true then xs c b else xs c a) =
    xs c (if isnan a = true then nan else if isnan b = true then nan else if lt b a = true then b else a)
  rw [xs_isnan hc, xs_isnan hc, xs_lt hc]
  split_ifs <;> rfl

theorem xs_sqrt (a : XReal) : (JOps.sqrt (xs (c * c) a) : XReal) = xs c (JOps.sqrt a) := by
  cases a with
  | fin r =>
    show (if c * c * r < 0 then nan else fin (Real.sqrt (c * c * r))) = xs c (if r < 0 then nan else fin (Real.sqrt r))
    have h1 : c * c * r < 0 ↔ r < 0 := by
      have := mul_pos hc hc
      constructor <;> intro h <;> nlinarith
    simp only [h1]
    split_ifs with h
    · rfl
    · rw [Real.sqrt_mul (mul_self_nonneg c), Real.sqrt_mul_self hc.le]; rfl
  | _ => rfl

end XReal

namespace FP
open XReal
variable {p : ℕ} {hp : 1 ≤ p}

theorem round_xs (k : ℤ) (x : XReal) : (Format.unbounded p hp).round (xs (2 ^ k) x) = xs (2 ^ k) ((Format.unbounded p hp).round x) := by
  cases x with
  | fin r => exact congrArg XReal.fin (Format.digits_scale p k r)
  | _ => rfl

/-- multiplication by `2^k`: always exact without limits on the exponents -/
noncomputable def shift (k : ℤ) (x : FP (Format.unbounded p hp)) : FP (Format.unbounded p hp) :=
  ⟨xs (2 ^ k) x.1, by
    show _ = _
    rw [round_xs]; exact congrArg _ x.2⟩

theorem shift_of (k : ℤ) (x : XReal) : of (Format.unbounded p hp) (xs (2 ^ k) x) = shift k (of _ x) := Subtype.ext (round_xs k x)

theorem two_pow_pos (k : ℤ) : (0 : ℝ) < 2 ^ k := by positivity

/-- the number `2^k` -/
noncomputable def pow2 (k : ℤ) : FP (Format.unbounded p hp) := shift k 1

theorem shift_graded : Graded (shift : ℤ → FP (Format.unbounded p hp) → _) where
  id x := by
    refine Subtype.ext ?_
    show xs (2 ^ (0 : ℤ)) x.1 = x.1
    cases x.1 <;> simp [xs]
  zero k := by
    show shift k (of _ (.fin 0)) = of _ (.fin 0)
    rw [← shift_of]
    simp [xs]
  add k a b := by
    show of _ (xs (2 ^ k) a.1 + xs (2 ^ k) b.1) = shift k (of _ (a.1 + b.1))
    rw [xs_add (two_pow_pos k), shift_of]
  sub k a b := by
    show of _ (xs (2 ^ k) a.1 - xs (2 ^ k) b.1) = shift k (of _ (a.1 - b.1))
    rw [xs_sub (two_pow_pos k), shift_of]
  mul j k a b := by
    show of _ (xs (2 ^ j) a.1 * xs (2 ^ k) b.1) = shift (j + k) (of _ (a.1 * b.1))
    rw [xs_mul (two_pow_pos j) (two_pow_pos k), ← zpow_add₀ (by norm_num : (2 : ℝ) ≠ 0), shift_of]
  div j k a b := by
    show of _ (xs (2 ^ j) a.1 / xs (2 ^ k) b.1) = shift (j - k) (of _ (a.1 / b.1))
    rw [xs_div (two_pow_pos j) (two_pow_pos k), ← zpow_sub₀ (by norm_num : (2 : ℝ) ≠ 0), shift_of]
  neg k a := by
    show of _ (-xs (2 ^ k) a.1) = shift k (of _ (-a.1))
    rw [xs_neg (two_pow_pos k), shift_of]
  sqrt k a := by
    show of _ (JOps.sqrt (xs (2 ^ (2 * k)) a.1)) = shift k (of _ (JOps.sqrt a.1))
    rw [two_mul, zpow_add₀ (by norm_num : (2 : ℝ) ≠ 0), xs_sqrt (two_pow_pos k), shift_of]
  rsqrt k a := by
    show of _ (XReal.lift _ _ _ (xs (2 ^ (2 * k)) a.1)) = shift (-k) (of _ (XReal.lift _ _ _ a.1))
    rw [← shift_of]
    congr 1
    have h2 : (0 : ℝ) < 2 ^ (2 * k) := by positivity
    cases a.1 with
    | fin r =>
      show (if 2 ^ (2 * k) * r < 0 then nan else if 2 ^ (2 * k) * r = 0 then pinf else fin (1 / Real.sqrt (2 ^ (2 * k) * r))) =
        xs (2 ^ (-k)) (if r < 0 then nan else if r = 0 then pinf else fin (1 / Real.sqrt r))
      have h1 : 2 ^ (2 * k) * r < 0 ↔ r < 0 := by constructor <;> intro h <;> nlinarith
      have h3 : 2 ^ (2 * k) * r = 0 ↔ r = 0 := by simp [h2.ne']
      simp only [h1, h3]
      split_ifs
      · rfl
      · rfl
      · refine congrArg XReal.fin ?_
        have hk := two_pow_pos k
        rw [two_mul, zpow_add₀ (by norm_num : (2 : ℝ) ≠ 0), Real.sqrt_mul (mul_self_nonneg _), Real.sqrt_mul_self hk.le, zpow_neg]
        ring
    | pinf => show XReal.fin 0 = XReal.fin (2 ^ (-k) * 0); rw [MulZeroClass.mul_zero]
    | _ => rfl
  lt k a b := xs_lt (two_pow_pos k) a.1 b.1
  isnan k a := xs_isnan (two_pow_pos k) a.1
  max k a b := by
    show of _ (JOps.max (xs (2 ^ k) a.1) (xs (2 ^ k) b.1)) = shift k (of _ (JOps.max a.1 b.1))
    rw [xs_max (two_pow_pos k), shift_of]
  min k a b := by
    show of _ (JOps.min (xs (2 ^ k) a.1) (xs (2 ^ k) b.1)) = shift k (of _ (JOps.min a.1 b.1))
    rw [xs_min (two_pow_pos k), shift_of]

/-- `shift k x` is the product with the number `2^k`. -/
theorem shift_eq_mul (k : ℤ) (x : FP (Format.unbounded p hp)) : shift k x = pow2 k * x := by
  have h1 : (1 : FP (Format.unbounded p hp)) * x = x := FP.one_mul x
  have := (shift_graded (p := p) (hp := hp)).mul k 0 1 x
  rw [shift_graded.id, Int.add_zero, h1] at this
  exact this.symm

/-- `2^k` is the number with this value. -/
theorem pow2_val (k : ℤ) : (pow2 k : FP (Format.unbounded p hp)).1 = .fin (2 ^ k) := by
  have h1 : (1 : FP (Format.unbounded p hp)).1 = .fin 1 := by
    show (Format.unbounded p hp).round (.fin 1) = _
    exact (Format.unbounded p hp).rnd_one
  show xs (2 ^ k) (1 : FP (Format.unbounded p hp)).1 = _
  rw [h1]; simp [xs]

end FP

/-! ### simulation -/

section sim
variable {α : Type} [Zero α] [One α] [Add α] [Sub α] [Mul α] [Div α] [Neg α] [JOps α]
variable (sc : ℤ → α → α) (σ : Spec)

/-- the tree entries times `c^k` -/
def scw (k : ℤ) (w : ℕ → ℕ → α) : ℕ → ℕ → α := fun l i => sc k (w l i)

/-- a history whose gradients, not whose parameters, are multiplied by `c^k` -/
def scH (k : ℤ) (h : List ((ℕ → ℕ → α) × Option (ℕ → ℕ → α))) : List ((ℕ → ℕ → α) × Option (ℕ → ℕ → α)) :=
  h.map (fun c => (scw sc k c.1, c.2))

/-- one step of the run with scaled gradients -/
def ScStep (k : ℤ) {S S' : Type} (R : S → S' → Prop) (a : Res (Params α × S)) (b : Res (Params α × S')) : Prop :=
  Res.Rel (fun a b => (∃ u, a.1 = mk σ u ∧ b.1 = mk σ (scw sc k u)) ∧ R a.2 b.2) a b

/-- proof principle: on gradients times `c^j` the transformation `t'` returns the updates of `t` times `c^k` -/
def Rescales (j k : ℤ) (t t' : GT α) : Prop :=
  ∃ R : t.State → t'.State → Prop,
    (∀ v, Res.Rel R (t.init (mk σ v)) (t'.init (mk σ v))) ∧
    ∀ g s s' (pp : Option (ℕ → ℕ → α)), R s s' →
      ScStep sc σ k R (t.update (mk σ g) s (pp.map (mk σ))) (t'.update (mk σ (scw sc j g)) s' (pp.map (mk σ)))

/-- … and one after the other -/
inductive RescalesL : ℤ → ℤ → List (GT α) → List (GT α) → Prop
  | nil (j : ℤ) : RescalesL j j [] []
  | cons {j k l : ℤ} {t t' : GT α} {ts ts' : List (GT α)} : Rescales sc σ j k t t' → RescalesL k l ts ts' → RescalesL j l (t :: ts) (t' :: ts')

variable {sc σ}

theorem Rescales.chain {j k : ℤ} {ts ts' : List (GT α)} (h : RescalesL sc σ j k ts ts') : Rescales sc σ j k (chain ts) (chain ts') := by
  suffices H : ∃ R : ChainState ts → ChainState ts' → Prop,
      (∀ v, Res.Rel R (chainInit ts (mk σ v)) (chainInit ts' (mk σ v))) ∧
      (∀ s s', R s s' → ChainState.length ts s = ts.length ∧ ChainState.length ts' s' = ts'.length) ∧
      ∀ g s s' (pp : Option (ℕ → ℕ → α)), R s s' →
        ScStep sc σ k R (chainLoop ts (mk σ g) s (pp.map (mk σ))) (chainLoop ts' (mk σ (scw sc j g)) s' (pp.map (mk σ))) by
    obtain ⟨R, h1, h2, h3⟩ := H
    refine ⟨R, h1, ?_⟩
    intro g s s' pp hs
    obtain ⟨l1, l2⟩ := h2 s s' hs
    show ScStep sc σ k R (if ChainState.length ts s ≠ ts.length then valueError else _)
      (if ChainState.length ts' s' ≠ ts'.length then valueError else _)
    rw [if_neg (by simp [l1]), if_neg (by simp [l2])]
    exact h3 g s s' pp hs
  induction h with
  | nil j =>
    refine ⟨fun s s' => s = (0 : ℕ) ∧ s' = (0 : ℕ), fun v => ⟨rfl, rfl⟩, ?_, ?_⟩
    · rintro s s' ⟨rfl, rfl⟩; exact ⟨rfl, rfl⟩
    · rintro g s s' pp ⟨rfl, rfl⟩; exact ⟨⟨g, rfl, rfl⟩, rfl, rfl⟩
  | @cons j k l t t' ts ts' h _ ih =>
    obtain ⟨R, a1, a2⟩ := h
    obtain ⟨Q, b1, b2, b3⟩ := ih
    refine ⟨fun s s' => ∃ x r x' r', s = some (x, r) ∧ s' = some (x', r') ∧ R x x' ∧ Q r r', ?_, ?_, ?_⟩
    · intro v
      simp only [chainInit]
      rcases Res.rel_ok (a1 v) with ⟨x, y, hx, hy, hxy⟩ | ⟨e, hx, hy⟩
      · rw [hx, hy]
        simp only [Res.ok_bind]
        rcases Res.rel_ok (b1 v) with ⟨x', y', hx', hy', hxy'⟩ | ⟨e, hx', hy'⟩
        · rw [hx', hy']
          exact ⟨x, x', y, y', rfl, rfl, hxy, hxy'⟩
        · rw [hx', hy']; rfl
      · rw [hx, hy]; rfl
    · rintro s s' ⟨x, r, x', r', rfl, rfl, _, hq⟩
      obtain ⟨l1, l2⟩ := b2 r r' hq
      exact ⟨by simp [ChainState.length, l1, Nat.add_comm], by simp [ChainState.length, l2, Nat.add_comm]⟩
    · rintro g s s' pp ⟨x, r, x', r', rfl, rfl, hx, hq⟩
      simp only [chainLoop]
      rcases Res.rel_ok (a2 g x x' pp hx) with ⟨⟨a1, a2⟩, ⟨b1, b2⟩, ha, hb, ⟨u, hu1, hu2⟩, hr⟩ | ⟨e, ha, hb⟩
      · rw [ha, hb]
        simp only at hu1 hu2 hr
        subst hu1 hu2
        simp only [Res.ok_bind]
        rcases Res.rel_ok (b3 u r r' pp hq) with ⟨y, y', hy, hy', h3, h4⟩ | ⟨e, hy, hy'⟩
        · rw [hy, hy']
          exact ⟨h3, a2, y.2, b2, y'.2, rfl, rfl, hr, h4⟩
        · rw [hy, hy']; rfl
      · rw [ha, hb]; rfl

theorem sc_intro {k : ℤ} {S S' : Type} {R : S → S' → Prop} {s : S} {s' : S'} {u u' : ℕ → ℕ → α} {a : Res (Params α × S)} {b : Res (Params α × S')}
    (ha : a = .ok (mk σ u, s)) (hb : b = .ok (mk σ u', s')) (hu : ∀ l i, u' l i = sc k (u l i))
    (hR : R s s') : ScStep sc σ k R a b := by
  subst ha hb
  exact ⟨⟨u, rfl, by rw [show u' = scw sc k u from funext fun l => funext fun i => hu l i]⟩, hR⟩

theorem Rescales.run {j k : ℤ} {t t' : GT α} {R : t.State → t'.State → Prop}
    (hR : ∀ g s s' (pp : Option (ℕ → ℕ → α)), R s s' →
      ScStep sc σ k R (t.update (mk σ g) s (pp.map (mk σ))) (t'.update (mk σ (scw sc j g)) s' (pp.map (mk σ))))
    (h : List ((ℕ → ℕ → α) × Option (ℕ → ℕ → α))) : ∀ s s', R s s' →
      (∃ (U : List (ℕ → ℕ → α)) (x : t.State) (x' : t'.State), t.run s (calls σ h) = .ok (U.map (mk σ), x) ∧
        t'.run s' (calls σ (scH sc j h)) = .ok (U.map (fun u => mk σ (scw sc k u)), x')) ∨
      ∃ e, t.run s (calls σ h) = .error e ∧ t'.run s' (calls σ (scH sc j h)) = .error e := by
  induction h with
  | nil => intro s s' _; exact .inl ⟨[], s, s', rfl, rfl⟩
  | cons c h ih =>
    intro s s' hs
    have h1 := hR c.1 s s' c.2 hs
    have c1 : calls σ (c :: h) = (mk σ c.1, c.2.map (mk σ)) :: calls σ h := rfl
    have c2 : calls σ (scH sc j (c :: h)) = (mk σ (scw sc j c.1), c.2.map (mk σ)) :: calls σ (scH sc j h) := rfl
    rw [c1, c2, GT.run_cons, GT.run_cons]
    rcases Res.rel_ok h1 with ⟨x, y, hx, hy, ⟨u, hu1, hu2⟩, hxy⟩ | ⟨e, hx, hy⟩
    · have hx' : t.update (mk σ c.1) s (c.2.map (mk σ)) = .ok x := hx
      have hy' : t'.update (mk σ (scw sc j c.1)) s' (c.2.map (mk σ)) = .ok y := hy
      simp only [hx', hy', Res.ok_bind]
      rcases ih x.2 y.2 hxy with ⟨U, z, z', hU, hU'⟩ | ⟨e, hU, hU'⟩
      · refine .inl ⟨u :: U, z, z', ?_, ?_⟩
        · simp only [hU, Res.ok_bind, Res.pure_eq, List.map_cons, hu1]
        · simp only [hU', Res.ok_bind, Res.pure_eq, List.map_cons, hu2]
      · refine .inr ⟨e, ?_, ?_⟩
        · simp only [hU, Res.error_bind]
        · simp only [hU', Res.error_bind]
    · have hx' : t.update (mk σ c.1) s (c.2.map (mk σ)) = .error e := hx
      have hy' : t'.update (mk σ (scw sc j c.1)) s' (c.2.map (mk σ)) = .error e := hy
      refine .inr ⟨e, ?_, ?_⟩
      · simp only [hx', Res.error_bind]
      · simp only [hy', Res.error_bind]

/-- the outputs of the two runs -/
theorem Rescales.outs {j k : ℤ} {t t' : GT α} (ht : Rescales sc σ j k t t') (v : ℕ → ℕ → α) (h : List ((ℕ → ℕ → α) × Option (ℕ → ℕ → α))) :
    (∃ U : List (ℕ → ℕ → α), t.outs (mk σ v) (calls σ h) = .ok (U.map (mk σ)) ∧
      t'.outs (mk σ v) (calls σ (scH sc j h)) = .ok (U.map (fun u => mk σ (scw sc k u)))) ∨
      ∃ e, t.outs (mk σ v) (calls σ h) = .error e ∧ t'.outs (mk σ v) (calls σ (scH sc j h)) = .error e := by
  obtain ⟨R, h1, h2⟩ := ht
  simp only [GT.outs, GT.exec]
  rcases Res.rel_ok (h1 v) with ⟨s, s', e1, e2, hs⟩ | ⟨e, e1, e2⟩
  · rw [e1, e2]
    simp only [Res.ok_bind]
    rcases Rescales.run h2 h s s' hs with ⟨U, x, x', r1, r2⟩ | ⟨e, r1, r2⟩
    · exact .inl ⟨U, by rw [r1]; rfl, by rw [r2]; rfl⟩
    · exact .inr ⟨e, by rw [r1]; rfl, by rw [r2]; rfl⟩
  · exact .inr ⟨e, by rw [e1]; rfl, by rw [e2]; rfl⟩

/-! ### the transformations -/

variable (G : Graded sc)
include G

theorem Graded.mul0 (k : ℤ) (a b : α) : a * sc k b = sc k (a * b) := by
  have := G.mul 0 k a b
  rwa [G.id, Int.zero_add] at this

theorem Graded.div0 (k : ℤ) (a b : α) : sc k a / b = sc k (a / b) := by
  have := G.div k 0 a b
  rwa [G.id, Int.sub_zero] at this

theorem Graded.sq (k : ℤ) (a : α) : sc k a * sc k a = sc (2 * k) (a * a) := by rw [G.mul, Int.two_mul]

theorem Graded.ipow2 (k : ℤ) (a : α) : ipow (sc k a) 2 = sc (2 * k) (ipow a 2) := G.sq k a

theorem Graded.scw_zero (k : ℤ) : scw sc k (fun _ _ => (0 : α)) = fun _ _ => 0 := by funext l i; exact G.zero k

theorem rs_identity (j : ℤ) : Rescales sc σ j j identity identity := ⟨fun _ _ => True, fun _ => trivial, fun g _ _ _ _ => ⟨⟨g, rfl, rfl⟩, trivial⟩⟩

theorem rs_scale (j k : ℤ) (c : α) : Rescales sc σ j (k + j) (scale c) (scale (sc k c)) :=
  ⟨fun _ _ => True, fun _ => trivial, fun g s s' _ _ =>
    sc_intro (scale_update_mk σ g _ c s) (scale_update_mk σ (scw sc j g) _ _ s') (fun _ _ => G.mul k j _ _) trivial⟩

theorem rs_schedule (j k : ℤ) (f : Schedule α) : Rescales sc σ j (k + j) (scaleBySchedule f) (scaleBySchedule (fun n => sc k (f n))) :=
  ⟨fun s s' => ∃ c, s = ⟨c⟩ ∧ s' = ⟨c⟩, fun _ => ⟨_, rfl, rfl⟩, by
    rintro g _ _ pp ⟨c, rfl, rfl⟩
    exact sc_intro (scaleBySchedule_update_mk σ g _ f c) (scaleBySchedule_update_mk σ (scw sc j g) _ _ c) (fun _ _ => G.mul k j _ _) ⟨_, rfl, rfl⟩⟩

theorem rs_trace (j : ℤ) (d : α) (nes : Bool) : Rescales sc σ j j (trace d nes none) (trace d nes none) :=
  ⟨fun s s' => ∃ m, s = ⟨mk σ m⟩ ∧ s' = ⟨mk σ (scw sc j m)⟩, fun v => by
    rw [trace_init_mk]
    exact ⟨fun _ _ => 0, rfl, by rw [G.scw_zero]; rfl⟩, by
    rintro g _ _ pp ⟨m, rfl, rfl⟩
    refine sc_intro (trace_update_mk σ g m _ _ _ _) (trace_update_mk σ (scw sc j g) (scw sc j m) _ _ _ _) ?_ ⟨_, rfl, ?_⟩
    · intro l i
      simp only [scw, G.mul0, G.add]; split <;> rfl
    · simp only [scw, G.mul0, G.add]; rfl⟩

theorem rs_ema (j : ℤ) (d : α) (deb : Bool) : Rescales sc σ j j (ema d deb none) (ema d deb none) :=
  ⟨fun s s' => ∃ c m, s = ⟨c, mk σ m⟩ ∧ s' = ⟨c, mk σ (scw sc j m)⟩, fun v => by
    rw [ema_init_mk]
    exact ⟨_, fun _ _ => 0, rfl, by rw [G.scw_zero]; rfl⟩, by
    rintro g _ _ pp ⟨c, m, rfl, rfl⟩
    refine sc_intro (ema_update_mk σ g m _ _ _ _ _) (ema_update_mk σ (scw sc j g) (scw sc j m) _ _ _ _ _) ?_ ⟨_, _, rfl, ?_⟩
    · intro l i
      simp only [scw, ipow, G.mul0, G.add, G.div0]; split <;> rfl
    · simp only [scw, ipow, G.mul0, G.add]; rfl⟩

theorem rs_rss (j : ℤ) (a eps : α) : Rescales sc σ j 0 (scaleByRss a eps) (scaleByRss (sc (2 * j) a) (sc (2 * j) eps)) :=
  ⟨fun s s' => ∃ m, s = ⟨mk σ m⟩ ∧ s' = ⟨mk σ (scw sc (2 * j) m)⟩, fun v => by
    rw [rss_init_mk, rss_init_mk]
    exact ⟨fun _ _ => a, rfl, rfl⟩, by
    rintro g _ _ pp ⟨m, rfl, rfl⟩
    have hinv : ∀ t : α, invSqrtPos (sc (2 * j) eps) (sc (2 * j) t) = sc (-j) (invSqrtPos eps t) := fun t => by
      have h0 : JOps.lt 0 (sc (2 * j) t) = JOps.lt 0 t := by
        have := G.lt (2 * j) 0 t
        rwa [G.zero] at this
      simp only [invSqrtPos, h0, G.add, G.rsqrt]
      split
      · rfl
      · exact (G.zero _).symm
    refine sc_intro (rss_update_mk σ g m _ _ _) (rss_update_mk σ (scw sc j g) (scw sc (2 * j) m) _ _ _) ?_ ⟨_, rfl, ?_⟩
    · intro l i
      simp only [scw, G.sq, G.add, hinv, G.mul, Int.add_left_neg]
    · simp only [scw, G.sq, G.add]; rfl⟩

theorem rs_rms (j : ℤ) (d eps a : α) : Rescales sc σ j 0 (scaleByRms d eps a) (scaleByRms d (sc (2 * j) eps) (sc (2 * j) a)) :=
  ⟨fun s s' => ∃ m, s = ⟨mk σ m⟩ ∧ s' = ⟨mk σ (scw sc (2 * j) m)⟩, fun v => by
    rw [rms_init_mk, rms_init_mk]
    exact ⟨fun _ _ => a, rfl, rfl⟩, by
    rintro g _ _ pp ⟨m, rfl, rfl⟩
    refine sc_intro (rms_update_mk σ g m _ _ _ _) (rms_update_mk σ (scw sc j g) (scw sc (2 * j) m) _ _ _ _) ?_ ⟨_, rfl, ?_⟩
    · intro l i
      simp only [scw, G.ipow2, G.mul0, G.add, G.rsqrt]
      rw [← G.mul0, G.mul, Int.add_right_neg]
    · simp only [scw, G.ipow2, G.mul0, G.add]; rfl⟩

theorem rs_stddev (j : ℤ) (d eps a : α) : Rescales sc σ j 0 (scaleByStddev d eps a) (scaleByStddev d (sc (2 * j) eps) (sc (2 * j) a)) :=
  ⟨fun s s' => ∃ m n, s = ⟨mk σ m, mk σ n⟩ ∧ s' = ⟨mk σ (scw sc j m), mk σ (scw sc (2 * j) n)⟩, fun v => by
    rw [stddev_init_mk, stddev_init_mk]
    exact ⟨fun _ _ => 0, fun _ _ => a, rfl, by simp only [G.scw_zero]; rfl⟩, by
    rintro g _ _ pp ⟨m, n, rfl, rfl⟩
    refine sc_intro (stddev_update_mk σ g m n _ _ _ _) (stddev_update_mk σ (scw sc j g) (scw sc j m) (scw sc (2 * j) n) _ _ _ _) ?_ ⟨_, _, rfl, ?_⟩
    · intro l i
      simp only [scw, ipow, G.sq, G.mul0, G.add, G.sub, G.rsqrt]
      rw [← G.mul0, G.mul, Int.add_right_neg]
    · simp only [scw, ipow, G.sq, G.mul0, G.add]; rfl⟩

theorem rs_adam (j : ℤ) (b1 b2 eps er : α) : Rescales sc σ j 0 (scaleByAdam b1 b2 eps er) (scaleByAdam b1 b2 (sc j eps) (sc (2 * j) er)) :=
  ⟨fun s s' => ∃ c m n, s = ⟨c, mk σ m, mk σ n⟩ ∧ s' = ⟨c, mk σ (scw sc j m), mk σ (scw sc (2 * j) n)⟩, fun v => by
    rw [adam_init_mk]
    exact ⟨_, fun _ _ => 0, fun _ _ => 0, rfl, by simp only [G.scw_zero]⟩, by
    rintro g _ _ pp ⟨c, m, n, rfl, rfl⟩
    refine sc_intro (adam_update_mk σ g m n _ _ _ _ _ _) (adam_update_mk σ (scw sc j g) (scw sc j m) (scw sc (2 * j) n) _ _ _ _ _ _) ?_ ⟨_, _, _, rfl, ?_⟩
    · intro l i
      simp only [scw, ipow, G.sq, G.mul0, G.add, G.div0, G.sqrt]
      rw [← G.div0, G.div, Int.sub_self]
    · simp only [scw, ipow, G.sq, G.mul0, G.add]; rfl⟩

theorem rs_belief (j : ℤ) (b1 b2 eps er : α) : Rescales sc σ j 0 (scaleByBelief b1 b2 eps er) (scaleByBelief b1 b2 (sc j eps) (sc (2 * j) er)) :=
  ⟨fun s s' => ∃ c m n, s = ⟨c, mk σ m, mk σ n⟩ ∧ s' = ⟨c, mk σ (scw sc j m), mk σ (scw sc (2 * j) n)⟩, fun v => by
    rw [belief_init_mk]
    exact ⟨_, fun _ _ => 0, fun _ _ => 0, rfl, by simp only [G.scw_zero]⟩, by
    rintro g _ _ pp ⟨c, m, n, rfl, rfl⟩
    refine sc_intro (belief_update_mk σ g m n _ _ _ _ _ _) (belief_update_mk σ (scw sc j g) (scw sc j m) (scw sc (2 * j) n) _ _ _ _ _ _) ?_ ⟨_, _, _, rfl, ?_⟩
    · intro l i
      simp only [scw, ipow, G.sub, G.sq, G.mul0, G.add, G.div0, G.sqrt]
      rw [← G.div0, G.div, Int.sub_self]
    · simp only [scw, ipow, G.sub, G.sq, G.mul0, G.add]; rfl⟩

theorem rs_clip (j : ℤ) (d : α) : Rescales sc σ j j (clip d) (clip (sc j d)) :=
  ⟨fun _ _ => True, fun _ => trivial, fun g s s' pp _ =>
    sc_intro (clip_update_mk σ g _ d s) (clip_update_mk σ (scw sc j g) _ _ s') (fun _ _ => by simp only [scw, G.neg, G.max, G.min]) trivial⟩

theorem rs_zeroNans (j : ℤ) : Rescales sc σ j j zeroNans zeroNans :=
  ⟨fun _ _ => True, fun _ => trivial, fun g s s' pp _ =>
    sc_intro (zeroNans_update_mk σ g _ s) (zeroNans_update_mk σ (scw sc j g) _ s') (fun _ _ => by
      simp only [scw, G.isnan]; split
      · exact (G.zero _).symm
      · rfl) trivial⟩

theorem rs_weights (j : ℤ) (w : α) : Rescales sc σ j j (addDecayedWeights w) (addDecayedWeights (sc j w)) :=
  ⟨fun _ _ => True, fun _ => trivial, fun g s s' pp _ => by
    cases pp with
    | none => exact rfl
    | some p =>
      refine sc_intro (addDecayedWeights_update_mk σ g p w s) (addDecayedWeights_update_mk σ (scw sc j g) p _ s') (fun l i => ?_) trivial
      have h2 := G.mul j 0 w (p l i)
      rw [G.id, Int.add_zero] at h2
      simp only [scw, h2, G.add]⟩

theorem Graded.sum (k : ℤ) (l : List α) : (l.map (sc k)).sum = sc k l.sum := by
  induction l with
  | nil => exact (G.zero k).symm
  | cons a l ih => simp only [List.map_cons, List.sum_cons, ih, G.add]

theorem globalNorm_scw (j : ℤ) (g : ℕ → ℕ → α) : globalNorm (mk σ (scw sc j g)) = sc j (globalNorm (mk σ g)) := by
  have h1 : mk σ (scw sc j g) = tmap (sc j) (mk σ g) := by simp; rfl
  rw [h1]
  generalize mk σ g = t
  have h2 : ∀ x : Tensor α, ((x.map (sc j)).map (fun y => y * y)).sum = sc (2 * j) ((x.map (fun y => y * y)).sum) := fun x => by
    simp only [Tensor.sum, Tensor.map, List.map_map]
    rw [← G.sum, List.map_map]
    congr 1
    refine List.map_congr_left fun y _ => ?_
    exact G.sq j y
  simp only [globalNorm]
  rw [← G.sqrt, ← G.sum, List.map_map]
  congr 2
  simp only [tmap, PyTree.leaves_map, List.map_map]
  refine List.map_congr_left fun x _ => ?_
  exact h2 x

theorem rs_clipNorm (j : ℤ) (d : α) : Rescales sc σ j j (clipByGlobalNorm d) (clipByGlobalNorm (sc j d)) :=
  ⟨fun _ _ => True, fun _ => trivial, fun g s s' pp _ =>
    sc_intro (clipByGlobalNorm_update_mk σ g _ d s) (clipByGlobalNorm_update_mk σ (scw sc j g) _ _ s') (fun l i => by
      have h2 : ∀ a b : α, sc j a / sc j b * sc j d = sc j (a / b * d) := fun a b => by
        rw [G.div, Int.sub_self, G.mul, Int.zero_add]
      simp only [globalNorm_scw G, G.lt, scw, h2]; split <;> rfl) trivial⟩

theorem rs_momentum (j : ℤ) (m : Option α) (nes : Bool) : Rescales sc σ j j (momentumOrIdentity m nes) (momentumOrIdentity m nes) := by
  cases m with
  | none => exact rs_identity G j
  | some m => exact rs_trace G j m nes

/-- a learning rate times `c^k` -/
def LR.times (f : ℤ → α → α) (k : ℤ) : LR α → LR α
  | .scalar x => .scalar (f k x)
  | .schedule g => .schedule (fun n => f k (g n))

theorem rs_lr (j k : ℤ) (lr : LR α) : Rescales sc σ j (k + j) (scaleByLearningRate lr) (scaleByLearningRate (lr.times sc k)) := by
  cases lr with
  | scalar x =>
    have h := rs_scale (σ := σ) G j k (-x)
    rwa [← G.neg] at h
  | schedule f =>
    have h := rs_schedule (σ := σ) G j k (fun n => -f n)
    simp only [← G.neg] at h
    exact h

theorem rs_lr0 (lr : LR α) : Rescales sc σ 0 0 (scaleByLearningRate lr) (scaleByLearningRate lr) := by
  have h := rs_lr (σ := σ) G 0 0 lr
  rw [Int.zero_add] at h
  have e : lr.times sc 0 = lr := by cases lr <;> simp only [LR.times, G.id]
  rwa [e] at h

theorem rs_weights0 (w : α) : Rescales sc σ 0 0 (addDecayedWeights w) (addDecayedWeights w) := by
  have h := rs_weights (σ := σ) G 0 w
  rwa [G.id] at h

omit G in
/-- equal outputs -/
theorem Rescales.eq (hid : ∀ x, sc 0 x = x) {j : ℤ} {t t' : GT α} (ht : Rescales sc σ j 0 t t') (v : ℕ → ℕ → α) (h : List ((ℕ → ℕ → α) × Option (ℕ → ℕ → α))) :
    t'.outs (mk σ v) (calls σ (scH sc j h)) = t.outs (mk σ v) (calls σ h) := by
  rcases ht.outs v h with ⟨U, h1, h2⟩ | ⟨e, h1, h2⟩
  · rw [h1, h2]
    have e : (fun u => mk σ (scw sc 0 u)) = mk σ := by
      funext u; congr 1; funext l i; exact hid _
    rw [e]
  · rw [h1, h2]

end sim

/-- equal outputs of two transformations on inputs changed by `f` -/
theorem outs_sim {α : Type} {t t' : GT α} (f : Call α → Call α) (R : t.State → t'.State → Prop) (p : Params α) (h1 : Res.Rel R (t.init p) (t'.init p))
    (cs : List (Call α))
    (h2 : ∀ c ∈ cs, ∀ s s', R s s' → Res.Rel (fun a b => a.1 = b.1 ∧ R a.2 b.2) (t.update c.1 s c.2) (t'.update (f c).1 s' (f c).2)) :
    t'.outs p (cs.map f) = t.outs p cs := by
  have run : ∀ s s', R s s' → (∃ U x x', t.run s cs = .ok (U, x) ∧ t'.run s' (cs.map f) = .ok (U, x')) ∨
      ∃ e, t.run s cs = .error e ∧ t'.run s' (cs.map f) = .error e := by
    clear h1
    induction cs with
    | nil => intro s s' _; exact .inl ⟨[], s, s', rfl, rfl⟩
    | cons c cs ih =>
      intro s s' hs
      rw [List.map_cons, GT.run_cons, GT.run_cons]
      rcases Res.rel_ok (h2 c (by simp) s s' hs) with ⟨x, y, hx, hy, hu, hxy⟩ | ⟨e, hx, hy⟩
      · simp only [hx, hy, Res.ok_bind]
        rcases ih (fun c hc => h2 c (by simp [hc])) x.2 y.2 hxy with ⟨U, z, z', hU, hU'⟩ | ⟨e, hU, hU'⟩
        · exact .inl ⟨x.1 :: U, z, z', by simp only [hU, Res.ok_bind, Res.pure_eq], by simp only [hU', Res.ok_bind, Res.pure_eq, hu]⟩
        · exact .inr ⟨e, by simp only [hU, Res.error_bind], by simp only [hU', Res.error_bind]⟩
      · exact .inr ⟨e, by simp only [hx, Res.error_bind], by simp only [hy, Res.error_bind]⟩
  simp only [GT.outs, GT.exec]
  rcases Res.rel_ok h1 with ⟨s, s', e1, e2, hs⟩ | ⟨e, e1, e2⟩
  · rw [e1, e2]
    simp only [Res.ok_bind]
    rcases run s s' hs with ⟨U, x, x', r1, r2⟩ | ⟨e, r1, r2⟩
    · rw [r1, r2]; rfl
    · rw [r1, r2]; rfl
  · rw [e1, e2]; rfl

/-! ## The theorems -/

section main
open FP
variable {p : ℕ} {hp : 1 ≤ p} (σ : Spec)

/-- **Specification.** The history seen by the optimizer when the loss is multiplied by `2^k`: every gradient entry is multiplied by the number `2^k`, the
parameters are what they were. -/
noncomputable def scaledLoss (k : ℤ) (h : List ((ℕ → ℕ → FP (Format.unbounded p hp)) × Option (ℕ → ℕ → FP (Format.unbounded p hp)))) :
    List ((ℕ → ℕ → FP (Format.unbounded p hp)) × Option (ℕ → ℕ → FP (Format.unbounded p hp))) :=
  h.map (fun c => (fun l i => pow2 k * c.1 l i, c.2))

/-- **Specification.** A learning rate or schedule times `2^k`. -/
noncomputable def lrTimes (k : ℤ) : LR (FP (Format.unbounded p hp)) → LR (FP (Format.unbounded p hp))
  | .scalar x => .scalar (pow2 k * x)
  | .schedule f => .schedule (fun n => pow2 k * f n)

theorem scaledLoss_eq (k : ℤ) (h : List ((ℕ → ℕ → FP (Format.unbounded p hp)) × Option (ℕ → ℕ → FP (Format.unbounded p hp)))) :
    scaledLoss k h = scH shift k h := by
  simp only [scaledLoss, scH, ← shift_eq_mul]; rfl

theorem lrTimes_eq (k : ℤ) (lr : LR (FP (Format.unbounded p hp))) : lrTimes k lr = lr.times shift k := by
  cases lr <;> simp only [lrTimes, LR.times, ← shift_eq_mul]

variable (k : ℤ) (lr : LR (FP (Format.unbounded p hp))) (v : ℕ → ℕ → FP (Format.unbounded p hp))
  (h : List ((ℕ → ℕ → FP (Format.unbounded p hp)) × Option (ℕ → ℕ → FP (Format.unbounded p hp))))

/-- **C136.** Dividing the learning rate by `2^k` undoes a loss scale of `2^k` in sgd, with and without momentum, bit for bit. -/
theorem C136_sgd (momentum : Option (FP (Format.unbounded p hp))) (nesterov : Bool) :
    (sgd (lrTimes (-k) lr) momentum nesterov).outs (mk σ v) (calls σ (scaledLoss k h)) = (sgd lr momentum nesterov).outs (mk σ v) (calls σ h) := by
  rw [scaledLoss_eq, lrTimes_eq]
  refine Rescales.eq shift_graded.id (Rescales.chain (.cons (rs_momentum shift_graded k momentum nesterov) (.cons (k := 0) ?_ (.nil 0)))) v h
  have := rs_lr (σ := σ) (shift_graded (p := p) (hp := hp)) k (-k) lr
  rwa [Int.add_left_neg] at this

/-- **C136.** … also behind clipping and weight decay, if these are scaled with the loss. -/
theorem C136_clipped_sgd (momentum : Option (FP (Format.unbounded p hp))) (nesterov : Bool) (maxNorm maxDelta w : FP (Format.unbounded p hp)) :
    (chain [zeroNans, clipByGlobalNorm (pow2 k * maxNorm), clip (pow2 k * maxDelta), addDecayedWeights (pow2 k * w),
      sgd (lrTimes (-k) lr) momentum nesterov]).outs (mk σ v) (calls σ (scaledLoss k h)) =
    (chain [zeroNans, clipByGlobalNorm maxNorm, clip maxDelta, addDecayedWeights w, sgd lr momentum nesterov]).outs (mk σ v) (calls σ h) := by
  rw [scaledLoss_eq, lrTimes_eq, ← shift_eq_mul, ← shift_eq_mul, ← shift_eq_mul]
  refine Rescales.eq shift_graded.id (Rescales.chain (.cons (rs_zeroNans shift_graded k) (.cons (rs_clipNorm shift_graded k maxNorm)
    (.cons (rs_clip shift_graded k maxDelta) (.cons (rs_weights shift_graded k w) (.cons (k := 0)
      (Rescales.chain (.cons (rs_momentum shift_graded k momentum nesterov) (.cons (k := 0) ?_ (.nil 0)))) (.nil 0))))))) v h
  have := rs_lr (σ := σ) (shift_graded (p := p) (hp := hp)) k (-k) lr
  rwa [Int.add_left_neg] at this

/-- **C136.** Adam and AdamW need no other learning rate, only `eps` times `2^k` and `eps_root` times `4^k`. -/
theorem C136_adam (b1 b2 eps epsRoot w : FP (Format.unbounded p hp)) :
    (adam lr b1 b2 (pow2 k * eps) (pow2 (2 * k) * epsRoot)).outs (mk σ v) (calls σ (scaledLoss k h)) =
      (adam lr b1 b2 eps epsRoot).outs (mk σ v) (calls σ h) ∧
    (adamw lr b1 b2 (pow2 k * eps) (pow2 (2 * k) * epsRoot) w).outs (mk σ v) (calls σ (scaledLoss k h)) =
      (adamw lr b1 b2 eps epsRoot w).outs (mk σ v) (calls σ h) := by
  rw [scaledLoss_eq, ← shift_eq_mul, ← shift_eq_mul]
  exact ⟨Rescales.eq shift_graded.id (Rescales.chain (.cons (rs_adam shift_graded k b1 b2 eps epsRoot) (.cons (rs_lr0 shift_graded lr) (.nil 0)))) v h,
    Rescales.eq shift_graded.id (Rescales.chain (.cons (rs_adam shift_graded k b1 b2 eps epsRoot)
      (.cons (rs_weights0 shift_graded w) (.cons (rs_lr0 shift_graded lr) (.nil 0))))) v h⟩

/-- **C136.** RMSProp, centered or not, and AdaGrad need `eps` and the initial accumulator times `4^k`; so does the AdaBelief transformation for `eps_root`. -/
theorem C136_rms (decay eps init b1 b2 epsRoot : FP (Format.unbounded p hp)) (centered : Bool) (momentum : Option (FP (Format.unbounded p hp))) (nesterov : Bool) :
    (rmsprop lr decay (pow2 (2 * k) * eps) (pow2 (2 * k) * init) centered momentum nesterov).outs (mk σ v) (calls σ (scaledLoss k h)) =
      (rmsprop lr decay eps init centered momentum nesterov).outs (mk σ v) (calls σ h) ∧
    (adagrad lr (pow2 (2 * k) * init) (pow2 (2 * k) * eps)).outs (mk σ v) (calls σ (scaledLoss k h)) =
      (adagrad lr init eps).outs (mk σ v) (calls σ h) ∧
    (scaleByBelief b1 b2 (pow2 k * eps) (pow2 (2 * k) * epsRoot)).outs (mk σ v) (calls σ (scaledLoss k h)) =
      (scaleByBelief b1 b2 eps epsRoot).outs (mk σ v) (calls σ h) := by
  rw [scaledLoss_eq]
  simp only [← shift_eq_mul]
  refine ⟨?_, Rescales.eq shift_graded.id (Rescales.chain (.cons (rs_rss shift_graded k init eps) (.cons (rs_lr0 shift_graded lr) (.nil 0)))) v h,
    Rescales.eq shift_graded.id (rs_belief shift_graded k b1 b2 eps epsRoot) v h⟩
  cases centered with
  | true => exact Rescales.eq shift_graded.id (Rescales.chain (.cons (rs_stddev shift_graded k decay eps init)
      (.cons (rs_lr0 shift_graded lr) (.cons (rs_momentum shift_graded 0 momentum nesterov) (.nil 0))))) v h
  | false => exact Rescales.eq shift_graded.id (Rescales.chain (.cons (rs_rms shift_graded k decay eps init)
      (.cons (rs_lr0 shift_graded lr) (.cons (rs_momentum shift_graded 0 momentum nesterov) (.nil 0))))) v h

/-- **C136.** Unscaling first is exact for every optimizer: behind `scale(2^-k)` it sees the unscaled gradients. -/
theorem C136_unscale (t : GT (FP (Format.unbounded p hp))) :
    (chain [scale (pow2 (-k)), t]).outs (mk σ v) (calls σ (scaledLoss k h)) = t.outs (mk σ v) (calls σ h) := by
  have step : ∀ x : FP (Format.unbounded p hp), pow2 (-k) * (pow2 k * x) = x := fun x => by
    rw [← shift_eq_mul, ← shift_eq_mul]
    have := (shift_graded (p := p) (hp := hp)).mul (-k) k 1 x
    rw [Int.add_left_neg, shift_graded.id, FP.one_mul] at this
    rw [shift_eq_mul]; exact this
  have e : calls σ (scaledLoss k h) = (calls σ h).map (fun c => (tmap (fun x => pow2 k * x) c.1, c.2)) := by
    simp only [calls, scaledLoss, List.map_map]
    refine List.map_congr_left fun c _ => ?_
    simp
  rw [e]
  refine outs_sim _ (fun s s' => ∃ z : EmptyState, s' = some (z, some (s, (0 : ℕ)))) _ ?_ _ ?_
  · show Res.Rel _ (t.init (mk σ v)) (chainInit [scale (pow2 (-k)), t] (mk σ v))
    simp only [chainInit]
    cases t.init (mk σ v) with
    | error e => rfl
    | ok s => exact ⟨_, rfl⟩
  · rintro c hc s _ ⟨z, rfl⟩
    obtain ⟨c, _, rfl⟩ := List.mem_map.1 hc
    show Res.Rel _ _ (if ChainState.length [scale (pow2 (-k)), t] (some (z, some (s, (0 : ℕ)))) ≠ 2 then valueError else
      chainLoop [scale (pow2 (-k)), t] (tmap (fun x => pow2 k * x) (mk σ c.1)) (some (z, some (s, (0 : ℕ)))) (c.2.map (mk σ)))
    rw [if_neg (by simp [ChainState.length]), tmap_mk]
    simp only [chainLoop, tmap_mk, step, Res.ok_bind, Res.pure_eq]
    cases t.update (mk σ c.1) s (c.2.map (mk σ)) with
    | error e => rfl
    | ok x => exact ⟨rfl, z, rfl⟩

/-- **C136.** With float32's exponents: a result that neither overflows nor falls into the subnormal numbers is rounded as above. -/
theorem C136_float32 (x : ℝ) (hx : x = 0 ∨ (2 : ℝ) ^ (-126 : ℤ) ≤ |x|) (hx' : |x| < (2 ^ 24 - 1 / 2) * 2 ^ (104 : ℤ)) :
    Format.float32.round (.fin x) = (Format.unbounded 24 (by norm_num)).round (.fin x) :=
  Format.binary_eq_digits (by
    rcases hx with hx | hx
    · exact .inl hx
    · exact .inr (le_trans (le_of_eq (by norm_num)) hx)) hx'

/-- the numbers of the theorems: `2^10` is `1024` -/
example : (pow2 10 : FP (Format.unbounded 24 (by norm_num))).1 = .fin 1024 := by rw [pow2_val]; norm_num

end main

end Optax
