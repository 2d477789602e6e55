import Verif.Props.LookaheadConv
import Verif.Props.StabilityEdge
import Verif.Props.Acceleration

/-!
# C158: the edge of stability of lookahead
-/

set_option linter.unusedSectionVars false
set_option linter.unusedSimpArgs false

namespace Optax
open Finset Filter Topology
variable (σ : Spec)

/-- fast and slow parameters of `lookahead(sgd(η), k, a)`, written out: plain gradient steps of the fast ones; every `k`-th step the slow ones move the fraction `a` towards the fast ones, which are reset to them -/
noncomputable def lookaheadPath (η : ℝ) (k : ℕ) (a : ℝ) (G : (ℕ → ℕ → ℝ) → ℕ → ℕ → ℝ) (p0 : ℕ → ℕ → ℝ) : ℕ → (ℕ → ℕ → ℝ) × (ℕ → ℕ → ℝ)
  | 0 => (p0, p0)
  | n + 1 =>
    let f := (lookaheadPath η k a G p0 n).1
    let s := (lookaheadPath η k a G p0 n).2
    if (n + 1) % k = 0 then (fun x y => s x y + a * (f x y - η * G f x y - s x y), fun x y => s x y + a * (f x y - η * G f x y - s x y))
    else (fun x y => f x y - η * G f x y, s)

/-- the training loop with `lookahead(sgd(η), k, a)`, gradients taken at the fast parameters, visits exactly these fast and slow parameters -/
theorem lookahead_path (η : ℝ) (nes : Bool) (k : ℕ) (hk : 1 ≤ k) (hk' : k < 2 ^ 31) (a : ℝ) (grad : ℕ → Params ℝ → Params ℝ) (G : (ℕ → ℕ → ℝ) → ℕ → ℕ → ℝ)
    (hg : ∀ n f s, grad n (lookaheadParams (mk σ f) (mk σ s)) = mk σ (G f)) (p0 : ℕ → ℕ → ℝ) :
    ∃ s0, (lookahead (sgd (.scalar η) none nes) k a none).init (initSynced (mk σ p0)) = .ok s0 ∧ ∀ n, ∃ s,
      trainLoop (lookahead (sgd (.scalar η) none nes) k a none) grad n s0 (initSynced (mk σ p0)) =
        .ok (lookaheadParams (mk σ (lookaheadPath η k a G p0 n).1) (mk σ (lookaheadPath η k a G p0 n).2), s) := by
  set ss : (sgd (.scalar η) none nes : GT ℝ).State := some ((⟨⟩ : EmptyState), some ((⟨⟩ : EmptyState), (0 : ℕ))) with hss
  refine ⟨⟨ss, ctr 0⟩, rfl, fun n => ⟨⟨ss, ctr (n % k)⟩, ?_⟩⟩
  induction n with
  | zero => rw [Nat.zero_mod]; rfl
  | succ n ih =>
    set f := (lookaheadPath η k a G p0 n).1 with hf
    set sl := (lookaheadPath η k a G p0 n).2 with hsl
    obtain ⟨U, h1, h2⟩ := C19_step (sgd (.scalar η) none nes) k a σ hk hk' (n % k) (Nat.mod_lt _ hk) (G f) f sl _ ss ss
      (sgdR_update σ η nes (G f) _)
    have h3 := trainLoop_succ _ grad n _ _ _ _ _ _ U ih (by rw [hg]; exact h1) h2
    refine h3.trans ?_
    have e : (n % k + 1) % k = (n + 1) % k := by rw [Nat.mod_add_mod]
    have e2 : n % k + 1 = k ↔ (n + 1) % k = 0 := by
      have := Nat.mod_lt n hk
      rw [← e]
      constructor
      · intro h; rw [h, Nat.mod_self]
      · intro h
        by_contra hne
        rw [Nat.mod_eq_of_lt (by omega)] at h
        omega
    rw [e]
    have hp : lookaheadPath η k a G p0 (n + 1) = if (n + 1) % k = 0 then (fun x y => sl x y + a * (f x y - η * G f x y - sl x y), fun x y => sl x y + a * (f x y - η * G f x y - sl x y))
      else (fun x y => f x y - η * G f x y, sl) := rfl
    rw [hp]
    simp only [e2]
    split_ifs
    · simp only [neg_mul, ← sub_eq_add_neg]
    · simp only [neg_mul, ← sub_eq_add_neg]

/-- what one period of `k` steps multiplies the error along a direction of curvature `c` by, `x = η c` -/
noncomputable def periodFactor (k : ℕ) (a x : ℝ) : ℝ := 1 - a + a * (1 - x) ^ k

theorem lookahead_component (η : ℝ) (k : ℕ) (hk : 1 ≤ k) (a : ℝ) (G : (ℕ → ℕ → ℝ) → ℕ → ℕ → ℝ) (q v : ℕ → ℕ → ℝ) (c : ℝ)
    (hv : ∀ p, ∑ x ∈ idx σ, v x.1 x.2 * G p x.1 x.2 = c * component σ v p q) (p0 : ℕ → ℕ → ℝ) (n : ℕ) :
    component σ v (lookaheadPath η k a G p0 n).1 q = (1 - η * c) ^ (n % k) * (periodFactor k a (η * c) ^ (n / k) * component σ v p0 q) ∧
    component σ v (lookaheadPath η k a G p0 n).2 q = periodFactor k a (η * c) ^ (n / k) * component σ v p0 q := by
  have hstep : ∀ f : ℕ → ℕ → ℝ, component σ v (fun x y => f x y - η * G f x y) q = (1 - η * c) * component σ v f q := fun f => by
    have h1 : component σ v (fun x y => f x y - η * G f x y) q = component σ v f q - η * ∑ x ∈ idx σ, v x.1 x.2 * G f x.1 x.2 := by
      unfold component
      rw [Finset.mul_sum, ← Finset.sum_sub_distrib]
      exact Finset.sum_congr rfl fun x _ => by ring
    rw [h1, hv]; ring
  have hblend : ∀ s f : ℕ → ℕ → ℝ, component σ v (fun x y => s x y + a * (f x y - s x y)) q = (1 - a) * component σ v s q + a * component σ v f q := fun s f => by
    unfold component
    rw [Finset.mul_sum, Finset.mul_sum, ← Finset.sum_add_distrib]
    exact Finset.sum_congr rfl fun x _ => by ring
  induction n with
  | zero => simp [lookaheadPath]
  | succ n ih =>
    obtain ⟨ih1, ih2⟩ := ih
    set f := (lookaheadPath η k a G p0 n).1 with hf
    set sl := (lookaheadPath η k a G p0 n).2 with hsl
    have hp : lookaheadPath η k a G p0 (n + 1) = if (n + 1) % k = 0 then (fun x y => sl x y + a * (f x y - η * G f x y - sl x y), fun x y => sl x y + a * (f x y - η * G f x y - sl x y))
      else (fun x y => f x y - η * G f x y, sl) := rfl
    have hd := Nat.div_add_mod n k
    have hd' := Nat.div_add_mod (n + 1) k
    have hm := Nat.mod_lt n hk
    rw [hp]
    split_ifs with h
    · have e1 : n % k = k - 1 ∧ (n + 1) / k = n / k + 1 := by
        have : (n + 1) / k = n / k + 1 := by rw [Nat.succ_div, if_pos (Nat.dvd_of_mod_eq_zero h)]
        refine ⟨?_, this⟩
        rw [h, this, Nat.mul_add] at hd'
        omega
      have h2 : component σ v (fun x y => sl x y + a * (f x y - η * G f x y - sl x y)) q = periodFactor k a (η * c) ^ ((n + 1) / k) * component σ v p0 q := by
        rw [hblend sl (fun x y => f x y - η * G f x y), hstep, ih1, ih2, e1.1, e1.2, pow_succ']
        have e3 : (1 - η * c) * ((1 - η * c) ^ (k - 1) * (periodFactor k a (η * c) ^ (n / k) * component σ v p0 q)) =
            (1 - η * c) ^ k * (periodFactor k a (η * c) ^ (n / k) * component σ v p0 q) := by
          rw [← mul_assoc, ← pow_succ', show k - 1 + 1 = k by omega]
        rw [e3]
        unfold periodFactor
        ring
      rw [h, pow_zero, one_mul]
      exact ⟨h2, h2⟩
    · have e1 : (n + 1) / k = n / k := by rw [Nat.succ_div, if_neg (fun hd => h (Nat.mod_eq_zero_of_dvd hd))]; rfl
      have e2 : (n + 1) % k = n % k + 1 := by rw [e1] at hd'; omega
      rw [e1, e2, pow_succ', mul_assoc]
      exact ⟨by rw [hstep, ih1], ih2⟩

/-- the largest stable value of learning rate times curvature for `lookahead(sgd, k, a)` -/
noncomputable def lookaheadEdge (k : ℕ) (a : ℝ) : ℝ := if Even k then 2 else 1 + (2 / a - 1) ^ (1 / (k : ℝ))

theorem periodFactor_lt (k : ℕ) (hk : 1 ≤ k) (a x : ℝ) (ha : 0 < a) (ha1 : a ≤ 1) : |periodFactor k a x| < 1 ↔ 0 < x ∧ x < lookaheadEdge k a := by
  unfold periodFactor lookaheadEdge
  have hk0 : k ≠ 0 := by omega
  rw [abs_lt]
  split_ifs with he
  · have h0 : 0 ≤ (1 - x) ^ k := he.pow_nonneg _
    have h1 : (1 - x) ^ k < 1 ↔ 0 < x ∧ x < 2 := by
      rw [← he.pow_abs, pow_lt_one_iff_of_nonneg (abs_nonneg _) hk0, abs_lt]
      constructor <;> rintro ⟨h1, h2⟩ <;> constructor <;> linarith
    rw [← h1]
    constructor
    · rintro ⟨-, h2⟩; nlinarith
    · intro h2
      have := mul_nonneg ha.le h0
      constructor <;> nlinarith
  · have ho : Odd k := Nat.not_even_iff_odd.1 he
    have hb : 0 ≤ 2 / a - 1 := by rw [sub_nonneg, le_div_iff₀ ha]; linarith
    set r := (2 / a - 1) ^ (1 / (k : ℝ)) with hr
    have hrk : r ^ k = 2 / a - 1 := by
      rw [hr, ← Real.rpow_natCast, ← Real.rpow_mul hb, one_div, inv_mul_cancel₀ (by exact_mod_cast hk0), Real.rpow_one]
    have hm := ho.strictMono_pow (R := ℝ)
    have h1 : (1 - x) ^ k < 1 ↔ 0 < x := by
      have := hm.lt_iff_lt (a := 1 - x) (b := 1)
      simp only [one_pow] at this
      rw [this]; constructor <;> intro h <;> linarith
    have h2 : -(2 / a - 1) < (1 - x) ^ k ↔ x < 1 + r := by
      have := hm.lt_iff_lt (a := -r) (b := 1 - x)
      simp only [ho.neg_pow, hrk] at this
      rw [this]; constructor <;> intro h <;> linarith
    rw [← h1, ← h2, and_comm]
    have e : a * (2 / a - 1) = 2 - a := by field_simp
    refine and_congr ?_ ?_
    · constructor <;> intro h <;> nlinarith
    · constructor <;> intro h
      · by_contra hc
        have := mul_le_mul_of_nonneg_left (not_lt.1 hc) ha.le
        linarith
      · have := mul_lt_mul_of_pos_left h ha
        linarith

/-- **C158 (one direction).** Train with `lookahead(sgd(η), k, a)`, `0 < a ≤ 1`, from synchronised parameters. The component of the error along a direction of constant curvature `c` is after `j` periods and `r < k` further steps
`(1 - η c)^r (1 - a + a (1 - η c)^k)^j` (slow parameters: without the first factor) times the initial one, so fast and slow parameters converge along it if and only if it starts at zero or `0 < η c < edge`, the edge being `2` for even `k` and `1 + (2/a - 1)^(1/k)`, which is more than 2 unless `a = 1`, for odd `k`. -/
theorem C158_direction (η : ℝ) (nes : Bool) (k : ℕ) (hk : 1 ≤ k) (hk' : k < 2 ^ 31) (a : ℝ) (ha : 0 < a) (ha1 : a ≤ 1) (grad : ℕ → Params ℝ → Params ℝ) (G : (ℕ → ℕ → ℝ) → ℕ → ℕ → ℝ)
    (hg : ∀ n f s, grad n (lookaheadParams (mk σ f) (mk σ s)) = mk σ (G f)) (q v : ℕ → ℕ → ℝ) (c : ℝ)
    (hv : ∀ p, ∑ x ∈ idx σ, v x.1 x.2 * G p x.1 x.2 = c * component σ v p q) (p0 : ℕ → ℕ → ℝ) :
    ∃ (f sl : ℕ → ℕ → ℕ → ℝ) (s0 : _), (lookahead (sgd (.scalar η) none nes) k a none).init (initSynced (mk σ p0)) = .ok s0 ∧
      (∀ n, ∃ s, trainLoop (lookahead (sgd (.scalar η) none nes) k a none) grad n s0 (initSynced (mk σ p0)) = .ok (lookaheadParams (mk σ (f n)) (mk σ (sl n)), s)) ∧
      (∀ j r, r < k → component σ v (f (j * k + r)) q = (1 - η * c) ^ r * ((1 - a + a * (1 - η * c) ^ k) ^ j * component σ v p0 q) ∧
        component σ v (sl (j * k + r)) q = (1 - a + a * (1 - η * c) ^ k) ^ j * component σ v p0 q) ∧
      (Tendsto (fun n => component σ v (f n) q) atTop (𝓝 0) ↔ component σ v p0 q = 0 ∨ 0 < η * c ∧ η * c < lookaheadEdge k a) ∧
      (Tendsto (fun n => component σ v (sl n) q) atTop (𝓝 0) ↔ component σ v p0 q = 0 ∨ 0 < η * c ∧ η * c < lookaheadEdge k a) := by
  obtain ⟨s0, h1, h2⟩ := lookahead_path σ η nes k hk hk' a grad G hg p0
  have hc := lookahead_component σ η k hk a G q v c hv p0
  set ρ := periodFactor k a (η * c) with hρ
  refine ⟨fun n => (lookaheadPath η k a G p0 n).1, fun n => (lookaheadPath η k a G p0 n).2, s0, h1, h2, fun j r hr => ?_, ?_, ?_⟩
  · have e1 : (j * k + r) % k = r := by rw [Nat.add_comm, Nat.add_mul_mod_self_right, Nat.mod_eq_of_lt hr]
    have e2 : (j * k + r) / k = j := by rw [Nat.add_comm, Nat.add_mul_div_right _ _ hk, Nat.div_eq_of_lt hr, Nat.zero_add]
    have := hc (j * k + r)
    rw [e1, e2] at this
    exact this
  all_goals
    rw [← periodFactor_lt k hk a _ ha ha1, ← hρ]
    have hdiv : Tendsto (fun n : ℕ => n / k) atTop atTop := Filter.tendsto_atTop_mono' _ (Eventually.of_forall fun n => le_rfl) (Nat.tendsto_div_const_atTop (by omega))
    have hmul : Tendsto (fun j : ℕ => j * k) atTop atTop := tendsto_id.atTop_mul_const' hk
    have hback : Tendsto (fun j : ℕ => ρ ^ j * component σ v p0 q) atTop (𝓝 0) → component σ v p0 q = 0 ∨ |ρ| < 1 := by
      intro h
      by_cases h0 : component σ v p0 q = 0
      · exact Or.inl h0
      right
      rw [← tendsto_pow_atTop_nhds_zero_iff]
      have h3 := h.div_const (component σ v p0 q)
      rw [zero_div] at h3
      refine h3.congr fun j => ?_
      rw [mul_div_assoc, div_self h0, mul_one]
    have hfwd : component σ v p0 q = 0 ∨ |ρ| < 1 → Tendsto (fun n : ℕ => ρ ^ (n / k) * component σ v p0 q) atTop (𝓝 0) := by
      rintro (h0 | h0)
      · simp [h0]
      · have h3 := ((tendsto_pow_atTop_nhds_zero_iff.2 h0).comp hdiv).mul_const (component σ v p0 q)
        rw [zero_mul] at h3
        exact h3
  · constructor
    · intro h
      refine hback ?_
      refine (h.comp hmul).congr fun j => ?_
      show component σ v (lookaheadPath η k a G p0 (j * k)).1 q = _
      rw [(hc (j * k)).1, Nat.mul_mod_left, Nat.mul_div_cancel _ hk, pow_zero, one_mul]
    · intro h
      have h3 := hfwd h
      rw [tendsto_zero_iff_abs_tendsto_zero] at h3 ⊢
      have h4 := h3.const_mul (max 1 |1 - η * c| ^ k)
      rw [mul_zero] at h4
      refine squeeze_zero (fun n => abs_nonneg _) (fun n => ?_) h4
      show |component σ v (lookaheadPath η k a G p0 n).1 q| ≤ max 1 |1 - η * c| ^ k * |ρ ^ (n / k) * component σ v p0 q|
      rw [(hc n).1, abs_mul, abs_pow]
      refine mul_le_mul_of_nonneg_right ?_ (abs_nonneg _)
      exact (pow_le_pow_left₀ (abs_nonneg _) (le_max_right _ _) _).trans (pow_le_pow_right₀ (le_max_left _ _) (Nat.mod_lt _ hk).le)
  · constructor
    · intro h
      refine hback ?_
      refine (h.comp hmul).congr fun j => ?_
      show component σ v (lookaheadPath η k a G p0 (j * k)).2 q = _
      rw [(hc (j * k)).2, Nat.mul_div_cancel _ hk]
    · intro h
      refine (hfwd h).congr fun n => ?_
      exact ((hc n).2).symm

/-- **C158 (the edge).** For odd `k` and `a < 1` lookahead tolerates learning rates plain `sgd` does not; for even `k`, or `a = 1`, it tolerates exactly the same. -/
theorem C158_edge (k : ℕ) (hk : 1 ≤ k) (a : ℝ) (ha : 0 < a) (ha1 : a ≤ 1) :
    (Even k → lookaheadEdge k a = 2) ∧ lookaheadEdge k 1 = 2 ∧ (Odd k → a < 1 → 2 < lookaheadEdge k a) := by
  unfold lookaheadEdge
  refine ⟨fun h => if_pos h, ?_, fun h h1 => ?_⟩
  · split_ifs
    · rfl
    · norm_num
  · rw [if_neg (Nat.not_even_iff_odd.2 h)]
    have h2 : 1 < 2 / a - 1 := by rw [lt_sub_iff_add_lt, lt_div_iff₀ ha]; linarith
    have h3 := Real.one_lt_rpow h2 (show 0 < 1 / (k : ℝ) by have : (0 : ℝ) < k := by exact_mod_cast hk
                                                            positivity)
    linarith

/-- **C158 (quadratic losses).** For the loss `(p - q)ᵀ A (p - q)/2`, `A` symmetric over all parameters: fast and slow parameters reach the minimiser `q` from every start if all eigenvalues `c` of `A` satisfy `0 < η c < edge`. -/
theorem C158_quadratic (η : ℝ) (nes : Bool) (k : ℕ) (hk : 1 ≤ k) (hk' : k < 2 ^ 31) (a : ℝ) (ha : 0 < a) (ha1 : a ≤ 1) (grad : ℕ → Params ℝ → Params ℝ)
    (A : (Σ _ : ℕ, ℕ) → (Σ _ : ℕ, ℕ) → ℝ) (hA : ∀ x y, A x y = A y x) (q : ℕ → ℕ → ℝ)
    (hg : ∀ n f s, grad n (lookaheadParams (mk σ f) (mk σ s)) = mk σ (fun k i => ∑ y ∈ idx σ, A ⟨k, i⟩ y * (f y.1 y.2 - q y.1 y.2)))
    (hev : ∀ (c : ℝ) (v : ℕ → ℕ → ℝ), (∃ x ∈ idx σ, v x.1 x.2 ≠ 0) →
      (∀ x ∈ idx σ, ∑ y ∈ idx σ, A x y * v y.1 y.2 = c * v x.1 x.2) → 0 < η * c ∧ η * c < lookaheadEdge k a) (p0 : ℕ → ℕ → ℝ) :
    ∃ (f sl : ℕ → ℕ → ℕ → ℝ) (s0 : _), (lookahead (sgd (.scalar η) none nes) k a none).init (initSynced (mk σ p0)) = .ok s0 ∧
      (∀ n, ∃ s, trainLoop (lookahead (sgd (.scalar η) none nes) k a none) grad n s0 (initSynced (mk σ p0)) = .ok (lookaheadParams (mk σ (f n)) (mk σ (sl n)), s)) ∧
      Tendsto (fun n => treeDist σ (f n) q) atTop (𝓝 0) ∧ Tendsto (fun n => treeDist σ (sl n) q) atTop (𝓝 0) := by
  obtain ⟨s0, h1, h2⟩ := lookahead_path σ η nes k hk hk' a grad _ hg p0
  obtain ⟨b, ev, hb0, hb, hbd⟩ := eigenbasis σ A hA
  have hdir : ∀ (c : ℝ) (v : ℕ → ℕ → ℝ), (∀ x ∈ idx σ, ∑ y ∈ idx σ, A x y * v y.1 y.2 = c * v x.1 x.2) →
      ∀ p : ℕ → ℕ → ℝ, ∑ x ∈ idx σ, v x.1 x.2 * ∑ y ∈ idx σ, A ⟨x.1, x.2⟩ y * (p y.1 y.2 - q y.1 y.2) = c * component σ v p q := by
    intro c v hv p
    unfold component
    rw [Finset.mul_sum]
    calc ∑ x ∈ idx σ, v x.1 x.2 * ∑ y ∈ idx σ, A ⟨x.1, x.2⟩ y * (p y.1 y.2 - q y.1 y.2)
        = ∑ x ∈ idx σ, ∑ y ∈ idx σ, v x.1 x.2 * (A x y * (p y.1 y.2 - q y.1 y.2)) :=
          Finset.sum_congr rfl fun x _ => Finset.mul_sum _ _ _
      _ = ∑ y ∈ idx σ, ∑ x ∈ idx σ, v x.1 x.2 * (A x y * (p y.1 y.2 - q y.1 y.2)) := Finset.sum_comm
      _ = ∑ y ∈ idx σ, c * (v y.1 y.2 * (p y.1 y.2 - q y.1 y.2)) := by
          refine Finset.sum_congr rfl fun y hy => ?_
          rw [← mul_assoc c, ← hv y hy, Finset.sum_mul]
          exact Finset.sum_congr rfl fun x _ => by rw [hA x y]; ring
  set G : (ℕ → ℕ → ℝ) → ℕ → ℕ → ℝ := fun p k i => ∑ y ∈ idx σ, A ⟨k, i⟩ y * (p y.1 y.2 - q y.1 y.2) with hG
  have hcomp : ∀ j, Tendsto (fun n => component σ (b j) (lookaheadPath η k a G p0 n).1 q) atTop (𝓝 0) ∧
      Tendsto (fun n => component σ (b j) (lookaheadPath η k a G p0 n).2 q) atTop (𝓝 0) := by
    intro j
    obtain ⟨f, sl, s0', -, -, h5, h6, h7⟩ := C158_direction σ η nes k hk hk' a ha ha1 grad G hg q (b j) (ev j) (hdir _ _ (hb j)) p0
    have h8 := Or.inr (a := component σ (b j) p0 q = 0) (hev _ _ (hb0 j) (hb j))
    have hc := lookahead_component σ η k hk a G q (b j) (ev j) (hdir _ _ (hb j)) p0
    have e : ∀ n, component σ (b j) (f n) q = component σ (b j) (lookaheadPath η k a G p0 n).1 q ∧ component σ (b j) (sl n) q = component σ (b j) (lookaheadPath η k a G p0 n).2 q := fun n => by
      have h9 := h5 (n / k) (n % k) (Nat.mod_lt _ hk)
      rw [Nat.div_add_mod'] at h9
      rw [h9.1, h9.2, (hc n).1, (hc n).2]
      exact ⟨rfl, rfl⟩
    exact ⟨(h6.2 h8).congr fun n => (e n).1, (h7.2 h8).congr fun n => (e n).2⟩
  refine ⟨fun n => (lookaheadPath η k a G p0 n).1, fun n => (lookaheadPath η k a G p0 n).2, s0, h1, h2, ?_, ?_⟩
  all_goals
    have hd : ∀ p : ℕ → ℕ → ℝ, treeDist σ p q = √(∑ j, component σ (b j) p q ^ 2) := fun p => by
      rw [← hbd, sqDist_eq, Real.sqrt_sq (treeDist_nonneg σ _ _)]
    simp only [hd]
    rw [show (0 : ℝ) = √(∑ j : idx σ, 0 ^ 2) by simp]
    refine (Real.continuous_sqrt.tendsto _).comp (tendsto_finsetSum _ fun j _ => ?_)
  · exact (hcomp j).1.pow 2
  · exact (hcomp j).2.pow 2

/-- a case that meets the hypotheses of `C158_direction`: the loss `x²/2` of one parameter with `η = 11/5`, `k = 5`, `a = 1/2`: plain `sgd` diverges, lookahead converges -/
example : (∀ p : ℕ → ℕ → ℝ, ∑ x ∈ idx (.leaf [1]), (fun _ _ => (1 : ℝ)) x.1 x.2 * p x.1 x.2 = 1 * component (.leaf [1]) (fun _ _ => 1) p (fun _ _ => 0)) ∧
    component (.leaf [1]) (fun _ _ => 1) (fun _ _ => 1) (fun _ _ => 0) ≠ 0 ∧
    (0 : ℝ) < 11 / 5 * 1 ∧ (11 / 5 * 1 : ℝ) < lookaheadEdge 5 (1 / 2) ∧ stabilityEdge none false < (11 / 5 * 1 : ℝ) := by
  refine ⟨fun p => ?_, ?_, by norm_num, ?_, by simp only [stabilityEdge]; norm_num⟩
  · simp [component]
  · have : idx (.leaf [1]) = {⟨0, 0⟩} := by decide
    simp [component, this]
  · refine ((periodFactor_lt 5 (by norm_num) (1 / 2) (11 / 5 * 1) (by norm_num) (by norm_num)).1 ?_).2
    unfold periodFactor
    rw [abs_lt]; constructor <;> norm_num

end Optax
