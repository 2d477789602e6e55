import Verif.Props.Convergence

/-!
# C77: AdaGrad's regret bound; C27: the distance Adam can travel

The regret of training with `adagrad` on any sequence of convex losses is at most
`(D²/(2η) + η) Σ_coordinates √(a + eps + Σ g²)`, where `D` bounds the distance of the iterates to the comparator in every
coordinate (Duchi, Hazan, Singer 2011, for the code's accumulator and `eps`).
-/

set_option linter.unusedSectionVars false
set_option linter.unusedSimpArgs false

namespace Optax
open Finset

variable (σ : Spec)

/-- A transformation that keeps structure never gets stuck in a training loop: the loop visits a sequence of params `P`, the
updates `U` it applies are those the transformation returns on the history of gradients and params met. -/
theorem exists_visits_of {Q : Spec → Option (Params ℝ) → Prop} (t : GT ℝ) (ht : Preserves Q t)
    (hQ : ∀ p, Q σ (some (mk σ p))) (grad : ℕ → Params ℝ → Params ℝ)
    (G : ℕ → (ℕ → ℕ → ℝ) → ℕ → ℕ → ℝ) (hg : ∀ n p, grad n (mk σ p) = mk σ (G n p)) (p0 : ℕ → ℕ → ℝ) :
    ∃ P U : ℕ → ℕ → ℕ → ℝ, P 0 = p0 ∧ (∀ n k i, P (n + 1) k i = P n k i + U n k i) ∧ Visits t grad σ P ∧
      ∀ N, t.outs (mk σ p0) (hist σ (fun n => G n (P n)) (fun n => some (mk σ (P n))) N) =
        .ok ((List.range N).map (fun n => mk σ (U n))) := by
  obtain ⟨I, h1, h2⟩ := ht σ
  obtain ⟨s0, hs0, hI0⟩ := h1 p0
  have step : ∀ (n : ℕ) (x : (ℕ → ℕ → ℝ) × {s : t.State // I s}), ∃ y : (ℕ → ℕ → ℝ) × {s : t.State // I s},
      t.update (mk σ (G n x.1)) x.2.1 (some (mk σ x.1)) = .ok (mk σ y.1, y.2.1) := by
    intro n x
    obtain ⟨u, s', hu, hI⟩ := h2 (G n x.1) x.2.1 (some (mk σ x.1)) x.2.2 (hQ _)
    exact ⟨(u, ⟨s', hI⟩), hu⟩
  choose f hf using step
  let X : ℕ → (ℕ → ℕ → ℝ) × {s : t.State // I s} := fun n =>
    Nat.rec (p0, ⟨s0, hI0⟩) (fun n x => (fun k i => x.1 k i + (f n x).1 k i, (f n x).2)) n
  have hX : ∀ n, X (n + 1) = (fun k i => (X n).1 k i + (f n (X n)).1 k i, (f n (X n)).2) := fun n => rfl
  have houts : ∀ N, t.outs (mk σ p0) (hist σ (fun n => G n (X n).1) (fun n => some (mk σ (X n).1)) N) =
      .ok ((List.range N).map (fun n => mk σ (f n (X n)).1)) := by
    intro N
    refine outs_hist t _ σ _ _ N (fun n => (X n).2.1) _ hs0 ?_
    intro n _
    rw [hX]
    exact hf n (X n)
  refine ⟨fun n => (X n).1, fun n => (f n (X n)).1, rfl, fun n k i => rfl, ?_, houts⟩
  refine ⟨s0, hs0, fun n => ?_⟩
  obtain ⟨s0', s, h3, h4⟩ := trainLoop_of_outs hg (fun n => (X n).1) (fun n => (f n (X n)).1)
    (fun n k i => rfl) houts n
  have h3' : t.init (mk σ p0) = .ok s0' := h3
  rw [hs0] at h3'
  clear h3
  cases h3'
  exact ⟨s, h4⟩

/-- the same, for a transformation that keeps the structure of every tree -/
theorem exists_visits (t : GT ℝ) (ht : Preserves WithParams t) (grad : ℕ → Params ℝ → Params ℝ)
    (G : ℕ → (ℕ → ℕ → ℝ) → ℕ → ℕ → ℝ) (hg : ∀ n p, grad n (mk σ p) = mk σ (G n p)) (p0 : ℕ → ℕ → ℝ) :
    ∃ P U : ℕ → ℕ → ℕ → ℝ, P 0 = p0 ∧ (∀ n k i, P (n + 1) k i = P n k i + U n k i) ∧ Visits t grad σ P ∧
      ∀ N, t.outs (mk σ p0) (hist σ (fun n => G n (P n)) (fun n => some (mk σ (P n))) N) =
        .ok ((List.range N).map (fun n => mk σ (U n))) :=
  exists_visits_of σ t ht (fun _ => ⟨_, rfl⟩) grad G hg p0

theorem preserves_adagrad (lr : LR ℝ) (a eps : ℝ) : Preserves WithParams (adagrad lr a eps) := by
  refine Preserves.chain _ ?_
  intro t ht
  simp only [List.mem_cons, List.mem_nil_iff, or_false] at ht
  rcases ht with rfl | rfl
  · exact (preserves_rss a eps).mono fun _ _ _ => trivial
  · exact (preserves_lr lr).mono fun _ _ _ => trivial

theorem preserves_adam_alias (lr : LR ℝ) (b1 b2 eps er : ℝ) : Preserves WithParams (adam lr b1 b2 eps er) := by
  refine Preserves.chain _ ?_
  intro t ht
  simp only [List.mem_cons, List.mem_nil_iff, or_false] at ht
  rcases ht with rfl | rfl
  · exact (preserves_adam b1 b2 eps er).mono fun _ _ _ => trivial
  · exact (preserves_lr lr).mono fun _ _ _ => trivial

/-- the scalar recurrence -/
theorem adagrad_scalar (η a' q D : ℝ) (hη : 0 < η) (ha : 0 ≤ a') (x g : ℕ → ℝ) (N : ℕ)
    (hx : ∀ n < N, x (n + 1) = x n - η * (g n / Real.sqrt (a' + ∑ j ∈ range (n + 1), g j ^ 2)))
    (hD : ∀ n < N, |x n - q| ≤ D) (h0 : |x 0 - q| ≤ D) :
    ∑ n ∈ range N, g n * (x n - q) + Real.sqrt (a' + ∑ j ∈ range N, g j ^ 2) * (x N - q) ^ 2 / (2 * η) ≤
      (D ^ 2 / (2 * η) + η) * Real.sqrt (a' + ∑ j ∈ range N, g j ^ 2) := by
  induction N with
  | zero =>
    simp only [Finset.range_zero, Finset.sum_empty, zero_add, add_zero]
    have h1 : (x 0 - q) ^ 2 ≤ D ^ 2 := sq_le_sq' (by linarith [(abs_le.mp h0).1]) (abs_le.mp h0).2
    have h2 := Real.sqrt_nonneg a'
    have h3 : (x 0 - q) ^ 2 / (2 * η) ≤ D ^ 2 / (2 * η) := div_le_div_of_nonneg_right h1 (by positivity)
    have : (x 0 - q) ^ 2 / (2 * η) ≤ D ^ 2 / (2 * η) + η := by linarith
    calc _ = (x 0 - q) ^ 2 / (2 * η) * Real.sqrt a' := by ring
      _ ≤ _ := mul_le_mul_of_nonneg_right this h2
  | succ N ih =>
    have ih' := ih (fun n hn => hx n (by omega)) (fun n hn => hD n (by omega))
    rw [Finset.sum_range_succ _ N]
    set S := Real.sqrt (a' + ∑ j ∈ range N, g j ^ 2) with hS
    have hsum : 0 ≤ ∑ j ∈ range N, g j ^ 2 := Finset.sum_nonneg fun _ _ => sq_nonneg _
    have hsum' : ∑ j ∈ range (N + 1), g j ^ 2 = ∑ j ∈ range N, g j ^ 2 + g N ^ 2 := Finset.sum_range_succ _ _
    set S' := Real.sqrt (a' + ∑ j ∈ range (N + 1), g j ^ 2) with hS'
    have hSS : S' ^ 2 = S ^ 2 + g N ^ 2 := by
      rw [hS, hS', Real.sq_sqrt (by rw [hsum']; nlinarith [sq_nonneg (g N)]), Real.sq_sqrt (by linarith), hsum']; ring
    have hS0 : 0 ≤ S := Real.sqrt_nonneg _
    have hS0' : 0 ≤ S' := Real.sqrt_nonneg _
    have hle : S ≤ S' := by nlinarith [sq_nonneg (g N)]
    have hxN := hx N (by omega)
    have hd : (x N - q) ^ 2 ≤ D ^ 2 := by
      have := hD N (by omega)
      exact sq_le_sq' (by linarith [(abs_le.mp this).1]) (abs_le.mp this).2
    have hstep : g N * (x N - q) + S' * (x (N + 1) - q) ^ 2 / (2 * η) = S' * (x N - q) ^ 2 / (2 * η) + η / 2 * (g N ^ 2 / S') := by
      rw [hxN, ← hS']
      rcases hS0'.eq_or_lt with h | h
      · have hg : g N = 0 := by
          rw [← h] at hSS
          nlinarith [sq_nonneg (g N), sq_nonneg S]
        simp [← h, hg]
      · field_simp
        ring
    have hq : g N ^ 2 / S' ≤ 2 * (S' - S) := by
      rcases hS0'.eq_or_lt with h | h
      · rw [← h]; simp; linarith
      · rw [div_le_iff₀ h]; nlinarith
    have h5 : (S' - S) * (x N - q) ^ 2 / (2 * η) ≤ (S' - S) * D ^ 2 / (2 * η) :=
      div_le_div_of_nonneg_right (mul_le_mul_of_nonneg_left hd (by linarith)) (by positivity)
    have h6 : η / 2 * (g N ^ 2 / S') ≤ η / 2 * (2 * (S' - S)) := mul_le_mul_of_nonneg_left hq (by positivity)
    have e1 : (S' - S) * (x N - q) ^ 2 / (2 * η) = S' * (x N - q) ^ 2 / (2 * η) - S * (x N - q) ^ 2 / (2 * η) := by ring
    have e2 : (D ^ 2 / (2 * η) + η) * S' = (D ^ 2 / (2 * η) + η) * S + (S' - S) * D ^ 2 / (2 * η) + η / 2 * (2 * (S' - S)) := by
      ring
    rw [e2]
    linarith

/-- **C77 (regret of AdaGrad).** Training with `adagrad(η, initial_accumulator_value=a, eps)` on any sequence of convex losses:
as long as the iterates stay within `D` of `q` in every coordinate, the regret with respect to `q` is at most
`(D²/(2η) + η) Σ_x √(a + eps + Σ_n g_{n,x}²)`. -/
theorem C77_regret (η a eps : ℝ) (hη : 0 < η) (ha : 0 ≤ a) (he : 0 ≤ eps) (loss : ℕ → Params ℝ → ℝ)
    (grad : ℕ → Params ℝ → Params ℝ) (G : ℕ → (ℕ → ℕ → ℝ) → ℕ → ℕ → ℝ)
    (hg : ∀ n p, grad n (mk σ p) = mk σ (G n p)) (hconv : ∀ n, StronglyConvex σ 0 (loss n) (G n)) (p0 q : ℕ → ℕ → ℝ) :
    ∃ P, P 0 = p0 ∧ Visits (adagrad (.scalar η) a eps) grad σ P ∧
      ∀ N D, (∀ x ∈ idx σ, |p0 x.1 x.2 - q x.1 x.2| ≤ D) → (∀ n < N, ∀ x ∈ idx σ, |P n x.1 x.2 - q x.1 x.2| ≤ D) →
        ∑ n ∈ range N, (loss n (mk σ (P n)) - loss n (mk σ q)) ≤
          (D ^ 2 / (2 * η) + η) * ∑ x ∈ idx σ, Real.sqrt (a + eps + ∑ n ∈ range N, G n (P n) x.1 x.2 ^ 2) := by
  obtain ⟨P, U, h0, hP, hv, hU⟩ := exists_visits σ (adagrad (.scalar η) a eps) (preserves_adagrad _ a eps) grad G hg p0
  refine ⟨P, h0, hv, fun N D hD0 hD => ?_⟩
  have hcl := hU N
  have hr : (scaleByRss a eps).outs (mk σ p0) (hist σ (fun n => G n (P n)) (fun n => some (mk σ (P n))) N) =
      .ok ((List.range N).map (fun n => mk σ (fun k i =>
        if 0 < rssAcc a (fun j => G j (P j) k i) (n + 1) then
          G n (P n) k i / Real.sqrt (rssAcc a (fun j => G j (P j) k i) (n + 1) + eps) else 0))) := by
    unfold GT.outs
    rw [C23_rss]; rfl
  have hlr := outs_chain_hist_lr (scaleByRss a eps) (.scalar η) (mk σ p0) σ _ _ _ N hr
  rw [hcl] at hlr
  injection hlr with hlr
  have hUx : ∀ n < N, ∀ x ∈ idx σ, P (n + 1) x.1 x.2 = P n x.1 x.2 -
      η * (G n (P n) x.1 x.2 / Real.sqrt (a + eps + ∑ j ∈ range (n + 1), G j (P j) x.1 x.2 ^ 2)) := by
    intro n hn x hx
    obtain ⟨s, h1, h2⟩ := mem_idx.mp hx
    have h3 := List.map_inj_left.mp hlr n (List.mem_range.mpr hn)
    have h4 := mk_inj h3 x.1 s h1 x.2 h2
    rw [hP, h4]
    simp only [LR.at, rssAcc]
    have hsn : 0 ≤ ∑ j ∈ range (n + 1), G j (P j) x.1 x.2 ^ 2 := Finset.sum_nonneg fun _ _ => sq_nonneg _
    have e : a + ∑ j ∈ range (n + 1), G j (P j) x.1 x.2 ^ 2 + eps = a + eps + ∑ j ∈ range (n + 1), G j (P j) x.1 x.2 ^ 2 := by
      ring
    rw [e]
    by_cases hpos : 0 < a + ∑ j ∈ range (n + 1), G j (P j) x.1 x.2 ^ 2
    · rw [if_pos hpos]; ring
    · rw [if_neg hpos]
      have h5 : ∑ j ∈ range (n + 1), G j (P j) x.1 x.2 ^ 2 = 0 := by linarith
      have h6 := (Finset.sum_eq_zero_iff_of_nonneg (fun _ _ => sq_nonneg _)).mp h5 n (by simp)
      have h7 : G n (P n) x.1 x.2 = 0 := by simpa using h6
      rw [h7]; simp
  calc ∑ n ∈ range N, (loss n (mk σ (P n)) - loss n (mk σ q))
      ≤ ∑ n ∈ range N, ∑ x ∈ idx σ, G n (P n) x.1 x.2 * (P n x.1 x.2 - q x.1 x.2) := by
        refine Finset.sum_le_sum fun n _ => ?_
        have h1 := hconv n (P n) q
        rw [zero_div, zero_mul, add_zero] at h1
        have h2 : treeInner σ (G n (P n)) (fun k i => q k i - P n k i) =
            -∑ x ∈ idx σ, G n (P n) x.1 x.2 * (P n x.1 x.2 - q x.1 x.2) := by
          unfold treeInner
          rw [← Finset.sum_neg_distrib]
          exact Finset.sum_congr rfl fun x _ => by ring
        linarith
    _ = ∑ x ∈ idx σ, ∑ n ∈ range N, G n (P n) x.1 x.2 * (P n x.1 x.2 - q x.1 x.2) := Finset.sum_comm
    _ ≤ ∑ x ∈ idx σ, (D ^ 2 / (2 * η) + η) * Real.sqrt (a + eps + ∑ n ∈ range N, G n (P n) x.1 x.2 ^ 2) := by
        refine Finset.sum_le_sum fun x hx => ?_
        have := adagrad_scalar η (a + eps) (q x.1 x.2) D hη (by linarith) (fun n => P n x.1 x.2)
          (fun n => G n (P n) x.1 x.2) N (fun n hn => hUx n hn x hx) (fun n hn => hD n hn x hx) (by simpa [h0] using hD0 x hx)
        have h2 : 0 ≤ Real.sqrt (a + eps + ∑ j ∈ range N, G j (P j) x.1 x.2 ^ 2) * (P N x.1 x.2 - q x.1 x.2) ^ 2 / (2 * η) := by
          positivity
        linarith
    _ = _ := by rw [Finset.mul_sum]

/-- **C77 (sublinear regret).** With gradient entries bounded by `B`, the regret after `N` steps is at most
`(D²/(2η) + η) · size · √(a + eps + N B²)`: it grows like `√N`, so the average regret vanishes, without the learning rate being
tuned to `N`, `B` or `D`. -/
theorem C77_sublinear (η a eps : ℝ) (hη : 0 < η) (ha : 0 ≤ a) (he : 0 ≤ eps) (loss : ℕ → Params ℝ → ℝ)
    (grad : ℕ → Params ℝ → Params ℝ) (G : ℕ → (ℕ → ℕ → ℝ) → ℕ → ℕ → ℝ)
    (hg : ∀ n p, grad n (mk σ p) = mk σ (G n p)) (hconv : ∀ n, StronglyConvex σ 0 (loss n) (G n)) (p0 q : ℕ → ℕ → ℝ)
    (B : ℝ) (hB : ∀ n p k i, |G n p k i| ≤ B) :
    ∃ P, P 0 = p0 ∧ Visits (adagrad (.scalar η) a eps) grad σ P ∧
      ∀ N D, (∀ x ∈ idx σ, |p0 x.1 x.2 - q x.1 x.2| ≤ D) → (∀ n < N, ∀ x ∈ idx σ, |P n x.1 x.2 - q x.1 x.2| ≤ D) →
        ∑ n ∈ range N, (loss n (mk σ (P n)) - loss n (mk σ q)) ≤
          (D ^ 2 / (2 * η) + η) * ((idx σ).card * Real.sqrt (a + eps + N * B ^ 2)) := by
  obtain ⟨P, h0, hv, h⟩ := C77_regret σ η a eps hη ha he loss grad G hg hconv p0 q
  refine ⟨P, h0, hv, fun N D h1 h2 => (h N D h1 h2).trans ?_⟩
  refine mul_le_mul_of_nonneg_left ?_ (by positivity)
  calc _ ≤ ∑ _x ∈ idx σ, Real.sqrt (a + eps + N * B ^ 2) := by
        refine Finset.sum_le_sum fun x _ => Real.sqrt_le_sqrt ?_
        have : ∑ n ∈ range N, G n (P n) x.1 x.2 ^ 2 ≤ ∑ _n ∈ range N, B ^ 2 := by
          refine Finset.sum_le_sum fun n _ => ?_
          have := abs_le.mp (hB n (P n) x.1 x.2)
          exact sq_le_sq' this.1 this.2
        simp only [Finset.sum_const, Finset.card_range, nsmul_eq_mul] at this
        linarith
    _ = _ := by simp

/-- **C27 (distance travelled).** Training with `adam(lr)`: whatever the gradients, step `n` moves no parameter by more than
`|lr n|/√((1-b2)(1-b1²/b2))`, the first step by no more than `|lr 0|`; so after `N` steps no parameter is further from where it
started than the sum of these. -/
theorem C27_travel (lr : LR ℝ) (b1 b2 eps er : ℝ) (h1 : 0 ≤ b1) (h2 : b1 ^ 2 < b2) (h2' : b2 < 1)
    (he : 0 ≤ eps) (her : 0 ≤ er) (grad : ℕ → Params ℝ → Params ℝ)
    (G : ℕ → (ℕ → ℕ → ℝ) → ℕ → ℕ → ℝ) (hg : ∀ n p, grad n (mk σ p) = mk σ (G n p)) (p0 : ℕ → ℕ → ℝ) :
    ∃ P, P 0 = p0 ∧ Visits (adam lr b1 b2 eps er) grad σ P ∧
      (∀ n < 2147483647, ∀ x ∈ idx σ,
        |P (n + 1) x.1 x.2 - P n x.1 x.2| ≤ |lr.at n| / Real.sqrt ((1 - b2) * (1 - b1 ^ 2 / b2))) ∧
      (∀ x ∈ idx σ, |P 1 x.1 x.2 - p0 x.1 x.2| ≤ |lr.at 0|) ∧
      ∀ N ≤ 2147483647, ∀ x ∈ idx σ,
        |P N x.1 x.2 - p0 x.1 x.2| ≤ (∑ n ∈ range N, |lr.at n|) / Real.sqrt ((1 - b2) * (1 - b1 ^ 2 / b2)) := by
  obtain ⟨P, U, h0, hP, hv, hU⟩ := exists_visits σ (adam lr b1 b2 eps er) (preserves_adam_alias _ _ _ _ _) grad G hg p0
  have key : ∀ n < 2147483647, ∀ x ∈ idx σ,
      |U n x.1 x.2| ≤ |lr.at n| / Real.sqrt ((1 - b2) * (1 - b1 ^ 2 / b2)) ∧ (n = 0 → |U n x.1 x.2| ≤ |lr.at n|) := by
    intro n hn x hx
    obtain ⟨s, hs1, hs2⟩ := mem_idx.mp hx
    obtain ⟨V, hV, -, hb, hb0, -⟩ := C27_bounded σ p0 (fun n => G n (P n)) (fun n => some (mk σ (P n))) (n + 1) b1 b2 eps er
      h1 h2 h2' he her (by omega)
    have hlr := outs_chain_hist_lr (scaleByAdam b1 b2 eps er) lr (mk σ p0) σ _ _ _ (n + 1) hV
    rw [hU (n + 1)] at hlr
    injection hlr with hlr
    have h3 := List.map_inj_left.mp hlr n (List.mem_range.mpr (by omega))
    have h4 := mk_inj h3 x.1 s hs1 x.2 hs2
    rw [h4, abs_mul, abs_neg]
    refine ⟨?_, ?_⟩
    · calc _ ≤ |lr.at n| * (1 / Real.sqrt ((1 - b2) * (1 - b1 ^ 2 / b2))) :=
          mul_le_mul_of_nonneg_left (hb n _ _) (abs_nonneg _)
        _ = _ := by ring
    · rintro rfl
      have := mul_le_mul_of_nonneg_left (hb0 x.1 x.2) (abs_nonneg (lr.at 0))
      linarith
  have hstep : ∀ n x, P (n + 1) x - P n x = U n x := by
    intro n x; funext i; show P (n + 1) x i - P n x i = _; rw [hP]; ring
  have hstep' : ∀ n k i, P (n + 1) k i - P n k i = U n k i := fun n k i => by rw [hP]; ring
  refine ⟨P, h0, hv, fun n hn x hx => ?_, fun x hx => ?_, fun N hN x hx => ?_⟩
  · rw [hstep']; exact (key n hn x hx).1
  · have := (key 0 (by norm_num) x hx).2 rfl
    rwa [← hstep' 0, h0] at this
  · induction N with
    | zero => simp [h0]
    | succ N ih =>
      rw [Finset.sum_range_succ, add_div]
      have h5 := ih (by omega)
      have h6 := (key N (by omega) x hx).1
      rw [← hstep'] at h6
      calc _ = |(P N x.1 x.2 - p0 x.1 x.2) + (P (N + 1) x.1 x.2 - P N x.1 x.2)| := by congr 1; ring
        _ ≤ _ := (abs_add_le _ _).trans (add_le_add h5 h6)

/-- Non-vacuity: the losses `|x - n|`-like linear losses `gₙ·x` are convex with constant gradients bounded by 1. -/
example : (∀ n : ℕ, StronglyConvex (.leaf []) 0 (fun t => (-1) ^ n * coord t 0 0) (fun _ _ _ => (-1) ^ n)) ∧
    ∀ n : ℕ, |((-1) ^ n : ℝ)| ≤ 1 := by
  refine ⟨fun n p q => ?_, fun n => by simp⟩
  have e : ∀ v : ℕ → ℕ → ℝ, coord (mk (.leaf []) v) 0 0 = v 0 0 := fun v => coord_mk _ _ 0 0 [] rfl (by simp)
  have hi : idx (.leaf [] : Spec) = {⟨0, 0⟩} := by
    ext x
    rw [mem_idx, Finset.mem_singleton]
    obtain ⟨a, b⟩ := x
    simp only [PyTree.leaves]
    constructor
    · rintro ⟨s, h1, h2⟩
      have ha : a = 0 := by
        by_contra h
        rw [List.getElem?_eq_none (by simp; omega)] at h1
        cases h1
      subst ha
      simp at h1
      subst h1
      simp at h2
      rw [h2]
    · intro h
      cases h
      exact ⟨[], rfl, by simp⟩
  simp only [e, treeInner, hi, Finset.sum_singleton]
  linarith

end Optax
