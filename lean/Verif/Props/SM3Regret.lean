import Verif.Props.AdagradRegret
import Verif.Props.SM3

/-!
# C116: the regret of SM3; C05 for `scale_by_sm3` and `sm3`

Anil, Gupta, Koren, Singer 2019, Proposition 2, for the code's accumulators, axes and `eps`.
-/

set_option linter.unusedSectionVars false
set_option linter.unusedSimpArgs false

namespace Optax
open Finset

/-- params of the right structure, every leaf of rank at least one without empty axes -/
def RankedParams {α : Type} (σ : Spec) (pp : Option (Params α)) : Prop :=
  (∀ s ∈ σ.leaves, s ≠ [] ∧ ∀ d ∈ s, 0 < d) ∧ WithParams σ pp

section
variable {α : Type} [Field α] [JOps α]

theorem preserves_scaleBySM3 (b1 b2 eps : α) :
    Preserves (fun σ _ => ∀ s ∈ σ.leaves, s ≠ [] ∧ ∀ d ∈ s, 0 < d) (scaleBySM3 b1 b2 eps) := by
  intro σ
  refine ⟨fun s => ∃ M ν, s = sm3State σ M ν, fun p => ⟨_, sm3_init_mk σ p b1 b2 eps, _, _, rfl⟩, ?_⟩
  rintro g s pp ⟨M, ν, rfl⟩ hσ
  exact ⟨_, _, sm3_update_mk σ hσ g M ν pp b1 b2 eps, _, _, rfl⟩

theorem preserves_sm3 (lr b1 : α) :
    Preserves (fun σ _ => ∀ s ∈ σ.leaves, s ≠ [] ∧ ∀ d ∈ s, 0 < d) (sm3 lr b1) := by
  refine Preserves.chain _ ?_
  intro t ht
  simp only [List.mem_cons, List.mem_nil_iff, or_false] at ht
  rcases ht with rfl | rfl
  · exact preserves_scaleBySM3 _ _ _
  · exact (preserves_scale _).any

/-- **C05** `scale_by_sm3` and `sm3`, on the trees they support (leaves of rank at least one, no empty axis): with or without
params, however long the history, every update has the structure and shapes of the gradients. -/
theorem C05_sm3 (b1 b2 eps lr : α) (σ : Spec) (hσ : ∀ s ∈ σ.leaves, s ≠ [] ∧ ∀ d ∈ s, 0 < d) (N : ℕ) (p0 : ℕ → ℕ → α)
    (g : ℕ → ℕ → ℕ → α) (pp : ℕ → Option (Params α)) :
    (∃ U : ℕ → ℕ → ℕ → α, (scaleBySM3 b1 b2 eps).outs (mk σ p0) (hist σ g pp N) =
      .ok ((List.range N).map (fun n => mk σ (U n)))) ∧
    ∃ U : ℕ → ℕ → ℕ → α, (sm3 lr b1).outs (mk σ p0) (hist σ g pp N) = .ok ((List.range N).map (fun n => mk σ (U n))) :=
  ⟨(preserves_scaleBySM3 b1 b2 eps).outs σ N p0 g pp (fun _ => hσ), (preserves_sm3 lr b1).outs σ N p0 g pp (fun _ => hσ)⟩
end

/-! ## the accumulators -/

/-- an entry's accumulator grows by at least the squared gradient -/
theorem SM3Leaf.grows {s : List ℕ} {g : ℕ → ℕ → ℝ} {M : ℕ → ℕ → ℕ → ℝ} {acc : ℕ → ℕ → ℝ}
    (h : SM3Leaf 1 s g M acc) (t j : ℕ) (hj : j < s.prod) : acc t j + g (t + 1) j ^ 2 ≤ acc (t + 1) j := by
  obtain ⟨m, hm, ha⟩ := h.entry (t + 1) j hj
  obtain ⟨i, hi, rfl⟩ := hm.1
  have := (h.axis t i hi _ (coordAt_lt s i j hi hj)).2 ⟨j, hj, rfl, rfl⟩
  rw [ha, if_pos rfl]
  linarith

/-- and it never exceeds the sum over time of the largest squared gradient in its slice, for any axis -/
theorem SM3Leaf.slice {s : List ℕ} {g : ℕ → ℕ → ℝ} {M : ℕ → ℕ → ℕ → ℝ} {acc : ℕ → ℕ → ℝ}
    (h : SM3Leaf 1 s g M acc) (i : ℕ) (hi : i < s.length) (r : ℕ) (hr : r < s.getD i 1) (B : ℕ → ℝ) (t : ℕ)
    (hB : ∀ τ ≤ t, ∀ j < s.prod, coordAt s i j = r → |g τ j| ≤ B τ) :
    ∀ j < s.prod, coordAt s i j = r → acc t j ≤ ∑ τ ∈ range (t + 1), B τ ^ 2 := by
  have step : ∀ t, (∀ j < s.prod, coordAt s i j = r → |g t j| ≤ B t) → ∀ j < s.prod, coordAt s i j = r →
      acc t j ≤ B t ^ 2 + M t i r := by
    intro t hB j hj hc
    obtain ⟨m, hm, ha⟩ := h.entry t j hj
    have h1 := hm.2 ⟨i, hi, rfl⟩
    rw [hc] at h1
    have h2 := abs_le.mp (hB j hj hc)
    have h3 : g t j ^ 2 ≤ B t ^ 2 := sq_le_sq' h2.1 h2.2
    rw [ha, if_pos rfl]
    linarith
  have main : ∀ t, (∀ τ < t, ∀ j < s.prod, coordAt s i j = r → |g τ j| ≤ B τ) → M t i r ≤ ∑ τ ∈ range t, B τ ^ 2 := by
    intro t
    induction t with
    | zero => intro _; rw [h.start]; simp
    | succ t ih =>
      intro hB
      obtain ⟨j, hj, hc, he⟩ := (h.axis t i hi r hr).1
      have h1 := step t (hB t (by omega)) j hj hc
      have h2 := ih (fun τ hτ => hB τ (by omega))
      rw [he, Finset.sum_range_succ]
      linarith
  intro j hj hc
  have h1 := step t (hB t le_rfl) j hj hc
  have h2 := main t (fun τ hτ => hB τ hτ.le)
  rw [Finset.sum_range_succ]
  linarith

/-! ## the scalar recurrence -/

theorem sm3_scalar (η e q D : ℝ) (hη : 0 < η) (he : 0 ≤ e) (x g ν : ℕ → ℝ) (hν0 : ν 0 = 0)
    (hν : ∀ n, ν n + g n ^ 2 ≤ ν (n + 1)) (N : ℕ)
    (hx : ∀ n < N, x (n + 1) = x n - η * (g n / Real.sqrt (ν (n + 1) + e)))
    (hD : ∀ n < N, |x n - q| ≤ D) (h0 : |x 0 - q| ≤ D) :
    ∑ n ∈ range N, g n * (x n - q) + Real.sqrt (ν N + e) * (x N - q) ^ 2 / (2 * η) ≤
      (D ^ 2 / (2 * η) + η) * Real.sqrt (ν N + e) := by
  have hnn : ∀ n, 0 ≤ ν n := by
    intro n
    induction n with
    | zero => rw [hν0]
    | succ n ih => nlinarith [hν n, sq_nonneg (g n)]
  induction N with
  | zero =>
    simp only [Finset.range_zero, Finset.sum_empty, zero_add]
    have h1 : (x 0 - q) ^ 2 ≤ D ^ 2 := sq_le_sq' (by linarith [(abs_le.mp h0).1]) (abs_le.mp h0).2
    have h2 := Real.sqrt_nonneg (ν 0 + e)
    have h3 : (x 0 - q) ^ 2 / (2 * η) ≤ D ^ 2 / (2 * η) := div_le_div_of_nonneg_right h1 (by positivity)
    have : (x 0 - q) ^ 2 / (2 * η) ≤ D ^ 2 / (2 * η) + η := by linarith
    calc _ = (x 0 - q) ^ 2 / (2 * η) * Real.sqrt (ν 0 + e) := by ring
      _ ≤ _ := mul_le_mul_of_nonneg_right this h2
  | succ N ih =>
    have ih' := ih (fun n hn => hx n (by omega)) (fun n hn => hD n (by omega))
    rw [Finset.sum_range_succ _ N]
    set S := Real.sqrt (ν N + e) with hS
    set S' := Real.sqrt (ν (N + 1) + e) with hS'
    have hSS : S ^ 2 + g N ^ 2 ≤ S' ^ 2 := by
      rw [hS, hS', Real.sq_sqrt (by linarith [hnn N]), Real.sq_sqrt (by linarith [hnn (N + 1)])]
      linarith [hν N]
    have hS0 : 0 ≤ S := Real.sqrt_nonneg _
    have hS0' : 0 ≤ S' := Real.sqrt_nonneg _
    have hle : S ≤ S' := by nlinarith [sq_nonneg (g N)]
    have hxN := hx N (by omega)
    have hd : (x N - q) ^ 2 ≤ D ^ 2 := by
      have := hD N (by omega)
      exact sq_le_sq' (by linarith [(abs_le.mp this).1]) (abs_le.mp this).2
    have hstep : g N * (x N - q) + S' * (x (N + 1) - q) ^ 2 / (2 * η) = S' * (x N - q) ^ 2 / (2 * η) + η / 2 * (g N ^ 2 / S') := by
      rw [hxN, ← hS']
      rcases hS0'.eq_or_lt with h | h
      · have hg : g N = 0 := by
          rw [← h] at hSS
          nlinarith [sq_nonneg (g N), sq_nonneg S]
        simp [← h, hg]
      · field_simp
        ring
    have hq : g N ^ 2 / S' ≤ 2 * (S' - S) := by
      rcases hS0'.eq_or_lt with h | h
      · rw [← h]; simp; linarith
      · rw [div_le_iff₀ h]; nlinarith
    have h5 : (S' - S) * (x N - q) ^ 2 / (2 * η) ≤ (S' - S) * D ^ 2 / (2 * η) :=
      div_le_div_of_nonneg_right (mul_le_mul_of_nonneg_left hd (by linarith)) (by positivity)
    have h6 : η / 2 * (g N ^ 2 / S') ≤ η / 2 * (2 * (S' - S)) := mul_le_mul_of_nonneg_left hq (by positivity)
    have e1 : (S' - S) * (x N - q) ^ 2 / (2 * η) = S' * (x N - q) ^ 2 / (2 * η) - S * (x N - q) ^ 2 / (2 * η) := by ring
    have e2 : (D ^ 2 / (2 * η) + η) * S' = (D ^ 2 / (2 * η) + η) * S + (S' - S) * D ^ 2 / (2 * η) + η / 2 * (2 * (S' - S)) := by
      ring
    rw [e2]
    linarith

variable (σ : Spec)

/-- **C116 (regret of SM3).** Training with `sm3(η, momentum=0)` on any sequence of convex losses, on any tree of leaves of rank at
least one: the accumulators it keeps follow the SM3 recursion on the gradients met, and as long as the iterates stay within `D` of `q` in
every coordinate, the regret with respect to `q` is at most `(D²/(2η) + η) Σ_x √(acc_N(x) + 1e-8)`. -/
theorem C116_regret (η : ℝ) (hη : 0 < η) (hσ : ∀ s ∈ σ.leaves, s ≠ [] ∧ ∀ d ∈ s, 0 < d) (loss : ℕ → Params ℝ → ℝ)
    (grad : ℕ → Params ℝ → Params ℝ) (G : ℕ → (ℕ → ℕ → ℝ) → ℕ → ℕ → ℝ)
    (hg : ∀ n p, grad n (mk σ p) = mk σ (G n p)) (hconv : ∀ n, StronglyConvex σ 0 (loss n) (G n)) (p0 q : ℕ → ℕ → ℝ) :
    ∃ (P : ℕ → ℕ → ℕ → ℝ) (M : ℕ → ℕ → ℕ → ℕ → ℝ) (acc : ℕ → ℕ → ℕ → ℝ), P 0 = p0 ∧ Visits (sm3 η 0) grad σ P ∧
      (∀ k s, σ.leaves[k]? = some s → SM3Leaf 1 s (fun t j => G t (P t) k j) (fun t => M t k) (fun t => acc t k)) ∧
      ∀ N D, (∀ n ≤ N, ∀ x ∈ idx σ, |P n x.1 x.2 - q x.1 x.2| ≤ D) →
        ∑ n ∈ range (N + 1), (loss n (mk σ (P n)) - loss n (mk σ q)) ≤
          (D ^ 2 / (2 * η) + η) * ∑ x ∈ idx σ, Real.sqrt (acc N x.1 x.2 + 1e-8) := by
  obtain ⟨P, U, h0, hP, hv, hU⟩ := exists_visits_of σ (sm3 η 0) (preserves_sm3 η 0) (fun _ => hσ) grad G hg p0
  obtain ⟨M, acc, hL, hout⟩ := C35_recursion σ hσ 0 1 (JOps.ofRat (1 / 10 ^ 8)) p0 (fun n => G n (P n)) (fun n => some (mk σ (P n)))
  refine ⟨P, M, acc, h0, hv, hL, fun N D hD => ?_⟩
  have e8 : (JOps.ofRat (1 / 10 ^ 8) : ℝ) = 1e-8 := by simp; norm_num
  have hUx : ∀ n, ∀ x ∈ idx σ, P (n + 1) x.1 x.2 = P n x.1 x.2 -
      η * (G n (P n) x.1 x.2 / Real.sqrt (acc n x.1 x.2 + 1e-8)) := by
    intro n x hx
    obtain ⟨s, h1, h2⟩ := mem_idx.mp hx
    obtain ⟨ν, hν⟩ := hout (n + 1)
    have hlr := outs_chain_hist_lr (scaleBySM3 0 1 (JOps.ofRat (1 / 10 ^ 8))) (.scalar η) (mk σ p0) σ _ _ _ (n + 1)
      (by rw [GT.outs, hν]; rfl)
    have hlr' := (hU (n + 1)).symm.trans hlr
    injection hlr' with hlr'
    have h3 := List.map_inj_left.mp hlr' n (List.mem_range.mpr (by omega))
    have h4 := mk_inj h3 x.1 s h1 x.2 h2
    rw [hP, h4]
    simp only [LR.at, e8]
    rw [geoSum_succ]
    have hn := (hL x.1 s h1).nonneg n x.2 h2
    by_cases hpos : 0 < acc n x.1 x.2
    · rw [if_pos hpos]; ring
    · have hz : acc n x.1 x.2 = 0 := le_antisymm (not_lt.mp hpos) hn
      have h5 := ((hL x.1 s h1).dominates n x.2 h2).2
      rw [hz] at h5
      have h6 : ∑ τ ∈ range (n + 1), G τ (P τ) x.1 x.2 ^ 2 = 0 :=
        le_antisymm h5 (Finset.sum_nonneg fun _ _ => sq_nonneg _)
      have h7 := (Finset.sum_eq_zero_iff_of_nonneg (fun _ _ => sq_nonneg _)).mp h6 n (by simp)
      have h8 : G n (P n) x.1 x.2 = 0 := by simpa using h7
      rw [h8]; simp
  calc ∑ n ∈ range (N + 1), (loss n (mk σ (P n)) - loss n (mk σ q))
      ≤ ∑ n ∈ range (N + 1), ∑ x ∈ idx σ, G n (P n) x.1 x.2 * (P n x.1 x.2 - q x.1 x.2) := by
        refine Finset.sum_le_sum fun n _ => ?_
        have h1 := hconv n (P n) q
        rw [zero_div, zero_mul, add_zero] at h1
        have h2 : treeInner σ (G n (P n)) (fun k i => q k i - P n k i) =
            -∑ x ∈ idx σ, G n (P n) x.1 x.2 * (P n x.1 x.2 - q x.1 x.2) := by
          unfold treeInner
          rw [← Finset.sum_neg_distrib]
          exact Finset.sum_congr rfl fun x _ => by ring
        linarith
    _ = ∑ x ∈ idx σ, ∑ n ∈ range (N + 1), G n (P n) x.1 x.2 * (P n x.1 x.2 - q x.1 x.2) := Finset.sum_comm
    _ ≤ ∑ x ∈ idx σ, (D ^ 2 / (2 * η) + η) * Real.sqrt (acc N x.1 x.2 + 1e-8) := by
        refine Finset.sum_le_sum fun x hx => ?_
        obtain ⟨s, h1, h2⟩ := mem_idx.mp hx
        let ν : ℕ → ℝ := fun n => match n with
          | 0 => 0
          | n + 1 => acc n x.1 x.2
        have := sm3_scalar η 1e-8 (q x.1 x.2) D hη (by norm_num) (fun n => P n x.1 x.2)
          (fun n => G n (P n) x.1 x.2) ν rfl (fun n => by
            cases n with
            | zero =>
              have := ((hL x.1 s h1).dominates 0 x.2 h2).2
              simp only [zero_add, Finset.sum_range_one] at this
              show 0 + _ ≤ acc 0 x.1 x.2
              rw [zero_add]; exact this
            | succ n => exact (hL x.1 s h1).grows n x.2 h2) (N + 1) (fun n _ => hUx n x hx)
          (fun n hn => hD n (by omega) x hx) (hD 0 (by omega) x hx)
        have h3 : 0 ≤ Real.sqrt (acc N x.1 x.2 + 1e-8) * (P (N + 1) x.1 x.2 - q x.1 x.2) ^ 2 / (2 * η) := by
          positivity
        have h4 : ν (N + 1) = acc N x.1 x.2 := rfl
        simp only [h4] at this
        linarith
    _ = _ := by rw [Finset.mul_sum]

/-- **C116 (in terms of the gradients).** For any choice of an axis `ax x` for every entry and any bounds `B x t` on the gradient at
step `t` throughout the slice of `x` along that axis, the regret is at most `(D²/(2η) + η) Σ_x √(Σ_t B(x,t)² + 1e-8)`: the memory SM3
saves costs no more than replacing every gradient entry by the largest of its slice. -/
theorem C116_slices (η : ℝ) (hη : 0 < η) (hσ : ∀ s ∈ σ.leaves, s ≠ [] ∧ ∀ d ∈ s, 0 < d) (loss : ℕ → Params ℝ → ℝ)
    (grad : ℕ → Params ℝ → Params ℝ) (G : ℕ → (ℕ → ℕ → ℝ) → ℕ → ℕ → ℝ)
    (hg : ∀ n p, grad n (mk σ p) = mk σ (G n p)) (hconv : ∀ n, StronglyConvex σ 0 (loss n) (G n)) (p0 q : ℕ → ℕ → ℝ) :
    ∃ P : ℕ → ℕ → ℕ → ℝ, P 0 = p0 ∧ Visits (sm3 η 0) grad σ P ∧
      ∀ N D (ax : ℕ → ℕ → ℕ) (B : ℕ → ℕ → ℕ → ℝ), (∀ n ≤ N, ∀ x ∈ idx σ, |P n x.1 x.2 - q x.1 x.2| ≤ D) →
        (∀ k s, σ.leaves[k]? = some s → ∀ j < s.prod, ax k j < s.length ∧ ∀ n ≤ N, ∀ j' < s.prod,
          coordAt s (ax k j) j' = coordAt s (ax k j) j → |G n (P n) k j'| ≤ B k j n) →
        ∑ n ∈ range (N + 1), (loss n (mk σ (P n)) - loss n (mk σ q)) ≤
          (D ^ 2 / (2 * η) + η) * ∑ x ∈ idx σ, Real.sqrt (∑ n ∈ range (N + 1), B x.1 x.2 n ^ 2 + 1e-8) := by
  obtain ⟨P, M, acc, h0, hv, hL, h⟩ := C116_regret σ η hη hσ loss grad G hg hconv p0 q
  refine ⟨P, h0, hv, fun N D ax B hD hB => (h N D hD).trans ?_⟩
  refine mul_le_mul_of_nonneg_left (Finset.sum_le_sum fun x hx => Real.sqrt_le_sqrt ?_) (by positivity)
  obtain ⟨s, h1, h2⟩ := mem_idx.mp hx
  obtain ⟨h3, h4⟩ := hB x.1 s h1 x.2 h2
  have := (hL x.1 s h1).slice (ax x.1 x.2) h3 _ (coordAt_lt s _ x.2 h3 h2) (B x.1 x.2) N h4 x.2 h2 rfl
  linarith

/-- **C116 (sublinear regret).** With gradient entries bounded by `B`, the regret after `N + 1` steps is at most
`(D²/(2η) + η) · size · √((N + 1) B² + 1e-8)`. -/
theorem C116_sublinear (η : ℝ) (hη : 0 < η) (hσ : ∀ s ∈ σ.leaves, s ≠ [] ∧ ∀ d ∈ s, 0 < d) (loss : ℕ → Params ℝ → ℝ)
    (grad : ℕ → Params ℝ → Params ℝ) (G : ℕ → (ℕ → ℕ → ℝ) → ℕ → ℕ → ℝ)
    (hg : ∀ n p, grad n (mk σ p) = mk σ (G n p)) (hconv : ∀ n, StronglyConvex σ 0 (loss n) (G n)) (p0 q : ℕ → ℕ → ℝ)
    (B : ℝ) (hB : ∀ n p k i, |G n p k i| ≤ B) :
    ∃ P : ℕ → ℕ → ℕ → ℝ, P 0 = p0 ∧ Visits (sm3 η 0) grad σ P ∧
      ∀ N D, (∀ n ≤ N, ∀ x ∈ idx σ, |P n x.1 x.2 - q x.1 x.2| ≤ D) →
        ∑ n ∈ range (N + 1), (loss n (mk σ (P n)) - loss n (mk σ q)) ≤
          (D ^ 2 / (2 * η) + η) * ((idx σ).card * Real.sqrt ((N + 1) * B ^ 2 + 1e-8)) := by
  obtain ⟨P, h0, hv, h⟩ := C116_slices σ η hη hσ loss grad G hg hconv p0 q
  refine ⟨P, h0, hv, fun N D h1 => (h N D (fun _ _ => 0) (fun _ _ _ => B) h1 ?_).trans ?_⟩
  · intro k s hk j hj
    exact ⟨List.length_pos_iff.mpr (hσ s (List.mem_of_getElem? hk)).1, fun n _ j' _ _ => hB n (P n) k j'⟩
  · simp

/-- Non-vacuity: on a `2 × 3` matrix the linear losses with alternating gradients are convex and their gradients bounded by one, and
the matrix is a tree SM3 supports. -/
example : (∀ n : ℕ, StronglyConvex (.leaf [2, 3]) 0 (fun t => (-1) ^ n * coord t 0 4) (fun _ k i => if k = 0 ∧ i = 4 then (-1) ^ n else 0)) ∧
    (∀ n : ℕ, |((-1) ^ n : ℝ)| ≤ 1) ∧ ∀ s ∈ (PyTree.leaf [2, 3] : Spec).leaves, s ≠ [] ∧ ∀ d ∈ s, 0 < d := by
  refine ⟨fun n p q => ?_, fun n => by simp, by decide⟩
  have e : ∀ v : ℕ → ℕ → ℝ, coord (mk (.leaf [2, 3]) v) 0 4 = v 0 4 := fun v => coord_mk _ _ 0 4 [2, 3] rfl (by decide)
  have hm : (⟨0, 4⟩ : (_ : ℕ) × ℕ) ∈ idx (.leaf [2, 3] : Spec) := mem_idx.mpr ⟨[2, 3], rfl, by decide⟩
  have hs : treeInner (.leaf [2, 3]) (fun k i => if k = 0 ∧ i = 4 then ((-1) ^ n : ℝ) else 0) (fun k i => q k i - p k i) =
      (-1) ^ n * (q 0 4 - p 0 4) := by
    unfold treeInner
    rw [Finset.sum_eq_single_of_mem _ hm]
    · simp
    · rintro ⟨a, b⟩ _ hne
      have : ¬ (a = 0 ∧ b = 4) := fun h => hne (by rw [h.1, h.2])
      simp [this]
  simp only [e, hs]
  linarith

end Optax
