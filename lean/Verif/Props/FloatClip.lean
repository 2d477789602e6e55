import Verif.Lemmas.FloatErr
import Verif.Props.FloatSgd
import Verif.Props.FloatExact
import Verif.Props.Clipping
import Mathlib.Analysis.SpecialFunctions.Exponential

/-!
# C125: `global_norm` and `clip_by_global_norm` in floating point
-/

set_option linter.unusedSectionVars false

namespace Optax
open FP Classical
variable (σ : Spec) {F : Format}

/-- a rounded sum of non-negative terms -/
theorem float_sum {u η M : ℝ} (hF : ErrModel F u η M) (hu : 0 ≤ u) (hη : 0 ≤ η) {ρ ζ : ℝ} (hρ : 0 ≤ ρ) (hζ : 0 ≤ ζ) {ι : Type}
    (l : List ι) (a : ι → FP F) (A : ι → ℝ) (hA : ∀ i ∈ l, 0 ≤ A i)
    (ha : ∀ i ∈ l, ∃ v, (a i).1 = .fin v ∧ |v - A i| ≤ ρ * A i + ζ)
    (hM : (1 + u) ^ l.length * ((1 + ρ) * (l.map A).sum + l.length * (ζ + η)) ≤ M) :
    ∃ s, ((l.map a).sum).1 = .fin s ∧
      |s - (l.map A).sum| ≤ ((1 + u) ^ l.length * (1 + ρ) - 1) * (l.map A).sum + l.length * (1 + u) ^ l.length * (ζ + η) := by
  induction l with
  | nil => exact ⟨0, by simp, by simp⟩
  | cons i l ih =>
    have hA0 : 0 ≤ A i := hA i (by simp)
    have hT : 0 ≤ (l.map A).sum := List.sum_nonneg (by
      intro x hx; obtain ⟨j, hj, rfl⟩ := List.mem_map.1 hx; exact hA j (by simp [hj]))
    simp only [List.map_cons, List.sum_cons, List.length_cons] at hM ⊢
    push_cast at hM ⊢
    generalize hTT : (l.map A).sum = T at *
    have hp : 1 ≤ (1 + u) ^ l.length := one_le_pow₀ (by linarith)
    rw [pow_succ] at hM ⊢
    generalize (1 + u) ^ l.length = P at *
    have hn : (0 : ℝ) ≤ (l.length : ℝ) := Nat.cast_nonneg _
    generalize (l.length : ℝ) = n at *
    have hX0 : 0 ≤ (1 + ρ) * T + n * (ζ + η) := by positivity
    have hY0 : 0 ≤ (1 + ρ) * A i + (ζ + η) := by positivity
    have hMM : P * ((1 + ρ) * T + n * (ζ + η)) + ((1 + ρ) * A i + (ζ + η)) ≤ M := by
      refine _root_.le_trans ?_ hM
      have h1 : P * ((1 + ρ) * T + n * (ζ + η)) + 1 * ((1 + ρ) * A i + (ζ + η)) ≤
          P * ((1 + ρ) * T + n * (ζ + η)) + P * ((1 + ρ) * A i + (ζ + η)) := by
        have := mul_le_mul_of_nonneg_right hp hY0
        linarith
      have h2 : P * 1 * ((1 + ρ) * (A i + T) + (n + 1) * (ζ + η)) ≤ P * (1 + u) * ((1 + ρ) * (A i + T) + (n + 1) * (ζ + η)) := by
        have : 0 ≤ (1 + ρ) * (A i + T) + (n + 1) * (ζ + η) := by positivity
        have := mul_le_mul_of_nonneg_left (show (1 : ℝ) ≤ 1 + u by linarith) (show (0 : ℝ) ≤ P by linarith)
        nlinarith
      nlinarith
    obtain ⟨s, hs, hse⟩ := ih (fun j hj => hA j (by simp [hj])) (fun j hj => ha j (by simp [hj])) (by linarith)
    obtain ⟨v, hv, hve⟩ := ha i (by simp)
    have hsz : |v + s| ≤ P * ((1 + ρ) * T + n * (ζ + η)) + ((1 + ρ) * A i + ζ) := by
      have h1 := abs_sub_abs_le_abs_sub v (A i)
      have h2 := abs_sub_abs_le_abs_sub s T
      rw [abs_of_nonneg hA0] at h1
      rw [abs_of_nonneg hT] at h2
      have h3 := abs_add_le v s
      nlinarith
    obtain ⟨r, hr, hre⟩ := hF (v + s) (by linarith)
    refine ⟨r, ?_, ?_⟩
    · rw [add_val, hv, hs, XReal.fin_add]; exact hr
    · have e : r - (A i + T) = (r - (v + s)) + (v - A i) + (s - T) := by ring
      rw [e]
      have h1 := abs_add_le (r - (v + s) + (v - A i)) (s - T)
      have h2 := abs_add_le (r - (v + s)) (v - A i)
      have h3 := mul_le_mul_of_nonneg_left hsz hu
      -- (P(1+u)(1+ρ) - 1)(A+T) + (n+1) P(1+u)(ζ+η)
      have h4 : 0 ≤ (P - 1) * ((1 + u) * ((1 + ρ) * A i + (ζ + η))) :=
        _root_.mul_nonneg (by linarith) (by positivity)
      have h5 : 0 ≤ u * η := by positivity
      nlinarith

/-- number of leaves plus number of entries: bounds the number of additions an entry goes through -/
def sumDepth : ℕ := numEntries σ + σ.numLeaves + 1

theorem pow_one_add_le {u : ℝ} (hu : 0 ≤ u) {D : ℕ} (hD : D * u ≤ 1 / 2) : (1 + u) ^ D ≤ 1 + 2 * (D * u) := by
  have h1 : (1 + u) ^ D ≤ Real.exp (D * u) := by
    rw [Real.exp_nat_mul]
    exact pow_le_pow_left₀ (by linarith) (by linarith [Real.add_one_le_exp u]) D
  have h0 : 0 ≤ D * u := by positivity
  have h2 := Real.abs_exp_sub_one_sub_id_le (x := D * u) (by rw [abs_of_nonneg h0]; linarith)
  have h3 := (abs_le.1 h2).2
  nlinarith

theorem mapIdx_range {γ δ : Type} (l : List γ) (f : ℕ → γ → δ) (d : γ) :
    l.mapIdx f = (List.range l.length).map fun k => f k ((l[k]?).getD d) := by
  apply List.ext_getElem
  · simp
  · intro i h1 h2
    simp only [List.length_mapIdx] at h1
    simp [List.getElem?_eq_getElem h1]

/-- the computed sum of squares of a tree -/
def sumSq {α : Type} [Zero α] [Add α] [Mul α] (t : Params α) : α := (t.leaves.map (fun x => (x.map (fun y => y * y)).sum)).sum

theorem sumSq_mk {α : Type} [Zero α] [Add α] [Mul α] (g : ℕ → ℕ → α) :
    sumSq (mk σ g) = ((List.range σ.numLeaves).map fun k => ((List.range (σ.size k)).map fun i => g k i * g k i).sum).sum := by
  unfold sumSq
  rw [mk_leaves, map_mapIdx_list, mapIdx_range _ _ ([] : List ℕ), PyTree.leaves_length]
  congr 1
  apply List.map_congr_left
  intro k hk
  rw [List.mem_range, ← PyTree.leaves_length] at hk
  simp [Tensor.map, Tensor.sum, Tensor.tens, Spec.size, List.getElem?_eq_getElem hk, List.map_map, Function.comp_def]

theorem entryNorm_sq (x : ℕ → ℕ → ℝ) :
    entryNorm σ x ^ 2 = ((List.range σ.numLeaves).map fun k => ((List.range (σ.size k)).map fun i => x k i ^ 2).sum).sum := by
  unfold entryNorm l2 idx
  rw [Real.sq_sqrt (Finset.sum_nonneg fun _ _ => _root_.sq_nonneg _), Finset.sum_sigma, sum_map_range]
  exact Finset.sum_congr rfl fun k _ => (sum_map_range _ _).symm

theorem size_le_numEntries {k : ℕ} (hk : k < σ.numLeaves) : σ.size k ≤ numEntries σ := by
  unfold numEntries idx
  rw [Finset.card_sigma]
  simp only [Finset.card_range]
  exact Finset.single_le_sum (f := fun k => σ.size k) (fun _ _ => Nat.zero_le _) (Finset.mem_range.2 hk)

theorem float_sumsq {u η M : ℝ} (hF : ErrModel F u η M) (hu : 0 ≤ u) (hη : 0 ≤ η) (hD : sumDepth σ * u ≤ 1 / 2)
    (g : ℕ → ℕ → FP F) (x : ℕ → ℕ → ℝ) (hg : Reads σ g x)
    (hM : 2 * entryNorm σ x ^ 2 + σ.numLeaves * (4 * numEntries σ + 2) * η ≤ M) :
    ∃ s, (sumSq (mk σ g)).1 = .fin s ∧
      |s - entryNorm σ x ^ 2| ≤ 2 * (sumDepth σ * u) * entryNorm σ x ^ 2 + σ.numLeaves * (4 * numEntries σ + 2) * η := by
  have hpow := pow_one_add_le hu hD
  have hP2 : (1 + u) ^ sumDepth σ ≤ 2 := by linarith
  have h1u : 1 ≤ 1 + u := by linarith
  set n := numEntries σ with hn
  set L := σ.numLeaves with hL
  have hdep : sumDepth σ = n + L + 1 := rfl
  rw [hdep] at hpow hP2
  have mono : ∀ {a : ℕ}, a ≤ n + L + 1 → (1 + u) ^ a ≤ 2 := fun h => (pow_le_pow_right₀ h1u h).trans hP2
  have hn0 : (0 : ℝ) ≤ n := Nat.cast_nonneg _
  have hL0 : (0 : ℝ) ≤ L := Nat.cast_nonneg _
  rw [sumSq_mk, entryNorm_sq] at *
  rw [← hL] at *
  have hSk : ∀ k, 0 ≤ ((List.range (σ.size k)).map fun i => x k i ^ 2).sum := fun k => List.sum_nonneg (by
    intro y hy; obtain ⟨j, -, rfl⟩ := List.mem_map.1 hy; exact _root_.sq_nonneg _)
  have hS : ∀ k ∈ List.range L, ((List.range (σ.size k)).map fun i => x k i ^ 2).sum ≤
      ((List.range L).map fun k => ((List.range (σ.size k)).map fun i => x k i ^ 2).sum).sum := fun k hk =>
    List.single_le_sum (by intro y hy; obtain ⟨j, -, rfl⟩ := List.mem_map.1 hy; exact hSk j) _ (List.mem_map.2 ⟨k, hk, rfl⟩)
  set S := ((List.range L).map fun k => ((List.range (σ.size k)).map fun i => x k i ^ 2).sum).sum with hSdef
  have hS0 : 0 ≤ S := List.sum_nonneg (by intro y hy; obtain ⟨j, -, rfl⟩ := List.mem_map.1 hy; exact hSk j)
  -- leaves
  have leaf : ∀ k ∈ List.range L, ∃ v, (((List.range (σ.size k)).map fun i => g k i * g k i).sum).1 = .fin v ∧
      |v - ((List.range (σ.size k)).map fun i => x k i ^ 2).sum| ≤
        ((1 + u) ^ (n + 1) - 1) * ((List.range (σ.size k)).map fun i => x k i ^ 2).sum + n * (1 + u) ^ n * (2 * η) := by
    intro k hk
    have hkL := List.mem_range.1 hk
    have hsz : σ.size k ≤ n := size_le_numEntries σ hkL
    have hL1 : (1 : ℝ) ≤ L := by exact_mod_cast (show 1 ≤ L by omega)
    have hszR : ((σ.size k : ℕ) : ℝ) ≤ n := by exact_mod_cast hsz
    have hsz0 : (0 : ℝ) ≤ ((σ.size k : ℕ) : ℝ) := Nat.cast_nonneg _
    have hx2 : ∀ i ∈ List.range (σ.size k), x k i ^ 2 ≤ S := fun i hi =>
      (List.single_le_sum (by intro y hy; obtain ⟨j, -, rfl⟩ := List.mem_map.1 hy; exact _root_.sq_nonneg _) _
        (List.mem_map.2 ⟨i, hi, rfl⟩)).trans (hS k hk)
    have hbig : L * (4 * n + 2) * η ≥ 4 * n * η := by
      have : 0 ≤ (L - 1) * (4 * n + 2) * η + 2 * η :=
        _root_.add_nonneg (_root_.mul_nonneg (_root_.mul_nonneg (by linarith) (by positivity)) hη) (by positivity)
      nlinarith
    have hnη : 0 ≤ n * η := by positivity
    obtain ⟨v, hv, he⟩ := float_sum hF hu hη hu hη (List.range (σ.size k)) (fun i => g k i * g k i) (fun i => x k i ^ 2)
      (fun i _ => _root_.sq_nonneg _) (fun i hi => by
        have hmem : (⟨k, i⟩ : (_ : ℕ) × ℕ) ∈ idx σ := by
          unfold idx; rw [Finset.mem_sigma]; exact ⟨Finset.mem_range.2 hkL, Finset.mem_range.2 (List.mem_range.1 hi)⟩
        obtain ⟨r, hr, hre⟩ := hF (x k i ^ 2) (by rw [abs_of_nonneg (_root_.sq_nonneg _)]; have := hx2 i hi; linarith)
        refine ⟨r, ?_, by rwa [abs_of_nonneg (_root_.sq_nonneg (x k i))] at hre⟩
        rw [mul_val, hg ⟨k, i⟩ hmem, XReal.fin_mul, ← pow_two]; exact hr)
      (by
        rw [List.length_range]
        have h1 : (1 + u) ^ σ.size k * (1 + u) ≤ 2 := by rw [← pow_succ]; exact mono (by omega)
        have h2 : (1 + u) ^ σ.size k ≤ 2 := mono (by omega)
        have h3 := mul_le_mul_of_nonneg_right h1 (hSk k)
        have h4 := hS k hk
        have h5 : (1 + u) ^ σ.size k * (((σ.size k : ℕ) : ℝ) * (η + η)) ≤ 2 * (n * (η + η)) :=
          mul_le_mul h2 (mul_le_mul_of_nonneg_right hszR (by linarith)) (by positivity) (by norm_num)
        nlinarith)
    refine ⟨v, hv, he.trans ?_⟩
    rw [List.length_range, ← pow_succ]
    have h1 : (1 + u) ^ (σ.size k + 1) ≤ (1 + u) ^ (n + 1) := pow_le_pow_right₀ h1u (by omega)
    have h2 : (1 + u) ^ σ.size k ≤ (1 + u) ^ n := pow_le_pow_right₀ h1u hsz
    refine add_le_add (mul_le_mul_of_nonneg_right (by linarith) (hSk k)) ?_
    rw [← two_mul]
    exact mul_le_mul_of_nonneg_right (mul_le_mul hszR h2 (by positivity) hn0) (by linarith)
  have e1 : (1 : ℝ) + ((1 + u) ^ (n + 1) - 1) = (1 + u) ^ (n + 1) := by ring
  have hρ : 0 ≤ (1 + u) ^ (n + 1) - 1 := by have := one_le_pow₀ h1u (n := n + 1); linarith
  have hζ : 0 ≤ n * (1 + u) ^ n * (2 * η) := by positivity
  have hA : (1 + u) ^ L * (1 + u) ^ (n + 1) = (1 + u) ^ (n + L + 1) := by rw [← pow_add]; congr 1; omega
  have hAn : (1 + u) ^ L * (1 + u) ^ n ≤ 2 := by rw [← pow_add]; exact mono (by omega)
  have hAL : (1 + u) ^ L ≤ 2 := mono (by omega)
  have hcon : (1 + u) ^ L * (L * (n * (1 + u) ^ n * (2 * η) + η)) ≤ L * (4 * n + 2) * η := by
    have h1 := mul_le_mul_of_nonneg_right hAn (show 0 ≤ L * (n * (2 * η)) by positivity)
    have h2 := mul_le_mul_of_nonneg_right hAL (show 0 ≤ L * η by positivity)
    nlinarith
  obtain ⟨s, hs, he⟩ := float_sum hF hu hη hρ hζ (List.range L) _ _ (fun k _ => hSk k) leaf (by
    rw [List.length_range, e1, ← hSdef, mul_add, ← mul_assoc, hA]
    have := mul_le_mul_of_nonneg_right hP2 hS0
    linarith)
  refine ⟨s, hs, he.trans ?_⟩
  rw [List.length_range, e1, hA, ← hSdef]
  have h1 := mul_le_mul_of_nonneg_right (show (1 + u) ^ (n + L + 1) - 1 ≤ 2 * (((n + L + 1 : ℕ) : ℝ) * u) by linarith) hS0
  rw [hdep]
  refine add_le_add h1 ?_
  refine _root_.le_trans (le_of_eq ?_) hcon
  ring

/-- the computed norm: the rounded root of the computed sum of squares -/
theorem globalNorm_fp {u η M : ℝ} (hF : ErrModel F u η M) (h1M : 1 ≤ M) (g : ℕ → ℕ → FP F) {s : ℝ} (hs0 : 0 ≤ s) (hsM : s ≤ M)
    (hs : (sumSq (mk σ g)).1 = .fin s) :
    ∃ ν, (globalNorm (mk σ g)).1 = .fin ν ∧ |ν - Real.sqrt s| ≤ u * Real.sqrt s + η := by
  have hr : Real.sqrt s ≤ M := by
    rcases _root_.le_total s 1 with h | h
    · exact (Real.sqrt_le_one.2 h).trans h1M
    · refine _root_.le_trans ?_ hsM
      rw [Real.sqrt_le_left (by linarith)]
      nlinarith
  obtain ⟨ν, hν, he⟩ := hF (Real.sqrt s) (by rwa [abs_of_nonneg (Real.sqrt_nonneg _)])
  rw [abs_of_nonneg (Real.sqrt_nonneg s)] at he
  refine ⟨ν, ?_, he⟩
  show F.round (JOps.sqrt (sumSq (mk σ g)).1) = _
  rw [hs]
  show F.round (if s < 0 then XReal.nan else XReal.fin (Real.sqrt s)) = _
  rw [if_neg (by linarith)]
  exact hν

theorem sqrt_rel {s S e : ℝ} (hs : 0 ≤ s) (hS : 0 ≤ S) (h : |s - S| ≤ e * S) : |Real.sqrt s - Real.sqrt S| ≤ e * Real.sqrt S := by
  have a := Real.sqrt_nonneg s
  have b := Real.sqrt_nonneg S
  have e1 : s - S = (Real.sqrt s - Real.sqrt S) * (Real.sqrt s + Real.sqrt S) := by
    have h1 := Real.mul_self_sqrt hs
    have h2 := Real.mul_self_sqrt hS
    linear_combination (-1 : ℝ) * h1 + h2
  rcases b.eq_or_lt with h0 | h0
  · have : S = 0 := by have := Real.mul_self_sqrt hS; rw [← h0] at this; simpa using this.symm
    rw [this] at h ⊢
    have : s = 0 := by simpa using h
    simp [this]
  · rw [e1, abs_mul, abs_of_nonneg (show 0 ≤ Real.sqrt s + Real.sqrt S by linarith)] at h
    have h2 : |Real.sqrt s - Real.sqrt S| * Real.sqrt S ≤ e * Real.sqrt S * Real.sqrt S := by
      rw [mul_assoc e, Real.mul_self_sqrt hS]
      refine _root_.le_trans ?_ h
      exact mul_le_mul_of_nonneg_left (by linarith) (abs_nonneg _)
    exact le_of_mul_le_mul_right h2 h0

/-- **C125.** `global_norm` of finite gradients in floating point: unless the sum of squares overflows or the norm is so small
that squares underflow, the result has relative error at most `(2 (n + L + 1) + 4) u`, for `n` entries in `L` leaves. -/
theorem C125_global_norm {u η M : ℝ} (hF : ErrModel F u η M) (hu : 0 ≤ u) (hη : 0 ≤ η) (hD : sumDepth σ * u ≤ 1 / 32)
    (g : ℕ → ℕ → FP F) (x : ℕ → ℕ → ℝ) (hg : Reads σ g x) (h1M : 1 ≤ M)
    (hM : 2 * globalNorm (mk σ x) ^ 2 + σ.numLeaves * (4 * numEntries σ + 2) * η ≤ M)
    (hZ : σ.numLeaves * (4 * numEntries σ + 2) * η ≤ u * globalNorm (mk σ x) ^ 2) (hη' : η ≤ u * globalNorm (mk σ x)) :
    ∃ ν, (globalNorm (mk σ g)).1 = .fin ν ∧
      |ν - globalNorm (mk σ x)| ≤ (2 * sumDepth σ + 4) * u * globalNorm (mk σ x) := by
  rw [globalNorm_mk] at hM hZ hη' ⊢
  obtain ⟨s, hs, he⟩ := float_sumsq σ hF hu hη (by linarith) g x hg hM
  have hn0 : 0 ≤ entryNorm σ x := l2_nonneg _ _
  set R := entryNorm σ x with hR
  have hu32 : u ≤ 1 / 32 := by
    have : (1 : ℝ) ≤ (sumDepth σ : ℝ) := by exact_mod_cast (show 1 ≤ sumDepth σ by unfold sumDepth; omega)
    nlinarith
  set D := (sumDepth σ : ℝ) with hDd
  have hRR : 0 ≤ R ^ 2 := by positivity
  have he' : |s - R ^ 2| ≤ ((2 * D + 1) * u) * R ^ 2 := by linarith
  have hk : (2 * D + 1) * u ≤ 3 / 32 := by linarith
  have hb := mul_le_mul_of_nonneg_right hk hRR
  have hs0 : 0 ≤ s := by have := (abs_le.1 he').1; linarith
  have hsM : s ≤ M := by
    have := (abs_le.1 he').2
    have : 0 ≤ σ.numLeaves * (4 * numEntries σ + 2) * η := by positivity
    linarith
  obtain ⟨ν, hν, hνe⟩ := globalNorm_fp σ hF h1M g hs0 hsM hs
  refine ⟨ν, hν, ?_⟩
  have h1 := sqrt_rel hs0 hRR he'
  rw [Real.sqrt_sq hn0] at h1
  have h2 := mul_le_mul_of_nonneg_right hk hn0
  have h3 : Real.sqrt s ≤ 2 * R := by have := (abs_le.1 h1).2; linarith
  have h4 := mul_le_mul_of_nonneg_left h3 hu
  have : ν - R = (ν - Real.sqrt s) + (Real.sqrt s - R) := by ring
  rw [this]
  have h5 := abs_add_le (ν - Real.sqrt s) (Real.sqrt s - R)
  nlinarith

set_option maxHeartbeats 1000000 in
/-- **C125.** `clip_by_global_norm` in floating point: for every tree of finite gradients whose sum of squares does not
overflow, the computed result differs (in Euclidean distance over all entries) from the exactly clipped gradient by at most
`3 κ max_norm`, `κ = (2 (n + L + 1) + 4) u`, plus an underflow term; so its norm is at most `(1 + 3 κ) max_norm`, plus the
underflow term.  No lower bound on the gradient is needed. -/
theorem C125_clip_by_global_norm {u η M : ℝ} (hF : ErrModel F u η M) (hu : 0 ≤ u) (hη : 0 ≤ η) (hη4 : η ≤ 1 / 4) (hD : sumDepth σ * u ≤ 1 / 32)
    (g : ℕ → ℕ → FP F) (x : ℕ → ℕ → ℝ) (hg : Reads σ g x) (c : FP F) {cv : ℝ} (hc : c.1 = .fin cv) (hc0 : 0 < cv)
    (hM : 2 * globalNorm (mk σ x) ^ 2 + σ.numLeaves * (4 * numEntries σ + 2) * η ≤ M) (hcM : 3 * cv + 3 ≤ M)
    (hZ : 16 * (σ.numLeaves * (4 * numEntries σ + 2) * η) ≤ u * cv ^ 2) (hη' : 4 * η ≤ u * cv)
    (s : EmptyState) (pp : Option (Params (FP F))) (pp' : Option (Params ℝ)) :
    ∃ (U : ℕ → ℕ → FP F) (y E : ℕ → ℕ → ℝ),
      (clipByGlobalNorm c).update (mk σ g) s pp = .ok (mk σ U, s) ∧ Reads σ U y ∧
      (clipByGlobalNorm cv).update (mk σ x) s pp' = .ok (mk σ E, s) ∧
      treeDist σ y E ≤ 3 * ((2 * sumDepth σ + 4) * u) * cv + 2 * (cv + 1) * η * Real.sqrt (numEntries σ) ∧
      globalNorm (mk σ y) ≤ (1 + 3 * ((2 * sumDepth σ + 4) * u)) * cv + 2 * (cv + 1) * η * Real.sqrt (numEntries σ) := by
  have h1M : 1 ≤ M := by linarith
  have hR0 : 0 ≤ globalNorm (mk σ x) := C61_nonneg _
  have hRe : globalNorm (mk σ x) = l2 (idx σ) (fun z => x z.1 z.2) := by rw [globalNorm_mk]; rfl
  have hu32 : u ≤ 1 / 32 := by
    have : (1 : ℝ) ≤ (sumDepth σ : ℝ) := by exact_mod_cast (show 1 ≤ sumDepth σ by unfold sumDepth; omega)
    nlinarith
  have hD0 : (1 : ℝ) ≤ (sumDepth σ : ℝ) := by exact_mod_cast (show 1 ≤ sumDepth σ by unfold sumDepth; omega)
  -- it is enough to bound the distance
  suffices H : ∃ (U : ℕ → ℕ → FP F) (y E : ℕ → ℕ → ℝ),
      (clipByGlobalNorm c).update (mk σ g) s pp = .ok (mk σ U, s) ∧ Reads σ U y ∧
      (clipByGlobalNorm cv).update (mk σ x) s pp' = .ok (mk σ E, s) ∧
      treeDist σ y E ≤ 3 * ((2 * sumDepth σ + 4) * u) * cv + 2 * (cv + 1) * η * Real.sqrt (numEntries σ) by
    obtain ⟨U, y, E, h1, h2, h3, h4⟩ := H
    refine ⟨U, y, E, h1, h2, h3, h4, ?_⟩
    obtain ⟨E', h5, h6, -⟩ := C12_clip_by_global_norm cv hc0 σ x s pp'
    have hE : globalNorm (mk σ E) ≤ cv := by
      rw [h5] at h3
      simp only [Except.ok.injEq, Prod.mk.injEq, and_true] at h3
      rw [← h3, h6]; exact min_le_right _ _
    have : globalNorm (mk σ y) ≤ globalNorm (mk σ E) + treeDist σ y E := by
      rw [treeDist_l2, globalNorm_mk, globalNorm_mk]
      unfold entryNorm
      refine _root_.le_trans (le_of_eq (l2_congr _ (h := fun z => E z.1 z.2 + (y z.1 z.2 - E z.1 z.2)) (fun z _ => by ring))) ?_
      exact l2_add_le _ _ _
    linarith
  have hκ1 : (2 * (sumDepth σ : ℝ) + 4) * u ≤ 3 / 16 := by linarith
  have hκ6 : 6 * u ≤ (2 * (sumDepth σ : ℝ) + 4) * u := mul_le_mul_of_nonneg_right (by linarith) hu
  have hκ0 : 0 ≤ (2 * (sumDepth σ : ℝ) + 4) * u := by positivity
  have hDu0 : 0 ≤ (sumDepth σ : ℝ) * u := by positivity
  have hκc : 0 ≤ (2 * (sumDepth σ : ℝ) + 4) * u * cv := by positivity
  have hw0 : 0 ≤ 2 * (cv + 1) * η * Real.sqrt (numEntries σ) := by positivity
  have same : treeDist σ x x = 0 := by rw [treeDist_l2, l2_eq_zero]; intro z _; ring
  by_cases hsmall : globalNorm (mk σ x) < cv / 4
  · -- small gradients: nothing is clipped
    have hM' := hM
    rw [globalNorm_mk] at hM'
    obtain ⟨q, hq, he⟩ := float_sumsq σ hF hu hη (by linarith) g x hg hM'
    rw [← globalNorm_mk] at he
    -- an upper bound for the computed sum is enough; it may even be negative up to rounding, which we exclude first
    have hq0 : 0 ≤ q := by
      have h0 : 0 ≤ sumSq (mk σ g) := by
        rw [sumSq_mk]
        refine sum_nonneg_fp _ fun z hz => ?_
        obtain ⟨k, hk, rfl⟩ := List.mem_map.1 hz
        refine sum_nonneg_fp _ fun z hz => ?_
        obtain ⟨i, hi, rfl⟩ := List.mem_map.1 hz
        refine FP.sq_nonneg ?_
        rw [isNum_iff, hg ⟨k, i⟩ (by
          unfold idx; rw [Finset.mem_sigma]
          exact ⟨Finset.mem_range.2 (List.mem_range.1 hk), Finset.mem_range.2 (List.mem_range.1 hi)⟩)]
        simp
      have := (FP.le_fin zero_val hq).1 h0
      exact this
    have hRR : globalNorm (mk σ x) ^ 2 ≤ cv ^ 2 / 16 := by nlinarith
    have hRR0 : 0 ≤ globalNorm (mk σ x) ^ 2 := by positivity
    have hDu : 2 * ((sumDepth σ : ℝ) * u) * globalNorm (mk σ x) ^ 2 ≤ 1 / 16 * globalNorm (mk σ x) ^ 2 :=
      mul_le_mul_of_nonneg_right (by linarith) hRR0
    have hcv2 : 0 < cv ^ 2 := by positivity
    have hucv : u * cv ^ 2 ≤ 1 / 32 * cv ^ 2 := mul_le_mul_of_nonneg_right hu32 hcv2.le
    have hqb : q ≤ (cv / 3) ^ 2 := by have := (abs_le.1 he).2; nlinarith
    have hqM : q ≤ M := by have := (abs_le.1 he).2; linarith
    obtain ⟨ν, hν, hνe⟩ := globalNorm_fp σ hF h1M g hq0 hqM hq
    have hsq : Real.sqrt q ≤ cv / 3 := by rw [Real.sqrt_le_left (by positivity)]; exact hqb
    have hνc : ν < cv := by
      have h1 := (abs_le.1 hνe).2
      have h2 := mul_le_mul hu32 hsq (Real.sqrt_nonneg _) (by norm_num)
      have h3 : u * cv ≤ 1 / 32 * cv := mul_le_mul_of_nonneg_right hu32 hc0.le
      linarith
    have htrig : JOps.lt (globalNorm (mk σ g)) c = true := (FP.lt_fin hν hc).2 hνc
    refine ⟨g, x, x, ?_, hg, ?_, ?_⟩
    · rw [clipByGlobalNorm_update_mk]; simp [htrig]
    · rw [clipByGlobalNorm_update_mk]
      have : globalNorm (mk σ x) < cv := by linarith
      simp [this]
    · rw [same]; linarith
  · have hbig : cv / 4 ≤ globalNorm (mk σ x) := not_lt.1 hsmall
    have hRR : cv ^ 2 / 16 ≤ globalNorm (mk σ x) ^ 2 := by nlinarith
    obtain ⟨ν, hν, hνe⟩ := C125_global_norm σ hF hu hη hD g x hg h1M hM
      (by have := mul_le_mul_of_nonneg_left hRR hu; linarith) (by have := mul_le_mul_of_nonneg_left hbig hu; linarith)
    generalize hκ : (2 * (sumDepth σ : ℝ) + 4) * u = κ at *
    have hx' : (clipByGlobalNorm cv).update (mk σ x) s pp' =
        .ok (mk σ (fun k i => if globalNorm (mk σ x) < cv then x k i else x k i / globalNorm (mk σ x) * cv), s) := by
      rw [clipByGlobalNorm_update_mk]
      congr 2
      exact mk_congr fun k _ _ i _ => by simp
    generalize hR : globalNorm (mk σ x) = R at *
    have hRpos : 0 < R := by linarith
    have hνlo : R ≤ (1 + 2 * κ) * ν := by
      have := (abs_le.1 hνe).1
      have h2 : (1 - κ) * R ≤ ν := by linarith
      have h3 := mul_le_mul_of_nonneg_left h2 (show 0 ≤ 1 + 2 * κ by linarith)
      have h4 : 0 ≤ κ * (1 - 2 * κ) * R := _root_.mul_nonneg (_root_.mul_nonneg hκ0 (by linarith)) hRpos.le
      nlinarith
    have hνpos : 0 < ν := by
      by_contra h
      have := mul_nonpos_of_nonneg_of_nonpos (show 0 ≤ 1 + 2 * κ by linarith) (not_lt.1 h)
      linarith
    by_cases htr : ν < cv
    · -- the computed norm is below: the gradient itself is returned
      have htrig : JOps.lt (globalNorm (mk σ g)) c = true := (FP.lt_fin hν hc).2 htr
      refine ⟨g, x, _, ?_, hg, hx', ?_⟩
      · rw [clipByGlobalNorm_update_mk]; simp [htrig]
      · by_cases hRc : R < cv
        · simp only [hRc, if_true]
          rw [same]; nlinarith
        · simp only [hRc, if_false]
          have hRc' := not_lt.1 hRc
          rw [treeDist_l2]
          have e : ∀ z ∈ idx σ, x z.1 z.2 - x z.1 z.2 / R * cv = (1 - cv / R) * x z.1 z.2 := fun z _ => by field_simp
          rw [l2_congr _ e, l2_smul, ← hRe, abs_of_nonneg (by rw [sub_nonneg, div_le_one hRpos]; exact hRc')]
          have e2 : (1 - cv / R) * R = R - cv := by field_simp
          rw [e2]
          have h3 := mul_le_mul_of_nonneg_left htr.le (show 0 ≤ 1 + 2 * κ by linarith)
          nlinarith
    · have htr' := not_lt.1 htr
      have htrig : JOps.lt (globalNorm (mk σ g)) c = false := by
        rw [Bool.eq_false_iff]; exact fun h => htr ((FP.lt_fin hν hc).1 h)
      -- the computed quotients
      have hxR : ∀ z ∈ idx σ, |x z.1 z.2| ≤ R := fun z hz => by rw [hRe]; exact abs_le_l2 _ (fun z => x z.1 z.2) hz
      have hquot : ∀ z ∈ idx σ, |x z.1 z.2 / ν| ≤ 2 := fun z hz => by
        rw [abs_div, abs_of_pos hνpos, div_le_iff₀ hνpos]
        have := hxR z hz
        have h3 := mul_le_mul_of_nonneg_right (show 1 + 2 * κ ≤ 2 by linarith) hνpos.le
        linarith
      have r1 : ∀ z ∈ idx σ, ∃ v, (g z.1 z.2 / globalNorm (mk σ g) * c).1 = .fin v ∧
          |v - cv / ν * x z.1 z.2| ≤ 3 * u * (cv / ν) * |x z.1 z.2| + 2 * (cv + 1) * η := by
        intro z hz
        have hq2 := hquot z hz
        obtain ⟨q, hq, hqe⟩ := hF (x z.1 z.2 / ν) (by linarith)
        have e0 : cv / ν * x z.1 z.2 = cv * (x z.1 z.2 / ν) := by ring
        have e1 : cv / ν * |x z.1 z.2| = cv * |x z.1 z.2 / ν| := by rw [abs_div, abs_of_pos hνpos]; ring
        have hqz : (g z.1 z.2 / globalNorm (mk σ g)).1 = .fin q := by
          rw [div_val, hg z hz, hν, XReal.fin_div _ _ hνpos.ne']; exact hq
        rw [mul_assoc (3 * u), e0, e1]
        clear e0 e1 hx' hxR hquot
        generalize x z.1 z.2 / ν = w at *
        have hw : 0 ≤ |w| := abs_nonneg w
        have hqa : |q| ≤ (1 + u) * |w| + η := by
          have := abs_sub_abs_le_abs_sub q w
          linarith
        have huw : u * |w| ≤ 1 / 32 * |w| := mul_le_mul_of_nonneg_right hu32 hw
        have huw0 : 0 ≤ u * |w| := by positivity
        have hq3 : |q| ≤ 3 := by linarith
        have hqc : |q * cv| ≤ 3 * cv := by rw [abs_mul, abs_of_pos hc0]; exact mul_le_mul_of_nonneg_right hq3 hc0.le
        obtain ⟨v, hv, hve⟩ := hF (q * cv) (by linarith)
        refine ⟨v, ?_, ?_⟩
        · rw [mul_val, hqz, hc, XReal.fin_mul]; exact hv
        · have e : v - cv * w = (v - q * cv) + cv * (q - w) := by ring
          rw [e]
          have h1 := abs_add_le (v - q * cv) (cv * (q - w))
          rw [abs_mul cv, abs_of_pos hc0] at h1
          rw [abs_mul, abs_of_pos hc0] at hve
          have h2 := mul_le_mul_of_nonneg_left hqe hc0.le
          have h3 : u * (|q| * cv) ≤ u * (((1 + u) * |w| + η) * cv) :=
            mul_le_mul_of_nonneg_left (mul_le_mul_of_nonneg_right hqa hc0.le) hu
          have h4 : 0 ≤ cv * (u * |w|) := by positivity
          have h5 : u * (cv * (u * |w|)) ≤ 1 / 32 * (cv * (u * |w|)) := mul_le_mul_of_nonneg_right hu32 h4
          have h6 : 0 ≤ cv * η := by positivity
          have h7 : u * (cv * η) ≤ 1 / 32 * (cv * η) := mul_le_mul_of_nonneg_right hu32 h6
          linarith
      choose! v hv hve using r1
      refine ⟨_, fun k i => v ⟨k, i⟩, _, by rw [clipByGlobalNorm_update_mk], fun z hz => ?_, hx', ?_⟩
      · simp only [htrig]
        exact hv z hz
      · have hRν : R / ν ≤ 1 + 2 * κ := by rw [div_le_iff₀ hνpos]; exact hνlo
        have hcn : (0 : ℝ) < cv / ν := by positivity
        have d1 : l2 (idx σ) (fun z => v z - cv / ν * x z.1 z.2) ≤ 3 * u * (cv / ν) * R + 2 * (cv + 1) * η * Real.sqrt (numEntries σ) := by
          have : l2 (idx σ) (fun z => v z - cv / ν * x z.1 z.2) ≤
              l2 (idx σ) (fun z => 3 * u * (cv / ν) * |x z.1 z.2| + 2 * (cv + 1) * η) :=
            l2_mono_abs _ fun z hz => (hve z hz).trans (le_abs_self _)
          refine this.trans ((l2_add_le _ _ _).trans ?_)
          rw [l2_smul, abs_of_nonneg (by positivity), l2_const _ (by positivity)]
          have e : l2 (idx σ) (fun z => |x z.1 z.2|) = R := by rw [hRe]; unfold l2; simp only [sq_abs]
          rw [e]; rfl
        have d1' : 3 * u * (cv / ν) * R ≤ κ * cv := by
          have : 3 * u * (cv / ν) * R = 3 * u * cv * (R / ν) := by ring
          rw [this]
          have := mul_le_mul_of_nonneg_left (hRν.trans (show 1 + 2 * κ ≤ 2 by linarith)) (show 0 ≤ 3 * u * cv by positivity)
          nlinarith
        have d2 : l2 (idx σ) (fun z => cv / ν * x z.1 z.2 - if R < cv then x z.1 z.2 else x z.1 z.2 / R * cv) ≤ 2 * κ * cv := by
          by_cases hRc : R < cv
          · simp only [hRc, if_true]
            have e : ∀ z ∈ idx σ, cv / ν * x z.1 z.2 - x z.1 z.2 = (cv / ν - 1) * x z.1 z.2 := fun z _ => by ring
            rw [l2_congr _ e, l2_smul, ← hRe, abs_sub_comm, abs_of_nonneg (by rw [sub_nonneg, div_le_one hνpos]; exact htr')]
            have e2 : (1 - cv / ν) * R = (ν - cv) * (R / ν) := by field_simp
            rw [e2]
            have h1 : ν - cv ≤ κ * cv := by
              have := (abs_le.1 hνe).2
              have h2 := mul_le_mul_of_nonneg_left hRc.le hκ0
              linarith
            exact (mul_le_mul h1 (hRν.trans (show 1 + 2 * κ ≤ 2 by linarith)) (by positivity) hκc).trans (by linarith)
          · simp only [hRc, if_false]
            have e : ∀ z ∈ idx σ, cv / ν * x z.1 z.2 - x z.1 z.2 / R * cv = (cv * (R - ν) / (ν * R)) * x z.1 z.2 := fun z _ => by
              field_simp
            rw [l2_congr _ e, l2_smul, ← hRe, abs_div, abs_mul, abs_of_pos hc0, abs_of_pos (show 0 < ν * R by positivity), abs_sub_comm]
            have e2 : cv * |ν - R| / (ν * R) * R = cv * (|ν - R| / ν) := by field_simp
            rw [e2]
            have h1 : |ν - R| / ν ≤ κ * 2 := by
              rw [div_le_iff₀ hνpos]
              have := mul_le_mul_of_nonneg_left (hνlo.trans (mul_le_mul_of_nonneg_right (show 1 + 2 * κ ≤ 2 by linarith) hνpos.le)) hκ0
              linarith
            have := mul_le_mul_of_nonneg_left h1 hc0.le
            linarith
        rw [treeDist_l2]
        have e : ∀ z ∈ idx σ, v ⟨z.1, z.2⟩ - (if R < cv then x z.1 z.2 else x z.1 z.2 / R * cv) =
            (v z - cv / ν * x z.1 z.2) + (cv / ν * x z.1 z.2 - if R < cv then x z.1 z.2 else x z.1 z.2 / R * cv) := fun z _ => by
          show v z - _ = _
          ring
        rw [l2_congr _ e]
        refine (l2_add_le _ _ _).trans ?_
        linarith

/-- **C125.** In float32, for trees of at most ten thousand entries and leaves together, gradients of norm at most `2^60` and every
`max_norm` between `2^-20` and `2^60`: the clipped gradient is finite, within `0.4 %` of `max_norm` of the exactly clipped one, and
its norm is at most `1.004 max_norm`. -/
theorem C125_float32 (hn : sumDepth σ ≤ 10000) (g : ℕ → ℕ → FP Format.float32) (x : ℕ → ℕ → ℝ) (hg : Reads σ g x)
    (c : FP Format.float32) {cv : ℝ} (hc : c.1 = .fin cv) (hc0 : 2 ^ (-20 : ℤ) ≤ cv) (hc1 : cv ≤ 2 ^ 60)
    (hx : globalNorm (mk σ x) ≤ 2 ^ 60) (s : EmptyState) (pp : Option (Params (FP Format.float32))) (pp' : Option (Params ℝ)) :
    ∃ (U : ℕ → ℕ → FP Format.float32) (y E : ℕ → ℕ → ℝ),
      (clipByGlobalNorm c).update (mk σ g) s pp = .ok (mk σ U, s) ∧ Reads σ U y ∧
      (clipByGlobalNorm cv).update (mk σ x) s pp' = .ok (mk σ E, s) ∧
      treeDist σ y E ≤ 0.004 * cv ∧ globalNorm (mk σ y) ≤ 1.004 * cv := by
  have hcp : (0 : ℝ) < cv := lt_of_lt_of_le (by norm_num) hc0
  have hDR : ((sumDepth σ : ℕ) : ℝ) ≤ 10000 := by exact_mod_cast hn
  have hnL : numEntries σ + σ.numLeaves + 1 ≤ 10000 := hn
  have hnR : ((numEntries σ : ℕ) : ℝ) ≤ 10000 := by exact_mod_cast (show numEntries σ ≤ 10000 by omega)
  have hLR : ((σ.numLeaves : ℕ) : ℝ) ≤ 10000 := by exact_mod_cast (show σ.numLeaves ≤ 10000 by omega)
  have hprod : (σ.numLeaves : ℝ) * (4 * numEntries σ + 2) ≤ 10000 * 40002 :=
    mul_le_mul hLR (by linarith) (by positivity) (by norm_num)
  have hη : ((σ.numLeaves : ℝ) * (4 * numEntries σ + 2)) * 2 ^ (-150 : ℤ) ≤ 10000 * 40002 * 2 ^ (-150 : ℤ) :=
    mul_le_mul_of_nonneg_right hprod (by positivity)
  have hR0 : 0 ≤ globalNorm (mk σ x) := C61_nonneg _
  have hRR : globalNorm (mk σ x) ^ 2 ≤ (2 ^ 60) ^ 2 := pow_le_pow_left₀ hR0 hx 2
  have hcc : ((2 : ℝ) ^ (-20 : ℤ)) ^ 2 ≤ cv ^ 2 := pow_le_pow_left₀ (by positivity) hc0 2
  obtain ⟨U, y, E, h1, h2, h3, h4, h5⟩ := C125_clip_by_global_norm σ Format.float32_err (by positivity) (by positivity) (by norm_num)
    (by norm_num; linarith) g x hg c hc hcp (by norm_num at hη hRR ⊢; linarith) (by norm_num at hc1 ⊢; linarith)
    (by norm_num at hη hcc ⊢; linarith) (by norm_num at hc0 ⊢; linarith) s pp pp'
  have hs : Real.sqrt (numEntries σ) ≤ 100 := by
    rw [Real.sqrt_le_left (by norm_num)]; linarith
  have hw : 2 * (cv + 1) * 2 ^ (-150 : ℤ) * Real.sqrt (numEntries σ) ≤ 2 * (cv + 1) * 2 ^ (-150 : ℤ) * 100 :=
    mul_le_mul_of_nonneg_left hs (by positivity)
  have hk : (2 * (sumDepth σ : ℝ) + 4) * 2 ^ (-24 : ℤ) ≤ 20004 * 2 ^ (-24 : ℤ) :=
    mul_le_mul_of_nonneg_right (by linarith) (by positivity)
  have hkc := mul_le_mul_of_nonneg_right hk hcp.le
  generalize (2 * (sumDepth σ : ℝ) + 4) * 2 ^ (-24 : ℤ) = κ at *
  generalize Real.sqrt (numEntries σ) = w at *
  refine ⟨U, y, E, h1, h2, h3, h4.trans ?_, h5.trans ?_⟩
  · norm_num at hw hkc hc0 ⊢; linarith
  · norm_num at hw hkc hc0 ⊢; linarith

/-- the hypotheses of `C125_float32` are met by the gradient `(1, 1, 1)` and `max_norm = 1`, where clipping happens -/
example : sumDepth (.leaf [3]) ≤ 10000 ∧ Reads (.leaf [3]) (fun _ _ => (1 : FP Format.float32)) (fun _ _ => 1) ∧
    (1 : ℝ) < globalNorm (mk (.leaf [3]) (fun _ _ => (1 : ℝ))) ∧ globalNorm (mk (.leaf [3]) (fun _ _ => (1 : ℝ))) ≤ 2 ^ 60 := by
  have e : idx (.leaf [3]) = {⟨0, 0⟩, ⟨0, 1⟩, ⟨0, 2⟩} := by decide
  have hnorm : globalNorm (mk (.leaf [3]) (fun _ _ => (1 : ℝ))) = Real.sqrt 3 := by
    rw [globalNorm_mk]; unfold entryNorm l2; rw [e]; norm_num
  refine ⟨by unfold sumDepth numEntries; rw [e]; decide, fun y _ => one_val, ?_, ?_⟩
  · rw [hnorm]; exact Real.lt_sqrt_of_sq_lt (by norm_num)
  · rw [hnorm, Real.sqrt_le_left (by norm_num)]; norm_num

end Optax
