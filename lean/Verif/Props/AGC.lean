import Verif.Props.Centralize

/-!
# C13: `adaptive_grad_clip`
-/

set_option linter.unusedSectionVars false
set_option linter.unusedSimpArgs false

namespace Optax
open Finset

/-! ## Specification: output units

Entries are stored row-major, so in an array of shape `[a, b]` entry `j` is in column `j % b`, in
shape `[a, b, c]` it is at position `j % (b * c)` of the trailing `[b, c]` axes, and in shape
`[h, w, i, o]` it belongs to output channel `j % o`.  Arrays with at most one dimension that is not
1 are one unit. -/

/-- the shapes `adaptive_grad_clip` documents: scalars and vectors (up to dimensions of size 1),
rank 2, 3 and 4 -/
def AgcShape (s : List ℕ) : Prop :=
  (s.filter (fun d => d != 1)).length ≤ 1 ∨ s.length = 2 ∨ s.length = 3 ∨ s.length = 4

instance (s : List ℕ) : Decidable (AgcShape s) := by unfold AgcShape; infer_instance

/-- the output unit entry `j` of an array of shape `s` belongs to -/
def unitOf (s : List ℕ) (j : ℕ) : ℕ :=
  if (s.filter (fun d => d != 1)).length ≤ 1 then 0 else
    match s with
    | [_, b] => j % b
    | [_, b, c] => j % (b * c)
    | [_, _, _, o] => j % o
    | _ => 0

/-- Euclidean norm of unit `c` of an array -/
noncomputable def unitNorm (s : List ℕ) (v : ℕ → ℝ) (c : ℕ) : ℝ :=
  Real.sqrt (∑ j ∈ (range s.prod).filter (fun j => unitOf s j = c), v j ^ 2)

/-! ## lemmas -/

/-- shape of the array of unit norms -/
def unitShape (s : List ℕ) : List ℕ :=
  if squeezeRank s ≤ 1 then [] else
    match s with
    | [_, b] => [1, b]
    | [_, b, c] => [1, b, c]
    | [_, _, _, o] => [1, 1, 1, o]
    | _ => []

theorem pos_of_lt {s : List ℕ} {j : ℕ} (h : j < s.prod) : ∀ d ∈ s, 0 < d := by
  intro d hd
  rcases Nat.eq_zero_or_pos d with h0 | h0
  · rw [List.prod_eq_zero (h0 ▸ hd)] at h; omega
  · exact h0

/-- every unit norm is combined with the entries of its unit -/
theorem unit_cases (s : List ℕ) (h : AgcShape s) :
    (squeezeRank s ≤ 1 ∧ unitShape s = []) ∨
    (¬ squeezeRank s ≤ 1 ∧ Tensor.Sub (unitShape s) s ∧
      (∀ j < s.prod, Tensor.bprojE s (unitShape s) j = unitOf s j) ∧
      ((∃ a b, s = [a, b]) ∨ (∃ a b c, s = [a, b, c]) ∨ ∃ a b c o, s = [a, b, c, o])) := by
  by_cases hs : squeezeRank s ≤ 1
  · left; exact ⟨hs, by unfold unitShape; rw [if_pos hs]⟩
  · right
    refine ⟨hs, ?_⟩
    rcases h with h | h | h | h
    · exact absurd h hs
    · match s, h, hs with
      | [a, b], _, hs =>
        have hsh : unitShape [a, b] = [1, b] := by unfold unitShape; rw [if_neg hs]
        have hu : ∀ j, unitOf [a, b] j = j % b := by intro j; unfold unitOf; exact if_neg hs
        rw [hsh]
        refine ⟨.cons (.inr rfl) (.cons (.inl rfl) .nil), ?_, .inl ⟨a, b, rfl⟩⟩
        intro j hj
        rw [hu]
        have := Tensor.bprojE_cols a [b] j (by simpa using pos_of_lt hj b (by simp))
        simpa using this
    · match s, h, hs with
      | [a, b, c], _, hs =>
        have hsh : unitShape [a, b, c] = [1, b, c] := by unfold unitShape; rw [if_neg hs]
        have hu : ∀ j, unitOf [a, b, c] j = j % (b * c) := by intro j; unfold unitOf; exact if_neg hs
        rw [hsh]
        refine ⟨.cons (.inr rfl) (.cons (.inl rfl) (.cons (.inl rfl) .nil)), ?_, .inr (.inl ⟨a, b, c, rfl⟩)⟩
        intro j hj
        rw [hu]
        have hb := pos_of_lt hj b (by simp)
        have hc := pos_of_lt hj c (by simp)
        have := Tensor.bprojE_cols a [b, c] j (by simpa using ⟨hb, hc⟩)
        simpa using this
    · match s, h, hs with
      | [a, b, c, o], _, hs =>
        have hsh : unitShape [a, b, c, o] = [1, 1, 1, o] := by unfold unitShape; rw [if_neg hs]
        have hu : ∀ j, unitOf [a, b, c, o] j = j % o := by intro j; unfold unitOf; exact if_neg hs
        rw [hsh]
        refine ⟨.cons (.inr rfl) (.cons (.inr rfl) (.cons (.inr rfl) (.cons (.inl rfl) .nil))), ?_,
          .inr (.inr ⟨a, b, c, o, rfl⟩)⟩
        intro j hj
        rw [hu]
        simp only [Tensor.bprojE, List.prod_cons, List.prod_nil, if_true, Nat.mul_one, Nat.zero_mul,
          Nat.zero_add, Nat.div_one, Nat.add_zero]
        rw [Nat.mod_mod_of_dvd _ (⟨b, Nat.mul_comm _ _⟩ : c * o ∣ b * (c * o)),
          Nat.mod_mod_of_dvd _ (⟨c, Nat.mul_comm _ _⟩ : o ∣ c * o)]
        split
        · rename_i h1; rw [h1, Nat.mod_one]
        · rfl

theorem unitOf_squeezed {s : List ℕ} (h : squeezeRank s ≤ 1) (j : ℕ) : unitOf s j = 0 := by
  unfold unitOf
  exact if_pos h

section
variable {α β γ : Type}

/-- combining a full array with an array of unit values, and back -/
theorem unit_bop_right (f : α → β → γ) {s : List ℕ} (h : AgcShape s) (v : ℕ → α) (w : ℕ → β) :
    Tensor.bop f (Tensor.tens s v) (Tensor.tens (unitShape s) w) =
      .ok (Tensor.tens s (fun j => f (v j) (w (unitOf s j)))) := by
  rcases unit_cases s h with ⟨h1, h2⟩ | ⟨_, h2, h3, _⟩
  · rw [h2]
    have : Tensor.tens [] w = Tensor.scalar (w 0) := rfl
    rw [this, Tensor.bop_scalar_right]
    congr 1
    apply Tensor.tens_congr
    intro j _
    rw [unitOf_squeezed h1]
  · rw [Tensor.bop_sub_right _ h2]
    congr 1
    apply Tensor.tens_congr
    intro j hj
    rw [h3 j hj]

theorem unit_bop_left (f : α → β → γ) {s : List ℕ} (h : AgcShape s) (v : ℕ → β) (w : ℕ → α) :
    Tensor.bop f (Tensor.tens (unitShape s) w) (Tensor.tens s v) =
      .ok (Tensor.tens s (fun j => f (w (unitOf s j)) (v j))) := by
  rcases unit_cases s h with ⟨h1, h2⟩ | ⟨_, h2, h3, _⟩
  · rw [h2]
    have : Tensor.tens [] w = Tensor.scalar (w 0) := rfl
    rw [this, Tensor.bop_scalar_left]
    congr 1
    apply Tensor.tens_congr
    intro j _
    rw [unitOf_squeezed h1]
  · rw [Tensor.bop_sub_left _ h2]
    congr 1
    apply Tensor.tens_congr
    intro j hj
    rw [h3 j hj]
end

section
variable {α : Type} [Add α] [Sub α] [Neg α] [Mul α] [Div α] [Zero α] [One α] [JOps α]

theorem unitwiseClip_tens {s : List ℕ} (h : AgcShape s) (gn mn : ℕ → α) (g : ℕ → α) :
    unitwiseClip (Tensor.tens (unitShape s) gn) (Tensor.tens (unitShape s) mn) (Tensor.tens s g) =
      .ok (Tensor.tens s (fun j =>
        if JOps.lt (gn (unitOf s j)) (mn (unitOf s j)) then g j
        else g j * (mn (unitOf s j) / JOps.max (gn (unitOf s j)) (JOps.ofRat (1 / 1000000))))) := by
  unfold unitwiseClip Tensor.where3
  rw [Tensor.bop_tens, Res.ok_bind, Tensor.bop_tens, Res.ok_bind, unit_bop_right _ h, Res.ok_bind,
    unit_bop_left _ h, Res.ok_bind, Tensor.bop_tens]

/-- a value per unit, in any arithmetic -/
def unitNormG (s : List ℕ) (v : ℕ → α) (c : ℕ) : α :=
  if squeezeRank s ≤ 1 then
    JOps.pow ((Tensor.tens s (fun j => ipow (v j) 2)).sum) (JOps.ofRat (1 / 2))
  else JOps.pow (((Tensor.fiber s (unitShape s) c).map (fun j => ipow (v j) 2)).sum) (JOps.ofRat (1 / 2))

theorem unitwiseNorm_tens {s : List ℕ} (h : AgcShape s) (v : ℕ → α) :
    unitwiseNorm (Tensor.tens s v) = .ok (Tensor.tens (unitShape s) (unitNormG s v)) := by
  unfold unitwiseNorm
  simp only [Tensor.map_tens, Tensor.tens_shape]
  rcases unit_cases s h with ⟨h1, h2⟩ | ⟨h1, h2, h3, h4⟩
  · rw [if_pos h1, h2]
    unfold unitNormG
    simp only [h1, if_true]
    rfl
  · rw [if_neg h1]
    unfold unitNormG
    simp only [h1, if_false]
    rcases h4 with ⟨a, b, rfl⟩ | ⟨a, b, c, rfl⟩ | ⟨a, b, c, o, rfl⟩
    · have hk : Tensor.keepShape (fun a => a == 0) [a, b] = unitShape [a, b] := by
        unfold unitShape; rw [if_neg h1]; rfl
      rw [if_pos (by simp), Tensor.sumKeep_tens, Tensor.map_tens, hk]
    · have hk : Tensor.keepShape (fun a => a == 0) [a, b, c] = unitShape [a, b, c] := by
        unfold unitShape; rw [if_neg h1]; rfl
      rw [if_pos (by simp), Tensor.sumKeep_tens, Tensor.map_tens, hk]
    · have hk : Tensor.keepShape (fun a => decide (a < 3)) [a, b, c, o] = unitShape [a, b, c, o] := by
        unfold unitShape; rw [if_neg h1]; rfl
      rw [if_neg (by simp), if_pos (by simp), Tensor.sumKeep_tens, Tensor.map_tens, hk]

/-- all leaves have a supported shape -/
def AgcSpec (σ : Spec) : Prop := ∀ s ∈ σ.leaves, AgcShape s

/-- the clipped leaf, in any arithmetic -/
def agcLeaf (clipping eps : α) (s : List ℕ) (g p : ℕ → α) (j : ℕ) : α :=
  if JOps.lt (unitNormG s g (unitOf s j)) (clipping * JOps.max (unitNormG s p (unitOf s j)) eps) then g j
  else g j * (clipping * JOps.max (unitNormG s p (unitOf s j)) eps /
    JOps.max (unitNormG s g (unitOf s j)) (JOps.ofRat (1 / 1000000)))

theorem agc_update_mk (clipping eps : α) (σ : Spec) (hσ : AgcSpec σ) (g p : ℕ → ℕ → α) :
    (adaptiveGradClip clipping eps).update (mk σ g) ⟨⟩ (some (mk σ p)) =
      .ok (mk σ (fun k => agcLeaf clipping eps ((σ.leaves[k]?).getD []) (g k) (p k)), ⟨⟩) := by
  have hn : ∀ v : ℕ → ℕ → α, PyTree.mapM unitwiseNorm (mk σ v) =
      .ok (σ.mapIdx (fun k s => Tensor.tens (unitShape s) (unitNormG s (v k)))) := by
    intro v
    unfold mk
    apply PyTree.mapM_mapIdx
    intro k s hk
    exact unitwiseNorm_tens (hσ s (List.mem_of_getElem? hk)) _
  have h2 : (do
      let gNorm ← PyTree.mapM unitwiseNorm (mk σ g)
      let pNorm ← PyTree.mapM unitwiseNorm (mk σ p)
      let maxNorm := tmap (fun x => clipping * JOps.max x eps) pNorm
      PyTree.zipM3 unitwiseClip gNorm maxNorm (mk σ g)) =
      .ok (mk σ (fun k => agcLeaf clipping eps ((σ.leaves[k]?).getD []) (g k) (p k))) := by
    rw [hn, Res.ok_bind, hn, Res.ok_bind]
    unfold tmap mk
    rw [PyTree.map_mapIdx]
    apply PyTree.zipM3_mapIdx
    intro k s hk
    rw [Tensor.map_tens, unitwiseClip_tens (hσ s (List.mem_of_getElem? hk))]
    simp only [hk, Option.getD_some]
    rfl
  show ((do
      let gNorm ← PyTree.mapM unitwiseNorm (mk σ g)
      let pNorm ← PyTree.mapM unitwiseNorm (mk σ p)
      let maxNorm := tmap (fun x => clipping * JOps.max x eps) pNorm
      PyTree.zipM3 unitwiseClip gNorm maxNorm (mk σ g)) >>= fun _ => _) = _
  rw [h2]; rfl

/-- **C05** `adaptive_grad_clip`, on trees whose leaves all have a supported shape (others are
rejected, see `C13_unsupported_shape`): each call succeeds and keeps structure and shapes. -/
theorem C05_adaptive_grad_clip (clipping eps : α) (σ : Spec) (hσ : AgcSpec σ) (g p : ℕ → ℕ → α) :
    ∃ u, (adaptiveGradClip clipping eps).update (mk σ g) ⟨⟩ (some (mk σ p)) = .ok (mk σ u, ⟨⟩) :=
  ⟨_, agc_update_mk clipping eps σ hσ g p⟩

end

theorem unitNormG_real {s : List ℕ} (h : AgcShape s) (v : ℕ → ℝ) (c : ℕ)
    (hc : c < (unitShape s).prod) : unitNormG s v c = unitNorm s v c := by
  unfold unitNormG unitNorm
  have hs : ∀ x : ℝ, JOps.pow x (JOps.ofRat (1 / 2)) = Real.sqrt x := by
    intro x
    rw [jpow_real, jofRat_real, Real.sqrt_eq_rpow]; norm_num
  rcases unit_cases s h with ⟨h1, h2⟩ | ⟨h1, h2, h3, h4⟩
  · rw [if_pos h1, hs]
    rw [h2] at hc
    have hc0 : c = 0 := by simpa using hc
    congr 1
    simp only [Tensor.sum, Tensor.tens]
    rw [sum_map_range]
    rw [Finset.filter_true_of_mem (by intro j _; rw [unitOf_squeezed h1, hc0])]
    exact Finset.sum_congr rfl (fun j _ => by simp)
  · rw [if_neg h1, hs]
    congr 1
    rw [Tensor.fiber_sum]
    apply Finset.sum_congr
    · apply Finset.filter_congr
      intro j hj
      rw [Tensor.bproj_eq _ _ h2.length, h3 j (mem_range.mp hj)]
    · intro j _; simp

theorem unitOf_lt {s : List ℕ} (h : AgcShape s) {j : ℕ} (hj : j < s.prod) :
    unitOf s j < (unitShape s).prod := by
  rcases unit_cases s h with ⟨h1, h2⟩ | ⟨h1, h2, h3, h4⟩
  · rw [h2, unitOf_squeezed h1]; simp
  · rw [← h3 j hj]
    exact Tensor.bprojE_lt h2 j hj

theorem agcLeaf_real (cl eps : ℝ) {s : List ℕ} (h : AgcShape s) (g p : ℕ → ℝ) {j : ℕ} (hj : j < s.prod) :
    agcLeaf cl eps s g p j =
      if unitNorm s g (unitOf s j) < cl * max (unitNorm s p (unitOf s j)) eps then g j
      else g j * (cl * max (unitNorm s p (unitOf s j)) eps / max (unitNorm s g (unitOf s j)) (1 / 1000000)) := by
  unfold agcLeaf
  rw [unitNormG_real h _ _ (unitOf_lt h hj), unitNormG_real h _ _ (unitOf_lt h hj)]
  simp only [jlt_real, jmax_real, jofRat_real]
  norm_num

theorem unitNorm_scale (s : List ℕ) (v w : ℕ → ℝ) (c : ℕ) (t : ℝ) (ht : 0 ≤ t)
    (h : ∀ j < s.prod, unitOf s j = c → w j = v j * t) : unitNorm s w c = unitNorm s v c * t := by
  unfold unitNorm
  have : ∑ j ∈ (range s.prod).filter (fun j => unitOf s j = c), w j ^ 2 =
      (∑ j ∈ (range s.prod).filter (fun j => unitOf s j = c), v j ^ 2) * t ^ 2 := by
    rw [Finset.sum_mul]
    apply Finset.sum_congr rfl
    intro j hj
    rw [mem_filter, mem_range] at hj
    rw [h j hj.1 hj.2, mul_pow]
  rw [this, Real.sqrt_mul' _ (sq_nonneg t), Real.sqrt_sq ht]

/-- **C13.** On every tree of supported shapes, for `clipping > 0` and `eps > 0`: the update succeeds,
keeps structure and shapes, and for every leaf and every output unit `c`, with
`bound = clipping * max(‖params unit‖, eps)`:
* the unit's norm after the update is at most `bound`;
* a unit whose gradient norm is below `bound` is unchanged;
* any other unit is its gradient times one factor in `[0, 1]`, and its norm becomes exactly `bound`
  unless its gradient norm was below the code's `1e-6` guard. -/
theorem C13_adaptive_grad_clip (cl eps : ℝ) (hcl : 0 < cl) (heps : 0 < eps) (σ : Spec)
    (hσ : ∀ s ∈ σ.leaves, AgcShape s) (g p : ℕ → ℕ → ℝ) :
    ∃ u : ℕ → ℕ → ℝ,
      (adaptiveGradClip cl eps).update (mk σ g) ⟨⟩ (some (mk σ p)) = .ok (mk σ u, ⟨⟩) ∧
      ∀ k s, σ.leaves[k]? = some s → ∀ c,
        let bound := cl * max (unitNorm s (p k) c) eps
        unitNorm s (u k) c ≤ bound ∧
        (unitNorm s (g k) c < bound → ∀ j < s.prod, unitOf s j = c → u k j = g k j) ∧
        (bound ≤ unitNorm s (g k) c →
          (∃ t, 0 ≤ t ∧ t ≤ 1 ∧ ∀ j < s.prod, unitOf s j = c → u k j = t * g k j) ∧
          (1 / 1000000 ≤ unitNorm s (g k) c → unitNorm s (u k) c = bound)) := by
  refine ⟨_, agc_update_mk cl eps σ hσ g p, ?_⟩
  intro k s hk c
  have hs := hσ s (List.mem_of_getElem? hk)
  simp only [hk, Option.getD_some]
  have hb : 0 < cl * max (unitNorm s (p k) c) eps := mul_pos hcl (lt_max_of_lt_right heps)
  set b := cl * max (unitNorm s (p k) c) eps with hbdef
  set n := unitNorm s (g k) c with hn
  by_cases hlt : n < b
  · have h1 : ∀ j < s.prod, unitOf s j = c → agcLeaf cl eps s (g k) (p k) j = g k j := by
      intro j hj hjc
      rw [agcLeaf_real _ _ hs _ _ hj, hjc, ← hn, ← hbdef, if_pos hlt]
    refine ⟨?_, fun _ => h1, fun h => absurd hlt (not_lt.mpr h)⟩
    rw [unitNorm_scale s (g k) _ c 1 zero_le_one (fun j hj hjc => by rw [h1 j hj hjc, mul_one]), mul_one]
    exact hlt.le
  · have hle := not_lt.mp hlt
    have hm : 0 < max n (1 / 1000000) := lt_of_lt_of_le hb (le_trans hle (le_max_left _ _))
    have ht : 0 ≤ b / max n (1 / 1000000) := (div_pos hb hm).le
    have h1 : ∀ j < s.prod, unitOf s j = c →
        agcLeaf cl eps s (g k) (p k) j = g k j * (b / max n (1 / 1000000)) := by
      intro j hj hjc
      rw [agcLeaf_real _ _ hs _ _ hj, hjc, ← hn, ← hbdef, if_neg hlt]
    have hnorm := unitNorm_scale s (g k) _ c _ ht h1
    rw [← hn] at hnorm
    refine ⟨?_, fun h => absurd h hlt, fun _ => ⟨⟨_, ht, ?_, fun j hj hjc => by rw [h1 j hj hjc, mul_comm]⟩, ?_⟩⟩
    · rw [hnorm, mul_div_assoc', div_le_iff₀ hm, mul_comm n b]
      exact mul_le_mul_of_nonneg_left (le_max_left _ _) hb.le
    · rw [div_le_one hm]
      exact le_trans hle (le_max_left _ _)
    · intro h6
      rw [hnorm, max_eq_left h6, mul_div_assoc', mul_comm, mul_div_assoc, div_self (by linarith), mul_one]

/-! ## rejected calls -/

section
variable {α : Type} [Add α] [Sub α] [Neg α] [Mul α] [Div α] [Zero α] [One α] [JOps α]

/-- **C13.** Missing params: ValueError, for all gradients. -/
theorem C13_missing_params (cl eps : α) (g : Params α) :
    (adaptiveGradClip cl eps).update g ⟨⟩ none = .error .value := rfl

mutual
theorem mapM_all_value {β γ : Type} (f : β → Res γ) (hf : ∀ b e, f b = .error e → e = .value) :
    ∀ (t : PyTree β), (∃ b ∈ t.leaves, f b = .error .value) → PyTree.mapM f t = .error .value
  | .leaf b, h => by
    obtain ⟨b', hb, h⟩ := h
    simp only [PyTree.leaves, List.mem_singleton] at hb
    subst hb
    simp [PyTree.mapM, h, bind, Except.bind]
  | .node tg cs, h => by
    have := mapML_all_value f hf cs h
    simp [PyTree.mapM, this, bind, Except.bind]
theorem mapML_all_value {β γ : Type} (f : β → Res γ) (hf : ∀ b e, f b = .error e → e = .value) :
    ∀ (ts : List (PyTree β)), (∃ b ∈ PyTree.leavesL ts, f b = .error .value) →
      PyTree.mapML f ts = .error .value
  | [], h => by simp [PyTree.leavesL] at h
  | c :: cs, h => by
    obtain ⟨b, hb, h⟩ := h
    simp only [PyTree.leavesL, List.mem_append] at hb
    rcases hb with hb | hb
    · have := mapM_all_value f hf c ⟨b, hb, h⟩
      simp [PyTree.mapML, this, bind, Except.bind]
    · have h2 := mapML_all_value f hf cs ⟨b, hb, h⟩
      cases hc : PyTree.mapM f c with
      | error e =>
        have := mapM_err_value f hf c e hc
        subst this
        simp [PyTree.mapML, hc, bind, Except.bind]
      | ok c' => simp [PyTree.mapML, hc, h2, bind, Except.bind]
theorem mapM_err_value {β γ : Type} (f : β → Res γ) (hf : ∀ b e, f b = .error e → e = .value) :
    ∀ (t : PyTree β) (e : Err), PyTree.mapM f t = .error e → e = .value
  | .leaf b, e, h => by
    cases hb : f b with
    | error e' =>
      simp [PyTree.mapM, hb, bind, Except.bind] at h
      rw [← h]; exact hf b e' hb
    | ok x => simp [PyTree.mapM, hb, bind, Except.bind, pure, Except.pure] at h
  | .node tg cs, e, h => by
    cases hb : PyTree.mapML f cs with
    | error e' =>
      simp [PyTree.mapM, hb, bind, Except.bind] at h
      rw [← h]; exact mapML_err_value f hf cs e' hb
    | ok x => simp [PyTree.mapM, hb, bind, Except.bind, pure, Except.pure] at h
theorem mapML_err_value {β γ : Type} (f : β → Res γ) (hf : ∀ b e, f b = .error e → e = .value) :
    ∀ (ts : List (PyTree β)) (e : Err), PyTree.mapML f ts = .error e → e = .value
  | [], e, h => by simp [PyTree.mapML] at h
  | c :: cs, e, h => by
    cases hc : PyTree.mapM f c with
    | error e' =>
      simp [PyTree.mapML, hc, bind, Except.bind] at h
      rw [← h]; exact mapM_err_value f hf c e' hc
    | ok x =>
      cases hb : PyTree.mapML f cs with
      | error e' =>
        simp [PyTree.mapML, hc, hb, bind, Except.bind] at h
        rw [← h]; exact mapML_err_value f hf cs e' hb
      | ok x => simp [PyTree.mapML, hc, hb, bind, Except.bind, pure, Except.pure] at h
end

theorem unitwiseNorm_reject (x : Tensor α) (h : ¬ AgcShape x.shape) :
    unitwiseNorm x = .error .value := by
  unfold AgcShape at h
  push Not at h
  unfold unitwiseNorm squeezeRank
  simp only []
  rw [if_neg (by omega), if_neg (by omega), if_neg (by omega)]
  rfl

theorem unitwiseNorm_err (x : Tensor α) (e : Err) (h : unitwiseNorm x = .error e) : e = .value := by
  unfold unitwiseNorm at h
  simp only [] at h
  split at h
  · cases h
  · split at h
    · cases h
    · split at h
      · cases h
      · cases h; rfl

/-- **C13.** A gradient leaf of unsupported shape (rank above 4, at least two dimensions not 1):
ValueError, whatever the other leaves, the values and the params. -/
theorem C13_unsupported_shape (cl eps : α) (g : Params α) (pp : Option (Params α))
    (h : ∃ x ∈ g.leaves, ¬ AgcShape x.shape) :
    (adaptiveGradClip cl eps).update g ⟨⟩ pp = .error .value := by
  cases pp with
  | none => rfl
  | some p =>
    obtain ⟨x, hx, hs⟩ := h
    have h1 := mapM_all_value unitwiseNorm (fun b e => unitwiseNorm_err (α := α) b e) g
      ⟨x, hx, unitwiseNorm_reject x hs⟩
    show ((PyTree.mapM unitwiseNorm g >>= fun _ => _) >>= fun _ => _) = _
    rw [h1]; rfl

end

/-- shapes: a conv kernel, a matrix, `[1, 5]` as a vector, and a rejected rank-5 array -/
example : AgcShape [3, 3, 2, 4] ∧ AgcShape [2, 3] ∧ unitOf [1, 5] 3 = 0 ∧ unitOf [2, 3] 4 = 1 ∧
    unitOf [3, 3, 2, 4] 6 = 2 ∧ ¬ AgcShape [2, 2, 1, 1, 1] := by decide

/-- a matrix `[[3, 0.1], [4, 0]]` with params of column norms 1 and 1 and `clipping = 1`: the hypotheses
hold, the first column is clipped (norm 5 ≥ 1), the second is not. -/
example : ∀ s ∈ (PyTree.leaf [2, 2] : Spec).leaves, AgcShape s := by decide

end Optax
