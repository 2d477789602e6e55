import Verif.Lemmas.Axes

/-! Per-axis reductions used by SM3. -/

set_option linter.unusedSectionVars false
set_option linter.unusedSimpArgs false

namespace Optax
open Tensor

/-- coordinate along axis `i` of the entry at flat (row-major) position `j` of an array of shape `s` -/
def coordAt (s : List ℕ) (i j : ℕ) : ℕ := (Tensor.unravel s j).getD i 0

theorem coordAt_zero (d : ℕ) (ds : List ℕ) (j : ℕ) : coordAt (d :: ds) 0 j = j / ds.prod := rfl
theorem coordAt_succ (d : ℕ) (ds : List ℕ) (i j : ℕ) :
    coordAt (d :: ds) (i + 1) j = coordAt ds i (j % ds.prod) := rfl

theorem keepShape_congr (ax bx : ℕ → Bool) (s : List ℕ) (h : ∀ a < s.length, ax a = bx a) :
    keepShape ax s = keepShape bx s := by
  induction s generalizing ax bx with
  | nil => rfl
  | cons d ds ih =>
    rw [keepShape_cons, keepShape_cons, h 0 (by simp), ih _ _ (fun a ha => h (a + 1) (by simpa using ha))]

theorem expandedShape_eq (s : List ℕ) (i : ℕ) (hi : i < s.length) :
    expandedShape s i = keepShape (fun a => a != i) s := by
  induction s generalizing i with
  | nil => simp at hi
  | cons d ds ih =>
    rw [keepShape_cons]
    cases i with
    | zero =>
      rw [keepShape_all _ (by intro a; simp)]
      simp [expandedShape]
    | succ i =>
      have := ih i (by simpa using hi)
      rw [show (fun a => a + 1 != i + 1) = (fun a => a != i) by funext a; simp, ← this]
      simp [expandedShape, List.replicate_succ]

theorem prod_axis (s : List ℕ) (i : ℕ) (hi : i < s.length) :
    (keepShape (fun a => a != i) s).prod = s.getD i 1 := by
  rw [← expandedShape_eq s i hi]
  simp [expandedShape]

theorem pos_of_mod {j d P : ℕ} (hj : j < d * P) : 0 < P := by
  rcases Nat.eq_zero_or_pos P with h | h
  · rw [h] at hj; omega
  · exact h

theorem bprojE_axis (s : List ℕ) (i j : ℕ) (hi : i < s.length) (hj : j < s.prod) :
    bprojE s (keepShape (fun a => a != i) s) j = coordAt s i j := by
  induction s generalizing i j with
  | nil => simp at hi
  | cons d ds ih =>
    rw [List.prod_cons] at hj
    rw [keepShape_cons]
    cases i with
    | zero =>
      rw [keepShape_all _ (by intro a; simp), coordAt_zero]
      exact bprojE_rows d ds j hj
    | succ i =>
      rw [show (fun a => a + 1 != i + 1) = (fun a => a != i) by funext a; simp, coordAt_succ,
        ← ih i _ (by simpa using hi) (Nat.mod_lt _ (pos_of_mod hj))]
      simp [bprojE]

theorem coordAt_lt (s : List ℕ) (i j : ℕ) (hi : i < s.length) (hj : j < s.prod) :
    coordAt s i j < s.getD i 1 := by
  rw [← bprojE_axis s i j hi hj, ← prod_axis s i hi]
  exact bprojE_lt (keepShape_sub _ _) j hj

theorem coordAt_surj (s : List ℕ) (hs : ∀ d ∈ s, 0 < d) (i r : ℕ) (hi : i < s.length)
    (hr : r < s.getD i 1) : ∃ j < s.prod, coordAt s i j = r := by
  induction s generalizing i with
  | nil => simp at hi
  | cons d ds ih =>
    have hP : 0 < ds.prod := List.prod_pos (fun d hd => hs d (by simp [hd]))
    cases i with
    | zero =>
      simp only [List.getD_cons_zero] at hr
      refine ⟨r * ds.prod, ?_, ?_⟩
      · rw [List.prod_cons]; exact Nat.mul_lt_mul_of_pos_right hr hP
      · rw [coordAt_zero, Nat.mul_div_cancel _ hP]
    | succ i =>
      obtain ⟨j, hj, hc⟩ := ih (fun d hd => hs d (by simp [hd])) i (by simpa using hi) (by simpa using hr)
      refine ⟨j, ?_, ?_⟩
      · rw [List.prod_cons]
        exact lt_of_lt_of_le hj (Nat.le_mul_of_pos_left _ (hs d (by simp)))
      · rw [coordAt_succ, Nat.mod_eq_of_lt hj, hc]

theorem keepShape_compat (ax bx : ℕ → Bool) (s : List ℕ) : Compat (keepShape ax s) (keepShape bx s) ∧
    bjoin (keepShape ax s) (keepShape bx s) = keepShape (fun a => ax a && bx a) s := by
  induction s generalizing ax bx with
  | nil => exact ⟨.nil, rfl⟩
  | cons d ds ih =>
    obtain ⟨h1, h2⟩ := ih (fun a => ax (a + 1)) (fun a => bx (a + 1))
    rw [keepShape_cons, keepShape_cons, keepShape_cons]
    refine ⟨.cons ?_ h1, ?_⟩
    · cases ax 0 <;> cases bx 0 <;> simp
    · unfold bjoin at h2 ⊢
      rw [List.zipWith_cons_cons, h2]
      congr 1
      cases ax 0 <;> cases bx 0 <;> simp
      exact fun h => h.symm

section
variable {α : Type} [Add α] [Sub α] [Neg α] [Mul α] [Div α] [Zero α] [One α] [JOps α]

/-- `min(w 0 (c 0), ..., w m (c m))` -/
def minAxes (w : ℕ → ℕ → α) (c : ℕ → ℕ) : ℕ → α
  | 0 => w 0 (c 0)
  | m + 1 => JOps.min (minAxes w c m) (w (m + 1) (c (m + 1)))

theorem reduceMin_snoc (l : List (Tensor α)) (hl : l ≠ []) (y : Tensor α) :
    reduceMin (l ++ [y]) = (reduceMin l >>= fun a => Tensor.bop JOps.min a y) := by
  cases l with
  | nil => exact absurd rfl hl
  | cons x xs =>
    simp only [reduceMin, List.cons_append, List.foldlM_append, List.foldlM_cons, List.foldlM_nil]
    congr 1
    funext a
    cases Tensor.bop JOps.min a y <;> rfl

theorem reduceMin_axes (s : List ℕ) (w : ℕ → ℕ → α) : ∀ m, m < s.length →
    ∃ V, reduceMin ((List.range (m + 1)).map (fun i => tens (keepShape (fun a => a != i) s) (w i))) =
        .ok (tens (keepShape (fun a => decide (m < a)) s) V) ∧
      ∀ j < s.prod, V (bprojE s (keepShape (fun a => decide (m < a)) s) j) =
        minAxes w (fun i => coordAt s i j) m
  | 0, hm => by
    refine ⟨w 0, ?_, ?_⟩
    · have : keepShape (fun a => a != 0) s = keepShape (fun a => decide (0 < a)) s :=
        keepShape_congr _ _ _ (by
          intro a _
          cases a <;> simp)
      simp only [Nat.zero_add, List.range_one, List.map_cons, List.map_nil, reduceMin, List.foldlM_nil]
      rw [this]; rfl
    · intro j hj
      have : keepShape (fun a => decide (0 < a)) s = keepShape (fun a => a != 0) s :=
        keepShape_congr _ _ _ (by
          intro a _
          cases a <;> simp)
      rw [this, bprojE_axis s 0 j hm hj]
      rfl
  | m + 1, hm => by
    obtain ⟨V, h1, h2⟩ := reduceMin_axes s w m (by omega)
    obtain ⟨hc, hj⟩ := keepShape_compat (fun a => decide (m < a)) (fun a => a != m + 1) s
    have he : keepShape (fun a => decide (m < a) && (a != m + 1)) s =
        keepShape (fun a => decide (m + 1 < a)) s :=
      keepShape_congr _ _ _ (by
        intro a _
        rw [Bool.eq_iff_iff]
        simp
        omega)
    rw [he] at hj
    have hA := sub_bjoin_left hc
    have hB := sub_bjoin_right hc
    rw [hj] at hA hB
    have hS := keepShape_sub (fun a => decide (m + 1 < a)) s
    refine ⟨fun j' => JOps.min (V (bprojE (keepShape (fun a => decide (m + 1 < a)) s)
        (keepShape (fun a => decide (m < a)) s) j'))
        (w (m + 1) (bprojE (keepShape (fun a => decide (m + 1 < a)) s)
          (keepShape (fun a => a != m + 1) s) j')), ?_, ?_⟩
    · rw [List.range_succ, List.map_append, List.map_cons, List.map_nil, reduceMin_snoc _ (by simp), h1,
        Res.ok_bind, bop_compat _ hc, hj]
    · intro j hj'
      simp only []
      rw [bprojE_comp hA hS j hj', bprojE_comp hB hS j hj', h2 j hj', bprojE_axis s _ j hm hj']
      rfl

/-- maximum of `f` over the entries with coordinate `r` along axis `i` -/
def maxFiber (s : List ℕ) (i r : ℕ) (f : ℕ → α) : α :=
  match (fiber s (keepShape (fun a => a != i) s) r).map f with
  | [] => 0
  | x :: xs => xs.foldl JOps.max x

theorem mem_fiber_axis (s : List ℕ) (i r j : ℕ) (hi : i < s.length) :
    j ∈ fiber s (keepShape (fun a => a != i) s) r ↔ j < s.prod ∧ coordAt s i j = r := by
  rw [mem_fiber]
  constructor
  · rintro ⟨h1, h2⟩
    rw [bproj_eq _ _ (by simp [keepShape]), bprojE_axis s i j hi h1] at h2
    exact ⟨h1, h2⟩
  · rintro ⟨h1, h2⟩
    rw [bproj_eq _ _ (by simp [keepShape]), bprojE_axis s i j hi h1]
    exact ⟨h1, h2⟩

theorem maxOther_tens (s : List ℕ) (hs : ∀ d ∈ s, 0 < d) (i : ℕ) (hi : i < s.length) (v : ℕ → α) :
    (tens s v).maxOther i = .ok (tens [s.getD i 1] (fun r => maxFiber s i r v)) := by
  unfold Tensor.maxOther
  have hne : ¬ (List.range (tens s v).shape.length).any (fun a => a != i && (tens s v).shape.getD a 1 == 0) = true := by
    intro h
    simp only [tens_shape, List.any_eq_true, List.mem_range, Bool.and_eq_true, beq_iff_eq] at h
    obtain ⟨a, ha, -, h0⟩ := h
    rw [List.getD_eq_getElem?_getD, List.getElem?_eq_getElem ha, Option.getD_some] at h0
    have := hs _ (List.getElem_mem ha)
    omega
  rw [if_neg hne]
  simp only [tens_shape]
  rw [mapM_ok _ _ (fun r => maxFiber s i r v), Res.ok_bind]
  · unfold tens
    rw [prod_axis s i hi]
    simp [pure, Except.pure]
  · intro r hr
    rw [List.mem_range, prod_axis s i hi] at hr
    obtain ⟨j, hj, hc⟩ := coordAt_surj s hs i r hi hr
    have hm := (mem_fiber_axis s i r j hi).mpr ⟨hj, hc⟩
    have hmap : (fiber s (keepShape (fun a => a != i) s) r).map (fun j => ((tens s v).data[j]?).getD 0) =
        (fiber s (keepShape (fun a => a != i) s) r).map v := by
      apply List.map_congr_left
      intro j hj
      exact getD_tens s v j (mem_fiber.mp hj).1
    rw [hmap]
    unfold maxFiber
    cases hl : (fiber s (keepShape (fun a => a != i) s) r).map v with
    | nil =>
      rw [List.map_eq_nil_iff] at hl
      rw [hl] at hm; simp at hm
    | cons x xs => rfl

/-- the accumulator used for scaling: `c0 g² + b2 min_i μ_i` -/
def sm3Acc (b2 : α) (s : List ℕ) (g : ℕ → α) (M : ℕ → ℕ → α) (j : ℕ) : α :=
  (if !JOps.eqb b2 1 then 1 - b2 else 1) * ipow (g j) 2 +
    b2 * minAxes M (fun i => coordAt s i j) (s.length - 1)

/-- the per-axis accumulators of one leaf -/
def axTens (s : List ℕ) (M : ℕ → ℕ → α) : List (Tensor α) :=
  (List.range s.length).map (fun i => tens [s.getD i 1] (M i))

theorem sm3NewAccum_tens (b2 : α) (s : List ℕ) (hs : s ≠ []) (g : ℕ → α) (M : ℕ → ℕ → α) :
    sm3NewAccum b2 (tens s g)
      ((List.range s.length).map (fun i => tens (keepShape (fun a => a != i) s) (M i))) =
      .ok (tens s (sm3Acc b2 s g M)) := by
  unfold sm3NewAccum
  by_cases h : s.length < 2
  · rw [if_pos (show (tens s g).shape.length < 2 from h)]
    match s, hs, h with
    | [d], _, _ =>
      have hk : keepShape (fun a => a != 0) [d] = [d] := rfl
      simp only [List.length_singleton, List.range_one, List.map_cons, List.map_nil, hk, listGet,
        List.getElem?_cons_zero, Res.ok_bind]
      rw [bop_tens]
      congr 1
      apply tens_congr
      intro j _
      simp [sm3Acc, minAxes, coordAt, unravel]
  · rw [if_neg (show ¬ (tens s g).shape.length < 2 from h)]
    have hlen : s.length - 1 + 1 = s.length := by omega
    obtain ⟨V, h1, h2⟩ := reduceMin_axes s M (s.length - 1) (by omega)
    rw [hlen] at h1
    have hk : keepShape (fun a => decide (s.length - 1 < a)) s = s := by
      rw [keepShape_congr _ (fun _ => false) s (by intro a ha; simp; omega)]
      exact keepShape_none _ (fun _ => rfl) s
    rw [hk] at h1 h2
    rw [h1, Res.ok_bind, bop_tens]
    congr 1
    apply tens_congr
    intro j hj
    have := h2 j hj
    rw [bprojE_self _ _ hj] at this
    rw [this]
    rfl

theorem sm3NewMu_tens (s : List ℕ) (hs : s ≠ []) (hp : ∀ d ∈ s, 0 < d) (A : ℕ → α) :
    (List.range s.length).mapM (fun i => sm3NewMu (tens s A) i) =
      .ok (axTens s (fun i r => maxFiber s i r A)) := by
  unfold axTens
  apply mapM_ok
  intro i hi
  rw [List.mem_range] at hi
  unfold sm3NewMu
  by_cases h : s.length < 2
  · rw [if_pos (show (tens s A).shape.length < 2 from h)]
    match s, hs, h with
    | [d], _, _ =>
      have hi0 : i = 0 := by simpa using hi
      subst hi0
      congr 1
      show tens [d] A = tens [d] _
      apply tens_congr
      intro j hj
      have hf : fiber [d] (keepShape (fun a => a != 0) [d]) j = [j] := by
        have hmem : ∀ x, x ∈ fiber [d] (keepShape (fun a => a != 0) [d]) j ↔ x = j := by
          intro x
          rw [mem_fiber_axis [d] 0 j x (by simp)]
          simp [coordAt, unravel]
          rintro rfl; simpa using hj
        have hnd : (fiber [d] (keepShape (fun a => a != 0) [d]) j).Nodup := List.nodup_range.filter _
        generalize fiber [d] (keepShape (fun a => a != 0) [d]) j = l at hmem hnd
        match l, hmem, hnd with
        | [], hmem, _ => exact absurd ((hmem j).mpr rfl) (by simp)
        | [x], hmem, _ => rw [(hmem x).mp (by simp)]
        | x :: y :: l, hmem, hnd =>
          have h1 := (hmem x).mp (by simp)
          have h2 := (hmem y).mp (by simp)
          subst h1 h2
          simp at hnd
      show A j = maxFiber [d] 0 j A
      unfold maxFiber
      rw [hf]
      rfl
  · rw [if_neg (show ¬ (tens s A).shape.length < 2 from h)]; exact maxOther_tens s hp i hi A

/-- the state of `scale_by_sm3` -/
def sm3State (σ : Spec) (M : ℕ → ℕ → ℕ → α) (ν : ℕ → ℕ → α) : SM3State α :=
  ⟨σ.mapIdx (fun k s => axTens s (M k)), mk σ ν⟩

theorem sm3_init_mk (σ : Spec) (p : ℕ → ℕ → α) (b1 b2 eps : α) :
    (scaleBySM3 b1 b2 eps).init (mk σ p) = .ok (sm3State σ (fun _ _ _ => 0) (fun _ _ => 0)) := by
  have h : (mk σ p).map (fun x => x.shape.map (fun s => tens [s] (fun _ => (0 : α)))) =
      σ.mapIdx (fun _ s => axTens s (fun _ _ => 0)) := by
    unfold mk
    rw [PyTree.map_mapIdx]
    apply PyTree.mapIdx_congr
    intro k s _
    unfold axTens
    apply List.ext_getElem
    · simp
    · intro i h1 h2
      have hi : i < s.length := by simpa using h1
      simp only [tens_shape, List.getElem_map, List.getElem_range]
      simp [List.getD_eq_getElem?_getD, hi]
  show Except.ok (SM3State.mk _ _) = _
  rw [h]
  have h2 : zerosLike (mk σ p) = mk σ (fun _ _ => 0) := zerosLike_mk σ p
  rw [h2]
  rfl

/-- leaves of rank at least 1 without empty axes -/
def SM3Spec (σ : Spec) : Prop := ∀ s ∈ σ.leaves, s ≠ [] ∧ ∀ d ∈ s, 0 < d

/-- `update` up to the computation of the new per-axis accumulators, which needs no axis to be non-empty -/
theorem sm3_update_pre (σ : Spec) (hσ : ∀ s ∈ σ.leaves, s ≠ []) (g : ℕ → ℕ → α) (M : ℕ → ℕ → ℕ → α) (ν : ℕ → ℕ → α)
    (pp : Option (Params α)) (b1 b2 eps : α) :
    let A : ℕ → ℕ → α := fun k => sm3Acc b2 ((σ.leaves[k]?).getD []) (g k) (M k)
    let ν' : ℕ → ℕ → α := fun k i => (1 - b1) * ipow (g k i * invSqrtPos eps (A k i)) 1 + b1 * ν k i
    (scaleBySM3 b1 b2 eps).update (mk σ g) (sm3State σ M ν) pp =
      (PyTree.mapM (fun (x : Tensor α) =>
        (List.range x.shape.length).mapM (fun i => sm3NewMu x i)) (mk σ A) >>= fun mu' =>
      .ok (mk σ ν', (⟨mu', mk σ ν'⟩ : SM3State α))) := by
  intro A ν'
  have h1 : PyTree.zipM (fun (g : Tensor α) (v : List (Tensor α)) =>
      (List.range g.shape.length).mapM (fun i => do
        let vi ← listGet v i
        vi.reshape (expandedShape g.shape i))) (mk σ g) (sm3State σ M ν).mu =
      .ok (σ.mapIdx (fun k s =>
        (List.range s.length).map (fun i => tens (keepShape (fun a => a != i) s) (M k i)))) := by
    unfold mk sm3State
    apply PyTree.zipM_mapIdx
    intro k s hk
    simp only [tens_shape]
    apply mapM_ok
    intro i hi
    rw [List.mem_range] at hi
    unfold axTens listGet
    simp only [List.getElem?_map, List.getElem?_range hi, Option.map_some, Res.ok_bind]
    unfold Tensor.reshape
    rw [expandedShape_eq s i hi, prod_axis s i hi, if_pos (by simp)]
    unfold tens
    rw [prod_axis s i hi]
    simp
  have h2 : PyTree.zipM (sm3NewAccum b2) (mk σ g) (σ.mapIdx (fun k s =>
        (List.range s.length).map (fun i => tens (keepShape (fun a => a != i) s) (M k i)))) =
      .ok (mk σ A) := by
    unfold mk
    apply PyTree.zipM_mapIdx
    intro k s hk
    rw [sm3NewAccum_tens b2 s (hσ s (List.mem_of_getElem? hk))]
    simp only [A, hk, Option.getD_some]
  show (PyTree.zipM (fun (g : Tensor α) (v : List (Tensor α)) =>
      (List.range g.shape.length).mapM (fun i => do
        let vi ← listGet v i
        vi.reshape (expandedShape g.shape i))) (mk σ g) (sm3State σ M ν).mu >>= fun mu =>
      PyTree.zipM (sm3NewAccum b2) (mk σ g) mu >>= fun accum =>
      tzip (fun g a => g * a) (mk σ g) (tmap (invSqrtPos eps) accum) >>= fun up =>
      updateMoment up (mk σ ν) b1 1 >>= fun nu =>
      PyTree.mapM (fun (x : Tensor α) =>
        (List.range x.shape.length).mapM (fun i => sm3NewMu x i)) accum >>= fun mu' =>
      .ok (nu, (⟨mu', nu⟩ : SM3State α))) = _
  rw [h1, Res.ok_bind, h2, Res.ok_bind, tmap_mk, tzip_mk, Res.ok_bind, updateMoment_mk, Res.ok_bind]

theorem sm3_update_mk (σ : Spec) (hσ : SM3Spec σ) (g : ℕ → ℕ → α) (M : ℕ → ℕ → ℕ → α) (ν : ℕ → ℕ → α)
    (pp : Option (Params α)) (b1 b2 eps : α) :
    let A : ℕ → ℕ → α := fun k => sm3Acc b2 ((σ.leaves[k]?).getD []) (g k) (M k)
    let ν' : ℕ → ℕ → α := fun k i => (1 - b1) * ipow (g k i * invSqrtPos eps (A k i)) 1 + b1 * ν k i
    (scaleBySM3 b1 b2 eps).update (mk σ g) (sm3State σ M ν) pp =
      .ok (mk σ ν', sm3State σ (fun k i r => maxFiber ((σ.leaves[k]?).getD []) i r (A k)) ν') := by
  intro A ν'
  have h3 : PyTree.mapM (fun (x : Tensor α) =>
      (List.range x.shape.length).mapM (fun i => sm3NewMu x i)) (mk σ A) =
      .ok (σ.mapIdx (fun k s => axTens s (fun i r => maxFiber ((σ.leaves[k]?).getD []) i r (A k)))) := by
    unfold mk
    apply PyTree.mapM_mapIdx
    intro k s hk
    obtain ⟨hs1, hs2⟩ := hσ s (List.mem_of_getElem? hk)
    simp only [tens_shape]
    rw [sm3NewMu_tens s hs1 hs2]
    simp only [hk, Option.getD_some]
  rw [sm3_update_pre σ (fun s hs => (hσ s hs).1), h3, Res.ok_bind]
  rfl

end
end Optax
