import Verif.Lemmas.Steps
import Mathlib.Data.List.Forall2
import Mathlib.Algebra.BigOperators.Group.List.Basic

/-! Broadcasting and reductions along axes. -/

set_option linter.unusedSectionVars false
set_option linter.unusedSimpArgs false

namespace Optax
namespace Tensor

variable {α β γ : Type}

/-- `s'` is `s` with some dimensions replaced by 1 -/
def Sub (s' s : List ℕ) : Prop := List.Forall₂ (fun e d => e = d ∨ e = 1) s' s

theorem Sub.refl (s : List ℕ) : Sub s s := by
  unfold Sub
  induction s with
  | nil => exact .nil
  | cons d s ih => exact .cons (.inl rfl) ih

theorem Sub.length {s' s : List ℕ} (h : Sub s' s) : s'.length = s.length := List.Forall₂.length_eq h

/-- projection of flat indices along `Sub`, recursively -/
def bprojE : List ℕ → List ℕ → ℕ → ℕ
  | _ :: ds, e :: es, j => (if e = 1 then 0 else j / ds.prod) * es.prod + bprojE ds es (j % ds.prod)
  | _, _, _ => 0

theorem unravel_length (s : List ℕ) (j : ℕ) : (unravel s j).length = s.length := by
  induction s generalizing j with
  | nil => rfl
  | cons d s ih => simp [unravel, ih]

theorem bproj_eq (s s' : List ℕ) (h : s'.length = s.length) (j : ℕ) : bproj s s' j = bprojE s s' j := by
  unfold bproj
  rw [h, Nat.sub_self, List.drop_zero]
  induction s generalizing s' j with
  | nil => cases s' with
    | nil => rfl
    | cons => simp at h
  | cons d s ih => cases s' with
    | nil => simp at h
    | cons e es =>
      simp only [unravel, List.zipWith_cons_cons, ravel, bprojE]
      rw [ih es (by simpa using h)]

theorem bprojE_lt {s' s : List ℕ} (h : Sub s' s) (j : ℕ) (hj : j < s.prod) : bprojE s s' j < s'.prod := by
  induction h generalizing j with
  | nil => simp [bprojE]
  | @cons e d es ds hed h ih =>
    simp only [bprojE, List.prod_cons] at hj ⊢
    have hp : 0 < ds.prod := by
      rcases Nat.eq_zero_or_pos ds.prod with h0 | h0
      · rw [h0, Nat.mul_zero] at hj; omega
      · exact h0
    have h1 := ih (j % ds.prod) (Nat.mod_lt _ hp)
    by_cases he : e = 1
    · rw [if_pos he, he]; omega
    · rw [if_neg he]
      have hed' : e = d := by tauto
      have h2 : j / ds.prod < e := by rw [hed']; exact Nat.div_lt_of_lt_mul (by rwa [Nat.mul_comm])
      calc j / ds.prod * es.prod + bprojE ds es (j % ds.prod)
          < j / ds.prod * es.prod + es.prod := by omega
        _ = (j / ds.prod + 1) * es.prod := by ring
        _ ≤ e * es.prod := Nat.mul_le_mul_right _ h2

theorem bprojE_self (s : List ℕ) (j : ℕ) (hj : j < s.prod) : bprojE s s j = j := by
  induction s generalizing j with
  | nil => simp at hj; simp [bprojE, hj]
  | cons d ds ih =>
    simp only [bprojE, List.prod_cons] at hj ⊢
    have hp : 0 < ds.prod := by
      rcases Nat.eq_zero_or_pos ds.prod with h0 | h0
      · rw [h0, Nat.mul_zero] at hj; omega
      · exact h0
    rw [ih _ (Nat.mod_lt _ hp)]
    by_cases hd : d = 1
    · rw [if_pos hd]
      subst hd
      rw [Nat.one_mul] at hj
      rw [Nat.zero_mul, Nat.zero_add, Nat.mod_eq_of_lt hj]
    · rw [if_neg hd]; exact Nat.div_add_mod' j ds.prod

theorem bprojE_comp {s'' s' s : List ℕ} (h' : Sub s'' s') (h : Sub s' s) (j : ℕ) (hj : j < s.prod) :
    bprojE s' s'' (bprojE s s' j) = bprojE s s'' j := by
  induction h generalizing s'' j with
  | nil => cases h'; rfl
  | @cons e d es ds hed h ih =>
    cases h' with
    | @cons e' _ es' _ hed' h' =>
      simp only [bprojE, List.prod_cons] at hj ⊢
      have hp : 0 < ds.prod := by
        rcases Nat.eq_zero_or_pos ds.prod with h0 | h0
        · rw [h0, Nat.mul_zero] at hj; omega
        · exact h0
      have hlt := bprojE_lt h (j % ds.prod) (Nat.mod_lt _ hp)
      rw [Nat.mul_comm _ es.prod, Nat.mul_add_mod, Nat.mod_eq_of_lt hlt, ih h' _ (Nat.mod_lt _ hp)]
      congr 2
      by_cases he' : e' = 1
      · simp [he']
      · rw [if_neg he', if_neg he']
        have he : e ≠ 1 := by rcases hed' with h | h <;> omega
        rw [if_neg he]
        rw [Nat.mul_add_div (by omega), Nat.div_eq_of_lt hlt, Nat.add_zero]

/-! ### shapes of broadcast results -/

/-- pointwise broadcastable -/
def Compat (xs ys : List ℕ) : Prop := List.Forall₂ (fun x y => x = y ∨ x = 1 ∨ y = 1) xs ys

/-- pointwise broadcast -/
def bjoin (xs ys : List ℕ) : List ℕ := List.zipWith (fun x y => if x = 1 then y else x) xs ys

theorem bshapeRev_eq {xs ys : List ℕ} (h : Compat xs ys) : bshapeRev xs ys = some (bjoin xs ys) := by
  unfold Compat at h
  induction h with
  | nil => rfl
  | @cons x y xs ys hxy h ih =>
    simp only [bshapeRev, ih, bjoin, List.zipWith_cons_cons]
    by_cases h1 : x = y
    · subst h1; by_cases h2 : x = 1 <;> simp [h2, bjoin]
    · by_cases h2 : x = 1
      · simp [h1, h2, bjoin]
      · have h3 : y = 1 := by tauto
        simp [h1, h2, h3, bjoin]

theorem bshape_eq {xs ys : List ℕ} (h : Compat xs ys) : bshape xs ys = some (bjoin xs ys) := by
  unfold bshape
  have h' : Compat xs.reverse ys.reverse := List.rel_reverse h
  rw [bshapeRev_eq h', Option.map_some]
  congr 1
  unfold bjoin
  rw [← List.reverse_zipWith (by simpa using List.Forall₂.length_eq h)]
  simp

theorem sub_bjoin_left {xs ys : List ℕ} (h : Compat xs ys) : Sub xs (bjoin xs ys) := by
  unfold Compat at h
  induction h with
  | nil => exact .nil
  | @cons x y xs ys hxy h ih =>
    refine .cons ?_ ih
    by_cases h1 : x = 1 <;> simp [h1]

theorem sub_bjoin_right {xs ys : List ℕ} (h : Compat xs ys) : Sub ys (bjoin xs ys) := by
  unfold Compat at h
  induction h with
  | nil => exact .nil
  | @cons x y xs ys hxy h ih =>
    refine .cons ?_ ih
    by_cases h1 : x = 1
    · simp [h1]
    · rcases hxy with h | h | h
      · simp [h]
      · exact absurd h h1
      · simp [h]

theorem Sub.compat_left {s' s : List ℕ} (h : Sub s' s) : Compat s' s ∧ bjoin s' s = s := by
  unfold Sub at h
  induction h with
  | nil => exact ⟨.nil, rfl⟩
  | @cons e d es ds hed h ih =>
    refine ⟨.cons (by tauto) ih.1, ?_⟩
    have := ih.2
    simp only [bjoin, List.zipWith_cons_cons] at this ⊢
    rw [this]
    congr 1
    by_cases he : e = 1
    · simp [he]
    · rw [if_neg he]; tauto

theorem Sub.compat_right {s' s : List ℕ} (h : Sub s' s) : Compat s s' ∧ bjoin s s' = s := by
  unfold Sub at h
  induction h with
  | nil => exact ⟨.nil, rfl⟩
  | @cons e d es ds hed h ih =>
    refine ⟨.cons (by tauto) ih.1, ?_⟩
    have := ih.2
    simp only [bjoin, List.zipWith_cons_cons] at this ⊢
    rw [this]
    congr 1
    by_cases hd : d = 1
    · rw [if_pos hd]; rcases hed with h | h <;> omega
    · rw [if_neg hd]

theorem mapM_ok {δ ε : Type} (l : List δ) (f : δ → Res ε) (g : δ → ε) (h : ∀ x ∈ l, f x = .ok (g x)) :
    l.mapM f = .ok (l.map g) := by
  induction l with
  | nil => rfl
  | cons x l ih =>
    rw [List.mapM_cons, h x (by simp), Res.ok_bind, ih (fun y hy => h y (by simp [hy]))]
    rfl

/-- a binary operation with broadcasting between arrays of the same rank -/
theorem bop_compat (f : α → β → γ) {s1 s2 : List ℕ} (h : Compat s1 s2) (v : ℕ → α) (w : ℕ → β) :
    bop f (tens s1 v) (tens s2 w) =
      .ok (tens (bjoin s1 s2) (fun j => f (v (bprojE (bjoin s1 s2) s1 j)) (w (bprojE (bjoin s1 s2) s2 j)))) := by
  by_cases he : s1 = s2
  · subst he
    rw [bop_tens]
    have hj : bjoin s1 s1 = s1 := (Sub.refl s1).compat_left.2
    rw [hj]
    congr 1
    apply tens_congr
    intro j hj
    rw [bprojE_self _ _ hj]
  · unfold bop
    rw [if_neg (by simpa using he)]
    simp only [tens_shape, bshape_eq h]
    have h1 := sub_bjoin_left h
    have h2 := sub_bjoin_right h
    rw [mapM_ok _ _ (fun j => f (v (bprojE (bjoin s1 s2) s1 j)) (w (bprojE (bjoin s1 s2) s2 j)))]
    · rfl
    · intro j hj
      rw [List.mem_range] at hj
      rw [bproj_eq _ _ h1.length, bproj_eq _ _ h2.length, tens_get _ _ _ (bprojE_lt h1 j hj),
        tens_get _ _ _ (bprojE_lt h2 j hj)]

/-- full array with a reduced one -/
theorem bop_sub_right (f : α → β → γ) {s s' : List ℕ} (h : Sub s' s) (v : ℕ → α) (w : ℕ → β) :
    bop f (tens s v) (tens s' w) = .ok (tens s (fun j => f (v j) (w (bprojE s s' j)))) := by
  rw [bop_compat f h.compat_right.1, h.compat_right.2]
  congr 1
  apply tens_congr
  intro j hj
  rw [bprojE_self _ _ hj]

/-- reduced array with a full one -/
theorem bop_sub_left (f : α → β → γ) {s s' : List ℕ} (h : Sub s' s) (v : ℕ → β) (w : ℕ → α) :
    bop f (tens s' w) (tens s v) = .ok (tens s (fun j => f (w (bprojE s s' j)) (v j))) := by
  rw [bop_compat f h.compat_left.1, h.compat_left.2]
  congr 1
  apply tens_congr
  intro j hj
  rw [bprojE_self _ _ hj]

/-! ### scalars -/

theorem bshape_nil_right (s : List ℕ) : bshape s [] = some s := by
  unfold bshape
  cases h : s.reverse with
  | nil => rw [List.reverse_eq_nil_iff] at h; subst h; rfl
  | cons x xs =>
    simp only [List.reverse_nil, bshapeRev, Option.map_some]
    rw [← h, List.reverse_reverse]

theorem bshape_nil_left (s : List ℕ) : bshape [] s = some s := by
  unfold bshape
  simp [bshapeRev]

theorem bproj_self (s : List ℕ) (j : ℕ) (hj : j < s.prod) : bproj s s j = j := by
  rw [bproj_eq _ _ rfl, bprojE_self _ _ hj]

theorem bproj_nil (s : List ℕ) (j : ℕ) : bproj s [] j = 0 := by
  simp [bproj, ravel]

theorem bop_scalar_right (f : α → β → γ) (s : List ℕ) (v : ℕ → α) (w : β) :
    bop f (tens s v) (scalar w) = .ok (tens s (fun j => f (v j) w)) := by
  by_cases he : s = []
  · subst he; rfl
  · unfold bop
    rw [if_neg (by simpa [scalar] using he)]
    simp only [tens_shape, scalar, bshape_nil_right]
    rw [mapM_ok _ _ (fun j => f (v j) w)]
    · rfl
    · intro j hj
      rw [List.mem_range] at hj
      rw [bproj_self _ _ hj, bproj_nil, tens_get _ _ _ hj]
      rfl

theorem bop_scalar_left (f : α → β → γ) (s : List ℕ) (v : ℕ → β) (w : α) :
    bop f (scalar w) (tens s v) = .ok (tens s (fun j => f w (v j))) := by
  by_cases he : s = []
  · subst he; rfl
  · unfold bop
    rw [if_neg (by simpa [scalar] using fun h => he h)]
    simp only [tens_shape, scalar, bshape_nil_left]
    rw [mapM_ok _ _ (fun j => f w (v j))]
    · rfl
    · intro j hj
      rw [List.mem_range] at hj
      rw [bproj_self _ _ hj, bproj_nil, tens_get _ _ _ hj]
      rfl

/-! ### reductions -/

theorem keepShape_cons (ax : ℕ → Bool) (d : ℕ) (ds : List ℕ) :
    keepShape ax (d :: ds) = (if ax 0 then 1 else d) :: keepShape (fun a => ax (a + 1)) ds := by
  simp [keepShape, List.mapIdx_cons]

theorem keepShape_sub (ax : ℕ → Bool) (s : List ℕ) : Sub (keepShape ax s) s := by
  induction s generalizing ax with
  | nil => exact .nil
  | cons d ds ih =>
    rw [keepShape_cons]
    refine .cons ?_ (ih _)
    by_cases h : ax 0 <;> simp [h]

theorem keepShape_all (ax : ℕ → Bool) (h : ∀ a, ax a = true) (s : List ℕ) :
    keepShape ax s = List.replicate s.length 1 := by
  induction s generalizing ax with
  | nil => rfl
  | cons d ds ih => rw [keepShape_cons, ih _ (fun a => h (a + 1)), h 0]; rfl

theorem keepShape_none (ax : ℕ → Bool) (h : ∀ a, ax a = false) (s : List ℕ) :
    keepShape ax s = s := by
  induction s generalizing ax with
  | nil => rfl
  | cons d ds ih => rw [keepShape_cons, ih _ (fun a => h (a + 1)), h 0]; rfl

theorem prod_ones (n : ℕ) : (List.replicate n 1).prod = 1 := by simp

theorem bprojE_ones (s : List ℕ) (n : ℕ) (j : ℕ) (h : s.length = n) : bprojE s (List.replicate n 1) j = 0 := by
  induction s generalizing j n with
  | nil => subst h; rfl
  | cons d ds ih =>
    subst h
    simp only [List.length_cons, List.replicate_succ, bprojE, if_true, Nat.zero_mul, Nat.zero_add]
    exact ih _ _ rfl

/-- reducing all axes but the first: the projection is the row -/
theorem bprojE_rows (d : ℕ) (ds : List ℕ) (j : ℕ) (hj : j < d * ds.prod) :
    bprojE (d :: ds) (d :: List.replicate ds.length 1) j = j / ds.prod := by
  simp only [bprojE, prod_ones, bprojE_ones _ _ _ rfl, Nat.add_zero, Nat.mul_one]
  by_cases hd : d = 1
  · rw [if_pos hd]
    subst hd
    rw [Nat.one_mul] at hj
    exact (Nat.div_eq_of_lt hj).symm
  · rw [if_neg hd]

/-- reducing the first axis: the projection is the remainder -/
theorem bprojE_cols (d : ℕ) (ds : List ℕ) (j : ℕ) (hp : 0 < ds.prod) :
    bprojE (d :: ds) (1 :: ds) j = j % ds.prod := by
  simp only [bprojE, if_true, Nat.zero_mul, Nat.zero_add]
  exact bprojE_self _ _ (Nat.mod_lt _ hp)

theorem getD_tens [Zero α] (s : List ℕ) (v : ℕ → α) (j : ℕ) (hj : j < s.prod) :
    ((tens s v).data[j]?).getD 0 = v j := by
  rw [tens_get _ _ _ hj]; rfl

theorem mem_fiber {s s' : List ℕ} {i' j : ℕ} : j ∈ fiber s s' i' ↔ j < s.prod ∧ bproj s s' j = i' := by
  simp [fiber]

/-- sums with keepdims -/
theorem sumKeep_tens [Add α] [Zero α] (ax : ℕ → Bool) (s : List ℕ) (v : ℕ → α) :
    sumKeep ax (tens s v) =
      tens (keepShape ax s) (fun i' => ((fiber s (keepShape ax s) i').map v).sum) := by
  unfold sumKeep
  simp only [tens_shape]
  apply tens_congr
  intro i' _
  congr 1
  apply List.map_congr_left
  intro j hj
  exact getD_tens s v j (mem_fiber.mp hj).1

end Tensor
end Optax
