import Verif.Lemmas.Axes
import Verif.Props.Mismatch
import Verif.Props.Loss

/-!
# C94: `apply_updates` on arrays of different shapes follows numpy broadcasting

The specification is the numpy rule, stated on axes counted from the last one, and on row-major positions.
-/

set_option linter.unusedSectionVars false
set_option linter.unusedSimpArgs false
set_option linter.unusedVariables false

namespace Optax

/-! ## Specification -/

/-- size of axis `i` counted from the last; an axis the shape does not have counts as size 1 -/
def axisR (s : List ℕ) (i : ℕ) : ℕ := s.reverse.getD i 1

/-- the numpy rule: aligned at the last axis, sizes are equal or one of them is 1 -/
def Broadcastable (s t : List ℕ) : Prop := ∀ i, axisR s i = axisR t i ∨ axisR s i = 1 ∨ axisR t i = 1

/-- the shape of the result -/
def IsBroadcast (s t out : List ℕ) : Prop :=
  out.length = max s.length t.length ∧ ∀ i, axisR out i = if axisR s i = 1 then axisR t i else axisR s i

/-- row-major position of a multi-index -/
def rowMajor (s ix : List ℕ) : ℕ := (s.zip ix).foldl (fun acc dk => acc * dk.1 + dk.2) 0

/-- a multi-index inside a shape -/
def Inside (ix s : List ℕ) : Prop := List.Forall₂ (· < ·) ix s

/-- the multi-index at which an operand of shape `s` is read for the entry `ix` of the result: the last axes, 0 in axes of size 1 -/
def readAt (s ix : List ℕ) : List ℕ := List.zipWith (fun d k => if d = 1 then 0 else k) s (ix.drop (ix.length - s.length))

/-- `z` is `f(x, y)` with numpy broadcasting -/
def Broadcasted {α β γ : Type} (f : α → β → γ) (x : Tensor α) (y : Tensor β) (z : Tensor γ) : Prop :=
  IsBroadcast x.shape y.shape z.shape ∧ z.WF ∧ ∀ ix, Inside ix z.shape →
    ∃ a b, x.data[rowMajor x.shape (readAt x.shape ix)]? = some a ∧ y.data[rowMajor y.shape (readAt y.shape ix)]? = some b ∧
      z.data[rowMajor z.shape ix]? = some (f a b)

/-! ## Proofs -/

theorem bshapeRev_some : ∀ (xs ys : List ℕ), (∀ i, xs.getD i 1 = ys.getD i 1 ∨ xs.getD i 1 = 1 ∨ ys.getD i 1 = 1) →
    ∃ zs, Tensor.bshapeRev xs ys = some zs ∧ zs.length = max xs.length ys.length ∧
      ∀ i, zs.getD i 1 = if xs.getD i 1 = 1 then ys.getD i 1 else xs.getD i 1
  | [], ys, _ => ⟨ys, by simp [Tensor.bshapeRev], by simp, by simp⟩
  | x :: xs, [], _ => ⟨x :: xs, by simp [Tensor.bshapeRev], by simp, fun i => by
      simp only [List.getD_nil]; split <;> simp_all⟩
  | x :: xs, y :: ys, h => by
    obtain ⟨zs, h1, h2, h3⟩ := bshapeRev_some xs ys (fun i => by simpa using h (i + 1))
    have h0 := h 0
    simp only [List.getD_cons_zero] at h0
    simp only [Tensor.bshapeRev, h1]
    by_cases e : x = y
    · refine ⟨x :: zs, by simp [e], by simp [h2], fun i => ?_⟩
      cases i with
      | zero => simp [e]
      | succ i => simpa using h3 i
    · rw [if_neg e]
      by_cases e1 : x = 1
      · refine ⟨y :: zs, by simp [e1], by simp [h2], fun i => ?_⟩
        cases i with
        | zero => simp [e1]
        | succ i => simpa using h3 i
      · rw [if_neg e1]
        have e2 : y = 1 := by rcases h0 with h0 | h0 | h0 <;> [exact (e h0).elim; exact (e1 h0).elim; exact h0]
        refine ⟨x :: zs, by simp [e2], by simp [h2], fun i => ?_⟩
        cases i with
        | zero => simp [e1]
        | succ i => simpa using h3 i

theorem bshapeRev_none : ∀ (xs ys : List ℕ), ¬ (∀ i, xs.getD i 1 = ys.getD i 1 ∨ xs.getD i 1 = 1 ∨ ys.getD i 1 = 1) →
    Tensor.bshapeRev xs ys = none
  | [], ys, h => (h fun i => by simp).elim
  | x :: xs, [], h => (h fun i => by simp).elim
  | x :: xs, y :: ys, h => by
    simp only [Tensor.bshapeRev]
    by_cases h0 : x = y ∨ x = 1 ∨ y = 1
    · have : Tensor.bshapeRev xs ys = none := bshapeRev_none xs ys fun hh => h fun i => by
        cases i with
        | zero => simpa using h0
        | succ i => simpa using hh i
      simp [this]
    · push Not at h0
      simp [h0]

theorem bshape_some {s t : List ℕ} (h : Broadcastable s t) : ∃ out, Tensor.bshape s t = some out ∧ IsBroadcast s t out := by
  obtain ⟨zs, h1, h2, h3⟩ := bshapeRev_some s.reverse t.reverse h
  refine ⟨zs.reverse, by simp [Tensor.bshape, h1], by simpa using h2, fun i => ?_⟩
  unfold axisR
  rw [List.reverse_reverse]
  exact h3 i

theorem bshape_none {s t : List ℕ} (h : ¬ Broadcastable s t) : Tensor.bshape s t = none := by
  simp [Tensor.bshape, bshapeRev_none _ _ h]

theorem foldl_rowMajor : ∀ (s ix : List ℕ) (a : ℕ), ix.length = s.length →
    (s.zip ix).foldl (fun acc dk => acc * dk.1 + dk.2) a = a * s.prod + Tensor.ravel s ix
  | [], [], a, _ => by simp [Tensor.ravel]
  | d :: ds, k :: ks, a, h => by
    simp only [List.zip_cons_cons, List.foldl_cons, Tensor.ravel, List.prod_cons]
    rw [foldl_rowMajor ds ks _ (by simpa using h)]
    ring
  | [], _ :: _, _, h => by simp at h
  | _ :: _, [], _, h => by simp at h

theorem rowMajor_eq {s ix : List ℕ} (h : ix.length = s.length) : rowMajor s ix = Tensor.ravel s ix := by
  unfold rowMajor
  rw [foldl_rowMajor s ix 0 h, zero_mul, zero_add]

theorem ravel_lt : ∀ {s ix : List ℕ}, Inside ix s → Tensor.ravel s ix < s.prod
  | [], [], _ => by simp [Tensor.ravel]
  | d :: ds, k :: ks, h => by
    cases h with
    | cons h1 h2 =>
      have := ravel_lt h2
      simp only [Tensor.ravel, List.prod_cons]
      calc k * ds.prod + Tensor.ravel ds ks < k * ds.prod + ds.prod := by omega
        _ = (k + 1) * ds.prod := by ring
        _ ≤ d * ds.prod := Nat.mul_le_mul_right _ h1

theorem unravel_ravel : ∀ {s ix : List ℕ}, Inside ix s → Tensor.unravel s (Tensor.ravel s ix) = ix
  | [], [], _ => rfl
  | d :: ds, k :: ks, h => by
    cases h with
    | cons h1 h2 =>
      have hl := ravel_lt h2
      simp only [Tensor.ravel, Tensor.unravel]
      have e1 : (k * ds.prod + Tensor.ravel ds ks) / ds.prod = k := by
        rw [Nat.add_comm, Nat.add_mul_div_right _ _ (by omega), Nat.div_eq_of_lt hl, zero_add]
      have e2 : (k * ds.prod + Tensor.ravel ds ks) % ds.prod = Tensor.ravel ds ks := by
        rw [Nat.add_comm, Nat.add_mul_mod_self_right, Nat.mod_eq_of_lt hl]
      rw [e1, e2, unravel_ravel h2]

theorem inside_unravel : ∀ {s : List ℕ} {i : ℕ}, i < s.prod → Inside (Tensor.unravel s i) s ∧ Tensor.ravel s (Tensor.unravel s i) = i
  | [], i, h => by
    simp at h
    exact ⟨.nil, by simp [Tensor.unravel, Tensor.ravel, h]⟩
  | d :: ds, i, h => by
    simp only [List.prod_cons] at h
    have hp : 0 < ds.prod := by
      rcases Nat.eq_zero_or_pos ds.prod with e | e
      · rw [e] at h; simp at h
      · exact e
    obtain ⟨h1, h2⟩ := inside_unravel (s := ds) (Nat.mod_lt i hp)
    refine ⟨.cons (Nat.div_lt_of_lt_mul (by rwa [Nat.mul_comm])) h1, ?_⟩
    simp only [Tensor.unravel, Tensor.ravel, h2]
    exact Nat.div_add_mod' i ds.prod

/-- reading stays inside an operand -/
theorem inside_readAt {s out : List ℕ} (hl : s.length ≤ out.length) (h : ∀ i, axisR s i = 1 ∨ axisR s i = axisR out i) {ix : List ℕ}
    (hix : Inside ix out) : Inside (readAt s ix) s := by
  have hlen : ix.length = out.length := hix.length_eq
  rw [Inside, List.forall₂_iff_get]
  have hl2 : (readAt s ix).length = s.length := by simp [readAt]; omega
  refine ⟨hl2, fun j h1 h2 => ?_⟩
  have hj : ix.length - s.length + j < ix.length := by omega
  simp only [readAt, List.get_eq_getElem, List.getElem_zipWith, List.getElem_drop]
  split
  · rename_i e; omega
  · rename_i e
    have hh := h (s.length - 1 - j)
    have e1 : axisR s (s.length - 1 - j) = s[j] := by
      unfold axisR
      rw [List.getD_eq_getElem?_getD, List.getElem?_reverse (by omega), show s.length - 1 - (s.length - 1 - j) = j by omega,
        List.getElem?_eq_getElem h2]
      rfl
    have hj2 : ix.length - s.length + j < out.length := by omega
    have e2 : axisR out (s.length - 1 - j) = out[ix.length - s.length + j] := by
      unfold axisR
      rw [List.getD_eq_getElem?_getD, List.getElem?_reverse (by omega),
        show out.length - 1 - (s.length - 1 - j) = ix.length - s.length + j by omega, List.getElem?_eq_getElem hj2]
      rfl
    rw [e1, e2] at hh
    have := (List.forall₂_iff_get.mp hix).2 (ix.length - s.length + j) hj hj2
    simp only [List.get_eq_getElem] at this
    rcases hh with hh | hh
    · exact (e hh).elim
    · rw [hh]; exact this

theorem bproj_rowMajor {s out ix : List ℕ} (hix : Inside ix out) (hr : (readAt s ix).length = s.length) :
    Tensor.bproj out s (rowMajor out ix) = rowMajor s (readAt s ix) := by
  have hlen : ix.length = out.length := hix.length_eq
  unfold Tensor.bproj
  rw [rowMajor_eq hlen, unravel_ravel hix, rowMajor_eq hr, ← hlen]
  rfl

theorem IsBroadcast.left {s t out : List ℕ} (h : IsBroadcast s t out) : s.length ≤ out.length ∧ ∀ i, axisR s i = 1 ∨ axisR s i = axisR out i := by
  refine ⟨by rw [h.1]; exact le_max_left _ _, fun i => ?_⟩
  rw [h.2 i]
  by_cases e : axisR s i = 1
  · exact .inl e
  · right; rw [if_neg e]

theorem IsBroadcast.right {s t out : List ℕ} (hb : Broadcastable s t) (h : IsBroadcast s t out) :
    t.length ≤ out.length ∧ ∀ i, axisR t i = 1 ∨ axisR t i = axisR out i := by
  refine ⟨by rw [h.1]; exact le_max_right _ _, fun i => ?_⟩
  rw [h.2 i]
  split
  · exact .inr rfl
  · rename_i e
    rcases hb i with h | h | h
    · exact .inr h.symm
    · exact (e h).elim
    · exact .inl h

variable {α β γ : Type}

theorem readAt_self {s ix : List ℕ} (h : Inside ix s) : readAt s ix = ix := by
  have hl : ix.length = s.length := h.length_eq
  unfold readAt
  rw [hl, Nat.sub_self, List.drop_zero]
  clear hl
  induction h with
  | nil => rfl
  | cons h1 h2 ih =>
    simp only [List.zipWith_cons_cons, ih]
    split
    · congr 1; omega
    · rfl

theorem bop_spec (f : α → β → γ) {x : Tensor α} {y : Tensor β} (hx : x.WF) (hy : y.WF) :
    (Broadcastable x.shape y.shape → ∃ z, Tensor.bop f x y = .ok z ∧ Broadcasted f x y z) ∧
    (¬ Broadcastable x.shape y.shape → Tensor.bop f x y = .error .type) := by
  have hx' : x.data.length = x.shape.prod := hx
  have hy' : y.data.length = y.shape.prod := hy
  constructor
  · intro hb
    by_cases e : x.shape = y.shape
    · refine ⟨_, by unfold Tensor.bop; rw [if_pos e], ⟨?_, ?_⟩, ?_, ?_⟩
      · rw [← e]; simp
      · intro i; rw [← e]; simp
      · show (List.zipWith f x.data y.data).length = _
        rw [List.length_zipWith, hx', hy', ← e, Nat.min_self]
      · intro ix hix
        have hix : Inside ix x.shape := hix
        rw [← e, readAt_self hix]
        have hlt : rowMajor x.shape ix < x.shape.prod := by rw [rowMajor_eq hix.length_eq]; exact ravel_lt hix
        have h1 : rowMajor x.shape ix < x.data.length := by omega
        have h2 : rowMajor x.shape ix < y.data.length := by rw [hy', ← e]; exact hlt
        refine ⟨_, _, List.getElem?_eq_getElem h1, List.getElem?_eq_getElem h2, ?_⟩
        show (List.zipWith f x.data y.data)[rowMajor x.shape ix]? = _
        rw [List.getElem?_zipWith, List.getElem?_eq_getElem h1, List.getElem?_eq_getElem h2]
    · obtain ⟨out, h1, h2⟩ := bshape_some hb
      have hL := h2.left
      have hR := h2.right hb
      have rd : ∀ ix, Inside ix out → ∃ a b, x.data[rowMajor x.shape (readAt x.shape ix)]? = some a ∧
          y.data[rowMajor y.shape (readAt y.shape ix)]? = some b ∧
          x.data[Tensor.bproj out x.shape (rowMajor out ix)]? = some a ∧ y.data[Tensor.bproj out y.shape (rowMajor out ix)]? = some b := by
        intro ix hix
        have i1 := inside_readAt hL.1 hL.2 hix
        have i2 := inside_readAt hR.1 hR.2 hix
        rw [bproj_rowMajor hix i1.length_eq, bproj_rowMajor hix i2.length_eq]
        have l1 : rowMajor x.shape (readAt x.shape ix) < x.data.length := by
          rw [rowMajor_eq i1.length_eq, hx']; exact ravel_lt i1
        have l2 : rowMajor y.shape (readAt y.shape ix) < y.data.length := by
          rw [rowMajor_eq i2.length_eq, hy']; exact ravel_lt i2
        exact ⟨_, _, List.getElem?_eq_getElem l1, List.getElem?_eq_getElem l2, List.getElem?_eq_getElem l1, List.getElem?_eq_getElem l2⟩
      have hv : ∀ i, ∃ v : Res γ, i < out.prod → ∃ a b, x.data[Tensor.bproj out x.shape i]? = some a ∧ y.data[Tensor.bproj out y.shape i]? = some b ∧
          v = .ok (f a b) := by
        intro i
        by_cases hi : i < out.prod
        · obtain ⟨j1, j2⟩ := inside_unravel hi
          obtain ⟨a, b, -, -, h3, h4⟩ := rd _ j1
          rw [rowMajor_eq j1.length_eq, j2] at h3 h4
          exact ⟨.ok (f a b), fun _ => ⟨a, b, h3, h4, rfl⟩⟩
        · exact ⟨.error .index, fun h => (hi h).elim⟩
      have hne : 0 < out.prod → Nonempty γ := by
        intro h0
        obtain ⟨v, hv⟩ := hv 0
        obtain ⟨a, b, -⟩ := hv h0
        exact ⟨f a b⟩
      have hg : ∃ g : ℕ → Option γ, ∀ i < out.prod, ∃ c, g i = some c ∧ (match x.data[Tensor.bproj out x.shape i]?, y.data[Tensor.bproj out y.shape i]? with
          | some x, some y => (Except.ok (f x y) : Res γ)
          | _, _ => .error .index) = .ok c := by
        refine ⟨fun i => (match x.data[Tensor.bproj out x.shape i]?, y.data[Tensor.bproj out y.shape i]? with
          | some x, some y => some (f x y)
          | _, _ => none), fun i hi => ?_⟩
        obtain ⟨v, hv⟩ := hv i
        obtain ⟨a, b, h3, h4, -⟩ := hv hi
        exact ⟨f a b, by simp [h3, h4], by simp [h3, h4]⟩
      obtain ⟨xs, hxs, hlen, hget⟩ : ∃ xs : List γ, (List.range out.prod).mapM (fun i =>
          match x.data[Tensor.bproj out x.shape i]?, y.data[Tensor.bproj out y.shape i]? with
          | some x, some y => (Except.ok (f x y) : Res γ)
          | _, _ => .error .index) = .ok xs ∧ xs.length = out.prod ∧ ∀ i < out.prod, ∀ a b, x.data[Tensor.bproj out x.shape i]? = some a →
            y.data[Tensor.bproj out y.shape i]? = some b → xs[i]? = some (f a b) := by
        rcases Nat.eq_zero_or_pos out.prod with h0 | h0
        · exact ⟨[], by rw [h0]; rfl, by rw [h0]; rfl, fun i hi => by omega⟩
        · obtain ⟨c0⟩ := hne h0
          obtain ⟨g, hg⟩ := hg
          refine ⟨(List.range out.prod).map (fun i => (g i).getD c0), Tensor.mapM_ok _ _ _ (fun i hi => ?_), by simp, fun i hi a b ha hb => ?_⟩
          · obtain ⟨c, hc, hc2⟩ := hg i (List.mem_range.mp hi)
            rw [hc2, hc]; rfl
          · obtain ⟨c, hc, hc2⟩ := hg i hi
            simp only [ha, hb, Except.ok.injEq] at hc2
            rw [List.getElem?_map, List.getElem?_range hi, hc2, Option.map_some, hc]
            rfl
      refine ⟨⟨out, xs⟩, ?_, h2, hlen, ?_⟩
      · unfold Tensor.bop
        rw [if_neg e, h1]
        exact congrArg (· >>= fun xs => (Except.ok ⟨out, xs⟩ : Res (Tensor γ))) hxs
      · intro ix hix
        obtain ⟨a, b, r1, r2, r3, r4⟩ := rd ix hix
        have hlt : rowMajor out ix < out.prod := by rw [rowMajor_eq hix.length_eq]; exact ravel_lt hix
        exact ⟨a, b, r1, r2, hget _ hlt a b r3 r4⟩
  · intro hb
    have e : x.shape ≠ y.shape := fun e => hb fun i => .inl (by rw [e])
    unfold Tensor.bop
    rw [if_neg e, bshape_none hb]

namespace PyTree

mutual
theorem zipM_leaves {δ : Type} (f : β → γ → Res δ) : ∀ (t : PyTree β) (u : PyTree γ) (r : PyTree δ), zipM f t u = .ok r →
    ∀ (k : ℕ) (x : β) (y : γ), t.leaves[k]? = some x → u.leaves[k]? = some y → ∃ z, r.leaves[k]? = some z ∧ f x y = .ok z
  | leaf b, leaf c, r, h => by
    simp only [zipM, Res.bind_eq_ok] at h
    obtain ⟨z, hz, h⟩ := h
    simp only [Res.pure_eq, Except.ok.injEq] at h
    subst h
    intro k x y hx hy
    cases k with
    | zero =>
      simp [leaves] at hx hy
      subst hx hy
      exact ⟨z, by simp [leaves], hz⟩
    | succ k => simp [leaves] at hx
  | leaf _, node _ _, r, h => by simp [zipM] at h
  | node _ _, leaf _, r, h => by simp [zipM] at h
  | node t cs, node t' cs', r, h => by
    simp only [zipM] at h
    split at h
    · simp only [Res.bind_eq_ok] at h
      obtain ⟨z, hz, h⟩ := h
      simp only [Res.pure_eq, Except.ok.injEq] at h
      subst h
      exact zipML_leaves f cs cs' z hz
    · simp at h
theorem zipML_leaves {δ : Type} (f : β → γ → Res δ) : ∀ (t : List (PyTree β)) (u : List (PyTree γ)) (r : List (PyTree δ)), zipML f t u = .ok r →
    ∀ (k : ℕ) (x : β) (y : γ), (leavesL t)[k]? = some x → (leavesL u)[k]? = some y → ∃ z, (leavesL r)[k]? = some z ∧ f x y = .ok z
  | [], [], r, h => by intro k x y hx; simp [leavesL] at hx
  | [], _ :: _, r, h => by simp [zipML] at h
  | _ :: _, [], r, h => by simp [zipML] at h
  | c :: cs, d :: ds, r, h => by
    simp only [zipML, Res.bind_eq_ok] at h
    obtain ⟨e, he, es, hes, h⟩ := h
    simp only [Res.pure_eq, Except.ok.injEq] at h
    subst h
    have hst := zipM_struct f c d e he
    have n1 : c.leaves.length = d.leaves.length := by
      have := congrArg PyTree.leaves hst.1
      simpa [struct, leaves_map] using congrArg List.length this
    have n2 : e.leaves.length = c.leaves.length := by
      have := congrArg PyTree.leaves hst.2
      simpa [struct, leaves_map] using congrArg List.length this
    intro k x y hx hy
    simp only [leavesL] at hx hy ⊢
    by_cases hk : k < c.leaves.length
    · rw [List.getElem?_append_left hk] at hx
      rw [List.getElem?_append_left (by omega)] at hy ⊢
      exact zipM_leaves f c d e he k x y hx hy
    · rw [List.getElem?_append_right (by omega)] at hx hy ⊢
      rw [← n1] at hy
      rw [n2]
      exact zipML_leaves f cs ds es hes _ x y hx hy
end

mutual
theorem zipM_of_leaves {δ : Type} (f : β → γ → Res δ) : ∀ (t : PyTree β) (u : PyTree γ), t.struct = u.struct →
    (∀ (k : ℕ) (x : β) (y : γ), t.leaves[k]? = some x → u.leaves[k]? = some y → ∃ z, f x y = .ok z) → ∃ r, zipM f t u = .ok r
  | leaf b, leaf c, _, h => by
    obtain ⟨z, hz⟩ := h 0 b c rfl rfl
    exact ⟨leaf z, by simp [zipM, hz]⟩
  | leaf _, node _ _, h, _ => by simp [struct, map] at h
  | node _ _, leaf _, h, _ => by simp [struct, map] at h
  | node t cs, node t' cs', h, hl => by
    simp only [struct, map, node.injEq] at h
    obtain ⟨r, hr⟩ := zipML_of_leaves f cs cs' h.2 hl
    exact ⟨node t r, by simp [zipM, h.1, hr]⟩
theorem zipML_of_leaves {δ : Type} (f : β → γ → Res δ) : ∀ (t : List (PyTree β)) (u : List (PyTree γ)), mapL (fun _ => ()) t = mapL (fun _ => ()) u →
    (∀ (k : ℕ) (x : β) (y : γ), (leavesL t)[k]? = some x → (leavesL u)[k]? = some y → ∃ z, f x y = .ok z) → ∃ r, zipML f t u = .ok r
  | [], [], _, _ => ⟨[], rfl⟩
  | [], _ :: _, h, _ => by simp [mapL] at h
  | _ :: _, [], h, _ => by simp [mapL] at h
  | c :: cs, d :: ds, h, hl => by
    simp only [mapL, List.cons.injEq] at h
    have n1 : c.leaves.length = d.leaves.length := by
      have := congrArg PyTree.leaves h.1
      simpa [leaves_map] using congrArg List.length this
    obtain ⟨e, he⟩ := zipM_of_leaves f c d h.1 fun k x y hx hy => by
      have k1 : k < c.leaves.length := (List.getElem?_eq_some_iff.mp hx).1
      exact hl k x y (by simp only [leavesL]; rw [List.getElem?_append_left k1, hx])
        (by simp only [leavesL]; rw [List.getElem?_append_left (by omega), hy])
    obtain ⟨es, hes⟩ := zipML_of_leaves f cs ds h.2 fun k x y hx hy =>
      hl (c.leaves.length + k) x y (by simp only [leavesL]; rw [List.getElem?_append_right (by omega)]; simpa using hx)
        (by simp only [leavesL]; rw [List.getElem?_append_right (by omega), ← n1]; simpa using hy)
    exact ⟨e :: es, by simp [zipML, he, hes]⟩
end

mutual
theorem eq_of_struct_leaves {β : Type} : ∀ {t u : PyTree β}, t.struct = u.struct → t.leaves = u.leaves → t = u
  | leaf _, leaf _, _, h => by simpa [leaves] using h
  | leaf _, node _ _, h, _ => by simp [struct, map] at h
  | node _ _, leaf _, h, _ => by simp [struct, map] at h
  | node t cs, node t' cs', h, hl => by
    simp only [struct, map, node.injEq] at h
    rw [h.1, eqL_of_struct_leaves h.2 hl]
theorem eqL_of_struct_leaves {β : Type} : ∀ {t u : List (PyTree β)}, mapL (fun _ => ()) t = mapL (fun _ => ()) u → leavesL t = leavesL u → t = u
  | [], [], _, _ => rfl
  | [], _ :: _, h, _ => by simp [mapL] at h
  | _ :: _, [], h, _ => by simp [mapL] at h
  | c :: cs, d :: ds, h, hl => by
    simp only [mapL, List.cons.injEq] at h
    have n1 : c.leaves.length = d.leaves.length := by
      have := congrArg PyTree.leaves h.1
      simpa [leaves_map] using congrArg List.length this
    simp only [leavesL] at hl
    obtain ⟨h1, h2⟩ := List.append_inj hl n1
    rw [eq_of_struct_leaves (by simpa [struct] using h.1) h1, eqL_of_struct_leaves h.2 h2]
end

end PyTree

/-! ## C94 -/

variable [Add α]

/-- **C94.** For parameters and updates of the same tree structure: `apply_updates` succeeds exactly if the shapes of every pair of
leaves are compatible in the sense of numpy, and then every new leaf is the broadcast sum.  Otherwise it raises TypeError. -/
theorem C94_apply_updates (params updates : Params α) (hp : WF params) (hu : WF updates) (hs : params.struct = updates.struct) :
    ((∃ r, applyUpdates params updates = .ok r) ↔
      ∀ (k : ℕ) (x y : Tensor α), params.leaves[k]? = some x → updates.leaves[k]? = some y → Broadcastable x.shape y.shape) ∧
    ∀ r, applyUpdates params updates = .ok r → ∀ (k : ℕ) (x y : Tensor α), params.leaves[k]? = some x → updates.leaves[k]? = some y →
      ∃ z, r.leaves[k]? = some z ∧ Broadcasted (fun p u => p + u) x y z := by
  have wf : ∀ {t : Params α}, WF t → ∀ {k : ℕ} {x : Tensor α}, t.leaves[k]? = some x → x.WF := fun h k x hx => h x (List.mem_of_getElem? hx)
  have key : ∀ r, applyUpdates params updates = .ok r → ∀ (k : ℕ) (x y : Tensor α), params.leaves[k]? = some x → updates.leaves[k]? = some y →
      ∃ z, r.leaves[k]? = some z ∧ Broadcastable x.shape y.shape ∧ Broadcasted (fun p u => p + u) x y z := by
    intro r hr k x y hx hy
    obtain ⟨z, hz, hb⟩ := PyTree.zipM_leaves _ _ _ _ hr k x y hx hy
    have hsp := bop_spec (fun p u : α => p + u) (wf hp hx) (wf hu hy)
    by_cases hB : Broadcastable x.shape y.shape
    · obtain ⟨z', hz', hB'⟩ := hsp.1 hB
      rw [hb] at hz'
      cases hz'
      exact ⟨z, hz, hB, hB'⟩
    · rw [hsp.2 hB] at hb
      simp at hb
  refine ⟨⟨?_, ?_⟩, fun r hr k x y hx hy => ?_⟩
  · rintro ⟨r, hr⟩ k x y hx hy
    obtain ⟨z, -, h, -⟩ := key r hr k x y hx hy
    exact h
  · intro h
    exact PyTree.zipM_of_leaves _ _ _ hs fun k x y hx hy => by
      obtain ⟨z, hz, -⟩ := (bop_spec (fun p u : α => p + u) (wf hp hx) (wf hu hy)).1 (h k x y hx hy)
      exact ⟨z, hz⟩
  · obtain ⟨z, hz, -, h⟩ := key r hr k x y hx hy
    exact ⟨z, hz, h⟩

theorem axisR_lt {s : List ℕ} {i : ℕ} (h : i < s.length) : s.reverse[i]? = some (axisR s i) := by
  unfold axisR
  rw [List.getD_eq_getElem?_getD, List.getElem?_eq_getElem (by simpa using h)]
  rfl

theorem shape_ext {s t : List ℕ} (hl : s.length = t.length) (h : ∀ i, axisR s i = axisR t i) : s = t := by
  have : s.reverse = t.reverse := List.ext_getElem? fun i => by
    by_cases hi : i < s.length
    · rw [axisR_lt hi, axisR_lt (hl ▸ hi), h i]
    · rw [List.getElem?_eq_none (by simpa using hi), List.getElem?_eq_none (by simp; omega)]
  simpa using congrArg List.reverse this

theorem IsBroadcast.eq_left_iff {s t out : List ℕ} (hb : Broadcastable s t) (h : IsBroadcast s t out) : out = s ↔ BroadcastsTo t s := by
  constructor
  · rintro rfl
    have hl : t.length ≤ out.length := (h.right hb).1
    refine ⟨hl, fun i hi => ?_⟩
    rw [axisR_lt hi, axisR_lt (by omega)]
    rcases (h.right hb).2 i with e | e
    · left; rw [e]
    · right; rw [e]
  · rintro ⟨hl, ht⟩
    refine shape_ext (by rw [h.1]; omega) fun i => ?_
    rw [h.2 i]
    split
    · rename_i e
      by_cases hi : i < t.length
      · have := ht i hi
        rw [axisR_lt hi, axisR_lt (by omega)] at this
        simp only [Option.some.injEq] at this
        rcases this with e' | e' <;> omega
      · rw [e]
        unfold axisR
        rw [List.getD_eq_getElem?_getD, List.getElem?_eq_none (by simpa using hi)]
        rfl
    · rfl

/-- **C94.** The new parameters keep the shape of the old exactly if the update's shape broadcasts to it, leaf by leaf; so an update
with larger leaves (or more axes) silently changes the shapes of the parameters. -/
theorem C94_params_shape (params updates r : Params α) (hp : WF params) (hu : WF updates) (hs : params.struct = updates.struct)
    (hr : applyUpdates params updates = .ok r) :
    spec r = spec params ↔
      ∀ (k : ℕ) (x y : Tensor α), params.leaves[k]? = some x → updates.leaves[k]? = some y → BroadcastsTo y.shape x.shape := by
  have hC := C94_apply_updates params updates hp hu hs
  have hB := hC.1.mp ⟨r, hr⟩
  have hst := PyTree.zipM_struct _ _ _ _ hr
  have nl : ∀ {β γ : Type} (t : PyTree β) (u : PyTree γ), t.struct = u.struct → t.leaves.length = u.leaves.length := fun t u h => by
    have := congrArg PyTree.leaves h
    simpa [PyTree.struct, PyTree.leaves_map] using congrArg List.length this
  have n1 := nl _ _ hs
  have n2 : r.leaves.length = params.leaves.length := nl _ _ hst.2
  constructor
  · intro he k x y hx hy
    obtain ⟨z, hz, hb⟩ := hC.2 r hr k x y hx hy
    refine (hb.1.eq_left_iff (hB k x y hx hy)).mp ?_
    have := congrArg (fun t : Spec => t.leaves[k]?) he
    simp only [spec, PyTree.leaves_map, List.getElem?_map, hz, hx, Option.map_some, Option.some.injEq] at this
    exact this
  · intro h
    refine PyTree.eq_of_struct_leaves ?_ ?_
    · unfold spec; rw [PyTree.struct_map, PyTree.struct_map]; exact hst.2
    · refine List.ext_getElem? fun k => ?_
      simp only [spec, PyTree.leaves_map, List.getElem?_map]
      by_cases hk : k < params.leaves.length
      · have hx := List.getElem?_eq_getElem hk
        have hy := List.getElem?_eq_getElem (l := updates.leaves) (i := k) (by omega)
        obtain ⟨z, hz, hb⟩ := hC.2 r hr k _ _ hx hy
        rw [hz, hx, Option.map_some, Option.map_some, (hb.1.eq_left_iff (hB k _ _ hx hy)).mpr (h k _ _ hx hy)]
      · rw [List.getElem?_eq_none (by omega), List.getElem?_eq_none (by omega)]

/-- **C94, finding.** One parameter of shape (1,) and an update of shape (3,): no error, and the parameter comes back with shape (3,). -/
theorem C94_shape_change (p a b c : α) :
    applyUpdates (.leaf ⟨[1], [p]⟩) (.leaf ⟨[3], [a, b, c]⟩) = (.ok (.leaf ⟨[3], [p + a, p + b, p + c]⟩) : Res (Params α)) := by
  rfl

/-- the hypotheses are met by a tree with a matrix and a vector; a (2,3) matrix and a (3,) update are compatible, (2,) is not -/
example : Broadcastable [2, 3] [3] ∧ ¬ Broadcastable [2, 3] [2] ∧
    applyUpdates (.leaf ⟨[2, 2], [1, 2, 3, 4]⟩ : Params ℤ) (.leaf ⟨[2], [10, 20]⟩) = .ok (.leaf ⟨[2, 2], [11, 22, 13, 24]⟩) ∧
    applyUpdates (.leaf ⟨[2, 3], [1, 2, 3, 4, 5, 6]⟩ : Params ℤ) (.leaf ⟨[2], [10, 20]⟩) = .error .type := by
  refine ⟨fun i => ?_, fun h => ?_, rfl, rfl⟩
  · rcases i with _ | _ | i <;> simp [axisR]
  · have := h 0
    simp [axisR] at this

end Optax
