import Verif.Tree

/-! Lemmas about pytrees and tensors. -/

namespace Optax
namespace PyTree

variable {β γ δ ε : Type}

mutual
theorem leaves_length : ∀ t : PyTree β, t.leaves.length = t.numLeaves
  | leaf b => by simp [leaves, numLeaves]
  | node t cs => by simp [leaves, numLeaves, leavesL_length cs]
theorem leavesL_length : ∀ ts : List (PyTree β), (leavesL ts).length = numLeavesL ts
  | [] => by simp [leavesL, numLeavesL]
  | c :: cs => by simp [leavesL, numLeavesL, leaves_length c, leavesL_length cs]
end

mutual
theorem map_map (f : β → γ) (g : γ → δ) : ∀ t : PyTree β, (t.map f).map g = t.map (fun x => g (f x))
  | leaf b => by simp [map]
  | node t cs => by simp [map, mapL_mapL f g cs]
theorem mapL_mapL (f : β → γ) (g : γ → δ) :
    ∀ ts : List (PyTree β), mapL g (mapL f ts) = mapL (fun x => g (f x)) ts
  | [] => by simp [mapL]
  | c :: cs => by simp [mapL, map_map f g c, mapL_mapL f g cs]
end

mutual
theorem map_id' : ∀ t : PyTree β, t.map (fun x => x) = t
  | leaf b => by simp [map]
  | node t cs => by simp [map, mapL_id' cs]
theorem mapL_id' : ∀ ts : List (PyTree β), mapL (fun x => x) ts = ts
  | [] => by simp [mapL]
  | c :: cs => by simp [mapL, map_id' c, mapL_id' cs]
end

mutual
theorem leaves_map (f : β → γ) : ∀ t : PyTree β, (t.map f).leaves = t.leaves.map f
  | leaf b => by simp [leaves, map]
  | node t cs => by simp [leaves, map, leavesL_mapL f cs]
theorem leavesL_mapL (f : β → γ) :
    ∀ ts : List (PyTree β), leavesL (mapL f ts) = (leavesL ts).map f
  | [] => by simp [leavesL, mapL]
  | c :: cs => by simp [leavesL, mapL, leaves_map f c, leavesL_mapL f cs]
end

theorem numLeaves_map (f : β → γ) (t : PyTree β) : (t.map f).numLeaves = t.numLeaves := by
  rw [← leaves_length, ← leaves_length, leaves_map, List.length_map]

mutual
theorem map_mapIdxFrom (f : ℕ → β → γ) (g : γ → δ) : ∀ (t : PyTree β) (off : ℕ),
    (mapIdxFrom f off t).map g = mapIdxFrom (fun k b => g (f k b)) off t
  | leaf b, off => by simp [map, mapIdxFrom]
  | node t cs, off => by simp [map, mapIdxFrom, mapL_mapIdxFromL f g cs]
theorem mapL_mapIdxFromL (f : ℕ → β → γ) (g : γ → δ) : ∀ (ts : List (PyTree β)) (off : ℕ),
    mapL g (mapIdxFromL f off ts) = mapIdxFromL (fun k b => g (f k b)) off ts
  | [], off => by simp [mapL, mapIdxFromL]
  | c :: cs, off => by
    simp [mapL, mapIdxFromL, map_mapIdxFrom f g c, mapL_mapIdxFromL f g cs]
end

@[simp] theorem map_mapIdx (f : ℕ → β → γ) (g : γ → δ) (t : PyTree β) :
    (t.mapIdx f).map g = t.mapIdx (fun k b => g (f k b)) := map_mapIdxFrom f g t 0

mutual
theorem leaves_mapIdxFrom (f : ℕ → β → γ) : ∀ (t : PyTree β) (off : ℕ),
    (mapIdxFrom f off t).leaves = t.leaves.mapIdx (fun i b => f (off + i) b)
  | leaf b, off => by simp [leaves, mapIdxFrom]
  | node t cs, off => by simp [leaves, mapIdxFrom, leavesL_mapIdxFromL f cs]
theorem leavesL_mapIdxFromL (f : ℕ → β → γ) : ∀ (ts : List (PyTree β)) (off : ℕ),
    leavesL (mapIdxFromL f off ts) = (leavesL ts).mapIdx (fun i b => f (off + i) b)
  | [], off => by simp [leavesL, mapIdxFromL]
  | c :: cs, off => by
    simp only [leavesL, mapIdxFromL, leaves_mapIdxFrom f c, leavesL_mapIdxFromL f cs,
      List.mapIdx_append, leaves_length]
    congr 2
    funext i b
    congr 1; omega
end

@[simp] theorem leaves_mapIdx (f : ℕ → β → γ) (t : PyTree β) :
    (t.mapIdx f).leaves = t.leaves.mapIdx f := by
  simp [mapIdx, leaves_mapIdxFrom]

@[simp] theorem numLeaves_mapIdx (f : ℕ → β → γ) (t : PyTree β) :
    (t.mapIdx f).numLeaves = t.numLeaves := by
  rw [← leaves_length, ← leaves_length, leaves_mapIdx, List.length_mapIdx]

mutual
theorem mapIdxFrom_congr {f g : ℕ → β → γ} : ∀ (t : PyTree β) (off : ℕ),
    (∀ k b, t.leaves[k]? = some b → f (off + k) b = g (off + k) b) →
    mapIdxFrom f off t = mapIdxFrom g off t
  | leaf b, off, h => by
    have := h 0 b (by simp [leaves])
    simpa [mapIdxFrom] using this
  | node t cs, off, h => by
    simp only [mapIdxFrom]
    rw [mapIdxFromL_congr cs off (by simpa [leaves] using h)]
theorem mapIdxFromL_congr {f g : ℕ → β → γ} : ∀ (ts : List (PyTree β)) (off : ℕ),
    (∀ k b, (leavesL ts)[k]? = some b → f (off + k) b = g (off + k) b) →
    mapIdxFromL f off ts = mapIdxFromL g off ts
  | [], off, _ => by simp [mapIdxFromL]
  | c :: cs, off, h => by
    simp only [mapIdxFromL]
    rw [mapIdxFrom_congr c off, mapIdxFromL_congr cs (off + c.numLeaves)]
    · intro k b hk
      have := h (c.numLeaves + k) b (by
        simp only [leavesL]
        rw [List.getElem?_append_right (by rw [leaves_length]; omega)]
        simpa [leaves_length] using hk)
      simpa [Nat.add_assoc] using this
    · intro k b hk
      apply h k b
      simp only [leavesL]
      rw [List.getElem?_append_left]
      · exact hk
      · exact (List.getElem?_eq_some_iff.mp hk).1
end

theorem mapIdx_congr {f g : ℕ → β → γ} (t : PyTree β)
    (h : ∀ k b, t.leaves[k]? = some b → f k b = g k b) : t.mapIdx f = t.mapIdx g :=
  mapIdxFrom_congr t 0 (by simpa using h)

mutual
theorem mapIdxFrom_const (f : β → γ) : ∀ (t : PyTree β) (off : ℕ),
    mapIdxFrom (fun _ b => f b) off t = t.map f
  | leaf b, off => by simp [map, mapIdxFrom]
  | node t cs, off => by simp [map, mapIdxFrom, mapIdxFromL_const f cs]
theorem mapIdxFromL_const (f : β → γ) : ∀ (ts : List (PyTree β)) (off : ℕ),
    mapIdxFromL (fun _ b => f b) off ts = mapL f ts
  | [], off => by simp [mapL, mapIdxFromL]
  | c :: cs, off => by simp [mapL, mapIdxFromL, mapIdxFrom_const f c, mapIdxFromL_const f cs]
end

theorem mapIdx_const (f : β → γ) (t : PyTree β) : t.mapIdx (fun _ b => f b) = t.map f :=
  mapIdxFrom_const f t 0

mutual
theorem zipM_mapIdxFrom (f : γ → δ → Res ε) (a : ℕ → β → γ) (b : ℕ → β → δ) (c : ℕ → β → ε) :
    ∀ (t : PyTree β) (off : ℕ),
    (∀ k s, t.leaves[k]? = some s → f (a (off + k) s) (b (off + k) s) = .ok (c (off + k) s)) →
    zipM f (mapIdxFrom a off t) (mapIdxFrom b off t) = .ok (mapIdxFrom c off t)
  | leaf s, off, h => by
    have := h 0 s (by simp [leaves])
    simp only [Nat.add_zero] at this
    simp [mapIdxFrom, zipM, this, bind, Except.bind, pure, Except.pure]
  | node t cs, off, h => by
    simp [mapIdxFrom, zipM, zipML_mapIdxFromL f a b c cs off (by simpa [leaves] using h),
      bind, Except.bind, pure, Except.pure]
theorem zipML_mapIdxFromL (f : γ → δ → Res ε) (a : ℕ → β → γ) (b : ℕ → β → δ) (c : ℕ → β → ε) :
    ∀ (ts : List (PyTree β)) (off : ℕ),
    (∀ k s, (leavesL ts)[k]? = some s → f (a (off + k) s) (b (off + k) s) = .ok (c (off + k) s)) →
    zipML f (mapIdxFromL a off ts) (mapIdxFromL b off ts) = .ok (mapIdxFromL c off ts)
  | [], off, _ => by simp [mapIdxFromL, zipML]
  | x :: xs, off, h => by
    simp only [mapIdxFromL, zipML]
    rw [zipM_mapIdxFrom f a b c x off, zipML_mapIdxFromL f a b c xs (off + x.numLeaves)]
    · rfl
    · intro k s hk
      have := h (x.numLeaves + k) s (by
        simp only [leavesL]
        rw [List.getElem?_append_right (by rw [leaves_length]; omega)]
        simpa [leaves_length] using hk)
      simpa [Nat.add_assoc] using this
    · intro k s hk
      apply h k s
      simp only [leavesL]
      rw [List.getElem?_append_left]
      · exact hk
      · exact (List.getElem?_eq_some_iff.mp hk).1
end

theorem zipM_mapIdx (f : γ → δ → Res ε) (a : ℕ → β → γ) (b : ℕ → β → δ) (c : ℕ → β → ε)
    (t : PyTree β) (h : ∀ k s, t.leaves[k]? = some s → f (a k s) (b k s) = .ok (c k s)) :
    zipM f (t.mapIdx a) (t.mapIdx b) = .ok (t.mapIdx c) :=
  zipM_mapIdxFrom f a b c t 0 (by simpa using h)

mutual
theorem mapM_mapIdxFrom (f : γ → Res ε) (a : ℕ → β → γ) (c : ℕ → β → ε) :
    ∀ (t : PyTree β) (off : ℕ),
    (∀ k s, t.leaves[k]? = some s → f (a (off + k) s) = .ok (c (off + k) s)) →
    mapM f (mapIdxFrom a off t) = .ok (mapIdxFrom c off t)
  | leaf s, off, h => by
    have := h 0 s (by simp [leaves])
    simp only [Nat.add_zero] at this
    simp [mapIdxFrom, mapM, this, bind, Except.bind, pure, Except.pure]
  | node t cs, off, h => by
    simp [mapIdxFrom, mapM, mapML_mapIdxFromL f a c cs off (by simpa [leaves] using h),
      bind, Except.bind, pure, Except.pure]
theorem mapML_mapIdxFromL (f : γ → Res ε) (a : ℕ → β → γ) (c : ℕ → β → ε) :
    ∀ (ts : List (PyTree β)) (off : ℕ),
    (∀ k s, (leavesL ts)[k]? = some s → f (a (off + k) s) = .ok (c (off + k) s)) →
    mapML f (mapIdxFromL a off ts) = .ok (mapIdxFromL c off ts)
  | [], off, _ => by simp [mapIdxFromL, mapML]
  | x :: xs, off, h => by
    simp only [mapIdxFromL, mapML]
    rw [mapM_mapIdxFrom f a c x off, mapML_mapIdxFromL f a c xs (off + x.numLeaves)]
    · rfl
    · intro k s hk
      have := h (x.numLeaves + k) s (by
        simp only [leavesL]
        rw [List.getElem?_append_right (by rw [leaves_length]; omega)]
        simpa [leaves_length] using hk)
      simpa [Nat.add_assoc] using this
    · intro k s hk
      apply h k s
      simp only [leavesL]
      rw [List.getElem?_append_left]
      · exact hk
      · exact (List.getElem?_eq_some_iff.mp hk).1
end

theorem mapM_mapIdx (f : γ → Res ε) (a : ℕ → β → γ) (c : ℕ → β → ε)
    (t : PyTree β) (h : ∀ k s, t.leaves[k]? = some s → f (a k s) = .ok (c k s)) :
    mapM f (t.mapIdx a) = .ok (t.mapIdx c) :=
  mapM_mapIdxFrom f a c t 0 (by simpa using h)

theorem zipM3_mapIdx {ζ : Type} (f : γ → δ → ε → Res ζ) (a : ℕ → β → γ) (b : ℕ → β → δ)
    (d : ℕ → β → ε) (c : ℕ → β → ζ) (t : PyTree β)
    (h : ∀ k s, t.leaves[k]? = some s → f (a k s) (b k s) (d k s) = .ok (c k s)) :
    zipM3 f (t.mapIdx a) (t.mapIdx b) (t.mapIdx d) = .ok (t.mapIdx c) := by
  unfold zipM3
  rw [zipM_mapIdx (fun b c => Except.ok (b, c)) a b (fun k s => (a k s, b k s)) t
    (fun _ _ _ => rfl)]
  simp only [bind, Except.bind]
  exact zipM_mapIdx _ _ _ _ t h

/-- Forget the leaves. -/
def struct (t : PyTree β) : PyTree Unit := t.map (fun _ => ())

mutual
/-- `tree_multimap` succeeds only on trees of equal structure. -/
theorem zipM_struct (f : β → γ → Res δ) : ∀ (t : PyTree β) (u : PyTree γ) (r : PyTree δ),
    zipM f t u = .ok r → t.struct = u.struct ∧ r.struct = t.struct
  | leaf b, leaf c, r, h => by
    simp only [zipM, bind, Except.bind, pure, Except.pure] at h
    cases hf : f b c with
    | error e => rw [hf] at h; simp at h
    | ok x => rw [hf] at h; simp at h; subst h; simp [struct, map]
  | leaf _, node _ _, r, h => by simp [zipM] at h
  | node _ _, leaf _, r, h => by simp [zipM] at h
  | node t cs, node t' cs', r, h => by
    simp only [zipM] at h
    split at h
    · rename_i htt
      simp only [bind, Except.bind, pure, Except.pure] at h
      cases hf : zipML f cs cs' with
      | error e => rw [hf] at h; simp at h
      | ok x =>
        rw [hf] at h; simp at h; subst h
        have := zipML_struct f cs cs' x hf
        simp [struct, map, htt, this]
    · simp at h
theorem zipML_struct (f : β → γ → Res δ) :
    ∀ (t : List (PyTree β)) (u : List (PyTree γ)) (r : List (PyTree δ)),
    zipML f t u = .ok r →
    mapL (fun _ => ()) t = mapL (fun _ => ()) u ∧ mapL (fun _ => ()) r = mapL (fun _ => ()) t
  | [], [], r, h => by simp [zipML] at h; subst h; simp [mapL]
  | [], _ :: _, r, h => by simp [zipML] at h
  | _ :: _, [], r, h => by simp [zipML] at h
  | c :: cs, d :: ds, r, h => by
    simp only [zipML, bind, Except.bind, pure, Except.pure] at h
    cases hf : zipM f c d with
    | error e => rw [hf] at h; simp at h
    | ok x =>
      rw [hf] at h
      cases hg : zipML f cs ds with
      | error e => rw [hg] at h; simp at h
      | ok y =>
        rw [hg] at h; simp at h; subst h
        have h1 := zipM_struct f c d x hf
        have h2 := zipML_struct f cs ds y hg
        simp only [struct] at h1
        simp [mapL, h1, h2]
end

end PyTree

/-! ## Tensors -/

namespace Tensor

variable {α β γ : Type}

@[simp] theorem tens_shape (s : List ℕ) (v : ℕ → α) : (tens s v).shape = s := rfl

@[simp] theorem tens_length (s : List ℕ) (v : ℕ → α) : (tens s v).data.length = s.prod := by
  simp [tens]

theorem tens_WF (s : List ℕ) (v : ℕ → α) : (tens s v).WF := by simp [WF]

theorem tens_get (s : List ℕ) (v : ℕ → α) (i : ℕ) (h : i < s.prod) :
    (tens s v).data[i]? = some (v i) := by simp [tens, h]

theorem tens_congr {s : List ℕ} {v w : ℕ → α} (h : ∀ i < s.prod, v i = w i) :
    tens s v = tens s w := by
  simp only [tens]
  congr 1
  apply List.map_congr_left
  intro i hi
  exact h i (List.mem_range.mp hi)

theorem tens_inj {s : List ℕ} {v w : ℕ → α} (h : tens s v = tens s w) :
    ∀ i < s.prod, v i = w i := by
  intro i hi
  have := congrArg (fun t => t.data[i]?) h
  simp only [tens_get _ _ _ hi, Option.some.injEq] at this
  exact this

@[simp] theorem map_tens (f : α → β) (s : List ℕ) (v : ℕ → α) :
    (tens s v).map f = tens s (fun i => f (v i)) := by
  simp [map, tens, Function.comp_def]

@[simp] theorem bop_tens (f : α → β → γ) (s : List ℕ) (v : ℕ → α) (w : ℕ → β) :
    bop f (tens s v) (tens s w) = .ok (tens s (fun i => f (v i) (w i))) := by
  simp [bop, tens, List.zipWith_map_left, List.zipWith_map_right]

theorem WF.eq_tens {t : Tensor α} [Zero α] (h : t.WF) :
    t = tens t.shape (fun i => (t.data[i]?).getD 0) := by
  cases t with
  | mk s d =>
    simp only [WF] at h
    simp only [tens, Tensor.mk.injEq, true_and]
    apply List.ext_getElem
    · simp [h]
    · intro i h1 h2
      simp [List.getElem?_eq_getElem h1]

end Tensor

/-! ## `mk` -/

variable {α β γ : Type}

theorem mk_congr {σ : Spec} {v w : ℕ → ℕ → α}
    (h : ∀ k s, σ.leaves[k]? = some s → ∀ i < s.prod, v k i = w k i) : mk σ v = mk σ w :=
  PyTree.mapIdx_congr σ (fun k s hk => Tensor.tens_congr (h k s hk))

theorem mk_leaves (σ : Spec) (v : ℕ → ℕ → α) :
    (mk σ v).leaves = σ.leaves.mapIdx (fun k s => Tensor.tens s (v k)) := by simp [mk]

/-- `mk` determines its entries. -/
theorem mk_inj {σ : Spec} {v w : ℕ → ℕ → α} (h : mk σ v = mk σ w) :
    ∀ k s, σ.leaves[k]? = some s → ∀ i < s.prod, v k i = w k i := by
  intro k s hk
  have := congrArg (fun t => t.leaves[k]?) h
  simp only [mk_leaves, List.getElem?_mapIdx, hk, Option.map_some, Option.some.injEq] at this
  exact Tensor.tens_inj this

@[simp] theorem spec_mk (σ : Spec) (v : ℕ → ℕ → α) : spec (mk σ v) = σ := by
  simp only [spec, mk, PyTree.map_mapIdx, Tensor.tens_shape]
  rw [PyTree.mapIdx_const, PyTree.map_id']

theorem WF_mk (σ : Spec) (v : ℕ → ℕ → α) : WF (mk σ v) := by
  intro x hx
  rw [mk_leaves, List.mem_mapIdx] at hx
  obtain ⟨i, hi, rfl⟩ := hx
  exact Tensor.tens_WF _ _

theorem coord_mk [Zero α] (σ : Spec) (v : ℕ → ℕ → α) (k i : ℕ) (s : List ℕ)
    (hk : σ.leaves[k]? = some s) (hi : i < s.prod) : coord (mk σ v) k i = v k i := by
  simp only [coord, mk_leaves, List.getElem?_mapIdx, hk, Option.map_some, Option.bind_some,
    Tensor.tens_get _ _ _ hi, Option.getD_some]

section
open PyTree
mutual
theorem eq_mapIdxFrom_of_leaves {δ : Type} (f : β → δ) (g : ℕ → δ → β) :
    ∀ (t : PyTree β) (off : ℕ),
    (∀ k b, t.leaves[k]? = some b → g (off + k) (f b) = b) →
    t = mapIdxFrom g off (t.map f)
  | leaf b, off, h => by
    have := h 0 b (by simp [leaves])
    simp at this
    simp [PyTree.map, mapIdxFrom, this]
  | node t cs, off, h => by
    simp only [PyTree.map, mapIdxFrom, node.injEq, true_and]
    exact eq_mapIdxFromL_of_leaves f g cs off (by simpa [leaves] using h)
theorem eq_mapIdxFromL_of_leaves {δ : Type} (f : β → δ) (g : ℕ → δ → β) :
    ∀ (ts : List (PyTree β)) (off : ℕ),
    (∀ k b, (leavesL ts)[k]? = some b → g (off + k) (f b) = b) →
    ts = mapIdxFromL g off (mapL f ts)
  | [], off, _ => by simp [mapL, mapIdxFromL]
  | c :: cs, off, h => by
    simp only [mapL, mapIdxFromL, List.cons.injEq]
    constructor
    · apply eq_mapIdxFrom_of_leaves f g c off
      intro k b hk
      apply h k b
      simp only [leavesL]
      rw [List.getElem?_append_left]
      · exact hk
      · exact (List.getElem?_eq_some_iff.mp hk).1
    · rw [numLeaves_map]
      apply eq_mapIdxFromL_of_leaves f g cs
      intro k b hk
      have := h (c.numLeaves + k) b (by
        simp only [leavesL]
        rw [List.getElem?_append_right (by rw [leaves_length]; omega)]
        simpa [leaves_length] using hk)
      simpa [Nat.add_assoc] using this
end
end

/-- Every well-formed tree of arrays is `mk` of its structure-and-shapes and its entries. -/
theorem eq_mk_of_WF [Zero α] (t : Params α) (h : WF t) : t = mk (spec t) (coord t) := by
  unfold mk spec PyTree.mapIdx
  apply eq_mapIdxFrom_of_leaves
  intro k b hk
  have hb : b.WF := h b (List.mem_of_getElem? hk)
  conv_rhs => rw [hb.eq_tens]
  apply Tensor.tens_congr
  intro i _
  simp [coord, hk]

theorem exists_mk [Zero α] (t : Params α) (h : WF t) : ∃ v, t = mk (spec t) v :=
  ⟨_, eq_mk_of_WF t h⟩

end Optax
