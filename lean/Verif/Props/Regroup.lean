import Verif.Model.Privacy
import Verif.Model.Wrappers
import Verif.Props.Mismatch
import Verif.Props.Constrain

/-!
# C104: how parameters are grouped into containers does not matter

For an arbitrary number type with arbitrary operations, and arbitrary arrays as leaves.
-/

set_option linter.unusedSectionVars false
set_option linter.unusedSimpArgs false
set_option linter.unusedVariables false

namespace Optax

/-! ## Specification -/

/-- `x` and `y` are two groupings, with the container structures `S` and `S'`, of one and the same list of leaves. -/
def Regrouped {β : Type} (S S' : PyTree Unit) (x y : PyTree β) : Prop := x.struct = S ∧ y.struct = S' ∧ x.leaves = y.leaves

/-- the optional `params` argument -/
def RegroupedOpt {β : Type} (S S' : PyTree Unit) : Option (PyTree β) → Option (PyTree β) → Prop
  | none, none => True
  | some x, some y => Regrouped S S' x y
  | _, _ => False

/-- both succeed with related values, or both raise the same exception -/
def RelRes {β γ : Type} (P : β → γ → Prop) : Res β → Res γ → Prop
  | .ok a, .ok b => P a b
  | .error e, .error e' => e = e'
  | _, _ => False

/-- **Specification.** Handed the same leaves in other containers, at `init` and at every step of any history, `t` returns the same leaves in these other
containers, or raises the same exception; `S`, `S'` are the structures of the gradients, `P`, `P'` those of the `params` argument. -/
def ContainerFreeAt {α : Type} (t : GT α) (S S' P P' : PyTree Unit) : Prop :=
  ∀ (p p' : Params α) (h h' : List (Call α)), Regrouped S S' p p' →
    List.Forall₂ (fun c c' => Regrouped S S' c.1 c'.1 ∧ RegroupedOpt P P' c.2 c'.2) h h' →
    RelRes (List.Forall₂ (Regrouped S S')) (t.outs p h) (t.outs p' h')

/-- **Specification.** `t` does not depend on the containers. -/
def ContainerFree {α : Type} (t : GT α) : Prop := ∀ S S', ContainerFreeAt t S S' S S'

/-! ## Results -/

theorem RelRes.bind {β γ β' γ' : Type} {P : β → γ → Prop} {Q : β' → γ' → Prop} {a : Res β} {b : Res γ} {f : β → Res β'} {g : γ → Res γ'}
    (h : RelRes P a b) (hf : ∀ x y, P x y → RelRes Q (f x) (g y)) : RelRes Q (a >>= f) (b >>= g) := by
  match a, b, h with
  | .ok a, .ok b, h => exact hf a b h
  | .error e, .error e', h => exact h

theorem RelRes.mono {β γ : Type} {P Q : β → γ → Prop} {a : Res β} {b : Res γ} (h : RelRes P a b) (hP : ∀ x y, P x y → Q x y) : RelRes Q a b := by
  match a, b, h with
  | .ok a, .ok b, h => exact hP a b h
  | .error e, .error e', h => exact h

theorem RelRes.refl {β : Type} {P : β → β → Prop} (h : ∀ x, P x x) (a : Res β) : RelRes P a a := by
  match a with
  | .ok a => exact h a
  | .error e => exact rfl

theorem RelRes.eq {β : Type} {a b : Res β} (h : RelRes (fun x y => x = y) a b) : a = b := by
  match a, b, h with
  | .ok a, .ok b, h => exact congrArg _ h
  | .error e, .error e', h => exact congrArg _ h

/-! ## Trees -/

namespace PyTree
variable {β γ δ ε : Type}

/-- `zipM` on lists of leaves -/
def zipList (f : β → γ → Res δ) : List β → List γ → Res (List δ)
  | b :: bs, c :: cs => do
    let d ← f b c
    let ds ← zipList f bs cs
    return d :: ds
  | _, _ => .ok []

theorem bind_assoc' (a : Res β) (f : β → Res γ) (g : γ → Res δ) : (a >>= f) >>= g = a >>= fun x => f x >>= g := by cases a <;> rfl

theorem zipList_append (f : β → γ → Res δ) : ∀ (b b' : List β) (c c' : List γ), b.length = c.length →
    zipList f (b ++ b') (c ++ c') = (do let x ← zipList f b c; let y ← zipList f b' c'; return x ++ y)
  | [], b', [], c', _ => by
    simp only [zipList, List.nil_append]
    cases zipList f b' c' <;> rfl
  | x :: b, b', y :: c, c', h => by
    simp only [List.cons_append, zipList, zipList_append f b b' c c' (by simpa using h), bind_assoc']
    cases f x y with
    | error e => rfl
    | ok d =>
      cases zipList f b c with
      | error e => rfl
      | ok ds => cases zipList f b' c' <;> rfl
  | [], _, _ :: _, _, h => by simp at h
  | _ :: _, _, [], _, h => by simp at h

mutual
theorem length_leaves_struct : ∀ (t : PyTree β) (u : PyTree γ), t.struct = u.struct → t.leaves.length = u.leaves.length
  | leaf b, leaf c, _ => rfl
  | leaf b, node t cs, h => by simp [struct, map] at h
  | node t cs, leaf b, h => by simp [struct, map] at h
  | node t cs, node t' cs', h => by
    simp only [struct, map, node.injEq] at h
    exact length_leavesL_struct cs cs' h.2
theorem length_leavesL_struct : ∀ (t : List (PyTree β)) (u : List (PyTree γ)), mapL (fun _ => ()) t = mapL (fun _ => ()) u →
    (leavesL t).length = (leavesL u).length
  | [], [], _ => rfl
  | [], c :: cs, h => by simp [mapL] at h
  | c :: cs, [], h => by simp [mapL] at h
  | c :: cs, d :: ds, h => by
    simp only [mapL, List.cons.injEq] at h
    simp only [leavesL, List.length_append, length_leaves_struct c d h.1, length_leavesL_struct cs ds h.2]
end

mutual
/-- `tree_multimap` on trees of the same structure works leaf by leaf. -/
theorem zipM_map_leaves (f : β → γ → Res δ) : ∀ (t : PyTree β) (u : PyTree γ), t.struct = u.struct →
    (do let r ← zipM f t u; return r.leaves) = zipList f t.leaves u.leaves
  | leaf b, leaf c, _ => by
    simp only [zipM, leaves, zipList]
    cases f b c <;> rfl
  | leaf b, node t cs, h => by simp [struct, map] at h
  | node t cs, leaf b, h => by simp [struct, map] at h
  | node t cs, node t' cs', h => by
    simp only [struct, map, node.injEq] at h
    simp only [zipM, h.1, if_true, leaves]
    rw [← zipML_map_leaves f cs cs' h.2]
    cases zipML f cs cs' <;> rfl
theorem zipML_map_leaves (f : β → γ → Res δ) : ∀ (t : List (PyTree β)) (u : List (PyTree γ)), mapL (fun _ => ()) t = mapL (fun _ => ()) u →
    (do let r ← zipML f t u; return leavesL r) = zipList f (leavesL t) (leavesL u)
  | [], [], _ => rfl
  | [], c :: cs, h => by simp [mapL] at h
  | c :: cs, [], h => by simp [mapL] at h
  | c :: cs, d :: ds, h => by
    simp only [mapL, List.cons.injEq] at h
    simp only [leavesL, zipML]
    rw [zipList_append f _ _ _ _ (length_leaves_struct c d h.1), ← zipM_map_leaves f c d h.1, ← zipML_map_leaves f cs ds h.2]
    cases zipM f c d with
    | error e => rfl
    | ok x => cases zipML f cs ds <;> rfl
end

/-- `mapM` on lists of leaves -/
def mapList (f : β → Res γ) : List β → Res (List γ)
  | [] => .ok []
  | b :: bs => do
    let c ← f b
    let cs ← mapList f bs
    return c :: cs

theorem mapList_append (f : β → Res γ) : ∀ (b b' : List β), mapList f (b ++ b') = (do let x ← mapList f b; let y ← mapList f b'; return x ++ y)
  | [], b' => by
    simp only [mapList, List.nil_append]
    cases mapList f b' <;> rfl
  | x :: b, b' => by
    simp only [List.cons_append, mapList, mapList_append f b b', bind_assoc']
    cases f x with
    | error e => rfl
    | ok d =>
      cases mapList f b with
      | error e => rfl
      | ok ds => cases mapList f b' <;> rfl

mutual
theorem mapM_map_leaves (f : β → Res γ) : ∀ (t : PyTree β), (do let r ← mapM f t; return r.leaves) = mapList f t.leaves
  | leaf b => by
    simp only [mapM, leaves, mapList]
    cases f b <;> rfl
  | node t cs => by
    simp only [mapM, leaves]
    rw [← mapML_map_leaves f cs]
    cases mapML f cs <;> rfl
theorem mapML_map_leaves (f : β → Res γ) : ∀ (t : List (PyTree β)), (do let r ← mapML f t; return leavesL r) = mapList f (leavesL t)
  | [] => rfl
  | c :: cs => by
    simp only [leavesL, mapML]
    rw [mapList_append, ← mapM_map_leaves f c, ← mapML_map_leaves f cs]
    cases mapM f c with
    | error e => rfl
    | ok x => cases mapML f cs <;> rfl
end

mutual
/-- a tree is its structure and its leaves -/
theorem ext_struct_leaves : ∀ (t u : PyTree β), t.struct = u.struct → t.leaves = u.leaves → t = u
  | leaf b, leaf c, _, h => by simpa [leaves] using h
  | leaf b, node t cs, h, _ => by simp [struct, map] at h
  | node t cs, leaf b, h, _ => by simp [struct, map] at h
  | node t cs, node t' cs', h, h' => by
    simp only [struct, map, node.injEq] at h
    rw [h.1, ext_struct_leavesL cs cs' h.2 h']
theorem ext_struct_leavesL : ∀ (t u : List (PyTree β)), mapL (fun _ => ()) t = mapL (fun _ => ()) u → leavesL t = leavesL u → t = u
  | [], [], _, _ => rfl
  | [], c :: cs, h, _ => by simp [mapL] at h
  | c :: cs, [], h, _ => by simp [mapL] at h
  | c :: cs, d :: ds, h, h' => by
    simp only [mapL, List.cons.injEq] at h
    simp only [leavesL] at h'
    obtain ⟨h1, h2⟩ := List.append_inj h' (length_leaves_struct c d h.1)
    rw [ext_struct_leaves c d h.1 h1, ext_struct_leavesL cs ds h.2 h2]
end

mutual
theorem fill_spec : ∀ (t : PyTree β) (xs : List γ), (t.leaves.length ≤ xs.length → ∃ r, fill t xs = .ok (r, xs.drop t.leaves.length) ∧
      r.leaves = xs.take t.leaves.length) ∧ (xs.length < t.leaves.length → fill t xs = .error .value)
  | leaf b, [] => by simp [leaves, fill]
  | leaf b, x :: xs => by simp [leaves, fill]
  | node t cs, xs => by
    obtain ⟨h1, h2⟩ := fillL_spec cs xs
    refine ⟨fun h => ?_, fun h => ?_⟩
    · obtain ⟨r, hr, hl⟩ := h1 h
      exact ⟨node t r, by simp only [fill, hr, leaves]; rfl, hl⟩
    · simp only [fill, h2 h]; rfl
theorem fillL_spec : ∀ (t : List (PyTree β)) (xs : List γ), ((leavesL t).length ≤ xs.length →
      ∃ r, fillL t xs = .ok (r, xs.drop (leavesL t).length) ∧ leavesL r = xs.take (leavesL t).length) ∧
      (xs.length < (leavesL t).length → fillL t xs = .error .value)
  | [], xs => by simp [fillL, leavesL]
  | c :: cs, xs => by
    obtain ⟨h1, h2⟩ := fill_spec c xs
    simp only [leavesL, List.length_append]
    refine ⟨fun h => ?_, fun h => ?_⟩
    · obtain ⟨r, hr, hl⟩ := h1 (by omega)
      obtain ⟨rs, hrs, hls⟩ := (fillL_spec cs (xs.drop c.leaves.length)).1 (by simp; omega)
      refine ⟨r :: rs, ?_, ?_⟩
      · simp only [fillL, hr, Res.ok_bind, hrs, List.drop_drop]; rfl
      · simp only [leavesL, hl, hls, List.take_add]
    · by_cases hc : xs.length < c.leaves.length
      · simp only [fillL, h2 hc]; rfl
      · obtain ⟨r, hr, hl⟩ := h1 (by omega)
        simp only [fillL, hr, Res.ok_bind, (fillL_spec cs (xs.drop c.leaves.length)).2 (by simp; omega)]
        rfl
end

end PyTree

section rel
variable {β γ δ ε : Type} {S S' : PyTree Unit}

theorem Regrouped.map {x y : PyTree β} (h : Regrouped S S' x y) (f : β → γ) : Regrouped S S' (x.map f) (y.map f) :=
  ⟨(PyTree.struct_map f x).trans h.1, (PyTree.struct_map f y).trans h.2.1, by rw [PyTree.leaves_map, PyTree.leaves_map, h.2.2]⟩

theorem relres_of_leaves {a b : Res (PyTree β)} (ha : ∀ r, a = .ok r → r.struct = S) (hb : ∀ r, b = .ok r → r.struct = S')
    (h : (do let r ← a; return r.leaves : Res (List β)) = (do let r ← b; return r.leaves)) : RelRes (Regrouped S S') a b := by
  cases a with
  | error e =>
    cases b with
    | error e' => exact Except.error.inj h
    | ok y => cases h
  | ok x =>
    cases b with
    | error e' => cases h
    | ok y => exact ⟨ha x rfl, hb y rfl, Except.ok.inj h⟩

theorem Regrouped.zipM {x y : PyTree β} {u v : PyTree γ} (h : Regrouped S S' x y) (h' : Regrouped S S' u v) (f : β → γ → Res δ) :
    RelRes (Regrouped S S') (PyTree.zipM f x u) (PyTree.zipM f y v) := by
  refine relres_of_leaves (fun r hr => ?_) (fun r hr => ?_) ?_
  · rw [(PyTree.zipM_struct _ _ _ _ hr).2, h.1]
  · rw [(PyTree.zipM_struct _ _ _ _ hr).2, h.2.1]
  · rw [PyTree.zipM_map_leaves f x u (h.1.trans h'.1.symm), PyTree.zipM_map_leaves f y v (h.2.1.trans h'.2.1.symm), h.2.2, h'.2.2]

theorem Regrouped.mapM {x y : PyTree β} (h : Regrouped S S' x y) (f : β → Res γ) : RelRes (Regrouped S S') (PyTree.mapM f x) (PyTree.mapM f y) := by
  refine relres_of_leaves (fun r hr => ?_) (fun r hr => ?_) ?_
  · rw [PyTree.mapM_struct _ _ _ hr, h.1]
  · rw [PyTree.mapM_struct _ _ _ hr, h.2.1]
  · rw [PyTree.mapM_map_leaves, PyTree.mapM_map_leaves, h.2.2]

theorem Regrouped.zipM3 {x y : PyTree β} {u v : PyTree γ} {w z : PyTree δ} (h : Regrouped S S' x y) (h' : Regrouped S S' u v)
    (h'' : Regrouped S S' w z) (f : β → γ → δ → Res ε) : RelRes (Regrouped S S') (PyTree.zipM3 f x u w) (PyTree.zipM3 f y v z) :=
  (h.zipM h' _).bind fun _ _ ht => ht.zipM h'' _

theorem unflatten_map_leaves (t : PyTree β) (xs : List γ) : (do let r ← PyTree.unflatten t xs; return r.leaves : Res (List γ)) =
      if t.leaves.length = xs.length then .ok xs else .error .value := by
    obtain ⟨h1, h2⟩ := PyTree.fill_spec t xs
    rcases lt_trichotomy t.leaves.length xs.length with hl | hl | hl
    · obtain ⟨r, hr, hl'⟩ := h1 hl.le
      simp only [PyTree.unflatten, hr, Res.ok_bind]
      have : xs.drop t.leaves.length ≠ [] := by simp; omega
      obtain ⟨y, ys, hys⟩ := List.exists_cons_of_ne_nil this
      rw [hys, if_neg hl.ne]
      rfl
    · obtain ⟨r, hr, hl'⟩ := h1 hl.le
      simp only [PyTree.unflatten, hr, Res.ok_bind]
      rw [hl, List.drop_length, if_pos rfl]
      rw [hl, List.take_length] at hl'
      simp only [Res.pure_eq, Res.ok_bind, hl']
    · simp only [PyTree.unflatten, h2 hl, if_neg hl.ne']
      rfl

theorem Regrouped.unflatten {x y : PyTree β} (h : Regrouped S S' x y) (xs : List γ) :
    RelRes (Regrouped S S') (PyTree.unflatten x xs) (PyTree.unflatten y xs) := by
  refine relres_of_leaves (fun r hr => ?_) (fun r hr => ?_) ?_
  · rw [PyTree.unflatten_struct hr, h.1]
  · rw [PyTree.unflatten_struct hr, h.2.1]
  · rw [unflatten_map_leaves, unflatten_map_leaves, h.2.2]

theorem Regrouped.numLeaves {x y : PyTree β} (h : Regrouped S S' x y) : x.numLeaves = y.numLeaves := by
  rw [← PyTree.leaves_length, ← PyTree.leaves_length, h.2.2]

end rel

variable {α : Type} [Zero α] [One α] [Add α] [Sub α] [Mul α] [Div α] [Neg α] [JOps α]
variable {S S' : PyTree Unit}

theorem Regrouped.tmap {β γ : Type} {x y : Params β} (h : Regrouped S S' x y) (f : β → γ) : Regrouped S S' (tmap f x) (tmap f y) := h.map _

theorem Regrouped.tzip {β γ δ : Type} {x y : Params β} {u v : Params γ} (h : Regrouped S S' x y) (h' : Regrouped S S' u v) (f : β → γ → δ) :
    RelRes (Regrouped S S') (tzip f x u) (tzip f y v) := h.zipM h' _

theorem Regrouped.zerosLike {x y : Params α} (h : Regrouped S S' x y) : Regrouped S S' (zerosLike x) (zerosLike y) := h.map _

theorem Regrouped.fullLike {x y : Params α} (h : Regrouped S S' x y) (c : α) : Regrouped S S' (fullLike x c) (fullLike y c) := h.map _

theorem Regrouped.castTree {x y : Params α} (h : Regrouped S S' x y) (c : Option (α → α)) : Regrouped S S' (castTree x c) (castTree y c) := by
  cases c with
  | none => exact h
  | some f => exact h.tmap f

theorem Regrouped.updateMoment {x y u v : Params α} (h : Regrouped S S' x y) (h' : Regrouped S S' u v) (d : α) (n : ℕ) :
    RelRes (Regrouped S S') (updateMoment x u d n) (updateMoment y v d n) := h.tzip h' _

theorem Regrouped.biasCorrection {x y : Params α} (h : Regrouped S S' x y) (d : α) (c : BitVec 32) :
    Regrouped S S' (biasCorrection x d c) (biasCorrection y d c) := h.tmap _

theorem Regrouped.globalNorm {x y : Params α} (h : Regrouped S S' x y) : globalNorm x = globalNorm y := by
  unfold Optax.globalNorm
  rw [h.2.2]

theorem Regrouped.spec_iff {x y u v : Params α} (h : Regrouped S S' x y) (h' : Regrouped S S' u v) : spec x = spec u ↔ spec y = spec v := by
  have key : ∀ a b : Params α, a.struct = b.struct → (spec a = spec b ↔ a.leaves.map Tensor.shape = b.leaves.map Tensor.shape) := by
    intro a b hab
    constructor
    · intro e
      have := congrArg PyTree.leaves e
      unfold spec at this
      rwa [PyTree.leaves_map, PyTree.leaves_map] at this
    · intro e
      refine PyTree.ext_struct_leaves _ _ ?_ ?_
      · unfold spec; rw [PyTree.struct_map, PyTree.struct_map, hab]
      · unfold spec; rw [PyTree.leaves_map, PyTree.leaves_map, e]
  rw [key x u (h.1.trans h'.1.symm), key y v (h.2.1.trans h'.2.1.symm), h.2.2, h'.2.2]

theorem RelRes.condTree {a b : Res (Params α)} {a' b' : Res (Params α)} (c : Bool) (h : RelRes (Regrouped S S') a a')
    (h' : RelRes (Regrouped S S') b b') : RelRes (Regrouped S S') (condTree c a b) (condTree c a' b') := by
  refine h.bind fun x x' hx => h'.bind fun y y' hy => ?_
  by_cases e : spec x = spec y
  · rw [if_pos e, if_pos ((hx.spec_iff hy).mp e)]
    cases c
    · exact hy
    · exact hx
  · rw [if_neg e, if_neg (fun e' => e ((hx.spec_iff hy).mpr e'))]
    exact rfl

/-! ## One update -/

/-- `R` relates the states of runs on `S`- and on `S'`-trees; `P`, `P'` is the structure of the `params` argument -/
structure SimBy (t : GT α) (S S' P P' : PyTree Unit) (R : t.State → t.State → Prop) : Prop where
  init : ∀ p p', Regrouped S S' p p' → RelRes R (t.init p) (t.init p')
  update : ∀ g g' s s' q q', Regrouped S S' g g' → R s s' → RegroupedOpt P P' q q' →
    RelRes (fun r r' => Regrouped S S' r.1 r'.1 ∧ R r.2 r'.2) (t.update g s q) (t.update g' s' q')

/-- there is such a relation, whatever the structure of the `params` argument -/
def SimAny (t : GT α) : Prop := ∀ S S' P P', ∃ R, SimBy t S S' P P' R

/-- there is such a relation when `params` has the structure of the gradients -/
def SimSame (t : GT α) : Prop := ∀ S S', ∃ R, SimBy t S S' S S' R

theorem SimAny.same {t : GT α} (h : SimAny t) : SimSame t := fun S S' => h S S' S S'

theorem SimBy.run {t : GT α} {P P' : PyTree Unit} {R : t.State → t.State → Prop} (h : SimBy t S S' P P' R) :
    ∀ (c c' : List (Call α)) (s s' : t.State), List.Forall₂ (fun c c' => Regrouped S S' c.1 c'.1 ∧ RegroupedOpt P P' c.2 c'.2) c c' → R s s' →
      RelRes (fun r r' => List.Forall₂ (Regrouped S S') r.1 r'.1 ∧ R r.2 r'.2) (t.run s c) (t.run s' c')
  | [], [], s, s', _, hs => ⟨.nil, hs⟩
  | c :: cs, c' :: cs', s, s', .cons hc hcs, hs => by
    refine (h.update _ _ _ _ _ _ hc.1 hs hc.2).bind fun r r' hr => ?_
    refine (h.run cs cs' _ _ hcs hr.2).bind fun r1 r1' hr1 => ?_
    exact ⟨.cons hr.1 hr1.1, hr1.2⟩

theorem SimBy.containerFreeAt {t : GT α} {P P' : PyTree Unit} {R : t.State → t.State → Prop} (hR : SimBy t S S' P P' R) : ContainerFreeAt t S S' P P' := by
  intro p p' c c' hp hc
  unfold GT.outs GT.exec
  refine ((hR.init p p' hp).bind fun s s' hs => hR.run c c' s s' hc hs).bind fun r r' hr => ?_
  exact hr.1

/-- the specification is equivalent to the existence of a simulation -/
theorem containerFreeAt_iff {t : GT α} {P P' : PyTree Unit} : ContainerFreeAt t S S' P P' ↔ ∃ R, SimBy t S S' P P' R := by
  refine ⟨fun h => ?_, fun ⟨R, hR⟩ => hR.containerFreeAt⟩
  refine ⟨fun s s' => ∃ p p' c c' us us', Regrouped S S' p p' ∧
    List.Forall₂ (fun c c' => Regrouped S S' c.1 c'.1 ∧ RegroupedOpt P P' c.2 c'.2) c c' ∧ t.exec p c = .ok (us, s) ∧ t.exec p' c' = .ok (us', s'), ?_, ?_⟩
  · intro p p' hp
    have := h p p' [] [] hp .nil
    simp only [GT.outs, GT.exec] at this
    cases hi : t.init p with
    | error e =>
      rw [hi] at this
      cases hi' : t.init p' with
      | error e' => rw [hi'] at this; exact this
      | ok s' => rw [hi'] at this; exact this.elim
    | ok s =>
      rw [hi] at this
      cases hi' : t.init p' with
      | error e' => rw [hi'] at this; exact this.elim
      | ok s' => exact ⟨p, p', [], [], [], [], hp, .nil, by simp [GT.exec, hi], by simp [GT.exec, hi']⟩
  · rintro g g' s s' q q' hg ⟨p, p', c, c', us, us', hp, hc, he, he'⟩ hq
    have hc' : List.Forall₂ (fun c c' => Regrouped S S' c.1 c'.1 ∧ RegroupedOpt P P' c.2 c'.2) (c ++ [(g, q)]) (c' ++ [(g', q')]) :=
      List.rel_append hc (.cons ⟨hg, hq⟩ .nil)
    have := h p p' _ _ hp hc'
    have ex : ∀ (p : Params α) (c : List (Call α)) us s g q, t.exec p c = .ok (us, s) →
        t.exec p (c ++ [(g, q)]) = (do let r ← t.update g s q; return (us ++ [r.1], r.2)) := by
      intro p c us s g q he
      unfold GT.exec at he ⊢
      cases hi : t.init p with
      | error e => rw [hi] at he; cases he
      | ok s0 =>
        rw [hi] at he
        simp only [Res.ok_bind] at he ⊢
        rw [GT.run_append, he]
        simp only [Res.ok_bind, GT.run]
        cases t.update g s q <;> rfl
    have e1 := ex p c us s g q he
    have e2 := ex p' c' us' s' g' q' he'
    simp only [GT.outs, e1, e2] at this
    have hl : us.length = us'.length := by
      have hus := h p p' c c' hp hc
      simp only [GT.outs, he, he'] at hus
      exact hus.length_eq
    cases hr : t.update g s q with
    | error e =>
      rw [hr] at this
      cases hr' : t.update g' s' q' with
      | error e' => rw [hr'] at this; exact this
      | ok r' => rw [hr'] at this; exact this.elim
    | ok r =>
      rw [hr] at this
      cases hr' : t.update g' s' q' with
      | error e' => rw [hr'] at this; exact this.elim
      | ok r' =>
        rw [hr'] at this
        have hf : List.Forall₂ (Regrouped S S') (us ++ [r.1]) (us' ++ [r'.1]) := this
        have hlast := List.forall₂_drop us.length hf
        rw [List.drop_left, hl, List.drop_left] at hlast
        cases hlast with
        | cons h1 _ =>
          refine ⟨h1, p, p', _, _, us ++ [r.1], us' ++ [r'.1], hp, hc', ?_, ?_⟩
          · rw [e1, hr]; rfl
          · rw [e2, hr']; rfl

theorem SimSame.containerFree {t : GT α} (h : SimSame t) : ContainerFree t := fun S S' => containerFreeAt_iff.mpr (h S S')

theorem ContainerFree.sim {t : GT α} (h : ContainerFree t) : SimSame t := fun S S' => containerFreeAt_iff.mp (h S S')

theorem sim_stateless {f : Params α → Option (Params α) → Res (Params α)} {P P' : PyTree Unit}
    (h : ∀ g g' q q', Regrouped S S' g g' → RegroupedOpt P P' q q' → RelRes (Regrouped S S') (f g q) (f g' q')) :
    SimBy (stateless f) S S' P P' (fun _ _ => True) where
  init _ _ _ := trivial
  update g g' s s' q q' hg _ hq := (h g g' q q' hg hq).bind fun _ _ hu => ⟨hu, trivial⟩

theorem sim_identity : SimAny (identity : GT α) := fun S S' P P' =>
  ⟨fun _ _ => True, fun _ _ _ => trivial, fun _ _ _ _ _ _ hg _ _ => ⟨hg, trivial⟩⟩

theorem sim_scale (c : α) : SimAny (scale c) := fun S S' P P' => ⟨_, sim_stateless fun _ _ _ _ hg _ => hg.tmap _⟩

theorem sim_clip (c : α) : SimAny (clip c) := fun S S' P P' => ⟨_, sim_stateless fun _ _ _ _ hg _ => hg.tmap _⟩

theorem sim_clipByGlobalNorm (c : α) : SimAny (clipByGlobalNorm c) := fun S S' P P' =>
  ⟨_, sim_stateless fun g g' _ _ hg _ => by rw [hg.globalNorm]; exact hg.tmap _⟩

theorem sim_centralize : SimAny (centralize : GT α) := fun S S' P P' => ⟨_, sim_stateless fun _ _ _ _ hg _ => hg.mapM _⟩

theorem sim_opt {f : Params α → Params α → Res (Params α)} (h : ∀ g g' p p', Regrouped S S' g g' → Regrouped S S' p p' → RelRes (Regrouped S S') (f g p) (f g' p')) :
    SimBy (stateless (fun g p => match p with | none => valueError | some p => f g p)) S S' S S' (fun _ _ => True) :=
  sim_stateless fun g g' q q' hg hq => by
    match q, q', hq with
    | none, none, _ => exact rfl
    | some p, some p', hp => exact h g g' p p' hg hp

theorem sim_addDecayedWeights (w : α) : SimSame (addDecayedWeights w) := fun S S' => ⟨_, sim_opt fun _ _ _ _ hg hp => hg.tzip hp _⟩

theorem sim_trustRatio (m : α) : SimSame (scaleByTrustRatio m) := fun S S' => ⟨_, sim_opt fun _ _ _ _ hg hp => hg.zipM hp _⟩

theorem sim_keepParamsNonnegative : SimSame (keepParamsNonnegative : GT α) := fun S S' => ⟨_, sim_opt fun _ _ _ _ hg hp => hp.tzip hg _⟩

theorem sim_adaptiveGradClip (c e : α) : SimSame (adaptiveGradClip c e) := fun S S' => ⟨_, sim_opt fun _ _ _ _ hg hp =>
  (hg.mapM _).bind fun _ _ hn => (hp.mapM _).bind fun _ _ hm => hn.zipM3 (hm.tmap _) hg _⟩

theorem sim_zeroNans : SimAny (zeroNans : GT α) := fun S S' P P' =>
  ⟨fun s s' => Regrouped S S' s.foundNan s'.foundNan, fun _ _ hp => hp.map _, fun _ _ _ _ _ _ hg _ _ => ⟨hg.tmap _, hg.map _⟩⟩

theorem sim_trace (d : α) (nes : Bool) (acc : Option (α → α)) : SimAny (trace d nes acc) := fun S S' P P' =>
  ⟨fun s s' => Regrouped S S' s.trace s'.trace, fun _ _ hp => hp.zerosLike.castTree acc, fun _ _ _ _ _ _ hg hs _ =>
    (hg.tzip hs _).bind fun _ _ hx => by
      cases nes
      · exact ⟨hx, hx.castTree acc⟩
      · exact (hg.tzip hx _).bind fun _ _ hu => ⟨hu, hx.castTree acc⟩⟩

theorem sim_ema (d : α) (deb : Bool) (acc : Option (α → α)) : SimAny (ema d deb acc) := fun S S' P P' =>
  ⟨fun s s' => s.count = s'.count ∧ Regrouped S S' s.ema s'.ema, fun _ _ hp => ⟨rfl, hp.zerosLike.castTree acc⟩, fun _ _ s s' _ _ hg hs _ =>
    (hg.updateMoment hs.2 _ _).bind fun _ _ hx => by
      simp only [hs.1]
      cases deb
      · exact ⟨hg, rfl, hx.castTree acc⟩
      · exact ⟨hx.biasCorrection _ _, rfl, hx.castTree acc⟩⟩

theorem sim_rss (a e : α) : SimAny (scaleByRss a e) := fun S S' P P' =>
  ⟨fun s s' => Regrouped S S' s.sumOfSquares s'.sumOfSquares, fun _ _ hp => hp.fullLike _, fun _ _ s s' _ _ hg hs _ =>
    (hg.tzip hs _).bind fun _ _ hx => ((hx.tmap _).tzip hg _).bind fun _ _ hu => ⟨hu, hx⟩⟩

theorem sim_rms (d e a : α) : SimAny (scaleByRms d e a) := fun S S' P P' =>
  ⟨fun s s' => Regrouped S S' s.nu s'.nu, fun _ _ hp => hp.fullLike _, fun _ _ s s' _ _ hg hs _ =>
    (hg.updateMoment hs _ _).bind fun _ _ hx => (hg.tzip hx _).bind fun _ _ hu => ⟨hu, hx⟩⟩

theorem sim_stddev (d e a : α) : SimAny (scaleByStddev d e a) := fun S S' P P' =>
  ⟨fun s s' => Regrouped S S' s.mu s'.mu ∧ Regrouped S S' s.nu s'.nu, fun _ _ hp => ⟨hp.zerosLike, hp.fullLike _⟩, fun _ _ s s' _ _ hg hs _ =>
    (hg.updateMoment hs.1 _ _).bind fun _ _ hx => (hg.updateMoment hs.2 _ _).bind fun _ _ hy => (hg.zipM3 hx hy _).bind fun _ _ hu => ⟨hu, hx, hy⟩⟩

/-- the relation for the three states with two moments -/
def AdamRel (S S' : PyTree Unit) (s s' : AdamState α) : Prop := s.count = s'.count ∧ Regrouped S S' s.mu s'.mu ∧ Regrouped S S' s.nu s'.nu

theorem sim_adam (b1 b2 e er : α) : SimAny (scaleByAdam b1 b2 e er) := fun S S' P P' =>
  ⟨AdamRel S S', fun _ _ hp => ⟨rfl, hp.zerosLike, hp.zerosLike⟩, fun _ _ s s' _ _ hg hs _ =>
    (hg.updateMoment hs.2.1 _ _).bind fun _ _ hx => (hg.updateMoment hs.2.2 _ _).bind fun _ _ hy => by
      simp only [hs.1]
      exact ((hx.biasCorrection _ _).tzip (hy.biasCorrection _ _) _).bind fun _ _ hu => ⟨hu, rfl, hx, hy⟩⟩

theorem sim_belief (b1 b2 e er : α) : SimAny (scaleByBelief b1 b2 e er) := fun S S' P P' =>
  ⟨AdamRel S S', fun _ _ hp => ⟨rfl, hp.zerosLike, hp.zerosLike⟩, fun _ _ s s' _ _ hg hs _ =>
    (hg.updateMoment hs.2.1 _ _).bind fun _ _ hx => (hg.tzip hs.2.1 _).bind fun _ _ hq => (hq.updateMoment hs.2.2 _ _).bind fun _ _ hy => by
      simp only [hs.1]
      exact ((hx.biasCorrection _ _).tzip (hy.biasCorrection _ _) _).bind fun _ _ hu => ⟨hu, rfl, hx, hy⟩⟩

theorem sim_yogi (b1 b2 e er a : α) : SimAny (scaleByYogi b1 b2 e er a) := fun S S' P P' =>
  ⟨AdamRel S S', fun _ _ hp => ⟨rfl, hp.fullLike _, hp.fullLike _⟩, fun _ _ s s' _ _ hg hs _ =>
    (hg.updateMoment hs.2.1 _ _).bind fun _ _ hx => (hg.tzip hs.2.2 _).bind fun _ _ hq => (hq.updateMoment hs.2.2 _ _).bind fun _ _ hy => by
      simp only [hs.1]
      exact ((hx.biasCorrection _ _).tzip (hy.biasCorrection _ _) _).bind fun _ _ hu => ⟨hu, rfl, hx, hy⟩⟩

theorem sim_radam (b1 b2 e er th : α) : SimAny (scaleByRadam b1 b2 e er th) := fun S S' P P' =>
  ⟨AdamRel S S', fun _ _ hp => ⟨rfl, hp.zerosLike, hp.zerosLike⟩, fun _ _ s s' _ _ hg hs _ =>
    (hg.updateMoment hs.2.1 _ _).bind fun _ _ hx => (hg.updateMoment hs.2.2 _ _).bind fun _ _ hy => by
      simp only [hs.1]
      exact (RelRes.condTree _ ((hx.biasCorrection _ _).tzip (hy.biasCorrection _ _) _) (show RelRes (Regrouped S S') (.ok _) (.ok _) from hx.biasCorrection _ _)).bind
        fun _ _ hu => ⟨hu, rfl, hx, hy⟩⟩

theorem sim_schedule (f : Schedule α) : SimAny (scaleBySchedule f) := fun S S' P P' =>
  ⟨fun s s' => s = s', fun _ _ _ => rfl, fun _ _ s s' _ _ hg hs _ => by subst hs; exact ⟨hg.tmap _, rfl⟩⟩

theorem sim_applyEvery (k : ℤ) : SimAny (applyEvery k : GT α) := fun S S' P P' =>
  ⟨fun s s' => s.count = s'.count ∧ Regrouped S S' s.gradAcc s'.gradAcc, fun _ _ hp => ⟨rfl, hp.zerosLike⟩, fun _ _ s s' _ _ hg hs _ => by
    simp only [hs.1]
    exact (hg.tzip hs.2 _).bind fun _ _ hx => ⟨hx.tmap _, rfl, hx⟩⟩

theorem sim_addNoise (normal : Normal α) (eta gamma : α) (seed : ℤ) : SimAny (addNoise normal eta gamma seed) := fun S S' P P' =>
  ⟨fun s s' => s = s', fun _ _ _ => rfl, fun g g' s s' _ _ hg hs _ => by
    subst hs
    simp only [hg.numLeaves]
    refine (hg.unflatten _).bind fun _ _ hk => (hg.zipM hk _).bind fun _ _ hn => (hg.tzip hn _).bind fun _ _ hu =>
      (RelRes.refl (P := fun x y => x = y) (fun _ => rfl) _).bind fun _ _ he => ?_
    subst he
    exact ⟨hu, rfl⟩⟩

theorem sim_sm3 (b1 b2 e : α) : SimAny (scaleBySM3 b1 b2 e) := fun S S' P P' =>
  ⟨fun s s' => Regrouped S S' s.mu s'.mu ∧ Regrouped S S' s.nu s'.nu, fun _ _ hp => ⟨hp.map _, hp.zerosLike⟩, fun _ _ s s' _ _ hg hs _ =>
    (hg.zipM hs.1 _).bind fun _ _ hm => (hg.zipM hm _).bind fun _ _ ha => (hg.tzip (ha.tmap _) _).bind fun _ _ hu =>
      (hu.updateMoment hs.2 _ _).bind fun _ _ hn => (ha.mapM _).bind fun _ _ hm' => ⟨hn, hm', hn⟩⟩

theorem sim_dpAggregate (normal : Normal α) (c m : α) (seed : ℤ) : SimAny (dpAggregate normal c m seed) := fun S S' P P' =>
  ⟨fun s s' => s = s', fun _ _ _ => rfl, fun g g' s s' _ _ hg hs _ => by
    subst hs
    simp only [hg.2.2]
    refine (RelRes.refl (P := fun x y => x = y) (fun _ => rfl) _).bind fun _ _ he => ?_
    subst he
    refine (RelRes.refl (P := fun x y => x = y) (fun _ => rfl) _).bind fun _ _ he => ?_
    refine (hg.unflatten _).bind fun _ _ hu => (RelRes.refl (P := fun x y => x = y) (fun _ => rfl) _).bind fun _ _ he => ?_
    subst he
    exact ⟨hu, rfl⟩⟩

/-! ## Chains -/

theorem sim_chain_aux {P P' : PyTree Unit} : ∀ (ts : List (GT α)), (∀ t ∈ ts, ∃ R, SimBy t S S' P P' R) →
    ∃ R : ChainState ts → ChainState ts → Prop, (∀ s s', R s s' → ChainState.length ts s = ts.length ∧ ChainState.length ts s' = ts.length) ∧
      (∀ p p', Regrouped S S' p p' → RelRes R (chainInit ts p) (chainInit ts p')) ∧
      (∀ g g' s s' q q', Regrouped S S' g g' → R s s' → RegroupedOpt P P' q q' →
        RelRes (fun r r' => Regrouped S S' r.1 r'.1 ∧ R r.2 r'.2) (chainLoop ts g s q) (chainLoop ts g' s' q'))
  | [], _ => ⟨fun s s' => (s : ℕ) = 0 ∧ (s' : ℕ) = 0, fun s s' h => h, fun _ _ _ => ⟨rfl, rfl⟩, fun _ _ _ _ _ _ hg _ _ => ⟨hg, rfl, rfl⟩⟩
  | t :: ts, h => by
    obtain ⟨R, hR⟩ := h t (by simp)
    obtain ⟨R', h1, h2, h3⟩ := sim_chain_aux ts fun u hu => h u (by simp [hu])
    refine ⟨fun s s' => ∃ a b a' b', s = some (a, b) ∧ s' = some (a', b') ∧ R a a' ∧ R' b b', ?_, ?_, ?_⟩
    · rintro s s' ⟨a, b, a', b', rfl, rfl, ha, hb⟩
      have := h1 b b' hb
      simp only [ChainState.length, List.length_cons, this.1, this.2]
      omega
    · intro p p' hp
      exact (hR.init p p' hp).bind fun s s' hs => (h2 p p' hp).bind fun r r' hr => ⟨_, _, _, _, rfl, rfl, hs, hr⟩
    · rintro g g' s s' q q' hg ⟨a, b, a', b', rfl, rfl, ha, hb⟩ hq
      exact (hR.update g g' a a' q q' hg ha hq).bind fun u u' hu => (h3 _ _ _ _ q q' hu.1 hb hq).bind fun r r' hr =>
        ⟨hr.1, _, _, _, _, rfl, rfl, hu.2, hr.2⟩

theorem sim_chain_by {P P' : PyTree Unit} (ts : List (GT α)) (h : ∀ t ∈ ts, ∃ R, SimBy t S S' P P' R) : ∃ R, SimBy (chain ts) S S' P P' R := by
  obtain ⟨R, h1, h2, h3⟩ := sim_chain_aux ts h
  refine ⟨R, h2, fun g g' s s' q q' hg hs hq => ?_⟩
  have e1 : ¬ ChainState.length ts s ≠ ts.length := not_not.mpr (h1 s s' hs).1
  have e2 : ¬ ChainState.length ts s' ≠ ts.length := not_not.mpr (h1 s s' hs).2
  show RelRes _ (if _ then _ else _) (if _ then _ else _)
  rw [if_neg e1, if_neg e2]
  exact h3 g g' s s' q q' hg hs hq

theorem sim_chain (ts : List (GT α)) (h : ∀ t ∈ ts, SimSame t) : SimSame (chain ts) := fun S S' => sim_chain_by ts fun t ht => h t ht S S'

theorem sim_chain_any (ts : List (GT α)) (h : ∀ t ∈ ts, SimAny t) : SimAny (chain ts) := fun S S' P P' => sim_chain_by ts fun t ht => h t ht S S' P P'

theorem sim_lr (lr : LR α) : SimAny (scaleByLearningRate lr) := by
  cases lr with
  | scalar x => exact sim_scale (-x)
  | schedule f => exact sim_schedule (fun count => -f count)

theorem sim_momentum (m : Option α) (nes : Bool) : SimAny (momentumOrIdentity m nes) := by
  cases m with
  | none => exact sim_identity
  | some m => exact sim_trace m nes none

/-! ## Wrappers -/

theorem flattenVec_regroup {x y : Params α} (h : Regrouped S S' x y) : flattenVec x = flattenVec y := by
  unfold flattenVec
  rw [h.2.2]

theorem flattenArg_regroup {P P' : PyTree Unit} {x y : Option (Params α)} (h : RegroupedOpt P P' x y) : flattenArg x = flattenArg y := by
  match x, y, h with
  | none, none, _ => rfl
  | some x, some y, h => simp only [flattenArg, flattenVec_regroup h]

theorem unflattenVec_regroup {x y : Params α} (h : Regrouped S S' x y) (f : Params α) :
    RelRes (Regrouped S S') (unflattenVec x f) (unflattenVec y f) := by
  match f with
  | .node _ _ => exact rfl
  | .leaf v =>
    simp only [unflattenVec, h.2.2]
    exact (RelRes.refl (P := fun x y => x = y) (fun _ => rfl) _).bind fun _ _ he => he ▸ h.unflatten _

/-- `flatten` hides the containers from every inner transformation. -/
theorem sim_flatten (t : GT α) : SimAny (flatten t) := fun S S' P P' =>
  ⟨fun s s' => s = s', fun p p' hp => by
    show RelRes _ (flattenVec p >>= _) (flattenVec p' >>= _)
    rw [flattenVec_regroup hp]
    exact RelRes.refl (fun _ => rfl) _, fun g g' s s' q q' hg hs hq => by
    subst hs
    simp only [flattenArg_regroup hq, flattenVec_regroup hg]
    refine (RelRes.refl (P := fun x y => x = y) (fun _ => rfl) _).bind fun _ _ he => ?_
    subst he
    refine (RelRes.refl (P := fun x y => x = y) (fun _ => rfl) _).bind fun _ _ he => ?_
    subst he
    refine (RelRes.refl (P := fun x y => x = y) (fun _ => rfl) _).bind fun _ _ he => ?_
    subst he
    exact (unflattenVec_regroup hg _).bind fun _ _ hu => ⟨hu, rfl⟩⟩

theorem RelRes.condUpd {T : Type} {R : T → T → Prop} {a b a' b' : Res (Params α × T)} (c : Bool)
    (h : RelRes (fun r r' => Regrouped S S' r.1 r'.1 ∧ R r.2 r'.2) a a') (h' : RelRes (fun r r' => Regrouped S S' r.1 r'.1 ∧ R r.2 r'.2) b b') :
    RelRes (fun r r' => Regrouped S S' r.1 r'.1 ∧ R r.2 r'.2) (condUpd c a b) (condUpd c a' b') := by
  refine h.bind fun x x' hx => h'.bind fun y y' hy => ?_
  by_cases e : spec x.1 = spec y.1
  · rw [if_pos e, if_pos ((hx.1.spec_iff hy.1).mp e)]
    cases c
    · exact hy
    · exact hx
  · rw [if_neg e, if_neg (fun e' => e ((hx.1.spec_iff hy.1).mpr e'))]
    exact rfl

theorem sim_applyIfFinite_by {t : GT α} {P P' : PyTree Unit} (m : ℤ) (h : ∃ R, SimBy t S S' P P' R) : ∃ R, SimBy (applyIfFinite t m) S S' P P' R := by
  obtain ⟨R, hR⟩ := h
  refine ⟨fun s s' => s.notfiniteCount = s'.notfiniteCount ∧ s.lastFinite = s'.lastFinite ∧ s.totalNotfinite = s'.totalNotfinite ∧ R s.innerState s'.innerState,
    fun p p' hp => (hR.init p p' hp).bind fun _ _ hs => ⟨rfl, rfl, rfl, hs⟩, fun g g' s s' q q' hg hs hq => ?_⟩
  have e : allFinite g = allFinite g' := by unfold allFinite; rw [hg.2.2]
  simp only [e, hs.1, hs.2.2.1]
  exact (RelRes.condUpd _ (hR.update g g' _ _ q q' hg hs.2.2.2 hq) (show RelRes _ (.ok _) (.ok _) from ⟨hg.zerosLike, hs.2.2.2⟩)).bind
    fun r r' hr => ⟨hr.1, rfl, rfl, rfl, hr.2⟩

theorem sim_maybeUpdate_by {t : GT α} {P P' : PyTree Unit} (f : ℤ → Bool) (h : ∃ R, SimBy t S S' P P' R) : ∃ R, SimBy (maybeUpdate t f) S S' P P' R := by
  obtain ⟨R, hR⟩ := h
  refine ⟨fun s s' => R s.innerState s'.innerState ∧ s.step = s'.step,
    fun p p' hp => (hR.init p p' hp).bind fun _ _ hs => ⟨hs, rfl⟩, fun g g' s s' q q' hg hs hq => ?_⟩
  simp only [hs.2]
  exact (RelRes.condUpd _ (hR.update g g' _ _ q q' hg hs.1 hq) (show RelRes _ (.ok _) (.ok _) from ⟨hg, hs.1⟩)).bind
    fun r r' hr => ⟨hr.1, hr.2, rfl⟩

theorem sim_multiSteps_by {t : GT α} {P P' : PyTree Unit} (k : ℤ → ℤ) (mean : Bool) (h : ∃ R, SimBy t S S' P P' R) :
    ∃ R, SimBy (multiSteps t k mean) S S' P P' R := by
  obtain ⟨R, hR⟩ := h
  refine ⟨fun s s' => s.miniStep = s'.miniStep ∧ s.gradientStep = s'.gradientStep ∧ R s.innerOptState s'.innerOptState ∧ Regrouped S S' s.accGrads s'.accGrads,
    fun p p' hp => (hR.init p p' hp).bind fun _ _ hs => ⟨rfl, rfl, hs, hp.zerosLike⟩, fun g g' s s' q q' hg hs hq => ?_⟩
  simp only [hs.1, hs.2.1]
  refine (hg.tzip hs.2.2.2 _).bind fun acc acc' ha => ?_
  refine RelRes.condUpd (α := α) (R := fun (s s' : MultiStepsState α t.State) => s.miniStep = s'.miniStep ∧ s.gradientStep = s'.gradientStep ∧ R s.innerOptState s'.innerOptState ∧
    Regrouped S S' s.accGrads s'.accGrads) _ (show RelRes _ (.ok _) (.ok _) from ⟨hg.zerosLike, rfl, rfl, hs.2.2.1, ha⟩) ?_
  cases mean
  · exact (hR.update _ _ _ _ none none ha hs.2.2.1 trivial).bind fun r r' hr => ⟨hr.1, rfl, rfl, hr.2, ha.zerosLike⟩
  · exact (hR.update _ _ _ _ none none (ha.tmap _) hs.2.2.1 trivial).bind fun r r' hr => ⟨hr.1, rfl, rfl, hr.2, ha.zerosLike⟩

/-! ### `masked` -/

mutual
theorem PyTree.flattenUpTo_full {β γ : Type} : ∀ (m : PyTree β) (g : PyTree γ), m.struct = g.struct → flattenUpTo m g = .ok (g.leaves.map leaf)
  | leaf b, leaf c, _ => rfl
  | leaf b, node t cs, h => by simp [struct, map] at h
  | node t cs, leaf b, h => by simp [struct, map] at h
  | node t cs, node t' cs', h => by
    simp only [struct, map, node.injEq] at h
    simp only [flattenUpTo, h.1, if_true, leaves]
    exact flattenUpToL_full cs cs' h.2
theorem PyTree.flattenUpToL_full {β γ : Type} : ∀ (m : List (PyTree β)) (g : List (PyTree γ)), mapL (fun _ => ()) m = mapL (fun _ => ()) g →
    flattenUpToL m g = .ok ((leavesL g).map leaf)
  | [], [], _ => rfl
  | [], c :: cs, h => by simp [mapL] at h
  | c :: cs, [], h => by simp [mapL] at h
  | c :: cs, d :: ds, h => by
    simp only [mapL, List.cons.injEq] at h
    simp only [flattenUpToL, flattenUpTo_full c d h.1, flattenUpToL_full cs ds h.2, Res.ok_bind, leavesL, List.map_append]
    rfl
end

mutual
theorem PyTree.join_leaves {β : Type} : ∀ (t : PyTree (PyTree β)), t.join.leaves = t.leaves.flatMap PyTree.leaves
  | leaf t => by simp [join, leaves]
  | node t cs => by simp only [join, leaves]; exact joinL_leaves cs
theorem PyTree.joinL_leaves {β : Type} : ∀ (t : List (PyTree (PyTree β))), leavesL (joinL t) = (leavesL t).flatMap PyTree.leaves
  | [] => rfl
  | c :: cs => by simp only [joinL, leavesL, join_leaves c, joinL_leaves cs, List.flatMap_append]
end

mutual
theorem PyTree.join_struct_leaf {β : Type} : ∀ (t : PyTree (PyTree β)), (∀ x ∈ t.leaves, ∃ b, x = leaf b) → t.join.struct = t.struct
  | leaf t, h => by
    obtain ⟨b, rfl⟩ := h t (by simp [leaves])
    rfl
  | node t cs, h => by simp only [join, struct, map, joinL_struct_leaf cs h]
theorem PyTree.joinL_struct_leaf {β : Type} : ∀ (t : List (PyTree (PyTree β))), (∀ x ∈ leavesL t, ∃ b, x = leaf b) →
    mapL (fun _ => ()) (joinL t) = mapL (fun _ => ()) t
  | [], _ => rfl
  | c :: cs, h => by
    have h1 := join_struct_leaf c fun x hx => h x (by simp [leavesL, hx])
    have h2 := joinL_struct_leaf cs fun x hx => h x (by simp [leavesL, hx])
    simp only [struct] at h1
    simp only [joinL, mapL, h1, h2]
end

/-- `bool(params)` of a non-empty container -/
theorem truthy_node {c : PyTree Unit} {cs : List (PyTree Unit)} {k : Tag} {p : Params α} (h : p.struct = .node k (c :: cs)) : truthy (some p) = .ok true := by
  match p, h with
  | .leaf b, h => simp [PyTree.struct, PyTree.map] at h
  | .node t [], h => simp [PyTree.struct, PyTree.map, PyTree.mapL] at h
  | .node t (d :: ds), h => rfl

theorem putBack_leaves {β : Type} : ∀ (m : List Bool) (flat new r : List (PyTree β)), (∀ x ∈ flat, ∃ b, x = .leaf b) → (∀ x ∈ new, ∃ b, x = .leaf b) →
    putBack m flat new = .ok r → ∀ x ∈ r, ∃ b, x = PyTree.leaf b
  | [], flat, new, r, h1, h2, h => by
    simp only [putBack, Except.ok.injEq] at h
    exact h ▸ h1
  | false :: ms, x :: xs, new, r, h1, h2, h => by
    simp only [putBack, Res.bind_eq_ok] at h
    obtain ⟨y, hy, h⟩ := h
    simp only [Res.pure_eq, Except.ok.injEq] at h
    subst h
    intro z hz
    rcases List.mem_cons.mp hz with rfl | hz
    · exact h1 _ (by simp)
    · exact putBack_leaves ms xs new y (fun x hx => h1 x (by simp [hx])) h2 hy z hz
  | true :: ms, x :: xs, [], r, h1, h2, h => by simp [putBack] at h
  | true :: ms, x :: xs, y :: ys, r, h1, h2, h => by
    simp only [putBack, Res.bind_eq_ok] at h
    obtain ⟨w, hw, h⟩ := h
    simp only [Res.pure_eq, Except.ok.injEq] at h
    subst h
    intro z hz
    rcases List.mem_cons.mp hz with rfl | hz
    · exact h2 _ (by simp)
    · exact putBack_leaves ms xs ys w (fun x hx => h1 x (by simp [hx])) (fun x hx => h2 x (by simp [hx])) hw z hz
  | false :: _, [], _, r, h1, h2, h => by simp [putBack] at h
  | true :: _, [], _, r, h1, h2, h => by simp [putBack] at h

theorem struct_children {β γ : Type} : ∀ (cs : List (PyTree β)) (l : List (PyTree γ)), (∀ x ∈ l, ∃ b, x = .leaf b) →
    PyTree.mapL (fun _ => ()) cs = PyTree.mapL (fun _ => ()) l → ∀ x ∈ cs, ∃ b, x = PyTree.leaf b
  | [], [], _, _, x, hx => by simp at hx
  | [], d :: ds, _, h, _, _ => by simp [PyTree.mapL] at h
  | c :: cs, [], _, h, _, _ => by simp [PyTree.mapL] at h
  | c :: cs, d :: ds, hl, h, x, hx => by
    simp only [PyTree.mapL, List.cons.injEq] at h
    rcases List.mem_cons.mp hx with rfl | hx
    · obtain ⟨b, hb⟩ := hl d (by simp)
      subst hb
      match x, h.1 with
      | .leaf b, _ => exact ⟨b, rfl⟩
      | .node t cs, h => simp [PyTree.map] at h
    · exact struct_children cs ds (fun y hy => hl y (by simp [hy])) h.2 x hx

theorem selectMask_mem {β : Type} (flat : List β) (m : List Bool) (x : β) (h : x ∈ selectMask flat m) : x ∈ flat := by
  unfold selectMask at h
  obtain ⟨y, hy, rfl⟩ := List.mem_map.mp h
  exact (List.of_mem_zip (List.mem_filter.mp hy).1).1

theorem sim_masked {t : GT α} (ht : Keeps t) (mask : Params α → PyTree Bool) {k k' : Tag} {c c' : PyTree Unit} {cs cs' : List (PyTree Unit)}
    (hm : ∀ g g', Regrouped (.node k (c :: cs)) (.node k' (c' :: cs')) g g' → Regrouped (.node k (c :: cs)) (.node k' (c' :: cs')) (mask g) (mask g')) :
    SimBy (masked t mask) (.node k (c :: cs)) (.node k' (c' :: cs')) (.node k (c :: cs)) (.node k' (c' :: cs')) (fun s s' => s = s') where
  init p p' hp := by
    have h := hm p p' hp
    simp only [PyTree.flattenUpTo_full _ _ (h.1.trans hp.1.symm), PyTree.flattenUpTo_full _ _ (h.2.1.trans hp.2.1.symm), Res.ok_bind, hp.2.2, h.2.2]
    exact RelRes.refl (fun _ => rfl) _
  update g g' s s' q q' hg hs hq := by
    subst hs
    have h := hm g g' hg
    have hpar : maskParamsArg (mask g) q = maskParamsArg (mask g') q' := by
      match q, q', hq with
      | none, none, _ => rfl
      | some p, some p', hp =>
        simp only [maskParamsArg, truthy_node hp.1, truthy_node hp.2.1, Res.ok_bind, PyTree.flattenUpTo_full _ _ (h.1.trans hp.1.symm),
          PyTree.flattenUpTo_full _ _ (h.2.1.trans hp.2.1.symm), hp.2.2, h.2.2]
    simp only [PyTree.flattenUpTo_full _ _ (h.1.trans hg.1.symm), PyTree.flattenUpTo_full _ _ (h.2.1.trans hg.2.1.symm), Res.ok_bind, hg.2.2, h.2.2, hpar]
    cases hmp : maskParamsArg (mask g') q' with
    | error e => exact rfl
    | ok mp =>
      simp only [Res.ok_bind]
      cases hr : t.update (PyTree.node Tag.list (selectMask (List.map PyTree.leaf g'.leaves) (mask g').leaves)) s mp with
      | error e => exact rfl
      | ok r =>
        simp only [Res.ok_bind]
        cases hn : iterChildren r.1 with
        | error e => exact rfl
        | ok new =>
          simp only [Res.ok_bind]
          cases hf : putBack (mask g').leaves (List.map PyTree.leaf g'.leaves) new with
          | error e => exact rfl
          | ok flat =>
            simp only [Res.ok_bind]
            have hkeep := ht _ _ _ _ _ hr
            have hflat : ∀ x ∈ List.map PyTree.leaf g'.leaves, ∃ b : Tensor α, x = PyTree.leaf b := by
              intro x hx
              obtain ⟨b, _, rfl⟩ := List.mem_map.mp hx
              exact ⟨b, rfl⟩
            have hnew : ∀ x ∈ new, ∃ b : Tensor α, x = PyTree.leaf b := by
              match hr1 : r.1, hn, hkeep with
              | .leaf b, hn, _ => simp [iterChildren] at hn
              | .node tg ds, hn, hk =>
                simp only [iterChildren, Except.ok.injEq] at hn
                subst hn
                simp only [PyTree.struct, PyTree.map, PyTree.node.injEq] at hk
                exact struct_children _ _ (fun x hx => hflat x (selectMask_mem _ _ _ hx)) hk.2
            have hall := putBack_leaves _ _ _ _ hflat hnew hf
            have hu := h.unflatten flat
            cases hx : PyTree.unflatten (mask g) flat with
            | error e =>
              rw [hx] at hu
              cases hy : PyTree.unflatten (mask g') flat with
              | error e' => rw [hy] at hu; exact hu
              | ok y => rw [hy] at hu; exact hu.elim
            | ok x =>
              rw [hx] at hu
              cases hy : PyTree.unflatten (mask g') flat with
              | error e' => rw [hy] at hu; exact hu.elim
              | ok y =>
                rw [hy] at hu
                have hxl : x.leaves = flat := by
                  have := unflatten_map_leaves (mask g) flat
                  rw [hx] at this
                  simp only [Res.ok_bind, Res.pure_eq] at this
                  split at this
                  · exact Except.ok.inj this
                  · cases this
                refine ⟨⟨?_, ?_, ?_⟩, rfl⟩
                · rw [PyTree.join_struct_leaf x (hxl ▸ hall)]; exact hu.1
                · rw [PyTree.join_struct_leaf y (hu.2.2 ▸ hxl ▸ hall)]; exact hu.2.1
                · rw [PyTree.join_leaves, PyTree.join_leaves, hu.2.2]

/-! ### `lookahead` -/

/-- the structure of `LookaheadParams(fast, slow)` -/
def pairStruct (S : PyTree Unit) : PyTree Unit := .node (.named "LookaheadParams") [S, S]

theorem Regrouped.pair {x y u v : Params α} (h : Regrouped S S' x y) (h' : Regrouped S S' u v) :
    Regrouped (pairStruct S) (pairStruct S') (lookaheadParams x u) (lookaheadParams y v) := by
  refine ⟨?_, ?_, ?_⟩
  · have h1 := h.1; have h2 := h'.1
    simp only [PyTree.struct] at h1 h2
    simp only [PyTree.struct, lookaheadParams, PyTree.map, PyTree.mapL, h1, h2, pairStruct]
  · have h1 := h.2.1; have h2 := h'.2.1
    simp only [PyTree.struct] at h1 h2
    simp only [PyTree.struct, lookaheadParams, PyTree.map, PyTree.mapL, h1, h2, pairStruct]
  · simp only [lookaheadParams, PyTree.leaves, PyTree.leavesL, h.2.2, h'.2.2]

theorem pairStruct_inv {x : Params α} (h : x.struct = pairStruct S) : ∃ f s, x = lookaheadParams f s ∧ f.struct = S ∧ s.struct = S := by
  match x, h with
  | .leaf b, h => simp [PyTree.struct, PyTree.map, pairStruct] at h
  | .node t [], h => simp [PyTree.struct, PyTree.map, PyTree.mapL, pairStruct] at h
  | .node t [a], h => simp [PyTree.struct, PyTree.map, PyTree.mapL, pairStruct] at h
  | .node t [a, b], h =>
    simp only [PyTree.struct, PyTree.map, PyTree.mapL, pairStruct, PyTree.node.injEq, List.cons.injEq, and_true] at h
    exact ⟨a, b, by rw [h.1]; rfl, h.2.1, h.2.2⟩
  | .node t (a :: b :: c :: d), h => simp [PyTree.struct, PyTree.map, PyTree.mapL, pairStruct] at h

theorem Regrouped.pair_inv {β : Type} {g g' : PyTree β} (hg : Regrouped S S' g g') {x y : Params α} (h : Regrouped (pairStruct S) (pairStruct S') x y) :
    ∃ f s f' s', x = lookaheadParams f s ∧ y = lookaheadParams f' s' ∧ Regrouped S S' f f' ∧ Regrouped S S' s s' := by
  obtain ⟨f, s, rfl, h1, h2⟩ := pairStruct_inv h.1
  obtain ⟨f', s', rfl, h3, h4⟩ := pairStruct_inv h.2.1
  have hl := h.2.2
  simp only [lookaheadParams, PyTree.leaves, PyTree.leavesL, List.append_nil] at hl
  have hn : f.leaves.length = f'.leaves.length := by
    rw [PyTree.length_leaves_struct f g (h1.trans hg.1.symm), hg.2.2, PyTree.length_leaves_struct g' f' (hg.2.1.trans h3.symm)]
  obtain ⟨e1, e2⟩ := List.append_inj hl hn
  exact ⟨f, s, f', s', rfl, rfl, ⟨h1, h3, e1⟩, ⟨h2, h4, e2⟩⟩

/-- **C104 (`lookahead`).** With gradients in other containers and `LookaheadParams` of other containers, `lookahead` returns the same leaves in these. -/
theorem C104_lookahead (fast : GT α) (k : ℤ) (slow : α) (S S' : PyTree Unit) (h : ContainerFreeAt fast S S' (pairStruct S) (pairStruct S'))
    (p p' : Params α) (c c' : List (Call α)) (hp : Regrouped S S' p p')
    (hc : List.Forall₂ (fun c c' => Regrouped S S' c.1 c'.1 ∧ RegroupedOpt (pairStruct S) (pairStruct S') c.2 c'.2) c c') :
    RelRes (List.Forall₂ (Regrouped (pairStruct S) (pairStruct S'))) ((lookahead fast k slow none).outs (initSynced p) c)
      ((lookahead fast k slow none).outs (initSynced p') c') := by
  obtain ⟨R, hR⟩ := containerFreeAt_iff.mp h
  have hrun : ∀ (c c' : List (Call α)) (s s' : (lookahead fast k slow none).State),
      List.Forall₂ (fun c c' => Regrouped S S' c.1 c'.1 ∧ RegroupedOpt (pairStruct S) (pairStruct S') c.2 c'.2) c c' →
      (R s.fastState s'.fastState ∧ s.stepsSinceSync = s'.stepsSinceSync) →
      RelRes (fun r r' => List.Forall₂ (Regrouped (pairStruct S) (pairStruct S')) r.1 r'.1) ((lookahead fast k slow none).run s c)
        ((lookahead fast k slow none).run s' c') := by
    intro c c' s s' hc
    induction hc generalizing s s' with
    | nil => intro _; exact .nil
    | @cons a b as bs ha _ ih =>
      intro hs
      have hstep : RelRes (fun r r' => Regrouped (pairStruct S) (pairStruct S') r.1 r'.1 ∧ R r.2.fastState r'.2.fastState ∧
          r.2.stepsSinceSync = r'.2.stepsSinceSync) ((lookahead fast k slow none).update a.1 s a.2) ((lookahead fast k slow none).update b.1 s' b.2) := by
        refine (hR.update _ _ _ _ _ _ ha.1 hs.1 ha.2).bind fun r r' hr => ?_
        match ha2 : a.2, hb2 : b.2, ha.2 with
        | none, none, _ => exact rfl
        | some q, some q', hq =>
          obtain ⟨f, w, f', w', rfl, rfl, hf, hw⟩ := ha.1.pair_inv hq
          simp only [hs.2]
          refine RelRes.bind (P := fun x y => Regrouped S S' x.1 y.1 ∧ Regrouped S S' x.2 y.2) (show RelRes _ (.ok (f, w)) (.ok (f', w')) from ⟨hf, hw⟩)
            fun x y hxy => ?_
          refine RelRes.bind (P := Regrouped (pairStruct S) (pairStruct S')) ?_ fun u u' hu => ⟨hu, hr.2, rfl⟩
          exact (hxy.1.zipM3 hr.1 hxy.2 _).bind fun d d' hd => (hr.1.tzip hd _).bind fun v v' hv => hv.pair (hd.tmap _)
      exact hstep.bind fun r r' hr => (ih r.2 r'.2 hr.2).bind fun x x' hx => .cons hr.1 hx
  unfold GT.outs GT.exec
  refine RelRes.bind (P := fun r r' => List.Forall₂ (Regrouped (pairStruct S) (pairStruct S')) r.1 r'.1) ?_ fun r r' hr => by exact hr
  refine RelRes.bind (P := fun s s' => R s.fastState s'.fastState ∧ s.stepsSinceSync = s'.stepsSinceSync) ?_ fun s s' hs => hrun c c' s s' hc hs
  exact (hR.init p p' hp).bind fun s s' hs => ⟨hs, rfl⟩

/-! ## The property -/

/-- **C104 (components).** -/
theorem C104_components :
    ContainerFree (identity : GT α) ∧ (∀ c : α, ContainerFree (scale c)) ∧ (∀ f : Schedule α, ContainerFree (scaleBySchedule f)) ∧
    (∀ (d : α) nes acc, ContainerFree (trace d nes acc)) ∧ (∀ (d : α) deb acc, ContainerFree (ema d deb acc)) ∧
    (∀ a e : α, ContainerFree (scaleByRss a e)) ∧ (∀ d e a : α, ContainerFree (scaleByRms d e a)) ∧ (∀ d e a : α, ContainerFree (scaleByStddev d e a)) ∧
    (∀ b1 b2 e er : α, ContainerFree (scaleByAdam b1 b2 e er)) ∧ (∀ b1 b2 e er : α, ContainerFree (scaleByBelief b1 b2 e er)) ∧
    (∀ b1 b2 e er a : α, ContainerFree (scaleByYogi b1 b2 e er a)) ∧ (∀ b1 b2 e er th : α, ContainerFree (scaleByRadam b1 b2 e er th)) ∧
    (∀ b1 b2 e : α, ContainerFree (scaleBySM3 b1 b2 e)) ∧ (∀ w : α, ContainerFree (addDecayedWeights w)) ∧
    (∀ m : α, ContainerFree (scaleByTrustRatio m)) ∧ (∀ k, ContainerFree (applyEvery k : GT α)) ∧ ContainerFree (centralize : GT α) ∧
    (∀ (normal : Normal α) eta gamma seed, ContainerFree (addNoise normal eta gamma seed)) ∧
    (∀ c : α, ContainerFree (clip c)) ∧ (∀ c : α, ContainerFree (clipByGlobalNorm c)) ∧ (∀ c e : α, ContainerFree (adaptiveGradClip c e)) ∧
    ContainerFree (keepParamsNonnegative : GT α) ∧ ContainerFree (zeroNans : GT α) ∧
    (∀ (normal : Normal α) c m seed, ContainerFree (dpAggregate normal c m seed)) :=
  ⟨sim_identity.same.containerFree, fun c => (sim_scale c).same.containerFree, fun f => (sim_schedule f).same.containerFree,
    fun d n a => (sim_trace d n a).same.containerFree, fun d b a => (sim_ema d b a).same.containerFree, fun a e => (sim_rss a e).same.containerFree,
    fun d e a => (sim_rms d e a).same.containerFree, fun d e a => (sim_stddev d e a).same.containerFree,
    fun a b c d => (sim_adam a b c d).same.containerFree, fun a b c d => (sim_belief a b c d).same.containerFree,
    fun a b c d e => (sim_yogi a b c d e).same.containerFree, fun a b c d e => (sim_radam a b c d e).same.containerFree,
    fun a b c => (sim_sm3 a b c).same.containerFree, fun w => (sim_addDecayedWeights w).containerFree, fun m => (sim_trustRatio m).containerFree,
    fun k => (sim_applyEvery k).same.containerFree, sim_centralize.same.containerFree, fun a b c d => (sim_addNoise a b c d).same.containerFree,
    fun c => (sim_clip c).same.containerFree, fun c => (sim_clipByGlobalNorm c).same.containerFree, fun c e => (sim_adaptiveGradClip c e).containerFree,
    sim_keepParamsNonnegative.containerFree, sim_zeroNans.same.containerFree, fun a b c d => (sim_dpAggregate a b c d).same.containerFree⟩

/-- **C104 (chains and wrappers).** `flatten` makes any transformation independent of the containers. -/
theorem C104_closed :
    (∀ ts : List (GT α), (∀ t ∈ ts, ContainerFree t) → ContainerFree (chain ts)) ∧
    (∀ t : GT α, ContainerFree (flatten t)) ∧
    (∀ (t : GT α) m, ContainerFree t → ContainerFree (applyIfFinite t m)) ∧
    (∀ (t : GT α) f, ContainerFree t → ContainerFree (maybeUpdate t f)) ∧
    (∀ (t : GT α) k mean, ContainerFree t → ContainerFree (multiSteps t k mean)) :=
  ⟨fun ts h => (sim_chain ts fun t ht => (h t ht).sim).containerFree, fun t => (sim_flatten t).same.containerFree,
    fun t m h S S' => containerFreeAt_iff.mpr (sim_applyIfFinite_by m (h.sim S S')), fun t f h S S' => containerFreeAt_iff.mpr (sim_maybeUpdate_by f (h.sim S S')),
    fun t k mean h S S' => containerFreeAt_iff.mpr (sim_multiSteps_by k mean (h.sim S S'))⟩

/-- **C104 (`masked`).** With a mask computed from the tree by a function that does not depend on the containers either (for example `tree_map` of a predicate on arrays),
and any inner transformation that keeps the structure of the gradients (C93), on non-empty containers. -/
theorem C104_masked (t : GT α) (ht : Keeps t) (mask : Params α → PyTree Bool) (k k' : Tag) (c c' : PyTree Unit) (cs cs' : List (PyTree Unit))
    (hm : ∀ g g', Regrouped (.node k (c :: cs)) (.node k' (c' :: cs')) g g' → Regrouped (.node k (c :: cs)) (.node k' (c' :: cs')) (mask g) (mask g')) :
    ContainerFreeAt (masked t mask) (.node k (c :: cs)) (.node k' (c' :: cs')) (.node k (c :: cs)) (.node k' (c' :: cs')) :=
  (sim_masked ht mask hm).containerFreeAt

/-- **C104 (the restriction matters).** `masked` looks at `bool(params)`: with a bare array of two entries as params it raises ValueError, with the same array in a list
it does not. -/
theorem C104_masked_not : ¬ ContainerFree (masked (identity : GT α) (fun p => p.map (fun _ => true))) := by
  intro h
  have hr : Regrouped (.leaf ()) (.node .list [.leaf ()]) (.leaf (⟨[2], [0, 0]⟩ : Tensor α)) (.node .list [.leaf ⟨[2], [0, 0]⟩]) := ⟨rfl, rfl, rfl⟩
  exact h (.leaf ()) (.node .list [.leaf ()]) (.leaf ⟨[2], [0, 0]⟩) (.node .list [.leaf ⟨[2], [0, 0]⟩])
    [(.leaf ⟨[2], [0, 0]⟩, some (.leaf ⟨[2], [0, 0]⟩))] [(.node .list [.leaf ⟨[2], [0, 0]⟩], some (.node .list [.leaf ⟨[2], [0, 0]⟩]))] hr
    (.cons ⟨hr, hr⟩ .nil)

/-- **C104 (optimizers).** -/
theorem C104_aliases :
    (∀ (lr : LR α) b1 b2 e, ContainerFree (adabelief lr b1 b2 e)) ∧ (∀ (lr : LR α) a e, ContainerFree (adagrad lr a e)) ∧
    (∀ (lr : LR α) b1 b2 e er, ContainerFree (adam lr b1 b2 e er)) ∧ (∀ (lr : LR α) b1 b2 e er w, ContainerFree (adamw lr b1 b2 e er w)) ∧
    (∀ lr m : α, ContainerFree (fromage lr m)) ∧ (∀ (lr : LR α) b1 b2 e er w, ContainerFree (lamb lr b1 b2 e er w)) ∧
    (∀ normal (lr : LR α) eta gamma seed, ContainerFree (noisySgd normal lr eta gamma seed)) ∧
    (∀ (lr : LR α) b1 b2 e er th, ContainerFree (radam lr b1 b2 e er th)) ∧
    (∀ (lr : LR α) d e a cen m nes, ContainerFree (rmsprop lr d e a cen m nes)) ∧ (∀ (lr : LR α) m nes, ContainerFree (sgd lr m nes)) ∧
    (∀ lr b1 : α, ContainerFree (sm3 lr b1)) ∧ (∀ (lr : LR α) b1 b2 e, ContainerFree (yogi lr b1 b2 e)) ∧
    (∀ normal (lr : LR α) c m seed mo nes, ContainerFree (dpsgd normal lr c m seed mo nes)) := by
  have two : ∀ t u : GT α, SimSame t → SimSame u → ContainerFree (chain [t, u]) := fun t u ht hu =>
    (sim_chain [t, u] (by simp [ht, hu])).containerFree
  have three : ∀ t u v : GT α, SimSame t → SimSame u → SimSame v → ContainerFree (chain [t, u, v]) := fun t u v ht hu hv =>
    (sim_chain [t, u, v] (by simp [ht, hu, hv])).containerFree
  have four : ∀ t u v w : GT α, SimSame t → SimSame u → SimSame v → SimSame w → ContainerFree (chain [t, u, v, w]) := fun t u v w ht hu hv hw =>
    (sim_chain [t, u, v, w] (by simp [ht, hu, hv, hw])).containerFree
  refine ⟨fun lr b1 b2 e => two _ _ (sim_belief _ _ _ _).same (sim_lr lr).same, fun lr a e => two _ _ (sim_rss _ _).same (sim_lr lr).same,
    fun lr b1 b2 e er => two _ _ (sim_adam _ _ _ _).same (sim_lr lr).same,
    fun lr b1 b2 e er w => three _ _ _ (sim_adam _ _ _ _).same (sim_addDecayedWeights _) (sim_lr lr).same,
    fun lr m => three _ _ _ (sim_trustRatio _) (sim_lr _).same (sim_addDecayedWeights _),
    fun lr b1 b2 e er w => four _ _ _ _ (sim_adam _ _ _ _).same (sim_addDecayedWeights _) (sim_trustRatio _) (sim_lr lr).same,
    fun normal lr eta gamma seed => two _ _ (sim_lr lr).same (sim_addNoise _ _ _ _).same,
    fun lr b1 b2 e er th => two _ _ (sim_radam _ _ _ _ _).same (sim_lr lr).same, fun lr d e a cen m nes => ?_,
    fun lr m nes => two _ _ (sim_momentum m nes).same (sim_lr lr).same, fun lr b1 => two _ _ (sim_sm3 _ _ _).same (sim_scale _).same,
    fun lr b1 b2 e => two _ _ (sim_yogi _ _ _ _ _).same (sim_lr lr).same,
    fun normal lr c m seed mo nes => three _ _ _ (sim_dpAggregate _ _ _ _).same (sim_momentum mo nes).same (sim_lr lr).same⟩
  cases cen
  · exact three _ _ _ (sim_rms _ _ _).same (sim_lr lr).same (sim_momentum m nes).same
  · exact three _ _ _ (sim_stddev _ _ _).same (sim_lr lr).same (sim_momentum m nes).same

/-- **C104 (training).** If the two gradient functions agree on the leaves, so do the trained parameters after any number of steps. -/
theorem C104_training (t : GT α) (h : ContainerFree t) (S S' : PyTree Unit) (grad grad' : ℕ → Params α → Params α)
    (hgrad : ∀ n x x', Regrouped S S' x x' → Regrouped S S' (grad n x) (grad' n x')) (N : ℕ) (p p' : Params α) (hp : Regrouped S S' p p') :
    RelRes (fun r r' => Regrouped S S' r.1 r'.1) (do let s ← t.init p; trainLoop t grad N s p) (do let s ← t.init p'; trainLoop t grad' N s p') := by
  obtain ⟨R, hR⟩ := h.sim S S'
  refine (hR.init p p' hp).bind fun s s' hs => ?_
  have : RelRes (fun r r' => Regrouped S S' r.1 r'.1 ∧ R r.2 r'.2) (trainLoop t grad N s p) (trainLoop t grad' N s' p') := by
    induction N with
    | zero => exact ⟨hp, hs⟩
    | succ N ih =>
      exact ih.bind fun r r' hr => (hR.update _ _ _ _ (some r.1) (some r'.1) (hgrad N _ _ hr.1) hr.2 hr.1).bind fun u u' hu => (hr.1.tzip hu.1 _).bind fun x x' hx => ⟨hx, hu.2⟩
  exact this.mono fun _ _ h => h.1

/-- a dictionary of a list and an array, and a flat tuple, of the same three arrays -/
example (a b c : Tensor ℝ) : ∃ S S', Regrouped S S' (PyTree.node (.dict ["w", "z"]) [.node .list [.leaf a, .leaf b], .leaf c])
    (PyTree.node .tuple [.leaf a, .leaf b, .leaf c]) := ⟨_, _, rfl, rfl, rfl⟩

end Optax
