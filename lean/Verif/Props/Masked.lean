import Verif.Props.Wrappers

/-!
# C16: `masked`
-/

set_option linter.unusedSectionVars false
set_option linter.unusedSimpArgs false

namespace Optax
open PyTree

variable {β γ : Type}

/-! ## Specification: prefixes and selected subtrees -/

mutual
/-- the mask tree is a prefix of `t`: same containers down to the leaves of the mask -/
def IsPrefix : PyTree Bool → PyTree β → Prop
  | leaf _, _ => True
  | node _ _, leaf _ => False
  | node a ms, node b ts => a = b ∧ IsPrefixL ms ts
/-- `IsPrefix` on children -/
def IsPrefixL : List (PyTree Bool) → List (PyTree β) → Prop
  | [], [] => True
  | m :: ms, t :: ts => IsPrefix m t ∧ IsPrefixL ms ts
  | [], _ :: _ => False
  | _ :: _, [] => False
end

mutual
/-- the subtrees of `t`, left to right, at the leaves of the mask that have the value `b` -/
def selected (b : Bool) : PyTree Bool → PyTree β → List (PyTree β)
  | leaf m, t => if m = b then [t] else []
  | node _ ms, node _ ts => selectedL b ms ts
  | node _ _, leaf _ => []
/-- `selected` on children -/
def selectedL (b : Bool) : List (PyTree Bool) → List (PyTree β) → List (PyTree β)
  | m :: ms, t :: ts => selected b m t ++ selectedL b ms ts
  | _, _ => []
end

mutual
/-- A tree below a mask is determined by its selected and its unselected subtrees. -/
theorem prefix_ext : ∀ (m : PyTree Bool) (t u : PyTree β) , IsPrefix m t → IsPrefix m u →
    selected true m t = selected true m u → selected false m t = selected false m u → t = u
  | leaf true, t, u, _, _, h, _ => by simpa [selected] using h
  | leaf false, t, u, _, _, _, h => by simpa [selected] using h
  | node a ms, leaf _, _, h, _, _, _ => by simp [IsPrefix] at h
  | node a ms, node _ _, leaf _, _, h, _, _ => by simp [IsPrefix] at h
  | node a ms, node b ts, node c us, h1, h2, h3, h4 => by
    simp only [IsPrefix] at h1 h2
    simp only [selected] at h3 h4
    rw [← h1.1, ← h2.1, prefix_extL ms ts us h1.2 h2.2 h3 h4]
theorem prefix_extL : ∀ (ms : List (PyTree Bool)) (ts us : List (PyTree β)), IsPrefixL ms ts →
    IsPrefixL ms us → selectedL true ms ts = selectedL true ms us →
    selectedL false ms ts = selectedL false ms us → ts = us
  | [], [], [], _, _, _, _ => rfl
  | [], _ :: _, _, h, _, _, _ => by simp [IsPrefixL] at h
  | [], [], _ :: _, _, h, _, _ => by simp [IsPrefixL] at h
  | _ :: _, [], _, h, _, _, _ => by simp [IsPrefixL] at h
  | _ :: _, _ :: _, [], _, h, _, _ => by simp [IsPrefixL] at h
  | m :: ms, t :: ts, u :: us, h1, h2, h3, h4 => by
    simp only [IsPrefixL] at h1 h2
    simp only [selectedL] at h3 h4
    have e : ∀ b, (selected b m t).length = (selected b m u).length := fun b =>
      selected_length b m t u h1.1 h2.1
    have h5 := List.append_inj h3 (e true)
    have h6 := List.append_inj h4 (e false)
    rw [prefix_ext m t u h1.1 h2.1 h5.1 h6.1, prefix_extL ms ts us h1.2 h2.2 h5.2 h6.2]
/-- the number of selected subtrees depends only on the mask -/
theorem selected_length {γ : Type} (b : Bool) : ∀ (m : PyTree Bool) (t : PyTree β) (u : PyTree γ), IsPrefix m t →
    IsPrefix m u → (selected b m t).length = (selected b m u).length
  | leaf x, t, u, _, _ => by simp only [selected]; split <;> rfl
  | node a ms, leaf _, _, h, _ => by simp [IsPrefix] at h
  | node a ms, node _ _, leaf _, _, h => by simp [IsPrefix] at h
  | node a ms, node b' ts, node c us, h1, h2 => by
    simp only [IsPrefix] at h1 h2
    simp only [selected]
    exact selectedL_length b ms ts us h1.2 h2.2
theorem selectedL_length {γ : Type} (b : Bool) : ∀ (ms : List (PyTree Bool)) (ts : List (PyTree β)) (us : List (PyTree γ)),
    IsPrefixL ms ts → IsPrefixL ms us → (selectedL b ms ts).length = (selectedL b ms us).length
  | [], [], [], _, _ => rfl
  | [], _ :: _, _, h, _ => by simp [IsPrefixL] at h
  | [], [], _ :: _, _, h => by simp [IsPrefixL] at h
  | _ :: _, [], _, h, _ => by simp [IsPrefixL] at h
  | _ :: _, _ :: _, [], _, h => by simp [IsPrefixL] at h
  | m :: ms, t :: ts, u :: us, h1, h2 => by
    simp only [IsPrefixL] at h1 h2
    simp only [selectedL, List.length_append]
    rw [selected_length b m t u h1.1 h2.1, selectedL_length b ms ts us h1.2 h2.2]
end

mutual
theorem isPrefix_map (f : β → γ) : ∀ (m : PyTree Bool) (t : PyTree β), IsPrefix m (t.map f) ↔ IsPrefix m t
  | leaf _, _ => by simp [IsPrefix]
  | node _ _, leaf _ => by simp [IsPrefix, PyTree.map]
  | node a ms, node b ts => by simp [IsPrefix, PyTree.map, isPrefixL_map f ms ts]
theorem isPrefixL_map (f : β → γ) : ∀ (ms : List (PyTree Bool)) (ts : List (PyTree β)),
    IsPrefixL ms (mapL f ts) ↔ IsPrefixL ms ts
  | [], [] => by simp [IsPrefixL, mapL]
  | [], _ :: _ => by simp [IsPrefixL, mapL]
  | _ :: _, [] => by simp [IsPrefixL, mapL]
  | m :: ms, t :: ts => by simp [IsPrefixL, mapL, isPrefix_map f m t, isPrefixL_map f ms ts]
end

mutual
theorem selected_map (f : β → γ) (b : Bool) : ∀ (m : PyTree Bool) (t : PyTree β),
    selected b m (t.map f) = (selected b m t).map (PyTree.map f)
  | leaf x, t => by simp only [selected]; split <;> rfl
  | node _ _, leaf _ => by simp [selected, PyTree.map]
  | node a ms, node _ ts => by simp [selected, PyTree.map, selectedL_map f b ms ts]
theorem selectedL_map (f : β → γ) (b : Bool) : ∀ (ms : List (PyTree Bool)) (ts : List (PyTree β)),
    selectedL b ms (mapL f ts) = (selectedL b ms ts).map (PyTree.map f)
  | [], _ => by simp [selectedL]
  | _ :: _, [] => by simp [selectedL, mapL]
  | m :: ms, t :: ts => by
    simp [selectedL, mapL, selected_map f b m t, selectedL_map f b ms ts]
end

/-! ## Connecting the flattening code to the specification -/

mutual
theorem flattenUpTo_ok : ∀ (m : PyTree Bool) (t : PyTree β), IsPrefix m t →
    ∃ fl, flattenUpTo m t = .ok fl ∧ fl.length = m.leaves.length
  | leaf b, t, _ => ⟨[t], rfl, rfl⟩
  | node _ _, leaf _, h => by simp [IsPrefix] at h
  | node a ms, node b ts, h => by
    simp only [IsPrefix] at h
    obtain ⟨fl, h1, h3⟩ := flattenUpToL_ok ms ts h.2
    exact ⟨fl, by simp [flattenUpTo, h.1, h1], h3⟩
theorem flattenUpToL_ok : ∀ (ms : List (PyTree Bool)) (ts : List (PyTree β)), IsPrefixL ms ts →
    ∃ fl, flattenUpToL ms ts = .ok fl ∧ fl.length = (leavesL ms).length
  | [], [], _ => ⟨[], rfl, rfl⟩
  | [], _ :: _, h => by simp [IsPrefixL] at h
  | _ :: _, [], h => by simp [IsPrefixL] at h
  | m :: ms, t :: ts, h => by
    simp only [IsPrefixL] at h
    obtain ⟨f1, h1, l1⟩ := flattenUpTo_ok m t h.1
    obtain ⟨f2, h2, l2⟩ := flattenUpToL_ok ms ts h.2
    exact ⟨f1 ++ f2, by simp [flattenUpToL, h1, h2], by simp [leavesL, l1, l2]⟩
end

mutual
theorem flattenUpTo_err : ∀ (m : PyTree Bool) (t : PyTree β), ¬ IsPrefix m t →
    flattenUpTo m t = .error .value
  | leaf b, t, h => by simp [IsPrefix] at h
  | node _ _, leaf _, _ => rfl
  | node a ms, node b ts, h => by
    simp only [IsPrefix, not_and] at h
    by_cases e : a = b
    · simp [flattenUpTo, e, flattenUpToL_err ms ts (h e)]
    · simp [flattenUpTo, e]
theorem flattenUpToL_err : ∀ (ms : List (PyTree Bool)) (ts : List (PyTree β)), ¬ IsPrefixL ms ts →
    flattenUpToL ms ts = .error .value
  | [], [], h => by simp [IsPrefixL] at h
  | [], _ :: _, _ => rfl
  | _ :: _, [], _ => rfl
  | m :: ms, t :: ts, h => by
    simp only [IsPrefixL, not_and] at h
    by_cases e : IsPrefix m t
    · obtain ⟨f1, h1, -⟩ := flattenUpTo_ok m t e
      simp [flattenUpToL, h1, flattenUpToL_err ms ts (h e)]
    · simp [flattenUpToL, flattenUpTo_err m t e]
end

theorem selectMask_append {δ : Type} (x y : List δ) (a b : List Bool) (h : x.length = a.length) :
    selectMask (x ++ y) (a ++ b) = selectMask x a ++ selectMask y b := by
  unfold selectMask
  rw [List.zip_append h]
  simp

/-- the entries whose flag is false -/
def rejectMask {δ : Type} (flat : List δ) (m : List Bool) : List δ :=
  selectMask flat (m.map (fun b => !b))

mutual
theorem selectMask_flatten (b : Bool) : ∀ (m : PyTree Bool) (t : PyTree β) (fl : List (PyTree β)),
    flattenUpTo m t = .ok fl → selectMask fl (m.leaves.map (fun x => x == b)) = selected b m t
  | leaf x, t, fl, h => by
    cases h
    cases x <;> cases b <;> simp [selectMask, selected, leaves]
  | node _ _, leaf _, fl, h => by cases h
  | node a ms, node b' ts, fl, h => by
    simp only [flattenUpTo] at h
    split at h
    · simp only [leaves, selected]; exact selectMask_flattenL b ms ts fl h
    · cases h
theorem selectMask_flattenL (b : Bool) : ∀ (ms : List (PyTree Bool)) (ts : List (PyTree β))
    (fl : List (PyTree β)), flattenUpToL ms ts = .ok fl →
    selectMask fl ((leavesL ms).map (fun x => x == b)) = selectedL b ms ts
  | [], [], fl, h => by cases h; rfl
  | [], _ :: _, fl, h => by cases h
  | _ :: _, [], fl, h => by cases h
  | m :: ms, t :: ts, fl, h => by
    simp only [flattenUpToL, Res.bind_eq_ok] at h
    obtain ⟨f1, h1, f2, h2, h⟩ := h
    simp only [Res.pure_eq, Except.ok.injEq] at h
    subst h
    have hp : f1.length = m.leaves.length := by
      by_cases e : IsPrefix m t
      · obtain ⟨f, hf, hl⟩ := flattenUpTo_ok m t e
        rw [hf] at h1; cases h1; exact hl
      · rw [flattenUpTo_err m t e] at h1; cases h1
    simp only [leavesL, List.map_append, selectedL]
    rw [selectMask_append _ _ _ _ (by simp [hp]), selectMask_flatten b m t f1 h1,
      selectMask_flattenL b ms ts f2 h2]
end

mutual
theorem fill_join : ∀ (m : PyTree Bool) (fl rest : List (PyTree β)), fl.length = m.leaves.length →
    ∃ u, fill m (fl ++ rest) = .ok (u, rest) ∧ IsPrefix m u.join ∧ flattenUpTo m u.join = .ok fl
  | leaf b, [x], rest, _ => ⟨leaf x, rfl, trivial, rfl⟩
  | leaf b, [], rest, h => by simp [leaves] at h
  | leaf b, _ :: _ :: _, rest, h => by simp [leaves] at h
  | node a ms, fl, rest, h => by
    simp only [leaves] at h
    obtain ⟨us, h1, h2, h3⟩ := fillL_join ms fl rest h
    refine ⟨node a us, by simp [fill, h1], ?_, ?_⟩
    · simp only [join, IsPrefix, true_and]; exact h2
    · simp only [join, flattenUpTo, if_true]; exact h3
theorem fillL_join : ∀ (ms : List (PyTree Bool)) (fl rest : List (PyTree β)),
    fl.length = (leavesL ms).length →
    ∃ us, fillL ms (fl ++ rest) = .ok (us, rest) ∧ IsPrefixL ms (joinL us) ∧
      flattenUpToL ms (joinL us) = .ok fl
  | [], [], rest, _ => ⟨[], rfl, trivial, rfl⟩
  | [], _ :: _, rest, h => by simp [leavesL] at h
  | m :: ms, fl, rest, h => by
    simp only [leavesL, List.length_append] at h
    obtain ⟨u, h1, h2, h3⟩ := fill_join m (fl.take m.leaves.length)
      (fl.drop m.leaves.length ++ rest) (by simp; omega)
    obtain ⟨us, h4, h5, h6⟩ := fillL_join ms (fl.drop m.leaves.length) rest (by simp; omega)
    rw [← List.append_assoc, List.take_append_drop] at h1
    refine ⟨u :: us, by simp [fillL, h1, h4], ?_, ?_⟩
    · simp only [joinL, IsPrefixL]; exact ⟨h2, h5⟩
    · simp only [joinL, flattenUpToL, h3, h6, Res.ok_bind]
      simp
end

theorem unflatten_join (m : PyTree Bool) (fl : List (PyTree β)) (h : fl.length = m.leaves.length) :
    ∃ u, unflatten m fl = .ok u ∧ IsPrefix m u.join ∧ flattenUpTo m u.join = .ok fl := by
  obtain ⟨u, h1, h2, h3⟩ := fill_join m fl [] h
  refine ⟨u, ?_, h2, h3⟩
  rw [List.append_nil] at h1
  simp [unflatten, h1]

theorem putBack_ok {δ : Type} : ∀ (ms : List Bool) (fl new : List δ), fl.length = ms.length →
    (selectMask fl ms).length ≤ new.length →
    ∃ fl', putBack ms fl new = .ok fl' ∧ fl'.length = fl.length ∧
      selectMask fl' (ms.map (fun x => x == true)) = new.take (selectMask fl ms).length ∧
      selectMask fl' (ms.map (fun x => x == false)) = selectMask fl (ms.map (fun x => x == false))
  | [], [], new, _, _ => ⟨[], rfl, rfl, by simp [selectMask], rfl⟩
  | [], _ :: _, _, h, _ => by simp at h
  | _ :: _, [], _, h, _ => by simp at h
  | false :: ms, x :: xs, new, h, h2 => by
    simp only [List.length_cons, add_left_inj] at h
    have e : selectMask (x :: xs) (false :: ms) = selectMask xs ms := by simp [selectMask]
    rw [e] at h2 ⊢
    obtain ⟨fl', a, b, c, d⟩ := putBack_ok ms xs new h h2
    refine ⟨x :: fl', by simp [putBack, a], by simp [b], ?_, ?_⟩
    · rw [← c]; simp [selectMask]
    · have : ∀ l : List δ, selectMask (x :: l) ((false :: ms).map (fun x => x == false)) =
          x :: selectMask l (ms.map (fun x => x == false)) := by intro l; simp [selectMask]
      rw [this, this, d]
  | true :: ms, x :: xs, new, h, h2 => by
    simp only [List.length_cons, add_left_inj] at h
    have e : ∀ (z : δ) (l : List δ), selectMask (z :: l) (true :: ms) = z :: selectMask l ms := by
      intro z l; simp [selectMask]
    rw [e] at h2 ⊢
    cases new with
    | nil => simp at h2
    | cons y ys =>
      simp only [List.length_cons, add_le_add_iff_right] at h2
      obtain ⟨fl', a, b, c, d⟩ := putBack_ok ms xs ys h h2
      refine ⟨y :: fl', by simp [putBack, a], by simp [b], ?_, ?_⟩
      · have : selectMask (y :: fl') ((true :: ms).map (fun x => x == true)) =
          y :: selectMask fl' (ms.map (fun x => x == true)) := by simp [selectMask]
        rw [this, c]; simp
      · have : ∀ (z : δ) (l : List δ), selectMask (z :: l) ((true :: ms).map (fun x => x == false)) =
          selectMask l (ms.map (fun x => x == false)) := by intro z l; simp [selectMask]
        rw [this, this, d]

/-! ## C16 -/

section
variable {α : Type} [Zero α] [One α] [Add α] [Sub α] [Mul α] [Div α] [Neg α] [JOps α]

/-- what the inner transformation is handed as params: the selected subtrees; `None` if no params (or
an empty container) were passed -/
def maskedParams (m : PyTree Bool) : Option (Params α) → Option (Params α)
  | none => none
  | some (.leaf x) => some (.node .list (selected true m (.leaf x)))
  | some (.node _ []) => none
  | some (.node t (c :: cs)) => some (.node .list (selected true m (.node t (c :: cs))))

/-- params are absent or a container (not a bare array) below which the mask is a prefix -/
def ParamsOk (m : PyTree Bool) : Option (Params α) → Prop
  | none => True
  | some (.leaf _) => False
  | some (.node t cs) => IsPrefix m (.node t cs)

theorem mask_true_eq (m : List Bool) : m.map (fun x => x == true) = m := by
  induction m with
  | nil => rfl
  | cons b m ih => cases b <;> simp [ih]

theorem maskParamsArg_ok (m : PyTree Bool) (pp : Option (Params α)) (hp : ParamsOk m pp) :
    maskParamsArg m pp = .ok (maskedParams m pp) := by
  cases pp with
  | none => rfl
  | some p =>
    cases p with
    | leaf x => exact hp.elim
    | node t cs =>
      cases cs with
      | nil => rfl
      | cons c cs =>
        obtain ⟨fp, hfp, -⟩ := flattenUpTo_ok m (.node t (c :: cs)) hp
        have := selectMask_flatten true m (.node t (c :: cs)) fp hfp
        rw [mask_true_eq] at this
        show (PyTree.flattenUpTo m (.node t (c :: cs)) >>= _) = _
        rw [hfp, Res.ok_bind, this]
        rfl

/-- **C16** (one call).  Mask a prefix of the gradients, params absent or a container: the call succeeds
exactly when the inner transformation, called on the list of selected gradients (and params),
succeeds and returns a container of at least as many children; then the result has, below the same prefix,
the new subtrees at the selected positions and the untouched gradients at the others. -/
theorem C16_update (inner : GT α) (mask : Params α → PyTree Bool) (g : Params α)
    (pp : Option (Params α)) (hg : IsPrefix (mask g) g) (hp : ParamsOk (mask g) pp)
    (s : inner.State) (tag : Tag) (cs : List (Params α)) (s' : inner.State)
    (hin : inner.update (.node .list (selected true (mask g) g)) s (maskedParams (mask g) pp) =
      .ok (.node tag cs, s')) (hlen : cs.length = (selected true (mask g) g).length) :
    ∃ u, (masked inner mask).update g s pp = .ok (u, s') ∧ IsPrefix (mask g) u ∧
      selected true (mask g) u = cs ∧ selected false (mask g) u = selected false (mask g) g := by
  obtain ⟨fl, hfl, hlfl⟩ := flattenUpTo_ok (mask g) g hg
  have hsel := selectMask_flatten true (mask g) g fl hfl
  have hrej := selectMask_flatten false (mask g) g fl hfl
  rw [mask_true_eq] at hsel
  obtain ⟨fl', h1, h2, h3, h4⟩ := putBack_ok (mask g).leaves fl cs hlfl (by rw [hsel, hlen])
  obtain ⟨u, h5, h6, h7⟩ := unflatten_join (mask g) fl' (by rw [h2, hlfl])
  have hsel' := selectMask_flatten true (mask g) u.join fl' h7
  have hrej' := selectMask_flatten false (mask g) u.join fl' h7
  refine ⟨u.join, ?_, h6, ?_, ?_⟩
  · show (PyTree.flattenUpTo (mask g) g >>= fun flat => maskParamsArg (mask g) pp >>= fun mp => _) = _
    rw [hfl, Res.ok_bind]
    rw [maskParamsArg_ok _ _ hp, Res.ok_bind, hsel, hin, Res.ok_bind]
    simp only [iterChildren, Res.ok_bind, h1, h5, Res.pure_eq]
  · rw [← hsel', h3, hsel, ← hlen, List.take_length]
  · rw [← hrej', h4, hrej]

/-- **C16**: errors of the inner transformation are passed on. -/
theorem C16_update_error (inner : GT α) (mask : Params α → PyTree Bool) (g : Params α)
    (pp : Option (Params α)) (hg : IsPrefix (mask g) g) (hp : ParamsOk (mask g) pp)
    (s : inner.State) (e : Err)
    (hin : inner.update (.node .list (selected true (mask g) g)) s (maskedParams (mask g) pp) =
      .error e) : (masked inner mask).update g s pp = .error e := by
  obtain ⟨fl, hfl, hlfl⟩ := flattenUpTo_ok (mask g) g hg
  have hsel := selectMask_flatten true (mask g) g fl hfl
  rw [mask_true_eq] at hsel
  show (PyTree.flattenUpTo (mask g) g >>= fun flat => maskParamsArg (mask g) pp >>= fun mp => _) = _
  rw [hfl, Res.ok_bind]
  rw [maskParamsArg_ok _ _ hp, Res.ok_bind, hsel, hin, Res.error_bind]

/-- **C16**: `init` builds the inner state from the selected params only. -/
theorem C16_init (inner : GT α) (mask : Params α → PyTree Bool) (p : Params α)
    (hp : IsPrefix (mask p) p) :
    (masked inner mask).init p = inner.init (.node .list (selected true (mask p) p)) := by
  obtain ⟨fl, hfl, hlfl⟩ := flattenUpTo_ok (mask p) p hp
  have hsel := selectMask_flatten true (mask p) p fl hfl
  rw [mask_true_eq] at hsel
  show (PyTree.flattenUpTo (mask p) p >>= _) = _
  rw [hfl, Res.ok_bind, hsel]

/-- **C16**: a mask that is not a prefix raises ValueError, in `init` and in `update`. -/
theorem C16_not_prefix (inner : GT α) (mask : Params α → PyTree Bool) (p : Params α)
    (hp : ¬ IsPrefix (mask p) p) (s : inner.State) (pp : Option (Params α)) :
    (masked inner mask).init p = .error .value ∧ (masked inner mask).update p s pp = .error .value := by
  constructor
  · show (PyTree.flattenUpTo (mask p) p >>= _) = _
    rw [flattenUpTo_err _ _ hp]; rfl
  · show (PyTree.flattenUpTo (mask p) p >>= _) = _
    rw [flattenUpTo_err _ _ hp]; rfl

/-- **C16**: structure and shapes are preserved when the inner transformation preserves those of the list
it is given. -/
theorem C16_structure (inner : GT α) (mask : Params α → PyTree Bool) (g : Params α)
    (pp : Option (Params α)) (hg : IsPrefix (mask g) g) (hp : ParamsOk (mask g) pp)
    (s : inner.State) (v : Params α) (s' : inner.State)
    (hin : inner.update (.node .list (selected true (mask g) g)) s (maskedParams (mask g) pp) =
      .ok (v, s')) (hv : spec v = spec (.node .list (selected true (mask g) g))) :
    ∃ u, (masked inner mask).update g s pp = .ok (u, s') ∧ spec u = spec g := by
  cases v with
  | leaf x => simp [spec, PyTree.map] at hv
  | node tag cs =>
    simp only [spec, PyTree.map, PyTree.node.injEq] at hv
    have mapL_eq : ∀ {β γ : Type} (f : β → γ) (l : List (PyTree β)), mapL f l = l.map (PyTree.map f) := by
      intro β γ f l
      induction l with
      | nil => rfl
      | cons a l ih => simp [mapL, ih]
    obtain ⟨rfl, hv⟩ := hv
    rw [mapL_eq, mapL_eq] at hv
    have hlen : cs.length = (selected true (mask g) g).length := by
      have := congrArg List.length hv; simpa using this
    obtain ⟨u, h1, h2, h3, h4⟩ := C16_update inner mask g pp hg hp s _ cs s' hin hlen
    refine ⟨u, h1, ?_⟩
    apply prefix_ext (mask g)
    · exact (isPrefix_map _ _ _).mpr h2
    · exact (isPrefix_map _ _ _).mpr hg
    · unfold spec; rw [selected_map, selected_map, h3, hv]
    · unfold spec; rw [selected_map, selected_map, h4]

/-- **C16** (non-interference).  For a fixed mask, two calls whose gradients (and params) agree on the
selected positions return the same selected updates and the same state - unselected gradients have no
influence. -/
theorem C16_noninterference (inner : GT α) (m : PyTree Bool) (g g' : Params α)
    (pp pp' : Option (Params α)) (hg : IsPrefix m g) (hg' : IsPrefix m g') (hp : ParamsOk m pp)
    (hp' : ParamsOk m pp') (hsel : selected true m g = selected true m g')
    (hpp : maskedParams m pp = maskedParams m pp') (s : inner.State) (v s')
    (hin : inner.update (.node .list (selected true m g)) s (maskedParams m pp) = .ok (v, s'))
    (hv : spec v = spec (.node .list (selected true m g))) :
    ∃ u u', (masked inner (fun _ => m)).update g s pp = .ok (u, s') ∧
      (masked inner (fun _ => m)).update g' s pp' = .ok (u', s') ∧
      selected true m u = selected true m u' ∧ selected false m u = selected false m g ∧
      selected false m u' = selected false m g' := by
  cases v with
  | leaf x => simp [spec, PyTree.map] at hv
  | node tag cs =>
    have mapL_len : ∀ {β γ : Type} (f : β → γ) (l : List (PyTree β)), (mapL f l).length = l.length := by
      intro β γ f l
      induction l with
      | nil => rfl
      | cons a l ih => simp [mapL, ih]
    simp only [spec, PyTree.map, PyTree.node.injEq] at hv
    have hlen : cs.length = (selected true m g).length := by
      have := congrArg List.length hv.2; rwa [mapL_len, mapL_len] at this
    obtain ⟨u, h1, h2, h3, h4⟩ := C16_update inner (fun _ => m) g pp hg hp s _ cs s' hin hlen
    obtain ⟨u', h1', h2', h3', h4'⟩ := C16_update inner (fun _ => m) g' pp' hg' hp' s _ cs s'
      (by rw [← hsel, ← hpp]; exact hin) (by rw [← hsel]; exact hlen)
    exact ⟨u, u', h1, h1', h3.trans h3'.symm, h4, h4'⟩

/-- **C16** (histories, fixed mask).  Whenever a masked run succeeds on gradients (and container params)
below the mask, the inner transformation run alone on the selected sub-gradients succeeds with the
same final state, its outputs are the selected parts of the outputs (given it returns as many
children as it is given), and the unselected parts are the gradients. -/
theorem C16_run (inner : GT α) (m : PyTree Bool)
    (hshape : ∀ l s pp v s', inner.update (.node .list l) s pp = .ok (v, s') →
      ∃ tag cs, v = .node tag cs ∧ cs.length = l.length)
    (h : List (Call α)) (hh : ∀ c ∈ h, IsPrefix m c.1 ∧ ParamsOk m c.2) (s : inner.State)
    (us : List (Params α)) (s' : inner.State)
    (hrun : (masked inner (fun _ => m)).run s h = .ok (us, s')) :
    ∃ vs, inner.run s (h.map (fun c => (.node .list (selected true m c.1), maskedParams m c.2))) =
        .ok (vs, s') ∧ List.Forall₂ (fun u v => ∃ tag, v = .node tag (selected true m u)) us vs ∧
      List.Forall₂ (fun u c => IsPrefix m u ∧ selected false m u = selected false m (Prod.fst c)) us h := by
  induction h generalizing s us with
  | nil =>
    rw [GT.run_nil] at hrun
    cases hrun
    exact ⟨[], rfl, .nil, .nil⟩
  | cons c h ih =>
    have hc := hh c (by simp)
    rw [GT.run_cons, Res.bind_eq_ok] at hrun
    obtain ⟨⟨u1, s1⟩, hu1, hrun⟩ := hrun
    rw [Res.bind_eq_ok] at hrun
    obtain ⟨⟨us2, s2⟩, hr2, hrun⟩ := hrun
    simp only [Except.ok.injEq, Prod.mk.injEq] at hrun
    obtain ⟨rfl, rfl⟩ := hrun
    cases hin : inner.update (.node .list (selected true m c.1)) s (maskedParams m c.2) with
    | error e =>
      have := (C16_update_error inner (fun _ => m) c.1 c.2 hc.1 hc.2 s e hin).symm.trans hu1
      cases this
    | ok r =>
      obtain ⟨v, s1'⟩ := r
      obtain ⟨tag, cs, rfl, hlen⟩ := hshape _ _ _ _ _ hin
      obtain ⟨u, h1, h2, h3, h4⟩ := C16_update inner (fun _ => m) c.1 c.2 hc.1 hc.2 s tag cs s1' hin hlen
      have h1' := h1.symm.trans hu1
      cases h1'
      obtain ⟨vs, h5, h6, h7⟩ := ih (fun c hc => hh c (by simp [hc])) s1 us2 hr2
      refine ⟨.node tag cs :: vs, ?_, ?_, ?_⟩
      · rw [List.map_cons, GT.run_cons]
        simp only [hin, Res.ok_bind, h5]
      · exact .cons ⟨tag, by rw [h3]⟩ h6
      · exact .cons ⟨h2, h4⟩ h7

/-- Finding: when the params are a single array (not a container), `if params:` tests the array itself:
more than one entry raises ValueError, even with mask `True`. -/
theorem C16_single_array_params (inner : GT α) (x y : Tensor α) (s : inner.State)
    (hx : x.data.length ≥ 2) :
    (masked inner (fun _ => .leaf true)).update (.leaf y) s (some (.leaf x)) = .error .value := by
  have : truthy (some (.leaf x) : Option (Params α)) = .error .value := by
    unfold truthy
    match hd : x.data with
    | [] => simp [hd]
    | [a] => simp [hd] at hx
    | a :: b :: l => simp [hd]
  show (PyTree.flattenUpTo (PyTree.leaf true) (PyTree.leaf y) >>= fun flat => maskParamsArg _ _ >>= _) = _
  simp only [maskParamsArg, this]
  rfl

end

/-- Finding: when the params are a scalar, `if params:` tests its value: at a parameter equal to zero the inner
transformation is called without params, otherwise with them. -/
theorem C16_scalar_params (inner : GT ℝ) (y : Tensor ℝ) (sh : List ℕ) (c : ℝ) (s : inner.State) :
    (c = 0 → (masked inner (fun _ => .leaf true)).update (.leaf y) s (some (.leaf ⟨sh, [c]⟩)) =
      (masked inner (fun _ => .leaf true)).update (.leaf y) s none) ∧
    (c ≠ 0 → (masked inner (fun _ => .leaf true)).update (.leaf y) s (some (.leaf ⟨sh, [c]⟩)) = do
      let r ← inner.update (.node .list [.leaf y]) s (some (.node .list [.leaf ⟨sh, [c]⟩]))
      let new ← iterChildren r.1
      let flat' ← putBack [true] [.leaf y] new
      let u ← PyTree.unflatten (.leaf true) flat'
      return (u.join, r.2)) := by
  constructor
  · intro h
    have h1 : maskParamsArg (.leaf true) (some (.leaf ⟨sh, [c]⟩) : Option (Params ℝ)) = maskParamsArg (.leaf true) none := by
      subst h; simp [maskParamsArg, truthy]
    show (PyTree.flattenUpTo (PyTree.leaf true) (PyTree.leaf y) >>= fun flat => maskParamsArg _ _ >>= _) = _
    rw [h1]
  · intro h
    have h1 : maskParamsArg (.leaf true) (some (.leaf ⟨sh, [c]⟩) : Option (Params ℝ)) = .ok (some (.node .list [.leaf ⟨sh, [c]⟩])) := by
      have he : (JOps.eqb c 0 : Bool) = false := by show decide (c = 0) = false; simpa using h
      simp [maskParamsArg, truthy, he, PyTree.flattenUpTo, PyTree.leaves, selectMask]
    show (PyTree.flattenUpTo (PyTree.leaf true) (PyTree.leaf y) >>= fun flat => maskParamsArg _ _ >>= _) = _
    rw [h1]
    simp [PyTree.flattenUpTo, PyTree.leaves, selectMask]

/-- Finding: `masked(add_decayed_weights(w), True)` on one scalar parameter decays it while it is non-zero and raises ValueError
as soon as it is exactly zero. -/
theorem C16_decay_at_zero (w g c : ℝ) (s : (addDecayedWeights w : GT ℝ).State) :
    (masked (addDecayedWeights w) (fun _ => .leaf true)).update (.leaf ⟨[], [g]⟩) s (some (.leaf ⟨[], [c]⟩)) =
      if c = 0 then .error .value else .ok (.leaf ⟨[], [g + w * c]⟩, s) := by
  by_cases h : c = 0
  · rw [if_pos h, (C16_scalar_params (addDecayedWeights w) _ [] c s).1 h]
    rfl
  · rw [if_neg h, (C16_scalar_params (addDecayedWeights w) _ [] c s).2 h]
    have h1 : (addDecayedWeights w : GT ℝ).update (.node .list [.leaf ⟨[], [g]⟩]) s (some (.node .list [.leaf ⟨[], [c]⟩])) =
        .ok (.node .list [.leaf ⟨[], [g + w * c]⟩], s) := rfl
    rw [h1]
    rfl

/-- Non-vacuity: mask `{a: True, b: [False, True]}` on `{a: [x, y], b: [z, w]}` selects `[x, y]` and `w`. -/
example : let m : PyTree Bool := .node (.dict ["a", "b"]) [.leaf true, .node .list [.leaf false, .leaf true]]
    let t : PyTree ℕ := .node (.dict ["a", "b"]) [.node .list [.leaf 0, .leaf 1], .node .list [.leaf 2, .leaf 3]]
    IsPrefix m t ∧ selected true m t = [.node .list [.leaf 0, .leaf 1], .leaf 3] ∧
      selected false m t = [.leaf 2] := by
  refine ⟨?_, ?_, ?_⟩ <;> simp [IsPrefix, IsPrefixL, selected, selectedL]

end Optax
