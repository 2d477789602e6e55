import Verif.Props.Groups

/-!
# C147: any number of parameter groups, given by a tree of labels
-/

set_option linter.unusedSectionVars false
set_option linter.unusedSimpArgs false

namespace Optax
open PyTree

section
variable {ι : Type} [DecidableEq ι]

/-- the mask of the label `i`: true where the tree of labels says `i` -/
def labelMask (L : PyTree ι) (i : ι) : PyTree Bool := L.map (fun j => decide (j = i))

mutual
theorem isPrefix_shape {β : Type} (f f' : ι → Bool) : ∀ (L : PyTree ι) (t : PyTree β), IsPrefix (L.map f) t → IsPrefix (L.map f') t
  | leaf _, t, _ => by simp [PyTree.map, IsPrefix]
  | node a ls, leaf _, h => by simp [PyTree.map, IsPrefix] at h
  | node a ls, node b ts, h => by
    simp only [PyTree.map, IsPrefix] at h ⊢
    exact ⟨h.1, isPrefixL_shape f f' ls ts h.2⟩
theorem isPrefixL_shape {β : Type} (f f' : ι → Bool) : ∀ (ls : List (PyTree ι)) (ts : List (PyTree β)), IsPrefixL (mapL f ls) ts → IsPrefixL (mapL f' ls) ts
  | [], [], _ => by simp [mapL, IsPrefixL]
  | [], _ :: _, h => by simp [mapL, IsPrefixL] at h
  | _ :: _, [], h => by simp [mapL, IsPrefixL] at h
  | l :: ls, t :: ts, h => by
    simp only [mapL, IsPrefixL] at h ⊢
    exact ⟨isPrefix_shape f f' l t h.1, isPrefixL_shape f f' ls ts h.2⟩
end

mutual
/-- if only subtrees labelled `i` have changed, then the subtrees with another label are the same -/
theorem other_label {β : Type} {i j : ι} (hij : j ≠ i) : ∀ (L : PyTree ι) (t u : PyTree β), IsPrefix (labelMask L i) t → IsPrefix (labelMask L i) u →
    selected false (labelMask L i) t = selected false (labelMask L i) u → selected true (labelMask L j) t = selected true (labelMask L j) u
  | leaf k, t, u, _, _, h => by
    simp only [labelMask, PyTree.map, selected] at h ⊢
    by_cases hk : k = i
    · subst hk; simp [Ne.symm hij]
    · simp [hk] at h; rw [h]
  | node a ls, leaf _, _, h, _, _ => by simp [labelMask, PyTree.map, IsPrefix] at h
  | node a ls, node _ _, leaf _, _, h, _ => by simp [labelMask, PyTree.map, IsPrefix] at h
  | node a ls, node b ts, node c us, h1, h2, h => by
    simp only [labelMask, PyTree.map, IsPrefix, selected] at h1 h2 h ⊢
    exact other_labelL hij ls ts us h1.2 h2.2 h
theorem other_labelL {β : Type} {i j : ι} (hij : j ≠ i) : ∀ (ls : List (PyTree ι)) (ts us : List (PyTree β)), IsPrefixL (mapL (fun k => decide (k = i)) ls) ts →
    IsPrefixL (mapL (fun k => decide (k = i)) ls) us → selectedL false (mapL (fun k => decide (k = i)) ls) ts = selectedL false (mapL (fun k => decide (k = i)) ls) us →
    selectedL true (mapL (fun k => decide (k = j)) ls) ts = selectedL true (mapL (fun k => decide (k = j)) ls) us
  | [], _, _, _, _, _ => by simp [mapL, selectedL]
  | _ :: _, [], _, h, _, _ => by simp [mapL, IsPrefixL] at h
  | _ :: _, _ :: _, [], _, h, _ => by simp [mapL, IsPrefixL] at h
  | l :: ls, t :: ts, u :: us, h1, h2, h => by
    simp only [mapL, IsPrefixL, selectedL] at h1 h2 h ⊢
    have e := List.append_inj h (selected_length false _ t u h1.1 h2.1)
    rw [other_labelL hij ls ts us h1.2 h2.2 e.2]
    have := other_label hij l t u h1.1 h2.1 e.1
    unfold labelMask at this
    rw [this]
end

/-- the tree of labels is a prefix of `t` -/
def Below {β : Type} (L : PyTree ι) (t : PyTree β) : Prop := IsPrefix (L.map fun _ => true) t

theorem Below.mask {β : Type} {L : PyTree ι} {t : PyTree β} (h : Below L t) (i : ι) : IsPrefix (labelMask L i) t := isPrefix_shape _ _ L t h
theorem Below.of_mask {β : Type} {L : PyTree ι} {t : PyTree β} {i : ι} (h : IsPrefix (labelMask L i) t) : Below L t := isPrefix_shape _ _ L t h

mutual
/-- a tree below a tree of labels is determined by its groups -/
theorem labels_ext {β : Type} : ∀ (L : PyTree ι) (t u : PyTree β), IsPrefix (L.map fun _ => true) t → IsPrefix (L.map fun _ => true) u →
    (∀ i, selected true (labelMask L i) t = selected true (labelMask L i) u) → t = u
  | leaf k, t, u, _, _, h => by
    have := h k
    simpa [labelMask, PyTree.map, selected] using this
  | node a ls, leaf _, _, h, _, _ => by simp [PyTree.map, IsPrefix] at h
  | node a ls, node _ _, leaf _, _, h, _ => by simp [PyTree.map, IsPrefix] at h
  | node a ls, node b ts, node c us, h1, h2, h => by
    simp only [PyTree.map, IsPrefix] at h1 h2
    simp only [labelMask, PyTree.map, selected] at h
    rw [← h1.1, ← h2.1, labels_extL ls ts us h1.2 h2.2 h]
theorem labels_extL {β : Type} : ∀ (ls : List (PyTree ι)) (ts us : List (PyTree β)), IsPrefixL (mapL (fun _ => true) ls) ts → IsPrefixL (mapL (fun _ => true) ls) us →
    (∀ i, selectedL true (mapL (fun k => decide (k = i)) ls) ts = selectedL true (mapL (fun k => decide (k = i)) ls) us) → ts = us
  | [], [], [], _, _, _ => rfl
  | [], _ :: _, _, h, _, _ => by simp [mapL, IsPrefixL] at h
  | [], [], _ :: _, _, h, _ => by simp [mapL, IsPrefixL] at h
  | _ :: _, [], _, h, _, _ => by simp [mapL, IsPrefixL] at h
  | _ :: _, _ :: _, [], _, h, _ => by simp [mapL, IsPrefixL] at h
  | l :: ls, t :: ts, u :: us, h1, h2, h => by
    simp only [mapL, IsPrefixL, selectedL] at h1 h2 h
    have e := fun i => List.append_inj (h i) (selected_length true _ t u (isPrefix_shape _ _ l t h1.1) (isPrefix_shape _ _ l u h2.1))
    rw [labels_ext l t u h1.1 h2.1 fun i => (e i).1, labels_extL ls ts us h1.2 h2.2 fun i => (e i).2]
end

variable {α : Type} [Zero α] [One α] [Add α] [Sub α] [Mul α] [Div α] [Neg α] [JOps α]

/-- params are absent or a container below the tree of labels -/
def ParamsBelow (L : PyTree ι) (pp : Option (Params α)) : Prop := ParamsOk (L.map fun _ => true) pp

theorem ParamsBelow.mask {L : PyTree ι} {pp : Option (Params α)} (h : ParamsBelow L pp) (i : ι) : ParamsOk (labelMask L i) pp := by
  match pp, h with
  | none, _ => trivial
  | some (.node t cs), h => exact isPrefix_shape _ _ L _ h

/-- one masked transformation per label, in the order of the list `is` -/
@[reducible] def labelled (A : ι → GT α) (L : PyTree ι) (is : List ι) : List (GT α) := is.map fun i => masked (A i) fun _ => labelMask L i

/-- the state of the chain: the states of the groups in the order of the list -/
def packed (A : ι → GT α) (L : PyTree ι) (S : ∀ i, (A i).State) : (is : List ι) → ChainState (labelled A L is)
  | [] => (0 : ℕ)
  | i :: is => some (S i, packed A L S is)

theorem packed_length (A : ι → GT α) (L : PyTree ι) (S : ∀ i, (A i).State) (is : List ι) : ChainState.length (labelled A L is) (packed A L S is) = (labelled A L is).length := by
  induction is with
  | nil => rfl
  | cons i is ih =>
    show 1 + ChainState.length (labelled A L is) (packed A L S is) = (labelled A L is).length + 1
    rw [ih, Nat.add_comm]

/-- one call, before the length check -/
theorem labels_loop (A : ι → GT α) (L : PyTree ι) (is : List ι) (hnd : is.Nodup) (g : Params α) (pp : Option (Params α)) (hg : Below L g) (hp : ParamsBelow L pp)
    (S S' : ∀ i, (A i).State) (a : ι → List (Params α))
    (hup : ∀ i ∈ is, (A i).update (.node .list (selected true (labelMask L i) g)) (S i) (maskedParams (labelMask L i) pp) = .ok (.node .list (a i), S' i))
    (hlen : ∀ i ∈ is, (a i).length = (selected true (labelMask L i) g).length) :
    ∃ u, chainLoop (labelled A L is) g (packed A L S is) pp = .ok (u, packed A L S' is) ∧ Below L u ∧
      (∀ i ∈ is, selected true (labelMask L i) u = a i) ∧ ∀ i, i ∉ is → selected true (labelMask L i) u = selected true (labelMask L i) g := by
  induction is generalizing g with
  | nil => exact ⟨g, rfl, hg, by simp, fun _ _ => rfl⟩
  | cons i is ih =>
    rw [List.nodup_cons] at hnd
    obtain ⟨v, h1, h2, h3, h4⟩ := C16_update (A i) (fun _ => labelMask L i) g pp (hg.mask i) (hp.mask i) (S i) .list (a i) (S' i) (hup i (by simp)) (hlen i (by simp))
    have hv : Below L v := Below.of_mask h2
    have hoth : ∀ j, j ≠ i → selected true (labelMask L j) v = selected true (labelMask L j) g := fun j hj => other_label hj L v g h2 (hg.mask i) h4
    have hne : ∀ j ∈ is, j ≠ i := fun j hj hji => hnd.1 (hji ▸ hj)
    obtain ⟨u, e1, e2, e3, e4⟩ := ih hnd.2 v hv
      (fun j hj => by rw [hoth j (hne j hj)]; exact hup j (by simp [hj])) (fun j hj => by rw [hoth j (hne j hj)]; exact hlen j (by simp [hj]))
    refine ⟨u, ?_, e2, ?_, ?_⟩
    · show chainLoop (masked (A i) (fun _ => labelMask L i) :: labelled A L is) g (some (S i, packed A L S is)) pp = _
      rw [chainLoop, h1, Res.ok_bind, e1, Res.ok_bind]
      rfl
    · intro j hj
      rcases List.mem_cons.1 hj with rfl | hj
      · rw [e4 j hnd.1, h3]
      · exact e3 j hj
    · intro j hj
      rw [List.mem_cons, not_or] at hj
      rw [e4 j hj.2, hoth j hj.1]

/-- **C147.** A tree of labels that is a prefix of the gradients (and of the params, which are absent or a container), and a list of labels without repetitions: if, for each label `i` of the
list, `A i` run alone on the lists of the gradients and params labelled `i` emits the lists `as i`, then the chain of the `masked` transformations emits the trees that have the `as i` at the
positions labelled `i`, and the gradients themselves at the positions whose labels are not in the list; its state consists of the states of the `A i`. -/
theorem C147_labels (A : ι → GT α) (L : PyTree ι) (is : List ι) (hnd : is.Nodup) (h : List (Call α)) (hh : ∀ c ∈ h, Below L c.1 ∧ ParamsBelow L c.2)
    (S S' : ∀ i, (A i).State) (as : ι → List (List (Params α)))
    (hrun : ∀ i ∈ is, (A i).run (S i) (h.map (groupCall true (labelMask L i))) = .ok ((as i).map (.node .list), S' i))
    (hlen : ∀ i ∈ is, (as i).map List.length = h.map fun c => (selected true (labelMask L i) c.1).length) :
    ∃ us, (chain (labelled A L is)).run (packed A L S is) h = .ok (us, packed A L S' is) ∧ (∀ u ∈ us, Below L u) ∧
      (∀ i ∈ is, us.map (selected true (labelMask L i)) = as i) ∧
      ∀ i, i ∉ is → us.map (selected true (labelMask L i)) = h.map fun c => selected true (labelMask L i) c.1 := by
  induction h generalizing S as with
  | nil =>
    have hS : packed A L S is = packed A L S' is := by
      have : ∀ i ∈ is, S i = S' i := by
        intro i hi
        have a := hrun i hi
        have b := hlen i hi
        simp only [List.map_nil, List.map_eq_nil_iff] at b
        rw [List.map_nil, GT.run_nil, b] at a
        simp only [List.map_nil, Except.ok.injEq, Prod.mk.injEq, true_and] at a
        exact a
      clear hnd hrun hlen
      induction is with
      | nil => rfl
      | cons i is ih =>
        show some (S i, packed A L S is) = some (S' i, packed A L S' is)
        rw [this i (by simp), ih fun j hj => this j (by simp [hj])]
    refine ⟨[], by rw [hS]; rfl, by simp, fun i hi => ?_, fun _ _ => rfl⟩
    have b := hlen i hi
    simp only [List.map_nil, List.map_eq_nil_iff] at b
    rw [b]; rfl
  | cons c h ih =>
    -- the first call of each group
    have first : ∀ i, ∃ (a : List (Params α)) (as' : List (List (Params α))) (s1 : (A i).State), i ∈ is → as i = a :: as' ∧
        (A i).update (groupCall true (labelMask L i) c).1 (S i) (groupCall true (labelMask L i) c).2 = .ok (.node .list a, s1) ∧
        (A i).run s1 (h.map (groupCall true (labelMask L i))) = .ok (as'.map (.node .list), S' i) ∧ a.length = (selected true (labelMask L i) c.1).length ∧
        as'.map List.length = h.map fun c => (selected true (labelMask L i) c.1).length := by
      intro i
      by_cases hi : i ∈ is
      · have hA := hrun i hi
        have hl := hlen i hi
        rw [List.map_cons, GT.run_cons, Res.bind_eq_ok] at hA
        obtain ⟨⟨a1, s1⟩, hA1, hA⟩ := hA
        rw [Res.bind_eq_ok] at hA
        obtain ⟨⟨a2, s2⟩, hA2, hA⟩ := hA
        simp only [Except.ok.injEq, Prod.mk.injEq] at hA
        obtain ⟨hA, rfl⟩ := hA
        cases has : as i with
        | nil => rw [has] at hA; simp at hA
        | cons a as' =>
          rw [has] at hA hl
          simp only [List.map_cons, List.cons.injEq] at hA hl
          obtain ⟨rfl, rfl⟩ := hA
          exact ⟨a, as', s1, fun _ => ⟨rfl, hA1, hA2, hl.1, hl.2⟩⟩
      · exact ⟨[], [], S i, fun h => absurd h hi⟩
    choose a as' S1 hf using first
    have hc := hh c (by simp)
    obtain ⟨u, e1, e2, e3, e4⟩ := labels_loop A L is hnd c.1 c.2 hc.1 hc.2 S S1 a (fun i hi => by
      have := (hf i hi).2.1
      rw [groupCall_true _ c (hc.2.mask i)] at this
      exact this) (fun i hi => (hf i hi).2.2.2.1)
    obtain ⟨us, k1, k2, k3, k4⟩ := ih (fun c hc => hh c (by simp [hc])) S1 as' (fun i hi => (hf i hi).2.2.1) (fun i hi => (hf i hi).2.2.2.2)
    have hup : (chain (labelled A L is)).update c.1 (packed A L S is) c.2 = .ok (u, packed A L S1 is) := by
      show (if ChainState.length (labelled A L is) (packed A L S is) ≠ (labelled A L is).length then valueError else chainLoop (labelled A L is) c.1 (packed A L S is) c.2) = _
      rw [if_neg (by rw [packed_length]; simp)]
      exact e1
    refine ⟨u :: us, ?_, ?_, ?_, ?_⟩
    · refine (GT.run_cons_ok _ _ _ _ hup).trans ?_
      rw [k1]; rfl
    · intro x hx
      rcases List.mem_cons.1 hx with rfl | hx
      · exact e2
      · exact k2 x hx
    · intro i hi
      rw [List.map_cons, e3 i hi, k3 i hi, (hf i hi).1]
    · intro i hi
      rw [List.map_cons, List.map_cons, e4 i hi, k4 i hi]

/-- **C147 (order).** The order of the groups in the chain does not matter: the chains over two permutations of the list of labels emit the same updates. -/
theorem C147_order (A : ι → GT α) (L : PyTree ι) (is js : List ι) (hnd : is.Nodup) (hperm : is.Perm js) (h : List (Call α)) (hh : ∀ c ∈ h, Below L c.1 ∧ ParamsBelow L c.2)
    (S S' : ∀ i, (A i).State) (as : ι → List (List (Params α)))
    (hrun : ∀ i ∈ is, (A i).run (S i) (h.map (groupCall true (labelMask L i))) = .ok ((as i).map (.node .list), S' i))
    (hlen : ∀ i ∈ is, (as i).map List.length = h.map fun c => (selected true (labelMask L i) c.1).length) :
    ∃ us, (chain (labelled A L is)).run (packed A L S is) h = .ok (us, packed A L S' is) ∧ (chain (labelled A L js)).run (packed A L S js) h = .ok (us, packed A L S' js) := by
  obtain ⟨us, e1, e2, e3, e4⟩ := C147_labels A L is hnd h hh S S' as hrun hlen
  obtain ⟨vs, k1, k2, k3, k4⟩ := C147_labels A L js (hperm.nodup_iff.1 hnd) h hh S S' as (fun i hi => hrun i (hperm.mem_iff.2 hi)) (fun i hi => hlen i (hperm.mem_iff.2 hi))
  have hsel : ∀ i, us.map (selected true (labelMask L i)) = vs.map (selected true (labelMask L i)) := by
    intro i
    by_cases hi : i ∈ is
    · rw [e3 i hi, k3 i (hperm.mem_iff.1 hi)]
    · rw [e4 i hi, k4 i (fun hj => hi (hperm.mem_iff.2 hj))]
  have hl : us.length = vs.length := by
    have a := GT.run_length _ _ _ e1
    have b := GT.run_length _ _ _ k1
    exact a.trans b.symm
  have huv : us = vs := by
    apply List.ext_getElem hl
    intro n h1 h2
    refine labels_ext L _ _ (e2 _ (List.getElem_mem h1)) (k2 _ (List.getElem_mem h2)) fun i => ?_
    have := congrArg (fun l => l[n]?) (hsel i)
    simpa [List.getElem?_map, List.getElem?_eq_getElem h1, List.getElem?_eq_getElem h2] using this
  exact ⟨us, e1, by rw [huv]; exact k1⟩

/-- **C147 (it always works).** For structure-keeping `A i`, every container of parameters, every tree of labels that is a prefix of it and every history, the chain never raises, and its
updates are, group by group, those of the `A i` run alone. -/
theorem C147_works (A : ι → GT α) (hA : ∀ i, Preserves WithParams (A i)) (L : PyTree ι) (is : List ι) (hnd : is.Nodup) (tag : Tag) (c0 : Spec) (cs0 : List Spec)
    (hL : Below L (PyTree.node tag (c0 :: cs0))) (N : ℕ) (p0 : ℕ → ℕ → α) (g p : ℕ → ℕ → ℕ → α) :
    ∃ us : List (Params α),
      (chain (labelled A L is)).outs (mk (.node tag (c0 :: cs0)) p0) (hist (.node tag (c0 :: cs0)) g (fun n => some (mk (.node tag (c0 :: cs0)) (p n))) N) = .ok us ∧
      (∀ u ∈ us, Below L u) ∧
      (∀ i ∈ is, (A i).outs (.node .list (selected true (labelMask L i) (mk (.node tag (c0 :: cs0)) p0)))
        ((hist (.node tag (c0 :: cs0)) g (fun n => some (mk (.node tag (c0 :: cs0)) (p n))) N).map (groupCall true (labelMask L i))) =
          .ok (us.map fun u => PyTree.node .list (selected true (labelMask L i) u))) ∧
      ∀ i, i ∉ is → us.map (selected true (labelMask L i)) =
        (hist (.node tag (c0 :: cs0)) g (fun n => some (mk (.node tag (c0 :: cs0)) (p n))) N).map fun c => selected true (labelMask L i) c.1 := by
  set τ : Spec := .node tag (c0 :: cs0) with hτ
  have hpre : ∀ v : ℕ → ℕ → α, Below L (mk τ v) := fun v => by
    have := spec_mk τ v
    rw [← this] at hL
    exact (isPrefix_map _ _ _).1 hL
  have runs := fun i => group_runs (A i) (hA i) true (labelMask L i) tag c0 cs0 N p0 g p
  choose S S' as h1 h2 h3 using runs
  rw [← hτ] at h1 h2 h3
  have hh : ∀ c ∈ hist τ g (fun n => some (mk τ (p n))) N, Below L c.1 ∧ ParamsBelow L c.2 := by
    intro c hc
    simp only [hist, List.mem_map] at hc
    obtain ⟨n, _, rfl⟩ := hc
    exact ⟨hpre _, hpre (p n)⟩
  obtain ⟨us, e1, e2, e3, e4⟩ := C147_labels A L is hnd _ hh S S' as (fun i _ => h2 i) (fun i _ => h3 i)
  refine ⟨us, ?_, e2, ?_, e4⟩
  · have hi : ∀ js : List ι, chainInit (labelled A L js) (mk τ p0) = .ok (packed A L S js) := by
      intro js
      induction js with
      | nil => rfl
      | cons i js ih =>
        have i1 : (masked (A i) (fun _ => labelMask L i)).init (mk τ p0) = .ok (S i) := (C16_init (A i) (fun _ => labelMask L i) (mk τ p0) ((hpre p0).mask i)).trans (h1 i)
        show chainInit (masked (A i) (fun _ => labelMask L i) :: labelled A L js) (mk τ p0) = _
        rw [chainInit, i1, Res.ok_bind, ih]
        rfl
    have hi' : (chain (labelled A L is)).init (mk τ p0) = .ok (packed A L S is) := hi is
    unfold GT.outs GT.exec
    rw [hi', Res.ok_bind, e1]
    rfl
  · intro i hi
    unfold GT.outs GT.exec
    rw [h1 i, Res.ok_bind, h2 i, ← e3 i hi, List.map_map]
    rfl

end

/-- three groups: `adam` on the weights (0), `sgd` with momentum on the biases (1), and the rest (2) not in the list -/
example (lr : LR ℝ) (N : ℕ) (p0 : ℕ → ℕ → ℝ) (g p : ℕ → ℕ → ℕ → ℝ) :
    ∃ us, (chain (labelled (fun i : ℕ => if i = 0 then adam lr (9 / 10) (999 / 1000) (1 / 10 ^ 8) 0 else sgd lr (some (9 / 10)) false)
      (.node .list [.node .tuple [.leaf 0, .leaf 1], .leaf 2]) [1, 0])).outs
        (mk (.node .list [.node .tuple [.leaf [2, 3], .leaf [3]], .node .tuple [.leaf [3, 1], .leaf [1]]]) p0)
        (hist (.node .list [.node .tuple [.leaf [2, 3], .leaf [3]], .node .tuple [.leaf [3, 1], .leaf [1]]]) g
          (fun n => some (mk (.node .list [.node .tuple [.leaf [2, 3], .leaf [3]], .node .tuple [.leaf [3, 1], .leaf [1]]]) (p n))) N) = .ok us := by
  obtain ⟨us, h, _⟩ := C147_works (fun i : ℕ => if i = 0 then adam lr (9 / 10) (999 / 1000) (1 / 10 ^ 8) 0 else sgd lr (some (9 / 10)) false)
    (fun i => by
      split_ifs
      · exact preserves_two _ _ (preserves_adam _ _ _ _).any (preserves_lr lr).any
      · exact preserves_two _ _ (preserves_momentum _ _).any (preserves_lr lr).any)
    (.node .list [.node .tuple [.leaf 0, .leaf 1], .leaf 2]) [1, 0] (by decide) .list (.node .tuple [.leaf [2, 3], .leaf [3]]) [.node .tuple [.leaf [3, 1], .leaf [1]]]
    (by simp [Below, PyTree.map, mapL, IsPrefix, IsPrefixL]) N p0 g p
  exact ⟨us, h⟩

end Optax
