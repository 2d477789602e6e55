import Verif.Props.Labels
import Verif.Props.GroupsTraining

/-!
# C147 in the training loop: labelled groups train independently
-/

set_option linter.unusedSectionVars false
set_option linter.unusedSimpArgs false

namespace Optax
open PyTree

section
variable {ι : Type} [DecidableEq ι] {β γ δ : Type} (f : β → γ → Res δ)

mutual
/-- if the subtrees of every label can be zipped, so can the trees -/
theorem labels_join : ∀ (L : PyTree ι) (t : PyTree β) (u : PyTree γ), Below L t → Below L u →
    (∀ i ∈ L.leaves, ∃ x, zipML f (selected true (labelMask L i) t) (selected true (labelMask L i) u) = .ok x) → ∃ w, zipM f t u = .ok w
  | leaf j, t, u, _, _, h => by
    obtain ⟨x, h⟩ := h j (by simp [leaves])
    simp only [labelMask, PyTree.map, selected, decide_true, if_true, zipML, Res.bind_eq_ok] at h
    obtain ⟨e, he, _⟩ := h
    exact ⟨e, he⟩
  | node a ls, node c ts, node d us, ht, hu, h => by
    simp only [Below, PyTree.map, IsPrefix] at ht hu
    obtain ⟨rfl, ht⟩ := ht
    obtain ⟨rfl, hu⟩ := hu
    obtain ⟨w, hw⟩ := labels_joinL ls ts us ht hu (fun i hi => by
      have := h i (by simpa [leaves] using hi)
      simpa only [labelMask, PyTree.map, selected] using this)
    exact ⟨node a w, by simp only [zipM, if_true, hw, Res.ok_bind, Res.pure_eq]⟩
  | node _ _, leaf _, _, ht, _, _ => by simp [Below, PyTree.map, IsPrefix] at ht
  | node _ _, node _ _, leaf _, _, hu, _ => by simp [Below, PyTree.map, IsPrefix] at hu
theorem labels_joinL : ∀ (ls : List (PyTree ι)) (ts : List (PyTree β)) (us : List (PyTree γ)), IsPrefixL (mapL (fun _ => true) ls) ts →
    IsPrefixL (mapL (fun _ => true) ls) us →
    (∀ i ∈ leavesL ls, ∃ x, zipML f (selectedL true (mapL (fun k => decide (k = i)) ls) ts) (selectedL true (mapL (fun k => decide (k = i)) ls) us) = .ok x) →
    ∃ w, zipML f ts us = .ok w
  | [], [], [], _, _, _ => ⟨[], rfl⟩
  | [], [], _ :: _, _, hu, _ => by simp [mapL, IsPrefixL] at hu
  | [], _ :: _, _, ht, _, _ => by simp [mapL, IsPrefixL] at ht
  | _ :: _, [], _, ht, _, _ => by simp [mapL, IsPrefixL] at ht
  | _ :: _, _ :: _, [], _, hu, _ => by simp [mapL, IsPrefixL] at hu
  | l :: ls, t :: ts, u :: us, ht, hu, h => by
    simp only [mapL, IsPrefixL] at ht hu
    have key : ∀ i, (∃ x, zipML f (selectedL true (mapL (fun k => decide (k = i)) (l :: ls)) (t :: ts)) (selectedL true (mapL (fun k => decide (k = i)) (l :: ls)) (u :: us)) = .ok x) →
        (∃ x, zipML f (selected true (labelMask l i) t) (selected true (labelMask l i) u) = .ok x) ∧
        ∃ x, zipML f (selectedL true (mapL (fun k => decide (k = i)) ls) ts) (selectedL true (mapL (fun k => decide (k = i)) ls) us) = .ok x := by
      rintro i ⟨x, hx⟩
      simp only [mapL, selectedL] at hx
      have hl := selected_length true (labelMask l i) t u (Below.mask (L := l) ht.1 i) (Below.mask (L := l) hu.1 i)
      change zipML f (selected true (labelMask l i) t ++ _) (selected true (labelMask l i) u ++ _) = _ at hx
      rw [zipML_append f (selected true (labelMask l i) t) _ (selected true (labelMask l i) u) _ hl, Res.bind_eq_ok] at hx
      obtain ⟨x1, hx1, hx⟩ := hx
      rw [Res.bind_eq_ok] at hx
      obtain ⟨x2, hx2, _⟩ := hx
      exact ⟨⟨x1, hx1⟩, x2, hx2⟩
    obtain ⟨w, hw⟩ := labels_join l t u ht.1 hu.1 (fun i hi => (key i (h i (by simp [leavesL, hi]))).1)
    obtain ⟨ws, hws⟩ := labels_joinL ls ts us ht.2 hu.2 (fun i hi => (key i (h i (by simp [leavesL, hi]))).2)
    exact ⟨w :: ws, by simp only [zipML, hw, hws, Res.ok_bind, Res.pure_eq]⟩
end

end

section
variable {ι : Type} [DecidableEq ι] {α : Type} [Zero α] [One α] [Add α] [Sub α] [Mul α] [Div α] [Neg α] [JOps α]

/-- **C147 (separable training).** Every label of the tree of labels is in the list, and the gradients of each group depend only on the parameters of that group: then training
with the chain is the separate trainings of the groups side by side.  Wherever these are after `n` steps, there is the training of the whole (and if none of them fails, it does not). -/
theorem C147_training (A : ι → GT α) (L : PyTree ι) (is : List ι) (hnd : is.Nodup) (hall : ∀ i ∈ L.leaves, i ∈ is)
    (grad : ℕ → Params α → Params α) (gradOf : ι → ℕ → Params α → Params α)
    (hpre : ∀ n p, Below L p → Below L (grad n p))
    (hgrad : ∀ i ∈ is, ∀ n p, Below L p → PyTree.node .list (selected true (labelMask L i) (grad n p)) = gradOf i n (.node .list (selected true (labelMask L i) p)))
    (p0 : Params α) (hp0 : Container p0) (hL : Below L p0) (S0 S : ∀ i, (A i).State) (P : ι → Params α) (n : ℕ)
    (hrun : ∀ i ∈ is, trainLoop (A i) (gradOf i) n (S0 i) (.node .list (selected true (labelMask L i) p0)) = .ok (P i, S i)) :
    ∃ p, trainLoop (chain (labelled A L is)) grad n (packed A L S0 is) p0 = .ok (p, packed A L S is) ∧
      Container p ∧ Below L p ∧ ∀ i ∈ is, PyTree.node .list (selected true (labelMask L i) p) = P i := by
  induction n generalizing S P with
  | zero =>
    have h : ∀ i ∈ is, S0 i = S i ∧ PyTree.node .list (selected true (labelMask L i) p0) = P i := by
      intro i hi
      have := hrun i hi
      simp only [trainLoop, Except.ok.injEq, Prod.mk.injEq] at this
      exact ⟨this.2, this.1⟩
    refine ⟨p0, ?_, hp0, hL, fun i hi => (h i hi).2⟩
    have hS : packed A L S0 is = packed A L S is := by
      clear hnd hrun hall hgrad
      induction is with
      | nil => rfl
      | cons i is ih =>
        show some (S0 i, packed A L S0 is) = some (S i, packed A L S is)
        rw [(h i (by simp)).1, ih fun j hj => h j (by simp [hj])]
    rw [hS]
    rfl
  | succ n ih =>
    have step : ∀ i, ∃ (q : Params α) (t : (A i).State) (u : Params α), i ∈ is →
        trainLoop (A i) (gradOf i) n (S0 i) (.node .list (selected true (labelMask L i) p0)) = .ok (q, t) ∧
        (A i).update (gradOf i n q) t (some q) = .ok (u, S i) ∧ applyUpdates q u = .ok (P i) := by
      intro i
      by_cases hi : i ∈ is
      · have h := hrun i hi
        simp only [trainLoop, Res.bind_eq_ok] at h
        obtain ⟨⟨q, t⟩, h1, ⟨u, t'⟩, h2, q', h3, h4⟩ := h
        cases h4
        exact ⟨q, t, u, fun _ => ⟨h1, h2, h3⟩⟩
      · exact ⟨P i, S i, P i, fun h => absurd h hi⟩
    choose Q T U hstep using step
    obtain ⟨p, h1, hcp, hpp, hsel⟩ := ih T Q (fun i hi => (hstep i hi).1)
    obtain ⟨tg, c, cs, rfl⟩ := hcp
    have hgp := hpre n _ hpp
    -- the update of every group is a list
    have lists : ∀ i, ∃ (as xs : List (Params α)), i ∈ is → U i = .node .list as ∧ P i = .node .list xs ∧
        zipML (Tensor.bop (fun p u : α => p + u)) (selected true (labelMask L i) (.node tg (c :: cs))) as = .ok xs ∧
        as.length = (selected true (labelMask L i) (PyTree.node tg (c :: cs))).length := by
      intro i
      by_cases hi : i ∈ is
      · have h3 := (hstep i hi).2.2
        rw [← hsel i hi] at h3
        obtain ⟨as, xs, e1, e2, e3, e4⟩ := zipM_list _ _ _ _ h3
        exact ⟨as, xs, fun _ => ⟨e1, e2, e3, e4⟩⟩
      · exact ⟨[], [], fun h => absurd h hi⟩
    choose as xs hlist using lists
    obtain ⟨u, e1, e2, e3, -⟩ := labels_loop A L is hnd (grad n (.node tg (c :: cs))) (some (.node tg (c :: cs))) hgp hpp T S as
      (fun i hi => by
        have h2 := (hstep i hi).2.1
        rw [← hsel i hi, ← hgrad i hi n _ hpp, (hlist i hi).1] at h2
        exact h2)
      (fun i hi => (hlist i hi).2.2.2.trans (selected_length true _ _ _ (hpp.mask i) (hgp.mask i)))
    have hup : (chain (labelled A L is)).update (grad n (.node tg (c :: cs))) (packed A L T is) (some (.node tg (c :: cs))) = .ok (u, packed A L S is) := by
      show (if ChainState.length (labelled A L is) (packed A L T is) ≠ (labelled A L is).length then valueError
        else chainLoop (labelled A L is) (grad n (.node tg (c :: cs))) (packed A L T is) (some (.node tg (c :: cs)))) = _
      rw [if_neg (by rw [packed_length]; simp)]
      exact e1
    obtain ⟨w, hw⟩ := labels_join (Tensor.bop (fun p u : α => p + u)) L (.node tg (c :: cs)) u hpp e2
      (fun i hi => ⟨xs i, by rw [e3 i (hall i hi)]; exact (hlist i (hall i hi)).2.2.1⟩)
    have hsw := fun i => zipM_selected _ true (labelMask L i) _ u w (hpp.mask i) (e2.mask i) hw
    refine ⟨w, trainLoop_succ _ grad n _ _ _ _ _ _ _ h1 hup hw, container_apply _ u w ⟨tg, c, cs, rfl⟩ hw, ?_, fun i hi => ?_⟩
    · exact (zipM_selected _ true (L.map fun _ => true) _ u w hpp e2 hw).1
    · have := (hsw i).2
      rw [e3 i hi, (hlist i hi).2.2.1] at this
      rw [(hlist i hi).2.1, Except.ok.inj this]

end

/-- for any optimizers and any tree of labels: training on `‖p‖²/2`, whose gradients are the parameters -/
example {ι : Type} [DecidableEq ι] (A : ι → GT ℝ) (L : PyTree ι) (is : List ι) (hnd : is.Nodup) (hall : ∀ i ∈ L.leaves, i ∈ is) (p0 : Params ℝ) (hp0 : Container p0)
    (hL : Below L p0) (S0 S : ∀ i, (A i).State) (P : ι → Params ℝ) (n : ℕ)
    (hrun : ∀ i ∈ is, trainLoop (A i) (fun _ p => p) n (S0 i) (.node .list (selected true (labelMask L i) p0)) = .ok (P i, S i)) :
    ∃ p, trainLoop (chain (labelled A L is)) (fun _ p => p) n (packed A L S0 is) p0 = .ok (p, packed A L S is) ∧
      ∀ i ∈ is, PyTree.node .list (selected true (labelMask L i) p) = P i := by
  obtain ⟨p, h1, -, -, h2⟩ := C147_training A L is hnd hall (fun _ p => p) (fun _ _ p => p) (fun _ _ h => h) (fun _ _ _ _ _ => rfl) p0 hp0 hL S0 S P n hrun
  exact ⟨p, h1, h2⟩

theorem train_scale (c : ℝ) (s : (scale c).State) (n : ℕ) : ∀ (σ : Spec) (v : ℕ → ℕ → ℝ),
    trainLoop (scale c) (fun _ p => p) n s (mk σ v) = .ok (mk σ (fun k j => (1 + c) ^ n * v k j), s) := by
  intro σ v
  induction n with
  | zero => simp [trainLoop]
  | succ n ih =>
    have h2 : (scale c).update (mk σ (fun k j => (1 + c) ^ n * v k j)) s (some (mk σ (fun k j => (1 + c) ^ n * v k j))) =
        .ok (mk σ (fun k j => c * ((1 + c) ^ n * v k j)), s) := by
      show Except.ok (tmap _ _, s) = _
      rw [tmap_mk]
    refine (trainLoop_succ _ _ n _ _ _ _ _ _ _ ih h2 (C06_apply_updates σ _ _)).trans ?_
    congr 3
    funext k j
    ring

/-- three groups of leaves with three learning rates: the first and the third leaf share a label -/
example (lr : Fin 3 → ℝ) (v : ℕ → ℕ → ℝ) (n : ℕ) (s0 : ∀ i, (scale (-lr i)).State) :
    ∃ p, trainLoop (chain (labelled (fun i : Fin 3 => scale (-lr i)) (.node .list [.leaf 0, .leaf 1, .leaf 0, .leaf 2]) [0, 1, 2])) (fun _ p => p) n
        (packed (fun i : Fin 3 => scale (-lr i)) (.node .list [.leaf 0, .leaf 1, .leaf 0, .leaf 2]) s0 [0, 1, 2])
        (mk (.node .list [.leaf [2, 3], .leaf [3], .leaf [], .leaf [1]]) v) = .ok (p, packed _ _ s0 [0, 1, 2]) ∧
      PyTree.node .list (selected true (labelMask (.node .list [.leaf (0 : Fin 3), .leaf 1, .leaf 0, .leaf 2]) 1) p) =
        mk (.node .list [.leaf [3]]) (fun _ j => (1 + -lr 1) ^ n * v 1 j) := by
  obtain ⟨p, h1, -, -, h2⟩ := C147_training (fun i : Fin 3 => scale (-lr i)) (.node .list [.leaf 0, .leaf 1, .leaf 0, .leaf 2]) [0, 1, 2] (by decide) (by decide)
    (fun _ p => p) (fun _ _ p => p) (fun _ _ h => h) (fun _ _ _ _ _ => rfl) (mk (.node .list [.leaf [2, 3], .leaf [3], .leaf [], .leaf [1]]) v) ⟨_, _, _, rfl⟩
    (by show _ ∧ _; exact ⟨rfl, by exact ⟨trivial, trivial, trivial, trivial, trivial⟩⟩) s0 s0
    (fun i => if i = 0 then mk (.node .list [.leaf [2, 3], .leaf []]) (fun k j => (1 + -lr 0) ^ n * v (2 * k) j) else if i = 1 then mk (.node .list [.leaf [3]]) (fun _ j => (1 + -lr 1) ^ n * v 1 j)
      else mk (.node .list [.leaf [1]]) (fun _ j => (1 + -lr 2) ^ n * v 3 j)) n (by
      intro i hi
      fin_cases i
      · exact train_scale (-lr 0) (s0 0) n (.node .list [.leaf [2, 3], .leaf []]) (fun k j => v (2 * k) j)
      · exact train_scale (-lr 1) (s0 1) n (.node .list [.leaf [3]]) (fun _ j => v 1 j)
      · exact train_scale (-lr 2) (s0 2) n (.node .list [.leaf [1]]) (fun _ j => v 3 j))
  exact ⟨p, h1, h2 1 (by decide)⟩

end Optax
