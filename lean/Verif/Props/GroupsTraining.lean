import Verif.Props.Groups
import Verif.Props.Constrain

/-!
# C141 in the training loop: groups train independently, frozen parameters stay
-/

set_option linter.unusedSectionVars false
set_option linter.unusedSimpArgs false

namespace Optax
open PyTree

section zip
variable {β γ δ : Type} (f : β → γ → Res δ)

theorem zipML_append : ∀ (ts us : List (PyTree β)) (ts' us' : List (PyTree γ)), ts.length = ts'.length →
    zipML f (ts ++ us) (ts' ++ us') = (zipML f ts ts' >>= fun a => zipML f us us' >>= fun b => .ok (a ++ b))
  | [], us, [], us', _ => by
    simp only [List.nil_append, zipML, Res.ok_bind]
    cases zipML f us us' <;> rfl
  | t :: ts, us, t' :: ts', us', h => by
    simp only [List.cons_append, zipML]
    rw [zipML_append ts us ts' us' (by simpa using h)]
    cases zipM f t t' <;> simp only [Res.ok_bind, Res.error_bind]
    cases zipML f ts ts' <;> simp only [Res.ok_bind, Res.error_bind, Res.pure_eq]
    cases zipML f us us' <;> simp only [Res.ok_bind, Res.error_bind, Res.pure_eq, List.cons_append]

mutual
/-- zipping two trees below a mask zips the selected subtrees -/
theorem zipM_selected (b : Bool) : ∀ (m : PyTree Bool) (t : PyTree β) (u : PyTree γ) (w : PyTree δ), IsPrefix m t → IsPrefix m u → zipM f t u = .ok w →
    IsPrefix m w ∧ zipML f (selected b m t) (selected b m u) = .ok (selected b m w)
  | leaf x, t, u, w, _, _, h => by
    refine ⟨trivial, ?_⟩
    simp only [selected]
    by_cases hx : x = b
    · simp only [if_pos hx, zipML, h, Res.ok_bind, Res.pure_eq]
    · simp only [if_neg hx, zipML]
  | node a ms, node c ts, node d us, w, ht, hu, h => by
    simp only [IsPrefix] at ht hu
    obtain ⟨rfl, ht⟩ := ht
    obtain ⟨rfl, hu⟩ := hu
    simp only [zipM, if_true, Res.bind_eq_ok] at h
    obtain ⟨ws, hws, h⟩ := h
    cases h
    have := zipML_selected b ms ts us ws ht hu hws
    exact ⟨⟨rfl, this.1⟩, this.2⟩
theorem zipML_selected (b : Bool) : ∀ (ms : List (PyTree Bool)) (ts : List (PyTree β)) (us : List (PyTree γ)) (ws : List (PyTree δ)), IsPrefixL ms ts → IsPrefixL ms us →
    zipML f ts us = .ok ws → IsPrefixL ms ws ∧ zipML f (selectedL b ms ts) (selectedL b ms us) = .ok (selectedL b ms ws)
  | [], [], [], ws, _, _, h => by
    simp only [zipML] at h
    cases h
    exact ⟨trivial, rfl⟩
  | m :: ms, t :: ts, u :: us, ws, ht, hu, h => by
    simp only [IsPrefixL] at ht hu
    simp only [zipML, Res.bind_eq_ok] at h
    obtain ⟨e, he, es, hes, h⟩ := h
    cases h
    have h1 := zipM_selected b m t u e ht.1 hu.1 he
    have h2 := zipML_selected b ms ts us es ht.2 hu.2 hes
    refine ⟨⟨h1.1, h2.1⟩, ?_⟩
    simp only [selectedL]
    rw [zipML_append f _ _ _ _ (selected_length b m t u ht.1 hu.1), h1.2, h2.2]
    rfl
end

mutual
/-- if the selected and the other subtrees can be zipped, so can the trees -/
theorem zipM_join : ∀ (m : PyTree Bool) (t : PyTree β) (u : PyTree γ), IsPrefix m t → IsPrefix m u → (∃ x, zipML f (selected true m t) (selected true m u) = .ok x) →
    (∃ y, zipML f (selected false m t) (selected false m u) = .ok y) → ∃ w, zipM f t u = .ok w
  | leaf x, t, u, _, _, h1, h2 => by
    cases x
    · obtain ⟨y, h⟩ := h2
      simp only [selected, if_true, zipML, Res.bind_eq_ok] at h
      obtain ⟨e, he, _⟩ := h
      exact ⟨e, he⟩
    · obtain ⟨y, h⟩ := h1
      simp only [selected, if_true, zipML, Res.bind_eq_ok] at h
      obtain ⟨e, he, _⟩ := h
      exact ⟨e, he⟩
  | node a ms, node c ts, node d us, ht, hu, h1, h2 => by
    simp only [IsPrefix] at ht hu
    obtain ⟨rfl, ht⟩ := ht
    obtain ⟨rfl, hu⟩ := hu
    obtain ⟨w, hw⟩ := zipML_join ms ts us ht hu h1 h2
    exact ⟨node a w, by simp only [zipM, if_true, hw, Res.ok_bind, Res.pure_eq]⟩
theorem zipML_join : ∀ (ms : List (PyTree Bool)) (ts : List (PyTree β)) (us : List (PyTree γ)), IsPrefixL ms ts → IsPrefixL ms us →
    (∃ x, zipML f (selectedL true ms ts) (selectedL true ms us) = .ok x) →
    (∃ y, zipML f (selectedL false ms ts) (selectedL false ms us) = .ok y) → ∃ w, zipML f ts us = .ok w
  | [], [], [], _, _, _, _ => ⟨[], rfl⟩
  | m :: ms, t :: ts, u :: us, ht, hu, ⟨x, hx⟩, ⟨y, hy⟩ => by
    simp only [IsPrefixL] at ht hu
    simp only [selectedL] at hx hy
    rw [zipML_append f _ _ _ _ (selected_length _ m t u ht.1 hu.1), Res.bind_eq_ok] at hx hy
    obtain ⟨x1, hx1, hx⟩ := hx
    obtain ⟨y1, hy1, hy⟩ := hy
    rw [Res.bind_eq_ok] at hx hy
    obtain ⟨x2, hx2, _⟩ := hx
    obtain ⟨y2, hy2, _⟩ := hy
    obtain ⟨w, hw⟩ := zipM_join m t u ht.1 hu.1 ⟨x1, hx1⟩ ⟨y1, hy1⟩
    obtain ⟨ws, hws⟩ := zipML_join ms ts us ht.2 hu.2 ⟨x2, hx2⟩ ⟨y2, hy2⟩
    exact ⟨w :: ws, by simp only [zipML, hw, hws, Res.ok_bind, Res.pure_eq]⟩
end

theorem zipML_length : ∀ (ts : List (PyTree β)) (us : List (PyTree γ)) (ws : List (PyTree δ)), zipML f ts us = .ok ws → us.length = ts.length ∧ ws.length = ts.length
  | [], [], ws, h => by simp only [zipML] at h; cases h; exact ⟨rfl, rfl⟩
  | t :: ts, u :: us, ws, h => by
    simp only [zipML, Res.bind_eq_ok] at h
    obtain ⟨e, he, es, hes, h⟩ := h
    cases h
    have := zipML_length ts us es hes
    exact ⟨by simp [this.1], by simp [this.2]⟩
  | [], _ :: _, _, h => by simp only [zipML] at h; cases h
  | _ :: _, [], _, h => by simp only [zipML] at h; cases h

theorem zipM_list (ts : List (PyTree β)) (u : PyTree γ) (w : PyTree δ) (h : zipM f (.node .list ts) u = .ok w) :
    ∃ us ws, u = .node .list us ∧ w = .node .list ws ∧ zipML f ts us = .ok ws ∧ us.length = ts.length := by
  cases u with
  | leaf x => simp only [zipM] at h; cases h
  | node t us =>
    simp only [zipM] at h
    split_ifs at h with ht
    · subst ht
      rw [Res.bind_eq_ok] at h
      obtain ⟨ws, hws, h⟩ := h
      cases h
      exact ⟨us, ws, rfl, rfl, hws, (zipML_length f ts us ws hws).1⟩

end zip

section
variable {α : Type} [Zero α] [One α] [Add α] [Sub α] [Mul α] [Div α] [Neg α] [JOps α]

/-- a non-empty container -/
def Container (p : Params α) : Prop := ∃ t c cs, p = .node t (c :: cs)

theorem container_apply (p u q : Params α) (hp : Container p) (h : applyUpdates p u = .ok q) : Container q := by
  obtain ⟨t, c, cs, rfl⟩ := hp
  unfold applyUpdates tzip at h
  cases u with
  | leaf x => simp only [zipM] at h; cases h
  | node t' us =>
    simp only [zipM] at h
    split_ifs at h with ht
    · rw [Res.bind_eq_ok] at h
      obtain ⟨ws, hws, h⟩ := h
      cases h
      have hl := (zipML_length _ _ us ws hws).2
      cases ws with
      | nil => simp at hl
      | cons w ws => exact ⟨t, w, ws, rfl⟩

/-- **C141 (separable training).** If the gradients of each group depend only on the parameters of that group, then training with the chain is the two trainings of the groups
side by side: wherever the latter two are after `n` steps, there is the former (and if they do not fail, it does not). -/
theorem C141_training (A B : GT α) (m : PyTree Bool) (grad gradA gradB : ℕ → Params α → Params α)
    (hpre : ∀ n p, IsPrefix m p → IsPrefix m (grad n p))
    (hA : ∀ n p, IsPrefix m p → PyTree.node .list (selected true m (grad n p)) = gradA n (.node .list (selected true m p)))
    (hB : ∀ n p, IsPrefix m p → PyTree.node .list (selected false m (grad n p)) = gradB n (.node .list (selected false m p)))
    (p0 : Params α) (hp0 : Container p0) (hm : IsPrefix m p0) (sA0 sA : A.State) (sB0 sB : B.State) (pA pB : Params α) (n : ℕ)
    (hrA : trainLoop A gradA n sA0 (.node .list (selected true m p0)) = .ok (pA, sA))
    (hrB : trainLoop B gradB n sB0 (.node .list (selected false m p0)) = .ok (pB, sB)) :
    ∃ p, trainLoop (chain [masked A (fun _ => m), masked B (fun _ => notMask m)]) grad n (some (sA0, some (sB0, (0 : ℕ)))) p0 = .ok (p, some (sA, some (sB, (0 : ℕ)))) ∧
      Container p ∧ IsPrefix m p ∧ PyTree.node .list (selected true m p) = pA ∧ PyTree.node .list (selected false m p) = pB := by
  induction n generalizing sA sB pA pB with
  | zero =>
    simp only [trainLoop, Except.ok.injEq, Prod.mk.injEq] at hrA hrB
    obtain ⟨rfl, rfl⟩ := hrA
    obtain ⟨rfl, rfl⟩ := hrB
    exact ⟨p0, rfl, hp0, hm, rfl, rfl⟩
  | succ n ih =>
    simp only [trainLoop, Res.bind_eq_ok] at hrA hrB
    obtain ⟨⟨qA, tA⟩, hA1, ⟨uA, tA'⟩, hA2, qA', hA3, hA4⟩ := hrA
    obtain ⟨⟨qB, tB⟩, hB1, ⟨uB, tB'⟩, hB2, qB', hB3, hB4⟩ := hrB
    cases hA4
    cases hB4
    obtain ⟨p, h1, hcp, hpp, rfl, rfl⟩ := ih tA tB qA qB hA1 hB1
    obtain ⟨as, xs, rfl, rfl, hza, hla⟩ := zipM_list _ _ _ _ hA3
    obtain ⟨bs, ys, rfl, rfl, hzb, hlb⟩ := zipM_list _ _ _ _ hB3
    obtain ⟨tg, c, cs, rfl⟩ := hcp
    have hgp := hpre n _ hpp
    rw [← hA n _ hpp] at hA2
    rw [← hB n _ hpp] at hB2
    obtain ⟨u, h2, h3, h4, h5⟩ := groups_update A B m (grad n (.node tg (c :: cs)), some (.node tg (c :: cs))) hgp hpp tA _ tB _ as bs hA2 hB2
      (hla.trans (selected_length true m _ _ hpp hgp)) (hlb.trans (selected_length false m _ _ hpp hgp))
    obtain ⟨w, hw⟩ := zipM_join (Tensor.bop (fun p u : α => p + u)) m (.node tg (c :: cs)) u hpp h3 ⟨xs, by rw [h4]; exact hza⟩ ⟨ys, by rw [h5]; exact hzb⟩
    obtain ⟨hw1, hw2⟩ := zipM_selected _ true m _ u w hpp h3 hw
    obtain ⟨_, hw3⟩ := zipM_selected _ false m _ u w hpp h3 hw
    rw [h4, hza] at hw2
    rw [h5, hzb] at hw3
    refine ⟨w, trainLoop_succ _ grad n _ _ _ _ _ _ _ h1 h2 hw, container_apply _ u w ⟨tg, c, cs, rfl⟩ hw, hw1, ?_, ?_⟩
    · rw [← Except.ok.inj hw2]
    · rw [← Except.ok.inj hw3]

end

section
variable {α : Type} [Zero α]

mutual
theorem mem_selected {β : Type} : ∀ (m : PyTree Bool) (t : PyTree β), IsPrefix m t → ∀ x ∈ t.leaves, x ∈ leavesL (selected true m t) ∨ x ∈ leavesL (selected false m t)
  | leaf y, t, _ => by
    intro x hx
    cases y
    · right; simpa [selected, leavesL] using hx
    · left; simpa [selected, leavesL] using hx
  | node a ms, leaf _, h => by simp [IsPrefix] at h
  | node a ms, node c ts, h => by
    simp only [IsPrefix] at h
    simp only [selected, leaves]
    exact mem_selectedL ms ts h.2
theorem mem_selectedL {β : Type} : ∀ (ms : List (PyTree Bool)) (ts : List (PyTree β)), IsPrefixL ms ts → ∀ x ∈ leavesL ts,
    x ∈ leavesL (selectedL true ms ts) ∨ x ∈ leavesL (selectedL false ms ts)
  | [], [], _ => by simp [leavesL]
  | [], _ :: _, h => by simp [IsPrefixL] at h
  | _ :: _, [], h => by simp [IsPrefixL] at h
  | m :: ms, t :: ts, h => by
    intro x hx
    simp only [IsPrefixL] at h
    have hap : ∀ l l' : List (PyTree β), leavesL (l ++ l') = leavesL l ++ leavesL l' := fun l l' => by
      induction l with
      | nil => rfl
      | cons a l ih => simp [leavesL, ih]
    simp only [leavesL, List.mem_append] at hx
    simp only [selectedL, hap, List.mem_append]
    rcases hx with hx | hx
    · rcases mem_selected m t h.1 x hx with h' | h'
      · exact Or.inl (Or.inl h')
      · exact Or.inr (Or.inl h')
    · rcases mem_selectedL ms ts h.2 x hx with h' | h'
      · exact Or.inl (Or.inr h')
      · exact Or.inr (Or.inr h')
end

/-- a tree both of whose groups have the right structure has the right structure -/
theorem join_mk (m : PyTree Bool) (τ : Spec) (w : Params α) (hm : IsPrefix m τ) (hw : IsPrefix m w) (u : Bool → ℕ → ℕ → α)
    (h : ∀ b, PyTree.node .list (selected b m w) = mk (.node .list (selected b m τ)) (u b)) : ∃ v, w = mk τ v := by
  have mapL_eq : ∀ {β γ : Type} (f : β → γ) (l : List (PyTree β)), mapL f l = l.map (PyTree.map f) := by
    intro β γ f l
    induction l with
    | nil => rfl
    | cons a l ih => simp [mapL, ih]
  have hsel : ∀ b, selected b m (spec w) = selected b m τ := fun b => by
    have h1 := congrArg spec (h b)
    rw [spec_mk] at h1
    unfold spec at h1 ⊢
    simp only [PyTree.map, mapL_eq, PyTree.node.injEq, true_and] at h1
    rw [selected_map]; exact h1
  have hsp : spec w = τ := prefix_ext m _ _ ((isPrefix_map _ _ _).mpr hw) hm (hsel true) (hsel false)
  have hwf : WF w := fun x hx => by
    rcases mem_selected m w hw x hx with h1 | h1
    · have h2 := WF_mk (.node .list (selected true m τ)) (u true)
      rw [← h true] at h2
      exact h2 x (by simpa [leaves] using h1)
    · have h2 := WF_mk (.node .list (selected false m τ)) (u false)
      rw [← h false] at h2
      exact h2 x (by simpa [leaves] using h1)
  exact ⟨coord w, by rw [← hsp]; exact eq_mk_of_WF w hwf⟩

end

/-- **C141 (freezing).** Training with `chain(masked(A, m), masked(scale(0), not m))` never changes the parameters outside the mask, whatever the (structure-keeping) `A` and
the gradients, and never fails. -/
theorem C141_frozen (A : GT ℝ) (hA : Preserves WithParams A) (m : PyTree Bool) (tag : Tag) (c0 : Spec) (cs0 : List Spec) (hm : IsPrefix m (PyTree.node tag (c0 :: cs0)))
    (grad : ℕ → Params ℝ → Params ℝ) (hg : ∀ n p, ∃ g, grad n (mk (.node tag (c0 :: cs0)) p) = mk (.node tag (c0 :: cs0)) g) (p0 : ℕ → ℕ → ℝ) :
    ∃ s0, (chain [masked A (fun _ => m), masked (scale (0 : ℝ)) (fun _ => notMask m)]).init (mk (.node tag (c0 :: cs0)) p0) = .ok s0 ∧
      ∀ n, ∃ p s, trainLoop (chain [masked A (fun _ => m), masked (scale (0 : ℝ)) (fun _ => notMask m)]) grad n s0 (mk (.node tag (c0 :: cs0)) p0) =
          .ok (mk (.node tag (c0 :: cs0)) p, s) ∧
        selected false m (mk (.node tag (c0 :: cs0)) p) = selected false m (mk (.node tag (c0 :: cs0)) p0) := by
  set τ : Spec := .node tag (c0 :: cs0) with hτ
  have hpre : ∀ v : ℕ → ℕ → ℝ, IsPrefix m (mk τ v) := fun v => by
    have h1 : IsPrefix m τ := hm
    rw [← spec_mk τ v] at h1
    exact (isPrefix_map _ m _).1 h1
  have hcon : ∀ v : ℕ → ℕ → ℝ, ∃ x xs, mk τ v = .node tag (x :: xs) := fun v => by
    have h := spec_mk τ v
    cases e : mk τ v with
    | leaf x => rw [e, hτ] at h; simp [spec, PyTree.map] at h
    | node t cs =>
      rw [e, hτ] at h
      simp only [spec, PyTree.map, PyTree.node.injEq] at h
      cases cs with
      | nil => simp [mapL] at h
      | cons c cs => exact ⟨c, cs, by rw [h.1]⟩
  have hpok : ∀ v : ℕ → ℕ → ℝ, ParamsOk m (some (mk τ v)) := fun v => by
    obtain ⟨x, xs, h⟩ := hcon v
    have := hpre v
    rw [h] at this ⊢
    exact this
  obtain ⟨I, h1, h2⟩ := hA (.node .list (selected true m τ))
  obtain ⟨v0, hv0⟩ := group_mk true m τ p0
  obtain ⟨sA, hsA, hI⟩ := h1 v0
  have hi1 : (masked A (fun _ => m)).init (mk τ p0) = .ok sA := by
    rw [C16_init A (fun _ => m) (mk τ p0) (hpre p0), hv0]; exact hsA
  have hi2 : (masked (scale (0 : ℝ)) (fun _ => notMask m)).init (mk τ p0) = .ok (⟨⟩ : EmptyState) := by
    rw [C16_init (scale (0 : ℝ)) (fun _ => notMask m) (mk τ p0) ((isPrefix_not m _).2 (hpre p0))]
  refine ⟨some (sA, some ((⟨⟩ : EmptyState), (0 : ℕ))), ?_, ?_⟩
  · show chainInit [masked A (fun _ => m), masked (scale (0 : ℝ)) (fun _ => notMask m)] (mk τ p0) = _
    rw [chainInit, hi1, Res.ok_bind, chainInit, hi2, Res.ok_bind]
    rfl
  suffices H : ∀ n, ∃ p sA', trainLoop (chain [masked A (fun _ => m), masked (scale (0 : ℝ)) (fun _ => notMask m)]) grad n
      (some (sA, some ((⟨⟩ : EmptyState), (0 : ℕ)))) (mk τ p0) = .ok (mk τ p, some (sA', some ((⟨⟩ : EmptyState), (0 : ℕ)))) ∧ I sA' ∧
      selected false m (mk τ p) = selected false m (mk τ p0) by
    intro n
    obtain ⟨p, sA', h3, _, h4⟩ := H n
    exact ⟨p, _, h3, h4⟩
  intro n
  induction n with
  | zero => exact ⟨p0, sA, rfl, hI, rfl⟩
  | succ n ih =>
    obtain ⟨p, sA', h3, hI', h4⟩ := ih
    obtain ⟨g, hgn⟩ := hg n p
    have hcall : ∀ b, groupCall b m (mk τ g, some (mk τ p)) = (.node .list (selected b m (mk τ g)), some (.node .list (selected b m (mk τ p)))) := fun b => by
      obtain ⟨x, xs, h⟩ := hcon p
      rw [h]; rfl
    obtain ⟨vg, hvg⟩ := group_mk true m τ g
    obtain ⟨vp, hvp⟩ := group_mk true m τ p
    obtain ⟨wg, hwg⟩ := group_mk false m τ g
    obtain ⟨wp, hwp⟩ := group_mk false m τ p
    obtain ⟨u, sA'', h5, h6⟩ := h2 vg sA' (some (mk (.node .list (selected true m τ)) vp)) hI' ⟨vp, rfl⟩
    obtain ⟨a, ha, hla⟩ := mk_node_list (selected true m τ) u
    obtain ⟨b, hb, hlb⟩ := mk_node_list (selected false m τ) (fun k i => 0 * wg k i)
    have hlen : ∀ c : Bool, (selected c m (mk τ g)).length = (selected c m τ).length := fun c => selected_length c m _ _ (hpre g) hm
    obtain ⟨w, k1, k2, k3, k4⟩ := groups_update A (scale (0 : ℝ)) m (mk τ g, some (mk τ p)) (hpre g) (hpok p) sA' sA'' ⟨⟩ ⟨⟩ a b
      (by rw [hcall true]; show A.update (.node .list (selected true m (mk τ g))) _ (some (.node .list (selected true m (mk τ p)))) = _; rw [hvg, hvp, ← ha]; exact h5)
      (by rw [hcall false]; show (scale (0 : ℝ)).update (.node .list (selected false m (mk τ g))) _ _ = _; rw [hwg, ← hb]; exact scale_update_mk _ wg _ 0 ⟨⟩)
      (hla.trans (hlen true).symm) (hlb.trans (hlen false).symm)
    -- the updates again have the structure of the params
    have hzA : ∃ x, zipML (Tensor.bop (fun p u : ℝ => p + u)) (selected true m (mk τ p)) (selected true m w) = .ok x := by
      have h7 := C06_apply_updates (.node .list (selected true m τ)) vp u
      rw [ha, ← hvp] at h7
      unfold applyUpdates tzip at h7
      obtain ⟨us, ws, h8, h9, h10, _⟩ := zipM_list _ _ _ _ h7
      cases h8
      exact ⟨ws, by rw [k3]; exact h10⟩
    have hzB : zipML (Tensor.bop (fun p u : ℝ => p + u)) (selected false m (mk τ p)) (selected false m w) = .ok (selected false m (mk τ p)) := by
      have h7 := C06_apply_updates (.node .list (selected false m τ)) wp (fun k i => 0 * wg k i)
      have h8 : mk (.node .list (selected false m τ)) (fun k i => wp k i + 0 * wg k i) = mk (.node .list (selected false m τ)) wp :=
        mk_congr fun k s _ i _ => by ring
      rw [h8, hb, ← hwp] at h7
      unfold applyUpdates tzip at h7
      obtain ⟨us, ws, h9, h10, h11, _⟩ := zipM_list _ _ _ _ h7
      cases h9
      cases h10
      rw [k4]; exact h11
    obtain ⟨q, hq⟩ := zipM_join (Tensor.bop (fun p u : ℝ => p + u)) m (mk τ p) w (hpre p) k2 hzA ⟨_, hzB⟩
    have hsel := (zipM_selected _ false m (mk τ p) w q (hpre p) k2 hq).2
    rw [hzB] at hsel
    obtain ⟨x, hx⟩ := join_mk m τ w hm k2 (fun b => if b then u else fun k i => 0 * wg k i) (fun b => by
      cases b
      · rw [k4]; exact hb.symm
      · rw [k3]; exact ha.symm)
    obtain ⟨q', hq'⟩ : ∃ q', q = mk τ q' := by
      have h7 := C06_apply_updates τ p x
      rw [← hx] at h7
      unfold applyUpdates tzip at h7
      rw [h7] at hq
      exact ⟨_, (Except.ok.inj hq).symm⟩
    refine ⟨q', sA'', ?_, h6, ?_⟩
    · rw [← hq']
      exact trainLoop_succ _ grad n _ _ _ _ _ _ _ h3 (by rw [hgn]; exact k1) hq
    · rw [← hq', ← h4]
      exact (Except.ok.inj hsel).symm

/-- the hypotheses of `C141_training` hold for the gradients of `½‖p‖²`, whatever the mask -/
example (A B : GT ℝ) (m : PyTree Bool) (p0 : Params ℝ) (hp0 : Container p0) (hm : IsPrefix m p0) (sA0 sA : A.State) (sB0 sB : B.State) (pA pB : Params ℝ) (n : ℕ)
    (hrA : trainLoop A (fun _ p => p) n sA0 (.node .list (selected true m p0)) = .ok (pA, sA))
    (hrB : trainLoop B (fun _ p => p) n sB0 (.node .list (selected false m p0)) = .ok (pB, sB)) :
    ∃ p s, trainLoop (chain [masked A (fun _ => m), masked B (fun _ => notMask m)]) (fun _ p => p) n (some (sA0, some (sB0, (0 : ℕ)))) p0 = .ok (p, s) ∧
      PyTree.node .list (selected true m p) = pA ∧ PyTree.node .list (selected false m p) = pB := by
  obtain ⟨p, h1, _, _, h2, h3⟩ := C141_training A B m (fun _ p => p) (fun _ p => p) (fun _ p => p) (fun _ _ h => h) (fun _ _ _ => rfl) (fun _ _ _ => rfl) p0 hp0 hm
    sA0 sA sB0 sB pA pB n hrA hrB
  exact ⟨p, _, h1, h2, h3⟩

/-- a network of two layers of which the first is frozen, trained with Adam on the gradients `p ↦ p + n` -/
example (lr : LR ℝ) (p0 : ℕ → ℕ → ℝ) :
    ∃ s0, (chain [masked (adam lr (9 / 10) (999 / 1000) (1 / 10 ^ 8) 0) (fun _ => .node .list [.leaf false, .leaf true]),
        masked (scale (0 : ℝ)) (fun _ => notMask (.node .list [.leaf false, .leaf true]))]).init (mk (.node .list [.node .tuple [.leaf [2, 3], .leaf [3]], .leaf [3]]) p0) = .ok s0 ∧
      ∀ n, ∃ p s, trainLoop (chain [masked (adam lr (9 / 10) (999 / 1000) (1 / 10 ^ 8) 0) (fun _ => .node .list [.leaf false, .leaf true]),
          masked (scale (0 : ℝ)) (fun _ => notMask (.node .list [.leaf false, .leaf true]))]) (fun n p => p.map (fun t => t.map (· + (n : ℝ)))) n s0
            (mk (.node .list [.node .tuple [.leaf [2, 3], .leaf [3]], .leaf [3]]) p0) = .ok (mk (.node .list [.node .tuple [.leaf [2, 3], .leaf [3]], .leaf [3]]) p, s) ∧
        selected false (.node .list [.leaf false, .leaf true]) (mk (.node .list [.node .tuple [.leaf [2, 3], .leaf [3]], .leaf [3]]) p) =
          selected false (.node .list [.leaf false, .leaf true]) (mk (.node .list [.node .tuple [.leaf [2, 3], .leaf [3]], .leaf [3]]) p0) :=
  C141_frozen _ (preserves_two _ _ (preserves_adam _ _ _ _).any (preserves_lr lr).any) (.node .list [.leaf false, .leaf true]) .list (.node .tuple [.leaf [2, 3], .leaf [3]]) [.leaf [3]]
    (by simp [IsPrefix, IsPrefixL]) _ (fun n p => ⟨_, tmap_mk _ _ _⟩) p0

end Optax
