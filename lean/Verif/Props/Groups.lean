import Verif.Props.Masked
import Verif.Props.Structure
import Verif.Props.Alias

/-!
# C141: parameter groups with different optimisers, by complementary masks

`chain(masked(A, m), masked(B, not m))` runs `A` on the selected and `B` on the other parameters, each as if it were alone, in either order.
-/

set_option linter.unusedSectionVars false
set_option linter.unusedSimpArgs false

namespace Optax
open PyTree

section
variable {α : Type} [Zero α] [One α] [Add α] [Sub α] [Mul α] [Div α] [Neg α] [JOps α]

/-- the complementary mask, `jax.tree_map(lambda b: not b, m)` -/
def notMask (m : PyTree Bool) : PyTree Bool := m.map (fun b => !b)

mutual
theorem isPrefix_not {β : Type} : ∀ (m : PyTree Bool) (t : PyTree β), IsPrefix (m.map (fun b => !b)) t ↔ IsPrefix m t
  | leaf _, _ => by simp [IsPrefix, PyTree.map]
  | node _ _, leaf _ => by simp [IsPrefix, PyTree.map]
  | node a ms, node b ts => by simp [IsPrefix, PyTree.map, isPrefixL_not ms ts]
theorem isPrefixL_not {β : Type} : ∀ (ms : List (PyTree Bool)) (ts : List (PyTree β)), IsPrefixL (mapL (fun b => !b) ms) ts ↔ IsPrefixL ms ts
  | [], [] => by simp [IsPrefixL, mapL]
  | [], _ :: _ => by simp [IsPrefixL, mapL]
  | _ :: _, [] => by simp [IsPrefixL, mapL]
  | m :: ms, t :: ts => by simp [IsPrefixL, mapL, isPrefix_not m t, isPrefixL_not ms ts]
end

mutual
theorem selected_not {β : Type} (b : Bool) : ∀ (m : PyTree Bool) (t : PyTree β), selected b (m.map (fun b => !b)) t = selected (!b) m t
  | leaf x, t => by cases x <;> cases b <;> simp [selected, PyTree.map]
  | node _ _, leaf _ => by simp [selected, PyTree.map]
  | node a ms, node c ts => by simp [selected, PyTree.map, selectedL_not b ms ts]
theorem selectedL_not {β : Type} (b : Bool) : ∀ (ms : List (PyTree Bool)) (ts : List (PyTree β)), selectedL b (mapL (fun b => !b) ms) ts = selectedL (!b) ms ts
  | [], _ => by simp [selectedL, mapL]
  | _ :: _, [] => by simp [selectedL, mapL]
  | m :: ms, t :: ts => by simp [selectedL, mapL, selected_not b m t, selectedL_not b ms ts]
end

mutual
theorem map_not_not : ∀ m : PyTree Bool, (m.map (fun b => !b)).map (fun b => !b) = m
  | leaf x => by simp [PyTree.map]
  | node a ms => by simp [PyTree.map, mapL_not_not ms]
theorem mapL_not_not : ∀ ms : List (PyTree Bool), mapL (fun b => !b) (mapL (fun b => !b) ms) = ms
  | [] => rfl
  | m :: ms => by simp [mapL, map_not_not m, mapL_not_not ms]
end

/-- what a group sees of a call: the list of its gradients and the list of its params -/
def groupCall (b : Bool) (m : PyTree Bool) (c : Call α) : Call α :=
  (.node .list (selected b m c.1), match c.2 with
    | none => none
    | some (.leaf _) => none
    | some (.node _ []) => none
    | some (.node t (x :: xs)) => some (.node .list (selected b m (.node t (x :: xs)))))

theorem paramsOk_not (m : PyTree Bool) (pp : Option (Params α)) (h : ParamsOk m pp) : ParamsOk (notMask m) pp := by
  match pp, h with
  | none, _ => trivial
  | some (.node t cs), h => exact (isPrefix_not m _).2 h

theorem groupCall_true (m : PyTree Bool) (c : Call α) (h : ParamsOk m c.2) : groupCall true m c = (.node .list (selected true m c.1), maskedParams m c.2) := by
  obtain ⟨g, pp⟩ := c
  match pp, h with
  | none, _ => rfl
  | some (.node t []), h => rfl
  | some (.node t (x :: xs)), h => rfl

theorem groupCall_false (m : PyTree Bool) (c : Call α) (h : ParamsOk m c.2) :
    groupCall false m c = (.node .list (selected true (notMask m) c.1), maskedParams (notMask m) c.2) := by
  obtain ⟨g, pp⟩ := c
  unfold notMask
  match pp, h with
  | none, _ => simp [groupCall, selected_not, maskedParams]
  | some (.node t []), h => simp [groupCall, selected_not, maskedParams]
  | some (.node t (x :: xs)), h => simp only [groupCall, maskedParams, selected_not, Bool.not_true]

/-- one call -/
theorem groups_update (A B : GT α) (m : PyTree Bool) (c : Call α) (hc : IsPrefix m c.1) (hp : ParamsOk m c.2) (sA sA' : A.State) (sB sB' : B.State)
    (a b : List (Params α)) (hA : A.update (groupCall true m c).1 sA (groupCall true m c).2 = .ok (.node .list a, sA'))
    (hB : B.update (groupCall false m c).1 sB (groupCall false m c).2 = .ok (.node .list b, sB'))
    (hla : a.length = (selected true m c.1).length) (hlb : b.length = (selected false m c.1).length) :
    ∃ u, (chain [masked A (fun _ => m), masked B (fun _ => notMask m)]).update c.1 (some (sA, some (sB, (0 : ℕ)))) c.2 = .ok (u, some (sA', some (sB', (0 : ℕ)))) ∧
      IsPrefix m u ∧ selected true m u = a ∧ selected false m u = b := by
  rw [groupCall_true m c hp] at hA
  rw [groupCall_false m c hp] at hB
  obtain ⟨v, h1, h2, h3, h4⟩ := C16_update A (fun _ => m) c.1 c.2 hc hp sA .list a sA' hA hla
  have e1 : selected true (notMask m) c.1 = selected true (notMask m) v := by
    unfold notMask; rw [selected_not, selected_not]; exact h4.symm
  have hpre : IsPrefix (notMask m) v := (isPrefix_not m v).2 h2
  have hlb' : b.length = (selected true (notMask m) v).length := by
    rw [hlb, ← e1]; unfold notMask; rw [selected_not]; rfl
  rw [e1] at hB
  obtain ⟨u, h5, h6, h7, h8⟩ := C16_update B (fun _ => notMask m) v c.2 hpre (paramsOk_not m c.2 hp) sB .list b sB' hB hlb'
  refine ⟨u, ?_, (isPrefix_not m u).1 h6, ?_, ?_⟩
  · show (if ChainState.length [masked A (fun _ => m), masked B (fun _ => notMask m)] (some (sA, some (sB, (0 : ℕ)))) ≠ 2 then valueError else
      chainLoop [masked A (fun _ => m), masked B (fun _ => notMask m)] c.1 (some (sA, some (sB, (0 : ℕ)))) c.2) = _
    rw [if_neg (by simp [ChainState.length])]
    rw [chainLoop]
    rw [h1, Res.ok_bind]
    rw [chainLoop]
    rw [h5, Res.ok_bind]
    rfl
  · have := h8
    unfold notMask at this
    rw [selected_not, selected_not] at this
    exact this.trans h3
  · unfold notMask at h7
    rw [selected_not] at h7
    exact h7

/-- **C141.** Mask a prefix of the gradients (and of the params, which are absent or a container).  If `A` run alone on the lists of selected gradients and params emits the lists `as`
and `B` run alone on the lists of the others emits `bs`, then the chain emits the trees with the `as` at the selected and the `bs` at the other positions, and its state is
the pair of the two final states. -/
theorem C141_groups (A B : GT α) (m : PyTree Bool) (h : List (Call α)) (hh : ∀ c ∈ h, IsPrefix m c.1 ∧ ParamsOk m c.2)
    (sA sA' : A.State) (sB sB' : B.State) (as bs : List (List (Params α)))
    (hA : A.run sA (h.map (groupCall true m)) = .ok (as.map (.node .list), sA')) (hB : B.run sB (h.map (groupCall false m)) = .ok (bs.map (.node .list), sB'))
    (hla : as.map List.length = h.map (fun c => (selected true m c.1).length)) (hlb : bs.map List.length = h.map (fun c => (selected false m c.1).length)) :
    ∃ us, (chain [masked A (fun _ => m), masked B (fun _ => notMask m)]).run (some (sA, some (sB, (0 : ℕ)))) h = .ok (us, some (sA', some (sB', (0 : ℕ)))) ∧
      (∀ u ∈ us, IsPrefix m u) ∧ us.map (selected true m) = as ∧ us.map (selected false m) = bs := by
  induction h generalizing sA sB as bs with
  | nil =>
    simp only [List.map_nil, List.map_eq_nil_iff] at hla hlb
    subst hla hlb
    rw [List.map_nil, GT.run_nil] at hA hB
    simp only [List.map_nil, Except.ok.injEq, Prod.mk.injEq, true_and] at hA hB
    subst hA hB
    exact ⟨[], rfl, by simp, rfl, rfl⟩
  | cons c h ih =>
    rw [List.map_cons, GT.run_cons, Res.bind_eq_ok] at hA hB
    obtain ⟨⟨a1, s1⟩, hA1, hA⟩ := hA
    obtain ⟨⟨b1, t1⟩, hB1, hB⟩ := hB
    rw [Res.bind_eq_ok] at hA hB
    obtain ⟨⟨a2, s2⟩, hA2, hA⟩ := hA
    obtain ⟨⟨b2, t2⟩, hB2, hB⟩ := hB
    simp only [Except.ok.injEq, Prod.mk.injEq] at hA hB
    obtain ⟨hA, rfl⟩ := hA
    obtain ⟨hB, rfl⟩ := hB
    cases as with
    | nil => simp at hA
    | cons a as =>
    cases bs with
    | nil => simp at hB
    | cons b bs =>
    simp only [List.map_cons, List.cons.injEq] at hA hB hla hlb
    obtain ⟨rfl, rfl⟩ := hA
    obtain ⟨rfl, rfl⟩ := hB
    have hc := hh c (by simp)
    obtain ⟨u, h1, h2, h3, h4⟩ := groups_update A B m c hc.1 hc.2 sA s1 sB t1 a b hA1 hB1 hla.1 hlb.1
    obtain ⟨us, h5, h6, h7, h8⟩ := ih (fun c hc => hh c (by simp [hc])) s1 t1 as bs hA2 hB2 hla.2 hlb.2
    refine ⟨u :: us, ?_, ?_, ?_, ?_⟩
    · refine (GT.run_cons_ok _ _ _ _ h1).trans ?_
      rw [h5]
      rfl
    · intro x hx
      rcases List.mem_cons.1 hx with rfl | hx
      · exact h2
      · exact h6 x hx
    · rw [List.map_cons, h3, h7]
    · rw [List.map_cons, h4, h8]

/-- **C141 (order).** The other order of the two stages gives the same updates. -/
theorem C141_order (A B : GT α) (m : PyTree Bool) (h : List (Call α)) (hh : ∀ c ∈ h, IsPrefix m c.1 ∧ ParamsOk m c.2)
    (sA sA' : A.State) (sB sB' : B.State) (as bs : List (List (Params α)))
    (hA : A.run sA (h.map (groupCall true m)) = .ok (as.map (.node .list), sA')) (hB : B.run sB (h.map (groupCall false m)) = .ok (bs.map (.node .list), sB'))
    (hla : as.map List.length = h.map (fun c => (selected true m c.1).length)) (hlb : bs.map List.length = h.map (fun c => (selected false m c.1).length)) :
    ∃ us, (chain [masked A (fun _ => m), masked B (fun _ => notMask m)]).run (some (sA, some (sB, (0 : ℕ)))) h = .ok (us, some (sA', some (sB', (0 : ℕ)))) ∧
      (chain [masked B (fun _ => notMask m), masked A (fun _ => m)]).run (some (sB, some (sA, (0 : ℕ)))) h = .ok (us, some (sB', some (sA', (0 : ℕ)))) := by
  obtain ⟨us, h1, h2, h3, h4⟩ := C141_groups A B m h hh sA sA' sB sB' as bs hA hB hla hlb
  have e : ∀ b, ∀ c ∈ h, groupCall b (notMask m) c = groupCall (!b) m c := by
    intro b c _
    obtain ⟨g, pp⟩ := c
    unfold groupCall notMask
    match pp with
    | none => simp [selected_not]
    | some (.leaf _) => simp [selected_not]
    | some (.node t []) => simp [selected_not]
    | some (.node t (x :: xs)) => simp only [selected_not]
  obtain ⟨vs, k1, k2, k3, k4⟩ := C141_groups B A (notMask m) h (fun c hc => ⟨(isPrefix_not m _).2 (hh c hc).1, paramsOk_not m _ (hh c hc).2⟩) sB sB' sA sA' bs as
    (by rw [List.map_congr_left (e true)]; exact hB) (by rw [List.map_congr_left (e false)]; exact hA)
    (by rw [hlb]; unfold notMask; simp [selected_not]) (by rw [hla]; unfold notMask; simp [selected_not])
  have e2 : notMask (notMask m) = m := map_not_not m
  rw [e2] at k1
  refine ⟨us, h1, ?_⟩
  have e3 : vs = us := by
    have p1 : vs.map (selected true m) = us.map (selected true m) := by
      rw [h3, ← k4]; unfold notMask; simp [selected_not]
    have p2 : vs.map (selected false m) = us.map (selected false m) := by
      rw [h4, ← k3]; unfold notMask; simp [selected_not]
    have k2' : ∀ u ∈ vs, IsPrefix m u := fun u hu => (isPrefix_not m u).1 (k2 u hu)
    clear h1 k1 h3 h4 k3 k4 k2
    induction vs generalizing us with
    | nil => cases us with
      | nil => rfl
      | cons u us => simp at p1
    | cons v vs ih => cases us with
      | nil => simp at p1
      | cons u us =>
        simp only [List.map_cons, List.cons.injEq] at p1 p2
        rw [prefix_ext m v u (k2' v (by simp)) (h2 u (by simp)) p1.1 p2.1, ih us (fun x hx => h2 x (by simp [hx])) p1.2 p2.2 (fun x hx => k2' x (by simp [hx]))]
  rw [← e3]
  exact k1

mutual
theorem leaves_selected {β : Type} (b : Bool) : ∀ (m : PyTree Bool) (t : PyTree β), ∀ x ∈ leavesL (selected b m t), x ∈ t.leaves
  | leaf y, t => by
    intro x hx
    simp only [selected] at hx
    split at hx
    · simpa [leavesL] using hx
    · simp [leavesL] at hx
  | node _ _, leaf _ => by simp [selected, leavesL]
  | node a ms, node c ts => by
    intro x hx
    simp only [selected] at hx
    simp only [leaves]
    exact leavesL_selected b ms ts x hx
theorem leavesL_selected {β : Type} (b : Bool) : ∀ (ms : List (PyTree Bool)) (ts : List (PyTree β)), ∀ x ∈ leavesL (selectedL b ms ts), x ∈ leavesL ts
  | [], _ => by simp [selectedL, leavesL]
  | _ :: _, [] => by simp [selectedL, leavesL]
  | m :: ms, t :: ts => by
    intro x hx
    have happ : ∀ l l' : List (PyTree β), leavesL (l ++ l') = leavesL l ++ leavesL l' := by
      intro l l'
      induction l with
      | nil => rfl
      | cons a l ih => simp [leavesL, ih]
    simp only [selectedL, happ, List.mem_append] at hx
    simp only [leavesL, List.mem_append]
    rcases hx with hx | hx
    · exact Or.inl (leaves_selected b m t x hx)
    · exact Or.inr (leavesL_selected b ms ts x hx)
end

theorem group_mk (b : Bool) (m : PyTree Bool) (τ : Spec) (g : ℕ → ℕ → α) :
    ∃ v, PyTree.node .list (selected b m (mk τ g)) = mk (.node .list (selected b m τ)) v := by
  have hwf : WF (PyTree.node .list (selected b m (mk τ g))) := fun x hx => WF_mk τ g x (leaves_selected b m _ x hx)
  have hsp : spec (PyTree.node .list (selected b m (mk τ g))) = .node .list (selected b m τ) := by
    have mapL_eq : ∀ {β γ : Type} (f : β → γ) (l : List (PyTree β)), mapL f l = l.map (PyTree.map f) := by
      intro β γ f l
      induction l with
      | nil => rfl
      | cons a l ih => simp [mapL, ih]
    have := spec_mk τ g
    unfold spec at this ⊢
    simp only [PyTree.map, mapL_eq]
    rw [← selected_map, this]
  refine ⟨coord (PyTree.node .list (selected b m (mk τ g))), ?_⟩
  rw [← hsp]
  exact eq_mk_of_WF _ hwf

theorem mk_node_list (l : List Spec) (v : ℕ → ℕ → α) : ∃ cs : List (Params α), mk (.node .list l) v = .node .list cs ∧ cs.length = l.length := by
  have h := spec_mk (.node .list l) v
  cases e : mk (.node .list l) v with
  | leaf x => rw [e] at h; simp [spec, PyTree.map] at h
  | node t cs =>
    rw [e] at h
    simp only [spec, PyTree.map, PyTree.node.injEq] at h
    obtain ⟨rfl, h⟩ := h
    refine ⟨cs, rfl, ?_⟩
    have mapL_len : ∀ {β γ : Type} (f : β → γ) (l : List (PyTree β)), (mapL f l).length = l.length := by
      intro β γ f l
      induction l with
      | nil => rfl
      | cons a l ih => simp [mapL, ih]
    rw [← h, mapL_len]

/-- a structure-keeping transformation runs on the lists of a group -/
theorem group_runs (A : GT α) (hA : Preserves WithParams A) (b : Bool) (m : PyTree Bool) (tag : Tag) (c0 : Spec) (cs0 : List Spec) (N : ℕ) (p0 : ℕ → ℕ → α)
    (g p : ℕ → ℕ → ℕ → α) :
    ∃ s0 s', ∃ as : List (List (Params α)), A.init (.node .list (selected b m (mk (.node tag (c0 :: cs0)) p0))) = .ok s0 ∧
      A.run s0 ((hist (.node tag (c0 :: cs0)) g (fun n => some (mk (.node tag (c0 :: cs0)) (p n))) N).map (groupCall b m)) = .ok (as.map (PyTree.node .list), s') ∧
      as.map List.length = (hist (.node tag (c0 :: cs0)) g (fun n => some (mk (.node tag (c0 :: cs0)) (p n))) N).map (fun c => (selected b m c.1).length) := by
  set τ : Spec := .node tag (c0 :: cs0) with hτ
  obtain ⟨I, h1, h2⟩ := hA (.node .list (selected b m τ))
  obtain ⟨v0, hv0⟩ := group_mk b m τ p0
  obtain ⟨s0, hs0, hI⟩ := h1 v0
  suffices H : ∀ (l : List (Call α)), (∀ c ∈ l, ∃ g p, c = (mk τ g, some (mk τ p))) → ∀ s, I s →
      ∃ s', ∃ as : List (List (Params α)), A.run s (l.map (groupCall b m)) = .ok (as.map (PyTree.node .list), s') ∧ as.map List.length = l.map (fun c => (selected b m c.1).length) by
    obtain ⟨s', as, h3, h4⟩ := H (hist τ g (fun n => some (mk τ (p n))) N) (fun c hc => by
      simp only [hist, List.mem_map] at hc
      obtain ⟨n, _, rfl⟩ := hc
      exact ⟨_, _, rfl⟩) s0 hI
    exact ⟨s0, s', as, by rw [hv0]; exact hs0, h3, h4⟩
  intro l
  induction l with
  | nil => intro _ s _; exact ⟨s, [], rfl, rfl⟩
  | cons c l ih =>
    intro hl s hs
    obtain ⟨g, p, rfl⟩ := hl c (by simp)
    obtain ⟨v, hv⟩ := group_mk b m τ g
    obtain ⟨w, hw⟩ := group_mk b m τ p
    have hc : groupCall b m (mk τ g, some (mk τ p)) = (mk (.node .list (selected b m τ)) v, some (mk (.node .list (selected b m τ)) w)) := by
      rw [← hv, ← hw]
      rfl
    obtain ⟨u, s1, h3, h4⟩ := h2 v s (some (mk (.node .list (selected b m τ)) w)) hs ⟨w, rfl⟩
    obtain ⟨a, ha, hla⟩ := mk_node_list (selected b m τ) u
    obtain ⟨s', as, h5, h6⟩ := ih (fun c hc => hl c (by simp [hc])) s1 h4
    refine ⟨s', a :: as, ?_, ?_⟩
    · rw [List.map_cons, hc]
      refine (GT.run_cons_ok _ _ _ _ (h3.trans (by rw [ha]))).trans ?_
      rw [h5]
      rfl
    · rw [List.map_cons, List.map_cons, h6, hla]
      congr 1
      obtain ⟨a', ha', hla'⟩ := mk_node_list (selected b m τ) v
      rw [ha', PyTree.node.injEq] at hv
      rw [hv.2]
      exact hla'.symm

/-- **C141 (it always works).** For all structure-keeping `A` and `B`, every container of parameters, every mask that is a prefix of it and every history, the chain never raises, and
its updates are those of `A` run alone on the selected and of `B` run alone on the other parameters. -/
theorem C141_works (A B : GT α) (hA : Preserves WithParams A) (hB : Preserves WithParams B) (m : PyTree Bool) (tag : Tag) (c0 : Spec) (cs0 : List Spec)
    (hm : IsPrefix m (PyTree.node tag (c0 :: cs0))) (N : ℕ) (p0 : ℕ → ℕ → α) (g p : ℕ → ℕ → ℕ → α) :
    ∃ us as bs : List (Params α),
      (chain [masked A (fun _ => m), masked B (fun _ => notMask m)]).outs (mk (.node tag (c0 :: cs0)) p0)
        (hist (.node tag (c0 :: cs0)) g (fun n => some (mk (.node tag (c0 :: cs0)) (p n))) N) = .ok us ∧
      A.outs (.node .list (selected true m (mk (.node tag (c0 :: cs0)) p0)))
        ((hist (.node tag (c0 :: cs0)) g (fun n => some (mk (.node tag (c0 :: cs0)) (p n))) N).map (groupCall true m)) = .ok as ∧
      B.outs (.node .list (selected false m (mk (.node tag (c0 :: cs0)) p0)))
        ((hist (.node tag (c0 :: cs0)) g (fun n => some (mk (.node tag (c0 :: cs0)) (p n))) N).map (groupCall false m)) = .ok bs ∧
      (∀ u ∈ us, IsPrefix m u) ∧ us.map (fun u => PyTree.node .list (selected true m u)) = as ∧ us.map (fun u => PyTree.node .list (selected false m u)) = bs := by
  set τ : Spec := .node tag (c0 :: cs0) with hτ
  have hpre : ∀ v : ℕ → ℕ → α, IsPrefix m (mk τ v) := fun v => by
    have := spec_mk τ v
    rw [← this] at hm
    exact (isPrefix_map _ _ _).1 hm
  obtain ⟨a0, a', as, h1, h2, h3⟩ := group_runs A hA true m tag c0 cs0 N p0 g p
  obtain ⟨b0, b', bs, k1, k2, k3⟩ := group_runs B hB false m tag c0 cs0 N p0 g p
  rw [← hτ] at h1 h2 h3 k1 k2 k3
  have hh : ∀ c ∈ hist τ g (fun n => some (mk τ (p n))) N, IsPrefix m c.1 ∧ ParamsOk m c.2 := by
    intro c hc
    simp only [hist, List.mem_map] at hc
    obtain ⟨n, _, rfl⟩ := hc
    exact ⟨hpre _, hpre (p n)⟩
  obtain ⟨us, e1, e2, e3, e4⟩ := C141_groups A B m _ hh a0 a' b0 b' as bs h2 k2 h3 k3
  refine ⟨us, as.map (PyTree.node .list), bs.map (PyTree.node .list), ?_, ?_, ?_, e2, ?_, ?_⟩
  · have hi : (chain [masked A (fun _ => m), masked B (fun _ => notMask m)]).init (mk τ p0) = .ok (some (a0, some (b0, (0 : ℕ)))) := by
      have i1 : (masked A (fun _ => m)).init (mk τ p0) = .ok a0 := (C16_init A (fun _ => m) (mk τ p0) (hpre p0)).trans h1
      have i2 : (masked B (fun _ => notMask m)).init (mk τ p0) = .ok b0 := by
        refine (C16_init B (fun _ => notMask m) (mk τ p0) ((isPrefix_not m _).2 (hpre p0))).trans ?_
        unfold notMask
        rw [selected_not]
        exact k1
      show chainInit [masked A (fun _ => m), masked B (fun _ => notMask m)] (mk τ p0) = _
      rw [chainInit, i1, Res.ok_bind, chainInit, i2]
      rfl
    unfold GT.outs GT.exec
    rw [hi, Res.ok_bind, e1]
    rfl
  · unfold GT.outs GT.exec
    rw [h1, Res.ok_bind, h2]
    rfl
  · unfold GT.outs GT.exec
    rw [k1, Res.ok_bind, k2]
    rfl
  · rw [← e3, List.map_map]; rfl
  · rw [← e4, List.map_map]; rfl

/-- Non-vacuity: `sgd` with momentum on the first bias and `adam` on the rest of a two-layer network given as a list of tuples (the mask being a proper prefix). -/
example (lr : LR ℝ) (N : ℕ) (p0 : ℕ → ℕ → ℝ) (g p : ℕ → ℕ → ℕ → ℝ) :
    ∃ us, (chain [masked (adam lr (9 / 10) (999 / 1000) (1 / 10 ^ 8) 0) (fun _ => .node .list [.node .tuple [.leaf true, .leaf false], .leaf true]),
      masked (sgd lr (some (9 / 10)) false) (fun _ => notMask (.node .list [.node .tuple [.leaf true, .leaf false], .leaf true]))]).outs
        (mk (.node .list [.node .tuple [.leaf [2, 3], .leaf [3]], .node .tuple [.leaf [3, 1], .leaf [1]]]) p0)
        (hist (.node .list [.node .tuple [.leaf [2, 3], .leaf [3]], .node .tuple [.leaf [3, 1], .leaf [1]]]) g
          (fun n => some (mk (.node .list [.node .tuple [.leaf [2, 3], .leaf [3]], .node .tuple [.leaf [3, 1], .leaf [1]]]) (p n))) N) = .ok us := by
  obtain ⟨us, _, _, h, _⟩ := C141_works (adam lr (9 / 10) (999 / 1000) (1 / 10 ^ 8) 0) (sgd lr (some (9 / 10)) false)
    (preserves_two _ _ (preserves_adam _ _ _ _).any (preserves_lr lr).any) (preserves_two _ _ (preserves_momentum _ _).any (preserves_lr lr).any)
    (.node .list [.node .tuple [.leaf true, .leaf false], .leaf true]) .list (.node .tuple [.leaf [2, 3], .leaf [3]]) [.node .tuple [.leaf [3, 1], .leaf [1]]] (by simp [IsPrefix, IsPrefixL]) N p0 g p
  exact ⟨us, h⟩
end
end Optax
