import Verif.Model.Examples
import Mathlib.Data.Fintype.Card
import Mathlib.Data.Finset.Card

/-!
# C99: `find_internal_python_modules` finds exactly the public modules reachable from the root
-/

namespace Optax.Examples

variable {M : Type} [DecidableEq M]

/-- Specification: `m` is the root, or an attribute of a reachable module, and public. -/
inductive Reach (G : Modules M) (root : M) : M → Prop
  | root : Reach G root root
  | attr {m o : M} : Reach G root m → o ∈ G.attrs m → G.isPublic o = true → Reach G root o

theorem scanAttrs_eq (G : Modules M) (visited : Finset M) : ∀ (obj toVisit : List M) (found : Finset M),
    scanAttrs G visited obj toVisit found =
      ((obj.filter fun o => decide (o ∉ visited ∧ G.isPublic o = true)).reverse ++ toVisit,
        (obj.filter fun o => decide (o ∉ visited ∧ G.isPublic o = true)).toFinset ∪ found)
  | [], toVisit, found => by simp [scanAttrs]
  | o :: obj, toVisit, found => by
    have ih := scanAttrs_eq G visited obj
    unfold scanAttrs at ih ⊢
    rw [List.foldl_cons, List.filter_cons]
    by_cases h : o ∉ visited ∧ G.isPublic o = true
    · rw [if_pos h, ih, if_pos (by simpa using h)]
      simp
    · rw [if_neg h, ih, if_neg (by simpa using h)]

/-- what holds between two rounds of the loop -/
structure Inv (G : Modules M) (root : M) (toVisit : List M) (visited found : Finset M) : Prop where
  sound : ∀ m ∈ found, Reach G root m
  root : root ∈ found
  todo : ∀ m ∈ toVisit, m ∈ found
  seen : ∀ m ∈ visited, m ∈ found
  cover : ∀ m ∈ found, m ∈ visited ∨ m ∈ toVisit
  closed : ∀ m ∈ visited, ∀ o ∈ G.attrs m, G.isPublic o = true → o ∈ found

theorem Inv.step {G : Modules M} {root m : M} {toVisit : List M} {visited found : Finset M} (h : Inv G root (m :: toVisit) visited found) :
    Inv G root (scanAttrs G (insert m visited) (G.attrs m) toVisit found).1 (insert m visited)
      (scanAttrs G (insert m visited) (G.attrs m) toVisit found).2 := by
  rw [scanAttrs_eq]
  have hm : m ∈ found := h.todo m (by simp)
  refine ⟨?_, ?_, ?_, ?_, ?_, ?_⟩
  · intro o ho
    rcases Finset.mem_union.mp ho with ho | ho
    · have := List.mem_filter.mp (List.mem_toFinset.mp ho)
      simp only [decide_eq_true_eq] at this
      exact .attr (h.sound m hm) this.1 this.2.2
    · exact h.sound o ho
  · exact Finset.mem_union_right _ h.root
  · intro o ho
    rcases List.mem_append.mp ho with ho | ho
    · exact Finset.mem_union_left _ (List.mem_toFinset.mpr (List.mem_reverse.mp ho))
    · exact Finset.mem_union_right _ (h.todo o (by simp [ho]))
  · intro o ho
    rcases Finset.mem_insert.mp ho with rfl | ho
    · exact Finset.mem_union_right _ hm
    · exact Finset.mem_union_right _ (h.seen o ho)
  · intro o ho
    rcases Finset.mem_union.mp ho with ho | ho
    · exact Or.inr (List.mem_append_left _ (List.mem_reverse.mpr (List.mem_toFinset.mp ho)))
    · rcases h.cover o ho with ho | ho
      · exact Or.inl (Finset.mem_insert_of_mem ho)
      · rcases List.mem_cons.mp ho with rfl | ho
        · exact Or.inl (Finset.mem_insert_self _ _)
        · exact Or.inr (List.mem_append_right _ ho)
  · intro x hx o ho hp
    rcases Finset.mem_insert.mp hx with rfl | hx
    · by_cases hv : o ∈ insert x visited
      · rcases Finset.mem_insert.mp hv with rfl | hv
        · exact Finset.mem_union_right _ hm
        · exact Finset.mem_union_right _ (h.seen o hv)
      · exact Finset.mem_union_left _ (List.mem_toFinset.mpr (List.mem_filter.mpr ⟨ho, by simp only [decide_eq_true_eq]; exact ⟨hv, hp⟩⟩))
    · exact Finset.mem_union_right _ (h.closed x hx o ho hp)

theorem findLoop_spec (G : Modules M) (root : M) : ∀ (fuel : ℕ) (toVisit : List M) (visited found F : Finset M),
    Inv G root toVisit visited found → findLoop G fuel toVisit visited found = some F → ∀ m, m ∈ F ↔ Reach G root m
  | fuel, [], visited, found, F, h, hF, m => by
    have : found = F := by cases fuel <;> simpa [findLoop] using hF
    subst this
    refine ⟨h.sound m, fun hm => ?_⟩
    induction hm with
    | root => exact h.root
    | attr _ ho hp ih =>
      rcases h.cover _ ih with hv | hv
      · exact h.closed _ hv _ ho hp
      · simp at hv
  | 0, _ :: _, _, _, _, _, hF, _ => by simp [findLoop] at hF
  | fuel + 1, x :: toVisit, visited, found, F, h, hF, m =>
    findLoop_spec G root fuel _ _ _ F h.step (by simpa only [findLoop] using hF) m

/-- the loop ends: a round visits a new module, or removes an already visited one from the stack and pushes only unvisited ones -/
theorem findLoop_ends [Fintype M] (G : Modules M) : ∀ (u v : ℕ) (toVisit : List M) (visited found : Finset M),
    (Finset.univ \ visited).card = u → (toVisit.filter fun m => decide (m ∈ visited)).length = v →
    ∃ fuel, ∀ fuel' ≥ fuel, (findLoop G fuel' toVisit visited found).isSome := by
  intro u
  induction u using Nat.strong_induction_on with
  | _ u ihu =>
    intro v
    induction v using Nat.strong_induction_on with
    | _ v ihv =>
      intro toVisit visited found hu hv
      match toVisit, hv with
      | [], _ => exact ⟨0, fun fuel' _ => by cases fuel' <;> simp [findLoop]⟩
      | x :: toVisit, hv =>
        have key : ∃ fuel, ∀ fuel' ≥ fuel, (findLoop G fuel' (scanAttrs G (insert x visited) (G.attrs x) toVisit found).1 (insert x visited)
            (scanAttrs G (insert x visited) (G.attrs x) toVisit found).2).isSome := by
          by_cases hx : x ∈ visited
          · have hins : insert x visited = visited := Finset.insert_eq_of_mem hx
            rw [hins]
            refine ihv _ ?_ _ _ _ hu rfl
            rw [scanAttrs_eq, List.filter_append, List.length_append]
            have h0 : ((List.filter (fun o => decide (o ∉ visited ∧ G.isPublic o = true)) (G.attrs x)).reverse.filter fun m => decide (m ∈ visited)) = [] := by
              rw [List.filter_eq_nil_iff]
              intro o ho
              have := (List.mem_filter.mp (List.mem_reverse.mp ho)).2
              simp only [decide_eq_true_eq] at this ⊢
              exact this.1
            rw [h0, ← hv, List.filter_cons, if_pos (by simpa using hx)]
            simp
          · refine ihu ((Finset.univ \ insert x visited).card) ?_ _ _ _ _ rfl rfl
            rw [← hu]
            apply Finset.card_lt_card
            rw [Finset.ssubset_iff_of_subset (Finset.sdiff_subset_sdiff (Finset.Subset.refl _) (Finset.subset_insert _ _))]
            exact ⟨x, by simp [hx], by simp⟩
        obtain ⟨fuel, hf⟩ := key
        refine ⟨fuel + 1, fun fuel' hf' => ?_⟩
        obtain ⟨c, rfl⟩ : ∃ c, fuel' = c + 1 := ⟨fuel' - 1, by omega⟩
        simpa only [findLoop] using hf c (by omega)

/-- **C99.** With finitely many modules, whose attributes may form cycles, `find_internal_python_modules` terminates (with enough rounds the loop
has ended), and what it returns are the root and exactly the public modules reachable from it through public modules. -/
theorem C99_find_modules [Fintype M] (G : Modules M) (root : M) :
    (∃ fuel, ∀ fuel' ≥ fuel, (findModules G fuel' root).isSome) ∧
    ∀ fuel F, findModules G fuel root = some F → ∀ m, m ∈ F ↔ Reach G root m := by
  refine ⟨findLoop_ends G _ _ [root] ∅ {root} rfl rfl, fun fuel F h => findLoop_spec G root fuel [root] ∅ {root} F ⟨?_, ?_, ?_, ?_, ?_, ?_⟩ h⟩
  · intro m hm; rw [Finset.mem_singleton.mp hm]; exact .root
  · simp
  · intro m hm; simpa using hm
  · simp
  · intro m hm; right; simpa using hm
  · simp

/-- a package with a cycle, a private and a foreign module: `0 → 1, 2`, `1 → 0, 3`, `2 → 4`, where 2 is private -/
example : ∃ G : Modules (Fin 5), findModules G 10 0 = some {0, 1, 3} ∧ ¬ Reach G 0 4 := by
  refine ⟨⟨fun m => if m = 0 then [1, 2] else if m = 1 then [0, 3] else if m = 2 then [4] else [], fun m => decide (m ≠ 2)⟩, by decide, ?_⟩
  intro h
  have := ((C99_find_modules _ _).2 10 {0, 1, 3} (by decide) 4).mpr h
  simp at this

end Optax.Examples
