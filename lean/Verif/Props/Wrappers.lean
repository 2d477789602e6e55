import Verif.Model.Wrappers
import Verif.Spec.SubHistory
import Verif.Props.Structure

/-!
# C14 (`apply_if_finite`), C17 (`maybe_update`)
-/

set_option linter.unusedSectionVars false
set_option linter.unusedSimpArgs false

namespace Optax
section
variable {α : Type} [Zero α] [One α] [Add α] [Sub α] [Mul α] [Div α] [Neg α] [JOps α]

theorem condUpd_ok {S : Type} {c : Bool} {a b : Res (Params α × S)} {r : Params α × S}
    (h : condUpd c a b = .ok r) : ∃ x y, a = .ok x ∧ b = .ok y ∧ spec x.1 = spec y.1 ∧
      r = if c then x else y := by
  unfold condUpd at h
  rw [Res.bind_eq_ok] at h
  obtain ⟨x, hx, h⟩ := h
  rw [Res.bind_eq_ok] at h
  obtain ⟨y, hy, h⟩ := h
  by_cases hs : spec x.1 = spec y.1
  · rw [if_pos hs] at h
    refine ⟨x, y, hx, hy, hs, ?_⟩
    simpa using h.symm
  · rw [if_neg hs] at h
    cases h

theorem condUpd_mk {S : Type} (c : Bool) (σ : Spec) (a b : ℕ → ℕ → α) (s t : S) :
    condUpd c (.ok (mk σ a, s)) (.ok (mk σ b, t)) =
      .ok (if c then (mk σ a, s) else (mk σ b, t)) := by
  simp [condUpd]

/-! ## C14 -/

/-- every entry of every leaf is finite (neither NaN nor infinite) -/
def FiniteTree (g : Params α) : Prop := ∀ x ∈ g.leaves, ∀ a ∈ x.data, JOps.isfinite a = true

theorem allFinite_iff (g : Params α) : allFinite g = true ↔ FiniteTree g := by
  simp [allFinite, FiniteTree, List.all_eq_true]

open Classical in
/-- the finite/non-finite flags of a history -/
noncomputable def finiteFlags (h : List (Call α)) : List Bool := h.map (fun c => decide (FiniteTree c.1))

/-- Specification of which gradients of a history are accepted: the finite ones, and the non-finite ones
that are at least the `(m+1)`-st of a consecutive run of non-finite ones. -/
def acceptFlags (m : ℤ) (fl : List Bool) : List Bool :=
  (List.range fl.length).map (fun i => fl.getD i true || decide (m < streak (fl.take (i + 1))))

theorem acceptFlags_snoc (m : ℤ) (fl : List Bool) (b : Bool) :
    acceptFlags m (fl ++ [b]) = acceptFlags m fl ++ [b || decide (m < streak (fl ++ [b]))] := by
  unfold acceptFlags
  rw [List.length_append, List.length_singleton, List.range_succ, List.map_append]
  congr 1
  · apply List.map_congr_left
    intro i hi
    rw [List.mem_range] at hi
    rw [List.take_append_of_le_length (by omega)]
    simp [List.getElem?_append_left hi]
  · simp [List.take_of_length_le]

@[simp] theorem acceptFlags_length (m : ℤ) (fl : List Bool) : (acceptFlags m fl).length = fl.length := by
  simp [acceptFlags]

theorem bv_succ_toNat (c : BitVec 32) (h : c.toNat + 1 < 2 ^ 32) : (1#32 + c).toNat = c.toNat + 1 := by
  rw [BitVec.toNat_add]
  simp only [BitVec.toNat_ofNat]
  omega

theorem bv_toInt_small (c : BitVec 32) (h : c.toNat < 2 ^ 31) : c.toInt = c.toNat := by
  rw [BitVec.toInt_eq_toNat_cond, if_pos (by omega)]

/-- **C14.** Whenever a history of fewer than `2^31` calls runs through: the inner transformation, run alone on exactly
the accepted calls, ends in the inner state held by the wrapper; accepted calls return the inner
updates and rejected calls return zeros; the counters are the length of the current non-finite run, the
total number of non-finite gradients and the status of the last gradient. -/
theorem C14_apply_if_finite (inner : GT α) (m : ℤ) (p : Params α) (h : List (Call α))
    (hlen : h.length < 2 ^ 31) (us : List (Params α)) (s : (applyIfFinite inner m).State)
    (hrun : (applyIfFinite inner m).exec p h = .ok (us, s)) :
    inner.exec p (keep (acceptFlags m (finiteFlags h)) h) =
        .ok (keep (acceptFlags m (finiteFlags h)) us, s.innerState) ∧
      us.length = h.length ∧
      (∀ i : ℕ, (acceptFlags m (finiteFlags h))[i]? = some false →
        us[i]? = (h[i]?).map (fun c : Call α => zerosLike c.1)) ∧
      s.notfiniteCount.toNat = streak (finiteFlags h) ∧
      s.totalNotfinite.toNat = (finiteFlags h).count false ∧
      s.lastFinite = (finiteFlags h).getLastD true := by
  unfold GT.exec at hrun
  obtain ⟨s0, hs0, hrun'⟩ := Res.bind_eq_ok.mp hrun
  clear hrun
  rename' hrun' => hrun
  have hs0' : (inner.init p >>= fun s => Except.ok (⟨0#32, true, 0#32, s⟩ :
      ApplyIfFiniteState inner.State)) = .ok s0 := hs0
  rw [Res.bind_eq_ok] at hs0'
  obtain ⟨i0, hi0, hs0'⟩ := hs0'
  cases hs0'
  unfold GT.exec
  rw [hi0, Res.ok_bind]
  induction h using List.reverseRecOn generalizing us s with
  | nil =>
    rw [GT.run_nil] at hrun
    cases hrun
    simp [finiteFlags, acceptFlags]
  | append_singleton h c ih =>
    rw [GT.run_append, Res.bind_eq_ok] at hrun
    obtain ⟨⟨us1, s1⟩, hr1, hrun⟩ := hrun
    rw [Res.bind_eq_ok] at hrun
    obtain ⟨⟨us2, s2⟩, hr2, hrun⟩ := hrun
    cases hrun
    simp only [List.length_append, List.length_singleton] at hlen
    obtain ⟨ih1, ih2, ih3, ih4, ih5, ih6⟩ := ih (by omega) us1 s1 hr1
    rw [GT.run_cons, Res.bind_eq_ok] at hr2
    obtain ⟨⟨u, s3⟩, hu, hr2⟩ := hr2
    rw [GT.run_nil] at hr2
    cases hr2
    -- one call
    have hu' : (condUpd (allFinite c.1 || decide (m < (if allFinite c.1 then 0#32 else
        1#32 + s1.notfiniteCount).toInt)) (inner.update c.1 s1.innerState c.2)
        (.ok (zerosLike c.1, s1.innerState)) >>= fun r => Except.ok (r.1,
          (⟨if allFinite c.1 then 0#32 else 1#32 + s1.notfiniteCount, allFinite c.1,
            (if allFinite c.1 then 0#32 else 1#32) + s1.totalNotfinite, r.2⟩ :
            ApplyIfFiniteState inner.State))) = .ok (u, _) := hu
    rw [Res.bind_eq_ok] at hu'
    obtain ⟨r, hr, hu'⟩ := hu'
    cases hu'
    obtain ⟨x, y, hx, hy, -, hrxy⟩ := condUpd_ok hr
    cases hy
    have hfl : finiteFlags (h ++ [c]) = finiteFlags h ++ [allFinite c.1] := by
      simp only [finiteFlags, List.map_append, List.map_cons, List.map_nil]
      congr 2
      rw [Bool.eq_iff_iff, allFinite_iff]; simp
    have hfll : (finiteFlags h).length = h.length := by simp [finiteFlags]
    have hsl := streak_le (finiteFlags h)
    have hnf : (if allFinite c.1 then 0#32 else 1#32 + s1.notfiniteCount).toNat =
        streak (finiteFlags h ++ [allFinite c.1]) := by
      rw [streak_snoc]
      cases allFinite c.1
      · simp only [Bool.false_eq_true, if_false]
        rw [bv_succ_toNat _ (by rw [ih4]; omega), ih4]
      · simp
    have hsl2 := streak_le (finiteFlags h ++ [allFinite c.1])
    simp only [List.length_append, List.length_singleton] at hsl2
    have hacc : (allFinite c.1 || decide (m < (if allFinite c.1 then 0#32 else
        1#32 + s1.notfiniteCount).toInt)) =
        (allFinite c.1 || decide (m < streak (finiteFlags h ++ [allFinite c.1]))) := by
      rw [bv_toInt_small _ (by rw [hnf]; omega), hnf]
    rw [hacc] at hrxy
    rw [hfl, acceptFlags_snoc, keep_snoc _ _ _ _ (by simp [hfll]),
      keep_snoc _ _ _ _ (by simp [hfll, ih2])]
    generalize hb : (allFinite c.1 || decide (m < streak (finiteFlags h ++ [allFinite c.1]))) = b at *
    refine ⟨?_, by simp [ih2], ?_, hnf, ?_, ?_⟩
    · rw [GT.run_append, ih1, Res.ok_bind]
      cases b with
      | true =>
        simp only [if_true] at hrxy ⊢
        rw [GT.run_cons]
        simp only [hx, Res.ok_bind, GT.run_nil, hrxy]
      | false =>
        simp only [Bool.false_eq_true, if_false] at hrxy ⊢
        rw [GT.run_nil]
        simp [hrxy]
    · intro i hi
      by_cases hlt : i < h.length
      · rw [List.getElem?_append_left (by simp [hfll, hlt])] at hi
        rw [List.getElem?_append_left (by rw [ih2]; exact hlt), List.getElem?_append_left hlt]
        exact ih3 i hi
      · have hi2 : i = h.length := by
          by_contra hne
          rw [List.getElem?_eq_none (by simp [hfll]; omega)] at hi
          cases hi
        subst hi2
        rw [List.getElem?_append_right (by simp [hfll])] at hi
        simp only [acceptFlags_length, hfll, Nat.sub_self, List.getElem?_cons_zero,
          Option.some.injEq] at hi
        subst hi
        rw [List.getElem?_append_right (by rw [ih2]), List.getElem?_append_right (by omega)]
        simp only [ih2, Nat.sub_self, List.getElem?_cons_zero, Option.map_some, hrxy,
          Bool.false_eq_true, if_false]
    · rw [List.count_append]
      have hcl : (finiteFlags h).count false ≤ h.length := by
        rw [← hfll]; exact List.count_le_length
      cases allFinite c.1
      · simp only [Bool.false_eq_true, if_false]
        rw [bv_succ_toNat _ (by rw [ih5]; omega), ih5]; simp
      · simp [ih5]
    · simp

/-- **C14**: finite gradients are always accepted, in particular if all gradients of a history are
finite the wrapper is the inner transformation. -/
theorem C14_all_finite (inner : GT α) (m : ℤ) (p : Params α) (h : List (Call α))
    (hlen : h.length < 2 ^ 31) (hfin : ∀ c ∈ h, FiniteTree c.1) (us : List (Params α))
    (s : (applyIfFinite inner m).State) (hrun : (applyIfFinite inner m).exec p h = .ok (us, s)) :
    inner.exec p h = .ok (us, s.innerState) := by
  have hk := C14_apply_if_finite inner m p h hlen us s hrun
  have hfl : finiteFlags h = List.replicate h.length true := by
    rw [List.eq_replicate_iff]
    refine ⟨by simp [finiteFlags], ?_⟩
    intro b hb
    simp only [finiteFlags, List.mem_map] at hb
    obtain ⟨c, hc, rfl⟩ := hb
    simpa using hfin c hc
  have hac : acceptFlags m (finiteFlags h) = List.replicate h.length true := by
    rw [hfl, List.eq_replicate_iff]
    refine ⟨by simp, ?_⟩
    intro b hb
    simp only [acceptFlags, List.mem_map, List.mem_range, List.length_replicate] at hb
    obtain ⟨i, hi, rfl⟩ := hb
    simp [List.getElem?_replicate, hi]
  have hkeep : ∀ {β : Type} (l : List β), keep (List.replicate l.length true) l = l := by
    intro β l
    induction l with
    | nil => rfl
    | cons a l ih => rw [List.length_cons, List.replicate_succ, keep_cons, ih]; rfl
  rw [hac, hkeep h] at hk
  rw [← hk.2.1, hkeep us] at hk
  exact hk.1

/-- **C14** (progress): if the inner transformation never raises on gradients of one structure, neither
does the wrapper, and it preserves structure. -/
theorem C14_preserves {Q : Spec → Option (Params α) → Prop} (inner : GT α) (m : ℤ)
    (hin : Preserves Q inner) : Preserves Q (applyIfFinite inner m) := by
  intro σ
  obtain ⟨I, h1, h2⟩ := hin σ
  refine ⟨fun s => I s.innerState, ?_, ?_⟩
  · intro p
    obtain ⟨s, hs, hI⟩ := h1 p
    refine ⟨⟨0#32, true, 0#32, s⟩, ?_, hI⟩
    show (inner.init (mk σ p) >>= _) = _
    rw [hs]; rfl
  · intro g s pp hI hq
    obtain ⟨u, s', hu, hI'⟩ := h2 g s.innerState pp hI hq
    obtain ⟨b, hb⟩ : ∃ b, (allFinite (mk σ g) || decide (m < (if allFinite (mk σ g) then 0#32 else
        1#32 + s.notfiniteCount).toInt)) = b := ⟨_, rfl⟩
    refine ⟨if b then u else fun _ _ => 0,
        ⟨if allFinite (mk σ g) then 0#32 else 1#32 + s.notfiniteCount, allFinite (mk σ g),
          (if allFinite (mk σ g) then 0#32 else 1#32) + s.totalNotfinite,
          if b then s' else s.innerState⟩, ?_, ?_⟩
    · show (condUpd (allFinite (mk σ g) || decide (m < (if allFinite (mk σ g) then 0#32 else
        1#32 + s.notfiniteCount).toInt)) (inner.update (mk σ g) s.innerState pp)
        (.ok (zerosLike (mk σ g), _)) >>= _) = _
      rw [hu, zerosLike_mk, condUpd_mk, Res.ok_bind, hb]
      cases b <;> rfl
    · show I (if b then s' else s.innerState)
      cases b <;> assumption

/-- Non-vacuity: with flags finite, bad, bad, finite, bad and `m = 1`, the second bad gradient of the run is
let through and the others are rejected. -/
example : acceptFlags 1 [true, false, false, true, false] = [true, false, true, true, false] := by decide

/-! ## C17 -/

/-- **C17.** Whenever a history of at most `2^31` calls runs through: the inner transformation, run alone on exactly
the calls `n` with `should_update_fn(n)`, ends in the inner state held by the wrapper; selected calls
return the inner updates, other calls return their gradients unchanged; the step counter is the
number of calls. -/
theorem C17_maybe_update (inner : GT α) (should : ℤ → Bool) (p : Params α) (h : List (Call α))
    (hlen : h.length < 2 ^ 31) (us : List (Params α)) (s : (maybeUpdate inner should).State)
    (hrun : (maybeUpdate inner should).exec p h = .ok (us, s)) :
    inner.exec p (keep ((List.range h.length).map (fun n : ℕ => should n)) h) =
        .ok (keep ((List.range h.length).map (fun n : ℕ => should n)) us, s.innerState) ∧
      us.length = h.length ∧
      (∀ i : ℕ, i < h.length → should i = false → us[i]? = (h[i]?).map (fun c : Call α => c.1)) ∧
      s.step.toNat = h.length := by
  unfold GT.exec at hrun
  obtain ⟨s0, hs0, hrun'⟩ := Res.bind_eq_ok.mp hrun
  clear hrun
  rename' hrun' => hrun
  have hs0' : (inner.init p >>= fun s => Except.ok (⟨s, 0#32⟩ :
      MaybeUpdateState inner.State)) = .ok s0 := hs0
  rw [Res.bind_eq_ok] at hs0'
  obtain ⟨i0, hi0, hs0'⟩ := hs0'
  cases hs0'
  unfold GT.exec
  rw [hi0, Res.ok_bind]
  induction h using List.reverseRecOn generalizing us s with
  | nil =>
    rw [GT.run_nil] at hrun
    cases hrun
    simp
  | append_singleton h c ih =>
    rw [GT.run_append, Res.bind_eq_ok] at hrun
    obtain ⟨⟨us1, s1⟩, hr1, hrun⟩ := hrun
    rw [Res.bind_eq_ok] at hrun
    obtain ⟨⟨us2, s2⟩, hr2, hrun⟩ := hrun
    cases hrun
    simp only [List.length_append, List.length_singleton] at hlen
    obtain ⟨ih1, ih2, ih3, ih4⟩ := ih (by omega) us1 s1 hr1
    rw [GT.run_cons, Res.bind_eq_ok] at hr2
    obtain ⟨⟨u, s3⟩, hu, hr2⟩ := hr2
    rw [GT.run_nil] at hr2
    cases hr2
    have hu' : (condUpd (should s1.step.toInt) (inner.update c.1 s1.innerState c.2)
        (.ok (c.1, s1.innerState)) >>= fun r => Except.ok (r.1,
          (⟨r.2, s1.step + 1#32⟩ : MaybeUpdateState inner.State))) = .ok (u, _) := hu
    rw [Res.bind_eq_ok] at hu'
    obtain ⟨r, hr, hu'⟩ := hu'
    cases hu'
    obtain ⟨x, y, hx, hy, -, hrxy⟩ := condUpd_ok hr
    cases hy
    rw [bv_toInt_small _ (by rw [ih4]; omega), ih4] at hrxy
    rw [List.length_append, List.length_singleton, List.range_succ, List.map_append, List.map_singleton,
      keep_snoc _ _ _ _ (by simp), keep_snoc _ _ _ _ (by simp [ih2])]
    refine ⟨?_, by simp [ih2], ?_, ?_⟩
    · rw [GT.run_append, ih1, Res.ok_bind]
      cases hb : should h.length with
      | true =>
        simp only [hb, if_true] at hrxy ⊢
        rw [GT.run_cons]
        simp only [hx, Res.ok_bind, GT.run_nil, hrxy]
      | false =>
        simp only [hb, Bool.false_eq_true, if_false] at hrxy ⊢
        rw [GT.run_nil]
        simp [hrxy]
    · intro i hi hs
      by_cases hlt : i < h.length
      · rw [List.getElem?_append_left (by rw [ih2]; exact hlt), List.getElem?_append_left hlt]
        exact ih3 i hlt hs
      · have hi2 : i = h.length := by omega
        subst hi2
        rw [List.getElem?_append_right (by rw [ih2]), List.getElem?_append_right (by omega)]
        simp [ih2, hrxy, hs]
    · rw [BitVec.add_comm, bv_succ_toNat _ (by rw [ih4]; omega), ih4]

/-- **C17** (progress). -/
theorem C17_preserves {Q : Spec → Option (Params α) → Prop} (inner : GT α) (should : ℤ → Bool)
    (hin : Preserves Q inner) : Preserves Q (maybeUpdate inner should) := by
  intro σ
  obtain ⟨I, h1, h2⟩ := hin σ
  refine ⟨fun s => I s.innerState, ?_, ?_⟩
  · intro p
    obtain ⟨s, hs, hI⟩ := h1 p
    refine ⟨⟨s, 0#32⟩, ?_, hI⟩
    show (inner.init (mk σ p) >>= _) = _
    rw [hs]; rfl
  · intro g s pp hI hq
    obtain ⟨u, s', hu, hI'⟩ := h2 g s.innerState pp hI hq
    refine ⟨if should s.step.toInt then u else g, ⟨if should s.step.toInt then s' else s.innerState,
      s.step + 1#32⟩, ?_, ?_⟩
    · show (condUpd _ (inner.update (mk σ g) s.innerState pp) (.ok (mk σ g, _)) >>= _) = _
      rw [hu, condUpd_mk, Res.ok_bind]
      cases should s.step.toInt <;> rfl
    · show I (if _ then s' else s.innerState)
      split <;> assumption

/-- **C17** (limit). `lax.cond` needs both branches to return the same structure and shapes: if the inner update does not raise but
returns a tree of other structure or shapes than the gradients, `maybe_update` raises TypeError, whatever the predicate says. -/
theorem C17_shape_change (inner : GT α) (should : ℤ → Bool) (g : Params α) (s : MaybeUpdateState inner.State) (p : Option (Params α))
    (u : Params α) (s' : inner.State) (hu : inner.update g s.innerState p = .ok (u, s')) (hne : spec u ≠ spec g) :
    (maybeUpdate inner should).update g s p = .error .type := by
  show (condUpd _ (inner.update g s.innerState p) _ >>= _) = _
  rw [hu]
  simp only [condUpd, Res.ok_bind, if_neg hne]
  rfl

/-- **C14** (limit). The same for `apply_if_finite`, whether or not the gradients are finite. -/
theorem C14_shape_change (inner : GT α) (m : ℤ) (g : Params α) (s : ApplyIfFiniteState inner.State) (p : Option (Params α))
    (u : Params α) (s' : inner.State) (hu : inner.update g s.innerState p = .ok (u, s')) (hne : spec u ≠ spec g) :
    (applyIfFinite inner m).update g s p = .error .type := by
  have hz : spec (zerosLike g) = spec g := by
    unfold spec zerosLike
    rw [PyTree.map_map]
    rfl
  rw [← hz] at hne
  show (condUpd _ (inner.update g s.innerState p) _ >>= _) = _
  rw [hu]
  simp only [condUpd, Res.ok_bind, if_neg hne]
  rfl

/-- a transformation that changes shapes (it sums the entries of an array), and gradients for which it does -/
example : ∃ (inner : GT ℝ) (g : Params ℝ) (s : inner.State) (u : Params ℝ) (s' : inner.State),
    inner.update g s none = .ok (u, s') ∧ spec u ≠ spec g :=
  ⟨stateless fun g _ => .ok (g.map fun x => Tensor.scalar x.data.sum), .leaf ⟨[2], [1, 2]⟩, ⟨⟩, .leaf (Tensor.scalar _), ⟨⟩, rfl, by
    intro h
    simp [spec, PyTree.map, Tensor.scalar] at h⟩

end
end Optax
