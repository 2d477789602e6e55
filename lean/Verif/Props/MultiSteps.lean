import Verif.Props.Wrappers
import Verif.Props.ApplyEvery
import Mathlib.Algebra.BigOperators.Intervals

/-!
# C15: `MultiSteps`
-/

set_option linter.unusedSectionVars false
set_option linter.unusedSimpArgs false

namespace Optax
open Finset

/-! ## Specification: groups of calls -/

/-- number of the first call of group `j`, for groups of sizes `k 0, k 1, …` -/
def groupStart (k : ℕ → ℕ) (j : ℕ) : ℕ := ∑ i ∈ range j, k i

theorem groupStart_succ (k : ℕ → ℕ) (j : ℕ) : groupStart k (j + 1) = groupStart k j + k j := by
  simp [groupStart, Finset.sum_range_succ]

theorem groupStart_strictMono (k : ℕ → ℕ) (hk : ∀ j, 1 ≤ k j) : StrictMono (groupStart k) := by
  apply strictMono_nat_of_lt_succ
  intro n
  rw [groupStart_succ]
  have := hk n
  omega

/-- the sum (or mean) of the gradients of group `j` -/
noncomputable def groupGrad (k : ℕ → ℕ) (mean : Bool) (g : ℕ → ℕ → ℕ → ℝ) (j l i : ℕ) : ℝ :=
  if mean then (∑ n ∈ Ico (groupStart k j) (groupStart k (j + 1)), g n l i) / (k j : ℝ)
  else ∑ n ∈ Ico (groupStart k j) (groupStart k (j + 1)), g n l i

variable (opt : GT ℝ) (everyK : ℤ → ℤ) (mean : Bool)

/-- **C15.** For every inner optimiser, every schedule of group sizes `k j ≥ 1`, and every history of
fewer than `2^31` gradients that runs through (`N` calls): with `J` the number of completed groups
(`start J ≤ N < start (J+1)`), the inner optimiser, run alone on the `J` sums/means, ends in the
inner state held by the wrapper; the last call of group `j` returns the `j`-th update of that run and every
other call returns zeros; `gradient_step = J`, `mini_step = N - start J`, the accumulator is the sum
of the current group so far, and `has_updated` holds exactly after the last call of a group. -/
theorem C15_multi_steps (σ : Spec) (p0 : ℕ → ℕ → ℝ) (g : ℕ → ℕ → ℕ → ℝ) (pp : ℕ → Option (Params ℝ))
    (k : ℕ → ℕ) (hk : ∀ j, 1 ≤ k j) (hK : ∀ j : ℕ, everyK j = k j) (N : ℕ) (hN : N < 2 ^ 31)
    (us : List (Params ℝ)) (s : (multiSteps opt everyK mean).State)
    (hrun : (multiSteps opt everyK mean).exec (mk σ p0) (hist σ g pp N) = .ok (us, s)) :
    ∃ J vs, groupStart k J ≤ N ∧ N < groupStart k (J + 1) ∧
      opt.exec (mk σ p0) (hist σ (groupGrad k mean g) (fun _ => none) J) = .ok (vs, s.innerOptState) ∧
      us.length = N ∧
      (∀ n < N, ∀ j, n + 1 = groupStart k (j + 1) → us[n]? = vs[j]?) ∧
      (∀ n < N, (∀ j, n + 1 ≠ groupStart k (j + 1)) → us[n]? = some (mk σ (fun _ _ => 0))) ∧
      s.gradientStep.toNat = J ∧ s.miniStep.toNat = N - groupStart k J ∧
      s.accGrads = mk σ (fun l i => ∑ n ∈ Ico (groupStart k J) N, g n l i) ∧
      (hasUpdated s = true ↔ ∃ j, N = groupStart k (j + 1)) := by
  have hmono := groupStart_strictMono k hk
  -- has_updated follows from the rest
  suffices hmain : ∃ J vs, groupStart k J ≤ N ∧ N < groupStart k (J + 1) ∧
      opt.exec (mk σ p0) (hist σ (groupGrad k mean g) (fun _ => none) J) = .ok (vs, s.innerOptState) ∧
      us.length = N ∧
      (∀ n < N, ∀ j, n + 1 = groupStart k (j + 1) → us[n]? = vs[j]?) ∧
      (∀ n < N, (∀ j, n + 1 ≠ groupStart k (j + 1)) → us[n]? = some (mk σ (fun _ _ => 0))) ∧
      s.gradientStep.toNat = J ∧ s.miniStep.toNat = N - groupStart k J ∧
      s.accGrads = mk σ (fun l i => ∑ n ∈ Ico (groupStart k J) N, g n l i) by
    obtain ⟨J, vs, h1, h2, h3, h4, h5, h6, h7, h8, h9⟩ := hmain
    refine ⟨J, vs, h1, h2, h3, h4, h5, h6, h7, h8, h9, ?_⟩
    have hJN : J ≤ N := le_trans (hmono.id_le J) h1
    have hg : s.gradientStep.toInt = J := by rw [bv_toInt_small _ (by omega), h7]
    have hm : (s.miniStep == 0#32) = decide (N = groupStart k J) := by
      rw [Bool.eq_iff_iff, beq_iff_eq, decide_eq_true_eq, ← BitVec.toNat_inj, h8]
      simp only [BitVec.toNat_ofNat]
      omega
    unfold hasUpdated
    rw [hm, hg]
    simp only [Bool.and_eq_true, decide_eq_true_eq]
    constructor
    · rintro ⟨h, hpos⟩
      refine ⟨J - 1, ?_⟩
      rw [h]; congr 1; omega
    · rintro ⟨j, hj⟩
      have : J = j + 1 := by
        rw [hj] at h1 h2
        have a := hmono.le_iff_le.mp h1
        have b := hmono.lt_iff_lt.mp h2
        omega
      subst this
      exact ⟨hj, by omega⟩
  unfold GT.exec at hrun
  obtain ⟨s0, hs0, hrun'⟩ := Res.bind_eq_ok.mp hrun
  clear hrun
  have hs0' : (opt.init (mk σ p0) >>= fun s => Except.ok (⟨0#32, 0#32, s, zerosLike (mk σ p0)⟩ :
      MultiStepsState ℝ opt.State)) = .ok s0 := hs0
  rw [Res.bind_eq_ok] at hs0'
  obtain ⟨i0, hi0, hs0'⟩ := hs0'
  cases hs0'
  clear hs0
  unfold GT.exec
  rw [hi0]
  simp only [Res.ok_bind]
  induction N generalizing us s with
  | zero =>
    simp only [hist, List.range_zero, List.map_nil, GT.run_nil] at hrun'
    cases hrun'
    refine ⟨0, [], by simp [groupStart], by have := hk 0; simp [groupStart]; omega, rfl, rfl,
      by simp, by simp, rfl, by simp [groupStart], by simp [groupStart]⟩
  | succ N ih =>
    rw [hist_succ, GT.run_append, Res.bind_eq_ok] at hrun'
    obtain ⟨⟨us1, s1⟩, hr1, hr2⟩ := hrun'
    rw [Res.bind_eq_ok] at hr2
    obtain ⟨⟨us2, s2⟩, hr2, hr3⟩ := hr2
    cases hr3
    obtain ⟨J, vs, h1, h2, h3, h4, h5, h6, h7, h8, h9⟩ := ih (by omega) us1 s1 hr1
    rw [GT.run_cons, Res.bind_eq_ok] at hr2
    obtain ⟨⟨u, s3⟩, hu, hr2⟩ := hr2
    rw [GT.run_nil] at hr2
    cases hr2
    have hJN : J ≤ N := le_trans (hmono.id_le J) h1
    have hgs : s1.gradientStep.toInt = J := by rw [bv_toInt_small _ (by omega), h7]
    have hms : s1.miniStep.toInt = N - groupStart k J := by
      rw [bv_toInt_small _ (by omega), h8]; omega
    have hacc : tzip (fun a b => a + b) (mk σ (g N)) s1.accGrads =
        .ok (mk σ (fun l i => ∑ n ∈ Ico (groupStart k J) (N + 1), g n l i)) := by
      rw [h9, tzip_mk]
      congr 2
      funext l i
      rw [Finset.sum_Ico_succ_top h1, add_comm]
    have hu' : (tzip (fun a b => a + b) (mk σ (g N)) s1.accGrads >>= fun acc =>
        condUpd (decide (s1.miniStep.toInt < everyK s1.gradientStep.toInt - 1))
          (.ok (zerosLike (mk σ (g N)), (⟨s1.miniStep + 1#32, s1.gradientStep, s1.innerOptState, acc⟩ :
            MultiStepsState ℝ opt.State)))
          (opt.update (if mean then tmap (fun x => x / JOps.ofInt (everyK s1.gradientStep.toInt)) acc
            else acc) s1.innerOptState none >>= fun r =>
            .ok (r.1, ⟨0#32, s1.gradientStep + 1#32, r.2, zerosLike acc⟩))) = .ok (u, _) := hu
    rw [hacc, Res.ok_bind, hgs, hK, hms] at hu'
    obtain ⟨x, y, hx, hy, hsp, hxy⟩ := condUpd_ok hu'
    cases hx
    rw [Res.bind_eq_ok] at hy
    obtain ⟨r, hr, hy⟩ := hy
    cases hy
    have hkJ := hk J
    have hlen : (us1 ++ [u]).length = N + 1 := by simpa using h4
    by_cases hlast : N + 1 = groupStart k (J + 1)
    · -- last call of group J
      have hnl : ¬ ((N : ℤ) - groupStart k J < (k J : ℤ) - 1) := by
        rw [groupStart_succ] at hlast; omega
      rw [decide_eq_false hnl] at hxy
      simp only [Bool.false_eq_true, if_false] at hxy
      cases hxy
      have hvl : vs.length = J := by
        have := GT.run_length opt i0 _ h3
        simpa using this
      refine ⟨J + 1, vs ++ [r.1], hlast.ge, ?_, ?_, hlen, ?_, ?_, ?_, ?_, ?_⟩
      · rw [groupStart_succ k (J + 1), ← hlast]; have := hk (J + 1); omega
      · rw [hist_succ, GT.run_append, h3]
        simp only [Res.ok_bind]
        rw [GT.run_cons]
        have hgrad : mk σ (groupGrad k mean g J) =
            (if mean then tmap (fun x => x / JOps.ofInt ((k J : ℕ) : ℤ))
              (mk σ (fun l i => ∑ n ∈ Ico (groupStart k J) (N + 1), g n l i))
            else mk σ (fun l i => ∑ n ∈ Ico (groupStart k J) (N + 1), g n l i)) := by
          rw [hlast]
          cases mean
          · simp only [Bool.false_eq_true, if_false]
            rfl
          · simp only [if_true, tmap_mk, jofInt_real, Int.cast_natCast]
            rfl
        simp only [hgrad, hr, Res.ok_bind, GT.run_nil]
      · intro n hn j hj
        by_cases hnN : n < N
        · rw [List.getElem?_append_left (by rw [h4]; exact hnN)]
          have hjJ : j < J := by
            have : groupStart k (j + 1) < groupStart k (J + 1) := by omega
            have := hmono.lt_iff_lt.mp this
            omega
          rw [List.getElem?_append_left (by omega)]
          exact h5 n hnN j hj
        · have : n = N := by omega
          subst this
          have : j = J := by
            have := hmono.injective (hj.symm.trans hlast)
            omega
          subst this
          rw [List.getElem?_append_right (by rw [h4]), List.getElem?_append_right (by omega)]
          simp [h4, hvl]
      · intro n hn hj
        by_cases hnN : n < N
        · rw [List.getElem?_append_left (by rw [h4]; exact hnN)]
          exact h6 n hnN hj
        · have : n = N := by omega
          subst this
          exact absurd hlast (hj J)
      · show (s1.gradientStep + 1#32).toNat = J + 1
        rw [BitVec.add_comm, bv_succ_toNat _ (by omega), h7]
      · show (0#32).toNat = N + 1 - groupStart k (J + 1)
        simp [hlast]
      · show zerosLike _ = _
        rw [zerosLike_mk, hlast]
        simp
    · have hl : ((N : ℤ) - groupStart k J < (k J : ℤ) - 1) := by
        rw [groupStart_succ] at hlast h2; omega
      rw [decide_eq_true hl] at hxy
      simp only [if_true] at hxy
      cases hxy
      refine ⟨J, vs, by omega, by omega, h3, hlen, ?_, ?_, h7, ?_, ?_⟩
      · intro n hn j hj
        by_cases hnN : n < N
        · rw [List.getElem?_append_left (by rw [h4]; exact hnN)]
          exact h5 n hnN j hj
        · exfalso
          have : n = N := by omega
          subst this
          have a : groupStart k J < groupStart k (j + 1) := by omega
          have b : groupStart k (j + 1) < groupStart k (J + 1) := by omega
          have := hmono.lt_iff_lt.mp a
          have := hmono.lt_iff_lt.mp b
          omega
      · intro n hn hj
        by_cases hnN : n < N
        · rw [List.getElem?_append_left (by rw [h4]; exact hnN)]
          exact h6 n hnN hj
        · have : n = N := by omega
          subst this
          rw [List.getElem?_append_right (by rw [h4])]
          simp [h4, zerosLike_mk]
      · show (s1.miniStep + 1#32).toNat = _
        rw [BitVec.add_comm, bv_succ_toNat _ (by rw [h8]; omega), h8]
        omega
      · rfl

/-- **C15** (progress): if the inner optimiser never raises when called without params on gradients of one
structure, and preserves structure, then so does `MultiSteps`, with any params. -/
theorem C15_preserves (hin : Preserves (fun _ pp => pp = none) opt) :
    Preserves AnyParams (multiSteps opt everyK mean) := by
  intro σ
  obtain ⟨I, h1, h2⟩ := hin σ
  refine ⟨fun s => I s.innerOptState ∧ ∃ a, s.accGrads = mk σ a, ?_, ?_⟩
  · intro p
    obtain ⟨s, hs, hI⟩ := h1 p
    refine ⟨⟨0#32, 0#32, s, zerosLike (mk σ p)⟩, ?_, hI, _, zerosLike_mk _ _⟩
    show (opt.init (mk σ p) >>= _) = _
    rw [hs]; rfl
  · rintro g ⟨ms, gs, is, ac⟩ pp ⟨hI, a, ha⟩ _
    simp only at hI ha
    subst ha
    obtain ⟨u, s', hu, hI'⟩ := h2 (fun l i => if mean then (g l i + a l i) / JOps.ofInt (everyK gs.toInt)
      else g l i + a l i) is none hI rfl
    have hgfu : (if mean then tmap (fun x => x / JOps.ofInt (everyK gs.toInt))
        (mk σ (fun l i => g l i + a l i)) else mk σ (fun l i => g l i + a l i)) =
        mk σ (fun l i => if mean then (g l i + a l i) / JOps.ofInt (everyK gs.toInt)
      else g l i + a l i) := by
      cases mean <;> simp
    have e : ∀ b, (tzip (fun a b => a + b) (mk σ g) (mk σ a) >>= fun acc =>
        condUpd b
          (.ok (zerosLike (mk σ g), (⟨ms + 1#32, gs, is, acc⟩ :
            MultiStepsState ℝ opt.State)))
          (opt.update (if mean then tmap (fun x => x / JOps.ofInt (everyK gs.toInt)) acc
            else acc) is none >>= fun r =>
            .ok (r.1, ⟨0#32, gs + 1#32, r.2, zerosLike acc⟩))) =
        .ok (mk σ (if b then fun _ _ => 0 else u), if b then
          ⟨ms + 1#32, gs, is, mk σ (fun l i => g l i + a l i)⟩ else ⟨0#32, gs + 1#32, s', mk σ fun _ _ => 0⟩) := by
      intro b
      rw [tzip_mk, Res.ok_bind, hgfu, hu, Res.ok_bind, zerosLike_mk, condUpd_mk]
      cases b <;> simp
    refine ⟨_, _, e (decide (ms.toInt < everyK gs.toInt - 1)), ?_⟩
    cases decide (ms.toInt < everyK gs.toInt - 1)
    · exact ⟨hI', _, rfl⟩
    · exact ⟨hI, _, rfl⟩

/-- **C15** (finding): `MultiSteps.update` drops the params, and `lax.cond` traces the inner optimiser on every
call, so wrapping an optimiser that needs params (`adamw`, `lamb`, …) never succeeds, whatever params are passed. -/
theorem C15_drops_params (hreq : RequiresParams opt) (gr : Params ℝ)
    (s : (multiSteps opt everyK mean).State) (pp : Option (Params ℝ)) (r) :
    (multiSteps opt everyK mean).update gr s pp ≠ .ok r := by
  intro h
  have hu' : (tzip (fun a b => a + b) gr s.accGrads >>= fun acc =>
        condUpd (decide (s.miniStep.toInt < everyK s.gradientStep.toInt - 1))
          (.ok (zerosLike gr, (⟨s.miniStep + 1#32, s.gradientStep, s.innerOptState, acc⟩ :
            MultiStepsState ℝ opt.State)))
          (opt.update (if mean then tmap (fun x => x / JOps.ofInt (everyK s.gradientStep.toInt)) acc
            else acc) s.innerOptState none >>= fun r =>
            .ok (r.1, ⟨0#32, s.gradientStep + 1#32, r.2, zerosLike acc⟩))) = .ok r := h
  rw [Res.bind_eq_ok] at hu'
  obtain ⟨acc, _, hu'⟩ := hu'
  obtain ⟨x, y, _, hy, _⟩ := condUpd_ok hu'
  rw [hreq] at hy
  cases hy

/-- Non-vacuity: sizes 1, 2, 3, …: group 2 consists of calls 3, 4, 5. -/
example : groupStart (fun j => j + 1) 2 = 3 ∧ groupStart (fun j => j + 1) 3 = 6 := by decide

end Optax
