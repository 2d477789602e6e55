import Verif.Props.MultiSteps
import Verif.Props.Faults

/-!
# C15 in any arithmetic, and C145: `MultiSteps` and `apply_if_finite` nested in either order
-/

set_option linter.unusedSectionVars false
set_option linter.unusedSimpArgs false

namespace Optax
open Finset

section
variable {α : Type} [Zero α] [One α] [Add α] [Sub α] [Mul α] [Div α] [Neg α] [JOps α]

/-- the accumulator after `m` values from number `a` on: each new value plus what is there, starting from 0, in the rounding of the arithmetic -/
def accSum (g : ℕ → α) (a : ℕ) : ℕ → α
  | 0 => 0
  | m + 1 => g (a + m) + accSum g a m

/-- the accumulated gradients of group `j`, or their quotient by the size of the group -/
def groupAcc (k : ℕ → ℕ) (mean : Bool) (g : ℕ → ℕ → ℕ → α) (j l i : ℕ) : α :=
  if mean then accSum (fun n => g n l i) (groupStart k j) (k j) / JOps.ofInt ((k j : ℕ) : ℤ) else accSum (fun n => g n l i) (groupStart k j) (k j)

variable (opt : GT α) (everyK : ℤ → ℤ) (mean : Bool)

/-- **C15 (any arithmetic).** The same refinement for every arithmetic, in particular floating point numbers with rounding, NaN and infinities: the wrapper hands the inner optimiser the
accumulations of the groups. -/
theorem C15_any_arithmetic (σ : Spec) (p0 : ℕ → ℕ → α) (g : ℕ → ℕ → ℕ → α) (pp : ℕ → Option (Params α))
    (k : ℕ → ℕ) (hk : ∀ j, 1 ≤ k j) (hK : ∀ j : ℕ, everyK j = k j) (N : ℕ) (hN : N < 2 ^ 31)
    (us : List (Params α)) (s : (multiSteps opt everyK mean).State)
    (hrun : (multiSteps opt everyK mean).exec (mk σ p0) (hist σ g pp N) = .ok (us, s)) :
    ∃ J vs, groupStart k J ≤ N ∧ N < groupStart k (J + 1) ∧
      opt.exec (mk σ p0) (hist σ (groupAcc k mean g) (fun _ => none) J) = .ok (vs, s.innerOptState) ∧
      us.length = N ∧
      (∀ n < N, ∀ j, n + 1 = groupStart k (j + 1) → us[n]? = vs[j]?) ∧
      (∀ n < N, (∀ j, n + 1 ≠ groupStart k (j + 1)) → us[n]? = some (mk σ (fun _ _ => 0))) ∧
      s.gradientStep.toNat = J ∧ s.miniStep.toNat = N - groupStart k J ∧
      s.accGrads = mk σ (fun l i => accSum (fun n => g n l i) (groupStart k J) (N - groupStart k J)) ∧
      (hasUpdated s = true ↔ ∃ j, N = groupStart k (j + 1)) := by
  have hmono := groupStart_strictMono k hk
  -- has_updated follows from the rest
  suffices hmain : ∃ J vs, groupStart k J ≤ N ∧ N < groupStart k (J + 1) ∧
      opt.exec (mk σ p0) (hist σ (groupAcc k mean g) (fun _ => none) J) = .ok (vs, s.innerOptState) ∧
      us.length = N ∧
      (∀ n < N, ∀ j, n + 1 = groupStart k (j + 1) → us[n]? = vs[j]?) ∧
      (∀ n < N, (∀ j, n + 1 ≠ groupStart k (j + 1)) → us[n]? = some (mk σ (fun _ _ => 0))) ∧
      s.gradientStep.toNat = J ∧ s.miniStep.toNat = N - groupStart k J ∧
      s.accGrads = mk σ (fun l i => accSum (fun n => g n l i) (groupStart k J) (N - groupStart k J)) by
    obtain ⟨J, vs, h1, h2, h3, h4, h5, h6, h7, h8, h9⟩ := hmain
    refine ⟨J, vs, h1, h2, h3, h4, h5, h6, h7, h8, h9, ?_⟩
    have hJN : J ≤ N := le_trans (hmono.id_le J) h1
    have hg : s.gradientStep.toInt = J := by rw [bv_toInt_small _ (by omega), h7]
    have hm : (s.miniStep == 0#32) = decide (N = groupStart k J) := by
      rw [Bool.eq_iff_iff, beq_iff_eq, decide_eq_true_eq, ← BitVec.toNat_inj, h8]
      simp only [BitVec.toNat_ofNat]
      omega
    unfold hasUpdated
    rw [hm, hg]
    simp only [Bool.and_eq_true, decide_eq_true_eq]
    constructor
    · rintro ⟨h, hpos⟩
      refine ⟨J - 1, ?_⟩
      rw [h]; congr 1; omega
    · rintro ⟨j, hj⟩
      have : J = j + 1 := by
        rw [hj] at h1 h2
        have a := hmono.le_iff_le.mp h1
        have b := hmono.lt_iff_lt.mp h2
        omega
      subst this
      exact ⟨hj, by omega⟩
  unfold GT.exec at hrun
  obtain ⟨s0, hs0, hrun'⟩ := Res.bind_eq_ok.mp hrun
  clear hrun
  have hs0' : (opt.init (mk σ p0) >>= fun s => Except.ok (⟨0#32, 0#32, s, zerosLike (mk σ p0)⟩ :
      MultiStepsState α opt.State)) = .ok s0 := hs0
  rw [Res.bind_eq_ok] at hs0'
  obtain ⟨i0, hi0, hs0'⟩ := hs0'
  cases hs0'
  clear hs0
  unfold GT.exec
  rw [hi0]
  simp only [Res.ok_bind]
  induction N generalizing us s with
  | zero =>
    simp only [hist, List.range_zero, List.map_nil, GT.run_nil] at hrun'
    cases hrun'
    refine ⟨0, [], by simp [groupStart], by have := hk 0; simp [groupStart]; omega, rfl, rfl,
      by simp, by simp, rfl, by simp [groupStart], by rw [zerosLike_mk]; simp [groupStart, accSum]⟩
  | succ N ih =>
    rw [hist_succ, GT.run_append, Res.bind_eq_ok] at hrun'
    obtain ⟨⟨us1, s1⟩, hr1, hr2⟩ := hrun'
    rw [Res.bind_eq_ok] at hr2
    obtain ⟨⟨us2, s2⟩, hr2, hr3⟩ := hr2
    cases hr3
    obtain ⟨J, vs, h1, h2, h3, h4, h5, h6, h7, h8, h9⟩ := ih (by omega) us1 s1 hr1
    rw [GT.run_cons, Res.bind_eq_ok] at hr2
    obtain ⟨⟨u, s3⟩, hu, hr2⟩ := hr2
    rw [GT.run_nil] at hr2
    cases hr2
    have hJN : J ≤ N := le_trans (hmono.id_le J) h1
    have hgs : s1.gradientStep.toInt = J := by rw [bv_toInt_small _ (by omega), h7]
    have hms : s1.miniStep.toInt = N - groupStart k J := by
      rw [bv_toInt_small _ (by omega), h8]; omega
    have hacc : tzip (fun a b => a + b) (mk σ (g N)) s1.accGrads =
        .ok (mk σ (fun l i => accSum (fun n => g n l i) (groupStart k J) (N + 1 - groupStart k J))) := by
      rw [h9, tzip_mk]
      congr 2
      funext l i
      rw [show N + 1 - groupStart k J = (N - groupStart k J) + 1 by omega]
      show _ = g (groupStart k J + (N - groupStart k J)) l i + _
      rw [show groupStart k J + (N - groupStart k J) = N by omega]
    have hu' : (tzip (fun a b => a + b) (mk σ (g N)) s1.accGrads >>= fun acc =>
        condUpd (decide (s1.miniStep.toInt < everyK s1.gradientStep.toInt - 1))
          (.ok (zerosLike (mk σ (g N)), (⟨s1.miniStep + 1#32, s1.gradientStep, s1.innerOptState, acc⟩ :
            MultiStepsState α opt.State)))
          (opt.update (if mean then tmap (fun x => x / JOps.ofInt (everyK s1.gradientStep.toInt)) acc
            else acc) s1.innerOptState none >>= fun r =>
            .ok (r.1, ⟨0#32, s1.gradientStep + 1#32, r.2, zerosLike acc⟩))) = .ok (u, _) := hu
    rw [hacc, Res.ok_bind, hgs, hK, hms] at hu'
    obtain ⟨x, y, hx, hy, hsp, hxy⟩ := condUpd_ok hu'
    cases hx
    rw [Res.bind_eq_ok] at hy
    obtain ⟨r, hr, hy⟩ := hy
    cases hy
    have hkJ := hk J
    have hlen : (us1 ++ [u]).length = N + 1 := by simpa using h4
    by_cases hlast : N + 1 = groupStart k (J + 1)
    · -- last call of group J
      have hnl : ¬ ((N : ℤ) - groupStart k J < (k J : ℤ) - 1) := by
        rw [groupStart_succ] at hlast; omega
      rw [decide_eq_false hnl] at hxy
      simp only [Bool.false_eq_true, if_false] at hxy
      cases hxy
      have hvl : vs.length = J := by
        have := GT.run_length opt i0 _ h3
        simpa using this
      refine ⟨J + 1, vs ++ [r.1], hlast.ge, ?_, ?_, hlen, ?_, ?_, ?_, ?_, ?_⟩
      · rw [groupStart_succ k (J + 1), ← hlast]; have := hk (J + 1); omega
      · rw [hist_succ, GT.run_append, h3]
        simp only [Res.ok_bind]
        rw [GT.run_cons]
        have hgrad : mk σ (groupAcc k mean g J) =
            (if mean then tmap (fun x => x / JOps.ofInt ((k J : ℕ) : ℤ))
              (mk σ (fun l i => accSum (fun n => g n l i) (groupStart k J) (N + 1 - groupStart k J)))
            else mk σ (fun l i => accSum (fun n => g n l i) (groupStart k J) (N + 1 - groupStart k J))) := by
          rw [hlast, groupStart_succ, Nat.add_sub_cancel_left]
          cases mean
          · rfl
          · simp only [if_true, tmap_mk]
            rfl
        simp only [hgrad, hr, Res.ok_bind, GT.run_nil]
      · intro n hn j hj
        by_cases hnN : n < N
        · rw [List.getElem?_append_left (by rw [h4]; exact hnN)]
          have hjJ : j < J := by
            have : groupStart k (j + 1) < groupStart k (J + 1) := by omega
            have := hmono.lt_iff_lt.mp this
            omega
          rw [List.getElem?_append_left (by omega)]
          exact h5 n hnN j hj
        · have : n = N := by omega
          subst this
          have : j = J := by
            have := hmono.injective (hj.symm.trans hlast)
            omega
          subst this
          rw [List.getElem?_append_right (by rw [h4]), List.getElem?_append_right (by omega)]
          simp [h4, hvl]
      · intro n hn hj
        by_cases hnN : n < N
        · rw [List.getElem?_append_left (by rw [h4]; exact hnN)]
          exact h6 n hnN hj
        · have : n = N := by omega
          subst this
          exact absurd hlast (hj J)
      · show (s1.gradientStep + 1#32).toNat = J + 1
        rw [BitVec.add_comm, bv_succ_toNat _ (by omega), h7]
      · show (0#32).toNat = N + 1 - groupStart k (J + 1)
        simp [hlast]
      · show zerosLike _ = _
        rw [zerosLike_mk, hlast, Nat.sub_self]
        rfl
    · have hl : ((N : ℤ) - groupStart k J < (k J : ℤ) - 1) := by
        rw [groupStart_succ] at hlast h2; omega
      rw [decide_eq_true hl] at hxy
      simp only [if_true] at hxy
      cases hxy
      refine ⟨J, vs, by omega, by omega, h3, hlen, ?_, ?_, h7, ?_, ?_⟩
      · intro n hn j hj
        by_cases hnN : n < N
        · rw [List.getElem?_append_left (by rw [h4]; exact hnN)]
          exact h5 n hnN j hj
        · exfalso
          have : n = N := by omega
          subst this
          have a : groupStart k J < groupStart k (j + 1) := by omega
          have b : groupStart k (j + 1) < groupStart k (J + 1) := by omega
          have := hmono.lt_iff_lt.mp a
          have := hmono.lt_iff_lt.mp b
          omega
      · intro n hn hj
        by_cases hnN : n < N
        · rw [List.getElem?_append_left (by rw [h4]; exact hnN)]
          exact h6 n hnN hj
        · have : n = N := by omega
          subst this
          rw [List.getElem?_append_right (by rw [h4])]
          simp [h4, zerosLike_mk]
      · show (s1.miniStep + 1#32).toNat = _
        rw [BitVec.add_comm, bv_succ_toNat _ (by rw [h8]; omega), h8]
        omega
      · rfl



/-! ## Finite accumulations -/

/-- a sum or quotient with a non-finite (first) operand is not finite -/
def Absorbs (α : Type) [Add α] [Div α] [JOps α] : Prop :=
  (∀ a b : α, JOps.isfinite (a + b) = true → JOps.isfinite a = true ∧ JOps.isfinite b = true) ∧ ∀ a b : α, JOps.isfinite (a / b) = true → JOps.isfinite a = true

theorem finiteTree_mk (σ : Spec) (v : ℕ → ℕ → α) : FiniteTree (mk σ v) ↔ ∀ l s, σ.leaves[l]? = some s → ∀ i < s.prod, JOps.isfinite (v l i) = true := by
  constructor
  · intro h l s hl i hi
    refine h (Tensor.tens s (v l)) ?_ (v l i) ?_
    · unfold mk PyTree.mapIdx
      rw [PyTree.leaves_mapIdxFrom, List.mem_mapIdx]
      obtain ⟨hl', rfl⟩ := List.getElem?_eq_some_iff.1 hl
      exact ⟨l, hl', by simp⟩
    · simp only [Tensor.tens, List.mem_map, List.mem_range]
      exact ⟨i, hi, rfl⟩
  · intro h x hx a ha
    unfold mk PyTree.mapIdx at hx
    rw [PyTree.leaves_mapIdxFrom, List.mem_mapIdx] at hx
    obtain ⟨k, hk, rfl⟩ := hx
    simp only [Tensor.tens, List.mem_map, List.mem_range] at ha
    obtain ⟨i, hi, rfl⟩ := ha
    have := h k (σ.leaves[k]) (by rw [List.getElem?_eq_getElem hk]) i hi
    simpa using this

theorem accSum_finite (hA : Absorbs α) (g : ℕ → α) (a m : ℕ) (h : JOps.isfinite (accSum g a m) = true) : ∀ n, a ≤ n → n < a + m → JOps.isfinite (g n) = true := by
  induction m with
  | zero => intro n h1 h2; omega
  | succ m ih =>
    intro n h1 h2
    obtain ⟨h3, h4⟩ := hA.1 _ _ h
    by_cases hn : n = a + m
    · rw [hn]; exact h3
    · exact ih h4 n h1 (by omega)

/-- all gradients of group `j` are finite -/
def GoodGroup (σ : Spec) (k : ℕ → ℕ) (g : ℕ → ℕ → ℕ → α) (j : ℕ) : Prop := ∀ n, groupStart k j ≤ n → n < groupStart k (j + 1) → FiniteTree (mk σ (g n))

/-- **C145 (a bad mini-batch spoils its group).** In every arithmetic where NaN and infinities absorb, the accumulation handed to the inner optimiser is finite only if every gradient
of the group is. -/
theorem C145_bad_batch (hA : Absorbs α) (σ : Spec) (k : ℕ → ℕ) (mean : Bool) (g : ℕ → ℕ → ℕ → α) (j : ℕ) (h : FiniteTree (mk σ (groupAcc k mean g j))) : GoodGroup σ k g j := by
  intro n h1 h2
  rw [finiteTree_mk] at h ⊢
  intro l s hl i hi
  have h3 := h l s hl i hi
  rw [groupStart_succ] at h2
  refine accSum_finite hA (fun n => g n l i) (groupStart k j) (k j) ?_ n h1 h2
  unfold groupAcc at h3
  cases mean
  · exact h3
  · exact hA.2 _ _ h3

end

theorem absorbs_x : Absorbs XReal := by
  refine ⟨fun a b h => ?_, fun a b h => ?_⟩
  · cases a <;> cases b <;> first | exact ⟨rfl, rfl⟩ | exact absurd h Bool.false_ne_true
  · cases a with
    | fin x => rfl
    | nan => exact absurd h (by cases b <;> exact Bool.false_ne_true)
    | pinf =>
      cases b with
      | fin y =>
        have e : XReal.pinf / XReal.fin y = if 0 ≤ y then XReal.pinf else XReal.ninf := rfl
        rw [e] at h; split_ifs at h <;> exact absurd h Bool.false_ne_true
      | _ => exact absurd h Bool.false_ne_true
    | ninf =>
      cases b with
      | fin y =>
        have e : XReal.ninf / XReal.fin y = if 0 ≤ y then XReal.ninf else XReal.pinf := rfl
        rw [e] at h; split_ifs at h <;> exact absurd h Bool.false_ne_true
      | _ => exact absurd h Bool.false_ne_true

theorem absorbs_fp (F : Format) : Absorbs (FP F) := by
  have hof : ∀ x : XReal, JOps.isfinite (FP.of F x) = true → JOps.isfinite x = true := by
    intro x h
    cases x with
    | fin x => rfl
    | _ => exact absurd h Bool.false_ne_true
  exact ⟨fun a b h => absorbs_x.1 a.1 b.1 (hof _ h), fun a b h => absorbs_x.2 a.1 b.1 (hof _ h)⟩

/-- in the extended reals the accumulation is finite exactly if every gradient of the group is -/
theorem groupAcc_finite_x (σ : Spec) (k : ℕ → ℕ) (hk : ∀ j, 1 ≤ k j) (mean : Bool) (g : ℕ → ℕ → ℕ → XReal) (j : ℕ) :
    FiniteTree (mk σ (groupAcc k mean g j)) ↔ GoodGroup σ k g j := by
  refine ⟨C145_bad_batch absorbs_x σ k mean g j, fun h => ?_⟩
  rw [finiteTree_mk]
  intro l s hl i hi
  have hfin : ∀ x : XReal, JOps.isfinite x = true → ∃ r, x = XReal.fin r := fun x hx => by
    cases x with
    | fin r => exact ⟨r, rfl⟩
    | _ => exact absurd hx Bool.false_ne_true
  have hacc : ∀ m ≤ k j, ∃ r, accSum (fun n => g n l i) (groupStart k j) m = XReal.fin r := by
    intro m
    induction m with
    | zero => exact fun _ => ⟨0, rfl⟩
    | succ m ih =>
      intro hm
      obtain ⟨r, hr⟩ := ih (by omega)
      have h1 := h (groupStart k j + m) (by omega) (by rw [groupStart_succ]; omega)
      obtain ⟨x, hx⟩ := hfin _ ((finiteTree_mk σ _).1 h1 l s hl i hi)
      exact ⟨x + r, by rw [accSum, hr, hx]; rfl⟩
  obtain ⟨r, hr⟩ := hacc (k j) le_rfl
  unfold groupAcc
  rw [hr]
  cases mean
  · rfl
  · have hkj : ((k j : ℤ) : ℝ) ≠ 0 := by have := hk j; positivity
    show JOps.isfinite (XReal.fin r / XReal.fin ((k j : ℤ) : ℝ)) = true
    have e : XReal.fin r / XReal.fin ((k j : ℤ) : ℝ) = if ((k j : ℤ) : ℝ) = 0 then XReal.infOf r else XReal.fin (r / ((k j : ℤ) : ℝ)) := rfl
    rw [e, if_neg hkj]; rfl

/-! ## Subsequences -/

section
variable {α : Type} [Zero α] [One α] [Add α] [Sub α] [Mul α] [Div α] [Neg α] [JOps α]
open Classical

theorem keep_hist (P : ℕ → Prop) (σ : Spec) (g : ℕ → ℕ → ℕ → α) (pp : ℕ → Option (Params α)) (N : ℕ) :
    keep ((List.range N).map fun n => decide (P n)) (hist σ g pp N) = hist σ (fun i => g (Nat.nth P i)) (fun i => pp (Nat.nth P i)) (Nat.count P N) := by
  induction N with
  | zero => simp [hist]
  | succ N ih =>
    rw [List.range_succ, List.map_append, hist_succ]
    simp only [List.map_cons, List.map_nil]
    rw [keep_snoc _ _ _ _ (by simp), ih, Nat.count_succ]
    by_cases h : P N
    · simp only [h, decide_true, if_true]
      rw [hist_succ, Nat.nth_count h]
    · simp [h]

theorem keep_get {β : Type} (P : ℕ → Prop) (l : List β) (n : ℕ) (hn : n < l.length) (hP : P n) :
    (keep ((List.range l.length).map fun n => decide (P n)) l)[Nat.count P n]? = l[n]? := by
  induction l using List.reverseRecOn with
  | nil => simp at hn
  | append_singleton l x ih =>
    have hlen : (keep ((List.range l.length).map fun n => decide (P n)) l).length = Nat.count P l.length := by
      clear ih hn
      induction l using List.reverseRecOn with
      | nil => simp
      | append_singleton l y ih =>
        rw [List.length_append, List.length_singleton, List.range_succ, List.map_append]
        simp only [List.map_cons, List.map_nil]
        rw [keep_snoc _ _ _ _ (by simp), List.length_append, ih, Nat.count_succ]
        by_cases h : P l.length <;> simp [h]
    rw [List.length_append, List.length_singleton, List.range_succ, List.map_append]
    simp only [List.map_cons, List.map_nil]
    rw [keep_snoc _ _ _ _ (by simp)]
    by_cases h : n < l.length
    · rw [List.getElem?_append_left (by rw [hlen]; exact Nat.count_strict_mono hP h), List.getElem?_append_left h]
      exact ih h
    · have hn' : n = l.length := by simp at hn; omega
      subst hn'
      rw [List.getElem?_append_right (by rw [hlen]), List.getElem?_append_right (le_refl _), hlen]
      simp [hP]

/-- a run of non-finite gradients consists of non-finite gradients -/
theorem streak_all_false (fl : List Bool) (j : ℕ) (hj : j < streak fl) : fl[fl.length - 1 - j]? = some false := by
  induction fl using List.reverseRecOn generalizing j with
  | nil => simp at hj
  | append_singleton fl b ih =>
    rw [streak_snoc] at hj
    cases b
    · simp only [Bool.false_eq_true, if_false] at hj
      cases j with
      | zero => simp
      | succ j =>
        have h1 := ih j (by omega)
        have h2 : fl.length - 1 - j < fl.length := by
          rcases Nat.lt_or_ge (fl.length - 1 - j) fl.length with h | h
          · exact h
          · rw [List.getElem?_eq_none h] at h1; cases h1
        simp only [List.length_append, List.length_singleton]
        rw [show fl.length + 1 - 1 - (j + 1) = fl.length - 1 - j by omega, List.getElem?_append_left h2]
        exact h1
    · simp at hj

/-- without `m + 1` bad ones in a row, exactly the good ones are accepted -/
theorem acceptFlags_few (P : ℕ → Prop) (m N : ℕ) (h : ∀ n, n + m < N → ∃ k, n ≤ k ∧ k ≤ n + m ∧ P k) :
    acceptFlags m ((List.range N).map fun n => decide (P n)) = (List.range N).map fun n => decide (P n) := by
  unfold acceptFlags
  rw [List.length_map, List.length_range]
  refine List.map_congr_left fun i hi => ?_
  rw [List.mem_range] at hi
  have h1 : ((List.range N).map fun n => decide (P n)).getD i true = decide (P i) := by simp [List.getD, List.getElem?_range hi]
  rw [h1]
  have h2 : ¬ ((m : ℤ) < streak (((List.range N).map fun n => decide (P n)).take (i + 1))) := by
    intro hlt
    have hlt' : m < streak (((List.range N).map fun n => decide (P n)).take (i + 1)) := by exact_mod_cast hlt
    have hl : (((List.range N).map fun n => decide (P n)).take (i + 1)).length = i + 1 := by simp; omega
    have hall : ∀ j ≤ m, j ≤ i ∧ ¬ P (i - j) := by
      intro j hj
      have h3 := streak_all_false _ j (lt_of_le_of_lt hj hlt')
      rw [hl] at h3
      have hjs : j < i + 1 := by
        have : streak (((List.range N).map fun n => decide (P n)).take (i + 1)) ≤ i + 1 := by
          unfold streak
          refine (List.takeWhile_prefix _).length_le.trans ?_
          rw [List.length_reverse, hl]
        omega
      refine ⟨by omega, ?_⟩
      rw [List.getElem?_take_of_lt (by omega), List.getElem?_map, List.getElem?_range (by omega)] at h3
      simpa using h3
    obtain ⟨k, hk1, hk2, hk3⟩ := h (i - m) (by have := (hall m le_rfl).1; omega)
    have := (hall m le_rfl).1
    have h4 := (hall (i - k) (by omega)).2
    rw [show i - (i - k) = k by omega] at h4
    exact h4 hk3
  simp [h2]

theorem finiteFlags_hist (σ : Spec) (g : ℕ → ℕ → ℕ → α) (pp : ℕ → Option (Params α)) (N : ℕ) :
    finiteFlags (hist σ g pp N) = (List.range N).map fun n => decide (FiniteTree (mk σ (g n))) := by
  simp [finiteFlags, hist, Function.comp_def]

/-- `apply_if_finite` on a history without `m + 1` consecutive faults, call by call -/
theorem apply_if_finite_few (inner : GT α) (m : ℕ) (σ : Spec) (p0 : ℕ → ℕ → α) (g : ℕ → ℕ → ℕ → α) (pp : ℕ → Option (Params α)) (N : ℕ) (hN : N < 2 ^ 31)
    (hfew : ∀ n, n + m < N → ∃ k, n ≤ k ∧ k ≤ n + m ∧ FiniteTree (mk σ (g k))) (us : List (Params α)) (s : (applyIfFinite inner m).State)
    (hrun : (applyIfFinite inner m).exec (mk σ p0) (hist σ g pp N) = .ok (us, s)) :
    us.length = N ∧ ∃ vs, inner.exec (mk σ p0) (hist σ (fun i => g (Nat.nth (fun n => FiniteTree (mk σ (g n))) i)) (fun i => pp (Nat.nth (fun n => FiniteTree (mk σ (g n))) i))
        (Nat.count (fun n => FiniteTree (mk σ (g n))) N)) = .ok (vs, s.innerState) ∧
      (∀ n < N, FiniteTree (mk σ (g n)) → us[n]? = vs[Nat.count (fun n => FiniteTree (mk σ (g n))) n]?) ∧
      ∀ n < N, ¬ FiniteTree (mk σ (g n)) → us[n]? = some (mk σ (fun _ _ => 0)) := by
  obtain ⟨h1, h2, h3, _⟩ := C14_apply_if_finite inner m (mk σ p0) (hist σ g pp N) (by simpa using hN) us s hrun
  rw [finiteFlags_hist, acceptFlags_few _ m N hfew] at h1 h3
  rw [hist_length] at h2
  rw [keep_hist] at h1
  refine ⟨h2, _, h1, fun n hn hf => ?_, fun n hn hf => ?_⟩
  · have := keep_get (fun n => FiniteTree (mk σ (g n))) us n (by omega) hf
    rw [h2] at this
    exact this.symm
  · rw [h3 n (by rw [List.getElem?_map, List.getElem?_range hn]; simp [hf])]
    rw [hist, List.getElem?_map, List.getElem?_range hn]
    simp [zerosLike_mk]

variable (opt : GT α) (everyK : ℤ → ℤ) (mean : Bool)

/-- **C145 (faults outside).** `apply_if_finite(MultiSteps(opt, k), m)`, no `m + 1` non-finite gradients in a row: the groups are made of the finite gradients only.  With `J` complete groups
of finite gradients so far, `opt` has been run on exactly their accumulations; the call that completes group `j` returns its `j`-th update, every other call zeros: a bad mini-batch
costs one mini-batch. -/
theorem C145_outside (σ : Spec) (p0 : ℕ → ℕ → α) (g : ℕ → ℕ → ℕ → α) (pp : ℕ → Option (Params α)) (k : ℕ → ℕ) (hk : ∀ j, 1 ≤ k j) (hK : ∀ j : ℕ, everyK j = k j) (m N : ℕ)
    (hN : N < 2 ^ 31) (hfew : ∀ n, n + m < N → ∃ k, n ≤ k ∧ k ≤ n + m ∧ FiniteTree (mk σ (g k))) (us : List (Params α)) (s : (applyIfFinite (multiSteps opt everyK mean) m).State)
    (hrun : (applyIfFinite (multiSteps opt everyK mean) m).exec (mk σ p0) (hist σ g pp N) = .ok (us, s)) :
    ∃ J vs, groupStart k J ≤ Nat.count (fun n => FiniteTree (mk σ (g n))) N ∧ Nat.count (fun n => FiniteTree (mk σ (g n))) N < groupStart k (J + 1) ∧
      opt.exec (mk σ p0) (hist σ (groupAcc k mean fun i => g (Nat.nth (fun n => FiniteTree (mk σ (g n))) i)) (fun _ => none) J) = .ok (vs, s.innerState.innerOptState) ∧
      us.length = N ∧
      (∀ n < N, ∀ j, FiniteTree (mk σ (g n)) → Nat.count (fun n => FiniteTree (mk σ (g n))) n + 1 = groupStart k (j + 1) → us[n]? = vs[j]?) ∧
      ∀ n < N, (¬ FiniteTree (mk σ (g n)) ∨ ∀ j, Nat.count (fun n => FiniteTree (mk σ (g n))) n + 1 ≠ groupStart k (j + 1)) → us[n]? = some (mk σ (fun _ _ => 0)) := by
  obtain ⟨hl, ws, h1, h2, h3⟩ := apply_if_finite_few (multiSteps opt everyK mean) m σ p0 g pp N hN hfew us s hrun
  have hcN : Nat.count (fun n => FiniteTree (mk σ (g n))) N ≤ N := Nat.count_le _
  obtain ⟨J, vs, g1, g2, g3, g4, g5, g6, _⟩ := C15_any_arithmetic opt everyK mean σ p0 _ _ k hk hK _ (lt_of_le_of_lt hcN hN) ws s.innerState h1
  refine ⟨J, vs, g1, g2, g3, hl, fun n hn j hf hj => ?_, fun n hn h => ?_⟩
  · rw [h2 n hn hf]
    exact g5 _ (Nat.count_strict_mono hf hn) j hj
  · by_cases hf : FiniteTree (mk σ (g n))
    · rcases h with h | h
      · exact absurd hf h
      · rw [h2 n hn hf]
        exact g6 _ (Nat.count_strict_mono hf hn) h
    · exact h3 n hn hf

end

/-- **C145 (faults inside).** `MultiSteps(apply_if_finite(opt, m), k)` in the extended reals, no `m + 1` groups in a row with a non-finite gradient: every group that contains one is dropped
as a whole.  `opt` has been run on exactly the accumulations of the groups of finite gradients; the call that completes such a group returns the corresponding update, every other
call zeros: a bad mini-batch costs its whole group. -/
theorem C145_inside (opt : GT XReal) (everyK : ℤ → ℤ) (mean : Bool) (σ : Spec) (p0 : ℕ → ℕ → XReal) (g : ℕ → ℕ → ℕ → XReal) (pp : ℕ → Option (Params XReal)) (k : ℕ → ℕ)
    (hk : ∀ j, 1 ≤ k j) (hK : ∀ j : ℕ, everyK j = k j) (m N : ℕ) (hN : N < 2 ^ 31)
    (hfew : ∀ j, groupStart k (j + m + 1) ≤ N → ∃ i, j ≤ i ∧ i ≤ j + m ∧ GoodGroup σ k g i) (us : List (Params XReal))
    (s : (multiSteps (applyIfFinite opt m) everyK mean).State)
    (hrun : (multiSteps (applyIfFinite opt m) everyK mean).exec (mk σ p0) (hist σ g pp N) = .ok (us, s)) :
    ∃ J vs, groupStart k J ≤ N ∧ N < groupStart k (J + 1) ∧ us.length = N ∧ (open Classical in
      opt.exec (mk σ p0) (hist σ (fun i => groupAcc k mean g (Nat.nth (GoodGroup σ k g) i)) (fun _ => none) (Nat.count (GoodGroup σ k g) J)) = .ok (vs, s.innerOptState.innerState) ∧
      (∀ n < N, ∀ j, n + 1 = groupStart k (j + 1) → GoodGroup σ k g j → us[n]? = vs[Nat.count (GoodGroup σ k g) j]?)) ∧
      ∀ n < N, (∀ j, n + 1 = groupStart k (j + 1) → ¬ GoodGroup σ k g j) → us[n]? = some (mk σ (fun _ _ => 0)) := by
  classical
  obtain ⟨J, ws, g1, g2, g3, g4, g5, g6, _⟩ := C15_any_arithmetic (applyIfFinite opt m) everyK mean σ p0 g pp k hk hK N hN us s hrun
  have hmono := groupStart_strictMono k hk
  have hJN : J ≤ N := le_trans (hmono.id_le J) g1
  have hP : (fun n => FiniteTree (mk σ (groupAcc k mean g n))) = GoodGroup σ k g := funext fun j => propext (groupAcc_finite_x σ k hk mean g j)
  obtain ⟨hl, vs, h1, h2, h3⟩ := apply_if_finite_few opt m σ p0 (groupAcc k mean g) (fun _ => none) J (by omega) (fun j hj => by
    obtain ⟨i, hi1, hi2, hi3⟩ := hfew j (le_trans (hmono.monotone (by omega)) g1)
    exact ⟨i, hi1, hi2, (groupAcc_finite_x σ k hk mean g i).2 hi3⟩) ws s.innerOptState g3
  simp only [hP] at h1 h2
  refine ⟨J, vs, g1, g2, g4, ⟨?_, fun n hn j hj hgood => ?_⟩, fun n hn hbad => ?_⟩
  · convert h1 using 4
  · have hjJ : j < J := by
      have : groupStart k (j + 1) < groupStart k (J + 1) := by omega
      have := hmono.lt_iff_lt.mp this
      omega
    rw [g5 n hn j hj, h2 j hjJ ((groupAcc_finite_x σ k hk mean g j).2 hgood)]
  · by_cases hlast : ∃ j, n + 1 = groupStart k (j + 1)
    · obtain ⟨j, hj⟩ := hlast
      have hjJ : j < J := by
        have : groupStart k (j + 1) < groupStart k (J + 1) := by omega
        have := hmono.lt_iff_lt.mp this
        omega
      rw [g5 n hn j hj]
      exact h3 j hjJ fun h => hbad j hj ((groupAcc_finite_x σ k hk mean g j).1 h)
    · exact g6 n hn fun j hj => hlast ⟨j, hj⟩

section
variable {α : Type} [Zero α] [One α] [Add α] [Sub α] [Mul α] [Div α] [Neg α] [JOps α]

/-- **C15** (progress) in any arithmetic -/
theorem C15_preserves_any (opt : GT α) (everyK : ℤ → ℤ) (mean : Bool) (hin : Preserves (fun _ pp => pp = none) opt) :
    Preserves AnyParams (multiSteps opt everyK mean) := by
  intro σ
  obtain ⟨I, h1, h2⟩ := hin σ
  refine ⟨fun s => I s.innerOptState ∧ ∃ a, s.accGrads = mk σ a, ?_, ?_⟩
  · intro p
    obtain ⟨s, hs, hI⟩ := h1 p
    refine ⟨⟨0#32, 0#32, s, zerosLike (mk σ p)⟩, ?_, hI, _, zerosLike_mk _ _⟩
    show (opt.init (mk σ p) >>= _) = _
    rw [hs]; rfl
  · rintro g ⟨ms, gs, is, ac⟩ pp ⟨hI, a, ha⟩ _
    simp only at hI ha
    subst ha
    obtain ⟨u, s', hu, hI'⟩ := h2 (fun l i => if mean then (g l i + a l i) / JOps.ofInt (everyK gs.toInt)
      else g l i + a l i) is none hI rfl
    have hgfu : (if mean then tmap (fun x => x / JOps.ofInt (everyK gs.toInt))
        (mk σ (fun l i => g l i + a l i)) else mk σ (fun l i => g l i + a l i)) =
        mk σ (fun l i => if mean then (g l i + a l i) / JOps.ofInt (everyK gs.toInt)
      else g l i + a l i) := by
      cases mean <;> simp
    have e : ∀ b, (tzip (fun a b => a + b) (mk σ g) (mk σ a) >>= fun acc =>
        condUpd b
          (.ok (zerosLike (mk σ g), (⟨ms + 1#32, gs, is, acc⟩ :
            MultiStepsState α opt.State)))
          (opt.update (if mean then tmap (fun x => x / JOps.ofInt (everyK gs.toInt)) acc
            else acc) is none >>= fun r =>
            .ok (r.1, ⟨0#32, gs + 1#32, r.2, zerosLike acc⟩))) =
        .ok (mk σ (if b then fun _ _ => 0 else u), if b then
          ⟨ms + 1#32, gs, is, mk σ (fun l i => g l i + a l i)⟩ else ⟨0#32, gs + 1#32, s', mk σ fun _ _ => 0⟩) := by
      intro b
      rw [tzip_mk, Res.ok_bind, hgfu, hu, Res.ok_bind, zerosLike_mk, condUpd_mk]
      cases b <;> simp
    refine ⟨_, _, e (decide (ms.toInt < everyK gs.toInt - 1)), ?_⟩
    cases decide (ms.toInt < everyK gs.toInt - 1)
    · exact ⟨hI', _, rfl⟩
    · exact ⟨hI, _, rfl⟩


/-- **C145 (progress).** Around an optimiser that keeps structure and works without params, both nestings run through every history: the hypotheses of `C145_outside` and
`C145_inside` about the run are met. -/
theorem C145_runs (opt : GT α) (hopt : Preserves AnyParams opt) (everyK : ℤ → ℤ) (mean : Bool) (m : ℕ) (σ : Spec) (p0 : ℕ → ℕ → α) (g : ℕ → ℕ → ℕ → α) (pp : ℕ → Option (Params α)) (N : ℕ) :
    (∃ us s, (applyIfFinite (multiSteps opt everyK mean) m).exec (mk σ p0) (hist σ g pp N) = .ok (us, s)) ∧
      ∃ us s, (multiSteps (applyIfFinite opt m) everyK mean).exec (mk σ p0) (hist σ g pp N) = .ok (us, s) := by
  have key : ∀ t : GT α, Preserves AnyParams t → ∃ us s, t.exec (mk σ p0) (hist σ g pp N) = .ok (us, s) := by
    intro t ht
    obtain ⟨U, hU⟩ := ht.outs σ N p0 g pp (fun _ => trivial)
    unfold GT.outs at hU
    cases h : t.exec (mk σ p0) (hist σ g pp N) with
    | error e => rw [h] at hU; cases hU
    | ok r => exact ⟨r.1, r.2, rfl⟩
  exact ⟨key _ (C14_preserves _ m (C15_preserves_any opt everyK mean hopt.any)), key _ (C15_preserves_any _ everyK mean (C14_preserves opt m hopt.any))⟩

end

/-- **C145 (arithmetics).** NaN and infinities absorb in the extended reals and in every floating point format. -/
theorem C145_arithmetics : Absorbs XReal ∧ ∀ F : Format, Absorbs (FP F) := ⟨absorbs_x, absorbs_fp⟩

/-- the patterns of faults allowed by the two theorems, for the gradients 1, NaN, 1, 1, … of a single number in groups of two and `m = 1`: the second gradient is bad, and so is the first group -/
example : (∀ n, n + 1 < 4 → ∃ k, n ≤ k ∧ k ≤ n + 1 ∧ FiniteTree (mk (.leaf []) (fun _ _ : ℕ => if k = 1 then XReal.nan else XReal.fin 1))) ∧
    ¬ GoodGroup (.leaf []) (fun _ => 2) (fun n _ _ => if n = 1 then XReal.nan else XReal.fin 1) 0 ∧
    ∀ j, 1 ≤ j → GoodGroup (.leaf []) (fun _ => 2) (fun n _ _ => if n = 1 then XReal.nan else XReal.fin 1) j := by
  refine ⟨fun n _ => ?_, fun h => ?_, fun j hj n h1 _ => ?_⟩
  · by_cases hn : n = 1
    · exact ⟨n + 1, by omega, le_rfl, (finiteTree_mk _ _).2 fun l s _ i _ => by rw [if_neg (by omega)]; rfl⟩
    · exact ⟨n, le_rfl, by omega, (finiteTree_mk _ _).2 fun l s _ i _ => by rw [if_neg hn]; rfl⟩
  · have h1 := (finiteTree_mk _ _).1 (h 1 (by simp [groupStart]) (by simp [groupStart])) 0 [] rfl 0 (by simp)
    beta_reduce at h1
    rw [if_pos rfl] at h1
    exact absurd h1 Bool.false_ne_true
  · refine (finiteTree_mk _ _).2 fun l s _ i _ => ?_
    have : n ≠ 1 := by
      simp only [groupStart, Finset.sum_const, Finset.card_range, smul_eq_mul] at h1
      omega
    beta_reduce
    rw [if_neg this]; rfl

/-- `sgd` with momentum is an optimiser the theorems apply to -/
example (lr : LR XReal) : Preserves AnyParams (sgd lr (some (XReal.fin (9 / 10))) false) := preserves_two _ _ (preserves_momentum _ _) (preserves_lr lr)

end Optax
