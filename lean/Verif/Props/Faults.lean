import Mathlib.Data.Nat.Nth
import Verif.Props.Wrappers
import Verif.Props.Bind
import Verif.Props.Convergence
import Verif.Props.FloatStationary

/-!
# C143: training with `apply_if_finite` ignores the broken gradients

A closed training loop with `apply_if_finite(opt, m)` some of whose gradients come out NaN or infinite, never more than `m` in a row, is the training loop with `opt`
on the good ones.
-/

set_option linter.unusedSectionVars false
set_option linter.unusedSimpArgs false

namespace Optax
open Classical

section
variable {α : Type} [Zero α] [One α] [Add α] [Sub α] [Mul α] [Div α] [Neg α] [JOps α]

/-- **Specification.** In the training loop from state `s0` and params `p0`, the gradient computed at step `n` (at the params reached there) is finite. -/
def FiniteStep (t : GT α) (grad : ℕ → Params α → Params α) (s0 : t.State) (p0 : Params α) (n : ℕ) : Prop :=
  ∃ p s, trainLoop t grad n s0 p0 = .ok (p, s) ∧ FiniteTree (grad n p)

/-- one call of the wrapper -/
theorem applyIfFinite_step (inner : GT α) (m : ℤ) (σ : Spec) (g : ℕ → ℕ → α) (c tot : BitVec 32) (l : Bool) (i i' : inner.State) (pp : Option (Params α)) (u : ℕ → ℕ → α)
    (hu : inner.update (mk σ g) i pp = .ok (mk σ u, i')) (b : Bool)
    (hb : (allFinite (mk σ g) || decide (m < (if allFinite (mk σ g) then 0#32 else 1#32 + c).toInt)) = b) :
    (applyIfFinite inner m).update (mk σ g) (⟨c, l, tot, i⟩ : ApplyIfFiniteState inner.State) pp =
      .ok (mk σ (if b then u else fun _ _ => 0), (⟨if allFinite (mk σ g) then 0#32 else 1#32 + c, allFinite (mk σ g),
        (if allFinite (mk σ g) then 0#32 else 1#32) + tot, if b then i' else i⟩ : ApplyIfFiniteState inner.State)) := by
  show (condUpd (allFinite (mk σ g) || decide (m < (if allFinite (mk σ g) then 0#32 else 1#32 + c).toInt)) (inner.update (mk σ g) i pp)
    (.ok (zerosLike (mk σ g), _)) >>= _) = _
  rw [hu, zerosLike_mk, condUpd_mk, Res.ok_bind, hb]
  cases b <;> rfl

/-- **C143.** Let adding 0 change nothing (so in exact, extended and floating point arithmetic), `inner` keep structure, and among any `m + 1` consecutive steps of the training loop
with `apply_if_finite(inner, m)` be one with a finite gradient.  Then the loop never fails, and at all times `n` its params and inner state are those of training with `inner` alone
on the gradient functions of the finite steps, after as many steps as there were finite ones before `n`; `total_notfinite` is the number of the others. -/
theorem C143_faults (hz : ∀ x : α, x + 0 = x) (inner : GT α) (hin : Preserves WithParams inner) (m : ℕ) (σ : Spec) (grad : ℕ → Params α → Params α)
    (hg : ∀ n p, ∃ g, grad n (mk σ p) = mk σ g) (p0 : ℕ → ℕ → α) (N : ℕ) (hN : N < 2 ^ 31) :
    ∃ (i0 : inner.State) (s0 : (applyIfFinite inner m).State), inner.init (mk σ p0) = .ok i0 ∧ (applyIfFinite inner m).init (mk σ p0) = .ok s0 ∧
      ((∀ n, n + m < N → ∃ k, n ≤ k ∧ k ≤ n + m ∧ FiniteStep (applyIfFinite inner m) grad s0 (mk σ p0) k) →
        ∀ n ≤ N, ∃ p s, trainLoop (applyIfFinite inner m) grad n s0 (mk σ p0) = .ok (mk σ p, s) ∧
          trainLoop inner (fun j => grad (Nat.nth (FiniteStep (applyIfFinite inner m) grad s0 (mk σ p0)) j))
            (Nat.count (FiniteStep (applyIfFinite inner m) grad s0 (mk σ p0)) n) i0 (mk σ p0) = .ok (mk σ p, s.innerState) ∧
          s.totalNotfinite.toNat + Nat.count (FiniteStep (applyIfFinite inner m) grad s0 (mk σ p0)) n = n) := by
  obtain ⟨I, h1, h2⟩ := hin σ
  obtain ⟨i0, hi0, hI0⟩ := h1 p0
  refine ⟨i0, ⟨0#32, true, 0#32, i0⟩, hi0, ?_, fun hw => ?_⟩
  · show (inner.init (mk σ p0) >>= _) = _
    rw [hi0]; rfl
  set good := FiniteStep (applyIfFinite inner m) grad ⟨0#32, true, 0#32, i0⟩ (mk σ p0) with hgood
  have main : ∀ n ≤ N, ∃ p c l tot i, trainLoop (applyIfFinite inner m) grad n ⟨0#32, true, 0#32, i0⟩ (mk σ p0) = .ok (mk σ p, ⟨c, l, tot, i⟩) ∧
      trainLoop inner (fun j => grad (Nat.nth good j)) (Nat.count good n) i0 (mk σ p0) = .ok (mk σ p, i) ∧ I i ∧ tot.toNat + Nat.count good n = n ∧
      c.toNat ≤ n ∧ ∀ k, n - c.toNat ≤ k → k < n → ¬ good k := by
    intro n
    induction n with
    | zero => exact fun _ => ⟨p0, 0#32, true, 0#32, i0, rfl, by rw [Nat.count_zero]; rfl, hI0, by simp, by simp, by omega⟩
    | succ n ih =>
      intro hn
      obtain ⟨p, c, l, tot, i, h3, h4, h5, h6, h7, h8⟩ := ih (by omega)
      obtain ⟨g, hgn⟩ := hg n p
      obtain ⟨u, i', hu, hI'⟩ := h2 g i (some (mk σ p)) h5 ⟨p, rfl⟩
      have hiff : good n ↔ allFinite (mk σ g) = true := by
        rw [allFinite_iff, ← hgn]
        constructor
        · rintro ⟨p', s', h9, h10⟩
          rw [h3] at h9
          cases h9
          exact h10
        · exact fun h => ⟨_, _, h3, h⟩
      by_cases hgd : good n
      · have hfin := hiff.1 hgd
        have hstep := applyIfFinite_step inner m σ g c tot l i i' (some (mk σ p)) u hu true (by rw [hfin]; rfl)
        rw [hfin] at hstep
        simp only [if_true] at hstep
        refine ⟨_, _, _, _, i', trainLoop_succ _ grad n _ _ _ _ _ _ _ h3 (by rw [hgn]; exact hstep) (C06_apply_updates σ p u), ?_, hI', ?_, by simp, by simp; omega⟩
        · rw [Nat.count_succ, if_pos hgd]
          refine trainLoop_succ inner (fun j => grad (Nat.nth good j)) _ _ _ _ _ _ _ _ h4 ?_ (C06_apply_updates σ p u)
          rw [Nat.nth_count hgd, hgn]
          exact hu
        · rw [Nat.count_succ, if_pos hgd, BitVec.zero_add]
          omega
      · have hfin : allFinite (mk σ g) = false := Bool.eq_false_iff.2 fun h => hgd (hiff.2 h)
        have hc : (1#32 + c).toNat = c.toNat + 1 := bv_succ_toNat c (by omega)
        have hbad : ∀ k, n - c.toNat ≤ k → k < n + 1 → ¬ good k := fun k hk1 hk2 => by
          rcases Nat.lt_succ_iff_lt_or_eq.1 hk2 with h | rfl
          · exact h8 k hk1 h
          · exact hgd
        have hcm : c.toNat + 1 ≤ m := by
          by_contra hcon
          push Not at hcon
          have hmn : m ≤ n := by omega
          obtain ⟨k, hk1, hk2, hk3⟩ := hw (n - m) (by omega)
          exact hbad k (by omega) (by omega) hk3
        have hstep := applyIfFinite_step inner m σ g c tot l i i' (some (mk σ p)) u hu false (by
          rw [hfin]
          simp only [Bool.false_eq_true, if_false, Bool.false_or, decide_eq_false_iff_not, not_lt]
          rw [bv_toInt_small _ (by omega), hc]
          exact_mod_cast hcm)
        rw [hfin] at hstep
        simp only [Bool.false_eq_true, if_false] at hstep
        have happ : applyUpdates (mk σ p) (mk σ (fun _ _ => (0 : α))) = .ok (mk σ p) := by
          rw [C06_apply_updates]
          congr 1
          exact mk_congr fun k s _ j _ => hz _
        refine ⟨p, _, _, _, i, trainLoop_succ _ grad n _ _ _ _ _ _ _ h3 (by rw [hgn]; exact hstep) happ, ?_, h5, ?_, by rw [hc]; omega, ?_⟩
        · rw [Nat.count_succ, if_neg hgd]; exact h4
        · rw [Nat.count_succ, if_neg hgd, bv_succ_toNat tot (by omega)]
          omega
        · rw [hc]
          exact fun k hk1 hk2 => hbad k (by omega) hk2
  intro n hn
  obtain ⟨p, c, l, tot, i, h3, h4, _, h6, _⟩ := main n hn
  exact ⟨p, _, h3, h4, h6⟩

end

/-- adding zero changes nothing in the three arithmetics -/
theorem C143_arithmetics : (∀ x : ℝ, x + 0 = x) ∧ (∀ x : XReal, x + 0 = x) ∧ ∀ (F : Format) (x : FP F), x + 0 = x := by
  refine ⟨fun x => add_zero x, fun x => ?_, fun F x => FP.add_zero x⟩
  cases x <;> first | rfl | (show XReal.fin (_ + 0) = _; rw [add_zero])

/-- finite numbers of the extended reals -/
def finTree (p : ℕ → ℕ → ℝ) : ℕ → ℕ → XReal := fun k i => XReal.fin (p k i)

theorem finiteTree_fin (σ : Spec) (p : ℕ → ℕ → ℝ) : FiniteTree (mk σ (finTree p)) := by
  intro x hx a ha
  unfold mk PyTree.mapIdx at hx
  rw [PyTree.leaves_mapIdxFrom, List.mem_mapIdx] at hx
  obtain ⟨k, hk, rfl⟩ := hx
  simp only [Tensor.tens, List.mem_map] at ha
  obtain ⟨i, -, rfl⟩ := ha
  rfl

theorem sgd_update_x (σ : Spec) (lr : XReal) (nes : Bool) (g : ℕ → ℕ → XReal) (pp : Option (Params XReal)) :
    (sgd (.scalar lr) none nes).update (mk σ g) (some ((⟨⟩ : EmptyState), some ((⟨⟩ : EmptyState), (0 : ℕ)))) pp =
      .ok (mk σ fun k i => -lr * g k i, some ((⟨⟩ : EmptyState), some ((⟨⟩ : EmptyState), (0 : ℕ)))) := by
  refine (chain_two_update identity (scale (-lr)) (mk σ g) ⟨⟩ ⟨⟩ pp).trans ?_
  have h1 : (identity (α := XReal)).update (mk σ g) ⟨⟩ pp = .ok (mk σ g, ⟨⟩) := rfl
  rw [h1, Res.ok_bind, scale_update_mk, Res.ok_bind]
  rfl

/-- **C143 (convergence through faults).** In the extended reals (NaN and infinities as in IEEE), let the gradients of an `L`-smooth `μ`-strongly convex loss be replaced, at the steps of any
set `B` without `m + 1` consecutive elements, by anything not finite, even depending on the params.  Then `apply_if_finite(sgd(η), m)`, `ηL ≤ 1`, visits finite params at all
times and converges to the minimiser at the rate `1 - ημ` per good step, hence per `m + 1` steps. -/
theorem C143_rate (σ : Spec) (η : ℝ) (nes : Bool) (L μ : ℝ) (hη : 0 ≤ η) (hL : L * η ≤ 1) (hμ0 : 0 ≤ μ) (hμ : η * μ ≤ 1) (m : ℕ) (B : Set ℕ)
    (hB : ∀ n, ∃ k, n ≤ k ∧ k ≤ n + m ∧ k ∉ B) (loss : Params ℝ → ℝ) (G : (ℕ → ℕ → ℝ) → ℕ → ℕ → ℝ) (hs : Smooth σ L loss G) (hc : StronglyConvex σ μ loss G)
    (grad : ℕ → Params XReal → Params XReal) (hgood : ∀ n, n ∉ B → ∀ p, grad n (mk σ (finTree p)) = mk σ (finTree (G p)))
    (hbad : ∀ n ∈ B, ∀ p, ∃ g, grad n (mk σ (finTree p)) = mk σ g ∧ ¬ FiniteTree (mk σ g))
    (p0 q : ℕ → ℕ → ℝ) (hq : ∀ t, loss (mk σ q) ≤ loss t) :
    ∃ (P : ℕ → ℕ → ℕ → ℝ) (s0 : (applyIfFinite (sgd (.scalar (XReal.fin η)) none nes) m).State), P 0 = p0 ∧
      (applyIfFinite (sgd (.scalar (XReal.fin η)) none nes) m).init (mk σ (finTree p0)) = .ok s0 ∧
      ∀ n < 2 ^ 31, (∃ s, trainLoop (applyIfFinite (sgd (.scalar (XReal.fin η)) none nes) m) grad n s0 (mk σ (finTree p0)) = .ok (mk σ (finTree (P n)), s)) ∧
        treeDist σ (P n) q ^ 2 ≤ (1 - η * μ) ^ Nat.count (fun k => k ∉ B) n * treeDist σ p0 q ^ 2 ∧
        treeDist σ (P n) q ^ 2 ≤ (1 - η * μ) ^ (n / (m + 1)) * treeDist σ p0 q ^ 2 := by
  set good : ℕ → Prop := fun k => k ∉ B with hgd
  set Q := plainSgd (fun _ => η) (fun _ => G) p0 with hQ
  have hstep : ∀ n, Q (n + 1) = fun k i => Q n k i - η * G (Q n) k i := fun n => rfl
  have hrate : ∀ N, treeDist σ (Q N) q ^ 2 ≤ (1 - η * μ) ^ N * treeDist σ p0 q ^ 2 := by
    intro N
    rw [← sqDist_eq, ← sqDist_eq]
    induction N with
    | zero => simp [hQ, plainSgd]
    | succ N ih =>
      have h1 := convex_step σ hs hc (Q N) q η hη hL
      rw [← hstep] at h1
      have h2 := hq (mk σ (Q (N + 1)))
      have h3 : 0 ≤ 2 * η * (loss (mk σ (Q (N + 1))) - loss (mk σ q)) := by
        apply mul_nonneg <;> linarith
      have h4 := mul_le_mul_of_nonneg_left ih (show 0 ≤ 1 - η * μ by linarith)
      rw [pow_succ']
      linarith
  have hcount : ∀ j : ℕ, j ≤ Nat.count good (j * (m + 1)) := by
    intro j
    induction j with
    | zero => simp
    | succ j ih =>
      obtain ⟨k, hk1, hk2, hk3⟩ := hB (j * (m + 1))
      have h1 : Nat.count good (j * (m + 1)) ≤ Nat.count good k := Nat.count_monotone good hk1
      have h2 : Nat.count good k < Nat.count good ((j + 1) * (m + 1)) := Nat.count_strict_mono (show good k from hk3) (by rw [add_mul]; omega)
      omega
  set st : (sgd (.scalar (XReal.fin η)) none nes).State := some ((⟨⟩ : EmptyState), some ((⟨⟩ : EmptyState), (0 : ℕ))) with hst
  refine ⟨fun n => Q (Nat.count good n), ⟨0#32, true, 0#32, st⟩, ?_, rfl, fun n hn => ⟨?_, hrate _, ?_⟩⟩
  · show Q (Nat.count good 0) = p0
    rw [Nat.count_zero]; rfl
  · have main : ∀ n < 2 ^ 31, ∃ c l tot, trainLoop (applyIfFinite (sgd (.scalar (XReal.fin η)) none nes) m) grad n ⟨0#32, true, 0#32, st⟩ (mk σ (finTree p0)) =
        .ok (mk σ (finTree (Q (Nat.count good n))), ⟨c, l, tot, st⟩) ∧ c.toNat ≤ n ∧ ∀ k, n - c.toNat ≤ k → k < n → k ∈ B := by
      intro n
      induction n with
      | zero => exact fun _ => ⟨0#32, true, 0#32, by rw [Nat.count_zero]; rfl, by simp, by omega⟩
      | succ n ih =>
        intro hn
        obtain ⟨c, l, tot, h3, h7, h8⟩ := ih (by omega)
        by_cases hnB : n ∈ B
        · obtain ⟨g, hgn, hnf⟩ := hbad n hnB (Q (Nat.count good n))
          have hfin : allFinite (mk σ g) = false := Bool.eq_false_iff.2 fun h => hnf ((allFinite_iff _).1 h)
          have hc' : (1#32 + c).toNat = c.toNat + 1 := bv_succ_toNat c (by omega)
          have hb' : ∀ k, n - c.toNat ≤ k → k < n + 1 → k ∈ B := fun k hk1 hk2 => by
            rcases Nat.lt_succ_iff_lt_or_eq.1 hk2 with h | rfl
            · exact h8 k hk1 h
            · exact hnB
          have hcm : c.toNat + 1 ≤ m := by
            by_contra hcon
            push Not at hcon
            obtain ⟨k, hk1, hk2, hk3⟩ := hB (n - c.toNat)
            by_cases hk : k ≤ n
            · exact hk3 (hb' k hk1 (by omega))
            · omega
          have hup := applyIfFinite_step (sgd (.scalar (XReal.fin η)) none nes) m σ g c tot l st st (some (mk σ (finTree (Q (Nat.count good n))))) _
            (sgd_update_x σ (XReal.fin η) nes g _) false (by
              rw [hfin]
              simp only [Bool.false_eq_true, if_false, Bool.false_or, decide_eq_false_iff_not, not_lt]
              rw [bv_toInt_small _ (by omega), hc']
              exact_mod_cast hcm)
          rw [hfin] at hup
          simp only [Bool.false_eq_true, if_false] at hup
          have happ : applyUpdates (mk σ (finTree (Q (Nat.count good n)))) (mk σ (fun _ _ => (0 : XReal))) = .ok (mk σ (finTree (Q (Nat.count good n)))) := by
            rw [C06_apply_updates]
            congr 1
            exact mk_congr fun k s _ j _ => C143_arithmetics.2.1 _
          refine ⟨_, _, _, trainLoop_succ _ grad n _ _ _ _ _ _ _ h3 (by rw [hgn]; exact hup) ?_, by rw [hc']; omega, by rw [hc']; exact fun k hk1 hk2 => hb' k (by omega) hk2⟩
          rw [Nat.count_succ, if_neg (show ¬ good n from fun h => h hnB)]
          exact happ
        · have hgn := hgood n hnB (Q (Nat.count good n))
          have hfin : allFinite (mk σ (finTree (G (Q (Nat.count good n))))) = true := (allFinite_iff _).2 (finiteTree_fin σ _)
          have hup := applyIfFinite_step (sgd (.scalar (XReal.fin η)) none nes) m σ (finTree (G (Q (Nat.count good n)))) c tot l st st
            (some (mk σ (finTree (Q (Nat.count good n))))) _ (sgd_update_x σ (XReal.fin η) nes _ _) true (by rw [hfin]; rfl)
          rw [hfin] at hup
          simp only [if_true] at hup
          refine ⟨_, _, _, trainLoop_succ _ grad n _ _ _ _ _ _ _ h3 (by rw [hgn]; exact hup) ?_, by simp, by simp; omega⟩
          rw [Nat.count_succ, if_pos (show good n from hnB), C06_apply_updates, hstep]
          congr 1
          refine mk_congr fun k s _ j _ => ?_
          show XReal.fin (Q (Nat.count good n) k j + -η * G (Q (Nat.count good n)) k j) = XReal.fin (Q (Nat.count good n) k j - η * G (Q (Nat.count good n)) k j)
          congr 1; ring
    obtain ⟨c, l, tot, h, _⟩ := main n hn
    exact ⟨_, h⟩
  · refine (hrate _).trans (mul_le_mul_of_nonneg_right (pow_le_pow_of_le_one (by linarith) (by nlinarith) ?_) (sq_nonneg _))
    exact (hcount _).trans (Nat.count_monotone good (Nat.div_mul_le_self n (m + 1)))

/-- **C143 (giving up).** The bound on consecutive failures is sharp: if all gradients are NaN, `apply_if_finite(sgd(η), m)` leaves the params alone for `m` steps, and the next step
makes every one of them NaN. -/
theorem C143_gives_up (σ : Spec) (lr : XReal) (nes : Bool) (m : ℕ) (hm : m < 2 ^ 31 - 1) (hσ : 0 < (idx σ).card) (p0 : ℕ → ℕ → XReal) :
    ∃ s0 : (applyIfFinite (sgd (.scalar lr) none nes) m).State, (applyIfFinite (sgd (.scalar lr) none nes) m).init (mk σ p0) = .ok s0 ∧
      (∀ n ≤ m, ∃ s, trainLoop (applyIfFinite (sgd (.scalar lr) none nes) m) (fun _ _ => mk σ (fun _ _ => XReal.nan)) n s0 (mk σ p0) = .ok (mk σ p0, s)) ∧
      ∃ s, trainLoop (applyIfFinite (sgd (.scalar lr) none nes) m) (fun _ _ => mk σ (fun _ _ => XReal.nan)) (m + 1) s0 (mk σ p0) = .ok (mk σ (fun _ _ => XReal.nan), s) := by
  set st : (sgd (.scalar lr) none nes).State := some ((⟨⟩ : EmptyState), some ((⟨⟩ : EmptyState), (0 : ℕ))) with hst
  obtain ⟨x, hx⟩ := Finset.card_pos.1 hσ
  obtain ⟨sh, hk, hj⟩ := mem_idx.1 hx
  have hfin : allFinite (mk σ (fun _ _ => XReal.nan)) = false := by
    refine Bool.eq_false_iff.2 fun h => ?_
    have h1 := (allFinite_iff _).1 h
    have h2 : Tensor.tens sh (fun _ => XReal.nan) ∈ (mk σ (fun _ _ => XReal.nan)).leaves := by
      unfold mk PyTree.mapIdx
      rw [PyTree.leaves_mapIdxFrom, List.mem_mapIdx]
      obtain ⟨hlt, he⟩ := List.getElem?_eq_some_iff.1 hk
      exact ⟨x.1, hlt, by simp [he]⟩
    have h3 := h1 _ h2 XReal.nan (by
      simp only [Tensor.tens, List.mem_map, List.mem_range]
      exact ⟨x.2, hj, trivial⟩)
    cases h3
  have hstep : ∀ (c tot : BitVec 32) (l b : Bool), decide ((m : ℤ) < (1#32 + c).toInt) = b →
      (applyIfFinite (sgd (.scalar lr) none nes) m).update (mk σ (fun _ _ => XReal.nan)) ⟨c, l, tot, st⟩ (some (mk σ p0)) =
        .ok (mk σ (if b then fun _ _ => -lr * XReal.nan else fun _ _ => 0), ⟨1#32 + c, false, 1#32 + tot, st⟩) := by
    intro c tot l b hb
    have h := applyIfFinite_step (sgd (.scalar lr) none nes) m σ (fun _ _ => XReal.nan) c tot l st st (some (mk σ p0)) _
      (sgd_update_x σ lr nes (fun _ _ => XReal.nan) _) b (by rw [hfin]; exact hb)
    rw [hfin] at h
    refine h.trans ?_
    cases b <;> rfl
  have main : ∀ n ≤ m, ∃ c l tot, trainLoop (applyIfFinite (sgd (.scalar lr) none nes) m) (fun _ _ => mk σ (fun _ _ => XReal.nan)) n ⟨0#32, true, 0#32, st⟩ (mk σ p0) =
      .ok (mk σ p0, ⟨c, l, tot, st⟩) ∧ c.toNat = n := by
    intro n
    induction n with
    | zero => exact fun _ => ⟨0#32, true, 0#32, rfl, rfl⟩
    | succ n ih =>
      intro hn
      obtain ⟨c, l, tot, h3, h4⟩ := ih (by omega)
      have hc' : (1#32 + c).toNat = c.toNat + 1 := bv_succ_toNat c (by omega)
      refine ⟨_, _, _, trainLoop_succ _ _ n _ _ _ _ _ _ _ h3 (hstep c tot l false (by
        simp only [decide_eq_false_iff_not, not_lt]
        rw [bv_toInt_small _ (by omega), hc', h4]
        exact_mod_cast hn)) ?_, by rw [hc', h4]⟩
      rw [C06_apply_updates]
      congr 1
      exact mk_congr fun k s _ j _ => C143_arithmetics.2.1 _
  refine ⟨⟨0#32, true, 0#32, st⟩, rfl, fun n hn => ?_, ?_⟩
  · obtain ⟨c, l, tot, h, _⟩ := main n hn
    exact ⟨_, h⟩
  · obtain ⟨c, l, tot, h3, h4⟩ := main m le_rfl
    have hc' : (1#32 + c).toNat = c.toNat + 1 := bv_succ_toNat c (by omega)
    refine ⟨_, trainLoop_succ _ _ m _ _ _ _ _ _ _ h3 (hstep c tot l true (by
      simp only [decide_eq_true_eq]
      rw [bv_toInt_small _ (by omega), hc', h4]
      push_cast; omega)) ?_⟩
    rw [C06_apply_updates]
    congr 1
    refine mk_congr fun k s _ j _ => ?_
    simp only [if_true]
    show p0 k j + -lr * XReal.nan = XReal.nan
    have h1 : -lr * XReal.nan = XReal.nan := by cases -lr <;> rfl
    rw [h1]
    cases p0 k j <;> rfl

/-- a set without two consecutive elements: the even steps are broken, `m = 1` -/
example : ∀ n, ∃ k, n ≤ k ∧ k ≤ n + 1 ∧ k ∉ {n : ℕ | n % 2 = 0} := fun n => by
  rcases Nat.mod_two_eq_zero_or_one n with h | h
  · exact ⟨n + 1, by omega, le_rfl, by show ¬ _ % 2 = 0; omega⟩
  · exact ⟨n, le_rfl, by omega, by show ¬ _ % 2 = 0; omega⟩

end Optax
