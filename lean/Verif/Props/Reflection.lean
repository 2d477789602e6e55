import Verif.Props.Locality
import Verif.Props.AliasReal
import Verif.Props.AGC
import Verif.Lemmas.SM3

/-!
# C128: reflecting coordinates

Which sign a parameter is given is a convention.  Negating any set of coordinates, in parameters and gradients, negates the same coordinates of every update.
-/

set_option linter.unusedSectionVars false
set_option linter.unusedSimpArgs false

namespace Optax
open Finset

/-- the tree entries with the signs `ε` -/
def flip (ε : ℕ → ℕ → ℝ) (w : ℕ → ℕ → ℝ) : ℕ → ℕ → ℝ := fun k i => ε k i * w k i

/-- a choice of signs: every coordinate is kept or negated -/
def Signs (ε : ℕ → ℕ → ℝ) : Prop := ∀ k i, ε k i = 1 ∨ ε k i = -1

/-- a history with the signs `ε` -/
def flipH (ε : ℕ → ℕ → ℝ) (h : List ((ℕ → ℕ → ℝ) × Option (ℕ → ℕ → ℝ))) : List ((ℕ → ℕ → ℝ) × Option (ℕ → ℕ → ℝ)) :=
  h.map (fun c => (flip ε c.1, c.2.map (flip ε)))

theorem flip_zero (ε : ℕ → ℕ → ℝ) : flip ε (fun _ _ => 0) = fun _ _ => 0 := by funext k i; simp [flip]

variable (σ : Spec)

/-- related results of one step -/
def FlStep (ε : ℕ → ℕ → ℝ) {S : Type} (R : S → S → Prop) (a b : Res (Params ℝ × S)) : Prop :=
  Res.Rel (fun a b => (∃ u, a.1 = mk σ (flip ε u) ∧ b.1 = mk σ u) ∧ R a.2 b.2) a b

/-- proof principle: the transformation commutes with the signs -/
def Reflects (ε : ℕ → ℕ → ℝ) (t : GT ℝ) : Prop :=
  ∃ R : t.State → t.State → Prop,
    (∀ v, Res.Rel R (t.init (mk σ (flip ε v))) (t.init (mk σ v))) ∧
    ∀ g s s' (pp : Option (ℕ → ℕ → ℝ)), R s s' →
      FlStep σ ε R (t.update (mk σ (flip ε g)) s (pp.map (fun p => mk σ (flip ε p)))) (t.update (mk σ g) s' (pp.map (fun p => mk σ p)))

section general
variable {σ} {ε : ℕ → ℕ → ℝ}

theorem Reflects.chain (ts : List (GT ℝ)) (h : ∀ t ∈ ts, Reflects σ ε t) : Reflects σ ε (chain ts) := by
  suffices H : ∃ R : ChainState ts → ChainState ts → Prop,
      (∀ v, Res.Rel R (chainInit ts (mk σ (flip ε v))) (chainInit ts (mk σ v))) ∧
      (∀ s s', R s s' → ChainState.length ts s = ts.length ∧ ChainState.length ts s' = ts.length) ∧
      ∀ g s s' (pp : Option (ℕ → ℕ → ℝ)), R s s' →
        FlStep σ ε R
          (chainLoop ts (mk σ (flip ε g)) s (pp.map (fun p => mk σ (flip ε p))))
          (chainLoop ts (mk σ g) s' (pp.map (fun p => mk σ p))) by
    obtain ⟨R, h1, h2, h3⟩ := H
    refine ⟨R, h1, ?_⟩
    intro g s s' pp hs
    obtain ⟨l1, l2⟩ := h2 s s' hs
    show FlStep σ ε R (if ChainState.length ts s ≠ ts.length then valueError else _)
      (if ChainState.length ts s' ≠ ts.length then valueError else _)
    rw [if_neg (by simp [l1]), if_neg (by simp [l2])]
    exact h3 g s s' pp hs
  induction ts with
  | nil =>
    refine ⟨fun s s' => s = (0 : ℕ) ∧ s' = (0 : ℕ), fun v => ⟨rfl, rfl⟩, ?_, ?_⟩
    · rintro s s' ⟨rfl, rfl⟩; exact ⟨rfl, rfl⟩
    · rintro g s s' pp ⟨rfl, rfl⟩; exact ⟨⟨g, rfl, rfl⟩, rfl, rfl⟩
  | cons t ts ih =>
    obtain ⟨R, a1, a2⟩ := h t (by simp)
    obtain ⟨Q, b1, b2, b3⟩ := ih (fun t ht => h t (by simp [ht]))
    refine ⟨fun s s' => ∃ x r x' r', s = some (x, r) ∧ s' = some (x', r') ∧ R x x' ∧ Q r r', ?_, ?_, ?_⟩
    · intro v
      simp only [chainInit]
      rcases Res.rel_ok (a1 v) with ⟨x, y, hx, hy, hxy⟩ | ⟨e, hx, hy⟩
      · rw [hx, hy]
        simp only [Res.ok_bind]
        rcases Res.rel_ok (b1 v) with ⟨x', y', hx', hy', hxy'⟩ | ⟨e, hx', hy'⟩
        · rw [hx', hy']
          exact ⟨x, x', y, y', rfl, rfl, hxy, hxy'⟩
        · rw [hx', hy']; rfl
      · rw [hx, hy]; rfl
    · rintro s s' ⟨x, r, x', r', rfl, rfl, _, hq⟩
      obtain ⟨l1, l2⟩ := b2 r r' hq
      exact ⟨by simp [ChainState.length, l1, Nat.add_comm], by simp [ChainState.length, l2, Nat.add_comm]⟩
    · rintro g s s' pp ⟨x, r, x', r', rfl, rfl, hx, hq⟩
      simp only [chainLoop]
      rcases Res.rel_ok (a2 g x x' pp hx) with ⟨⟨a1, a2⟩, ⟨b1, b2⟩, ha, hb, ⟨u, hu1, hu2⟩, hr⟩ | ⟨e, ha, hb⟩
      · rw [ha, hb]
        simp only at hu1 hu2 hr
        subst hu1 hu2
        simp only [Res.ok_bind]
        rcases Res.rel_ok (b3 u r r' pp hq) with ⟨y, y', hy, hy', h3, h4⟩ | ⟨e, hy, hy'⟩
        · rw [hy, hy']
          exact ⟨h3, a2, y.2, b2, y'.2, rfl, rfl, hr, h4⟩
        · rw [hy, hy']; rfl
      · rw [ha, hb]; rfl

theorem fl_intro {S : Type} {R : S → S → Prop} {s s' : S} {u u' : ℕ → ℕ → ℝ} {a b : Res (Params ℝ × S)}
    (hb : b = .ok (mk σ u, s')) (ha : a = .ok (mk σ u', s)) (hu : ∀ k sh, σ.leaves[k]? = some sh → ∀ i < sh.prod, u' k i = ε k i * u k i)
    (hR : R s s') : FlStep σ ε R a b := by
  subst ha hb
  exact ⟨⟨u, mk_congr hu, rfl⟩, hR⟩

theorem Reflects.run {t : GT ℝ} {R : t.State → t.State → Prop}
    (hR : ∀ g s s' (pp : Option (ℕ → ℕ → ℝ)), R s s' →
      FlStep σ ε R (t.update (mk σ (flip ε g)) s (pp.map (fun p => mk σ (flip ε p)))) (t.update (mk σ g) s' (pp.map (fun p => mk σ p))))
    (h : List ((ℕ → ℕ → ℝ) × Option (ℕ → ℕ → ℝ))) : ∀ s s', R s s' →
      (∃ (U : List (ℕ → ℕ → ℝ)) (x x' : t.State), t.run s' (calls σ h) = .ok (U.map (mk σ), x') ∧
        t.run s (calls σ (flipH ε h)) = .ok (U.map (fun u => mk σ (flip ε u)), x)) ∨
      ∃ e, t.run s' (calls σ h) = .error e ∧ t.run s (calls σ (flipH ε h)) = .error e := by
  induction h with
  | nil => intro s s' _; exact .inl ⟨[], s, s', rfl, rfl⟩
  | cons c h ih =>
    intro s s' hs
    have h1 := hR c.1 s s' c.2 hs
    have e1 : c.2.map (fun p => mk σ (flip ε p)) = (c.2.map (flip ε)).map (mk σ) := by cases c.2 <;> rfl
    rw [e1] at h1
    have c1 : calls σ (c :: h) = (mk σ c.1, c.2.map (mk σ)) :: calls σ h := rfl
    have c2 : calls σ (flipH ε (c :: h)) = (mk σ (flip ε c.1), (c.2.map (flip ε)).map (mk σ)) :: calls σ (flipH ε h) := rfl
    rw [c1, c2, GT.run_cons, GT.run_cons]
    rcases Res.rel_ok h1 with ⟨x, y, hx, hy, ⟨u, hu1, hu2⟩, hxy⟩ | ⟨e, hx, hy⟩
    · have hx' : t.update (mk σ (flip ε c.1)) s ((c.2.map (flip ε)).map (mk σ)) = .ok x := hx
      have hy' : t.update (mk σ c.1) s' (c.2.map (mk σ)) = .ok y := hy
      simp only [hx', hy', Res.ok_bind]
      rcases ih x.2 y.2 hxy with ⟨U, z, z', hU, hU'⟩ | ⟨e, hU, hU'⟩
      · refine .inl ⟨u :: U, z, z', ?_, ?_⟩
        · simp only [hU, Res.ok_bind, Res.pure_eq, List.map_cons, hu2]
        · simp only [hU', Res.ok_bind, Res.pure_eq, List.map_cons, hu1]
      · refine .inr ⟨e, ?_, ?_⟩
        · simp only [hU, Res.error_bind]
        · simp only [hU', Res.error_bind]
    · have hx' : t.update (mk σ (flip ε c.1)) s ((c.2.map (flip ε)).map (mk σ)) = .error e := hx
      have hy' : t.update (mk σ c.1) s' (c.2.map (mk σ)) = .error e := hy
      refine .inr ⟨e, ?_, ?_⟩
      · simp only [hy', Res.error_bind]
      · simp only [hx', Res.error_bind]

/-! ### the transformations -/

variable (hε : Signs ε)
include hε

theorem Signs.sq (k i : ℕ) : ε k i * ε k i = 1 := by rcases hε k i with h | h <;> rw [h] <;> norm_num

theorem Signs.mul_sq (k i : ℕ) (x : ℝ) : ε k i * x * (ε k i * x) = x * x := by
  have := Signs.sq hε k i
  linear_combination (x * x) * this

theorem Signs.ipow2 (k i : ℕ) (x : ℝ) : ipow (ε k i * x) 2 = ipow x 2 := by
  rw [ipow_eq_pow, ipow_eq_pow, pow_two, pow_two]; exact Signs.mul_sq hε k i x

theorem Signs.pow2 (k i : ℕ) (x : ℝ) : (ε k i * x) ^ 2 = x ^ 2 := by
  rw [pow_two, pow_two]; exact Signs.mul_sq hε k i x

omit hε in
theorem ipow_one' (x : ℝ) : ipow x 1 = x := by rw [ipow_eq_pow, pow_one]

theorem fl_identity : Reflects σ ε identity := ⟨fun _ _ => True, fun _ => trivial, fun g _ _ _ _ => ⟨⟨g, rfl, rfl⟩, trivial⟩⟩

theorem fl_trace (d : ℝ) (nes : Bool) : Reflects σ ε (trace d nes none) :=
  ⟨fun s s' => ∃ m, s' = ⟨mk σ m⟩ ∧ s = ⟨mk σ (flip ε m)⟩, fun v => by
    rw [trace_init_mk, trace_init_mk]
    exact ⟨fun _ _ => 0, rfl, by rw [flip_zero]; rfl⟩, by
    rintro g _ _ pp ⟨m, rfl, rfl⟩
    refine fl_intro (trace_update_mk σ g m _ _ _ _) (trace_update_mk σ (flip ε g) (flip ε m) _ _ _ _) ?_ ?_
    · intro k _ _ i _
      simp only [flip]; split <;> ring
    · refine ⟨_, rfl, ?_⟩
      congr 1
      refine mk_congr fun k _ _ i _ => ?_
      simp only [flip, Option.getD_none, id_eq]; ring⟩

theorem fl_ema (d : ℝ) (deb : Bool) : Reflects σ ε (ema d deb none) :=
  ⟨fun s s' => ∃ c m, s' = ⟨c, mk σ m⟩ ∧ s = ⟨c, mk σ (flip ε m)⟩, fun v => by
    rw [ema_init_mk, ema_init_mk]
    exact ⟨_, fun _ _ => 0, rfl, by rw [flip_zero]; rfl⟩, by
    rintro g _ _ pp ⟨c, m, rfl, rfl⟩
    refine fl_intro (ema_update_mk σ g m _ _ _ _ _) (ema_update_mk σ (flip ε g) (flip ε m) _ _ _ _ _) ?_ ?_
    · intro k _ _ i _
      simp only [flip, ipow_one']; split <;> ring
    · refine ⟨_, _, rfl, ?_⟩
      congr 1
      refine mk_congr fun k _ _ i _ => ?_
      simp only [flip, Option.getD_none, id_eq, ipow_one']; ring⟩

theorem fl_rss (a eps : ℝ) : Reflects σ ε (scaleByRss a eps) :=
  ⟨fun s s' => ∃ m, s' = ⟨mk σ m⟩ ∧ s = ⟨mk σ m⟩, fun v => by
    rw [rss_init_mk, rss_init_mk]
    exact ⟨fun _ _ => a, rfl, rfl⟩, by
    rintro g _ _ pp ⟨m, rfl, rfl⟩
    refine fl_intro (rss_update_mk σ g m _ _ _) (rss_update_mk σ (flip ε g) m _ _ _) ?_ ?_
    · intro k _ _ i _
      simp only [flip, Signs.mul_sq hε]; ring
    · exact ⟨_, rfl, by simp only [flip, Signs.mul_sq hε]⟩⟩

theorem fl_rms (d eps a : ℝ) : Reflects σ ε (scaleByRms d eps a) :=
  ⟨fun s s' => ∃ m, s' = ⟨mk σ m⟩ ∧ s = ⟨mk σ m⟩, fun v => by
    rw [rms_init_mk, rms_init_mk]
    exact ⟨fun _ _ => a, rfl, rfl⟩, by
    rintro g _ _ pp ⟨m, rfl, rfl⟩
    refine fl_intro (rms_update_mk σ g m _ _ _ _) (rms_update_mk σ (flip ε g) m _ _ _ _) ?_ ?_
    · intro k _ _ i _
      simp only [flip, Signs.ipow2 hε]; ring
    · exact ⟨_, rfl, by simp only [flip, Signs.ipow2 hε]⟩⟩

theorem fl_stddev (d eps a : ℝ) : Reflects σ ε (scaleByStddev d eps a) :=
  ⟨fun s s' => ∃ m n, s' = ⟨mk σ m, mk σ n⟩ ∧ s = ⟨mk σ (flip ε m), mk σ n⟩, fun v => by
    rw [stddev_init_mk, stddev_init_mk]
    exact ⟨fun _ _ => 0, fun _ _ => a, rfl, by rw [flip_zero]⟩, by
    rintro g _ _ pp ⟨m, n, rfl, rfl⟩
    have e : ∀ k i, (1 - d) * ipow (flip ε g k i) 1 + d * flip ε m k i = ε k i * ((1 - d) * ipow (g k i) 1 + d * m k i) := fun k i => by
      simp only [flip, ipow_one']; ring
    refine fl_intro (stddev_update_mk σ g m n _ _ _ _) (stddev_update_mk σ (flip ε g) (flip ε m) n _ _ _ _) ?_ ?_
    · intro k _ _ i _
      simp only [e, Signs.mul_sq hε]
      simp only [flip, Signs.ipow2 hε]; ring
    · refine ⟨fun k i => (1 - d) * ipow (g k i) 1 + d * m k i, _, rfl, ?_⟩
      congr 1
      · exact mk_congr fun k _ _ i _ => e k i
      · simp only [flip, Signs.ipow2 hε]⟩

theorem fl_adam (b1 b2 eps er : ℝ) : Reflects σ ε (scaleByAdam b1 b2 eps er) :=
  ⟨fun s s' => ∃ c m n, s' = ⟨c, mk σ m, mk σ n⟩ ∧ s = ⟨c, mk σ (flip ε m), mk σ n⟩, fun v => by
    rw [adam_init_mk, adam_init_mk]
    exact ⟨_, fun _ _ => 0, fun _ _ => 0, rfl, by rw [flip_zero]⟩, by
    rintro g _ _ pp ⟨c, m, n, rfl, rfl⟩
    have e : ∀ k i, (1 - b1) * ipow (flip ε g k i) 1 + b1 * flip ε m k i = ε k i * ((1 - b1) * ipow (g k i) 1 + b1 * m k i) := fun k i => by
      simp only [flip, ipow_one']; ring
    have e2 : ∀ k i, ipow (flip ε g k i) 2 = ipow (g k i) 2 := fun k i => Signs.ipow2 hε k i _
    refine fl_intro (adam_update_mk σ g m n _ _ _ _ _ _) (adam_update_mk σ (flip ε g) (flip ε m) n _ _ _ _ _ _) ?_ ?_
    · intro k _ _ i _
      simp only [e, e2]; ring
    · refine ⟨_, fun k i => (1 - b1) * ipow (g k i) 1 + b1 * m k i, _, rfl, ?_⟩
      congr 1
      · exact mk_congr fun k _ _ i _ => e k i
      · simp only [e2]⟩

theorem fl_belief (b1 b2 eps er : ℝ) : Reflects σ ε (scaleByBelief b1 b2 eps er) :=
  ⟨fun s s' => ∃ c m n, s' = ⟨c, mk σ m, mk σ n⟩ ∧ s = ⟨c, mk σ (flip ε m), mk σ n⟩, fun v => by
    rw [belief_init_mk, belief_init_mk]
    exact ⟨_, fun _ _ => 0, fun _ _ => 0, rfl, by rw [flip_zero]⟩, by
    rintro g _ _ pp ⟨c, m, n, rfl, rfl⟩
    have e : ∀ k i, (1 - b1) * ipow (flip ε g k i) 1 + b1 * flip ε m k i = ε k i * ((1 - b1) * ipow (g k i) 1 + b1 * m k i) := fun k i => by
      simp only [flip, ipow_one']; ring
    have e2 : ∀ k i, ipow (flip ε g k i - flip ε m k i) 2 = ipow (g k i - m k i) 2 := fun k i => by
      rw [← Signs.ipow2 hε k i (g k i - m k i)]; simp only [flip, mul_sub]
    refine fl_intro (belief_update_mk σ g m n _ _ _ _ _ _) (belief_update_mk σ (flip ε g) (flip ε m) n _ _ _ _ _ _) ?_ ?_
    · intro k _ _ i _
      simp only [e, e2]; ring
    · refine ⟨_, fun k i => (1 - b1) * ipow (g k i) 1 + b1 * m k i, _, rfl, ?_⟩
      congr 1
      · exact mk_congr fun k _ _ i _ => e k i
      · simp only [e2]⟩

theorem fl_radam (b1 b2 eps er th : ℝ) : Reflects σ ε (scaleByRadam b1 b2 eps er th) :=
  ⟨fun s s' => ∃ c m n, s' = ⟨c, mk σ m, mk σ n⟩ ∧ s = ⟨c, mk σ (flip ε m), mk σ n⟩, fun v => by
    rw [radam_init_mk, radam_init_mk]
    exact ⟨_, fun _ _ => 0, fun _ _ => 0, rfl, by rw [flip_zero]⟩, by
    rintro g _ _ pp ⟨c, m, n, rfl, rfl⟩
    have e : ∀ k i, (1 - b1) * ipow (flip ε g k i) 1 + b1 * flip ε m k i = ε k i * ((1 - b1) * ipow (g k i) 1 + b1 * m k i) := fun k i => by
      simp only [flip, ipow_one']; ring
    have e2 : ∀ k i, ipow (flip ε g k i) 2 = ipow (g k i) 2 := fun k i => Signs.ipow2 hε k i _
    refine fl_intro (radam_update_mk σ g m n _ _ _ _ _ _ _) (radam_update_mk σ (flip ε g) (flip ε m) n _ _ _ _ _ _ _) ?_ ?_
    · intro k _ _ i _
      simp only [e, e2]; split <;> ring
    · refine ⟨_, fun k i => (1 - b1) * ipow (g k i) 1 + b1 * m k i, _, rfl, ?_⟩
      congr 1
      · exact mk_congr fun k _ _ i _ => e k i
      · simp only [e2]⟩

theorem fl_scale (c : ℝ) : Reflects σ ε (scale c) :=
  ⟨fun _ _ => True, fun _ => trivial, fun g s s' pp _ =>
    fl_intro (scale_update_mk σ g _ _ _) (scale_update_mk σ (flip ε g) _ _ _) (fun k _ _ i _ => by simp only [flip]; ring) trivial⟩

theorem fl_schedule (f : Schedule ℝ) : Reflects σ ε (scaleBySchedule f) :=
  ⟨fun s s' => s = s', fun v => rfl, by
    rintro g s _ pp rfl
    exact fl_intro (scaleBySchedule_update_mk σ g _ _ _) (scaleBySchedule_update_mk σ (flip ε g) _ _ _)
      (fun k _ _ i _ => by simp only [flip]; ring) rfl⟩

theorem fl_applyEvery (n : ℤ) : Reflects σ ε (applyEvery n : GT ℝ) :=
  ⟨fun s s' => ∃ c m, s' = ⟨c, mk σ m⟩ ∧ s = ⟨c, mk σ (flip ε m)⟩, fun v => by
    rw [applyEvery_init_mk, applyEvery_init_mk]
    exact ⟨_, fun _ _ => 0, rfl, by rw [flip_zero]⟩, by
    rintro g _ _ pp ⟨c, m, rfl, rfl⟩
    refine fl_intro (applyEvery_update_mk σ g m _ _ _) (applyEvery_update_mk σ (flip ε g) (flip ε m) _ _ _)
      (fun k _ _ i _ => by simp only [flip]; ring) ⟨_, _, rfl, ?_⟩
    congr 1
    exact mk_congr fun k _ _ i _ => by simp only [flip]; ring⟩

theorem fl_clip (d : ℝ) (hd : 0 ≤ d) : Reflects σ ε (clip d) :=
  ⟨fun _ _ => True, fun _ => trivial, fun g s s' pp _ =>
    fl_intro (clip_update_mk σ g _ _ _) (clip_update_mk σ (flip ε g) _ _ _) (fun k _ _ i _ => by
      simp only [flip, jmin_real, jmax_real]
      rcases hε k i with h | h
      · rw [h, one_mul, one_mul]
      · rw [h, neg_one_mul, neg_one_mul]
        rcases le_total (g k i) (-d) with h1 | h1
        · rw [max_eq_right h1, max_eq_left (show -d ≤ -g k i by linarith), min_eq_right (show d ≤ -g k i by linarith),
            min_eq_left (show -d ≤ d by linarith), neg_neg]
        · rcases le_total (g k i) d with h2 | h2
          · rw [max_eq_left h1, min_eq_left h2, max_eq_left (by linarith), min_eq_left (by linarith)]
          · rw [max_eq_left h1, min_eq_right h2, max_eq_right (by linarith), min_eq_left (by linarith)]) trivial⟩

theorem fl_addDecayedWeights (w : ℝ) : Reflects σ ε (addDecayedWeights w) :=
  ⟨fun _ _ => True, fun _ => trivial, fun g s s' pp _ => by
    cases pp with
    | none => exact rfl
    | some p =>
      exact fl_intro (addDecayedWeights_update_mk σ g p _ _) (addDecayedWeights_update_mk σ (flip ε g) (flip ε p) _ _)
        (fun k _ _ i _ => by simp only [flip]; ring) trivial⟩

theorem fl_zeroNans : Reflects σ ε (zeroNans : GT ℝ) :=
  ⟨fun _ _ => True, fun v => trivial, fun g s s' pp _ =>
    fl_intro (zeroNans_update_mk σ g _ _) (zeroNans_update_mk σ (flip ε g) _ _) (fun k _ _ i _ => by simp [flip]) trivial⟩

theorem globalNorm_flip (g : ℕ → ℕ → ℝ) : globalNorm (mk σ (flip ε g)) = globalNorm (mk σ g) := by
  rw [globalNorm_mk, globalNorm_mk]
  unfold entryNorm l2
  congr 1
  exact Finset.sum_congr rfl fun x _ => Signs.pow2 hε _ _ _

theorem fl_clipByGlobalNorm (d : ℝ) : Reflects σ ε (clipByGlobalNorm d) :=
  ⟨fun _ _ => True, fun _ => trivial, fun g s s' pp _ =>
    fl_intro (clipByGlobalNorm_update_mk σ g _ _ _) (clipByGlobalNorm_update_mk σ (flip ε g) _ _ _) (fun k _ _ i _ => by
      rw [globalNorm_flip hε]; simp only [flip]; split <;> ring) trivial⟩

theorem leafNorm_flip (g : ℕ → ℕ → ℝ) (k : ℕ) : leafNorm σ (flip ε g) k = leafNorm σ g k := by
  unfold leafNorm
  congr 1
  exact Finset.sum_congr rfl fun i _ => Signs.pow2 hε _ _ _

theorem fl_trustRatio (m : ℝ) : Reflects σ ε (scaleByTrustRatio m) :=
  ⟨fun _ _ => True, fun _ => trivial, fun g s s' pp _ => by
    cases pp with
    | none => exact rfl
    | some p =>
      refine fl_intro (C31_trust_ratio m σ g p _) (C31_trust_ratio m σ (flip ε g) (flip ε p) _) (fun k _ _ i _ => ?_) trivial
      unfold trustFactor
      rw [leafNorm_flip hε, leafNorm_flip hε]; simp only [flip]; ring⟩

theorem fl_agc (hσ : AgcSpec σ) (cl eps : ℝ) : Reflects σ ε (adaptiveGradClip cl eps) :=
  ⟨fun _ _ => True, fun _ => trivial, fun g s s' pp _ => by
    cases pp with
    | none => exact rfl
    | some p =>
      refine fl_intro (agc_update_mk cl eps σ hσ g p) (agc_update_mk cl eps σ hσ (flip ε g) (flip ε p)) (fun k sh hk i hi => ?_) trivial
      have hsh := hσ sh (List.mem_of_getElem? hk)
      simp only [hk, Option.getD_some]
      rw [agcLeaf_real cl eps hsh _ _ hi, agcLeaf_real cl eps hsh _ _ hi]
      have e : ∀ v : ℕ → ℕ → ℝ, ∀ c, unitNorm sh (flip ε v k) c = unitNorm sh (v k) c := by
        intro v c
        unfold unitNorm
        congr 1
        exact Finset.sum_congr rfl fun i _ => Signs.pow2 hε _ _ _
      rw [e, e]
      simp only [flip]
      split <;> ring⟩

theorem fl_sm3 (hσ : SM3Spec σ) (b1 b2 eps : ℝ) : Reflects σ ε (scaleBySM3 b1 b2 eps) :=
  ⟨fun s s' => ∃ M ν, s' = sm3State σ M ν ∧ s = sm3State σ M (flip ε ν), fun v => by
    rw [sm3_init_mk, sm3_init_mk]
    exact ⟨_, _, rfl, by rw [flip_zero]⟩, by
    rintro g _ _ pp ⟨M, ν, rfl, rfl⟩
    have e : ∀ k, sm3Acc b2 ((σ.leaves[k]?).getD []) (flip ε g k) (M k) = sm3Acc b2 ((σ.leaves[k]?).getD []) (g k) (M k) := by
      intro k
      funext i
      unfold sm3Acc
      simp only [flip, Signs.ipow2 hε]
    have h1 := sm3_update_mk σ hσ g M ν (pp.map fun p => mk σ p) b1 b2 eps
    have h2 := sm3_update_mk σ hσ (flip ε g) M (flip ε ν) (pp.map fun p => mk σ (flip ε p)) b1 b2 eps
    simp only [e] at h2
    refine fl_intro h1 h2 (fun k _ _ i _ => by simp only [flip, ipow_one']; ring) ⟨_, _, rfl, ?_⟩
    unfold sm3State
    congr 1
    exact mk_congr fun k _ _ i _ => by simp only [flip, ipow_one']; ring⟩

end general


/-- the transformations that commute with reflections: all that see the gradients through odd functions of themselves and even functions of their sizes -/
inductive Reflecting (σ : Spec) : GT ℝ → Prop
  | identity : Reflecting σ identity
  | trace (d : ℝ) (nes) : Reflecting σ (trace d nes none)
  | ema (d : ℝ) (deb) : Reflecting σ (ema d deb none)
  | rss (a eps : ℝ) : Reflecting σ (scaleByRss a eps)
  | rms (d eps a : ℝ) : Reflecting σ (scaleByRms d eps a)
  | stddev (d eps a : ℝ) : Reflecting σ (scaleByStddev d eps a)
  | adam (b1 b2 eps er : ℝ) : Reflecting σ (scaleByAdam b1 b2 eps er)
  | belief (b1 b2 eps er : ℝ) : Reflecting σ (scaleByBelief b1 b2 eps er)
  | radam (b1 b2 eps er th : ℝ) : Reflecting σ (scaleByRadam b1 b2 eps er th)
  | scale (c : ℝ) : Reflecting σ (scale c)
  | schedule (f : Schedule ℝ) : Reflecting σ (scaleBySchedule f)
  | applyEvery (k : ℤ) : Reflecting σ (applyEvery k)
  | clip (d : ℝ) (hd : 0 ≤ d) : Reflecting σ (clip d)
  | clipByGlobalNorm (d : ℝ) : Reflecting σ (clipByGlobalNorm d)
  | adaptiveGradClip (cl eps : ℝ) (h : AgcSpec σ) : Reflecting σ (adaptiveGradClip cl eps)
  | addDecayedWeights (w : ℝ) : Reflecting σ (addDecayedWeights w)
  | trustRatio (m : ℝ) : Reflecting σ (scaleByTrustRatio m)
  | sm3 (b1 b2 eps : ℝ) (h : SM3Spec σ) : Reflecting σ (scaleBySM3 b1 b2 eps)
  | zeroNans : Reflecting σ zeroNans
  | chain (ts : List (GT ℝ)) (h : ∀ t ∈ ts, Reflecting σ t) : Reflecting σ (chain ts)

theorem Reflecting.reflects {t : GT ℝ} (ht : Reflecting σ t) {ε : ℕ → ℕ → ℝ} (hε : Signs ε) : Reflects σ ε t := by
  induction ht with
  | identity => exact fl_identity hε
  | trace d nes => exact fl_trace hε d nes
  | ema d deb => exact fl_ema hε d deb
  | rss a eps => exact fl_rss hε a eps
  | rms d eps a => exact fl_rms hε d eps a
  | stddev d eps a => exact fl_stddev hε d eps a
  | adam b1 b2 eps er => exact fl_adam hε b1 b2 eps er
  | belief b1 b2 eps er => exact fl_belief hε b1 b2 eps er
  | radam b1 b2 eps er th => exact fl_radam hε b1 b2 eps er th
  | scale c => exact fl_scale hε c
  | schedule f => exact fl_schedule hε f
  | applyEvery k => exact fl_applyEvery hε k
  | clip d hd => exact fl_clip hε d hd
  | clipByGlobalNorm d => exact fl_clipByGlobalNorm hε d
  | adaptiveGradClip cl eps h => exact fl_agc hε h cl eps
  | addDecayedWeights w => exact fl_addDecayedWeights hε w
  | trustRatio m => exact fl_trustRatio hε m
  | sm3 b1 b2 eps h => exact fl_sm3 hε h b1 b2 eps
  | zeroNans => exact fl_zeroNans hε
  | chain ts _ ih => exact Reflects.chain ts ih

/-- **C128 (any history).** Negate any set of coordinates (`ε k i = -1`) in the parameters given to `init` and in the gradients and parameters of every call: the updates are those of the
original run with the same coordinates negated, or the same exception is raised. -/
theorem C128_reflection {t : GT ℝ} (ht : Reflecting σ t) {ε : ℕ → ℕ → ℝ} (hε : Signs ε) (p0 : ℕ → ℕ → ℝ)
    (h : List ((ℕ → ℕ → ℝ) × Option (ℕ → ℕ → ℝ))) :
    (∃ U : List (ℕ → ℕ → ℝ), t.outs (mk σ p0) (calls σ h) = .ok (U.map (mk σ)) ∧
      t.outs (mk σ (flip ε p0)) (calls σ (flipH ε h)) = .ok (U.map (fun u => mk σ (flip ε u)))) ∨
    ∃ e, t.outs (mk σ p0) (calls σ h) = .error e ∧ t.outs (mk σ (flip ε p0)) (calls σ (flipH ε h)) = .error e := by
  obtain ⟨R, h0, hR⟩ := ht.reflects σ hε
  unfold GT.outs GT.exec
  rcases Res.rel_ok (h0 p0) with ⟨x, y, hx, hy, hxy⟩ | ⟨e, hx, hy⟩
  · rw [hx, hy]
    simp only [Res.ok_bind]
    rcases Reflects.run hR h x y hxy with ⟨U, z, z', hU, hU'⟩ | ⟨e, hU, hU'⟩
    · exact .inl ⟨U, by rw [hU]; rfl, by rw [hU']; rfl⟩
    · exact .inr ⟨e, by rw [hU]; rfl, by rw [hU']; rfl⟩
  · rw [hx, hy]
    exact .inr ⟨e, rfl, rfl⟩

/-- **C128 (training).** Training on the reflected loss `p ↦ loss(ε p)` (gradient `ε · G(ε p)`) from the reflected start visits the reflected parameters, or raises the same exception. -/
theorem C128_training {t : GT ℝ} (ht : Reflecting σ t) {ε : ℕ → ℕ → ℝ} (hε : Signs ε) (grad grad' : ℕ → Params ℝ → Params ℝ)
    (G : ℕ → (ℕ → ℕ → ℝ) → ℕ → ℕ → ℝ) (hg : ∀ n p, grad n (mk σ p) = mk σ (G n p))
    (hg' : ∀ n p, grad' n (mk σ p) = mk σ (flip ε (G n (flip ε p)))) (p0 : ℕ → ℕ → ℝ) :
    (∃ s0 s0', t.init (mk σ p0) = .ok s0 ∧ t.init (mk σ (flip ε p0)) = .ok s0' ∧ ∀ n,
      (∃ P s s', trainLoop t grad n s0 (mk σ p0) = .ok (mk σ P, s) ∧ trainLoop t grad' n s0' (mk σ (flip ε p0)) = .ok (mk σ (flip ε P), s')) ∨
      ∃ e, trainLoop t grad n s0 (mk σ p0) = .error e ∧ trainLoop t grad' n s0' (mk σ (flip ε p0)) = .error e) ∨
    ∃ e, t.init (mk σ p0) = .error e ∧ t.init (mk σ (flip ε p0)) = .error e := by
  obtain ⟨R, h0, hR⟩ := ht.reflects σ hε
  have ff : ∀ P : ℕ → ℕ → ℝ, flip ε (flip ε P) = P := fun P => by
    funext k i
    simp only [flip, ← mul_assoc, Signs.sq hε, one_mul]
  rcases Res.rel_ok (h0 p0) with ⟨x, y, hx, hy, hxy⟩ | ⟨e, hx, hy⟩
  · refine .inl ⟨y, x, hy, hx, fun n => ?_⟩
    suffices H : (∃ P s s', trainLoop t grad n y (mk σ p0) = .ok (mk σ P, s) ∧
        trainLoop t grad' n x (mk σ (flip ε p0)) = .ok (mk σ (flip ε P), s') ∧ R s' s) ∨
        ∃ e, trainLoop t grad n y (mk σ p0) = .error e ∧ trainLoop t grad' n x (mk σ (flip ε p0)) = .error e by
      rcases H with ⟨P, s, s', h1, h2, -⟩ | h
      · exact .inl ⟨P, s, s', h1, h2⟩
      · exact .inr h
    induction n with
    | zero => exact .inl ⟨p0, y, x, rfl, rfl, hxy⟩
    | succ n ih =>
      rcases ih with ⟨P, s, s', h1, h2, h3⟩ | ⟨e, h1, h2⟩
      · have h4 := hR (G n P) s' s (some P) h3
        simp only [Option.map_some] at h4
        simp only [trainLoop, h1, h2, Res.ok_bind, hg, hg', ff]
        rcases Res.rel_ok h4 with ⟨⟨a1, a2⟩, ⟨b1, b2⟩, ha, hb, ⟨u, hu1, hu2⟩, hr⟩ | ⟨e, ha, hb⟩
        · simp only at hu1 hu2 hr
          subst hu1 hu2
          left
          refine ⟨fun k i => P k i + u k i, b2, a2, ?_, ?_, hr⟩
          · rw [hb]
            simp only [Res.ok_bind, applyUpdates, tzip_mk, Res.pure_eq]
          · rw [ha]
            simp only [Res.ok_bind, applyUpdates, tzip_mk, Res.pure_eq]
            congr 2
            exact mk_congr fun k _ _ i _ => by simp only [flip]; ring
        · right
          exact ⟨e, by rw [hb]; rfl, by rw [ha]; rfl⟩
      · right
        simp only [trainLoop, h1, h2]
        exact ⟨e, rfl, rfl⟩
  · exact .inr ⟨e, hy, hx⟩

/-- **C128.** The aliases this applies to. -/
theorem C128_aliases (lr : LR ℝ) (b1 b2 eps er wd x : ℝ) (m : Option ℝ) (nes cen : Bool) :
    Reflecting σ (sgd lr m nes) ∧ Reflecting σ (adagrad lr b1 eps) ∧ Reflecting σ (rmsprop lr b1 eps b2 cen m nes) ∧
    Reflecting σ (adam lr b1 b2 eps er) ∧ Reflecting σ (adamw lr b1 b2 eps er wd) ∧ Reflecting σ (adabelief lr b1 b2 eps) ∧
    Reflecting σ (radam lr b1 b2 eps er wd) ∧ Reflecting σ (lamb lr b1 b2 eps er wd) ∧ Reflecting σ (fromage x b1) ∧
    (SM3Spec σ → Reflecting σ (sm3 x b1)) := by
  have hlr : Reflecting σ (scaleByLearningRate lr) := by
    cases lr with
    | scalar x => exact .scale _
    | schedule f => exact .schedule (fun c => -f c)
  have hm : Reflecting σ (momentumOrIdentity m nes) := by
    cases m with
    | none => exact .identity
    | some x => exact .trace _ _
  have two : ∀ a b : GT ℝ, Reflecting σ a → Reflecting σ b → Reflecting σ (Optax.chain [a, b]) := fun a b ha hb => .chain _ (by
    intro t ht
    rcases List.mem_cons.1 ht with rfl | ht
    · exact ha
    · rcases List.mem_singleton.1 ht with rfl
      exact hb)
  have three : ∀ a b c : GT ℝ, Reflecting σ a → Reflecting σ b → Reflecting σ c → Reflecting σ (Optax.chain [a, b, c]) := fun a b c ha hb hc => .chain _ (by
    intro t ht
    rcases List.mem_cons.1 ht with rfl | ht
    · exact ha
    · rcases List.mem_cons.1 ht with rfl | ht
      · exact hb
      · rcases List.mem_singleton.1 ht with rfl
        exact hc)
  refine ⟨two _ _ hm hlr, two _ _ (.rss _ _) hlr, ?_, two _ _ (.adam _ _ _ _) hlr, three _ _ _ (.adam _ _ _ _) (.addDecayedWeights _) hlr,
    two _ _ (.belief _ _ _ _) hlr, two _ _ (.radam _ _ _ _ _) hlr, ?_, three _ _ _ (.trustRatio _) (.scale _) (.addDecayedWeights _),
    fun hσ => two _ _ (.sm3 _ _ _ hσ) (.scale _)⟩
  · unfold rmsprop
    cases cen
    · exact three _ _ _ (.rms _ _ _) hlr hm
    · exact three _ _ _ (.stddev _ _ _) hlr hm
  · refine .chain _ ?_
    intro t ht
    rcases List.mem_cons.1 ht with rfl | ht
    · exact .adam _ _ _ _
    · rcases List.mem_cons.1 ht with rfl | ht
      · exact .addDecayedWeights _
      · rcases List.mem_cons.1 ht with rfl | ht
        · exact .trustRatio _
        · rcases List.mem_singleton.1 ht with rfl
          exact hlr

/-- **C128 (yogi is not symmetric).** `scale_by_yogi` starts its first moment at `initial_accumulator_value` instead of 0: with the default
`b1 = 0.9` and any positive initial value `a` it returns the update `9a / (√(b2 a/(1-b2)) + eps) > 0` on a zero gradient.  Reflecting the coordinate leaves this update as it is, so it cannot also
be its negative. -/
theorem C128_yogi (b2 eps a : ℝ) (hb : 0 < b2) (hb1 : b2 < 1) (he : 0 ≤ eps) (ha : 0 < a) :
    ∃ u : ℝ, 0 < u ∧ ∀ ε : ℕ → ℕ → ℝ, (scaleByYogi (9 / 10) b2 eps 0 a).outs (mk (.leaf []) (flip ε fun _ _ => 0))
        (calls (.leaf []) (flipH ε [(fun _ _ => 0, none)])) = .ok [mk (.leaf []) (fun _ _ => u)] := by
  refine ⟨9 * a / (Real.sqrt (b2 * a / (1 - b2)) + eps), ?_, fun ε => ?_⟩
  · have h1 : 0 < 1 - b2 := by linarith
    have : 0 < Real.sqrt (b2 * a / (1 - b2)) := Real.sqrt_pos.2 (by positivity)
    positivity
  · have e : calls (.leaf []) (flipH ε [(fun _ _ => 0, none)]) = [(mk (.leaf []) (fun _ _ => 0), none)] := by
      simp [calls, flipH, flip_zero]
    rw [e, flip_zero]
    have hc : safeInt32Increment 0#32 = 1#32 := by decide
    have h2 : (cnt 1#32 : ℝ) = 1 := by simp [cnt]
    have hu := yogi_update_mk (.leaf []) (fun _ _ => (0 : ℝ)) (fun _ _ => a) (fun _ _ => a) none (9 / 10) b2 eps 0 a 0#32
    rw [hc, h2] at hu
    have hi := yogi_init_mk (.leaf []) (fun _ _ => (0 : ℝ)) (9 / 10) b2 eps 0 a
    unfold GT.outs GT.exec
    rw [hi, Res.ok_bind, GT.run_cons_ok _ _ _ _ hu, GT.run_nil]
    simp only [Res.ok_bind, Res.pure_eq]
    congr 2
    refine mk_congr fun k _ _ i _ => ?_
    simp only [ipow_eq_pow, jpow_real, jsqrt_real, Real.rpow_one]
    congr 1
    · ring
    · congr 2
      simp

end Optax
