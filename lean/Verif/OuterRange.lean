import Verif.Outer
import Verif.Lam

/-!
# Smoothing parameters and termination of whole fits of GAMMLSS and general smooth models (C93)
-/

namespace Verif.Outer
open Verif.Lam

variable {m : ℕ} {V : Type}

/-- State of the smoothing parameters at the beginning of an iteration. -/
def Begin (A : Args m V) (lam : Fin m → ℝ) (frozen : Fin m → Bool) (ts : Fin m → Term) : Prop :=
  ∃ b : Fin m → ℝ, ∀ i, Inv (b i) (ts i) ∧ (A.extend = false → (ts i).ext = false) ∧
    (ts i).frozen = frozen i ∧ (frozen i = true → (ts i).lam = lam i)

/-- State of the smoothing parameters after step control. -/
def After (A : Args m V) (lam : Fin m → ℝ) (frozen : Fin m → Bool) (a : Acc m V) : Prop :=
  ∀ i, Ready (a.terms i) ∧ (A.extend = false → (a.terms i).ext = false) ∧
    (a.terms i).frozen = frozen i ∧ (frozen i = true → (a.terms i).lam = lam i ∧ a.used i = lam i) ∧
    (frozen i = false → InRange (a.used i))

theorem inv_lam {b : ℝ} {t : Term} (h : Inv b t) (hf : t.frozen = false) : InRange t.lam := by
  have := h.2
  rw [hf] at this
  exact this.2.1

theorem begin_check {A : Args m V} {lam : Fin m → ℝ} {frozen : Fin m → Bool} {ts : Fin m → Term}
    (h : Begin A lam frozen ts) (o : ℕ) (p : PassL m) : Begin A lam frozen (check (A.cfg o) p ts).1 := by
  obtain ⟨b, h⟩ := h
  refine ⟨b, fun i => ?_⟩
  obtain ⟨h1, h2, h3, h4⟩ := h i
  unfold check
  split_ifs with hs hb
  · exact h i
  · refine ⟨inv_correctTermL (A.cfg o) _ _ h1 h2, fun he => ?_, ?_, fun hf => ?_⟩
    · exact ext_correctTermL (A.cfg o) _ h2
    · rw [← h3]
      simp only
      unfold correctTermL
      split_ifs <;> rfl
    · have hi := h1.2
      rw [h3, hf, if_pos rfl] at hi
      simp only
      unfold correctTermL
      split_ifs with h5 h6
      · rw [hi.2] at h5; exact absurd h5.2 (by simp)
      · simp only [halve]; rw [hi.1, h4 hf]; simp
      · exact h4 hf
  · exact h i

theorem control_after {A : Args m V} {lam : Fin m → ℝ} {frozen : Fin m → Bool} (o : ℕ) (coef : V) :
    ∀ (fuel k : ℕ) (ts : Fin m → Term) (a : Acc m V), Begin A lam frozen ts →
      control A o coef fuel k ts = some a → After A lam frozen a := by
  intro fuel
  induction fuel with
  | zero => intro k ts a _ h; simp [control] at h
  | succ n ih =>
    intro k ts a hb h i
    simp only [control] at h
    split_ifs at h with h1
    · simp only [Option.some.injEq] at h
      subst h
      obtain ⟨b, hc⟩ := begin_check hb o (A.est o k (fun i => (ts i).lam) coef).pass
      obtain ⟨b0, hb⟩ := hb
      obtain ⟨c1, c2, c3, c4⟩ := hc i
      obtain ⟨d1, d2, d3, d4⟩ := hb i
      have hr := ready_proposeL (A.cfg o) (balance A o (A.est o k (fun i => (ts i).lam) coef)).pass
        (Lam.norm (check (A.cfg o) (A.est o k (fun i => (ts i).lam) coef).pass ts).1) i _ _ c1 c2
      refine ⟨hr.1, hr.2, ?_, fun hf => ⟨?_, d4 hf⟩, fun hf => inv_lam d1 (by rw [d3, hf])⟩
      · simp only [doneL, proposeL_frozen]; exact c3
      · simp only [doneL, proposeL_lam]; exact c4 hf
    · exact ih _ _ _ (begin_check hb o _) h i

theorem begin_next {A : Args m V} {lam : Fin m → ℝ} {frozen : Fin m → Bool} {a : Acc m V}
    (h : After A lam frozen a) : Begin A lam frozen (fun i => applyStep (a.terms i)) := by
  refine ⟨fun i => (a.terms i).lam, fun i => ?_⟩
  obtain ⟨h1, h2, h3, h4, -⟩ := h i
  refine ⟨inv_applyStep _ h1, h2, h3, fun hf => ?_⟩
  unfold Ready at h1
  rw [h3, hf, if_pos rfl] at h1
  simp only [applyStep]
  rw [h1.1, (h4 hf).1, add_zero]

theorem round_terms (A : Args m V) (o : ℕ) (s : St m V) (a : Acc m V) :
    (∃ c, round A o s a = .inl (result A a c a.terms 0)) ∨
    ∃ s', round A o s a = .inr s' ∧ s'.terms = fun i => applyStep (a.terms i) := by
  unfold round
  simp only
  split_ifs
  · exact .inr ⟨_, rfl, rfl⟩
  · exact .inl ⟨_, rfl⟩
  · exact .inr ⟨_, rfl, rfl⟩

theorem begin_start {A : Args m V} {lam : Fin m → ℝ} {frozen : Fin m → Bool} (coef : V)
    (h : ∀ i, frozen i = false → InRange (lam i)) : Begin A lam frozen (start lam frozen coef).terms := by
  refine ⟨lam, fun i => ⟨⟨by simp [start], ?_⟩, fun _ => rfl, rfl, fun _ => rfl⟩⟩
  simp only [start]
  split_ifs with hf
  · exact ⟨trivial, trivial⟩
  · have := h i (by simpa using hf)
    exact ⟨this, this, by simp⟩

theorem loop_range {A : Args m V} {lam : Fin m → ℝ} {frozen : Fin m → Bool} (fuel : ℕ) :
    ∀ (left o : ℕ) (last : Option (Acc m V)) (s : St m V) (r : Out m V), Begin A lam frozen s.terms →
      (∀ a, last = some a → After A lam frozen a) → loop A fuel left o last s = some r →
      ∀ i, (frozen i = true → r.lam i = lam i ∧ r.used i = lam i) ∧
        (frozen i = false → InRange (r.lam i) ∧ InRange (r.used i)) := by
  intro left
  induction left with
  | zero =>
    intro o last s r hb ha h i
    simp only [loop, Option.map_eq_some_iff] at h
    obtain ⟨a, rfl, rfl⟩ := h
    obtain ⟨b, hb⟩ := hb
    obtain ⟨h1, h2, h3, h4⟩ := hb i
    exact ⟨fun hf => ⟨h4 hf, ((ha a rfl i).2.2.2.1 hf).2⟩,
      fun hf => ⟨inv_lam h1 (by rw [h3, hf]), (ha a rfl i).2.2.2.2 hf⟩⟩
  | succ n ih =>
    intro o last s r hb ha h
    cases hk : control A o s.coef fuel 0 s.terms with
    | none => simp only [loop, hk] at h; cases h
    | some a =>
      have haf := control_after o s.coef fuel 0 s.terms a hb hk
      rcases round_terms A o s a with ⟨c, hr⟩ | ⟨s', hr, hs'⟩
      · rw [loop_done hk hr] at h
        simp only [Option.some.injEq] at h
        subst h
        intro i
        obtain ⟨h1, h2, h3, h4, h5⟩ := haf i
        refine ⟨h4, fun hf => ⟨?_, h5 hf⟩⟩
        unfold Ready at h1
        rw [h3, hf] at h1
        exact h1.1
      · rw [loop_next hk hr] at h
        exact ih _ _ _ r (hs' ▸ begin_next haf) (by intro a' h'; cases h'; exact haf) h

/-- **C93.**  Whatever the estimates, extensions and restarts: starting from smoothing parameters
between `1e-7` and `1e7`, the reported ones and those that the coefficients were estimated with are in
this range, and frozen ones keep their value. -/
theorem fit_range (A : Args m V) (fuel maxOuter : ℕ) (lam : Fin m → ℝ) (frozen : Fin m → Bool) (coef : V)
    (h0 : ∀ i, frozen i = false → 1 / 10 ^ 7 ≤ lam i ∧ lam i ≤ 10 ^ 7) (r : Out m V)
    (h : fit A fuel maxOuter lam frozen coef = some r) (i : Fin m) :
    (frozen i = true → r.lam i = lam i ∧ r.used i = lam i) ∧
    (frozen i = false → (1 / 10 ^ 7 ≤ r.lam i ∧ r.lam i ≤ 10 ^ 7) ∧ 1 / 10 ^ 7 ≤ r.used i ∧ r.used i ≤ 10 ^ 7) :=
  loop_range fuel maxOuter 0 none _ r (begin_start coef h0) (by intro a ha; cases ha) h i

theorem control_isSome (A : Args m V) (o : ℕ) (coef : V) : ∀ (fuel k : ℕ) (ts : Fin m → Term),
    (control A o coef fuel k ts).isSome =
      (loopL (A.cfg o) (fun k l => (A.est o k l coef).pass) fuel k ts).isSome := by
  intro fuel
  induction fuel with
  | zero => intro k ts; rfl
  | succ n ih =>
    intro k ts
    simp only [control, loopL, check, passL]
    split_ifs with h1 h2 h3
    all_goals first | rfl | (exfalso; simp_all; done) | exact ih _ _

theorem control_mono (A : Args m V) (o : ℕ) (coef : V) : ∀ (fuel j k : ℕ) (ts : Fin m → Term) (a : Acc m V),
    control A o coef fuel k ts = some a → control A o coef (fuel + j) k ts = some a := by
  intro fuel
  induction fuel with
  | zero => intro j k ts a h; simp [control] at h
  | succ n ih =>
    intro j k ts a h
    rw [show n + 1 + j = (n + j) + 1 by omega]
    simp only [control] at h ⊢
    split_ifs at h ⊢
    · exact h
    · exact ih _ _ _ _ h

theorem loop_terminates {A : Args m V} {lam : Fin m → ℝ} {frozen : Fin m → Bool} :
    ∀ (left o : ℕ) (last : Option (Acc m V)) (s : St m V), Begin A lam frozen s.terms →
      (last.isSome = true ∨ 0 < left) → ∃ F, ∀ fuel, F ≤ fuel → (loop A fuel left o last s).isSome = true := by
  intro left
  induction left with
  | zero =>
    intro o last s _ h
    refine ⟨0, fun fuel _ => ?_⟩
    simp only [loop, Option.isSome_map]
    rcases h with h | h
    · exact h
    · omega
  | succ n ih =>
    intro o last s hb _
    obtain ⟨f, r, hr⟩ := loopL_terminates (A.cfg o) (fun k l => (A.est o k l s.coef).pass) s.terms
      (fun he i => by obtain ⟨b, hb⟩ := hb; exact (hb i).2.1 he)
    have hsome := control_isSome A o s.coef f 0 s.terms
    rw [hr] at hsome
    obtain ⟨a, ha⟩ := Option.isSome_iff_exists.mp hsome
    have haf := control_after o s.coef f 0 s.terms a hb ha
    rcases round_terms A o s a with ⟨c, hrd⟩ | ⟨s', hrd, hs'⟩
    · refine ⟨f, fun fuel hf => ?_⟩
      obtain ⟨j, rfl⟩ := Nat.exists_eq_add_of_le hf
      rw [loop_done (control_mono A o s.coef f j 0 s.terms a ha) hrd]
      rfl
    · obtain ⟨F, hF⟩ := ih (o + 1) (some a) s' (hs' ▸ begin_next haf) (.inl rfl)
      refine ⟨max f F, fun fuel hf => ?_⟩
      obtain ⟨j, rfl⟩ := Nat.exists_eq_add_of_le (le_trans (le_max_left _ _) hf)
      rw [loop_next (control_mono A o s.coef f j 0 s.terms a ha) hrd]
      exact hF _ (le_trans (le_max_right _ _) hf)

/-- **C93.**  A fit with at least one iteration ends and returns something, for any estimates. -/
theorem fit_terminates (A : Args m V) (maxOuter : ℕ) (hm : 0 < maxOuter) (lam : Fin m → ℝ)
    (frozen : Fin m → Bool) (coef : V)
    (h0 : ∀ i, frozen i = false → 1 / 10 ^ 7 ≤ lam i ∧ lam i ≤ 10 ^ 7) :
    ∃ fuel r, fit A fuel maxOuter lam frozen coef = some r := by
  obtain ⟨F, hF⟩ := loop_terminates (A := A) maxOuter 0 none (start lam frozen coef) (begin_start coef h0) (.inr hm)
  obtain ⟨r, hr⟩ := Option.isSome_iff_exists.mp (hF F le_rfl)
  exact ⟨F, r, hr⟩

/-- Both apply to the fit of the examples. -/
example : ∃ fuel r, fit (args1 fun _ => est1 4 0 1 (-1)) fuel 1 (fun _ => 1) (fun _ => false) 0 = some r ∧
    1 / 10 ^ 7 ≤ r.lam 0 := by
  obtain ⟨f, r, h⟩ := fit_terminates (args1 fun _ => est1 4 0 1 (-1)) 1 (by norm_num) (fun _ => 1)
    (fun _ => false) 0 (by norm_num)
  exact ⟨f, r, h, ((fit_range _ f 1 (fun _ => 1) (fun _ => false) 0 (by norm_num) r h 0).2 rfl).1.1⟩

end Verif.Outer
