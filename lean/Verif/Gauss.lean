import Verif.GaussLemmas
import Mathlib.LinearAlgebra.Matrix.Notation

/-!
# Fits of strictly additive models are exact, wherever the data are (C97)
-/

namespace Verif.Gauss

open Verif Verif.Lam Matrix

variable {α : Type} {p m : ℕ}

/-! ### Smoothing parameters -/

/-- Smoothing parameters before step control. -/
def Begin (A : Args m p) (lam : Fin m → ℝ) (frozen : Fin m → Bool) (ts : Fin m → Term) : Prop :=
  ∃ b : Fin m → ℝ, ∀ i, Inv (b i) (ts i) ∧ (A.extend = false → (ts i).ext = false) ∧
    (ts i).frozen = frozen i ∧ (frozen i = true → (ts i).lam = lam i)

/-- Smoothing parameters whose next step has been proposed. -/
def Ok (A : Args m p) (lam : Fin m → ℝ) (frozen : Fin m → Bool) (ts : Fin m → Term) : Prop :=
  ∀ i, Ready (ts i) ∧ (A.extend = false → (ts i).ext = false) ∧ (ts i).frozen = frozen i ∧ (frozen i = true → (ts i).lam = lam i)

/-- Smoothing parameters that coefficients were computed with. -/
def UsedOk (lam : Fin m → ℝ) (frozen : Fin m → Bool) (used : Fin m → ℝ) : Prop :=
  ∀ i, (frozen i = true → used i = lam i) ∧ (frozen i = false → InRange (used i))

/-- Distance from the reported ones. -/
def Near (A : Args m p) (ts : Fin m → Term) (used : Fin m → ℝ) : Prop :=
  A.extend = false → ∀ i, |used i - (ts i).lam| < 1 / 10 ^ 7

theorem correct_keep {A : Args m p} (o : ℕ) {b lam : ℝ} {f : Bool} {t : Term} (h1 : Inv b t) (h3 : t.frozen = f) (h4 : f = true → t.lam = lam) :
    (correctTerm (A.cfg o) t).1.frozen = f ∧ (f = true → (correctTerm (A.cfg o) t).1.lam = lam) := by
  refine ⟨?_, fun hf => ?_⟩
  · rw [← h3]
    unfold correctTerm
    split_ifs <;> rfl
  · have hi := h1.2
    rw [h3, hf, if_pos rfl] at hi
    unfold correctTerm
    split_ifs with h5 h6
    · rw [hi.2] at h5; exact absurd h5.2 (by simp)
    · simp only [halve]; rw [hi.1, h4 hf]; simp
    · exact h4 hf

theorem begin_used {A : Args m p} {lam : Fin m → ℝ} {frozen : Fin m → Bool} {ts : Fin m → Term} (h : Begin A lam frozen ts) :
    UsedOk lam frozen fun i => (ts i).lam := by
  obtain ⟨b, h⟩ := h
  intro i
  obtain ⟨h1, h2, h3, h4⟩ := h i
  refine ⟨h4, fun hf => ?_⟩
  have := h1.2
  rw [h3, hf] at this
  exact this.2.1

theorem begin_correct {A : Args m p} {lam : Fin m → ℝ} {frozen : Fin m → Bool} {ts : Fin m → Term} (o : ℕ) (h : Begin A lam frozen ts) :
    Begin A lam frozen fun i => (correctTerm (A.cfg o) (ts i)).1 := by
  obtain ⟨b, h⟩ := h
  refine ⟨b, fun i => ?_⟩
  obtain ⟨h1, h2, h3, h4⟩ := h i
  have := correct_keep (A := A) o h1 h3 h4
  exact ⟨inv_correctTerm (A.cfg o) _ _ h1 h2, fun _ => ext_correctTerm (A.cfg o) _ h2, this.1, this.2⟩

theorem begin_propose {A : Args m p} {lam : Fin m → ℝ} {frozen : Fin m → Bool} {ts : Fin m → Term} (o : ℕ) (q : Pass m (Fin p → ℝ))
    (h : Begin A lam frozen ts) : Ok A lam frozen (fun i => Lam.propose (A.cfg o) q i (ts i)) ∧
      ∀ i, (Lam.propose (A.cfg o) q i (ts i)).lam = (ts i).lam := by
  obtain ⟨b, h⟩ := h
  refine ⟨fun i => ?_, fun i => ?_⟩
  · obtain ⟨h1, h2, h3, h4⟩ := h i
    obtain ⟨r1, r2, r3, r4⟩ := ready_propose (A.cfg o) q i _ _ h1 h2
    exact ⟨r1, r2, by simp only; rw [r4, h3], fun hf => by simp only; rw [r3, h4 hf]⟩
  · obtain ⟨h1, h2, h3, h4⟩ := h i
    exact (ready_propose (A.cfg o) q i _ _ h1 h2).2.2.1

theorem begin_next {A : Args m p} {lam : Fin m → ℝ} {frozen : Fin m → Bool} {ts : Fin m → Term} (h : Ok A lam frozen ts) :
    Begin A lam frozen fun i => applyStep (ts i) := by
  refine ⟨fun i => (ts i).lam, fun i => ?_⟩
  obtain ⟨h1, h2, h3, h4⟩ := h i
  refine ⟨inv_applyStep _ h1, h2, h3, fun hf => ?_⟩
  unfold Ready at h1
  rw [h3, hf, if_pos rfl] at h1
  simp only [applyStep]
  rw [h1.1, h4 hf, add_zero]

theorem delta_le_norm (ts : Fin m → Term) (i : Fin m) : |(ts i).delta| ≤ Lam.norm ts := by
  unfold Lam.norm
  rw [← Real.sqrt_sq_eq_abs]
  exact Real.sqrt_le_sqrt (Finset.single_le_sum (f := fun i => (ts i).delta ^ 2) (fun i _ => sq_nonneg _) (Finset.mem_univ i))

theorem tiny_near {A : Args m p} {ts : Fin m → Term} (o : ℕ) (h : Tiny (A.cfg o) ts) :
    A.extend = false → ∀ i, |(ts i).lam - (correctTerm (A.cfg o) (ts i)).1.lam| < 1 / 10 ^ 7 := by
  intro he i
  have hc : ∀ i, correctTerm (A.cfg o) (ts i) = (halve (ts i), true) := by
    intro i
    unfold correctTerm
    rw [if_neg (by simp [Args.cfg, he]), if_pos (by simp [Args.cfg])]
  rcases h with h | h
  · have := h i
    rw [hc i] at this
    cases this
  · have hn := lt_of_le_of_lt (delta_le_norm _ i) h
    rw [hc i] at hn ⊢
    simp only [halve] at hn ⊢
    rwa [sub_sub_cancel]

theorem control_spec {A : Args m p} {D : Dat p} {lam : Fin m → ℝ} {frozen : Fin m → Bool} (o : ℕ) (coef : Fin p → ℝ) :
    ∀ (fuel : ℕ) (ts : Fin m → Term) (r : (Fin m → Term) × (Fin p → ℝ) × (Fin m → ℝ)), Begin A lam frozen ts →
      control A D o coef fuel ts = some r →
      Ok A lam frozen r.1 ∧ r.2.1 = updateCoef D A.S r.2.2 ∧ UsedOk lam frozen r.2.2 ∧ Near A r.1 r.2.2 := by
  intro fuel
  induction fuel with
  | zero => intro ts r _ h; simp [control] at h
  | succ n ih =>
    intro ts r hb h
    rw [control] at h
    unfold pass at h
    have hz : ∀ x : ℝ, |x - x| < 1 / 10 ^ 7 := fun x => by rw [sub_self, abs_zero]; positivity
    by_cases h1 : badB (A.cfg o) (A.pass D fun i => (ts i).lam) ts = true ∧ (A.cfg o).control > 0
    · rw [if_pos h1] at h
      by_cases h2 : Tiny (A.cfg o) ts
      · rw [if_pos h2] at h
        simp only [Option.some.injEq] at h
        subst h
        obtain ⟨k1, k2⟩ := begin_propose (A := A) o (A.pass D fun i => (ts i).lam) (begin_correct o hb)
        refine ⟨k1, rfl, begin_used hb, fun he i => ?_⟩
        simp only
        rw [k2 i]
        exact tiny_near o h2 he i
      · rw [if_neg h2] at h
        exact ih _ _ (begin_correct o hb) h
    · rw [if_neg h1] at h
      split_ifs at h with h3
      · simp only [Option.some.injEq] at h
        subst h
        obtain ⟨k1, k2⟩ := begin_propose (A := A) o (A.pass D fun i => (ts i).lam) hb
        refine ⟨k1, rfl, begin_used hb, fun he i => ?_⟩
        simp only
        rw [k2 i]
        exact hz _
      · exact ih _ _ hb h

/-! ### The outer loop -/

section
variable (A : Args m p) (build : α → ℕ → ℝ) (R : List (α × ℝ)) (lam : Fin m → ℝ) (frozen : Fin m → Bool)

/-- Before the next proposal. -/
def Pre (s : St m p) : Prop :=
  Ok A lam frozen s.terms ∧ UsedOk lam frozen s.used ∧ Near A s.terms s.used ∧ s.dev = .fin (rss build R s.coef)

/-- After a proposal. -/
def Post (s : St m p) : Prop :=
  Ok A lam frozen s.terms ∧ UsedOk lam frozen s.used ∧ Near A s.terms s.used ∧ s.prevDev = .fin (rss build R s.coef) ∧
    s.nCoef = updateCoef (whole p build R) A.S s.used ∧ s.eta = (whole p build R).eta s.nCoef

theorem propose_post {fuel o : ℕ} {s s' : St m p} (h : Pre A build R lam frozen s) (hs : propose A (whole p build R) fuel o s = some s') :
    Post A build R lam frozen s' := by
  obtain ⟨h1, h2, h3, h4⟩ := h
  unfold propose at hs
  by_cases hm : m = 0
  · rw [if_pos hm] at hs
    simp only [Option.some.injEq] at hs
    subst hs
    exact ⟨h1, h2, h3, h4, rfl, rfl⟩
  · rw [if_neg hm] at hs
    cases hc : control A (whole p build R) o s.coef fuel (fun i => applyStep (s.terms i)) with
    | none => rw [hc] at hs; cases hs
    | some r =>
      rw [hc] at hs
      simp only [Option.some.injEq] at hs
      subst hs
      obtain ⟨k1, k2, k3, k4⟩ := control_spec o s.coef fuel _ r (begin_next h1) hc
      exact ⟨k1, k3, k4, h4, k2, rfl⟩

theorem used_pos {used : Fin m → ℝ} (h : UsedOk lam frozen used) (hf : ∀ i, frozen i = true → 0 < lam i) (i : Fin m) : 0 < used i := by
  cases hi : frozen i
  · have := ((h i).2 hi).1
    have h0 : (0:ℝ) < 1 / 10 ^ 7 := by positivity
    linarith
  · rw [(h i).1 hi]; exact hf i hi

/-- Penalised deviance as a number. -/
theorem penDev_fin (used : Fin m → ℝ) (D : Dat p) (b : Fin p → ℝ) (d : ℝ) :
    Step.penDev (prob A D used) b (.fin d) = .fin (d + quad (sEmb A.S used) b) := by
  unfold Step.penDev prob
  by_cases hm : 0 < m
  · simp only [hm, decide_true, if_true]
    rfl
  · have : m = 0 := by omega
    subst this
    simp [sEmb, quad]

/-- The proposed coefficients are always taken over: they minimise the penalised deviance. -/
theorem accept_post {s : St m p} (hS : ∀ i, (A.S i).PosSemidef) (hI : Ident build R A.S) (hf : ∀ i, frozen i = true → 0 < lam i)
    (h : Post A build R lam frozen s) :
    accept A (whole p build R) s = some { s with
      coef := s.nCoef
      dev := .fin (rss build R s.nCoef)
      pen := .fin (rss build R s.nCoef + quad (sEmb A.S s.used) s.nCoef) } := by
  obtain ⟨h1, h2, h3, h4, h5, h6⟩ := h
  have hpos := used_pos lam frozen h2 hf
  have hpd := pd build R A.S hS hI s.used hpos
  have hc := complete build R A.S s.used (sEmb_psd A.S hS s.used hpos) hpd s.coef
  rw [← h5] at hc
  have hq : 0 ≤ quad ((whole p build R).XX + sEmb A.S s.used) (s.coef - s.nCoef) := by
    have := hpd.posSemidef.dotProduct_mulVec_nonneg (s.coef - s.nCoef)
    rwa [star_trivial] at this
  unfold accept
  simp only
  rw [h6, deviance_whole, h4, penDev_fin, penDev_fin]
  rw [Step.coefLoop, if_neg]
  rintro (hg | hg)
  · simp only [Step.Gt] at hg
    linarith
  · exact hg trivial

/-- What holds at the end. -/
def Final (r : Out m p) : Prop :=
  UsedOk lam frozen r.used ∧ (∀ i, (frozen i = true → r.lam i = lam i) ∧ (frozen i = false → InRange (r.lam i))) ∧
  (A.extend = false → ∀ i, |r.used i - r.lam i| < 1 / 10 ^ 7) ∧
  (r.conv = true → r.coef = updateCoef (whole p build R) A.S r.used ∧ r.wCoef = r.coef ∧ r.eta = (whole p build R).eta r.coef ∧
    r.penalty = quad (sEmb A.S r.used) r.coef)

theorem ok_lam {ts : Fin m → Term} (h : Ok A lam frozen ts) (i : Fin m) :
    (frozen i = true → (ts i).lam = lam i) ∧ (frozen i = false → InRange (ts i).lam) := by
  obtain ⟨h1, h2, h3, h4⟩ := h i
  refine ⟨h4, fun hf => ?_⟩
  unfold Ready at h1
  rw [h3, hf] at h1
  exact h1.1

theorem result_penalty (s : St m p) (c : Bool) : (result A s c).penalty = quad (sEmb A.S s.used) s.coef := by
  unfold result
  simp only
  by_cases hm : 0 < m
  · rw [if_pos hm]
  · have : m = 0 := by omega
    subst this
    simp [sEmb, quad]

theorem outer_final (hS : ∀ i, (A.S i).PosSemidef) (hI : Ident build R A.S) (hf : ∀ i, frozen i = true → 0 < lam i) (fuel : ℕ) :
    ∀ (left o : ℕ) (s : St m p) (r : Out m p), (o = 0 → Pre A build R lam frozen s) → (o ≠ 0 → Post A build R lam frozen s) →
      outer A (whole p build R) fuel left o s = some r → Final A build R lam frozen r := by
  intro left
  induction left with
  | zero =>
    intro o s r h0 h1 h
    simp only [outer, Option.some.injEq] at h
    subst h
    have : Ok A lam frozen s.terms ∧ UsedOk lam frozen s.used ∧ Near A s.terms s.used := by
      by_cases ho : o = 0
      · exact ⟨(h0 ho).1, (h0 ho).2.1, (h0 ho).2.2.1⟩
      · exact ⟨(h1 ho).1, (h1 ho).2.1, (h1 ho).2.2.1⟩
    exact ⟨this.2.1, ok_lam A lam frozen this.1, this.2.2, fun hc => by cases hc⟩
  | succ n ih =>
    intro o s r h0 h1 h
    rw [outer] at h
    by_cases ho : o = 0
    · rw [if_pos ho] at h
      cases hp : propose A (whole p build R) fuel o s with
      | none => rw [hp] at h; cases h
      | some s' =>
        rw [hp] at h
        exact ih (o + 1) s' r (by omega) (fun _ => propose_post A build R lam frozen (h0 ho) hp) h
    · rw [if_neg ho, accept_post A build R lam frozen hS hI hf (h1 ho)] at h
      obtain ⟨k1, k2, k3, k4, k5, k6⟩ := h1 ho
      simp only at h
      split_ifs at h with hc
      · simp only [Option.some.injEq] at h
        subst h
        refine ⟨k2, ok_lam A lam frozen k1, k3, fun _ => ⟨k5, rfl, k6, result_penalty _ _ _⟩⟩
      · cases hp : propose A (whole p build R) fuel o { s with
            coef := s.nCoef
            dev := .fin (rss build R s.nCoef)
            pen := .fin (rss build R s.nCoef + quad (sEmb A.S s.used) s.nCoef) } with
        | none => rw [hp] at h; cases h
        | some s' =>
          rw [hp] at h
          refine ih (o + 1) s' r (by omega) (fun _ => ?_) h
          refine propose_post A build R lam frozen ?_ hp
          exact ⟨k1, k2, k3, rfl⟩

theorem start_pre (h0 : ∀ i, frozen i = false → InRange (lam i)) : Pre A build R lam frozen (start A (whole p build R) lam frozen) := by
  refine ⟨fun i => ⟨?_, fun _ => rfl, rfl, fun _ => rfl⟩, fun i => ⟨fun _ => rfl, h0 i⟩, fun _ i => ?_, ?_⟩
  · simp only [start, initStep, Ready]
    cases hi : frozen i
    · simp only [Bool.false_eq_true, if_false]
      exact ⟨h0 i hi, fs_range _ _ _ _ _, fun hc => by cases hc⟩
    · simp
  · simp only [start, initStep, sub_self, abs_zero]
    positivity
  · simp only [start]
    rw [deviance_whole]

end

/-! ### Properties -/

/-- Penalised residual sum of squares over all rows of all files that have a response. -/
noncomputable def objective (build : α → ℕ → ℝ) (fs : List (File α)) (S : Fin m → Matrix (Fin p) (Fin p) ℝ) (lam : Fin m → ℝ)
    (b : Fin p → ℝ) : ℝ :=
  ((fs.flatten.filterMap fun r => r.2.map fun y => (y - ∑ j : Fin p, build r.1 j * b j) ^ 2).sum) + ∑ i, lam i * (b ⬝ᵥ (S i).mulVec b)

theorem objective_eq (build : α → ℕ → ℝ) (fs : List (File α)) (S : Fin m → Matrix (Fin p) (Fin p) ℝ) (lam : Fin m → ℝ) (b : Fin p → ℝ) :
    objective build fs S lam b = rss build (rowsOf fs) b + quad (sEmb S lam) b := by
  unfold objective rss rowsOf
  rw [sEmb_quad, List.map_filterMap]
  congr 3
  funext r
  cases r.2 <;> rfl

theorem fit_final (A : Args m p) (src : Src) (build : α → ℕ → ℝ) (nc : ℕ) (fs : List (File α)) (fuel maxOuter : ℕ)
    (lam : Fin m → ℝ) (frozen : Fin m → Bool) (hS : ∀ i, (A.S i).PosSemidef) (hI : Ident build (rowsOf fs) A.S)
    (h0 : ∀ i, frozen i = false → InRange (lam i)) (hf : ∀ i, frozen i = true → 0 < lam i) (r : Out m p)
    (h : fit A src build nc fs fuel maxOuter lam frozen = some r) : Final A build (rowsOf fs) lam frozen r := by
  unfold fit at h
  cases hs : setup src build nc fs with
  | none => rw [hs] at h; cases h
  | some D =>
    rw [hs, setup_whole src build nc fs D hs] at h
    exact outer_final A build _ lam frozen hS hI hf fuel maxOuter 0 _ r (fun _ => start_pre A build _ lam frozen h0) (fun h => absurd rfl h) h

/-- **C97 (partial).**  A fit of a strictly additive model that reports convergence returns the unique minimiser of the penalised residual
sum of squares over all rows of all files that have a response, under the smoothing parameters `used`; the linear predictor holds the
predictions of these rows in order, scale parameter and degrees of freedom were computed with the same coefficients, and the reported
penalty is the penalty of these coefficients.  Missing: models whose coefficients are not identified, see `unidentified_wrong`. -/
theorem converged_exact_partial (A : Args m p) (src : Src) (build : α → ℕ → ℝ) (nc : ℕ) (fs : List (File α)) (fuel maxOuter : ℕ)
    (lam : Fin m → ℝ) (frozen : Fin m → Bool) (hS : ∀ i, (A.S i).PosSemidef)
    (hI : ∀ b : Fin p → ℝ, (∀ f ∈ fs, ∀ r ∈ f, r.2 ≠ none → ∑ j : Fin p, build r.1 j * b j = 0) → (∀ i, b ⬝ᵥ (A.S i).mulVec b = 0) → b = 0)
    (h0 : ∀ i, frozen i = false → 1 / 10 ^ 7 ≤ lam i ∧ lam i ≤ 10 ^ 7) (hf : ∀ i, frozen i = true → 0 < lam i) (r : Out m p)
    (h : fit A src build nc fs fuel maxOuter lam frozen = some r) (hc : r.conv = true) :
    (∀ c, c ≠ r.coef → objective build fs A.S r.used r.coef < objective build fs A.S r.used c) ∧
    r.eta = some (fs.flatten.filterMap fun x => x.2.map fun _ => ∑ j : Fin p, build x.1 j * r.coef j) ∧
    r.wCoef = r.coef ∧ r.penalty = ∑ i, r.used i * (r.coef ⬝ᵥ (A.S i).mulVec r.coef) := by
  have hI' : Ident build (rowsOf fs) A.S := by
    intro b hb hb2
    refine hI b (fun f hfs r hr hn => ?_) hb2
    obtain ⟨y, hy⟩ := Option.ne_none_iff_exists'.1 hn
    refine hb (r.1, y) ?_
    exact List.mem_filterMap.2 ⟨r, List.mem_flatten.2 ⟨f, hfs, hr⟩, by rw [hy]; rfl⟩
  obtain ⟨h1, -, -, h4⟩ := fit_final A src build nc fs fuel maxOuter lam frozen hS hI' h0 hf r h
  obtain ⟨k1, k2, k3, k4⟩ := h4 hc
  have hpos := used_pos lam frozen h1 hf
  refine ⟨fun c hne => ?_, ?_, k2, by rw [k4, sEmb_quad]; rfl⟩
  · have hpd := pd build (rowsOf fs) A.S hS hI' r.used hpos
    have hcs := complete build (rowsOf fs) A.S r.used (sEmb_psd A.S hS r.used hpos) hpd c
    rw [← k1] at hcs
    have := hpd.dotProduct_mulVec_pos (x := c - r.coef) (sub_ne_zero.2 hne)
    rw [star_trivial] at this
    rw [objective_eq, objective_eq, hcs]
    unfold quad
    linarith
  · rw [k3]
    simp only [whole, Option.some.injEq, rowsOf]
    rw [List.map_filterMap]
    congr 1
    funext x
    cases x.2 <;> rfl

/-- **C97.**  Smoothing parameters that coefficients were computed with and reported ones are between `1e-7` and `1e7`, frozen ones are
unchanged; without extension the two differ by less than `1e-7`. -/
theorem smoothing_range (A : Args m p) (src : Src) (build : α → ℕ → ℝ) (nc : ℕ) (fs : List (File α)) (fuel maxOuter : ℕ)
    (lam : Fin m → ℝ) (frozen : Fin m → Bool) (hS : ∀ i, (A.S i).PosSemidef)
    (hI : ∀ b : Fin p → ℝ, (∀ f ∈ fs, ∀ r ∈ f, r.2 ≠ none → ∑ j : Fin p, build r.1 j * b j = 0) → (∀ i, b ⬝ᵥ (A.S i).mulVec b = 0) → b = 0)
    (h0 : ∀ i, frozen i = false → 1 / 10 ^ 7 ≤ lam i ∧ lam i ≤ 10 ^ 7) (hf : ∀ i, frozen i = true → 0 < lam i) (r : Out m p)
    (h : fit A src build nc fs fuel maxOuter lam frozen = some r) (i : Fin m) :
    (frozen i = true → r.lam i = lam i ∧ r.used i = lam i) ∧
    (frozen i = false → (1 / 10 ^ 7 ≤ r.lam i ∧ r.lam i ≤ 10 ^ 7) ∧ 1 / 10 ^ 7 ≤ r.used i ∧ r.used i ≤ 10 ^ 7) ∧
    (A.extend = false → |r.used i - r.lam i| < 1 / 10 ^ 7) := by
  have hI' : Ident build (rowsOf fs) A.S := by
    intro b hb hb2
    refine hI b (fun f hfs r hr hn => ?_) hb2
    obtain ⟨y, hy⟩ := Option.ne_none_iff_exists'.1 hn
    refine hb (r.1, y) ?_
    exact List.mem_filterMap.2 ⟨r, List.mem_flatten.2 ⟨f, hfs, hr⟩, by rw [hy]; rfl⟩
  obtain ⟨h1, h2, h3, -⟩ := fit_final A src build nc fs fuel maxOuter lam frozen hS hI' h0 hf r h
  exact ⟨fun hfi => ⟨(h2 i).1 hfi, (h1 i).1 hfi⟩, fun hfi => ⟨(h2 i).2 hfi, (h1 i).2 hfi⟩, fun he => h3 he i⟩

/-- **C97.**  A fit from files, with covariates read again or kept, for any number of cores, is the fit of the same rows in one
data-frame. -/
theorem files_memory (A : Args m p) (src : Src) (build : α → ℕ → ℝ) (nc nc' : ℕ) (fs : List (File α)) (fuel maxOuter : ℕ)
    (lam : Fin m → ℝ) (frozen : Fin m → Bool) (r : Out m p) (h : fit A src build nc fs fuel maxOuter lam frozen = some r) :
    fit A .memory build nc' [fs.flatten] fuel maxOuter lam frozen = some r := by
  unfold fit at h ⊢
  cases hs : setup src build nc fs with
  | none => rw [hs] at h; cases h
  | some D =>
    rw [hs, setup_whole src build nc fs D hs] at h
    rw [setup_memory]
    simp only
    rw [show rowsOf [fs.flatten] = rowsOf fs by simp [rowsOf]]
    exact h

/-- **C97.**  Data can be read from files if there is a file and every file has a row with a response; it can be kept if there are
at least as many such rows as files. -/
theorem files_read (build : α → ℕ → ℝ) (nc : ℕ) (hn : 0 < nc) (fs : List (File α)) (hne : fs ≠ []) :
    ((∀ f ∈ fs, ∃ r ∈ f, r.2 ≠ none) → (setup (p := p) .files build nc fs).isSome) ∧
    (fs.length ≤ (fs.flatten.filter fun r => r.2.isSome).length → (setup (p := p) .kept build nc fs).isSome) := by
  constructor
  · intro hr
    have hc : ∀ f ∈ fs, ¬(nc = 0 ∨ covs f = []) := by
      rintro f hf (h | h)
      · omega
      · obtain ⟨r, hr1, hr2⟩ := hr f hf
        obtain ⟨y, hy⟩ := Option.ne_none_iff_exists'.1 hr2
        have : r.1 ∈ covs f := List.mem_filterMap.2 ⟨r, hr1, by rw [hy]; rfl⟩
        rw [h] at this
        cases this
    have hmap := Par.mapM_some (fun f => Par.readXTX build nc (covs f) (ys f))
      (fun f => (Par.crossXX ((covs f).map build), Par.crossXy ((covs f).map build) (ys f), (ys f).length)) fs
      (fun f hf => by rw [Par.readXTX_eq build nc _ _ (covs_length f), if_neg (hc f hf)])
    simp only [setup, hmap, Option.bind_eq_bind, Option.bind_some]
    rw [List.map_map, Par.reduce_addM _ (by simpa using hne), List.map_map, Par.reduce_addV _ (by simpa using hne)]
    rfl
  · intro hl
    have hlen : (rowsOf fs).length = (fs.flatten.filter fun r => r.2.isSome).length := by
      unfold rowsOf
      generalize fs.flatten = l
      induction l with
      | nil => rfl
      | cons r l ih =>
        cases hr : r.2 with
        | none => simp [List.filterMap_cons, hr, ih]
        | some y => simp [List.filterMap_cons, hr, ih]
    simp only [setup]
    rw [covs_rows, ys_rows, Par.keepXTX_eq build fs.length nc _ _ (by simp) (List.length_pos_iff.2 hne) hn (by
      rw [List.length_map, hlen]; exact hl)]
    rfl

/-! ### Coefficients that are not identified -/

theorem not_pd (build : α → ℕ → ℝ) (R : List (α × ℝ)) (S : Fin m → Matrix (Fin p) (Fin p) ℝ) (v : Fin p → ℝ) (hv : v ≠ 0)
    (h1 : ∀ r ∈ R, lin build v r.1 = 0) (h2 : ∀ i, (S i).mulVec v = 0) (lam : Fin m → ℝ) : ¬((whole p build R).XX + sEmb S lam).PosDef := by
  intro h
  have := h.dotProduct_mulVec_pos hv
  rw [star_trivial, add_mulVec, dotProduct_add, XX_quad] at this
  have hz : (R.map fun r => lin build v r.1 * lin build v r.1).sum = 0 := by
    apply List.sum_eq_zero
    intro x hx
    obtain ⟨r, hr, rfl⟩ := List.mem_map.1 hx
    rw [h1 r hr, zero_mul]
  have hs : (sEmb S lam).mulVec v = 0 := by
    unfold sEmb
    rw [sum_mulVec]
    exact Finset.sum_eq_zero fun i _ => by rw [smul_mulVec, h2 i, smul_zero]
  rw [hz, hs] at this
  simp at this

theorem update_zero (D : Dat p) (S : Fin m → Matrix (Fin p) (Fin p) ℝ) (lam : Fin m → ℝ) (h : ¬(D.XX + sEmb S lam).PosDef) :
    updateCoef D S lam = 0 := by
  unfold updateCoef solveXX
  rw [if_neg h]

theorem control_coef {A : Args m p} {D : Dat p} (o : ℕ) (coef : Fin p → ℝ) : ∀ (fuel : ℕ) (ts : Fin m → Term)
    (r : (Fin m → Term) × (Fin p → ℝ) × (Fin m → ℝ)), control A D o coef fuel ts = some r → r.2.1 = updateCoef D A.S r.2.2 := by
  intro fuel
  induction fuel with
  | zero => intro ts r h; simp [control] at h
  | succ n ih =>
    intro ts r h
    rw [control] at h
    unfold pass at h
    split_ifs at h
    · simp only [Option.some.injEq] at h; subst h; rfl
    · exact ih _ _ h
    · simp only [Option.some.injEq] at h; subst h; rfl
    · exact ih _ _ h

theorem propose_zero (A : Args m p) (D : Dat p) (hz : ∀ lam, updateCoef D A.S lam = 0) {fuel o : ℕ} {s s' : St m p}
    (h : propose A D fuel o s = some s') : s'.coef = s.coef ∧ s'.nCoef = 0 ∧ s'.eta = D.eta 0 ∧ s'.prevDev = s.dev ∧ s'.prevPen = s.pen := by
  unfold propose at h
  split_ifs at h with hm
  · simp only [Option.some.injEq] at h
    subst h
    exact ⟨rfl, hz _, by simp only; rw [hz], rfl, rfl⟩
  · cases hc : control A D o s.coef fuel (fun i => applyStep (s.terms i)) with
    | none => rw [hc] at h; cases h
    | some r =>
      rw [hc] at h
      simp only [Option.some.injEq] at h
      subst h
      have := control_coef o s.coef fuel _ r hc
      rw [hz] at this
      exact ⟨rfl, this, by simp only; rw [this], rfl, rfl⟩

/-- **C97, refuted for coefficients that are not identified.**  If some direction changes neither the predictions nor the penalties, every
fit with `method="Chol"` or from files that runs for at least two iterations reports convergence with all coefficients zero. -/
theorem unidentified_zero (A : Args m p) (src : Src) (build : α → ℕ → ℝ) (nc : ℕ) (fs : List (File α)) (fuel maxOuter : ℕ) (ht : 0 < A.tol)
    (hmx : 2 ≤ maxOuter) (lam : Fin m → ℝ) (frozen : Fin m → Bool) (v : Fin p → ℝ) (hv : v ≠ 0)
    (h1 : ∀ f ∈ fs, ∀ r ∈ f, r.2 ≠ none → ∑ j : Fin p, build r.1 j * v j = 0) (h2 : ∀ i, (A.S i).mulVec v = 0)
    (hy : ∃ f ∈ fs, ∃ r ∈ f, ∃ y, r.2 = some y ∧ y ≠ 0) (r : Out m p)
    (h : fit A src build nc fs fuel maxOuter lam frozen = some r) : r.conv = true ∧ r.coef = 0 := by
  obtain ⟨n, rfl⟩ : ∃ n, maxOuter = n + 2 := ⟨maxOuter - 2, by omega⟩
  unfold fit at h
  cases hs : setup src build nc fs with
  | none => rw [hs] at h; cases h
  | some D =>
    rw [hs, setup_whole src build nc fs D hs] at h
    obtain ⟨R, hR⟩ : ∃ R, R = rowsOf fs := ⟨_, rfl⟩
    rw [← hR] at h
    have hz : ∀ l, updateCoef (whole p build R) A.S l = 0 := fun l => update_zero _ _ _ (not_pd build R A.S v hv (fun x hx => by
      rw [hR] at hx
      obtain ⟨x0, hx0, hx1⟩ := List.mem_filterMap.1 hx
      obtain ⟨f, hf, hxf⟩ := List.mem_flatten.1 hx0
      obtain ⟨y, hy0, rfl⟩ := Option.map_eq_some_iff.1 hx1
      exact h1 f hf x0 hxf (by rw [hy0]; simp)) h2 l)
    have hpos : 0 < rss build R (0 : Fin p → ℝ) := by
      obtain ⟨f, hf, x, hx, y, hy1, hy2⟩ := hy
      have hmem : (x.1, y) ∈ R := by
        rw [hR]
        exact List.mem_filterMap.2 ⟨x, List.mem_flatten.2 ⟨f, hf, hx⟩, by rw [hy1]; rfl⟩
      unfold rss
      have hle : (y - lin build (0 : Fin p → ℝ) x.1) ^ 2 ≤ (R.map fun r => (r.2 - lin build (0 : Fin p → ℝ) r.1) ^ 2).sum := by
        apply List.single_le_sum
        · intro w hw
          obtain ⟨q, -, rfl⟩ := List.mem_map.1 hw
          exact sq_nonneg _
        · exact List.mem_map.2 ⟨_, hmem, rfl⟩
      have h0 : lin build (0 : Fin p → ℝ) x.1 = 0 := by simp [lin]
      rw [h0, sub_zero] at hle
      have := pow_pos (abs_pos.2 hy2) 2
      rw [sq_abs] at this
      linarith
    simp only [outer, if_true] at h
    cases hp : propose A (whole p build R) fuel 0 (start A (whole p build R) lam frozen) with
    | none => rw [hp] at h; cases h
    | some s' =>
      rw [hp] at h
      obtain ⟨k1, k2, k3, k4, k5⟩ := propose_zero A _ hz hp
      have hs1 : s'.coef = 0 := by rw [k1]; exact hz _
      have hs4 : s'.prevDev = .fin (rss build R (0 : Fin p → ℝ)) := by
        rw [k4]; simp only [start]; rw [hz, deviance_whole]
      have hq : ∀ l : Fin m → ℝ, quad (sEmb A.S l) (0 : Fin p → ℝ) = 0 := fun l => by simp [quad]
      have hs5 : s'.prevPen = .fin (rss build R (0 : Fin p → ℝ)) := by
        rw [k5]; simp only [start]; rw [hz, deviance_whole, penDev_fin, hq, add_zero]
      have ha : accept A (whole p build R) s' = some { s' with
          coef := 0
          dev := .fin (rss build R (0 : Fin p → ℝ))
          pen := .fin (rss build R (0 : Fin p → ℝ)) } := by
        unfold accept
        simp only
        rw [k3, deviance_whole, hs4, hs1, k2, penDev_fin, hq, add_zero, Step.coefLoop, if_neg]
        · rintro (hg | hg)
          · simp only [Step.Gt] at hg
            exact lt_irrefl _ hg
          · exact hg trivial
      simp only [Nat.add_eq_zero_iff, Nat.one_ne_zero, and_false, if_false, ha] at h
      rw [if_pos (by
        rw [hs5]
        simp only [Conv, sub_self, abs_zero]
        exact mul_pos ht hpos)] at h
      simp only [Option.some.injEq] at h
      subst h
      exact ⟨rfl, rfl⟩

/-! ### Fixed smoothing parameters -/

theorem control_fixed (A : Args m p) (D : Dat p) (o fuel : ℕ) (coef : Fin p → ℝ) (ts : Fin m → Term) (hd : ∀ i, (ts i).delta = 0)
    (hn : ∀ l, A.nan l = false) :
    ∃ ts', control A D o coef (fuel + 1) ts = some (ts', updateCoef D A.S (fun i => (ts i).lam), fun i => (ts i).lam) := by
  have hcrit : crit (A.cfg o) = 0 := by simp [crit, Args.cfg]
  have hchk : check (A.cfg o) (A.pass D fun i => (ts i).lam) ts = some 0 := by
    have hs : ∑ i, (A.pass D fun i => (ts i).lam).grad i * (ts i).delta = 0 := Finset.sum_eq_zero fun i _ => by rw [hd i, mul_zero]
    unfold check
    rw [if_neg (by simp [Args.pass, hn])]
    simp only
    rw [if_neg (by simp [Args.cfg]), hs]
  have hbad : badB (A.cfg o) (A.pass D fun i => (ts i).lam) ts = false := by
    unfold badB; rw [hchk]; simp [hcrit]
  have hok : okB (A.cfg o) (A.pass D fun i => (ts i).lam) ts = true := by
    unfold okB; rw [hchk]; simp [hcrit]
  rw [control]
  unfold pass
  rw [hbad, if_neg (by simp), hok, if_pos (.inl rfl)]
  exact ⟨_, rfl⟩

/-- **C97.**  With fixed smoothing parameters and data that are not fitted perfectly, the fit converges in the second iteration, and these
smoothing parameters are the ones used. -/
theorem fixed_converges (A : Args m p) (src : Src) (build : α → ℕ → ℝ) (nc : ℕ) (fs : List (File α)) (fuel maxOuter : ℕ)
    (hfuel : 1 ≤ fuel) (hmx : 2 ≤ maxOuter) (ht : 0 < A.tol) (hn : ∀ l, A.nan l = false) (lam : Fin m → ℝ) (hl : ∀ i, 0 < lam i)
    (hS : ∀ i, (A.S i).PosSemidef)
    (hI : ∀ b : Fin p → ℝ, (∀ f ∈ fs, ∀ r ∈ f, r.2 ≠ none → ∑ j : Fin p, build r.1 j * b j = 0) → (∀ i, b ⬝ᵥ (A.S i).mulVec b = 0) → b = 0)
    (hpos : ∀ b : Fin p → ℝ, 0 < objective build fs A.S lam b) (hs : (setup (p := p) src build nc fs).isSome) :
    ∃ r, fit A src build nc fs fuel maxOuter lam (fun _ => true) = some r ∧ r.conv = true ∧ r.used = lam := by
  have hI' : Ident build (rowsOf fs) A.S := by
    intro b hb hb2
    refine hI b (fun f hfs r hr hn => ?_) hb2
    obtain ⟨y, hy⟩ := Option.ne_none_iff_exists'.1 hn
    refine hb (r.1, y) ?_
    exact List.mem_filterMap.2 ⟨r, List.mem_flatten.2 ⟨f, hfs, hr⟩, by rw [hy]; rfl⟩
  obtain ⟨n, rfl⟩ : ∃ n, maxOuter = n + 2 := ⟨maxOuter - 2, by omega⟩
  obtain ⟨k, rfl⟩ : ∃ k, fuel = k + 1 := ⟨fuel - 1, by omega⟩
  obtain ⟨D, hD⟩ := Option.isSome_iff_exists.1 hs
  have hW := setup_whole src build nc fs D hD
  unfold fit
  rw [hD]
  simp only
  rw [hW]
  obtain ⟨R, hR⟩ : ∃ R, R = rowsOf fs := ⟨_, rfl⟩
  rw [← hR] at hI' ⊢
  have hpre := start_pre A build R lam (fun _ => true) (by intro i hi; cases hi)
  have hprop : ∃ s', propose A (whole p build R) (k + 1) 0 (start A (whole p build R) lam fun _ => true) = some s' ∧ s'.used = lam ∧
      s'.prevPen = (start A (whole p build R) lam fun _ => true).pen := by
    unfold propose
    by_cases hm : m = 0
    · rw [if_pos hm]
      exact ⟨_, rfl, rfl, rfl⟩
    · rw [if_neg hm]
      have hd : ∀ i, (applyStep ((start A (whole p build R) lam fun _ => true).terms i)).delta = 0 := by
        intro i; simp [applyStep, start, initStep]
      have hlam : (fun i => (applyStep ((start A (whole p build R) lam fun _ => true).terms i)).lam) = lam := by
        funext i; simp [applyStep, start, initStep]
      obtain ⟨ts', hc⟩ := control_fixed A (whole p build R) 0 k (start A (whole p build R) lam fun _ => true).coef
        (fun i => applyStep ((start A (whole p build R) lam fun _ => true).terms i)) hd hn
      rw [hc]
      exact ⟨_, rfl, hlam, rfl⟩
  obtain ⟨s', hs1, hs2, hs3⟩ := hprop
  have hpost := propose_post A build R lam (fun _ => true) hpre hs1
  have hacc := accept_post A build R lam (fun _ => true) hS hI' (fun i _ => hl i) hpost
  have hn' : s'.nCoef = updateCoef (whole p build R) A.S lam := by rw [hpost.2.2.2.2.1, hs2]
  have hpp : s'.prevPen = .fin (rss build R s'.nCoef + quad (sEmb A.S s'.used) s'.nCoef) := by
    rw [hs3, hn', hs2]
    simp only [start]
    rw [deviance_whole, penDev_fin]
  simp only [outer, if_true, hs1, Nat.add_eq_zero_iff, Nat.one_ne_zero, and_false, if_false, hacc]
  rw [if_pos]
  · exact ⟨_, rfl, rfl, hs2⟩
  · rw [hpp]
    simp only [Conv, sub_self, abs_zero]
    refine mul_pos ht ?_
    have := hpos s'.nCoef
    rwa [objective_eq, ← hR, ← hs2] at this

/-! ### When a fit settles -/

theorem propose_prev {A : Args m p} {D : Dat p} {fuel o : ℕ} {s s' : St m p} (h : propose A D fuel o s = some s') :
    s'.prevPen = s.pen ∧ s'.coef = s.coef := by
  unfold propose at h
  by_cases hm : m = 0
  · rw [if_pos hm] at h
    simp only [Option.some.injEq] at h
    subst h
    exact ⟨rfl, rfl⟩
  · rw [if_neg hm] at h
    cases hc : control A D o s.coef fuel (fun i => applyStep (s.terms i)) with
    | none => rw [hc] at h; cases h
    | some r =>
      rw [hc] at h
      simp only [Option.some.injEq] at h
      subst h
      exact ⟨rfl, rfl⟩

theorem outer_settled (A : Args m p) (build : α → ℕ → ℝ) (R : List (α × ℝ)) (lam : Fin m → ℝ) (frozen : Fin m → Bool)
    (hS : ∀ i, (A.S i).PosSemidef) (hI : Ident build R A.S) (hf : ∀ i, frozen i = true → 0 < lam i) (fuel : ℕ) :
    ∀ (left o : ℕ) (s : St m p) (r : Out m p) (a : ℝ), o ≠ 0 → Post A build R lam frozen s → s.prevPen = .fin a →
      outer A (whole p build R) fuel (left + 1) o s = some r → r.conv = true →
      (∀ r', outer A (whole p build R) fuel left o s = some r' → r'.conv = false) →
      (left = 0 → |rss build R r.coef + quad (sEmb A.S r.used) r.coef - a| < A.tol * (rss build R r.coef + quad (sEmb A.S r.used) r.coef)) ∧
      (left ≠ 0 → ∃ r' r'', outer A (whole p build R) fuel left o s = some r' ∧ outer A (whole p build R) fuel (left - 1) o s = some r'' ∧
        |rss build R r.coef + quad (sEmb A.S r.used) r.coef - (rss build R r'.coef + quad (sEmb A.S r''.used) r'.coef)| <
          A.tol * (rss build R r.coef + quad (sEmb A.S r.used) r.coef)) := by
  intro left
  induction left with
  | zero =>
    intro o s r a ho hs ha h hc _
    refine ⟨fun _ => ?_, fun h => absurd rfl h⟩
    rw [outer, if_neg ho, accept_post A build R lam frozen hS hI hf hs] at h
    simp only at h
    split_ifs at h with hcv
    · simp only [Option.some.injEq] at h
      subst h
      rw [ha] at hcv
      exact hcv
    · split at h
      · cases h
      · simp only [outer, Option.some.injEq] at h
        subst h
        cases hc
  | succ n ih =>
    intro o s r a ho hs ha h hc hmin
    refine ⟨fun h => absurd h (by omega), fun _ => ?_⟩
    obtain ⟨k1, k2, k3, k4, k5, k6⟩ := hs
    have hacc := accept_post A build R lam frozen hS hI hf ⟨k1, k2, k3, k4, k5, k6⟩
    rw [outer, if_neg ho, hacc] at h
    simp only at h
    by_cases hcv : Conv A.tol (Fl.fin (rss build R s.nCoef + quad (sEmb A.S s.used) s.nCoef)) s.prevPen
    · have := hmin (result A { s with
          coef := s.nCoef
          dev := .fin (rss build R s.nCoef)
          pen := .fin (rss build R s.nCoef + quad (sEmb A.S s.used) s.nCoef) } true) (by
        rw [outer, if_neg ho, hacc]
        simp only
        rw [if_pos hcv])
      cases this
    rw [if_neg hcv] at h
    cases hp : propose A (whole p build R) fuel o { s with
        coef := s.nCoef
        dev := .fin (rss build R s.nCoef)
        pen := .fin (rss build R s.nCoef + quad (sEmb A.S s.used) s.nCoef) } with
    | none => rw [hp] at h; cases h
    | some s' =>
      rw [hp] at h
      simp only at h
      have hpost : Post A build R lam frozen s' := by
        refine propose_post A build R lam frozen ?_ hp
        exact ⟨k1, k2, k3, rfl⟩
      obtain ⟨e1, e2⟩ := propose_prev hp
      simp only at e1 e2
      have shift : ∀ l, outer A (whole p build R) fuel (l + 1) o s = outer A (whole p build R) fuel l (o + 1) s' := by
        intro l
        rw [outer, if_neg ho, hacc]
        simp only
        rw [if_neg hcv, hp]
      have := ih (o + 1) s' r _ (by omega) hpost e1 h hc (fun r' hr' => hmin r' (by rw [shift]; exact hr'))
      rcases Nat.eq_zero_or_pos n with rfl | hn
      · refine ⟨result A s' false, result A s false, by rw [shift]; rfl, rfl, ?_⟩
        have := this.1 rfl
        simpa [result, e2] using this
      · obtain ⟨r', r'', q1, q2, q3⟩ := this.2 (by omega)
        refine ⟨r', r'', by rw [shift]; exact q1, ?_, q3⟩
        rw [show n + 1 - 1 = (n - 1) + 1 by omega, shift]
        exact q2

/-- **C97.**  Convergence is reported in the first iteration in which the penalised residual sum of squares differs from that of the
iteration before by less than the tolerance: if `k + 2` iterations end with convergence and `k + 1` do not, the criterion holds between the fit and the
coefficients after `k + 1` iterations under the smoothing parameters they were computed with. -/
theorem converged_settled (A : Args m p) (src : Src) (build : α → ℕ → ℝ) (nc : ℕ) (fs : List (File α)) (fuel k : ℕ)
    (lam : Fin m → ℝ) (frozen : Fin m → Bool) (hS : ∀ i, (A.S i).PosSemidef)
    (hI : ∀ b : Fin p → ℝ, (∀ f ∈ fs, ∀ r ∈ f, r.2 ≠ none → ∑ j : Fin p, build r.1 j * b j = 0) → (∀ i, b ⬝ᵥ (A.S i).mulVec b = 0) → b = 0)
    (h0 : ∀ i, frozen i = false → 1 / 10 ^ 7 ≤ lam i ∧ lam i ≤ 10 ^ 7) (hf : ∀ i, frozen i = true → 0 < lam i) (r r' r'' : Out m p)
    (h : fit A src build nc fs fuel (k + 2) lam frozen = some r) (hc : r.conv = true)
    (h' : fit A src build nc fs fuel (k + 1) lam frozen = some r') (hc' : r'.conv = false)
    (h'' : fit A src build nc fs fuel k lam frozen = some r'') :
    |objective build fs A.S r.used r.coef - objective build fs A.S r''.used r'.coef| < A.tol * objective build fs A.S r.used r.coef := by
  have hI' : Ident build (rowsOf fs) A.S := by
    intro b hb hb2
    refine hI b (fun f hfs r hr hn => ?_) hb2
    obtain ⟨y, hy⟩ := Option.ne_none_iff_exists'.1 hn
    refine hb (r.1, y) ?_
    exact List.mem_filterMap.2 ⟨r, List.mem_flatten.2 ⟨f, hfs, hr⟩, by rw [hy]; rfl⟩
  rw [objective_eq, objective_eq]
  unfold fit at h h' h''
  cases hs : setup src build nc fs with
  | none => rw [hs] at h; cases h
  | some D =>
    rw [hs, setup_whole src build nc fs D hs] at h h' h''
    simp only at h h' h''
    have hpre := start_pre A build (rowsOf fs) lam frozen h0
    have hpen : (start A (whole p build (rowsOf fs)) lam frozen).pen = .fin (rss build (rowsOf fs) (start A (whole p build (rowsOf fs)) lam frozen).coef +
        quad (sEmb A.S lam) (start A (whole p build (rowsOf fs)) lam frozen).coef) := by
      simp only [start]
      rw [deviance_whole, penDev_fin]
    rw [outer, if_pos rfl] at h h'
    cases hp : propose A (whole p build (rowsOf fs)) fuel 0 (start A (whole p build (rowsOf fs)) lam frozen) with
    | none => rw [hp] at h; cases h
    | some s' =>
      rw [hp] at h h'
      simp only [Nat.zero_add] at h h'
      obtain ⟨e1, e2⟩ := propose_prev hp
      rw [hpen] at e1
      have := outer_settled A build (rowsOf fs) lam frozen hS hI' hf fuel k 1 s' r _ (by omega)
        (propose_post A build (rowsOf fs) lam frozen hpre hp) e1 h hc (fun q hq => by
          rw [h'] at hq
          cases hq
          exact hc')
      rcases Nat.eq_zero_or_pos k with rfl | hk
      · have h3 := this.1 rfl
        simp only [outer, Option.some.injEq] at h' h''
        subst h' h''
        simpa [result, e2, start] using h3
      · obtain ⟨q', q'', q1, q2, q3⟩ := this.2 (by omega)
        rw [h'] at q1
        cases q1
        obtain ⟨j, rfl⟩ : ∃ j, k = j + 1 := ⟨k - 1, by omega⟩
        rw [outer, if_pos rfl, hp] at h''
        simp only [Nat.zero_add] at h''
        rw [Nat.add_sub_cancel, h''] at q2
        cases q2
        exact q3

/-! ### Cases -/

/-- Two files, three responses, one of them missing; intercept only. -/
def exFiles : List (File Unit) := [[((), some 1)], [((), none), ((), some 3)]]

/-- One ridge penalty. -/
noncomputable def exArgs : Args 1 1 :=
  ⟨fun _ => 1, false, false, 2, .expectedRatio, 1 / 10 ^ 7, fun _ _ _ => 1, fun _ _ _ => 0, fun _ _ => 1, fun _ => false⟩

theorem exIdent (b : Fin 1 → ℝ) (_ : ∀ f ∈ exFiles, ∀ r ∈ f, r.2 ≠ none → ∑ j : Fin 1, (fun (_ : Unit) (_ : ℕ) => (1:ℝ)) r.1 j * b j = 0)
    (h : ∀ i, b ⬝ᵥ (exArgs.S i).mulVec b = 0) : b = 0 := by
  have := h 0
  simp only [exArgs, one_mulVec] at this
  exact dotProduct_self_eq_zero.1 this

theorem exPos (b : Fin 1 → ℝ) : 0 < objective (fun (_ : Unit) (_ : ℕ) => (1:ℝ)) exFiles exArgs.S (fun _ => 2) b := by
  simp only [objective, exFiles, exArgs, one_mulVec, dotProduct, Finset.univ_unique, Fin.default_eq_zero, Finset.sum_singleton,
    List.flatten_cons, List.flatten_nil, List.append_nil, List.cons_append, List.nil_append, List.filterMap_cons, List.filterMap_nil,
    Option.map_some, Option.map_none, List.sum_cons, List.sum_nil]
  nlinarith [sq_nonneg (b 0 - 1), sq_nonneg (b 0 - 3), sq_nonneg (b 0)]

/-- A fit from files with a ridge penalty meets the hypotheses. -/
example : ∃ r, fit exArgs .files (fun _ _ => 1) 4 exFiles 1 2 (fun _ => 2) (fun _ => true) = some r ∧ r.conv = true ∧
    r.coef = fun _ => 1 := by
  have hset := (files_read (p := 1) (fun (_ : Unit) (_ : ℕ) => (1:ℝ)) 4 (by norm_num) exFiles (by simp [exFiles])).1 (by simp [exFiles])
  have hS : ∀ i, (exArgs.S i).PosSemidef := fun i => PosSemidef.one
  obtain ⟨r, h1, h2, h3⟩ := fixed_converges exArgs .files (fun _ _ => 1) 4 exFiles 1 2 le_rfl le_rfl (by norm_num [exArgs]) (fun _ => rfl)
    (fun _ => 2) (fun _ => by norm_num) hS exIdent exPos hset
  refine ⟨r, h1, h2, ?_⟩
  have hex := (converged_exact_partial exArgs .files (fun _ _ => 1) 4 exFiles 1 2 (fun _ => 2) (fun _ => true) hS exIdent
    (by intro i hi; cases hi) (fun _ _ => by norm_num) r h1 h2).1
  by_contra hne
  have := hex (fun _ => 1) (Ne.symm hne)
  rw [h3] at this
  simp only [objective, exFiles, exArgs, one_mulVec, dotProduct, Finset.univ_unique, Fin.default_eq_zero, Finset.sum_singleton,
    List.flatten_cons, List.flatten_nil, List.append_nil, List.cons_append, List.nil_append, List.filterMap_cons, List.filterMap_nil,
    Option.map_some, Option.map_none, List.sum_cons, List.sum_nil] at this
  nlinarith [sq_nonneg (r.coef 0 - 1)]

/-- With fixed smoothing parameters the second iteration settles and the first does not. -/
example : ∃ r r' r'', fit exArgs .files (fun _ _ => 1) 4 exFiles 1 2 (fun _ => 2) (fun _ => true) = some r ∧ r.conv = true ∧
    fit exArgs .files (fun _ _ => 1) 4 exFiles 1 1 (fun _ => 2) (fun _ => true) = some r' ∧ r'.conv = false ∧
    fit exArgs .files (fun _ _ => 1) 4 exFiles 1 0 (fun _ => 2) (fun _ => true) = some r'' := by
  have hset := (files_read (p := 1) (fun (_ : Unit) (_ : ℕ) => (1:ℝ)) 4 (by norm_num) exFiles (by simp [exFiles])).1 (by simp [exFiles])
  have hS : ∀ i, (exArgs.S i).PosSemidef := fun i => PosSemidef.one
  obtain ⟨r, h1, h2, h3⟩ := fixed_converges exArgs .files (fun _ _ => 1) 4 exFiles 1 2 le_rfl le_rfl (by norm_num [exArgs]) (fun _ => rfl)
    (fun _ => 2) (fun _ => by norm_num) hS exIdent exPos hset
  have h1' := h1
  obtain ⟨D, hD⟩ := Option.isSome_iff_exists.1 hset
  unfold fit at h1' ⊢
  rw [hD] at h1' ⊢
  simp only at h1' ⊢
  rw [outer, if_pos rfl] at h1'
  cases hp : propose exArgs D 1 0 (start exArgs D (fun _ => 2) fun _ => true) with
  | none => rw [hp] at h1'; cases h1'
  | some s' =>
    refine ⟨r, result exArgs s' false, result exArgs (start exArgs D (fun _ => 2) fun _ => true) false, ?_, h2, ?_, rfl, rfl⟩
    · rw [outer, if_pos rfl]; exact h1'
    · rw [outer, if_pos rfl, hp]; rfl

/-- No penalty. -/
noncomputable def exArgs0 : Args 0 2 :=
  ⟨fun _ => 1, false, false, 2, .expectedRatio, 1 / 10 ^ 7, fun _ _ _ => 1, fun _ _ _ => 0, fun _ _ => 1, fun _ => false⟩

/-- **C97, refuted for coefficients that are not identified.**  Two columns of ones, read from two files: the fit reports convergence with
zero coefficients although other coefficients fit the data much better. -/
theorem unidentified_wrong : ∃ r : Out 0 2, fit exArgs0 .files (fun _ _ => 1) 4 exFiles 1 2 finZeroElim finZeroElim = some r ∧ r.conv = true ∧
    ∃ c, objective (fun _ _ => 1) exFiles exArgs0.S r.used c < objective (fun _ _ => 1) exFiles exArgs0.S r.used r.coef := by
  have hset := (files_read (p := 2) (fun (_ : Unit) (_ : ℕ) => (1:ℝ)) 4 (by norm_num) exFiles (by simp [exFiles])).1 (by simp [exFiles])
  obtain ⟨D, hD⟩ := Option.isSome_iff_exists.1 hset
  have hv : (![1, -1] : Fin 2 → ℝ) ≠ 0 := fun h => by have := congrFun h 0; simp at this
  have hlin : ∀ f ∈ exFiles, ∀ r ∈ f, r.2 ≠ none → ∑ j : Fin 2, (fun (_ : Unit) (_ : ℕ) => (1:ℝ)) r.1 j * (![1, -1] : Fin 2 → ℝ) j = 0 := by
    intro f _ r _ _
    simp [Fin.sum_univ_two]
  obtain ⟨r, hr⟩ : ∃ r, fit exArgs0 .files (fun _ _ => 1) 4 exFiles 1 2 finZeroElim finZeroElim = some r := by
    unfold fit
    rw [hD]
    simp only [outer, if_true, propose, Nat.add_eq_zero_iff, Nat.one_ne_zero, and_false, if_false]
    have hW := setup_whole .files _ 4 exFiles D hD
    have hz : ∀ l, updateCoef D exArgs0.S l = 0 := fun l => update_zero _ _ _ (by
      rw [hW]
      exact not_pd _ _ _ ![1, -1] hv (fun x _ => by simp [lin, Fin.sum_univ_two]) (fun i => i.elim0) l)
    simp only [accept, start, hz]
    rw [hW, deviance_whole, penDev_fin, Step.coefLoop, if_neg]
    · simp only
      split_ifs
      · exact ⟨_, rfl⟩
      · exact ⟨_, rfl⟩
    · rintro (hg | hg)
      · simp only [Step.Gt] at hg
        exact lt_irrefl _ hg
      · exact hg trivial
  obtain ⟨h1, h2⟩ := unidentified_zero exArgs0 .files (fun _ _ => 1) 4 exFiles 1 2 (by norm_num [exArgs0]) le_rfl finZeroElim finZeroElim
    ![1, -1] hv hlin (fun i => i.elim0) ⟨[((), some 1)], by simp [exFiles], ((), some 1), by simp, 1, rfl, one_ne_zero⟩ r hr
  refine ⟨r, hr, h1, ![2, 0], ?_⟩
  rw [h2]
  simp [objective, exFiles, Fin.sum_univ_two]
  norm_num

end Verif.Gauss
