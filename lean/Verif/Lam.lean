import Verif.LamModel
import Mathlib.Tactic.Linarith
import Mathlib.Tactic.Ring
import Mathlib.Tactic.FieldSimp
import Mathlib.Tactic.NormNum
import Mathlib.Tactic.Positivity
import Mathlib.Analysis.SpecificLimits.Basic
import Mathlib.Algebra.BigOperators.Field

/-!
# Smoothing parameter updates (properties C30, C65)
-/

namespace Verif.Lam

variable {m : ℕ} {V : Type}

theorem lo_pos : 0 < lo := by unfold lo; positivity
theorem lo_lt_hi : lo < hi := by unfold lo hi; norm_num

/-- The admissible range of a smoothing parameter. -/
def InRange (x : ℝ) : Prop := 1 / 10 ^ 7 ≤ x ∧ x ≤ 10 ^ 7

theorem inRange_iff (x : ℝ) : InRange x ↔ lo ≤ x ∧ x ≤ hi := Iff.rfl

/-- **C30.** The updated smoothing parameter lies in `[1e-7, 1e7]`, for all traces, quadratic forms,
scales and current values. -/
theorem fs_range (lgdet ldet bSb cLam scale : ℝ) :
    InRange (cLam + fsStep lgdet ldet bSb cLam scale) := by
  unfold fsStep
  dsimp only
  rw [add_sub_cancel, inRange_iff]
  split_ifs
  · exact ⟨lo_lt_hi.le, le_rfl⟩
  · exact ⟨le_min (le_max_right _ _) lo_lt_hi.le, min_le_right _ _⟩

theorem clip_sub_mul (x c g : ℝ) (hc : InRange c) (h : 0 ≤ (x - c) * g) :
    0 ≤ (min (max x lo) hi - c) * g := by
  obtain ⟨h1, h2⟩ := (inRange_iff c).1 hc
  rcases le_total x c with hx | hx
  · have h3 : min (max x lo) hi - c ≤ 0 := by
      have := min_le_left (max x lo) hi
      have := max_le hx h1
      linarith
    have h4 : x - c ≤ min (max x lo) hi - c := by
      have : x ≤ min (max x lo) hi := le_min (le_max_left _ _) (hx.trans h2)
      linarith
    rcases le_total g 0 with hg | hg
    · exact mul_nonneg_of_nonpos_of_nonpos h3 hg
    · have : (x - c) * g ≤ (min (max x lo) hi - c) * g := mul_le_mul_of_nonneg_right h4 hg
      linarith
  · have h3 : 0 ≤ min (max x lo) hi - c := by
      have : c ≤ min (max x lo) hi := le_min (hx.trans (le_max_left _ _)) h2
      linarith
    have h4 : min (max x lo) hi - c ≤ x - c := by
      have h5 : max x lo = x := max_eq_left (h1.trans hx)
      have := min_le_left (max x lo) hi
      rw [h5] at this ⊢
      linarith
    rcases le_total g 0 with hg | hg
    · have : (x - c) * g ≤ (min (max x lo) hi - c) * g := mul_le_mul_of_nonpos_right h4 hg
      linarith
    · exact mul_nonneg h3 hg

/-- **C30.** The update does not point against the gradient of the criterion, if the quadratic form
is positive or the difference of traces has the sign it has in theory (`trace_diff_nonneg`). -/
theorem fs_direction (lgdet ldet bSb cLam scale : ℝ) (hs : 0 < scale) (hc : InRange cLam)
    (h : 0 < bSb ∨ ldet ≤ lgdet) :
    0 ≤ fsStep lgdet ldet bSb cLam scale * gradLam lgdet ldet bSb scale := by
  have hcl : 0 < cLam := lt_of_lt_of_le lo_pos hc.1
  unfold fsStep
  dsimp only
  by_cases hb : 0 < bSb
  · rw [max_eq_right hb.le, if_neg (not_le.2 hb)]
    apply clip_sub_mul _ _ _ hc
    rcases le_total ldet lgdet with hl | hl
    · rw [max_eq_right (by linarith)]
      have : (scale * ((lgdet - ldet) / bSb) * cLam - cLam) * gradLam lgdet ldet bSb scale
          = 2 * scale * cLam / bSb * gradLam lgdet ldet bSb scale ^ 2 := by
        unfold gradLam; field_simp
      rw [this]; positivity
    · rw [max_eq_left (by linarith), zero_div, mul_zero, zero_mul, zero_sub]
      have hg : gradLam lgdet ldet bSb scale ≤ 0 := by
        unfold gradLam
        have : 0 < bSb / (2 * scale) := by positivity
        linarith
      nlinarith
  · have hl : ldet ≤ lgdet := h.resolve_left hb
    push Not at hb
    rw [max_eq_left hb, if_pos le_rfl]
    have hg : 0 ≤ gradLam lgdet ldet bSb scale := by
      unfold gradLam
      have : bSb / (2 * scale) ≤ 0 := div_nonpos_of_nonpos_of_nonneg hb (by positivity)
      linarith
    exact mul_nonneg (by have := hc.2; unfold hi; linarith) hg

/-- Without that hypothesis the claim fails: a vanishing quadratic form together with traces in the
wrong order sends the smoothing parameter to the maximum although the gradient is negative. -/
theorem fs_against_gradient :
    0 < fsStep 1 2 0 1 1 ∧ gradLam 1 2 0 1 < 0 := by
  unfold fsStep gradLam hi
  norm_num

theorem sign_mul_abs (x : ℝ) : Real.sign x * |x| = x := by
  rcases lt_trichotomy x 0 with h | h | h
  · rw [Real.sign_of_neg h, abs_of_neg h]; ring
  · rw [h]; simp
  · rw [Real.sign_of_pos h, abs_of_pos h]; ring

theorem sign_mul_self (x : ℝ) : 0 ≤ Real.sign x * x := by
  rcases lt_trichotomy x 0 with h | h | h
  · rw [Real.sign_of_neg h]; linarith
  · rw [h]; simp
  · rw [Real.sign_of_pos h]; linarith

/-- An acceleration has the direction of the step it extends. -/
theorem accel_direction (me : Method) (iter : ℕ) (dLam diff : ℝ) :
    0 ≤ accel me iter dLam diff * dLam := by
  unfold accel
  by_cases h : Real.sign dLam = Real.sign diff
  swap
  · rw [if_neg h]; simp
  rw [if_pos h]
  cases me with
  | expectedRatio =>
    dsimp only
    split_ifs with h1
    · have h2 : Real.sign dLam * (|dLam| + target iter * |diff|) / 2 - dLam
          = Real.sign dLam * ((target iter * |diff| - |dLam|) / 2) := by
        have := sign_mul_abs dLam
        linear_combination this
      rw [h2, mul_right_comm]
      exact mul_nonneg (sign_mul_self _) (by linarith)
    · simp
  | nesterov =>
    dsimp only
    split_ifs
    · simp
    · rw [mul_right_comm]
      refine mul_nonneg (sign_mul_self _) (div_nonneg (sq_nonneg _) ?_)
      exact le_max_of_le_left (by unfold macheps; positivity)
  | nesterov2 =>
    dsimp only
    split_ifs
    · simp
    · rw [mul_right_comm]
      refine mul_nonneg (mul_self_nonneg _) (le_min (by norm_num) ?_)
      exact div_nonneg (abs_nonneg _) (le_max_of_le_left (by unfold macheps; positivity))

theorem accel_zero (me : Method) (iter : ℕ) (diff : ℝ) : accel me iter 0 diff = 0 := by
  unfold accel
  by_cases h : Real.sign 0 = Real.sign diff
  swap
  · rw [if_neg h]
  rw [if_pos h]
  rw [Real.sign_zero] at h
  have hz : diff = 0 := Real.sign_eq_zero_iff.1 h.symm
  cases me <;> simp [hz]

/-- **C30.** Extending a step: the extended value is in range whenever the plain one is, the step
keeps its direction, and undoing after the step was applied gives the plain step and value. -/
theorem extend_correct (me : Method) (iter : ℕ) (t : Term) (dLam : ℝ) (h : InRange (t.lam + dLam)) :
    InRange (t.lam + (extend me iter t dLam).delta) ∧
    0 ≤ (extend me iter t dLam).delta * dLam ∧ dLam ^ 2 ≤ (extend me iter t dLam).delta * dLam ∧
    (extend me iter t dLam).lam = t.lam ∧ (extend me iter t dLam).prev = t.lam ∧
    (extend me iter t dLam).frozen = t.frozen ∧
    (undo (applyStep (extend me iter t dLam))).lam = t.lam + dLam ∧
    (undo (applyStep (extend me iter t dLam))).delta = dLam := by
  have hd := accel_direction me iter dLam (t.lam - t.prev)
  unfold extend
  dsimp only
  split_ifs with hc
  · refine ⟨⟨?_, ?_⟩, by dsimp only; nlinarith [sq_nonneg dLam], by dsimp only; nlinarith, rfl, rfl, rfl, ?_, ?_⟩
    · have := hc.2.1; unfold lo at this; dsimp only; linarith
    · have := hc.1; unfold hi at this; dsimp only; linarith
    · simp only [undo, applyStep]; ring
    · simp only [undo, applyStep]; ring
  · refine ⟨h, by dsimp only; nlinarith [sq_nonneg dLam], by dsimp only; nlinarith, rfl, rfl, rfl, ?_, ?_⟩
    · simp [undo, applyStep]
    · simp [undo, applyStep]

/-! ### Invariant of the step control -/

/-- State of a smoothing parameter during step control: `base` is the previously accepted value. -/
def Inv (base : ℝ) (t : Term) : Prop :=
  t.lam = base + t.delta ∧
    if t.frozen then t.delta = 0 ∧ t.ext = false
    else InRange base ∧ InRange t.lam ∧ (t.ext = true → InRange (t.lam - t.acc))

/-- State of a smoothing parameter whose next step has been proposed. -/
def Ready (t : Term) : Prop :=
  if t.frozen then t.delta = 0 ∧ t.ext = false
  else InRange t.lam ∧ InRange (t.lam + t.delta) ∧
    (t.ext = true → InRange (t.lam + t.delta - t.acc))

theorem inv_applyStep (t : Term) (h : Ready t) : Inv t.lam (applyStep t) := by
  unfold Inv Ready applyStep at *
  dsimp only
  refine ⟨rfl, ?_⟩
  split_ifs at h ⊢
  · exact h
  · exact ⟨h.1, h.2.1, h.2.2⟩

theorem inv_halve (base : ℝ) (t : Term) (h : Inv base t) (he : t.ext = false) :
    Inv base (halve t) := by
  unfold Inv halve at *
  dsimp only
  obtain ⟨h1, h2⟩ := h
  refine ⟨by linarith, ?_⟩
  split_ifs at h2 ⊢
  · exact ⟨by rw [h2.1]; simp, h2.2⟩
  · obtain ⟨⟨a, b⟩, ⟨c, d⟩, -⟩ := h2
    refine ⟨⟨a, b⟩, ⟨by linarith, by linarith⟩, ?_⟩
    rw [he]; simp

theorem inv_undo (base : ℝ) (t : Term) (h : Inv base t) (he : t.ext = true) : Inv base (undo t) := by
  unfold Inv undo at *
  dsimp only
  obtain ⟨h1, h2⟩ := h
  refine ⟨by linarith, ?_⟩
  split_ifs at h2 ⊢
  · rw [he] at h2; simp at h2
  · exact ⟨h2.1, h2.2.2 he, by simp⟩

theorem inv_correctTerm (c : Cfg) (base : ℝ) (t : Term) (h : Inv base t)
    (he : c.extend = false → t.ext = false) : Inv base (correctTerm c t).1 := by
  unfold correctTerm
  split_ifs with h1 h2
  · exact inv_undo base t h h1.2
  · refine inv_halve base t h ?_
    cases hx : c.extend
    · exact he hx
    · cases hy : t.ext
      · rfl
      · exact absurd ⟨hx, hy⟩ h1
  · exact h

theorem ext_correctTerm (c : Cfg) (t : Term) (he : c.extend = false → t.ext = false) :
    (correctTerm c t).1.ext = false := by
  unfold correctTerm
  have key : ¬(c.extend = true ∧ t.ext = true) → t.ext = false := by
    intro h
    cases hx : c.extend
    · exact he hx
    · cases hy : t.ext
      · rfl
      · exact absurd ⟨hx, hy⟩ h
  split_ifs with h1 h2
  · rfl
  · exact key h1
  · exact key h1

theorem ready_propose (c : Cfg) (p : Pass m V) (i : Fin m) (base : ℝ) (t : Term) (h : Inv base t)
    (he : c.extend = false → t.ext = false) :
    Ready (propose c p i t) ∧ (c.extend = false → (propose c p i t).ext = false) ∧
      (propose c p i t).lam = t.lam ∧ (propose c p i t).frozen = t.frozen := by
  unfold propose
  dsimp only
  have hr := fs_range (p.lgdet i) (p.ldet i) (p.bsb i) t.lam p.scale
  obtain ⟨h1, h2⟩ := h
  by_cases hc : (¬(t.lam > 10 ^ 5 ∧ p.grad i ^ 2 / t.lam < 1 / 10 ^ 8) ∨ c.exclude = false) ∧
      t.frozen = false
  · rw [if_pos hc]
    rw [if_neg (by rw [hc.2]; simp)] at h2
    by_cases hx : c.extend = true
    · rw [if_pos hx]
      obtain ⟨e1, -, -, e2, -, e3, e4, -⟩ := extend_correct c.method c.oIter t _ hr
      refine ⟨?_, by rw [hx]; simp, e2, e3⟩
      unfold Ready
      rw [if_neg (by rw [e3, hc.2]; simp), e2]
      refine ⟨h2.2.1, e1, fun _ => ?_⟩
      have e5 : (undo (applyStep (extend c.method c.oIter t
          (fsStep (p.lgdet i) (p.ldet i) (p.bsb i) t.lam p.scale)))).lam
          = t.lam + (extend c.method c.oIter t
            (fsStep (p.lgdet i) (p.ldet i) (p.bsb i) t.lam p.scale)).delta
            - (extend c.method c.oIter t
            (fsStep (p.lgdet i) (p.ldet i) (p.bsb i) t.lam p.scale)).acc := by
        simp only [undo, applyStep, e2]
      rw [← e5, e4]; exact hr
    · rw [if_neg hx]
      have hx' : c.extend = false := by simpa using hx
      refine ⟨?_, fun _ => he hx', rfl, rfl⟩
      unfold Ready
      dsimp only
      rw [if_neg (by rw [hc.2]; simp), he hx']
      exact ⟨h2.2.1, hr, by simp⟩
  · rw [if_neg hc]
    refine ⟨?_, fun _ => rfl, rfl, rfl⟩
    unfold Ready
    dsimp only
    split_ifs at h2 ⊢ with hf
    · simp
    · exact ⟨h2.2.1, by rw [add_zero]; exact h2.2.1, by simp⟩

/-- One pass: either all smoothing parameters are still in range and the accepted values can be
recovered, or the result is in range together with its next proposal. -/
theorem pass_inv (c : Cfg) (coef : V) (p : Pass m V) (ts : Fin m → Term) (base : Fin m → ℝ)
    (h : ∀ i, Inv (base i) (ts i)) (he : c.extend = false → ∀ i, (ts i).ext = false) :
    match pass c coef p ts with
    | .inl ts' => (∀ i, Inv (base i) (ts' i)) ∧ (c.extend = false → ∀ i, (ts' i).ext = false)
    | .inr r => (∀ i, Ready (r.terms i)) ∧ (c.extend = false → ∀ i, (r.terms i).ext = false) := by
  have hcor : ∀ i, Inv (base i) (correctTerm c (ts i)).1 := fun i =>
    inv_correctTerm c _ _ (h i) fun hx => he hx i
  have hext : ∀ i, (correctTerm c (ts i)).1.ext = false := fun i =>
    ext_correctTerm c _ fun hx => he hx i
  unfold pass
  split_ifs with h1 h2 h3
  · exact ⟨fun i => (ready_propose c p i _ _ (hcor i) fun _ => hext i).1,
      fun hx i => (ready_propose c p i _ _ (hcor i) fun _ => hext i).2.1 hx⟩
  · exact ⟨hcor, fun _ => hext⟩
  · exact ⟨fun i => (ready_propose c p i _ _ (h i) fun hx => he hx i).1,
      fun hx i => (ready_propose c p i _ _ (h i) fun hx => he hx i).2.1 hx⟩
  · exact ⟨h, he⟩

theorem loop_inv (c : Cfg) (coef : V) (ps : ℕ → (Fin m → ℝ) → Pass m V) (base : Fin m → ℝ)
    (fuel : ℕ) : ∀ (k : ℕ) (ts : Fin m → Term), (∀ i, Inv (base i) (ts i)) →
    (c.extend = false → ∀ i, (ts i).ext = false) → ∀ r, loop c coef ps fuel k ts = some r →
    (∀ i, Ready (r.terms i)) ∧ (c.extend = false → ∀ i, (r.terms i).ext = false) := by
  induction fuel with
  | zero => intro k ts _ _ r hr; simp [loop] at hr
  | succ fuel ih =>
    intro k ts h he r hr
    have hp := pass_inv c coef (ps k fun i => (ts i).lam) ts base h he
    rw [loop] at hr
    cases hq : pass c coef (ps k fun i => (ts i).lam) ts with
    | inl ts' =>
      rw [hq] at hp hr
      exact ih (k + 1) ts' hp.1 hp.2 r hr
    | inr r' =>
      rw [hq] at hp hr
      simp only [Option.some.injEq] at hr
      subst hr
      exact hp

/-- **C30.** Starting from values in range, all smoothing parameters that are not frozen, and the
values proposed for them, are in `[1e-7, 1e7]` after any number of outer iterations with any sequence
of extensions, undone extensions and halvings. -/
theorem fit_range (extendFlag : Bool) (fuel : ℕ)
    (iters : List (Cfg × V × (ℕ → (Fin m → ℝ) → Pass m V)))
    (hext : ∀ it ∈ iters, it.1.extend = extendFlag) (start : Fin m → Term)
    (hs : ∀ i, (start i).frozen = false → InRange (start i).lam) (p0 : Pass m V)
    (ts : Fin m → Term) (hts : fit fuel iters (fun i => initStep p0 i (start i)) = some ts) (i : Fin m)
    (hf : (ts i).frozen = false) :
    InRange (ts i).lam ∧ InRange ((ts i).lam + (ts i).delta) := by
  have key : ∀ (iters : List (Cfg × V × (ℕ → (Fin m → ℝ) → Pass m V))) (ts0 : Fin m → Term),
      (∀ it ∈ iters, it.1.extend = extendFlag) → (∀ i, Ready (ts0 i)) →
      (extendFlag = false → ∀ i, (ts0 i).ext = false) → fit fuel iters ts0 = some ts →
      ∀ i, Ready (ts i) := by
    intro iters
    induction iters with
    | nil =>
      intro ts0 _ h _ hr
      simp only [fit, Option.some.injEq] at hr
      subst hr
      exact h
    | cons it iters ih =>
      intro ts0 hx h he hr
      obtain ⟨c, coef, ps⟩ := it
      have hc : c.extend = extendFlag := hx (c, coef, ps) (by simp)
      rw [fit] at hr
      cases hl : loop c coef ps fuel 0 (fun i => applyStep (ts0 i)) with
      | none => rw [hl] at hr; simp at hr
      | some r =>
        rw [hl] at hr
        obtain ⟨h1, h2⟩ := loop_inv c coef ps (fun i => (ts0 i).lam) fuel 0 _
          (fun i => inv_applyStep _ (h i)) (fun hx i => by rw [hc] at hx; exact he hx i) r hl
        exact ih r.terms (fun it hit => hx it (by simp [hit])) h1
          (fun hx => h2 (by rw [hc]; exact hx)) hr
  have hr := key iters _ hext (fun i => ?_) (fun _ i => rfl) hts i
  · unfold Ready at hr
    rw [if_neg (by rw [hf]; simp)] at hr
    exact ⟨hr.1, hr.2.1⟩
  · unfold Ready initStep
    dsimp only
    split_ifs with hfr
    · simp
    · exact ⟨hs i (by simpa using hfr), fs_range _ _ _ _ _, by simp⟩

/-- **C30.** During step control the previously accepted value is the current value minus the current
step, after any number of corrections. -/
theorem accepted_recoverable (c : Cfg) (coef : V) (p : Pass m V) (ts ts' : Fin m → Term)
    (base : Fin m → ℝ) (h : ∀ i, Inv (base i) (ts i))
    (he : c.extend = false → ∀ i, (ts i).ext = false) (hp : pass c coef p ts = .inl ts') (i : Fin m) :
    (ts' i).lam - (ts' i).delta = base i ∧ Inv (base i) (ts' i) := by
  have := pass_inv c coef p ts base h he
  rw [hp] at this
  have h1 := this.1 i
  exact ⟨by have := h1.1; linarith, h1⟩

/-- **C30.** A proposal, extended or not, does not point against the gradient. -/
theorem propose_direction (c : Cfg) (p : Pass m V) (i : Fin m) (t : Term) (hs : 0 < p.scale)
    (hr : InRange t.lam) (h : 0 < p.bsb i ∨ p.ldet i ≤ p.lgdet i) :
    0 ≤ (propose c p i t).delta * p.grad i := by
  have hd := fs_direction (p.lgdet i) (p.ldet i) (p.bsb i) t.lam p.scale hs hr h
  unfold propose
  dsimp only
  split_ifs with h1 h2
  · obtain ⟨-, e1, e2, -⟩ := extend_correct c.method c.oIter t _
      (fs_range (p.lgdet i) (p.ldet i) (p.bsb i) t.lam p.scale)
    set d := fsStep (p.lgdet i) (p.ldet i) (p.bsb i) t.lam p.scale
    set e := (extend c.method c.oIter t d).delta
    show 0 ≤ e * p.grad i
    have hd' : 0 ≤ d * p.grad i := hd
    by_cases hd0 : d = 0
    · have hacc : e = 0 := by
        show (extend c.method c.oIter t d).delta = 0
        have ha : accel c.method c.oIter d (t.lam - t.prev) = 0 := by rw [hd0]; exact accel_zero _ _ _
        unfold extend
        dsimp only
        rw [ha, hd0]
        simp
      rw [hacc]; simp
    · have hpos : 0 < d ^ 2 := by positivity
      have : 0 ≤ (e * p.grad i) * d ^ 2 := by
        have : (e * p.grad i) * d ^ 2 = (e * d) * (d * p.grad i) := by ring
        rw [this]
        exact mul_nonneg e1 hd'
      exact nonneg_of_mul_nonneg_left this hpos
  · exact hd
  · simp

/-! ### Termination -/

theorem norm_halve (ts : Fin m → Term) : norm (fun i => halve (ts i)) = norm ts / 2 := by
  unfold norm halve
  dsimp only
  have : ∑ i, ((ts i).delta / 2) ^ 2 = (∑ i, (ts i).delta ^ 2) / 2 ^ 2 := by
    rw [Finset.sum_div]
    exact Finset.sum_congr rfl fun i _ => by rw [div_pow]
  rw [this, Real.sqrt_div' _ (by positivity), Real.sqrt_sq (by norm_num)]

theorem ok_or_bad (c : Cfg) (p : Pass m V) (ts : Fin m → Term) (h : p.nan = false) :
    okB c p ts = true ∨ badB c p ts = true := by
  unfold okB badB
  have : check c p ts ≠ none := by
    unfold check
    rw [h]
    dsimp only
    split_ifs <;> simp_all
  cases hc : check c p ts with
  | none => exact absurd hc this
  | some v =>
    rcases le_or_gt (crit c) v with h1 | h1
    · left; simpa using h1
    · right; simpa using h1

/-- With nothing extended, step control needs `N + 1` passes if the step is shorter than `2^N * 1e-7`. -/
theorem loop_halving (c : Cfg) (coef : V) (ps : ℕ → (Fin m → ℝ) → Pass m V)
    (hn : ∀ k l, (ps k l).nan = false) : ∀ (N k : ℕ) (ts : Fin m → Term),
    (∀ i, (ts i).ext = false) → norm ts < 2 ^ N * (1 / 10 ^ 7) →
    ∃ r, loop c coef ps (N + 1) k ts = some r := by
  intro N
  induction N with
  | zero =>
    intro k ts he hN
    rw [loop]
    unfold pass
    have hT : Tiny c ts := by
      unfold Tiny
      by_cases h : c.strict = true ∨ c.control = 2
      · right
        have : (fun i => (correctTerm c (ts i)).1) = fun i => halve (ts i) := by
          funext i
          unfold correctTerm
          rw [if_neg (by rw [he i]; simp), if_pos h]
        rw [this, norm_halve]
        have : 0 ≤ norm ts := Real.sqrt_nonneg _
        linarith
      · left
        intro i
        unfold correctTerm
        rw [if_neg (by rw [he i]; simp), if_neg h]
    by_cases h1 : badB c (ps k fun i => (ts i).lam) ts = true ∧ c.control > 0
    · rw [if_pos h1, if_pos hT]; exact ⟨_, rfl⟩
    · rw [if_neg h1, if_pos]
      · exact ⟨_, rfl⟩
      · rcases ok_or_bad c (ps k fun i => (ts i).lam) ts (hn _ _) with h2 | h2
        · exact Or.inl h2
        · right
          by_contra h3
          exact h1 ⟨h2, by omega⟩
  | succ N ih =>
    intro k ts he hN
    rw [loop]
    unfold pass
    by_cases h1 : badB c (ps k fun i => (ts i).lam) ts = true ∧ c.control > 0
    · rw [if_pos h1]
      by_cases hT : Tiny c ts
      · rw [if_pos hT]; exact ⟨_, rfl⟩
      · rw [if_neg hT]
        dsimp only
        by_cases h : c.strict = true ∨ c.control = 2
        · have hcor : (fun i => (correctTerm c (ts i)).1) = fun i => halve (ts i) := by
            funext i
            unfold correctTerm
            rw [if_neg (by rw [he i]; simp), if_pos h]
          rw [hcor]
          refine ih (k + 1) _ (fun i => he i) ?_
          rw [norm_halve]
          rw [pow_succ] at hN
          linarith
        · exfalso
          apply hT
          left
          intro i
          unfold correctTerm
          rw [if_neg (by rw [he i]; simp), if_neg h]
    · rw [if_neg h1, if_pos]
      · exact ⟨_, rfl⟩
      · rcases ok_or_bad c (ps k fun i => (ts i).lam) ts (hn _ _) with h2 | h2
        · exact Or.inl h2
        · right
          by_contra h3
          exact h1 ⟨h2, by omega⟩

/-- **C65 (partial).** Step control for the smoothing parameters ends after finitely many passes,
whatever the passes compute, as long as the criterion is never `nan`.  Missing: `loop_nan`. -/
theorem loop_terminates_partial (c : Cfg) (coef : V) (ps : ℕ → (Fin m → ℝ) → Pass m V)
    (hn : ∀ k l, (ps k l).nan = false) (ts : Fin m → Term)
    (he : c.extend = false → ∀ i, (ts i).ext = false) : ∃ fuel r, loop c coef ps fuel 0 ts = some r := by
  cases hp : pass c coef (ps 0 fun i => (ts i).lam) ts with
  | inr r => exact ⟨1, r, by rw [loop, hp]⟩
  | inl ts' =>
    have hext : ∀ i, (ts' i).ext = false := by
      unfold pass at hp
      split_ifs at hp with h1 h2 h3
      · simp only [Sum.inl.injEq] at hp
        subst hp
        exact fun i => ext_correctTerm c _ fun hx => he hx i
      · exfalso
        apply h3
        rcases ok_or_bad c (ps 0 fun i => (ts i).lam) ts (hn _ _) with h2 | h2
        · exact Or.inl h2
        · right
          by_contra h4
          exact h1 ⟨h2, by omega⟩
    obtain ⟨N, hN⟩ := pow_unbounded_of_one_lt (norm ts' * 10 ^ 7) (by norm_num : (1 : ℝ) < 2)
    obtain ⟨r, hr⟩ := loop_halving c coef ps hn N 1 ts' hext (by
      rw [mul_one_div, lt_div_iff₀ (by positivity)]; exact hN)
    exact ⟨N + 1 + 1, r, by rw [loop, hp]; exact hr⟩

/-- **C65, disagreement.** A criterion that evaluates to `nan` in every pass is neither accepted nor
corrected: the loop does not end. -/
theorem loop_nan (c : Cfg) (hc : c.control > 0) (coef : V) (ps : ℕ → (Fin m → ℝ) → Pass m V)
    (hn : ∀ k l, (ps k l).nan = true) (ts : Fin m → Term) (fuel : ℕ) :
    loop c coef ps fuel 0 ts = none := by
  have key : ∀ fuel k, loop c coef ps fuel k ts = none := by
    intro fuel
    induction fuel with
    | zero => intro k; rfl
    | succ fuel ih =>
      intro k
      have hchk : check c (ps k fun i => (ts i).lam) ts = none := by
        unfold check; rw [hn]; simp
      have hp : pass c coef (ps k fun i => (ts i).lam) ts = .inl ts := by
        unfold pass
        rw [if_neg (by unfold badB; rw [hchk]; simp), if_neg (by unfold okB; rw [hchk]; simp; omega)]
      rw [loop, hp]
      exact ih (k + 1)
  exact key fuel 0

/-! ### Location, scale and shape models -/

theorem damp_range (base d x : ℝ) (hb : InRange base) (hd : InRange (base + d)) (h0 : 0 ≤ x)
    (h1 : x ≤ 1) : InRange (base + x * d) := by
  obtain ⟨a, b⟩ := hb
  obtain ⟨a', b'⟩ := hd
  constructor <;> nlinarith

theorem small_range (lam d : ℝ) (hl : InRange lam) (hd : InRange (lam + d)) :
    InRange (lam + if lam + Real.sign d * min (|lam| * 0.001) |d| < 0 then 0
      else Real.sign d * min (|lam| * 0.001) |d|) := by
  split_ifs
  · simpa using hl
  · obtain ⟨a, b⟩ := hl
    obtain ⟨a', b'⟩ := hd
    have h0 : 0 ≤ min (|lam| * 0.001) |d| := le_min (by positivity) (abs_nonneg _)
    have h1 : min (|lam| * 0.001) |d| ≤ |d| := min_le_right _ _
    rcases lt_trichotomy d 0 with h | h | h
    · rw [Real.sign_of_neg h]
      rw [abs_of_neg h] at h0 h1 ⊢
      constructor <;> linarith
    · rw [h]; simp; exact ⟨by simpa using a, by simpa using b⟩
    · rw [Real.sign_of_pos h]
      rw [abs_of_pos h] at h0 h1 ⊢
      constructor <;> linarith

theorem inv_correctTermL (c : CfgL) (base : ℝ) (t : Term) (h : Inv base t)
    (he : c.extend = false → t.ext = false) : Inv base (correctTermL c t).1 := by
  unfold correctTermL
  split_ifs with h1 h2
  · exact inv_undo base t h h1.2
  · refine inv_halve base t h ?_
    cases hx : c.extend
    · exact he hx
    · cases hy : t.ext
      · rfl
      · exact absurd ⟨hx, hy⟩ h1
  · exact h

theorem ext_correctTermL (c : CfgL) (t : Term) (he : c.extend = false → t.ext = false) :
    (correctTermL c t).1.ext = false := by
  unfold correctTermL
  have key : ¬(c.extend = true ∧ t.ext = true) → t.ext = false := by
    intro h
    cases hx : c.extend
    · exact he hx
    · cases hy : t.ext
      · rfl
      · exact absurd ⟨hx, hy⟩ h
  split_ifs with h1 h2
  · rfl
  · exact key h1
  · exact key h1

theorem ready_proposeL (c : CfgL) (p : PassL m) (sn : ℝ) (i : Fin m) (base : ℝ) (t : Term)
    (h : Inv base t) (he : c.extend = false → t.ext = false) :
    Ready (proposeL c p sn i t) ∧ (c.extend = false → (proposeL c p sn i t).ext = false) := by
  obtain ⟨h1, h2⟩ := h
  -- the step before damping
  have key : ∃ t1 : Term, (Ready t1 ∧ (c.extend = false → t1.ext = false)) ∧
      proposeL c p sn i t = if (c.outer > 100 ∧ sn < 5 / 1000) ∨ (p.ridge = true ∧ c.outer > 50) then
        { t1 with delta := (0.9 : ℝ) ^ (c.outer - 50) * t1.delta,
                  acc := if t1.ext then t1.acc * (0.9 : ℝ) ^ (c.outer - 50) else t1.acc } else t1 := by
    refine ⟨_, ?_, rfl⟩
    have hr := fs_range (p.lgdet i) (p.ldet i) (p.bsb i) t.lam 1
    by_cases hf : t.frozen = true
    · rw [if_neg (by rw [hf]; simp)]
      rw [if_pos hf] at h2
      refine ⟨?_, he⟩
      unfold Ready
      dsimp only
      rw [if_pos hf]
      refine ⟨?_, h2.2⟩
      simp [hf]
    · have hf' : t.frozen = false := by simpa using hf
      rw [if_neg hf] at h2
      have hd1 : InRange (t.lam + if p.lgdet i - p.ldet i < 0 then
          (if t.lam + Real.sign (fsStep (p.lgdet i) (p.ldet i) (p.bsb i) t.lam 1)
              * min (|t.lam| * 0.001) |fsStep (p.lgdet i) (p.ldet i) (p.bsb i) t.lam 1| < 0 then 0
            else Real.sign (fsStep (p.lgdet i) (p.ldet i) (p.bsb i) t.lam 1)
              * min (|t.lam| * 0.001) |fsStep (p.lgdet i) (p.ldet i) (p.bsb i) t.lam 1|)
          else fsStep (p.lgdet i) (p.ldet i) (p.bsb i) t.lam 1) := by
        split_ifs with ha hb
        · simpa using h2.2.1
        · have := small_range t.lam _ h2.2.1 hr
          rw [if_neg hb] at this
          exact this
        · exact hr
      simp only [if_neg hf]
      by_cases hx : c.extend = true
      · rw [if_pos ⟨hx, hf'⟩]
        obtain ⟨e1, -, -, e2, -, e3, e4, -⟩ := extend_correct c.method c.outer t _ hd1
        refine ⟨?_, by rw [hx]; simp⟩
        unfold Ready
        rw [if_neg (by rw [e3]; exact hf), e2]
        refine ⟨h2.2.1, e1, fun _ => ?_⟩
        simp only [undo, applyStep, e2] at e4
        rw [e4]
        exact hd1
      · rw [if_neg (fun hh => hx hh.1)]
        have hx' : c.extend = false := by simpa using hx
        refine ⟨?_, fun _ => he hx'⟩
        unfold Ready
        dsimp only
        rw [if_neg hf, he hx']
        exact ⟨h2.2.1, hd1, by simp⟩
  obtain ⟨t1, ⟨hR, hE⟩, heq⟩ := key
  rw [heq]
  have hp0 : (0 : ℝ) ≤ 0.9 ^ (c.outer - 50) := by positivity
  have hp1 : (0.9 : ℝ) ^ (c.outer - 50) ≤ 1 := pow_le_one₀ (by norm_num) (by norm_num)
  by_cases hc : (c.outer > 100 ∧ sn < 5 / 1000) ∨ (p.ridge = true ∧ c.outer > 50)
  · rw [if_pos hc]
    refine ⟨?_, hE⟩
    unfold Ready at hR ⊢
    dsimp only
    by_cases hf : t1.frozen = true
    · rw [if_pos hf] at hR ⊢
      exact ⟨by rw [hR.1]; simp, hR.2⟩
    · rw [if_neg hf] at hR ⊢
      refine ⟨hR.1, damp_range _ _ _ hR.1 hR.2.1 hp0 hp1, fun hx => ?_⟩
      rw [if_pos hx]
      have h3 := damp_range t1.lam (t1.delta - t1.acc) _ hR.1
        (by have := hR.2.2 hx; rwa [add_sub_assoc] at this) hp0 hp1
      have h4 : t1.lam + 0.9 ^ (c.outer - 50) * t1.delta - t1.acc * 0.9 ^ (c.outer - 50)
          = t1.lam + 0.9 ^ (c.outer - 50) * (t1.delta - t1.acc) := by ring
      rw [h4]; exact h3
  · rw [if_neg hc]
    exact ⟨hR, hE⟩

/-- **C30.** The same for location, scale and shape models, including damped steps. -/
theorem loopL_range (c : CfgL) (ps : ℕ → (Fin m → ℝ) → PassL m) (ts0 : Fin m → Term)
    (h0 : ∀ i, Ready (ts0 i)) (he0 : c.extend = false → ∀ i, (ts0 i).ext = false) (fuel : ℕ)
    (r : Fin m → Term) (hr : loopL c ps fuel 0 (fun i => applyStep (ts0 i)) = some r) :
    (∀ i, Ready (r i)) ∧ (c.extend = false → ∀ i, (r i).ext = false) := by
  have key : ∀ (fuel k : ℕ) (ts : Fin m → Term), (∀ i, Inv (ts0 i).lam (ts i)) →
      (c.extend = false → ∀ i, (ts i).ext = false) → loopL c ps fuel k ts = some r →
      (∀ i, Ready (r i)) ∧ (c.extend = false → ∀ i, (r i).ext = false) := by
    intro fuel
    induction fuel with
    | zero => intro k ts _ _ h; simp [loopL] at h
    | succ fuel ih =>
      intro k ts h he hr
      have hcor : ∀ i, Inv (ts0 i).lam (correctTermL c (ts i)).1 := fun i =>
        inv_correctTermL c _ _ (h i) fun hx => he hx i
      have hext : ∀ i, (correctTermL c (ts i)).1.ext = false := fun i =>
        ext_correctTermL c _ fun hx => he hx i
      rw [loopL] at hr
      unfold passL at hr
      split_ifs at hr with h1 h2 h3
      · simp only [Option.some.injEq] at hr
        subst hr
        exact ⟨fun i => (ready_proposeL c _ _ i _ _ (h i) fun hx => he hx i).1,
          fun hx i => (ready_proposeL c _ _ i _ _ (h i) fun hx => he hx i).2 hx⟩
      · simp only [Option.some.injEq] at hr
        subst hr
        exact ⟨fun i => (ready_proposeL c _ _ i _ _ (hcor i) fun _ => hext i).1,
          fun hx i => (ready_proposeL c _ _ i _ _ (hcor i) fun _ => hext i).2 hx⟩
      · exact ih (k + 1) _ hcor (fun _ => hext) hr
      · simp only [Option.some.injEq] at hr
        subst hr
        exact ⟨fun i => (ready_proposeL c _ _ i _ _ (h i) fun hx => he hx i).1,
          fun hx i => (ready_proposeL c _ _ i _ _ (h i) fun hx => he hx i).2 hx⟩
  exact key fuel 0 _ (fun i => inv_applyStep _ (h0 i)) he0 hr

/-- **C65.** For location, scale and shape models step control always ends, `nan` included. -/
theorem loopL_terminates (c : CfgL) (ps : ℕ → (Fin m → ℝ) → PassL m) (ts : Fin m → Term)
    (he : c.extend = false → ∀ i, (ts i).ext = false) : ∃ fuel r, loopL c ps fuel 0 ts = some r := by
  have half : ∀ (N k : ℕ) (ts : Fin m → Term), (∀ i, (ts i).ext = false) →
      norm ts < 2 ^ N * (1 / 10 ^ 7) → ∃ r, loopL c ps (N + 1) k ts = some r := by
    intro N
    induction N with
    | zero =>
      intro k ts he hN
      rw [loopL]
      unfold passL
      have hT : TinyL c ts := by
        unfold TinyL
        by_cases h : c.control = 2
        · right
          have : (fun i => (correctTermL c (ts i)).1) = fun i => halve (ts i) := by
            funext i
            unfold correctTermL
            rw [if_neg (by rw [he i]; simp), if_pos h]
          rw [this, norm_halve]
          have : 0 ≤ norm ts := Real.sqrt_nonneg _
          linarith
        · left
          intro i
          unfold correctTermL
          rw [if_neg (by rw [he i]; simp), if_neg h]
      split_ifs
      · exact ⟨_, rfl⟩
      · exact ⟨_, rfl⟩
      · exact ⟨_, rfl⟩
    | succ N ih =>
      intro k ts he hN
      rw [loopL]
      unfold passL
      split_ifs with h1 h2 hT
      · exact ⟨_, rfl⟩
      · exact ⟨_, rfl⟩
      · by_cases h : c.control = 2
        · have hcor : (fun i => (correctTermL c (ts i)).1) = fun i => halve (ts i) := by
            funext i
            unfold correctTermL
            rw [if_neg (by rw [he i]; simp), if_pos h]
          rw [hcor]
          refine ih (k + 1) _ (fun i => he i) ?_
          rw [norm_halve]
          rw [pow_succ] at hN
          linarith
        · exfalso
          apply hT
          left
          intro i
          unfold correctTermL
          rw [if_neg (by rw [he i]; simp), if_neg h]
      · exact ⟨_, rfl⟩
  cases hp : passL c (ps 0 fun i => (ts i).lam) ts with
  | inr r => exact ⟨1, r, by rw [loopL, hp]⟩
  | inl ts' =>
    have hext : ∀ i, (ts' i).ext = false := by
      unfold passL at hp
      split_ifs at hp with h1 h2 h3
      simp only [Sum.inl.injEq] at hp
      subst hp
      exact fun i => ext_correctTermL c _ fun hx => he hx i
    obtain ⟨N, hN⟩ := pow_unbounded_of_one_lt (norm ts' * 10 ^ 7) (by norm_num : (1 : ℝ) < 2)
    obtain ⟨r, hr⟩ := half N 1 ts' hext (by
      rw [mul_one_div, lt_div_iff₀ (by positivity)]; exact hN)
    exact ⟨N + 1 + 1, r, by rw [loopL, hp]; exact hr⟩

end Verif.Lam
