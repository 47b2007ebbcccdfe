import Verif.CoefModel
import Verif.Step

/-! # Lemmas for `Verif.Coef` -/

namespace Verif.Coef
open Verif Verif.Step Verif.Dropped

variable {V Hs : Type} [AddCommGroup V] [Module ℝ V]

/-- The numbers of a state are those of its coefficients. -/
def Own (P : Ext V Hs) (s : S V Hs) : Prop :=
  s.llk = P.llk s.coef ∧ s.pen = P.llk s.coef - Fl.fin (1 / 2 * P.quad s.coef)

theorem step_own (P : Ext V Hs) (c next : V) (l : Fl) (a : ℝ) :
    (lssStep (prob P) c next l a).1.llk = P.llk (lssStep (prob P) c next l a).1.n ∧
    (lssStep (prob P) c next l a).1.pen = P.llk (lssStep (prob P) c next l a).1.n -
      Fl.fin (1 / 2 * P.quad (lssStep (prob P) c next l a).1.n) := by
  have h := (lss_step_correct (prob P) c next l a).1
  constructor
  · conv_lhs => rw [h]
    rfl
  · conv_lhs => rw [h]
    rfl

theorem restart_cases (P : Ext V Hs) (inner : ℕ) (c : V) :
    restart P inner c = c ∨ (penOf P (restart P inner c) (P.llk (restart P inner c))).IsFin := by
  unfold restart
  split
  · rename_i t ht
    right
    have := List.find?_some ht
    simpa using this
  · left; rfl

theorem round_own (C : Cfg) (P : Ext V Hs) (inner : ℕ) (s : S V Hs) : Own P (round C P inner s) := by
  unfold round
  simp only
  split_ifs
  all_goals first
    | exact ⟨rfl, rfl⟩
    | exact step_own P _ _ _ _

theorem step_fin (P : Ext V Hs) (s : S V Hs) (next : V) (x : ℝ) (ho : Own P s)
    (hx : prevPen P s = .fin x) :
    ∃ y, (lssStep (prob P) s.coef next s.llk s.a).1.pen = .fin y ∧ x ≤ y := by
  obtain ⟨l, hl⟩ : ∃ l, s.llk = .fin l := by
    unfold prevPen penOf at hx
    cases h : s.llk with
    | fin r => exact ⟨r, rfl⟩
    | _ => rw [h] at hx; cases hx
  have hx' : x = l - 1 / 2 * P.quad s.coef := by
    unfold prevPen penOf at hx
    rw [hl, Fl.fin_sub, Fl.fin_inj] at hx
    exact hx.symm
  have := lss_step_ascent (prob P) s.coef next s.a l (by rw [← hl, ho.1]; rfl)
  rw [hl]
  obtain ⟨y, hy, h⟩ := this
  exact ⟨y, hy, by rw [hx']; exact h⟩

theorem own_prev (P : Ext V Hs) (s : S V Hs) (ho : Own P s) : prevPen P s = s.pen := by
  unfold prevPen penOf
  rw [ho.2, ho.1]

theorem round_fin (C : Cfg) (P : Ext V Hs) (inner : ℕ) (s : S V Hs) (ho : Own P s) (hf : s.pen.IsFin) :
    (round C P inner s).pen.IsFin := by
  obtain ⟨x, hx⟩ := Fl.isFin_iff.1 hf
  obtain ⟨y, hy, -⟩ := step_fin P s (proposal C P s) x ho ((own_prev P s ho).trans hx)
  unfold round
  simp only
  by_cases h : Restarts C P inner s (lssStep (prob P) s.coef (proposal C P s) s.llk s.a).1.pen (prevPen P s)
  · rw [if_pos h]
    simp only
    rcases restart_cases P inner (lssStep (prob P) s.coef (proposal C P s) s.llk s.a).1.n with h1 | h1
    · rw [h1]
      unfold penOf
      rw [← (step_own P s.coef (proposal C P s) s.llk s.a).2, hy]
      trivial
    · exact h1
  · rw [if_neg h]
    simp only
    rw [hy]
    trivial

/-- No restart can happen. -/
def Calm (C : Cfg) (P : Ext V Hs) : Prop :=
  ¬(C.grad = true ∧ C.outer = 0) ∧
    (C.general = true → if C.grad then ∀ c a, (P.llk (P.gd c a)).IsFin else ∀ c, (P.llk (P.newton c)).IsFin)

theorem calm_not (C : Cfg) (P : Ext V Hs) (hC : Calm C P) (inner : ℕ) (s : S V Hs) (p q : Fl) :
    ¬Restarts C P inner s p q := by
  rintro ⟨-, -, h | ⟨hg, h⟩⟩
  · exact hC.1 h
  · apply h
    have := hC.2 hg
    unfold proposal
    cases hc : C.grad <;> simp only [hc] at this ⊢ <;> simp only [if_true, if_false, Bool.false_eq_true] at this ⊢
    · exact this _
    · exact this _ _

theorem round_ascent (C : Cfg) (P : Ext V Hs) (hC : Calm C P) (inner : ℕ) (s : S V Hs) (ho : Own P s) (x : ℝ)
    (hx : s.pen = .fin x) : ∃ y, (round C P inner s).pen = .fin y ∧ x ≤ y := by
  obtain ⟨y, hy, h⟩ := step_fin P s (proposal C P s) x ho ((own_prev P s ho).trans hx)
  refine ⟨y, ?_, h⟩
  unfold round
  simp only
  rw [if_neg (calm_not C P hC _ _ _ _)]
  exact hy

theorem phase_own (C : Cfg) (P : Ext V Hs) : ∀ (left inner : ℕ) (s : S V Hs), Own P s →
    Own P (phase C P left inner s).1 := by
  intro left
  induction left with
  | zero => intro _ s h; exact h
  | succ left ih =>
    intro inner s h
    unfold phase
    simp only
    split_ifs
    · exact round_own C P inner s
    · exact round_own C P inner s
    · exact ih _ _ (round_own C P inner s)

theorem phase_fin (C : Cfg) (P : Ext V Hs) : ∀ (left inner : ℕ) (s : S V Hs), Own P s → s.pen.IsFin →
    (phase C P left inner s).1.pen.IsFin := by
  intro left
  induction left with
  | zero => intro _ s _ h; exact h
  | succ left ih =>
    intro inner s ho h
    unfold phase
    simp only
    split_ifs
    · exact round_fin C P inner s ho h
    · exact round_fin C P inner s ho h
    · exact ih _ _ (round_own C P inner s) (round_fin C P inner s ho h)

theorem phase_ascent (C : Cfg) (P : Ext V Hs) (hC : Calm C P) : ∀ (left inner : ℕ) (s : S V Hs), Own P s →
    ∀ x, s.pen = .fin x → ∃ y, (phase C P left inner s).1.pen = .fin y ∧ x ≤ y := by
  intro left
  induction left with
  | zero => intro _ s _ x h; exact ⟨x, h, le_rfl⟩
  | succ left ih =>
    intro inner s ho x h
    obtain ⟨y, hy, hxy⟩ := round_ascent C P hC inner s ho x h
    unfold phase
    simp only
    split_ifs
    · exact ⟨y, hy, hxy⟩
    · exact ⟨y, hy, hxy⟩
    · obtain ⟨z, hz, hyz⟩ := ih (inner + 1) _ (round_own C P inner s) y hy
      exact ⟨z, hz, hxy.trans hyz⟩

/-- Every iteration that neither converges nor stops raises a log-likelihood bounded away from zero by a
fixed amount. -/
theorem phase_rise (C : Cfg) (P : Ext V Hs) (hC : Calm C P) (m : ℝ) (hm : 0 < m) (ht : 0 < C.tol)
    (hB : ∀ c x, P.llk c - Fl.fin (1 / 2 * P.quad c) = .fin x → x ≤ -m) :
    ∀ (left inner : ℕ) (s : S V Hs), Own P s → ∀ x, s.pen = .fin x →
      (phase C P left inner s).2 = .exhausted → x + left * (C.tol * m) ≤ -m := by
  intro left
  induction left with
  | zero =>
    intro _ s ho x hx _
    have := hB s.coef x (by rw [← ho.2, hx])
    simpa using this
  | succ left ih =>
    intro inner s ho x hx he
    obtain ⟨y, hy, hxy⟩ := round_ascent C P hC inner s ho x hx
    have hym : y ≤ -m := hB (round C P inner s).coef y (by rw [← (round_own C P inner s).2, hy])
    unfold phase at he
    simp only at he
    by_cases h1 : Near C.tol (round C P inner s).pen (prevPen P s)
    · rw [if_pos h1] at he; simp at he
    · rw [if_neg h1] at he
      by_cases h2 : Early C inner (round C P inner s).eps
      · rw [if_pos h2] at he; simp at he
      · rw [if_neg h2] at he
        have h3 := ih (inner + 1) _ (round_own C P inner s) y hy he
        rw [hy, own_prev P s ho, hx] at h1
        have h1' : ¬(|y - x| < C.tol * |y|) := h1
        rw [abs_of_nonneg (by linarith), abs_of_neg (by linarith), not_lt] at h1'
        have : C.tol * m ≤ C.tol * -y := mul_le_mul_of_nonneg_left (by linarith) ht.le
        push_cast
        nlinarith

theorem round_size (C : Cfg) (P : Ext V Hs) (inner : ℕ) (s : S V Hs) (h0 : 1 / (2 * 10 ^ 9) ≤ s.a) (h2 : s.a < 2) :
    1 / (2 * 10 ^ 9) ≤ (round C P inner s).a ∧ (round C P inner s).a < 2 := by
  have hp : 0 < s.a := lt_of_lt_of_le (by norm_num) h0
  unfold round
  simp only
  split_ifs
  all_goals first
    | (constructor <;> norm_num; done)
    | exact ⟨lss_step_size_lower _ _ _ _ _ h0, (lss_step_size _ _ _ _ _ hp h2).2⟩

theorem round_hess (C : Cfg) (P : Ext V Hs) (hg : C.grad = false) (inner : ℕ) (s : S V Hs) :
    (round C P inner s).hess = some (P.info s.coef) := by
  unfold round
  simp only [hg, Bool.false_eq_true, if_false]
  split_ifs <;> rfl

end Verif.Coef
