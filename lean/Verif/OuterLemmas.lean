import Verif.OuterModel
import Mathlib.Tactic.Linarith
import Mathlib.Tactic.NormNum
import Mathlib.Algebra.Order.BigOperators.Group.Finset

/-! # Lemmas about the outer iterations -/

namespace Verif.Outer
open Verif.Lam

variable {m : ℕ} {V : Type}

theorem proposeL_lam (c : CfgL) (p : PassL m) (sn : ℝ) (i : Fin m) (t : Term) :
    (proposeL c p sn i t).lam = t.lam := by
  unfold proposeL extend
  simp only
  split_ifs <;> rfl

theorem proposeL_frozen (c : CfgL) (p : PassL m) (sn : ℝ) (i : Fin m) (t : Term) :
    (proposeL c p sn i t).frozen = t.frozen := by
  unfold proposeL extend
  simp only
  split_ifs <;> rfl

theorem check_frozen (c : CfgL) (p : PassL m) (ts : Fin m → Term) (i : Fin m) :
    ((check c p ts).1 i).frozen = (ts i).frozen := by
  unfold check correctTermL
  split_ifs <;> first | rfl | (simp only; split_ifs <;> rfl)

theorem control_frozen (A : Args m V) (o : ℕ) (coef : V) :
    ∀ (fuel k : ℕ) (ts : Fin m → Term) (a : Acc m V), control A o coef fuel k ts = some a →
      ∀ i, (a.terms i).frozen = (ts i).frozen := by
  intro fuel
  induction fuel with
  | zero => intro k ts a h; simp [control] at h
  | succ n ih =>
    intro k ts a h i
    simp only [control] at h
    split_ifs at h with h1
    · simp only [Option.some.injEq] at h
      subst h
      simp only [doneL, proposeL_frozen, check_frozen]
    · rw [ih _ _ _ h i, check_frozen]

theorem doneL_lam (c : CfgL) (p : PassL m) (ts : Fin m → Term) (i : Fin m) :
    (doneL c p ts i).lam = (ts i).lam := proposeL_lam _ _ _ _ _

theorem abs_delta_le_norm (ts : Fin m → Term) (i : Fin m) : |(ts i).delta| ≤ Lam.norm ts := by
  unfold Lam.norm
  apply Real.abs_le_sqrt
  exact Finset.single_le_sum (f := fun i => (ts i).delta ^ 2) (fun j _ => sq_nonneg _) (Finset.mem_univ i)

/-- An extension is smaller than the step it extends. -/
def Good (A : Args m V) (t : Term) : Prop :=
  A.extend = true → t.ext = true → t.frozen = false ∧ |t.acc| ≤ 99 / 100 * |t.delta - t.acc|

/-- Extensions cannot exceed the step. -/
def Safe (A : Args m V) : Prop := A.extend = false ∨ A.method = .nesterov2

theorem good_apply {A : Args m V} {t : Term} (h : Good A t) : Good A (applyStep t) := h

theorem good_correct (A : Args m V) (o : ℕ) (t : Term) : Good A (correctTermL (A.cfg o) t).1 := by
  intro he hx
  unfold correctTermL at hx ⊢
  by_cases h1 : (A.cfg o).extend = true ∧ t.ext = true
  · rw [if_pos h1] at hx; simp [undo] at hx
  · rw [if_neg h1] at hx
    exfalso
    apply h1
    refine ⟨he, ?_⟩
    split_ifs at hx <;> exact hx

theorem good_check {A : Args m V} (o : ℕ) (p : PassL m) {ts : Fin m → Term} (h : ∀ i, Good A (ts i)) (i : Fin m) :
    Good A ((check (A.cfg o) p ts).1 i) := by
  unfold check
  split_ifs
  · exact h i
  · exact good_correct A o (ts i)
  · exact h i

theorem accel_nesterov2 (o : ℕ) (d diff : ℝ) : |accel .nesterov2 o d diff| ≤ 99 / 100 * |d| := by
  unfold accel
  split_ifs with h1
  · rw [abs_zero]; positivity
  · rw [abs_mul, mul_comm]
    · apply mul_le_mul_of_nonneg_right _ (abs_nonneg _)
      have h3 : 0 ≤ |d| / max macheps (2 * |diff|) :=
        div_nonneg (abs_nonneg _) (le_max_of_le_right (by positivity))
      rw [abs_of_nonneg (le_min (by norm_num) h3)]
      calc min 0.99 (|d| / max macheps (2 * |diff|)) ≤ 0.99 := min_le_left _ _
        _ = 99 / 100 := by norm_num
  · rw [abs_zero]; positivity

/-- The proposal before damping. -/
noncomputable def t1 (c : CfgL) (t : Term) (d1 : ℝ) : Term :=
  if c.extend = true ∧ t.frozen = false then extend c.method c.outer t d1 else { t with delta := d1 }

open Classical in
theorem proposeL_t1 (c : CfgL) (p : PassL m) (sn : ℝ) (i : Fin m) (t : Term) : ∃ d1 : ℝ,
    proposeL c p sn i t =
      if (c.outer > 100 ∧ sn < 5 / 1000) ∨ (p.ridge = true ∧ c.outer > 50) then
        { t1 c t d1 with
          delta := 0.9 ^ (c.outer - 50) * (t1 c t d1).delta
          acc := if (t1 c t d1).ext then (t1 c t d1).acc * 0.9 ^ (c.outer - 50) else (t1 c t d1).acc }
      else t1 c t d1 := by
  refine ⟨let d0 := if t.frozen then 0 else fsStep (p.lgdet i) (p.ldet i) (p.bsb i) t.lam 1
    if p.lgdet i - p.ldet i < 0 then
      let d := Real.sign d0 * min (|t.lam| * 0.001) |d0|
      if t.lam + d < 0 then 0 else d
    else d0, ?_⟩
  unfold proposeL t1
  simp only

theorem good_propose {A : Args m V} (hs : Safe A) (o : ℕ) (p : PassL m) (sn : ℝ) (i : Fin m) {t : Term}
    (h : Good A t) : Good A (proposeL (A.cfg o) p sn i t) := by
  intro he
  have hm : A.method = .nesterov2 := by
    rcases hs with h1 | h1
    · rw [h1] at he; cases he
    · exact h1
  have key : ∀ d1 : ℝ, (t1 (A.cfg o) t d1).ext = true → (t1 (A.cfg o) t d1).frozen = false ∧
      |(t1 (A.cfg o) t d1).acc| ≤ 99 / 100 * |(t1 (A.cfg o) t d1).delta - (t1 (A.cfg o) t d1).acc| := by
    intro d1
    unfold t1
    by_cases hf : (A.cfg o).extend = true ∧ t.frozen = false
    · rw [if_pos hf]
      unfold extend
      simp only
      split_ifs with h2
      · intro _
        refine ⟨hf.2, ?_⟩
        simp only [add_sub_cancel_right]
        have : (A.cfg o).method = .nesterov2 := hm
        rw [this]
        exact accel_nesterov2 _ _ _
      · intro hh; cases hh
    · rw [if_neg hf]
      intro hx
      exact absurd ⟨he, (h he hx).1⟩ hf
  obtain ⟨d1, hd⟩ := proposeL_t1 (A.cfg o) p sn i t
  specialize key d1
  rw [hd]
  generalize t1 (A.cfg o) t d1 = t1 at key ⊢
  split_ifs with h3 h4
  · intro hx
    refine ⟨(key hx).1, ?_⟩
    simp only
    have h5 : (0 : ℝ) ≤ 0.9 ^ ((A.cfg o).outer - 50) := by positivity
    rw [show (0.9 : ℝ) ^ ((A.cfg o).outer - 50) * t1.delta - t1.acc * 0.9 ^ ((A.cfg o).outer - 50)
      = (t1.delta - t1.acc) * 0.9 ^ ((A.cfg o).outer - 50) by ring, abs_mul, abs_mul, abs_of_nonneg h5, ← mul_assoc]
    exact mul_le_mul_of_nonneg_right (key hx).2 h5
  · intro hx; exact absurd hx h4
  · exact key

theorem control_good {A : Args m V} (hs : Safe A) (o : ℕ) (coef : V) :
    ∀ (fuel k : ℕ) (ts : Fin m → Term) (a : Acc m V), (∀ i, Good A (ts i)) →
      control A o coef fuel k ts = some a → ∀ i, Good A (a.terms i) := by
  intro fuel
  induction fuel with
  | zero => intro k ts a _ h; simp [control] at h
  | succ n ih =>
    intro k ts a hg h i
    simp only [control] at h
    split_ifs at h with h1
    · simp only [Option.some.injEq] at h
      subst h
      exact good_propose hs o _ _ _ (good_check o _ hg i)
    · exact ih _ _ _ (good_check o _ hg) h i

/-- What the check changes when it accepts. -/
theorem check_spec (c : CfgL) (p : PassL m) (ts : Fin m → Term) (h : (check c p ts).2 = true) (i : Fin m) :
    ((check c p ts).1 i).lam = (ts i).lam ∨ |((check c p ts).1 i).lam - (ts i).lam| < 1 / 10 ^ 7 ∨
      (c.extend = true ∧ (ts i).ext = true ∧ ((check c p ts).1 i).lam = (ts i).lam - (ts i).acc ∧
        |(ts i).delta - (ts i).acc| < 1 / 10 ^ 7) := by
  unfold check at h ⊢
  split_ifs at h ⊢ with h1 h2
  · exact .inl rfl
  · simp only [decide_eq_true_eq] at h
    rcases h with h | h
    · left
      have := h i
      simp only
      unfold correctTermL at this ⊢
      split_ifs at this ⊢
      all_goals first | rfl | cases this
    · have hd := lt_of_le_of_lt (abs_delta_le_norm (fun i => (correctTermL c (ts i)).1) i) h
      simp only at hd ⊢
      unfold correctTermL at hd ⊢
      by_cases h3 : c.extend = true ∧ (ts i).ext = true
      · rw [if_pos h3] at hd ⊢
        exact .inr (.inr ⟨h3.1, h3.2, rfl, hd⟩)
      · rw [if_neg h3] at hd ⊢
        by_cases h4 : c.control = 2
        · rw [if_pos h4] at hd ⊢
          right; left
          simp only [halve] at hd ⊢
          rw [sub_sub_cancel_left, abs_neg]
          exact hd
        · rw [if_neg h4]; exact .inl rfl
  · exact .inl rfl

theorem check_close {A : Args m V} (hs : Safe A) (o : ℕ) (p : PassL m) (ts : Fin m → Term)
    (hg : ∀ i, Good A (ts i)) (h : (check (A.cfg o) p ts).2 = true) (i : Fin m) :
    |((check (A.cfg o) p ts).1 i).lam - (ts i).lam| < 1 / 10 ^ 7 := by
  rcases check_spec _ p ts h i with h1 | h1 | ⟨h1, h2, h3, h4⟩
  · rw [h1]; norm_num
  · exact h1
  · rw [h3, sub_sub_cancel_left, abs_neg]
    have := (hg i h1 h2).2
    linarith [abs_nonneg ((ts i).delta - (ts i).acc)]

/-- Result of the step control. -/
theorem control_spec {A : Args m V} (hs : Safe A) (o : ℕ) (coef : V) :
    ∀ (fuel k : ℕ) (ts : Fin m → Term) (a : Acc m V), (∀ i, Good A (ts i)) →
      control A o coef fuel k ts = some a →
      a.est = balance A o (A.est o a.k a.used coef) ∧ (∀ i, |(a.terms i).lam - a.used i| < 1 / 10 ^ 7) ∧
      ∃ ts' : Fin m → Term, a.terms = doneL (A.cfg o) a.est.pass ts' := by
  intro fuel
  induction fuel with
  | zero => intro k ts a _ h; simp [control] at h
  | succ n ih =>
    intro k ts a hg h
    simp only [control] at h
    split_ifs at h with h1
    · simp only [Option.some.injEq] at h
      subst h
      refine ⟨rfl, fun i => ?_, _, rfl⟩
      simp only [doneL_lam]
      exact check_close hs o _ ts hg h1 i
    · exact ih _ _ _ (good_check o _ hg) h

theorem balance_id {A : Args m V} (h : A.gen = false ∨ A.qefs = false) (o : ℕ) (e : Est m V) : balance A o e = e := by
  unfold balance
  rw [if_neg]
  rintro ⟨h1, h2, -⟩
  rcases h with h | h <;> simp_all

/-- No restarts happen. -/
def Calm (A : Args m V) : Prop := A.gen = false ∨ A.qefs = false ∨ A.maxRestarts < 0

theorem monitor_coef {A : Args m V} (h : Calm A) (o : ℕ) (s : St m V) (a : Acc m V) :
    (monitor A o s a).coef = a.est.coef ∧ (monitor A o s a).pen = a.est.pass.penLlk := by
  unfold monitor
  by_cases h1 : A.gen = true ∧ A.qefs = true
  · rw [if_pos h1]
    have h2 : A.maxRestarts < 0 := by
      rcases h with h | h | h
      · rw [h1.1] at h; cases h
      · rw [h1.2] at h; cases h
      · exact h
    have h3 : ∀ one r, StuckB A o one r = false := by
      intro one r
      unfold StuckB
      have : ¬ 0 ≤ A.maxRestarts := by omega
      simp [this]
    simp only [h3]
    simp only [Bool.false_eq_true, if_false]
    split_ifs <;> exact ⟨rfl, rfl⟩
  · rw [if_neg h1]; exact ⟨rfl, rfl⟩

theorem round_calm {A : Args m V} (h : Calm A) (o : ℕ) (s : St m V) (a : Acc m V) :
    (round A o s a = .inl (result A a a.est.coef a.terms 0) ∧ Conv A o s a (monitor A o s a)) ∨
    (¬ Conv A o s a (monitor A o s a) ∧ round A o s a = .inr (next a a.est.coef a.est.pass.penLlk (monitor A o s a).hist (monitor A o s a).one
      (monitor A o s a).restarts)) := by
  unfold round
  obtain ⟨h1, h2⟩ := monitor_coef h o s a
  simp only
  by_cases hc : Conv A o s a (monitor A o s a)
  · left
    rw [if_pos hc, if_neg, h1]
    · exact ⟨rfl, hc⟩
    · rintro ⟨h3, h4, h5⟩
      rcases h with h | h | h
      · rw [h3] at h; cases h
      · rw [h4] at h; cases h
      · omega
  · right
    rw [if_neg hc, h1, h2]
    exact ⟨hc, rfl⟩

end Verif.Outer

namespace Verif.Outer
open Verif.Lam

variable {m : ℕ} {V : Type}

/-- What is known after the step control of iteration `o`. -/
def Known (A : Args m V) (fr : Fin m → Bool) (o : ℕ) (a : Acc m V) : Prop :=
  (∀ i, (a.terms i).frozen = fr i) ∧ ∃ c0, a.est = balance A o (A.est o a.k a.used c0) ∧ (∀ i, |(a.terms i).lam - a.used i| < 1 / 10 ^ 7) ∧
    ∃ ts' : Fin m → Term, a.terms = doneL (A.cfg o) a.est.pass ts'

/-- What is known between iterations. -/
def Link (A : Args m V) (fr : Fin m → Bool) (o : ℕ) (s : St m V) (a : Acc m V) : Prop :=
  0 < o ∧ Known A fr (o - 1) a ∧ s.coef = a.est.coef ∧ s.terms = fun i => applyStep (a.terms i)

theorem loop_spec {A : Args m V} (hs : Safe A) (hc : Calm A) (fr : Fin m → Bool) (fuel : ℕ) :
    ∀ (left o : ℕ) (last : Option (Acc m V)) (s : St m V) (r : Out m V), (∀ i, Good A (s.terms i)) →
      (∀ i, (s.terms i).frozen = fr i) → (∀ a, last = some a → Link A fr o s a) → loop A fuel left o last s = some r →
      ∃ o' a, o' < o + left ∧ Known A fr o' a ∧
        (r = result A a a.est.coef a.terms 0 ∨
          o' + 1 = o + left ∧ r = result A a a.est.coef (fun i => applyStep (a.terms i)) 1) := by
  intro left
  induction left with
  | zero =>
    intro o last s r _ _ hl h
    simp only [loop, Option.map_eq_some_iff] at h
    obtain ⟨a, rfl, rfl⟩ := h
    obtain ⟨h0, h1, h2, h3⟩ := hl a rfl
    refine ⟨o - 1, a, by omega, h1, .inr ⟨by omega, ?_⟩⟩
    rw [h2, h3]
  | succ n ih =>
    intro o last s r hg hf hl h
    simp only [loop] at h
    cases hk : control A o s.coef fuel 0 s.terms with
    | none => rw [hk] at h; cases h
    | some a =>
      rw [hk] at h
      simp only at h
      have hfr : ∀ i, (a.terms i).frozen = fr i := fun i => by
        rw [control_frozen A o s.coef fuel 0 s.terms a hk i, hf i]
      have hkn : Known A fr o a := ⟨hfr, s.coef, control_spec hs o s.coef fuel 0 s.terms a hg hk⟩
      rcases round_calm hc o s a with ⟨hr, -⟩ | ⟨-, hr⟩
      · rw [hr] at h
        simp only [Option.some.injEq] at h
        exact ⟨o, a, by omega, hkn, .inl h.symm⟩
      · rw [hr] at h
        simp only at h
        have := ih (o + 1) (some a) _ r (fun i => good_apply (control_good hs o s.coef fuel 0 s.terms a hg hk i)) hfr (by
          intro a' ha
          cases ha
          exact ⟨by omega, by simpa using hkn, rfl, rfl⟩) h
        rwa [show o + 1 + n = o + (n + 1) by omega] at this

theorem loop_next {A : Args m V} {fuel left o : ℕ} {last : Option (Acc m V)} {s s' : St m V} {a : Acc m V}
    (h1 : control A o s.coef fuel 0 s.terms = some a) (h2 : round A o s a = .inr s') :
    loop A fuel (left + 1) o last s = loop A fuel left (o + 1) (some a) s' := by
  simp only [loop, h1, h2]

theorem loop_done {A : Args m V} {fuel left o : ℕ} {last : Option (Acc m V)} {s : St m V} {a : Acc m V}
    {r : Out m V} (h1 : control A o s.coef fuel 0 s.terms = some a) (h2 : round A o s a = .inl r) :
    loop A fuel (left + 1) o last s = some r := by
  simp only [loop, h1, h2]

theorem start_good (A : Args m V) (lam : Fin m → ℝ) (frozen : Fin m → Bool) (coef : V) (i : Fin m) :
    Good A ((start lam frozen coef).terms i) := by
  intro _ h; cases h

/-- Penalised log-likelihoods of the iterations that take place, one per iteration. -/
noncomputable def penTrace (A : Args m V) (fuel : ℕ) : ℕ → ℕ → St m V → List ℝ
  | 0, _, _ => []
  | left + 1, o, s =>
    match control A o s.coef fuel 0 s.terms with
    | none => []
    | some a =>
      match round A o s a with
      | .inl _ => [a.est.pass.penLlk]
      | .inr s' => a.est.pass.penLlk :: penTrace A fuel left (o + 1) s'

theorem next_hist (a : Acc m V) (coef : V) (pen : ℝ) (one rs : ℕ) (b : List ℝ) :
    (next a coef pen (b.drop (b.length - 5)) one rs).hist = (b ++ [pen]).drop ((b ++ [pen]).length - 5) := by
  simp only [next]
  have hd : (b.drop (b.length - 5)).length = min b.length 5 := by simp; omega
  by_cases h : 5 ≤ b.length
  · rw [if_pos (by simp; omega)]
    rw [← List.drop_append_of_le_length (by omega), List.drop_drop]
    congr 1
    simp; omega
  · rw [if_neg (by simp; omega)]
    rw [show b.length - 5 = 0 by omega, show (b ++ [pen]).length - 5 = 0 by simp; omega]
    rfl

theorem loop_reason {A : Args m V} (hq : A.gen = false ∨ A.qefs = false) (fuel : ℕ) :
    ∀ (left o : ℕ) (last : Option (Acc m V)) (s : St m V) (r : Out m V) (b : List ℝ), b.length = o →
      s.hist = b.drop (b.length - 5) → loop A fuel left o last s = some r → r.code = 0 →
      ∃ n, (b ++ penTrace A fuel left o s).length = n + 1 ∧ 0 < n ∧
        (b ++ penTrace A fuel left o s)[n]? = some r.est.pass.penLlk ∧
        ((∃ j h, j < n ∧ n ≤ j + 5 ∧ (b ++ penTrace A fuel left o s)[j]? = some h ∧
            |h - r.est.pass.penLlk| < A.tol * |r.est.pass.penLlk|) ∨
          r.est.dropped = true ∨ 100 < n) := by
  have hc : Calm A := by rcases hq with h | h; exacts [.inl h, .inr (.inl h)]
  have hm : ∀ o s a, (monitor A o s a).hist = s.hist := by
    intro o s a
    unfold monitor
    rw [if_neg]
    rintro ⟨h1, h2⟩
    rcases hq with h | h <;> simp_all
  intro left
  induction left with
  | zero =>
    intro o last s r b _ _ h h0
    simp only [loop, Option.map_eq_some_iff] at h
    obtain ⟨a, rfl, rfl⟩ := h
    cases h0
  | succ k ih =>
    intro o last s r b hb hh h h0
    simp only [loop] at h
    simp only [penTrace]
    cases hk : control A o s.coef fuel 0 s.terms with
    | none => rw [hk] at h; cases h
    | some a =>
      rw [hk] at h
      simp only at h ⊢
      rcases round_calm hc o s a with ⟨hr, hcv⟩ | ⟨-, hr⟩
      · rw [hr] at h ⊢
        simp only [Option.some.injEq] at h ⊢
        subst h
        obtain ⟨ho, hcv⟩ := hcv
        refine ⟨o, by simp [hb], ho, ?_, ?_⟩
        · rw [List.getElem?_append_right (by omega)]; simp [hb, result]
        · rcases hcv with ⟨x, hx, hlt⟩ | ⟨h1, -⟩ | ⟨h1, -⟩
          · left
            rw [hm, hh, List.mem_iff_getElem?] at hx
            obtain ⟨j, hj⟩ := hx
            rw [List.getElem?_drop] at hj
            have hjl : b.length - 5 + j < b.length := by
              by_contra hcon
              rw [List.getElem?_eq_none (by omega)] at hj
              cases hj
            refine ⟨b.length - 5 + j, x, by omega, by omega, ?_, ?_⟩
            · rw [List.getElem?_append_left hjl]; exact hj
            · rw [(monitor_coef hc o s a).2] at hlt
              exact hlt
          · exact .inr (.inl h1)
          · exact .inr (.inr h1)
      · rw [hr] at h ⊢
        simp only at h ⊢
        have := ih (o + 1) (some a) _ r (b ++ [a.est.pass.penLlk]) (by simp [hb]) (by
          rw [hm, hh]; exact next_hist a _ _ _ _ b) h h0
        simpa only [List.append_assoc, List.singleton_append] using this

end Verif.Outer
