import Verif.CoefLemmas

/-!
# C94: results of the coefficient iterations

`update_coef_gammlss` and `update_coef_gen_smooth`.
-/

namespace Verif.Coef
open Verif Verif.Step Verif.Dropped

variable {V Hs : Type} [AddCommGroup V] [Module ℝ V] {n : ℕ}

theorem padV_restrict (K : Finset (Fin n)) (b : K → ℝ) : (fun i : K => padV K b i) = b := by
  funext i
  simp [padV]

theorem update_cases {C : Cfg} {F : Ext (Fin n → ℝ) Hs} {P : ∀ K : Finset (Fin n), Ext (K → ℝ) Hs} {checks : Bool}
    {identify : Option Hs → Option (Finset (Fin n))} {kd : Option (Finset (Fin n))} {c : Fin n → ℝ} {llk : Fl}
    {r : Res n Hs} (h : update C F P checks identify kd c llk = .ok r) :
    (kd = none ∧ Ret.ok r = whole (phase C F C.maxInner 0 ⟨c, llk, penOf F c llk, 1 / 10, 0, none⟩).1) ∨
    ∃ K c' a e hs, Ret.ok r = padded K (phase C (P K) C.maxInner 0 (reduced P K c' a e hs)).1 ∧
      ((kd = some K ∧ c' = c ∧ a = 1 / 10) ∨
       (kd = none ∧ identify hs = some K ∧ 1 < K.card ∧
         (penOf (P K) (restrict K c') ((P K).llk (restrict K c'))).IsFin ∧
         c' = (phase C F C.maxInner 0 ⟨c, llk, penOf F c llk, 1 / 10, 0, none⟩).1.coef)) := by
  unfold update at h
  cases kd with
  | some K => exact Or.inr ⟨K, c, _, _, _, h.symm, Or.inl ⟨rfl, rfl, rfl⟩⟩
  | none =>
    simp only at h
    by_cases h1 : checks ∧ (phase C F C.maxInner 0 ⟨c, llk, penOf F c llk, 1 / 10, 0, none⟩).2 = .converged
    · rw [if_pos h1] at h
      split at h
      · exact Or.inl ⟨rfl, h.symm⟩
      · rename_i K hK
        right
        split_ifs at h
        refine ⟨K, _, _, _, _, h.symm, Or.inr ⟨rfl, ?_⟩⟩
        unfold accepted at hK
        split at hK
        · simp at hK
        · rename_i K' hi
          split_ifs at hK with h2 h3
          simp only [Option.some.injEq] at hK
          subst hK
          refine ⟨hi, by omega, ?_, rfl⟩
          simpa using h2
    · rw [if_neg h1] at h
      exact Or.inl ⟨rfl, h.symm⟩

/-- **C94.** The log-likelihood and penalised log-likelihood returned are those of the coefficients
returned: of the whole model, or when coefficients were dropped, of the model without them, and then the
dropped ones are zero. -/
theorem results_own (C : Cfg) (F : Ext (Fin n → ℝ) Hs) (P : ∀ K : Finset (Fin n), Ext (K → ℝ) Hs) (checks : Bool)
    (identify : Option Hs → Option (Finset (Fin n))) (kd : Option (Finset (Fin n))) (c : Fin n → ℝ) (r : Res n Hs)
    (h : update C F P checks identify kd c (F.llk c) = .ok r) :
    (r.keep = none → r.llk = F.llk r.coef ∧ r.pen = F.llk r.coef - Fl.fin (1 / 2 * F.quad r.coef)) ∧
    (∀ K, r.keep = some K → (∀ i, i ∉ K → r.coef i = 0) ∧ r.llk = (P K).llk (fun i => r.coef i) ∧
      r.pen = (P K).llk (fun i => r.coef i) - Fl.fin (1 / 2 * (P K).quad (fun i => r.coef i))) := by
  rcases update_cases h with ⟨-, h⟩ | ⟨K, c', a, e, hs, h, -⟩
  · simp only [whole, Ret.ok.injEq] at h
    subst h
    refine ⟨fun _ => phase_own C F C.maxInner 0 _ ⟨rfl, rfl⟩, fun K hK => ?_⟩
    simp at hK
  · simp only [padded, Ret.ok.injEq] at h
    subst h
    refine ⟨fun hK => ?_, fun K' hK => ?_⟩
    · simp at hK
    · simp only [Option.some.injEq] at hK
      subst hK
      simp only [padV_restrict]
      refine ⟨fun i hi => by simp [padV, hi], phase_own C (P K) C.maxInner 0 _ ⟨rfl, rfl⟩⟩

/-- **C94.** From coefficients with a finite penalised log-likelihood the result has one too, whatever is
proposed, restarted or dropped; dropped coefficients passed in must leave it finite. -/
theorem results_finite (C : Cfg) (F : Ext (Fin n → ℝ) Hs) (P : ∀ K : Finset (Fin n), Ext (K → ℝ) Hs) (checks : Bool)
    (identify : Option Hs → Option (Finset (Fin n))) (kd : Option (Finset (Fin n))) (c : Fin n → ℝ) (r : Res n Hs)
    (h : update C F P checks identify kd c (F.llk c) = .ok r)
    (hf : kd = none → (F.llk c - Fl.fin (1 / 2 * F.quad c)).IsFin)
    (hk : ∀ K, kd = some K → ((P K).llk (fun i => c i) - Fl.fin (1 / 2 * (P K).quad (fun i => c i))).IsFin) :
    r.pen.IsFin := by
  rcases update_cases h with ⟨h0, h⟩ | ⟨K, c', a, e, hs, h, hh⟩
  · simp only [whole, Ret.ok.injEq] at h
    subst h
    exact phase_fin C F C.maxInner 0 _ ⟨rfl, rfl⟩ (hf h0)
  · simp only [padded, Ret.ok.injEq] at h
    subst h
    refine phase_fin C (P K) C.maxInner 0 _ ⟨rfl, rfl⟩ ?_
    rcases hh with ⟨h1, rfl, -⟩ | ⟨-, -, -, h1, -⟩
    · exact hk K h1
    · exact h1

/-- **C94, part.** When no restart can happen, the iterations do not lower the penalised log-likelihood:
without a drop the result is not below the start, with one passed in not below the start without these
coefficients.  Missing: restarts, see `restart_wrong`. -/
theorem ascent_partial (C : Cfg) (F : Ext (Fin n → ℝ) Hs) (P : ∀ K : Finset (Fin n), Ext (K → ℝ) Hs) (checks : Bool)
    (identify : Option Hs → Option (Finset (Fin n))) (kd : Option (Finset (Fin n))) (c : Fin n → ℝ) (r : Res n Hs)
    (h : update C F P checks identify kd c (F.llk c) = .ok r) (hF : Calm C F) (hP : ∀ K, Calm C (P K)) :
    (∀ x, r.keep = none → F.llk c - Fl.fin (1 / 2 * F.quad c) = .fin x → ∃ y, r.pen = .fin y ∧ x ≤ y) ∧
    (∀ K x, kd = some K → (P K).llk (fun i => c i) - Fl.fin (1 / 2 * (P K).quad (fun i => c i)) = .fin x →
      ∃ y, r.pen = .fin y ∧ x ≤ y) := by
  rcases update_cases h with ⟨h0, h⟩ | ⟨K, c', a, e, hs, h, hh⟩
  · simp only [whole, Ret.ok.injEq] at h
    subst h
    refine ⟨fun x _ hx => phase_ascent C F hF C.maxInner 0 _ ⟨rfl, rfl⟩ x hx, fun K x hK => ?_⟩
    rw [h0] at hK
    simp at hK
  · simp only [padded, Ret.ok.injEq] at h
    subst h
    refine ⟨fun x hK => by simp at hK, fun K' x hK hx => ?_⟩
    rcases hh with ⟨h1, rfl, -⟩ | ⟨h1, -⟩
    · rw [h1] at hK
      simp only [Option.some.injEq] at hK
      subst hK
      exact phase_ascent C (P K) (hP K) C.maxInner 0 _ ⟨rfl, rfl⟩ x hx
    · rw [h1] at hK
      simp at hK

/-- **C94.** With a penalised log-likelihood below `-m < 0` everywhere and without restarts, the iterations
end by themselves: if more than `(-m - x) / (tol * m)` are allowed, `x` the value at the start, the limit
is not what ends them. -/
theorem ends (C : Cfg) (P : Ext V Hs) (hC : Calm C P) (m : ℝ) (hm : 0 < m) (ht : 0 < C.tol)
    (hB : ∀ c x, P.llk c - Fl.fin (1 / 2 * P.quad c) = .fin x → x ≤ -m) (left inner : ℕ) (s : S V Hs)
    (ho : s.llk = P.llk s.coef ∧ s.pen = P.llk s.coef - Fl.fin (1 / 2 * P.quad s.coef)) (x : ℝ)
    (hx : s.pen = .fin x) (hl : (-m - x) / (C.tol * m) < left) : (phase C P left inner s).2 ≠ .exhausted := by
  intro he
  have h := phase_rise C P hC m hm ht hB left inner s ho x hx he
  have hp : 0 < C.tol * m := mul_pos ht hm
  rw [div_lt_iff₀ hp] at hl
  linarith

/-- **C94.** The gradient step size stays between `5e-10` and two. -/
theorem step_size (C : Cfg) (P : Ext V Hs) : ∀ (left inner : ℕ) (s : S V Hs), 1 / (2 * 10 ^ 9) ≤ s.a → s.a < 2 →
    1 / (2 * 10 ^ 9) ≤ (phase C P left inner s).1.a ∧ (phase C P left inner s).1.a < 2 := by
  intro left
  induction left with
  | zero => intro _ s h0 h2; exact ⟨h0, h2⟩
  | succ left ih =>
    intro inner s h0 h2
    have h := round_size C P inner s h0 h2
    unfold phase
    simp only
    split_ifs
    · exact h
    · exact h
    · exact ih _ _ h.1 h.2

/-- **C94, part.** The Hessian and factors returned are those of the coefficients before the last step:
when the iterations converged (and the start was consistent), the penalised log-likelihood of these
coefficients is within the tolerance of the returned one.  Missing: they are not those of the returned
coefficients (`hess_wrong`). -/
theorem hess_partial (C : Cfg) (P : Ext V Hs) (hg : C.grad = false) : ∀ (left inner : ℕ) (s s' : S V Hs),
    s.llk = P.llk s.coef ∧ s.pen = P.llk s.coef - Fl.fin (1 / 2 * P.quad s.coef) →
    phase C P left inner s = (s', .converged) →
    ∃ c x y, s'.hess = some (P.info c) ∧ P.llk c - Fl.fin (1 / 2 * P.quad c) = .fin x ∧
      P.llk s'.coef - Fl.fin (1 / 2 * P.quad s'.coef) = .fin y ∧ |y - x| < C.tol * |y| := by
  intro left
  induction left with
  | zero => intro inner s s' _ h; simp [phase] at h
  | succ left ih =>
    intro inner s s' ho h
    unfold phase at h
    simp only at h
    by_cases h1 : Near C.tol (round C P inner s).pen (prevPen P s)
    · rw [if_pos h1, Prod.mk.injEq] at h
      obtain ⟨rfl, -⟩ := h
      rw [own_prev P s ho] at h1
      rw [← (round_own C P inner s).2]
      cases hy : (round C P inner s).pen with
      | fin y =>
        cases hx : s.pen with
        | fin x =>
          rw [hy, hx] at h1
          exact ⟨s.coef, x, y, round_hess C P hg inner s, by rw [← ho.2, hx], rfl, h1⟩
        | _ => rw [hy, hx] at h1; exact absurd h1 (by simp [Near])
      | _ => rw [hy] at h1; exact absurd h1 (by simp [Near])
    · rw [if_neg h1] at h
      split_ifs at h
      · simp at h
      · exact ih (inner + 1) _ s' (round_own C P inner s) h

/-- **C94.** A set of coefficients kept by the check at convergence is the one `identify_drop` reported and
has at least two members; a set passed in is used unchanged. -/
theorem keep_reported (C : Cfg) (F : Ext (Fin n → ℝ) Hs) (P : ∀ K : Finset (Fin n), Ext (K → ℝ) Hs) (checks : Bool)
    (identify : Option Hs → Option (Finset (Fin n))) (kd : Option (Finset (Fin n))) (c : Fin n → ℝ) (l : Fl)
    (r : Res n Hs) (h : update C F P checks identify kd c l = .ok r) :
    (∀ K, kd = some K → r.keep = some K) ∧
    (∀ K, kd = none → r.keep = some K → 2 ≤ K.card ∧ ∃ hs, identify hs = some K) := by
  rcases update_cases h with ⟨h0, h⟩ | ⟨K, c', a, e, hs, h, hh⟩
  · simp only [whole, Ret.ok.injEq] at h
    subst h
    exact ⟨fun K hK => by rw [h0] at hK; simp at hK, fun K _ hK => by simp at hK⟩
  · simp only [padded, Ret.ok.injEq] at h
    subst h
    rcases hh with ⟨h1, -⟩ | ⟨h1, h2, h3, -⟩
    · exact ⟨fun K' hK => by rw [h1] at hK; exact hK, fun K' hK => by rw [h1] at hK; simp at hK⟩
    · refine ⟨fun K' hK => by rw [h1] at hK; simp at hK, fun K' _ hK => ?_⟩
      simp only [Option.some.injEq] at hK
      subst hK
      exact ⟨h3, hs, h2⟩

/-- **C94.** A call fails with an index error only if `min_inner = 0` was asked for. -/
theorem index_error (C : Cfg) (F : Ext (Fin n → ℝ) Hs) (P : ∀ K : Finset (Fin n), Ext (K → ℝ) Hs) (checks : Bool)
    (identify : Option Hs → Option (Finset (Fin n))) (kd : Option (Finset (Fin n))) (c : Fin n → ℝ) (l : Fl)
    (h : update C F P checks identify kd c l = .indexError) : C.minInner = 0 ∧ 0 < C.outer := by
  unfold update at h
  cases kd with
  | some K => simp [padded] at h
  | none =>
    simp only at h
    by_cases h1 : checks ∧ (phase C F C.maxInner 0 ⟨c, l, penOf F c l, 1 / 10, 0, none⟩).2 = .converged
    · rw [if_pos h1] at h
      split at h
      · simp [whole] at h
      · rename_i K hK
        by_cases h2 : (phase C F C.maxInner 0 ⟨c, l, penOf F c l, 1 / 10, 0, none⟩).1.eps ≤ 0 ∧ C.outer > 0 ∧
            C.minInner = 0
        · exact ⟨h2.2.2, h2.2.1⟩
        · rw [if_neg h2] at h
          simp [padded] at h
    · rw [if_neg h1] at h
      simp [whole] at h

/-! ### Concrete cases -/

/-- One coefficient, log-likelihood `-1 - c²`, no penalty; `info` is the coefficient itself; restarts
would propose `2`. -/
noncomputable def toy : Ext ℝ ℝ where
  llk c := .fin (-1 - c ^ 2)
  quad _ := 0
  info c := c
  newton _ := 0
  gd c a := c - a * (2 * c)
  ridge _ := 0
  noise _ := 2

noncomputable def newtonCfg : Cfg := ⟨false, true, 1, 1, 1, 1 / 100⟩
noncomputable def gradCfg : Cfg := ⟨true, true, 1, 1, 0, 1 / 100⟩

theorem toy_calm : Calm newtonCfg toy := ⟨by simp [newtonCfg], by simp [newtonCfg, toy, Fl.IsFin]⟩

theorem lssStep_ge {V E M : Type} [AddCommGroup V] [Module ℝ V] (P : Prob V E M) (coef next : V) (l : Fl) (a : ℝ)
    (h : Ge (levalAt P next).pen (l - Fl.fin (1 / 2 * P.quad coef)) ∧ (levalAt P next).pen.IsFin) :
    (lssStep P coef next l a).1 = levalAt P next := by
  unfold lssStep
  simp only
  rw [lssLoop, if_pos h]

/-- **C94 is wrong for the Hessian.** One Newton step from `1` to the maximiser `0`: the Hessian returned is
the one at `1`. -/
theorem hess_wrong :
    (phase newtonCfg toy newtonCfg.maxInner 0 ⟨1, toy.llk 1, penOf toy 1 (toy.llk 1), 1 / 10, 0, none⟩).1.coef = 0 ∧
    (phase newtonCfg toy newtonCfg.maxInner 0 ⟨1, toy.llk 1, penOf toy 1 (toy.llk 1), 1 / 10, 0, none⟩).1.hess =
      some (toy.info 1) ∧ toy.info 1 ≠ toy.info 0 := by
  have hs : (lssStep (prob toy) (1 : ℝ) 0 (toy.llk 1) (1 / 10)).1 = levalAt (prob toy) 0 :=
    lssStep_ge _ _ _ _ _ (by simp [levalAt, prob, toy, Ge, Fl.fin_sub, Fl.IsFin])
  have hr : (round newtonCfg toy 0 ⟨1, toy.llk 1, penOf toy 1 (toy.llk 1), 1 / 10, 0, none⟩).coef = 0 := by
    unfold round
    simp only
    rw [if_neg (calm_not _ _ toy_calm _ _ _ _)]
    simp only [proposal, newtonCfg, Bool.false_eq_true, if_false]
    change (lssStep (prob toy) (1 : ℝ) 0 (toy.llk 1) (1 / 10)).1.n = 0
    rw [hs]
    rfl
  have hh := round_hess newtonCfg toy rfl 0 ⟨1, toy.llk 1, penOf toy 1 (toy.llk 1), 1 / 10, 0, none⟩
  have hp : ∀ s : S ℝ ℝ, (phase newtonCfg toy 1 0 s).1 = round newtonCfg toy 0 s := by
    intro s
    unfold phase
    simp only
    split_ifs <;> rfl
  refine ⟨?_, ?_, by simp [toy]⟩
  · change (phase newtonCfg toy 1 0 _).1.coef = _
    rw [hp]
    exact hr
  · change (phase newtonCfg toy 1 0 _).1.hess = _
    rw [hp]
    exact hh

/-- **C94 is wrong for the gradient descent before fitting.** Started at the maximiser `0`, the first
gradient step changes nothing, which counts as being stuck: the coefficient is replaced by a random
combination and the result is worse than the start. -/
theorem restart_wrong :
    (phase gradCfg toy gradCfg.maxInner 0 ⟨0, toy.llk 0, penOf toy 0 (toy.llk 0), 1 / 10, 0, none⟩).1.coef = 1 ∧
    (phase gradCfg toy gradCfg.maxInner 0 ⟨0, toy.llk 0, penOf toy 0 (toy.llk 0), 1 / 10, 0, none⟩).1.pen = .fin (-2) ∧
    penOf toy 0 (toy.llk 0) = .fin (-1) ∧ ∀ c x, penOf toy c (toy.llk c) = .fin x → x ≤ -1 := by
  have hp : ∀ s : S ℝ ℝ, (phase gradCfg toy 1 0 s).1 = round gradCfg toy 0 s := by
    intro s
    unfold phase
    simp only
    split_ifs <;> rfl
  have hq : proposal gradCfg toy ⟨0, toy.llk 0, penOf toy 0 (toy.llk 0), 1 / 10, 0, none⟩ = (0 : ℝ) := by
    simp [proposal, gradCfg, toy]
  have hs : (lssStep (prob toy) (0 : ℝ) 0 (toy.llk 0) (1 / 10)).1 = levalAt (prob toy) 0 :=
    lssStep_ge _ _ _ _ _ (by simp [levalAt, prob, toy, Ge, Fl.fin_sub, Fl.IsFin])
  have hc : candidate toy 0 0 (0 : ℝ) = 1 := by simp [candidate, toy]
  have hre : restart toy 0 (0 : ℝ) = 1 := by
    have : (List.range 30) = 0 :: (List.range 29).map (· + 1) := by decide
    unfold restart
    rw [this, List.find?_cons_of_pos]
    · exact hc
    · rw [hc]
      simp [penOf, toy, Fl.fin_sub, Fl.IsFin]
  have hr : round gradCfg toy 0 ⟨0, toy.llk 0, penOf toy 0 (toy.llk 0), 1 / 10, 0, none⟩ =
      ⟨1, toy.llk 1, penOf toy 1 (toy.llk 1), 1 / 10, 0, none⟩ := by
    unfold round
    simp only
    rw [hq, hs]
    rw [if_pos]
    · simp only [levalAt, gradCfg, if_true, hre]
    · refine ⟨by norm_num, ?_, Or.inl ⟨rfl, rfl⟩⟩
      simp [prevPen, penOf, levalAt, prob, toy, Fl.fin_sub, Near, gradCfg]
  refine ⟨?_, ?_, ?_, ?_⟩
  · change (phase gradCfg toy 1 0 _).1.coef = _
    rw [hp, hr]
  · change (phase gradCfg toy 1 0 _).1.pen = _
    rw [hp, hr]
    simp only [penOf, toy, Fl.fin_sub, Fl.fin_inj]
    norm_num
  · simp only [penOf, toy, Fl.fin_sub, Fl.fin_inj]
    norm_num
  · intro c x hx
    simp only [penOf, toy, Fl.fin_sub, Fl.fin_inj] at hx
    nlinarith [sq_nonneg c]

/-- A model whose log-likelihood is constant. -/
noncomputable def flat (V : Type) [AddCommGroup V] [Module ℝ V] : Ext V Unit where
  llk _ := .fin (-1)
  quad _ := 0
  info _ := ()
  newton c := c
  gd c _ := c
  ridge _ := 0
  noise _ := 0

theorem flat_calm (C : Cfg) (h : ¬(C.grad = true ∧ C.outer = 0)) (V : Type) [AddCommGroup V] [Module ℝ V] :
    Calm C (flat V) := ⟨h, fun _ => by split_ifs <;> simp [flat, Fl.IsFin]⟩

theorem flat_phase (C : Cfg) (h : ¬(C.grad = true ∧ C.outer = 0)) (ht : 0 < C.tol) (hg : C.grad = false)
    (V : Type) [AddCommGroup V] [Module ℝ V] (left inner : ℕ) (c : V) (a e : ℝ) (hs : Option Unit) :
    ∃ a', phase C (flat V) (left + 1) inner ⟨c, .fin (-1), .fin (-1), a, e, hs⟩ =
      (⟨c, .fin (-1), .fin (-1), a', 0, some ()⟩, .converged) := by
  have hst : (lssStep (prob (flat V)) c c (.fin (-1)) a).1 = levalAt (prob (flat V)) c :=
    lssStep_ge _ _ _ _ _ (by simp [levalAt, prob, flat, Ge, Fl.fin_sub, Fl.IsFin])
  have hr : round C (flat V) inner ⟨c, .fin (-1), .fin (-1), a, e, hs⟩ =
      ⟨c, .fin (-1), .fin (-1), (lssStep (prob (flat V)) c c (.fin (-1)) a).2, 0, some ()⟩ := by
    unfold round
    simp only
    rw [if_neg (calm_not C _ (flat_calm C h V) _ _ _ _)]
    have : proposal C (flat V) ⟨c, .fin (-1), .fin (-1), a, e, hs⟩ = c := by simp [proposal, flat]
    rw [this, hst]
    simp [levalAt, prob, flat, hg, Fl.fin_sub]
  refine ⟨(lssStep (prob (flat V)) c c (.fin (-1)) a).2, ?_⟩
  unfold phase
  simp only
  rw [hr, if_pos]
  simpa [prevPen, penOf, flat, Fl.fin_sub, Near] using ht

noncomputable def dropCfg (m : ℕ) : Cfg := ⟨false, true, 5, m, 1, 1 / 100⟩

/-- **C94 is wrong for `min_inner = 0`.** Three coefficients of which one is found to be unidentifiable: the
iterations stop directly after removing it, and padding the full-size factor fails. -/
theorem index_error_wrong :
    update (dropCfg 0) (flat (Fin 3 → ℝ)) (fun _ => flat _) true (fun _ => some {0, 1}) none 0 (.fin (-1)) =
      .indexError := by
  obtain ⟨a, ha⟩ := flat_phase (dropCfg 0) (by simp [dropCfg]) (by norm_num [dropCfg]) rfl (Fin 3 → ℝ) 4 0 0 (1 / 10)
    0 none
  have hpen : penOf (flat (Fin 3 → ℝ)) 0 (.fin (-1)) = .fin (-1) := by simp [penOf, flat, Fl.fin_sub]
  have hacc : accepted (fun _ => flat _) (some ({0, 1} : Finset (Fin 3))) (0 : Fin 3 → ℝ) = some {0, 1} := by
    unfold accepted
    simp only
    rw [if_neg (by simp [penOf, flat, Fl.fin_sub, Fl.IsFin]), if_neg (by decide)]
  unfold update
  simp only
  rw [hpen]
  rw [show (phase (dropCfg 0) (flat (Fin 3 → ℝ)) (dropCfg 0).maxInner 0
    ⟨0, .fin (-1), .fin (-1), 1 / 10, 0, none⟩) = _ from ha]
  simp only [and_true, if_true]
  rw [hacc]
  simp only
  rw [if_pos (by simp [dropCfg])]

/-- With `min_inner = 1` the same run succeeds and reports what was kept. -/
theorem drop_example : ∃ r, update (dropCfg 1) (flat (Fin 3 → ℝ)) (fun _ => flat _) true (fun _ => some {0, 1}) none
    (fun _ => 2) (.fin (-1)) = .ok r ∧ r.keep = some {0, 1} ∧ r.pen = .fin (-1) ∧ r.coef = ![2, 2, 0] := by
  obtain ⟨a, ha⟩ := flat_phase (dropCfg 1) (by simp [dropCfg]) (by norm_num [dropCfg]) rfl (Fin 3 → ℝ) 4 0
    (fun _ => 2) (1 / 10) 0 none
  have hpen : penOf (flat (Fin 3 → ℝ)) (fun _ => 2) (.fin (-1)) = .fin (-1) := by simp [penOf, flat, Fl.fin_sub]
  obtain ⟨b, hb⟩ := flat_phase (dropCfg 1) (by simp [dropCfg]) (by norm_num [dropCfg]) rfl
    (({0, 1} : Finset (Fin 3)) → ℝ) 4 0 (fun _ => 2) a 0 (some ())
  have hacc : accepted (fun _ => flat _) (some ({0, 1} : Finset (Fin 3))) (fun _ : Fin 3 => (2 : ℝ)) = some {0, 1} := by
    unfold accepted
    simp only
    rw [if_neg (by simp [penOf, flat, Fl.fin_sub, Fl.IsFin]), if_neg (by decide)]
  have hred : reduced (fun _ => flat _) ({0, 1} : Finset (Fin 3)) (fun _ : Fin 3 => (2 : ℝ)) a 0 (some ()) =
      ⟨fun _ => 2, .fin (-1), .fin (-1), a, 0, some ()⟩ := by
    unfold reduced restrict
    simp [penOf, flat, Fl.fin_sub]
  refine ⟨⟨padV {0, 1} (fun _ => 2), .fin (-1), .fin (-1), some (), some {0, 1}⟩, ?_, rfl, rfl, ?_⟩
  · unfold update
    simp only
    rw [hpen]
    rw [show (phase (dropCfg 1) (flat (Fin 3 → ℝ)) (dropCfg 1).maxInner 0
      ⟨fun _ => 2, .fin (-1), .fin (-1), 1 / 10, 0, none⟩) = _ from ha]
    simp only [and_true, if_true]
    rw [hacc]
    simp only
    rw [if_neg (by simp [dropCfg]), hred]
    rw [show (phase (dropCfg 1) (flat (({0, 1} : Finset (Fin 3)) → ℝ)) (dropCfg 1).maxInner 0
      ⟨fun _ => 2, .fin (-1), .fin (-1), a, 0, some ()⟩) = _ from hb]
    rfl
  · funext i
    fin_cases i <;> simp [padV]

example : Calm newtonCfg toy ∧ toy.llk 1 - Fl.fin (1 / 2 * toy.quad 1) = .fin (-2) :=
  ⟨toy_calm, by simp only [toy, Fl.fin_sub, Fl.fin_inj]; norm_num⟩

/-- Two hundred iterations are more than enough from `1`. -/
example : (phase newtonCfg toy 200 0 ⟨1, toy.llk 1, penOf toy 1 (toy.llk 1), 1 / 10, 0, none⟩).2 ≠ .exhausted := by
  refine ends newtonCfg toy toy_calm 1 one_pos (by norm_num [newtonCfg]) ?_ 200 0 _ ⟨rfl, rfl⟩ (-2) ?_ ?_
  · intro c x hx
    simp only [toy, Fl.fin_sub, Fl.fin_inj] at hx
    nlinarith [sq_nonneg c]
  · simp only [penOf, toy, Fl.fin_sub, Fl.fin_inj]
    norm_num
  · norm_num [newtonCfg]

/-- A run that converges, for `hess_partial`. -/
example : ∃ s, phase (dropCfg 1) (flat ℝ) 5 0 ⟨3, .fin (-1), .fin (-1), 1 / 10, 0, none⟩ = (s, .converged) ∧
    s.hess = some () := by
  obtain ⟨a, ha⟩ := flat_phase (dropCfg 1) (by simp [dropCfg]) (by norm_num [dropCfg]) rfl ℝ 4 0 3 (1 / 10) 0 none
  exact ⟨_, ha, rfl⟩

end Verif.Coef
