import Verif.Iface

/-!
# The numbering of the classes of multinomial models (property C137)

`MULNOMLSS` takes class 0 as reference.  Renumbering the classes changes the coefficients by the differences to those of the new reference class.
-/

namespace Verif.Cls
open Verif Matrix Lml

variable {K : ℕ}

/-- Predictors (or coefficients) of all classes: zero for the reference class. -/
def all (e : Fin K → ℝ) : Fin (K + 1) → ℝ := Fin.cons 0 e

/-- Predictors (or coefficients) after class `c` was given the number `s c`. -/
def relab (s : Equiv.Perm (Fin (K + 1))) (e : Fin K → ℝ) (k : Fin K) : ℝ := all e (s.symm k.succ) - all e (s.symm 0)

theorem all_relab (s : Equiv.Perm (Fin (K + 1))) (e : Fin K → ℝ) (c : Fin (K + 1)) :
    all (relab s e) c = all e (s.symm c) - all e (s.symm 0) := by
  refine Fin.cases ?_ (fun k => rfl) c
  rw [sub_self]
  rfl

/-- Sum over all classes. -/
noncomputable def tot (e : Fin K → ℝ) : ℝ := ∑ c, Real.exp (all e c)

theorem tot_eq (e : Fin K → ℝ) : tot e = 1 + ∑ k, Real.exp (e k) := by
  unfold tot
  rw [Fin.sum_univ_succ]
  show Real.exp 0 + _ = _
  rw [Real.exp_zero]
  rfl

theorem tot_pos (e : Fin K → ℝ) : 0 < tot e := Finset.sum_pos (fun _ _ => Real.exp_pos _) ⟨0, Finset.mem_univ _⟩

theorem tot_relab (s : Equiv.Perm (Fin (K + 1))) (e : Fin K → ℝ) : tot (relab s e) = tot e / Real.exp (all e (s.symm 0)) := by
  unfold tot
  rw [Finset.sum_div, ← Equiv.sum_comp s.symm fun c => Real.exp (all e c) / Real.exp (all e (s.symm 0))]
  exact Finset.sum_congr rfl fun c _ => by rw [all_relab, Real.exp_sub]

theorem pick (e : Fin K → ℝ) (c : Fin (K + 1)) : (∑ k : Fin K, if (c : ℕ) = k.val + 1 then e k else 0) = all e c := by
  refine Fin.cases ?_ (fun j => ?_) c
  · simp [all]
  · rw [Finset.sum_eq_single j]
    · simp [all]
    · intro b _ hb
      rw [if_neg]
      intro h
      exact hb (Fin.ext (by simp at h; omega))
    · simp

theorem lp_eq (e : Fin K → ℝ) (c : Fin (K + 1)) :
    EtaBeta.lpEta (EtaBeta.mnFam K) (c : ℕ) e = all e c - Real.log (tot e) := by
  rw [mn_lp, tot_eq, Nat.floor_natCast, pick]
  ring

/-- C137.  Log densities. -/
theorem density (s : Equiv.Perm (Fin (K + 1))) (e : Fin K → ℝ) (c : Fin (K + 1)) :
    EtaBeta.lpEta (EtaBeta.mnFam K) ((s c : Fin (K + 1)) : ℕ) (relab s e) = EtaBeta.lpEta (EtaBeta.mnFam K) (c : ℕ) e := by
  rw [lp_eq, lp_eq, all_relab, tot_relab, Real.log_div (tot_pos e).ne' (Real.exp_pos _).ne', Real.log_exp, Equiv.symm_apply_apply]
  ring

/-- C137.  Probabilities (`get_probs`). -/
theorem probs (s : Equiv.Perm (Fin (K + 1))) (e : Fin K → ℝ) (c : Fin (K + 1)) :
    Lss.mnProb (EtaBeta.musOf (EtaBeta.mnFam K) (relab s e)) (s c : Fin (K + 1)) = Lss.mnProb (EtaBeta.musOf (EtaBeta.mnFam K) e) c := by
  have := density s e c
  simp only [EtaBeta.lpEta, EtaBeta.mnFam, Nat.floor_natCast] at this
  unfold Lss.mnProb
  exact congrArg Real.exp this

/-! ### Models with the same formula for all classes -/

section model
variable {n m : ℕ} {Z : Fin n → ℕ → ℝ} {stored : ℕ → ℕ → ℕ → List ℕ}
  {S : Matrix (Fin (∑ l ∈ Finset.range K, (fun _ => m) l)) (Fin (∑ l ∈ Finset.range K, (fun _ => m) l)) ℝ}
  {chol : Matrix (Fin (∑ l ∈ Finset.range K, (fun _ => m) l)) (Fin (∑ l ∈ Finset.range K, (fun _ => m) l)) ℝ →
      Option (Matrix (Fin (∑ l ∈ Finset.range K, (fun _ => m) l)) (Fin (∑ l ∈ Finset.range K, (fun _ => m) l)) ℝ ×
        Equiv.Perm (Fin (∑ l ∈ Finset.range K, (fun _ => m) l)))}
  {noise : ℕ → Fin (∑ l ∈ Finset.range K, (fun _ => m) l) → ℝ}

/-- Classes as the numbers handed over by the user. -/
def num (y : Fin n → Fin (K + 1)) (o : Fin n) : ℝ := ((y o : ℕ) : ℝ)

/-- The coefficient of column `a` in the formula of predictor `k`. -/
def cf (m : ℕ) (c : Fin (∑ l ∈ Finset.range K, (fun _ => m) l) → ℝ) (a : Fin m) (k : Fin K) : ℝ := c (at' (K := K) (fun _ => m) ⟨k, a⟩)

/-- Coefficients of the renumbered model. -/
def Renum (m : ℕ) (s : Equiv.Perm (Fin (K + 1))) (c c' : Fin (∑ l ∈ Finset.range K, (fun _ => m) l) → ℝ) : Prop :=
  ∀ a, cf m c' a = relab s (cf m c a)

/-- There are such coefficients. -/
theorem renum_exists (s : Equiv.Perm (Fin (K + 1))) (c : Fin (∑ l ∈ Finset.range K, (fun _ => m) l) → ℝ) : ∃ c', Renum m s c c' := by
  let E := Equiv.ofBijective _ (at_bij (w := fun _ : ℕ => m) (K := K))
  refine ⟨fun i => relab s (cf m c (E.symm i).2) (E.symm i).1, fun a => funext fun k => ?_⟩
  have : E.symm (at' (K := K) (fun _ => m) ⟨k, a⟩) = ⟨k, a⟩ := E.symm_apply_apply _
  show relab s (cf m c (E.symm (at' (K := K) (fun _ => m) ⟨k, a⟩)).2) (E.symm (at' (K := K) (fun _ => m) ⟨k, a⟩)).1 = _
  rw [this]

/-- Predictors of an observation. -/
def et (m : ℕ) (Z : Fin n → ℕ → ℝ) (c : Fin (∑ l ∈ Finset.range K, (fun _ => m) l) → ℝ) (o : Fin n) : Fin K → ℝ :=
  EtaBeta.etaOf (K := K) (fun _ => m) (fun _ => Z) (blk (fun _ => m) c) o

theorem et_eq (c : Fin (∑ l ∈ Finset.range K, (fun _ => m) l) → ℝ) (o : Fin n) (k : Fin K) : et m Z c o k = ∑ a : Fin m, Z o a * cf m c a k := rfl

theorem all_et (c : Fin (∑ l ∈ Finset.range K, (fun _ => m) l) → ℝ) (o : Fin n) (k : Fin (K + 1)) :
    all (et m Z c o) k = ∑ a : Fin m, Z o a * all (cf m c a) k := by
  refine Fin.cases ?_ (fun j => ?_) k
  · simp [all]
  · exact et_eq c o j

theorem renum_et {s : Equiv.Perm (Fin (K + 1))} {c c' : Fin (∑ l ∈ Finset.range K, (fun _ => m) l) → ℝ} (h : Renum m s c c') (o : Fin n) :
    et m Z c' o = relab s (et m Z c o) := by
  funext k
  rw [et_eq]
  unfold relab
  rw [all_et, all_et, ← Finset.sum_sub_distrib]
  refine Finset.sum_congr rfl fun a _ => ?_
  rw [h a]
  unfold relab
  ring

/-- C137.  The log-likelihood of the renumbered model. -/
theorem llk_same {s : Equiv.Perm (Fin (K + 1))} {c c' : Fin (∑ l ∈ Finset.range K, (fun _ => m) l) → ℝ} (h : Renum m s c c')
    (y : Fin n → Fin (K + 1)) :
    EtaBeta.llk (EtaBeta.mnFam K) (fun _ => m) (fun _ => Z) (num fun o => s (y o)) (blk (fun _ => m) c') =
      EtaBeta.llk (EtaBeta.mnFam K) (fun _ => m) (fun _ => Z) (num y) (blk (fun _ => m) c) := by
  unfold EtaBeta.llk
  refine Finset.sum_congr rfl fun o _ => ?_
  have e := renum_et (Z := Z) h o
  unfold et at e
  have := density s (et m Z c o) (y o)
  rw [← renum_et h] at this
  exact this

/-! ### Final coefficients -/

theorem P1_eq (e : Fin K → ℝ) (c : Fin (K + 1)) (k : Fin K) :
    Invar.P1 (EtaBeta.mnFam K) (c : ℕ) e k = (if c = k.succ then 1 else 0) - Real.exp (all e k.succ) / tot e := by
  have h1 : (EtaBeta.mnFam K).dEta = true := rfl
  unfold Invar.P1
  simp only [EtaBeta.etaDerivs, h1, if_true, EtaBeta.mn_mus]
  rw [List.getD_eq_getElem?_getD, List.getElem?_eq_getElem (by simp)]
  simp only [List.getElem_map, List.getElem_finRange, Fin.cast_mk, Fin.eta, Option.getD_some, EtaBeta.mnFam, Lss.mnD1, k.isLt, dif_pos,
    Nat.floor_natCast]
  have e1 : ((c : ℕ) = k.val + 1) = (c = k.succ) := propext (by rw [Fin.ext_iff, Fin.val_succ])
  simp only [e1]
  show -(Lss.muOf e k / Lss.norm (Lss.muOf e)) + _ = _
  have e2 : Lss.norm (Lss.muOf e) = tot e := by rw [tot_eq, add_comm]; rfl
  rw [e2]
  show -(Real.exp (e k) / tot e) + _ = _ - Real.exp (e k) / tot e
  ring

theorem P2_eq (y : ℝ) (e : Fin K → ℝ) (k : Fin K) :
    Invar.P2s (EtaBeta.mnFam K) y e k k = -(Real.exp (e k) / tot e) * (1 - Real.exp (e k) / tot e) := by
  have h1 : (EtaBeta.mnFam K).dEta = true := rfl
  unfold Invar.P2s Invar.P2
  rw [if_pos le_rfl, if_pos rfl]
  simp only [EtaBeta.etaDerivs, h1, if_true, EtaBeta.mn_mus]
  rw [List.getD_eq_getElem?_getD, List.getElem?_eq_getElem (by simp)]
  simp only [List.getElem_map, List.getElem_finRange, Fin.cast_mk, Fin.eta, Option.getD_some, EtaBeta.mnFam, Lss.mnD2, k.isLt, dif_pos]
  show -(Lss.muOf e k / Lss.norm (Lss.muOf e)) + Lss.muOf e k ^ 2 / Lss.norm (Lss.muOf e) ^ 2 = _
  have e2 : Lss.norm (Lss.muOf e) = tot e := by rw [tot_eq, add_comm]; rfl
  rw [e2]
  show -(Real.exp (e k) / tot e) + Real.exp (e k) ^ 2 / tot e ^ 2 = _
  ring

/-- What the fit needs: a Cholesky factorisation, stored patterns, a penalty matrix without negative diagonal, no column of zeros. -/
structure Ok (m : ℕ) (Z : Fin n → ℕ → ℝ) (y : Fin n → Fin (K + 1)) (stored : ℕ → ℕ → ℕ → List ℕ)
    (S : Matrix (Fin (∑ l ∈ Finset.range K, (fun _ => m) l)) (Fin (∑ l ∈ Finset.range K, (fun _ => m) l)) ℝ)
    (chol : Matrix (Fin (∑ l ∈ Finset.range K, (fun _ => m) l)) (Fin (∑ l ∈ Finset.range K, (fun _ => m) l)) ℝ →
      Option (Matrix (Fin (∑ l ∈ Finset.range K, (fun _ => m) l)) (Fin (∑ l ∈ Finset.range K, (fun _ => m) l)) ℝ ×
        Equiv.Perm (Fin (∑ l ∈ Finset.range K, (fun _ => m) l)))) : Prop where
  spec : Newton.CholSpec chol
  holds : Holds (EtaBeta.mnFam K) (fun _ => m) (fun _ => Z) (num y) stored
  symm : S.IsSymm
  diag : ∀ i, 0 ≤ S i i
  cols : ∀ a : Fin m, ∃ o, Z o a ≠ 0

variable {y : Fin n → Fin (K + 1)}

theorem Ok.fits (h : Ok m Z y stored S chol) (c : Fin (∑ l ∈ Finset.range K, (fun _ => m) l) → ℝ) :
    Ifc.Fits (EtaBeta.mnFam K) (fun _ => m) (fun _ => Z) (num y) stored S chol noise c := by
  refine ⟨h.spec, h.holds, h.symm, fun i => ?_⟩
  obtain ⟨q, rfl⟩ := at_bij.2 i
  have H := Invar.hess_at h.holds (blk (fun _ => m) c) q q
  rw [show (lssIn (EtaBeta.mnFam K) (fun _ => m) (fun _ => Z) (num y) stored S chol noise).hess c (at' _ q) (at' _ q) = _ from H]
  obtain ⟨o, ho⟩ := h.cols q.2
  have h1 : ∀ o, 0 < Real.exp (et m Z c o q.1) / tot (et m Z c o) := fun o => div_pos (Real.exp_pos _) (tot_pos _)
  have h2 : ∀ o, 0 < 1 - Real.exp (et m Z c o q.1) / tot (et m Z c o) := fun o => by
    rw [sub_pos, div_lt_one (tot_pos _), tot_eq]
    have := Finset.single_le_sum (f := fun k => Real.exp (et m Z c o k)) (fun _ _ => (Real.exp_pos _).le) (Finset.mem_univ q.1)
    linarith
  have h3 : ∀ o, Invar.P2s (EtaBeta.mnFam K) (num y o) (EtaBeta.etaOf (K := K) (fun _ => m) (fun _ => Z) (blk (fun _ => m) c) o) q.1 q.1 * Z o q.2 * Z o q.2 =
      -(Real.exp (et m Z c o q.1) / tot (et m Z c o) * (1 - Real.exp (et m Z c o q.1) / tot (et m Z c o)) * (Z o q.2) ^ 2) := fun o => by
    rw [show EtaBeta.etaOf (K := K) (fun _ => m) (fun _ => Z) (blk (fun _ => m) c) o = et m Z c o from rfl, P2_eq]
    ring
  simp only [h3, Finset.sum_neg_distrib, neg_neg]
  have h4 : 0 < ∑ o, Real.exp (et m Z c o q.1) / tot (et m Z c o) * (1 - Real.exp (et m Z c o q.1) / tot (et m Z c o)) * (Z o q.2) ^ 2 :=
    Finset.sum_pos' (fun o _ => mul_nonneg (mul_pos (h1 o) (h2 o)).le (sq_nonneg _))
      ⟨o, Finset.mem_univ _, mul_pos (mul_pos (h1 o) (h2 o)) (by positivity)⟩
  have := h.diag (at' (fun _ => m) q)
  linarith

/-- Score of a class (the reference class included) for a column. -/
noncomputable def score (Z : Fin n → ℕ → ℝ) (y : Fin n → Fin (K + 1)) (e : Fin n → Fin K → ℝ) (k : Fin (K + 1)) (a : ℕ) : ℝ :=
  ∑ o, ((if y o = k then 1 else 0) - Real.exp (all (e o) k) / tot (e o)) * Z o a

theorem score_sum (e : Fin n → Fin K → ℝ) (a : ℕ) : ∑ k, score Z y e k a = 0 := by
  unfold score
  rw [Finset.sum_comm]
  refine Finset.sum_eq_zero fun o _ => ?_
  rw [← Finset.sum_mul, Finset.sum_sub_distrib, ← Finset.sum_div]
  rw [show ∑ k, Real.exp (all (e o) k) = tot (e o) from rfl, div_self (tot_pos _).ne']
  simp

theorem score_relab (s : Equiv.Perm (Fin (K + 1))) (e : Fin n → Fin K → ℝ) (k : Fin (K + 1)) (a : ℕ) :
    score Z (fun o => s (y o)) (fun o => relab s (e o)) k a = score Z y e (s.symm k) a := by
  unfold score
  refine Finset.sum_congr rfl fun o _ => ?_
  rw [all_relab, tot_relab, Real.exp_sub]
  have h1 : (s (y o) = k) = (y o = s.symm k) := propext (by rw [Equiv.eq_symm_apply])
  simp only [h1]
  have := Real.exp_pos (all (e o) (s.symm 0))
  have := tot_pos (e o)
  field_simp

/-- Row of the penalty for the coefficient of column `a` of predictor `k`. -/
def pen (S : Matrix (Fin (∑ l ∈ Finset.range K, (fun _ => m) l)) (Fin (∑ l ∈ Finset.range K, (fun _ => m) l)) ℝ) (b : Fin m → Fin K → ℝ)
    (k : Fin K) (a : Fin m) : ℝ :=
  ∑ q' : Σ _ : Fin K, Fin m, S (at' (K := K) (fun _ => m) ⟨k, a⟩) (at' (K := K) (fun _ => m) q') * b q'.2 q'.1

theorem pen_neg (b : Fin m → Fin K → ℝ) (k : Fin K) (a : Fin m) : pen S (-b) k a = -pen S b k a := by
  unfold pen
  rw [← Finset.sum_neg_distrib]
  exact Finset.sum_congr rfl fun q _ => mul_neg _ _

theorem pen_ridge (l : ℝ) (b : Fin m → Fin K → ℝ) (k : Fin K) (a : Fin m) :
    pen (l • (1 : Matrix (Fin (∑ l ∈ Finset.range K, (fun _ => m) l)) (Fin (∑ l ∈ Finset.range K, (fun _ => m) l)) ℝ)) b k a = l * b a k := by
  unfold pen
  rw [Fintype.sum_eq_single (⟨k, a⟩ : Σ _ : Fin K, Fin m)]
  · simp
  · intro q hq
    have : at' (K := K) (fun _ => m) ⟨k, a⟩ ≠ at' (K := K) (fun _ => m) q := fun h => hq (at_bij.1 h).symm
    simp [Matrix.one_apply_ne this]

theorem step_iff (h : Ok m Z y stored S chol) (c : Fin (∑ l ∈ Finset.range K, (fun _ => m) l) → ℝ) :
    step (lssIn (EtaBeta.mnFam K) (fun _ => m) (fun _ => Z) (num y) stored S chol noise) c = c ↔
      ∀ (k : Fin K) (a : Fin m), score Z y (et m Z c) k.succ a = pen S (cf m c) k a := by
  rw [Ifc.lss_step_iff (h.fits c)]
  have e : ∀ (k : Fin K) (a : Fin m), ∑ o, Invar.P1 (EtaBeta.mnFam K) (num y o)
      (EtaBeta.etaOf (K := K) (fun _ => m) (fun _ => Z) (blk (fun _ => m) c) o) k * Z o a = score Z y (et m Z c) k.succ a := fun k a =>
    Finset.sum_congr rfl fun o _ => by rw [show num y o = ((y o : ℕ) : ℝ) from rfl, P1_eq]; rfl
  constructor
  · intro H k a
    rw [← e]
    exact H ⟨k, a⟩
  · rintro H ⟨k, a⟩
    exact (e k a).trans (H k a)

/-- C137, part: without penalties, coefficients are final for the renumbered model if and only if they belong to final coefficients. Missing: models
with penalties (`penalised_wrong`); for two classes see `two_classes`. -/
theorem final_partial {s : Equiv.Perm (Fin (K + 1))} {c c' : Fin (∑ l ∈ Finset.range K, (fun _ => m) l) → ℝ} (h : Renum m s c c')
    (h1 : Ok m Z y stored 0 chol) (h2 : Ok m Z (fun o => s (y o)) stored 0 chol) :
    step (lssIn (EtaBeta.mnFam K) (fun _ => m) (fun _ => Z) (num fun o => s (y o)) stored 0 chol noise) c' = c' ↔
      step (lssIn (EtaBeta.mnFam K) (fun _ => m) (fun _ => Z) (num y) stored 0 chol noise) c = c := by
  have key : ∀ {y : Fin n → Fin (K + 1)} (_ : Ok m Z y stored 0 chol) (c : Fin (∑ l ∈ Finset.range K, (fun _ => m) l) → ℝ),
      step (lssIn (EtaBeta.mnFam K) (fun _ => m) (fun _ => Z) (num y) stored 0 chol noise) c = c ↔
        ∀ (k : Fin (K + 1)) (a : Fin m), score Z y (et m Z c) k a = 0 := by
    intro y hy c
    rw [step_iff hy c]
    have hz : ∀ (b : Fin m → Fin K → ℝ) k a,
        pen (0 : Matrix (Fin (∑ l ∈ Finset.range K, (fun _ => m) l)) (Fin (∑ l ∈ Finset.range K, (fun _ => m) l)) ℝ) b k a = 0 := fun b k a =>
      Finset.sum_eq_zero fun q _ => zero_mul _
    simp only [hz]
    refine ⟨fun H k a => ?_, fun H k a => H _ a⟩
    refine Fin.cases ?_ (fun k => H k a) k
    have := score_sum (Z := Z) (y := y) (et m Z c) a
    rw [Fin.sum_univ_succ, Finset.sum_eq_zero fun k _ => H k a, add_zero] at this
    exact this
  rw [key h1, key h2]
  have e : et m Z c' = fun o => relab s (et m Z c o) := funext fun o => renum_et h o
  rw [e]
  simp only [score_relab]
  exact ⟨fun H k a => by have := H (s k) a; rwa [Equiv.symm_apply_apply] at this, fun H k a => H _ a⟩

end model

/-- C137.  Two classes: also with penalties. -/
theorem two_classes {n m : ℕ} {Z : Fin n → ℕ → ℝ} {stored : ℕ → ℕ → ℕ → List ℕ}
    {S : Matrix (Fin (∑ l ∈ Finset.range 1, (fun _ => m) l)) (Fin (∑ l ∈ Finset.range 1, (fun _ => m) l)) ℝ}
    {chol : Matrix (Fin (∑ l ∈ Finset.range 1, (fun _ => m) l)) (Fin (∑ l ∈ Finset.range 1, (fun _ => m) l)) ℝ →
      Option (Matrix (Fin (∑ l ∈ Finset.range 1, (fun _ => m) l)) (Fin (∑ l ∈ Finset.range 1, (fun _ => m) l)) ℝ ×
        Equiv.Perm (Fin (∑ l ∈ Finset.range 1, (fun _ => m) l)))}
    {noise : ℕ → Fin (∑ l ∈ Finset.range 1, (fun _ => m) l) → ℝ} {y : Fin n → Fin 2} {s : Equiv.Perm (Fin 2)}
    {c c' : Fin (∑ l ∈ Finset.range 1, (fun _ => m) l) → ℝ} (h : Renum m s c c') (h1 : Ok m Z y stored S chol)
    (h2 : Ok m Z (fun o => s (y o)) stored S chol) :
    step (lssIn (EtaBeta.mnFam 1) (fun _ => m) (fun _ => Z) (num fun o => s (y o)) stored S chol noise) c' = c' ↔
      step (lssIn (EtaBeta.mnFam 1) (fun _ => m) (fun _ => Z) (num y) stored S chol noise) c = c := by
  have e : et m Z c' = fun o => relab s (et m Z c o) := funext fun o => renum_et h o
  have ec : cf m c' = fun a => relab s (cf m c a) := funext h
  rw [step_iff h1, step_iff h2, e, ec]
  simp only [score_relab]
  have hs : ∀ s : Equiv.Perm (Fin 2), s = 1 ∨ s = Equiv.swap 0 1 := by decide
  rcases hs s with rfl | rfl
  · have e1 : (fun a => relab (1 : Equiv.Perm (Fin 2)) (cf m c a)) = cf m c := funext fun a => funext fun k => by
      show all (cf m c a) k.succ - all (cf m c a) 0 = _
      exact sub_zero _
    rw [e1]
    rfl
  · have e1 : (fun a => relab (Equiv.swap (0 : Fin 2) 1) (cf m c a)) = -cf m c := funext fun a => funext fun k => by
      obtain rfl := Fin.fin_one_eq_zero k
      show all (cf m c a) ((Equiv.swap (0 : Fin 2) 1).symm 1) - all (cf m c a) ((Equiv.swap (0 : Fin 2) 1).symm 0) = _
      rw [Equiv.symm_swap, Equiv.swap_apply_left, Equiv.swap_apply_right]
      exact zero_sub _
    have e2 : ∀ a, score Z y (et m Z c) 0 a = -score Z y (et m Z c) 1 a := fun a => by
      have := score_sum (Z := Z) (y := y) (et m Z c) a
      rw [Fin.sum_univ_two] at this
      linarith
    have e3 : ∀ k : Fin 1, (Equiv.swap (0 : Fin 2) 1).symm k.succ = 0 := fun k => by
      obtain rfl := Fin.fin_one_eq_zero k
      rw [Equiv.symm_swap]
      exact Equiv.swap_apply_right _ _
    have e4 : ∀ k : Fin 1, k.succ = (1 : Fin 2) := fun k => by obtain rfl := Fin.fin_one_eq_zero k; rfl
    rw [e1]
    refine forall_congr' fun k => forall_congr' fun a => ?_
    have e5 : score Z y (et m Z c) ((Equiv.swap (0 : Fin 2) 1).symm k.succ) a = -score Z y (et m Z c) k.succ a := by
      rw [e3, e4]
      exact e2 a
    rw [pen_neg, e5, neg_inj]

/-- Three observations of class 1, one of class 2. -/
def y4 : Fin 4 → Fin 3 := ![1, 1, 1, 2]

/-- C137 fails with penalties: intercepts with a ridge penalty, final coefficients (log 2, 0); after exchanging classes 0 and 1 the same probabilities
are not final (the penalty shrinks towards the probability of the reference class). -/
theorem penalised_wrong {stored : ℕ → ℕ → ℕ → List ℕ}
    {chol : Matrix (Fin (∑ l ∈ Finset.range 2, (fun _ => 1) l)) (Fin (∑ l ∈ Finset.range 2, (fun _ => 1) l)) ℝ →
      Option (Matrix (Fin (∑ l ∈ Finset.range 2, (fun _ => 1) l)) (Fin (∑ l ∈ Finset.range 2, (fun _ => 1) l)) ℝ ×
        Equiv.Perm (Fin (∑ l ∈ Finset.range 2, (fun _ => 1) l)))}
    {noise : ℕ → Fin (∑ l ∈ Finset.range 2, (fun _ => 1) l) → ℝ} {c c' : Fin (∑ l ∈ Finset.range 2, (fun _ => 1) l) → ℝ}
    (hc : cf 1 c = fun _ => ![Real.log 2, 0]) (h : Renum 1 (Equiv.swap 0 1) c c')
    (h1 : Ok 1 (fun _ _ => 1) y4 stored ((1 / Real.log 2) • 1) chol)
    (h2 : Ok 1 (fun _ _ => 1) (fun o => Equiv.swap 0 1 (y4 o)) stored ((1 / Real.log 2) • 1) chol) :
    step (lssIn (EtaBeta.mnFam 2) (fun _ => 1) (fun _ _ _ => 1) (num y4) stored ((1 / Real.log 2) • 1) chol noise) c = c ∧
      step (lssIn (EtaBeta.mnFam 2) (fun _ => 1) (fun _ _ _ => 1) (num fun o => Equiv.swap 0 1 (y4 o)) stored ((1 / Real.log 2) • 1) chol noise) c' ≠
        c' := by
  have hl : 0 < Real.log 2 := Real.log_pos one_lt_two
  have e0 : ∀ o : Fin 4, et 1 (fun _ _ => 1) c o = ![Real.log 2, 0] := fun o => funext fun k => by
    rw [et_eq, hc, Fin.sum_univ_one, one_mul]
  have ht : tot ![Real.log 2, 0] = 4 := by
    rw [tot_eq, Fin.sum_univ_two]
    simp only [Matrix.cons_val_zero, Matrix.cons_val_one, Real.exp_zero, Real.exp_log two_pos]
    norm_num
  have sc : ∀ k : Fin 3, score (fun _ _ => 1) y4 (et 1 (fun (_ : Fin 4) _ => 1) c) k 0 =
      (if k = 1 then 3 else if k = 2 then 1 else 0) - Real.exp (all ![Real.log 2, 0] k) := by
    intro k
    unfold score
    simp only [e0, ht, mul_one, Fin.sum_univ_four]
    fin_cases k <;> simp [y4] <;> ring
  rw [ne_eq, step_iff h1, step_iff h2]
  constructor
  · intro k a
    obtain rfl := Fin.fin_one_eq_zero a
    rw [pen_ridge, hc]
    refine (sc k.succ).trans ?_
    fin_cases k
    · show (3 : ℝ) - Real.exp (Real.log 2) = 1 / Real.log 2 * Real.log 2
      rw [Real.exp_log two_pos, one_div_mul_cancel hl.ne']
      norm_num
    · show (1 : ℝ) - Real.exp 0 = 1 / Real.log 2 * 0
      simp
  · intro H
    have e : et 1 (fun (_ : Fin 4) _ => 1) c' = fun o => relab (Equiv.swap 0 1) (et 1 (fun _ _ => 1) c o) := funext fun o => renum_et h o
    have H1 := H 1 0
    rw [pen_ridge, e, score_relab, h 0, hc] at H1
    have s1 : (Equiv.swap (0 : Fin 3) 1).symm (Fin.succ 1) = 2 := by decide
    have s2 : relab (Equiv.swap (0 : Fin 3) 1) ![Real.log 2, 0] 1 = -Real.log 2 := by
      show all ![Real.log 2, 0] ((Equiv.swap (0 : Fin 3) 1).symm 2) - all ![Real.log 2, 0] ((Equiv.swap (0 : Fin 3) 1).symm 0) = _
      rw [show (Equiv.swap (0 : Fin 3) 1).symm 2 = 2 by decide, show (Equiv.swap (0 : Fin 3) 1).symm 0 = 1 by decide]
      exact zero_sub _
    rw [s1, s2] at H1
    have H2 := (sc 2).symm.trans H1
    have s3 : Real.exp (all ![Real.log 2, 0] 2) = 1 := Real.exp_zero
    rw [s3, if_neg (by decide), if_pos rfl, mul_neg, one_div_mul_cancel hl.ne'] at H2
    norm_num at H2

end Verif.Cls
