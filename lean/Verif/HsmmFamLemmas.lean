import Verif.HsmmFamModel
import Verif.HsmmFtp
import Verif.Lss
import Mathlib.Algebra.BigOperators.Fin

/-! Helper lemmas for the class of hidden semi-Markov models: derivatives of the tables in one coefficient. -/

namespace Verif.HFam

open Hsmm Finset

/-- The derivatives used by the gradient code are the partial derivatives of the log density in the predictors. -/
def Fam.Ok (f : Fam) : Prop :=
  ∀ i e par, par < f.n_par → HasDerivAt (fun x => f.lp i (Function.update e par x)) (f.d1 i e par) (e par)

/-- Coefficients with column `c` of formula `k` set to `θ`. -/
def upd (β : Coef) (k : Key) (c : ℕ) (θ : ℝ) : Coef := fun k' c' => if k' = k ∧ c' = c then θ else β k' c'

theorem upd_self (β : Coef) (k : Key) (c : ℕ) : upd β k c (β k c) = β := by
  funext k' c'
  unfold upd
  split_ifs with h
  · rw [h.1, h.2]
  · rfl

variable (h : Model) (β : Coef) (k : Key) (c : ℕ)

theorem eta_const (k' : Key) (hk : k' ≠ k) (θ : ℝ) (t : ℕ) : eta h (upd β k c θ) k' t = eta h β k' t := by
  unfold eta upd
  refine sum_congr rfl fun c' _ => ?_
  rw [if_neg (fun hc => hk hc.1)]

theorem eta_deriv (hc : c < h.p k) (k' : Key) (t : ℕ) :
    HasDerivAt (fun θ => eta h (upd β k c θ) k' t) (if k' = k then h.X k t c else 0) (β k c) := by
  by_cases hk : k' = k
  · subst hk
    rw [if_pos rfl]
    have e : (fun θ => eta h (upd β k' c θ) k' t) = fun θ => ∑ c' ∈ range (h.p k'),
        h.X k' t c' * (if c' = c then θ else β k' c') := by
      funext θ
      unfold eta upd
      simp only [true_and]
    rw [e]
    have h1 : HasDerivAt (fun θ => ∑ c' ∈ range (h.p k'), h.X k' t c' * (if c' = c then θ else β k' c'))
        (∑ c' ∈ range (h.p k'), h.X k' t c' * (if c' = c then 1 else 0)) (β k' c) := by
      refine HasDerivAt.fun_sum fun c' _ => ?_
      by_cases hcc : c' = c
      · simp only [hcc, if_true]; exact (hasDerivAt_id _).const_mul _
      · simp only [hcc, if_false]; exact (hasDerivAt_const _ _).const_mul _
    refine h1.congr_deriv ?_
    rw [sum_eq_single c]
    · rw [if_pos rfl, mul_one]
    · intro c' _ hne
      rw [if_neg hne, mul_zero]
    · intro hn
      exact absurd (mem_range.2 hc) hn
  · rw [if_neg hk]
    have e : (fun θ => eta h (upd β k c θ) k' t) = fun _ => eta h β k' t := funext fun θ => eta_const h β k c k' hk θ t
    rw [e]
    exact hasDerivAt_const _ _

/-- Chain rule when at most one predictor moves. -/
theorem lp_sum (f : Fam) (hf : f.Ok) (i : ℕ) (e : ℝ → ℕ → ℝ) (θ0 : ℝ) (q0 : ℕ) (x : ℕ → ℝ)
    (hd : ∀ par < f.n_par, HasDerivAt (fun θ => e θ par) (x par) θ0)
    (hx : ∀ par, par ≠ q0 → x par = 0)
    (hc : ∀ par, par ≠ q0 ∨ f.n_par ≤ par → ∀ θ, e θ par = e θ0 par) :
    HasDerivAt (fun θ => f.lp i (e θ)) (∑ par ∈ range f.n_par, f.d1 i (e θ0) par * x par) θ0 := by
  by_cases hq : q0 < f.n_par
  · have e1 : (fun θ => f.lp i (e θ)) = fun θ => f.lp i (Function.update (e θ0) q0 (e θ q0)) := by
      funext θ
      congr 1
      funext par
      by_cases hp : par = q0
      · subst hp; simp
      · rw [Function.update_of_ne hp]
        exact hc par (Or.inl hp) θ
    rw [e1, sum_eq_single q0]
    · exact (hf i (e θ0) q0 hq).comp θ0 (hd q0 hq)
    · intro par _ hp
      rw [hx par hp, mul_zero]
    · intro hn
      exact absurd (mem_range.2 hq) hn
  · have e1 : (fun θ => f.lp i (e θ)) = fun _ => f.lp i (e θ0) := by
      funext θ
      congr 1
      funext par
      refine hc par ?_ θ
      by_cases hp : par = q0
      · right; omega
      · exact Or.inl hp
    rw [e1, sum_eq_zero]
    · exact hasDerivAt_const _ _
    · intro par hp
      rw [hx par (by have := mem_range.1 hp; omega), mul_zero]

/-- Parameter a formula belongs to. -/
def keyPar : Key → ℕ
  | .sh par _ => par
  | .em _ _ par => par
  | .du _ par => par
  | .tr _ par => par
  | .ini par => par

/-! ### Emissions -/

/-- Derivative of `emEta`. -/
noncomputable def dEm (j m par t : ℕ) : ℝ :=
  (if Key.em j m par = k then h.X k t c else 0) + (if par < h.n_shared ∧ shKey h par m = k then h.X k t c else 0)

theorem emEta_deriv (hc : c < h.p k) (j m t par : ℕ) (hp : par < (h.obs j m).n_par) :
    HasDerivAt (fun θ => emEta h (upd β k c θ) j m t par) (dEm h k c j m par t) (β k c) := by
  unfold emEta dEm
  simp only [hp, if_true]
  refine (eta_deriv h β k c hc (.em j m par) t).add ?_
  by_cases hs : par < h.n_shared
  · simp only [hs, if_true, true_and]
    exact eta_deriv h β k c hc (shKey h par m) t
  · simp only [hs, if_false, false_and]
    exact hasDerivAt_const _ _

theorem emEta_const (j m t par : ℕ) (hp : par ≠ keyPar k ∨ (h.obs j m).n_par ≤ par) (θ : ℝ) :
    emEta h (upd β k c θ) j m t par = emEta h β j m t par := by
  unfold emEta
  by_cases hn : par < (h.obs j m).n_par
  · have hp' : par ≠ keyPar k := by
      rcases hp with hp | hp
      · exact hp
      · omega
    have h1 : Key.em j m par ≠ k := fun e => hp' (by rw [← e]; rfl)
    have h2 : shKey h par m ≠ k := fun e => hp' (by rw [← e]; rfl)
    rw [eta_const h β k c _ h1, eta_const h β k c _ h2]
  · rw [if_neg hn, if_neg hn]

theorem dEm_zero (j m par t : ℕ) (hp : par ≠ keyPar k) : dEm h k c j m par t = 0 := by
  have h1 : ¬ Key.em j m par = k := fun e => hp (by rw [← e]; rfl)
  have h2 : ¬ shKey h par m = k := fun e => hp (by rw [← e]; rfl)
  unfold dEm
  rw [if_neg h1, if_neg (fun hc => h2 hc.2), add_zero]

/-- Derivative of `bs[t,j]`. -/
noncomputable def dBs (t j : ℕ) : ℝ :=
  bsAt h β t j * ∑ m ∈ range h.M, ∑ par ∈ range (h.obs j m).n_par,
    (h.obs j m).d1 t (emEta h β j m t) par * dEm h k c j m par t

theorem bs_deriv (hc : c < h.p k) (j : ℕ) (hf : ∀ m < h.M, (h.obs j m).Ok) (t : ℕ) :
    HasDerivAt (fun θ => bsAt h (upd β k c θ) t j) (dBs h β k c t j) (β k c) := by
  have h1 : HasDerivAt (fun θ => ∑ m ∈ range h.M, (h.obs j m).lp t (emEta h (upd β k c θ) j m t))
      (∑ m ∈ range h.M, ∑ par ∈ range (h.obs j m).n_par,
        (h.obs j m).d1 t (emEta h β j m t) par * dEm h k c j m par t) (β k c) := by
    refine HasDerivAt.fun_sum fun m hm => ?_
    have := lp_sum (h.obs j m) (hf m (mem_range.1 hm)) t (fun θ => emEta h (upd β k c θ) j m t) (β k c) (keyPar k)
      (fun par => dEm h k c j m par t) (fun par hp => emEta_deriv h β k c hc j m t par hp)
      (fun par hp => dEm_zero h k c j m par t hp)
      (fun par hp θ => by rw [emEta_const h β k c j m t par hp θ, upd_self])
    rw [upd_self] at this
    exact this
  have h2 := h1.exp
  simp only [upd_self] at h2
  exact h2

/-! ### Durations -/

noncomputable def dDu (j par t : ℕ) : ℝ := if Key.du j par = k then h.X k t c else 0

/-- Derivative of the logarithm of the unnormalised duration probabilities. -/
noncomputable def gl (j t d : ℕ) : ℝ :=
  ∑ par ∈ range (h.dur j).n_par, (h.dur j).d1 d (duEta h β j t) par * dDu h k c j par t

theorem rds_deriv (hc : c < h.p k) (j : ℕ) (hf : (h.dur j).Ok) (t d : ℕ) :
    HasDerivAt (fun θ => rds h (upd β k c θ) j t d) (rds h β j t d * gl h β k c j t d) (β k c) := by
  have h1 := lp_sum (h.dur j) hf d (fun θ => duEta h (upd β k c θ) j t) (β k c) (keyPar k)
    (fun par => dDu h k c j par t)
    (fun par hp => by
      simp only [duEta, hp, if_true]
      exact eta_deriv h β k c hc (.du j par) t)
    (fun par hp => by
      unfold dDu
      rw [if_neg]
      exact fun e => hp (by rw [← e]; rfl))
    (fun par hp θ => by
      rw [upd_self]
      unfold duEta
      by_cases hn : par < (h.dur j).n_par
      · have hp' : par ≠ keyPar k := by
          rcases hp with hp | hp
          · exact hp
          · omega
        rw [eta_const h β k c _ (fun e => hp' (by rw [← e]; rfl))]
      · rw [if_neg hn, if_neg hn])
  have h2 := h1.exp
  simp only [upd_self] at h2
  exact h2

theorem norm_pos (hD : 0 < h.D - 1) (j t : ℕ) : 0 < ∑ d' ∈ range (h.D - 1), rds h β j t d' :=
  sum_pos (fun _ _ => Real.exp_pos _) ⟨0, mem_range.2 hD⟩

/-- Derivative of `ds[d,j,t]`. -/
noncomputable def dDs (j t d : ℕ) : ℝ :=
  (rds h β j t d * gl h β k c j t d * (∑ d' ∈ range (h.D - 1), rds h β j t d') -
    rds h β j t d * ∑ d' ∈ range (h.D - 1), rds h β j t d' * gl h β k c j t d') /
      (∑ d' ∈ range (h.D - 1), rds h β j t d') ^ 2

theorem ds_deriv (hD : 0 < h.D - 1) (hc : c < h.p k) (j : ℕ) (hf : (h.dur j).Ok) (t d : ℕ) :
    HasDerivAt (fun θ => dsAt h (upd β k c θ) j t d) (dDs h β k c j t d) (β k c) := by
  have h1 := rds_deriv h β k c hc j hf t d
  have h2 : HasDerivAt (fun θ => ∑ d' ∈ range (h.D - 1), rds h (upd β k c θ) j t d')
      (∑ d' ∈ range (h.D - 1), rds h β j t d' * gl h β k c j t d') (β k c) :=
    HasDerivAt.fun_sum fun d' _ => rds_deriv h β k c hc j hf t d'
  have h3 := h1.fun_div h2 (norm_pos h _ hD j t).ne'
  simp only [upd_self] at h3
  exact h3

/-! ### Multinomial probabilities -/

/-- `MULNOMLSS(K)` as a family. -/
noncomputable def mnFam (K : ℕ) : Fam where
  n_par := K
  lp := fun y e => Lss.mnLp y (Lss.muOf fun q : Fin K => e q)
  d1 := fun y e par => (Lss.mnD1 y (Lss.muOf fun q : Fin K => e q) par).getD 0

theorem mnFam_ok (K : ℕ) : (mnFam K).Ok := by
  intro i e par hp
  obtain ⟨d, hd1, hd2⟩ := Lss.mn_first i (fun q : Fin K => e q) ⟨par, hp⟩
  have e1 : (mnFam K).d1 i e par = d := by
    simp only [mnFam]
    rw [hd1]; rfl
  rw [e1]
  have e2 : (fun x => (mnFam K).lp i (Function.update e par x)) = fun t =>
      Lss.mnLp i (Lss.muOf (Function.update (fun q : Fin K => e q) ⟨par, hp⟩ t)) := by
    funext x
    simp only [mnFam]
    congr 2
    funext q
    by_cases hq : q = ⟨par, hp⟩
    · subst hq; simp
    · rw [Function.update_of_ne hq, Function.update_of_ne]
      exact fun hc => hq (Fin.ext hc)
  rw [e2]
  exact hd2

theorem muOf_pos' {K : ℕ} (e : Fin K → ℝ) : ∀ i, 0 < Lss.muOf e i := Lss.muOf_pos e

theorem mnRow_getElem {K : ℕ} (e : Fin K → ℝ) (y : ℕ) (hy : y < K + 1) :
    (mnRow (Lss.muOf e))[y]? = some (Real.exp (Lss.mnLp y (Lss.muOf e))) := by
  unfold mnRow
  cases y with
  | zero =>
    have := Lss.mnProb_zero (Lss.muOf_pos e)
    unfold Lss.mnProb at this
    simp [this]
  | succ y =>
    have hy' : y < K := by omega
    have := Lss.mnProb_succ (Lss.muOf_pos e) ⟨y, hy'⟩
    unfold Lss.mnProb at this
    simp only [List.getElem?_cons_succ]
    rw [List.getElem?_ofFn, dif_pos hy', this]

theorem lookup_zip {l : List ℕ} {v : List ℝ} (hl : l.Nodup) (i q : ℕ) (x : ℝ) (h1 : l[q]? = some i)
    (h2 : v[q]? = some x) : (l.zip v).lookup i = some x := by
  induction l generalizing v q with
  | nil => simp at h1
  | cons a l ih =>
    cases v with
    | nil => simp at h2
    | cons b v =>
      rw [List.nodup_cons] at hl
      cases q with
      | zero =>
        simp at h1 h2
        subst h1 h2
        simp
      | succ q =>
        simp only [List.getElem?_cons_succ] at h1 h2
        have hne : i ≠ a := by
          rintro rfl
          exact hl.1 (List.mem_of_getElem? h1)
        simp only [List.zip_cons_cons, List.lookup_cons]
        have : (i == a) = false := by simpa using hne
        rw [this]
        exact ih hl.2 q h1 h2

/-- A transition probability is a multinomial probability. -/
theorem TAt_eq (hS : 2 < h.n_S) (t i j : ℕ) (hij : i ≠ j) (hj : j < h.n_S) (hi : i < h.n_S) :
    TAt h β t i j = Real.exp ((mnFam (h.n_S - 2)).lp (tidx h.n_S i j) fun q => eta h β (.tr i q) t) := by
  have hsp := tidx_spec h.n_S i j hij hj
  have hlen : tidx h.n_S i j < h.n_S - 2 + 1 := by
    have h1 := (List.getElem?_eq_some_iff.1 hsp).1
    have h2 : (others h.n_S i).length = h.n_S - 1 := by
      unfold others
      have e : (List.range h.n_S).filter (fun x => decide (x ≠ i)) = (List.range h.n_S).erase i := by
        rw [List.Nodup.erase_eq_filter List.nodup_range]
        congr 1
        funext x
        by_cases hx : x = i <;> simp [hx]
      rw [e, List.length_erase_of_mem (List.mem_range.2 hi), List.length_range]
    omega
  have hrow := mnRow_getElem (fun q : Fin (h.n_S - 2) => eta h β (.tr i q) t) (tidx h.n_S i j) hlen
  have hlook : ((tjIdx h.n_S i).zip (mnRow (muT h β i t))).lookup j = _ :=
    lookup_zip (List.Nodup.filter _ List.nodup_range) j _ _ hsp hrow
  unfold TAt assign
  rw [if_pos hS, hlook]
  rfl

theorem piAt_eq (j : ℕ) (hj : j < h.n_S) :
    piAt h β j = Real.exp ((mnFam (h.n_S - 1)).lp j fun q => eta h β (.ini q) 0) := by
  have hrow := mnRow_getElem (fun q : Fin (h.n_S - 1) => eta h β (.ini q) 0) j (by omega)
  unfold piAt
  rw [List.getD_eq_getElem?_getD]
  have e : (mnRow (muPi h β))[j]? = some (Real.exp ((mnFam (h.n_S - 1)).lp j fun q => eta h β (.ini q) 0)) := hrow
  rw [e]; rfl

noncomputable def dTr (i par t : ℕ) : ℝ := if Key.tr i par = k then h.X k t c else 0
noncomputable def dIni (par : ℕ) : ℝ := if Key.ini par = k then h.X k 0 c else 0

/-- Derivative of `T[i,j,t]`. -/
noncomputable def dT (t i j : ℕ) : ℝ :=
  if 2 < h.n_S then
    TAt h β t i j * ∑ par ∈ range (h.n_S - 2), (Lss.mnD1 (tidx h.n_S i j) (muT h β i t) par).getD 0 * dTr h k c i par t
  else 0

/-- Derivative of `pi[j]`. -/
noncomputable def dPi (j : ℕ) : ℝ :=
  piAt h β j * ∑ par ∈ range (h.n_S - 1), (Lss.mnD1 j (muPi h β) par).getD 0 * dIni h k c par

theorem mn_move (K : ℕ) (mk : ℕ → Key) (hmk : ∀ par, keyPar (mk par) = par) (hc : c < h.p k) (y t : ℕ) :
    HasDerivAt (fun θ => (mnFam K).lp y fun q => if q < K then eta h (upd β k c θ) (mk q) t else 0)
      (∑ par ∈ range K, (mnFam K).d1 y (fun q => if q < K then eta h β (mk q) t else 0) par *
        (if mk par = k then h.X k t c else 0)) (β k c) := by
  have h1 := lp_sum (mnFam K) (mnFam_ok K) y (fun θ q => if q < K then eta h (upd β k c θ) (mk q) t else 0) (β k c)
    (keyPar k) (fun par => if mk par = k then h.X k t c else 0)
    (fun par hp => by
      have hp' : par < K := hp
      simp only [hp', if_true]
      exact eta_deriv h β k c hc (mk par) t)
    (fun par hp => by
      rw [if_neg]
      exact fun e => hp (by rw [← e, hmk]))
    (fun par hp θ => by
      rw [upd_self]
      by_cases hn : par < K
      · have hp' : par ≠ keyPar k := by
          rcases hp with hp | hp
          · exact hp
          · have : K ≤ par := hp
            omega
        rw [if_pos hn, if_pos hn, eta_const h β k c _ (fun e => hp' (by rw [← e, hmk]))]
      · rw [if_neg hn, if_neg hn])
  simp only [upd_self] at h1
  exact h1

theorem mnFam_lp_trunc (K y : ℕ) (e : ℕ → ℝ) : (mnFam K).lp y (fun q => if q < K then e q else 0) = (mnFam K).lp y e := by
  simp only [mnFam]
  congr 2
  funext q
  rw [if_pos q.isLt]

theorem mnFam_d1_trunc (K y par : ℕ) (e : ℕ → ℝ) :
    (mnFam K).d1 y (fun q => if q < K then e q else 0) par = (mnFam K).d1 y e par := by
  simp only [mnFam]
  congr 3
  funext q
  rw [if_pos q.isLt]

theorem T_deriv (hc : c < h.p k) (t i j : ℕ) (hij : i ≠ j) (hj : j < h.n_S) (hi : i < h.n_S) :
    HasDerivAt (fun θ => TAt h (upd β k c θ) t i j) (dT h β k c t i j) (β k c) := by
  by_cases hS : 2 < h.n_S
  · have e : (fun θ => TAt h (upd β k c θ) t i j) = fun θ =>
        Real.exp ((mnFam (h.n_S - 2)).lp (tidx h.n_S i j) fun q =>
          if q < h.n_S - 2 then eta h (upd β k c θ) (.tr i q) t else 0) := by
      funext θ
      rw [TAt_eq h _ hS t i j hij hj hi, mnFam_lp_trunc]
    rw [e]
    refine (mn_move h β k c (h.n_S - 2) (.tr i) (fun _ => rfl) hc (tidx h.n_S i j) t).exp.congr_deriv ?_
    unfold dT
    rw [if_pos hS, TAt_eq h β hS t i j hij hj hi, upd_self, mnFam_lp_trunc]
    congr 1
    refine sum_congr rfl fun par _ => ?_
    rw [mnFam_d1_trunc]
    rfl
  · have e : (fun θ => TAt h (upd β k c θ) t i j) = fun _ => TAt h β t i j := by
      funext θ
      unfold TAt
      rw [if_neg hS, if_neg hS]
    rw [e]
    unfold dT
    rw [if_neg hS]
    exact hasDerivAt_const _ _

theorem pi_deriv (hc : c < h.p k) (j : ℕ) (hj : j < h.n_S) :
    HasDerivAt (fun θ => piAt h (upd β k c θ) j) (dPi h β k c j) (β k c) := by
  have e : (fun θ => piAt h (upd β k c θ) j) = fun θ =>
      Real.exp ((mnFam (h.n_S - 1)).lp j fun q => if q < h.n_S - 1 then eta h (upd β k c θ) (.ini q) 0 else 0) := by
    funext θ
    rw [piAt_eq h _ j hj, mnFam_lp_trunc]
  rw [e]
  refine (mn_move h β k c (h.n_S - 1) .ini (fun _ => rfl) hc j 0).exp.congr_deriv ?_
  unfold dPi
  rw [piAt_eq h β j hj, upd_self, mnFam_lp_trunc]
  congr 1
  refine sum_congr rfl fun par _ => ?_
  rw [mnFam_d1_trunc]
  rfl

/-! ### All tables -/

/-- Families of the model. -/
def Ok : Prop := (∀ j < h.n_S, ∀ m < h.M, (h.obs j m).Ok) ∧ ∀ j < h.nd, (h.dur j).Ok

/-- Derivatives of the tables in coefficient `(k, c)`. -/
noncomputable def dirKey : Tables ℝ :=
  { tables h β with
    bs2 := dBs h β k c
    ds2 := fun d j => dDs h β k c j 0 d
    ds3 := fun d j t => dDs h β k c j t d
    T2 := fun i j => match h.fixed with
      | some _ => 0
      | none => dT h β k c 0 i j
    T3 := fun i j t => match h.fixed with
      | some _ => 0
      | none => dT h β k c t i j
    pi := fun j => match h.fixed with
      | some _ => 0
      | none => dPi h β k c j }

noncomputable def keyCurve : Curve where
  base := tables h β
  bs2 := fun θ => (tables h (upd β k c θ)).bs2
  bs3 := fun θ => (tables h (upd β k c θ)).bs3
  ds2 := fun θ => (tables h (upd β k c θ)).ds2
  ds3 := fun θ => (tables h (upd β k c θ)).ds3
  T2 := fun θ => (tables h (upd β k c θ)).T2
  T3 := fun θ => (tables h (upd β k c θ)).T3
  pi := fun θ => (tables h (upd β k c θ)).pi

theorem keyCurve_at (θ : ℝ) : (keyCurve h β k c).at θ = tables h (upd β k c θ) := rfl

theorem keyCurve_deriv (hok : Ok h) (hD : 0 < h.D - 1) (hc : c < h.p k) :
    HasTabDeriv (keyCurve h β k c) (dirKey h β k c) (β k c) := by
  refine ⟨⟨rfl, rfl, rfl⟩, ?_, ?_, ?_, ?_, ?_⟩
  · intro _ t j hj
    exact bs_deriv h β k c hc j (hok.1 j hj) t
  · intro hm
    exact absurd hm (by simp [keyCurve, tables])
  · intro d j t hd hj
    have hj' : j < h.nd := hj
    cases htv : h.tvdtpi
    · have e1 : (fun θ => ((keyCurve h β k c).at θ).ds d j t) = fun θ => dsAt h (upd β k c θ) j 0 d := by
        funext θ; rw [keyCurve_at]; simp [Tables.ds, tables, htv]
      have e2 : (dirKey h β k c).ds d j t = dDs h β k c j 0 d := by simp [Tables.ds, dirKey, tables, htv]
      rw [e1, e2]
      exact ds_deriv h β k c hD hc j (hok.2 j hj') 0 d
    · have e1 : (fun θ => ((keyCurve h β k c).at θ).ds d j t) = fun θ => dsAt h (upd β k c θ) j t d := by
        funext θ; rw [keyCurve_at]; simp [Tables.ds, tables, htv]
      have e2 : (dirKey h β k c).ds d j t = dDs h β k c j t d := by simp [Tables.ds, dirKey, tables, htv]
      rw [e1, e2]
      exact ds_deriv h β k c hD hc j (hok.2 j hj') t d
  · intro i j t hi hj hij
    have hT := T_deriv h β k c hc
    cases htv : h.tvdtpi <;> cases hfx : h.fixed
    · have e1 : (fun θ => ((keyCurve h β k c).at θ).T i j t) = fun θ => TAt h (upd β k c θ) 0 i j := by
        funext θ; rw [keyCurve_at]; simp [Tables.T, tables, htv, hfx]
      have e2 : (dirKey h β k c).T i j t = dT h β k c 0 i j := by simp [Tables.T, dirKey, tables, htv, hfx]
      rw [e1, e2]
      exact hT 0 i j hij hj hi
    · rename_i f
      have e1 : (fun θ => ((keyCurve h β k c).at θ).T i j t) = fun θ => f.T2 i j := by
        funext θ; rw [keyCurve_at]; simp [Tables.T, tables, htv, hfx]
      have e2 : (dirKey h β k c).T i j t = 0 := by simp [Tables.T, dirKey, tables, htv, hfx]
      rw [e1, e2]
      exact hasDerivAt_const _ _
    · have e1 : (fun θ => ((keyCurve h β k c).at θ).T i j t) = fun θ => TAt h (upd β k c θ) t i j := by
        funext θ; rw [keyCurve_at]; simp [Tables.T, tables, htv, hfx]
      have e2 : (dirKey h β k c).T i j t = dT h β k c t i j := by simp [Tables.T, dirKey, tables, htv, hfx]
      rw [e1, e2]
      exact hT t i j hij hj hi
    · rename_i f
      have e1 : (fun θ => ((keyCurve h β k c).at θ).T i j t) = fun θ => f.T3 i j t := by
        funext θ; rw [keyCurve_at]; simp [Tables.T, tables, htv, hfx]
      have e2 : (dirKey h β k c).T i j t = 0 := by simp [Tables.T, dirKey, tables, htv, hfx]
      rw [e1, e2]
      exact hasDerivAt_const _ _
  · intro j hj
    cases hfx : h.fixed
    · have e1 : (fun θ => ((keyCurve h β k c).at θ).pi j) = fun θ => piAt h (upd β k c θ) j := by
        funext θ; rw [keyCurve_at]; simp [tables, hfx]
      have e2 : (dirKey h β k c).pi j = dPi h β k c j := by simp [dirKey, hfx]
      rw [e1, e2]
      exact pi_deriv h β k c hc j hj
    · rename_i f
      have e1 : (fun θ => ((keyCurve h β k c).at θ).pi j) = fun θ => f.pi j := by
        funext θ; rw [keyCurve_at]; simp [tables, hfx]
      have e2 : (dirKey h β k c).pi j = 0 := by simp [dirKey, hfx]
      rw [e1, e2]
      exact hasDerivAt_const _ _

/-- Derivative of the log-likelihood in one coefficient. -/
theorem llk_deriv (hok : Ok h) (hT : 0 < h.n_T) (hD : 0 < h.D - 1) (hc : c < h.p k)
    (hL : ∀ t < h.n_T, Lam (tables h β) t ≠ 0) :
    HasDerivAt (fun θ => seriesLlk h (upd β k c θ)) (gradDir (tables h β) (dirKey h β k c)) (β k c) := by
  have h1 := llk_hasDerivAt_dir (keyCurve_deriv h β k c hok hD hc) hT (by
    intro s hs
    rw [keyCurve_at, upd_self]
    exact hL s hs)
  rw [keyCurve_at, upd_self] at h1
  exact h1

end Verif.HFam
