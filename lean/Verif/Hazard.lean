import Verif.HazardModel
import Mathlib.Analysis.SpecialFunctions.ExpDeriv
import Mathlib.Analysis.SpecialFunctions.Log.Deriv
import Mathlib.Analysis.Calculus.Deriv.Pow
import Mathlib.Analysis.Convex.Deriv
import Mathlib.Algebra.Order.BigOperators.Ring.Finset
import Mathlib.Algebra.BigOperators.Field

/-! Property theorems: Cox proportional hazard family (C07, C08, C09, C53, C54). -/

namespace Verif.Haz

open Finset

variable {n p : ℕ}

/-- The arguments describe survival data as documented: `ut` holds the unique times in decreasing order, every subject has
a time, every time belongs to a subject. -/
structure Data (nt : ℕ) (ut : ℕ → ℝ) (r : Fin n → ℕ) : Prop where
  anti : ∀ j k, j < k → k < nt → ut k < ut j
  r_lt : ∀ i, r i < nt
  surj : ∀ j < nt, ∃ i, r i = j

/-- Breslow's partial log-likelihood for times `T`, event indicators `delta` and linear predictors `e`. -/
noncomputable def breslow (T : Fin n → ℝ) (delta : Fin n → ℕ) (e : Fin n → ℝ) : ℝ :=
  (∑ i, (delta i : ℝ) * e i) -
    ∑ τ ∈ univ.image T, (∑ i with T i = τ, (delta i : ℝ)) * Real.log (∑ i with τ ≤ T i, Real.exp (e i))

theorem gammaP_eq (r : Fin n → ℕ) (g : Fin n → ℝ) (j : ℕ) : gammaP r g j = ∑ i with r i < j, g i := by
  induction j with
  | zero => simp [gammaP]
  | succ j ih =>
    rw [gammaP, ih, ris]
    rw [← sum_union]
    · congr 1
      ext i
      simp only [mem_union, mem_filter, mem_univ, true_and]
      omega
    · rw [disjoint_left]
      intro i
      simp only [mem_filter, mem_univ, true_and]
      omega

theorem bp_eq (r : Fin n → ℕ) (g : Fin n → ℝ) (X : Fin n → Fin p → ℝ) (j : ℕ) (k : Fin p) :
    bp r g X j k = ∑ i with r i < j, g i * X i k := by
  rw [← gammaP_eq r (fun i => g i * X i k) j]
  induction j with
  | zero => rfl
  | succ j ih => simp only [bp, gammaP]; rw [ih]

theorem Ap_eq (r : Fin n → ℕ) (g : Fin n → ℝ) (X : Fin n → Fin p → ℝ) (j : ℕ) (k l : Fin p) :
    Ap r g X j k l = ∑ i with r i < j, g i * X i k * X i l := by
  rw [← gammaP_eq r (fun i => g i * X i k * X i l) j]
  induction j with
  | zero => rfl
  | succ j ih => simp only [Ap, gammaP]; rw [ih]

theorem llk2_eq (r : Fin n → ℕ) (delta : Fin n → ℕ) (g : Fin n → ℝ) (m : ℕ) :
    llk2 r delta g m = -∑ j ∈ range m, dj r delta j * Real.log (gammaP r g (j + 1)) := by
  induction m with
  | zero => simp [llk2]
  | succ m ih => rw [llk2, ih, sum_range_succ]; ring

/-- Data times of `Data` order like the indices, reversed. -/
theorem Data.le_iff {nt : ℕ} {ut : ℕ → ℝ} {r : Fin n → ℕ} (h : Data nt ut r) {j k : ℕ} (hj : j < nt) (hk : k < nt) :
    ut j ≤ ut k ↔ k ≤ j := by
  constructor
  · intro hle
    by_contra hlt
    exact absurd (h.anti j k (by omega) hk) (not_lt.2 hle)
  · intro hle
    rcases Nat.lt_or_ge k j with h1 | h1
    · exact (h.anti k j h1 hj).le
    · rw [show j = k by omega]

theorem Data.eq_iff {nt : ℕ} {ut : ℕ → ℝ} {r : Fin n → ℕ} (h : Data nt ut r) {j k : ℕ} (hj : j < nt) (hk : k < nt) :
    ut j = ut k ↔ j = k := by
  rw [le_antisymm_iff, h.le_iff hj hk, h.le_iff hk hj]
  omega

/-- C07. The log-likelihood is Breslow's partial log-likelihood of the observed times. -/
theorem llk_eq_breslow (nt : ℕ) (ut : ℕ → ℝ) (r : Fin n → ℕ) (h : Data nt ut r) (delta : Fin n → ℕ) (X : Fin n → Fin p → ℝ)
    (coef : Fin p → ℝ) :
    llk nt r delta X coef = breslow (fun i => ut (r i)) delta (fun i => ∑ k, X i k * coef k) := by
  unfold llk breslow
  rw [llk2_eq, sub_eq_add_neg]
  congr 2
  have himg : univ.image (fun i => ut (r i)) = (range nt).image ut := by
    ext τ
    simp only [mem_image, mem_univ, true_and, mem_range]
    constructor
    · rintro ⟨i, rfl⟩; exact ⟨r i, h.r_lt i, rfl⟩
    · rintro ⟨j, hj, rfl⟩
      obtain ⟨i, rfl⟩ := h.surj j hj
      exact ⟨i, rfl⟩
  rw [himg, sum_image]
  · apply sum_congr rfl
    intro j hj
    rw [mem_range] at hj
    congr 1
    · unfold dj ris
      apply sum_congr
      · ext i
        simp only [mem_filter, mem_univ, true_and]
        exact (h.eq_iff (h.r_lt i) hj).symm
      · intros; rfl
    · rw [gammaP_eq]
      congr 1
      apply sum_congr
      · ext i
        simp only [mem_filter, mem_univ, true_and]
        rw [h.le_iff hj (h.r_lt i)]
        omega
      · intros; rfl
  · intro j hj k hk he
    simp only [coe_range, Set.mem_Iio] at hj hk
    exact (h.eq_iff hj hk).1 he

theorem gam_pos (X : Fin n → Fin p → ℝ) (coef : Fin p → ℝ) (i : Fin n) : 0 < gam X coef i := Real.exp_pos _

theorem gammaP_pos {nt : ℕ} {ut : ℕ → ℝ} {r : Fin n → ℕ} (h : Data nt ut r) (g : Fin n → ℝ) (hg : ∀ i, 0 < g i) (j : ℕ)
    (hj : j < nt) : 0 < gammaP r g (j + 1) := by
  rw [gammaP_eq]
  apply sum_pos (fun i _ => hg i)
  obtain ⟨i, hi⟩ := h.surj j hj
  exact ⟨i, by simp [hi]⟩

/-- Linear predictor of a direction `v`. -/
theorem eta_hasDerivAt (X : Fin n → Fin p → ℝ) (coef v : Fin p → ℝ) (s : ℝ) (i : Fin n) :
    HasDerivAt (fun s => eta X (fun k => coef k + s * v k) i) (eta X v i) s := by
  unfold eta
  refine HasDerivAt.fun_sum fun k _ => ?_
  have := ((hasDerivAt_id s).mul_const (v k)).const_add (coef k)
  exact (this.const_mul (X i k)).congr_deriv (by simp)

theorem gam_hasDerivAt (X : Fin n → Fin p → ℝ) (coef v : Fin p → ℝ) (s : ℝ) (i : Fin n) :
    HasDerivAt (fun s => gam X (fun k => coef k + s * v k) i) (gam X (fun k => coef k + s * v k) i * eta X v i) s :=
  (eta_hasDerivAt X coef v s i).exp

theorem gammaP_hasDerivAt (r : Fin n → ℕ) (X : Fin n → Fin p → ℝ) (coef v : Fin p → ℝ) (s : ℝ) (j : ℕ) :
    HasDerivAt (fun s => gammaP r (gam X (fun k => coef k + s * v k)) j)
      (∑ k, v k * bp r (gam X (fun k => coef k + s * v k)) X j k) s := by
  simp only [gammaP_eq, bp_eq]
  refine (HasDerivAt.fun_sum fun i _ => gam_hasDerivAt X coef v s i).congr_deriv ?_
  simp only [mul_sum]
  rw [sum_comm]
  apply sum_congr rfl
  intro i _
  unfold eta
  rw [mul_sum]
  exact sum_congr rfl fun k _ => by ring

theorem bp_hasDerivAt (r : Fin n → ℕ) (X : Fin n → Fin p → ℝ) (coef v : Fin p → ℝ) (s : ℝ) (j : ℕ) (l : Fin p) :
    HasDerivAt (fun s => bp r (gam X (fun k => coef k + s * v k)) X j l)
      (∑ k, v k * Ap r (gam X (fun k => coef k + s * v k)) X j k l) s := by
  simp only [bp_eq, Ap_eq]
  refine (HasDerivAt.fun_sum fun i _ => (gam_hasDerivAt X coef v s i).mul_const (X i l)).congr_deriv ?_
  simp only [mul_sum]
  rw [sum_comm]
  apply sum_congr rfl
  intro i _
  unfold eta
  rw [mul_sum, sum_mul]
  exact sum_congr rfl fun k _ => by ring

theorem grad2_eq (r : Fin n → ℕ) (delta : Fin n → ℕ) (g : Fin n → ℝ) (X : Fin n → Fin p → ℝ) (m : ℕ) (k : Fin p) :
    grad2 r delta g X m k = -∑ j ∈ range m, dj r delta j * (bp r g X (j + 1) k / gammaP r g (j + 1)) := by
  induction m with
  | zero => simp [grad2]
  | succ m ih => simp only [grad2]; rw [ih, sum_range_succ]; ring

theorem hess_eq (r : Fin n → ℕ) (delta : Fin n → ℕ) (g : Fin n → ℝ) (X : Fin n → Fin p → ℝ) (m : ℕ) (k l : Fin p) :
    hess r delta g X m k l = ∑ j ∈ range m, (dj r delta j * bp r g X (j + 1) k * bp r g X (j + 1) l / gammaP r g (j + 1) ^ 2
        - dj r delta j * Ap r g X (j + 1) k l / gammaP r g (j + 1)) := by
  induction m with
  | zero => simp [hess]
  | succ m ih => simp only [hess]; rw [ih, sum_range_succ]

/-- C08, gradient. At every coefficient vector and in every direction `v`, the derivative of the log-likelihood is the
product of the returned gradient with `v`. -/
theorem llk_hasDerivAt (nt : ℕ) (ut : ℕ → ℝ) (r : Fin n → ℕ) (h : Data nt ut r) (delta : Fin n → ℕ) (X : Fin n → Fin p → ℝ)
    (coef v : Fin p → ℝ) (s : ℝ) :
    HasDerivAt (fun s => llk nt r delta X (fun k => coef k + s * v k))
      (∑ k, v k * gradient nt r delta X (fun k => coef k + s * v k) k) s := by
  unfold llk
  simp only [llk2_eq]
  have h1 : HasDerivAt (fun s => ∑ i, (delta i : ℝ) * eta X (fun k => coef k + s * v k) i)
      (∑ i, (delta i : ℝ) * eta X v i) s := HasDerivAt.fun_sum fun i _ => (eta_hasDerivAt X coef v s i).const_mul _
  have h2 : HasDerivAt (fun s => -∑ j ∈ range nt, dj r delta j * Real.log (gammaP r (gam X fun k => coef k + s * v k) (j + 1)))
      (-∑ j ∈ range nt, dj r delta j * ((∑ k, v k * bp r (gam X (fun k => coef k + s * v k)) X (j + 1) k) /
        gammaP r (gam X fun k => coef k + s * v k) (j + 1))) s := by
    refine (HasDerivAt.fun_sum fun j hj => ?_).neg
    exact ((gammaP_hasDerivAt r X coef v s (j + 1)).log
      (gammaP_pos h _ (gam_pos X _) j (mem_range.1 hj)).ne').const_mul _
  refine (h1.add h2).congr_deriv ?_
  unfold gradient
  simp only [grad2_eq, mul_add, sum_add_distrib]
  congr 1
  · unfold eta
    simp only [mul_sum]
    rw [sum_comm]
    exact sum_congr rfl fun k _ => sum_congr rfl fun i _ => by ring
  · simp only [mul_neg, sum_neg_distrib, mul_sum, Finset.sum_div]
    rw [sum_comm]
    congr 1
    exact sum_congr rfl fun k _ => sum_congr rfl fun j _ => by ring

/-- C08, Hessian. At every coefficient vector and in every direction, the derivative of the returned gradient is the product
of the returned Hessian with the direction. -/
theorem gradient_hasDerivAt (nt : ℕ) (ut : ℕ → ℝ) (r : Fin n → ℕ) (h : Data nt ut r) (delta : Fin n → ℕ) (X : Fin n → Fin p → ℝ)
    (coef v : Fin p → ℝ) (s : ℝ) (l : Fin p) :
    HasDerivAt (fun s => gradient nt r delta X (fun k => coef k + s * v k) l)
      (∑ k, v k * hessian nt r delta X (fun k => coef k + s * v k) k l) s := by
  unfold gradient
  simp only [grad2_eq]
  refine (((HasDerivAt.fun_sum fun j hj => ?_).neg).const_add _ :
    HasDerivAt _ (-∑ j ∈ range nt, dj r delta j *
      (((∑ k, v k * Ap r (gam X (fun k => coef k + s * v k)) X (j + 1) k l) * gammaP r (gam X fun k => coef k + s * v k) (j + 1)
        - bp r (gam X (fun k => coef k + s * v k)) X (j + 1) l * (∑ k, v k * bp r (gam X (fun k => coef k + s * v k)) X (j + 1) k)) /
        gammaP r (gam X fun k => coef k + s * v k) (j + 1) ^ 2)) s).congr_deriv ?_
  · exact ((bp_hasDerivAt r X coef v s (j + 1) l).div (gammaP_hasDerivAt r X coef v s (j + 1))
      (gammaP_pos h _ (gam_pos X _) j (mem_range.1 hj)).ne').const_mul _
  · unfold hessian
    simp only [hess_eq, mul_sum]
    rw [sum_comm, ← sum_neg_distrib]
    apply sum_congr rfl
    intro j hj
    have hne := (gammaP_pos h _ (gam_pos X (fun k => coef k + s * v k)) j (mem_range.1 hj)).ne'
    set G := gammaP r (gam X fun k => coef k + s * v k) (j + 1)
    rw [sum_mul, ← sum_sub_distrib, Finset.sum_div, mul_sum, ← sum_neg_distrib]
    apply sum_congr rfl
    intro k _
    field_simp
    ring

theorem dj_nonneg (r : Fin n → ℕ) (delta : Fin n → ℕ) (j : ℕ) : 0 ≤ dj r delta j := sum_nonneg fun i _ => Nat.cast_nonneg _

/-- C08, curvature. The returned Hessian is symmetric and negative semi-definite. -/
theorem hessian_symm_negSemidef (nt : ℕ) (ut : ℕ → ℝ) (r : Fin n → ℕ) (h : Data nt ut r) (delta : Fin n → ℕ)
    (X : Fin n → Fin p → ℝ) (coef : Fin p → ℝ) :
    (∀ k l, hessian nt r delta X coef k l = hessian nt r delta X coef l k) ∧
    ∀ v : Fin p → ℝ, ∑ k, ∑ l, v k * hessian nt r delta X coef k l * v l ≤ 0 := by
  constructor
  · intro k l
    unfold hessian
    rw [hess_eq, hess_eq]
    apply sum_congr rfl
    intro j _
    have : Ap r (gam X coef) X (j + 1) k l = Ap r (gam X coef) X (j + 1) l k := by
      rw [Ap_eq, Ap_eq]
      exact sum_congr rfl fun i _ => by ring
    rw [this]; ring
  · intro v
    unfold hessian
    simp only [hess_eq, mul_sum, sum_mul]
    rw [sum_congr rfl fun k _ => sum_comm, sum_comm]
    apply sum_nonpos
    intro j hj
    have hG := gammaP_pos h _ (gam_pos X coef) j (mem_range.1 hj)
    set G := gammaP r (gam X coef) (j + 1) with hGd
    have hb : ∑ k, v k * bp r (gam X coef) X (j + 1) k = ∑ i with r i < j + 1, gam X coef i * eta X v i := by
      simp only [bp_eq, mul_sum]
      rw [sum_comm]
      apply sum_congr rfl
      intro i _
      unfold eta
      rw [mul_sum]
      exact sum_congr rfl fun k _ => by ring
    have hA : ∑ k, ∑ l, v k * Ap r (gam X coef) X (j + 1) k l * v l = ∑ i with r i < j + 1, gam X coef i * eta X v i ^ 2 := by
      simp only [Ap_eq, mul_sum, sum_mul]
      rw [sum_congr rfl fun k _ => sum_comm, sum_comm]
      apply sum_congr rfl
      intro i _
      unfold eta
      rw [sq, sum_mul_sum, mul_sum]
      apply sum_congr rfl
      intro k _
      rw [mul_sum]
      exact sum_congr rfl fun l _ => by ring
    have hCS : (∑ i with r i < j + 1, gam X coef i * eta X v i) ^ 2 ≤
        G * ∑ i with r i < j + 1, gam X coef i * eta X v i ^ 2 := by
      rw [hGd, gammaP_eq]
      exact sum_sq_le_sum_mul_sum_of_sq_le_mul _ (fun i _ => (gam_pos X coef i).le)
        (fun i _ => mul_nonneg (gam_pos X coef i).le (sq_nonneg _)) (fun i _ => le_of_eq (by ring))
    have e : ∑ k, ∑ l, v k * (dj r delta j * bp r (gam X coef) X (j + 1) k * bp r (gam X coef) X (j + 1) l / G ^ 2 -
        dj r delta j * Ap r (gam X coef) X (j + 1) k l / G) * v l =
        dj r delta j * ((∑ k, v k * bp r (gam X coef) X (j + 1) k) ^ 2 / G ^ 2 -
          (∑ k, ∑ l, v k * Ap r (gam X coef) X (j + 1) k l * v l) / G) := by
      rw [sq (∑ k, v k * bp r (gam X coef) X (j + 1) k), sum_mul_sum, Finset.sum_div, Finset.sum_div, ← sum_sub_distrib, mul_sum]
      apply sum_congr rfl
      intro k _
      rw [Finset.sum_div, Finset.sum_div, ← sum_sub_distrib, mul_sum]
      apply sum_congr rfl
      intro l _
      ring
    rw [e, hb, hA]
    apply mul_nonpos_of_nonneg_of_nonpos (dj_nonneg r delta j)
    rw [sub_nonpos, div_le_div_iff₀ (by positivity) hG]
    calc _ ≤ (G * ∑ i with r i < j + 1, gam X coef i * eta X v i ^ 2) * G := mul_le_mul_of_nonneg_right hCS hG.le
      _ = _ := by ring


/-- C08, concavity. The log-likelihood is a concave function of the coefficients. -/
theorem llk_concave (nt : ℕ) (ut : ℕ → ℝ) (r : Fin n → ℕ) (h : Data nt ut r) (delta : Fin n → ℕ) (X : Fin n → Fin p → ℝ) :
    ConcaveOn ℝ Set.univ (llk nt r delta X) := by
  refine ⟨convex_univ, ?_⟩
  intro x _ y _ a b ha hb hab
  set v : Fin p → ℝ := fun k => y k - x k with hv
  set f : ℝ → ℝ := fun s => llk nt r delta X (fun k => x k + s * v k) with hf
  have hd : ∀ s, HasDerivAt f (∑ k, v k * gradient nt r delta X (fun k => x k + s * v k) k) s :=
    fun s => llk_hasDerivAt nt ut r h delta X x v s
  have hd2 : ∀ s, HasDerivAt (fun s => ∑ k, v k * gradient nt r delta X (fun k => x k + s * v k) k)
      (∑ l, v l * ∑ k, v k * hessian nt r delta X (fun k => x k + s * v k) k l) s :=
    fun s => HasDerivAt.fun_sum fun l _ => (gradient_hasDerivAt nt ut r h delta X x v s l).const_mul _
  have hder : deriv f = fun s => ∑ k, v k * gradient nt r delta X (fun k => x k + s * v k) k :=
    funext fun s => (hd s).deriv
  have hc : ConcaveOn ℝ Set.univ f := by
    apply AntitoneOn.concaveOn_of_deriv convex_univ
    · exact fun s _ => (hd s).continuousAt.continuousWithinAt
    · exact fun s _ => (hd s).differentiableAt.differentiableWithinAt
    · rw [hder]
      apply Antitone.antitoneOn
      apply antitone_of_deriv_nonpos
      · exact fun s => (hd2 s).differentiableAt
      · intro s
        rw [(hd2 s).deriv]
        refine le_trans (le_of_eq ?_) ((hessian_symm_negSemidef nt ut r h delta X (fun k => x k + s * v k)).2 v)
        simp only [mul_sum]
        rw [sum_comm]
        exact sum_congr rfl fun k _ => sum_congr rfl fun l _ => by ring
  have key := hc.2 (Set.mem_univ (0 : ℝ)) (Set.mem_univ (1 : ℝ)) ha hb hab
  have e0 : f 0 = llk nt r delta X x := by simp [hf]
  have e1 : f 1 = llk nt r delta X y := by simp [hf, hv]
  have e2 : f (a • (0 : ℝ) + b • (1 : ℝ)) = llk nt r delta X (a • x + b • y) := by
    simp only [hf, hv]
    congr 1
    funext k
    simp only [smul_eq_mul, mul_zero, mul_one, zero_add, Pi.add_apply, Pi.smul_apply]
    have : a = 1 - b := by linarith
    rw [this]; ring
  rw [e0, e1, e2] at key
  exact key

/-- Breslow's estimate of the cumulative baseline hazard at `t`: events at each observed time up to `t` over the risk set. -/
noncomputable def cumHaz (T : Fin n → ℝ) (delta : Fin n → ℕ) (e : Fin n → ℝ) (t : ℝ) : ℝ :=
  ∑ τ ∈ (univ.image T).filter (· ≤ t), (∑ i with T i = τ, (delta i : ℝ)) / ∑ i with τ ≤ T i, Real.exp (e i)

theorem hsBack_eq (nt : ℕ) (r : Fin n → ℕ) (delta : Fin n → ℕ) (g : Fin n → ℝ) (s : ℕ) (hs : s < nt) :
    hsBack nt r delta g s = ∑ k ∈ Ico (nt - 1 - s) nt, dj r delta k / gammaP r g (k + 1) := by
  induction s with
  | zero =>
    have : Ico (nt - 1 - 0) nt = {nt - 1} := by ext k; simp only [mem_Ico, mem_singleton]; omega
    rw [this, sum_singleton]; rfl
  | succ s ih =>
    rw [hsBack, ih (by omega)]
    rw [Finset.sum_eq_sum_Ico_succ_bot (a := nt - 1 - (s + 1)) (by omega)]
    rw [show nt - 1 - (s + 1) + 1 = nt - 1 - s by omega]
    ring

theorem hs_eq (nt : ℕ) (r : Fin n → ℕ) (delta : Fin n → ℕ) (g : Fin n → ℝ) (j : ℕ) (hj : j < nt) :
    hs nt r delta g j = ∑ k ∈ Ico j nt, dj r delta k / gammaP r g (k + 1) := by
  unfold hs
  rw [hsBack_eq _ _ _ _ _ (by omega)]
  congr 2
  omega

theorem dj_eq {nt : ℕ} {ut : ℕ → ℝ} {r : Fin n → ℕ} (h : Data nt ut r) (delta : Fin n → ℕ) {j : ℕ} (hj : j < nt) :
    dj r delta j = ∑ i with ut (r i) = ut j, (delta i : ℝ) := by
  unfold dj ris
  apply sum_congr
  · ext i
    simp only [mem_filter, mem_univ, true_and]
    exact (h.eq_iff (h.r_lt i) hj).symm
  · intros; rfl

theorem gammaP_risk {nt : ℕ} {ut : ℕ → ℝ} {r : Fin n → ℕ} (h : Data nt ut r) (g : Fin n → ℝ) {j : ℕ} (hj : j < nt) :
    gammaP r g (j + 1) = ∑ i with ut j ≤ ut (r i), g i := by
  rw [gammaP_eq]
  apply sum_congr
  · ext i
    simp only [mem_filter, mem_univ, true_and]
    rw [h.le_iff hj (h.r_lt i)]
    omega
  · intros; rfl

/-- C09, baseline hazard. The array returned by `get_baseline_hazard` (on a family without stored results) holds Breslow's
cumulative baseline hazard at each unique time. -/
theorem baseline_is_breslow (nt : ℕ) (ut : ℕ → ℝ) (r : Fin n → ℕ) (h : Data nt ut r) (delta : Fin n → ℕ)
    (X : Fin n → Fin p → ℝ) (coef : Fin p → ℝ) (j : ℕ) (hj : j < nt) :
    (getBaseline nt r delta X coef none).1 j = cumHaz (fun i => ut (r i)) delta (fun i => ∑ k, X i k * coef k) (ut j) := by
  show hs nt r delta (gam X coef) j = _
  rw [hs_eq _ _ _ _ _ hj]
  unfold cumHaz
  have himg : (univ.image (fun i => ut (r i))).filter (· ≤ ut j) = (Ico j nt).image ut := by
    ext τ
    simp only [mem_filter, mem_image, mem_univ, true_and, mem_Ico]
    constructor
    · rintro ⟨⟨i, rfl⟩, hle⟩
      exact ⟨r i, ⟨(h.le_iff (h.r_lt i) hj).1 hle, h.r_lt i⟩, rfl⟩
    · rintro ⟨k, ⟨hjk, hk⟩, rfl⟩
      obtain ⟨i, rfl⟩ := h.surj k hk
      exact ⟨⟨i, rfl⟩, (h.le_iff hk hj).2 hjk⟩
  rw [himg, sum_image]
  · apply sum_congr rfl
    intro k hk
    rw [mem_Ico] at hk
    rw [dj_eq h delta hk.2, gammaP_risk h _ hk.2]
    rfl
  · intro a ha b hb he
    simp only [coe_Ico, Set.mem_Ico] at ha hb
    exact (h.eq_iff ha.2 hb.2).1 he

theorem cumHaz_nonneg (T : Fin n → ℝ) (delta : Fin n → ℕ) (e : Fin n → ℝ) (t : ℝ) : 0 ≤ cumHaz T delta e t :=
  sum_nonneg fun _ _ => div_nonneg (sum_nonneg fun _ _ => Nat.cast_nonneg _) (sum_nonneg fun _ _ => (Real.exp_pos _).le)

theorem cumHaz_mono (T : Fin n → ℝ) (delta : Fin n → ℕ) (e : Fin n → ℝ) : Monotone (cumHaz T delta e) := by
  intro s t hst
  apply sum_le_sum_of_subset_of_nonneg
  · intro τ
    simp only [mem_filter]
    exact fun ⟨a, b⟩ => ⟨a, b.trans hst⟩
  · exact fun _ _ _ => div_nonneg (sum_nonneg fun _ _ => Nat.cast_nonneg _) (sum_nonneg fun _ _ => (Real.exp_pos _).le)

theorem find_eq {nt : ℕ} {ut : ℕ → ℝ} {r : Fin n → ℕ} (h : Data nt ut r) {j : ℕ} (hj : j < nt) :
    (List.range nt).find? (fun k => ut k = ut j) = some j := by
  rw [List.find?_range_eq_some]
  refine ⟨by simp, by simpa using hj, ?_⟩
  intro k hk
  simp only [Bool.not_eq_true', decide_eq_false_iff_not]
  rw [h.eq_iff (by omega) hj]
  omega

theorem survIndex_observed {nt : ℕ} {ut : ℕ → ℝ} {r : Fin n → ℕ} (h : Data nt ut r) {j : ℕ} (hj : j < nt) :
    survIndex nt ut (ut j) = some j := by
  unfold survIndex
  simp only
  rw [if_pos ⟨j, hj, rfl⟩]
  exact find_eq h hj

/-- For a time that was not observed, `get_survival` uses the next observed time after it. -/
theorem survIndex_between {nt : ℕ} {ut : ℕ → ℝ} {r : Fin n → ℕ} (h : Data nt ut r) {j : ℕ} (hj : j < nt) (t : ℝ) (ht : t < ut j)
    (hnext : ∀ k < nt, ut k < ut j → ut k < t) : survIndex nt ut t = some j := by
  unfold survIndex
  simp only
  have hno : ¬ ∃ k < nt, ut k = t := by
    rintro ⟨k, hk, rfl⟩
    exact lt_irrefl _ (hnext k hk ht)
  rw [if_neg hno]
  have hne : (((range nt).image ut).filter fun u => t < u).Nonempty := ⟨ut j, by
    simp only [mem_filter, mem_image, mem_range]; exact ⟨⟨j, hj, rfl⟩, ht⟩⟩
  rw [dif_pos hne]
  have hmin : (((range nt).image ut).filter fun u => t < u).min' hne = ut j := by
    apply le_antisymm
    · apply min'_le
      simp only [mem_filter, mem_image, mem_range]; exact ⟨⟨j, hj, rfl⟩, ht⟩
    · apply le_min'
      intro u hu
      simp only [mem_filter, mem_image, mem_range] at hu
      obtain ⟨⟨k, hk, rfl⟩, hlt⟩ := hu
      by_contra hcon
      exact lt_asymm hlt (hnext k hk (not_le.1 hcon))
  rw [hmin]
  exact find_eq h hj

/-- C09, survival at observed times: `exp(-Λ(t) exp(η))`. It lies in `(0, 1]` and does not increase with `t`. Missing for the
full claim: `t` between observed times, where the code looks ahead (`survival_between_looks_ahead`). -/
theorem survival_observed_partial (nt : ℕ) (ut : ℕ → ℝ) (r : Fin n → ℕ) (h : Data nt ut r) (delta : Fin n → ℕ)
    (X : Fin n → Fin p → ℝ) (coef : Fin p → ℝ) (i : Fin n) (e : ℝ) :
    survival nt ut (getBaseline nt r delta X coef none).1 (ut (r i)) e =
      some (Real.exp (-(cumHaz (fun i => ut (r i)) delta (fun i => ∑ k, X i k * coef k) (ut (r i)) * Real.exp e))) := by
  unfold survival
  rw [survIndex_observed h (h.r_lt i), Option.map_some]
  rw [baseline_is_breslow nt ut r h delta X coef _ (h.r_lt i), neg_mul]

/-- C09, the survival curve. At every time up to the last observed one an estimate is returned. It lies in `(0, 1]`. Later
times never get a larger estimate. -/
theorem survival_monotone (nt : ℕ) (ut : ℕ → ℝ) (r : Fin n → ℕ) (h : Data nt ut r) (delta : Fin n → ℕ)
    (X : Fin n → Fin p → ℝ) (coef : Fin p → ℝ) (e s t : ℝ) (hst : s ≤ t) (hlast : ∃ i, t ≤ ut (r i)) :
    ∃ a b, survival nt ut (getBaseline nt r delta X coef none).1 s e = some a ∧
      survival nt ut (getBaseline nt r delta X coef none).1 t e = some b ∧ 0 < b ∧ b ≤ a ∧ a ≤ 1 := by
  -- the index used for a time
  have hidx : ∀ u : ℝ, (∃ i, u ≤ ut (r i)) → ∃ j < nt, survIndex nt ut u = some j ∧ u ≤ ut j ∧ ∀ k < nt, u ≤ ut k → ut j ≤ ut k := by
    rintro u ⟨i, hi⟩
    have hne : (((range nt).image ut).filter fun w => u ≤ w).Nonempty := ⟨ut (r i), by
      simp only [mem_filter, mem_image, mem_range]; exact ⟨⟨r i, h.r_lt i, rfl⟩, hi⟩⟩
    have hmem := min'_mem _ hne
    have hmin : ∀ k < nt, u ≤ ut k → (((range nt).image ut).filter fun w => u ≤ w).min' hne ≤ ut k := by
      intro k hk hku
      apply min'_le
      simp only [mem_filter, mem_image, mem_range]; exact ⟨⟨k, hk, rfl⟩, hku⟩
    generalize (((range nt).image ut).filter fun w => u ≤ w).min' hne = m at hmem hmin
    simp only [mem_filter, mem_image, mem_range] at hmem
    obtain ⟨⟨j, hj, rfl⟩, hum⟩ := hmem
    refine ⟨j, hj, ?_, hum, hmin⟩
    rcases hum.eq_or_lt with heq | hlt
    · rw [heq]; exact survIndex_observed h hj
    · apply survIndex_between h hj u hlt
      intro k hk hkj
      by_contra hcon
      exact absurd (hmin k hk (not_lt.1 hcon)) (not_le.2 hkj)
  obtain ⟨j, hj, ej, hsj, hjmin⟩ := hidx s (hlast.imp fun i hi => hst.trans hi)
  obtain ⟨k, hk, ek, htk, _⟩ := hidx t hlast
  refine ⟨_, _, by unfold survival; rw [ej, Option.map_some], by unfold survival; rw [ek, Option.map_some], Real.exp_pos _, ?_, ?_⟩
  · rw [baseline_is_breslow nt ut r h delta X coef _ hj, baseline_is_breslow nt ut r h delta X coef _ hk]
    apply Real.exp_le_exp.2
    rw [neg_mul, neg_mul, neg_le_neg_iff]
    exact mul_le_mul_of_nonneg_right (cumHaz_mono _ _ _ (hjmin k hk (hst.trans htk))) (Real.exp_pos _).le
  · rw [baseline_is_breslow nt ut r h delta X coef _ hj, Real.exp_le_one_iff, neg_mul, neg_nonpos]
    exact mul_nonneg (cumHaz_nonneg _ _ _ _) (Real.exp_pos _).le

/-- C09, martingale residuals. Every subject gets the residual "events minus expected events", and the residuals sum to zero. -/
theorem martingale_sum_zero (nt : ℕ) (ut : ℕ → ℝ) (r : Fin n → ℕ) (h : Data nt ut r) (delta : Fin n → ℕ)
    (X : Fin n → Fin p → ℝ) (coef : Fin p → ℝ) :
    ∃ m : Fin n → ℝ, (∀ i, martingale nt ut r delta X coef i = some (m i)) ∧
      (∀ i, m i = delta i - cumHaz (fun i => ut (r i)) delta (fun i => ∑ k, X i k * coef k) (ut (r i)) *
        Real.exp (∑ k, X i k * coef k)) ∧
      ∑ i, m i = 0 := by
  refine ⟨fun i => (delta i : ℝ) + Real.log (Real.exp (-(hs nt r delta (gam X coef) (r i)) * Real.exp (eta X coef i))), ?_, ?_, ?_⟩
  · intro i
    unfold martingale survival
    rw [survIndex_observed h (h.r_lt i)]
    rfl
  · intro i
    have := baseline_is_breslow nt ut r h delta X coef _ (h.r_lt i)
    change hs nt r delta (gam X coef) (r i) = _ at this
    simp only
    rw [Real.log_exp, this]
    unfold eta
    ring
  · simp only [Real.log_exp]
    rw [sum_add_distrib]
    have key : ∑ i, hs nt r delta (gam X coef) (r i) * gam X coef i = ∑ i, (delta i : ℝ) := by
      have h1 : ∀ i, hs nt r delta (gam X coef) (r i) * gam X coef i =
          ∑ k ∈ range nt, if r i < k + 1 then dj r delta k / gammaP r (gam X coef) (k + 1) * gam X coef i else 0 := by
        intro i
        rw [hs_eq _ _ _ _ _ (h.r_lt i), sum_mul, ← sum_filter]
        apply sum_congr
        · ext k; simp only [mem_Ico, mem_filter, mem_range]; omega
        · intros; rfl
      rw [sum_congr rfl fun i _ => h1 i, sum_comm]
      have h2 : ∀ k ∈ range nt, (∑ i, if r i < k + 1 then dj r delta k / gammaP r (gam X coef) (k + 1) * gam X coef i else 0) =
          dj r delta k := by
        intro k hk
        rw [← sum_filter, ← mul_sum, ← gammaP_eq]
        exact div_mul_cancel₀ _ (gammaP_pos h _ (gam_pos X coef) k (mem_range.1 hk)).ne'
      rw [sum_congr rfl h2]
      unfold dj ris
      exact sum_fiberwise_of_maps_to (fun i _ => mem_range.2 (h.r_lt i)) _
    have e : ∀ i, -(hs nt r delta (gam X coef) (r i)) * Real.exp (eta X coef i) = -(hs nt r delta (gam X coef) (r i) * gam X coef i) :=
      fun i => by unfold gam; ring
    rw [sum_congr rfl fun i _ => e i, sum_neg_distrib, key]
    ring

/-- C53 fails. Two subjects with events at times 1 and 3. The survival estimate at time 2 uses the event at time 3, so it is
smaller than Breslow's estimate at time 2, for every coefficient. -/
theorem survival_between_looks_ahead (coef : Fin 1 → ℝ) (X : Fin 2 → Fin 1 → ℝ) (e : ℝ) :
    let ut : ℕ → ℝ := fun j => if j = 0 then 3 else 1
    let r : Fin 2 → ℕ := fun i => i
    Data 2 ut r ∧ ∃ S, survival 2 ut (getBaseline 2 r (fun _ => 1) X coef none).1 2 e = some S ∧
      S = Real.exp (-(cumHaz (fun i => ut (r i)) (fun _ => 1) (fun i => ∑ k, X i k * coef k) 3 * Real.exp e)) ∧
      S < Real.exp (-(cumHaz (fun i => ut (r i)) (fun _ => 1) (fun i => ∑ k, X i k * coef k) 2 * Real.exp e)) := by
  intro ut r
  have hd : Data 2 ut r := by
    refine ⟨?_, fun i => i.2, fun j hj => ⟨⟨j, hj⟩, rfl⟩⟩
    intro j k hjk hk
    have : j = 0 := by omega
    have : k = 1 := by omega
    subst_vars
    simp only [ut]; norm_num
  refine ⟨hd, _, ?_, rfl, ?_⟩
  · unfold survival
    rw [survIndex_between hd (j := 0) (by norm_num) 2 (by simp only [ut]; norm_num)]
    · rw [Option.map_some, baseline_is_breslow 2 ut r hd _ X coef 0 (by norm_num), neg_mul]
      rfl
    · intro k hk
      have : k = 0 ∨ k = 1 := by omega
      rcases this with rfl | rfl <;> simp only [ut] <;> norm_num
  · apply Real.exp_lt_exp.2
    rw [neg_lt_neg_iff]
    apply mul_lt_mul_of_pos_right _ (Real.exp_pos _)
    unfold cumHaz
    have hi : univ.image (fun i => ut (r i)) = {3, 1} := by
      ext x
      simp only [mem_image, mem_univ, true_and, mem_insert, mem_singleton, ut, r]
      constructor
      · rintro ⟨i, rfl⟩
        fin_cases i <;> simp
      · rintro (rfl | rfl)
        · exact ⟨0, by simp⟩
        · exact ⟨1, by simp⟩
    rw [hi]
    have h3 : ({3, 1} : Finset ℝ).filter (· ≤ 3) = insert 3 {1} := by
      ext x; simp only [mem_filter, mem_insert, mem_singleton]
      constructor
      · exact fun h => h.1
      · rintro (rfl | rfl) <;> norm_num
    have h2 : ({3, 1} : Finset ℝ).filter (· ≤ 2) = {1} := by
      ext x; simp only [mem_filter, mem_insert, mem_singleton]
      constructor
      · rintro ⟨rfl | rfl, hx⟩
        · norm_num at hx
        · rfl
      · rintro rfl; norm_num
    rw [h3, h2, sum_insert (by norm_num)]
    have : 0 < (∑ i with ut (r i) = 3, ((1 : ℕ) : ℝ)) / ∑ i with 3 ≤ ut (r i), Real.exp (∑ k, X i k * coef k) := by
      apply div_pos
      · apply sum_pos (fun _ _ => by norm_num)
        exact ⟨0, by simp [ut, r]⟩
      · apply sum_pos (fun _ _ => Real.exp_pos _)
        exact ⟨0, by simp [ut, r]⟩
    linarith

/-- C54 fails. After one call, a call with other coefficients returns the hazard of the first coefficients. Here the two
hazards differ. -/
theorem baseline_stale_after_first_call :
    let r : Fin 2 → ℕ := fun i => i
    let X : Fin 2 → Fin 1 → ℝ := fun i _ => if i = 0 then 1 else 0
    let first := getBaseline 2 r (fun _ => 1) X (fun _ => 0) none
    (getBaseline 2 r (fun _ => 1) X (fun _ => 1) first.2).1 1 ≠ (getBaseline 2 r (fun _ => 1) X (fun _ => 1) none).1 1 := by
  intro r X first
  show hs 2 r (fun _ => 1) (gam X (fun _ => 0)) 1 ≠ hs 2 r (fun _ => 1) (gam X (fun _ => 1)) 1
  rw [hs_eq _ _ _ _ _ (by norm_num), hs_eq _ _ _ _ _ (by norm_num)]
  have hI : Ico 1 2 = {1} := rfl
  rw [hI, sum_singleton, sum_singleton]
  have h1 : dj r (fun _ => 1) 1 = 1 := by
    unfold dj ris
    rw [show (univ.filter fun i => r i = 1) = {1} from by ext i; fin_cases i <;> simp [r]]
    simp
  have hall : ∀ g : Fin 2 → ℝ, gammaP r g (1 + 1) = g 0 + g 1 := by
    intro g
    rw [gammaP_eq, show (univ.filter fun i => r i < 1 + 1) = univ from by ext i; fin_cases i <;> simp [r]]
    exact Fin.sum_univ_two g
  rw [h1, hall, hall]
  simp only [gam, eta, X, univ_unique, sum_singleton]
  simp only [if_true, mul_zero, mul_one, Real.exp_zero]
  rw [if_neg (by decide), Real.exp_zero]
  intro h
  have h1e : (1 : ℝ) < Real.exp 1 := by
    have := Real.add_one_lt_exp (x := 1) (by norm_num); linarith
  rw [div_eq_div_iff (by norm_num) (by positivity)] at h
  linarith

/-- C54, what holds: the first call, on a family with nothing stored, uses the coefficients it is given. -/
theorem baseline_first_call_partial (nt : ℕ) (ut : ℕ → ℝ) (r : Fin n → ℕ) (h : Data nt ut r) (delta : Fin n → ℕ)
    (X : Fin n → Fin p → ℝ) (coef : Fin p → ℝ) :
    let out := getBaseline nt r delta X coef none
    out.2 = some out.1 ∧ ∀ j < nt, out.1 j = cumHaz (fun i => ut (r i)) delta (fun i => ∑ k, X i k * coef k) (ut j) :=
  ⟨rfl, fun j hj => baseline_is_breslow nt ut r h delta X coef j hj⟩

/-- C55. For a survival estimate in `(0, 1]` and a machine epsilon below `exp(-1)` the deviance residual exists, has the sign of
the martingale residual, and is `0` for a censored subject with no cumulative hazard. -/
theorem devianceResid_ok (eps S : ℝ) (heps : 0 < eps) (heps' : eps ≤ Real.exp (-1)) (hS : 0 < S) (hS' : S ≤ 1) (d : ℕ) (hd : d ≤ 1) :
    ∃ x, devianceResid eps S d = some x ∧ (0 ≤ (d : ℝ) + Real.log S → 0 ≤ x) ∧ ((d : ℝ) + Real.log S ≤ 0 → x ≤ 0) ∧
      (d = 0 → x ^ 2 = -2 * Real.log S) ∧ (d = 1 → Real.log S ≤ -eps → x ^ 2 = -2 * (1 + Real.log S + Real.log (-Real.log S))) := by
  have hl : Real.log S ≤ 0 := Real.log_nonpos hS.le hS'
  have hm : 0 < -(min (Real.log S) (-eps)) := by
    rw [neg_pos]; exact lt_of_le_of_lt (min_le_right _ _) (by linarith)
  have hq : 0 ≤ -2 * ((d : ℝ) + Real.log S + d * Real.log (-(min (Real.log S) (-eps)))) := by
    have hd' : d = 0 ∨ d = 1 := by omega
    rcases hd' with rfl | rfl
    · simp; linarith
    · have : Real.log (-(min (Real.log S) (-eps))) ≤ -Real.log S - 1 := by
        rcases le_total (Real.log S) (-eps) with h1 | h1
        · rw [min_eq_left h1]
          exact Real.log_le_sub_one_of_pos (by linarith)
        · rw [min_eq_right h1, neg_neg]
          have := Real.log_le_log heps heps'
          rw [Real.log_exp] at this
          linarith
      push_cast
      linarith
  have hsq : ∀ s : SignType, (s ≠ 0 ∨ -2 * ((d : ℝ) + Real.log S + d * Real.log (-(min (Real.log S) (-eps)))) = 0) →
      ((s : ℝ) * Real.sqrt (-2 * ((d : ℝ) + Real.log S + d * Real.log (-(min (Real.log S) (-eps)))))) ^ 2 =
      -2 * ((d : ℝ) + Real.log S + d * Real.log (-(min (Real.log S) (-eps)))) := by
    intro s hs
    rw [mul_pow, Real.sq_sqrt hq]
    rcases hs with hs | hs
    · cases s <;> simp_all
    · rw [hs]; simp
  refine ⟨SignType.sign ((d : ℝ) + Real.log S) * Real.sqrt (-2 * ((d : ℝ) + Real.log S + d * Real.log (-(min (Real.log S) (-eps))))),
    if_pos hq, ?_, ?_, ?_, ?_⟩
  · intro h
    apply mul_nonneg _ (Real.sqrt_nonneg _)
    rcases h.eq_or_lt with h0 | h0
    · rw [← h0]; simp
    · rw [sign_pos h0]; simp
  · intro h
    apply mul_nonpos_of_nonpos_of_nonneg _ (Real.sqrt_nonneg _)
    rcases h.eq_or_lt with h0 | h0
    · rw [h0]; simp
    · rw [sign_neg h0]; simp
  · rintro rfl
    rw [hsq]
    · simp
    · by_cases h : Real.log S = 0
      · right; simp [h]
      · left; rw [Ne, sign_eq_zero_iff]; simpa using h
  · rintro rfl h1
    rw [hsq, min_eq_left h1]
    · push_cast; ring
    · by_cases h : ((1 : ℕ) : ℝ) + Real.log S = 0
      · right
        rw [min_eq_left h1, h]
        have : Real.log S = -1 := by push_cast at h; linarith
        rw [this]; simp
      · left; rw [Ne, sign_eq_zero_iff]; exact h

/-- Three subjects, two of them tied at the later time. -/
example : Data 2 (fun j => if j = 0 then (5 : ℝ) else 2) (fun i : Fin 3 => if i = 1 then 1 else 0) := by
  refine ⟨?_, ?_, ?_⟩
  · intro j k hjk hk
    have h0 : j = 0 := by omega
    have h1 : k = 1 := by omega
    subst h0; subst h1
    norm_num
  · intro i; fin_cases i <;> simp
  · intro j hj
    have : j = 0 ∨ j = 1 := by omega
    rcases this with rfl | rfl
    · exact ⟨0, by simp⟩
    · exact ⟨1, by simp⟩

end Verif.Haz
