import Verif.FamModel
import Mathlib.Analysis.SpecialFunctions.ExpDeriv
import Mathlib.Analysis.Calculus.Deriv.Inv
import Mathlib.Analysis.Calculus.Deriv.Pow
import Mathlib.Analysis.Calculus.Deriv.Add
import Mathlib.Analysis.Calculus.Deriv.Mul
import Mathlib.Tactic.FieldSimp
import Mathlib.Tactic.Positivity
import Mathlib.Tactic.LinearCombination

/-! Helper lemmas for `Fam.lean`: real versions of the link and family formulas. -/

namespace Verif.Fam
open Verif Fl Filter Topology

/-- Natural domain of the mean for a link. -/
def LinkKind.dom : LinkKind → Set ℝ
  | .logit => Set.Ioo 0 1
  | .identity => Set.univ
  | .log => Set.Ioi 0
  | .logb b => Set.Ioi (-b)

/-- Real version of `f`. -/
noncomputable def LinkKind.fR : LinkKind → ℝ → ℝ
  | .logit, mu => Real.log (mu / (1 - mu))
  | .identity, mu => mu
  | .log, mu => Real.log mu
  | .logb b, mu => Real.log (mu + b)

/-- Real version of `fi`. -/
noncomputable def LinkKind.fiR : LinkKind → ℝ → ℝ
  | .logit, eta => Real.exp eta / (1 + Real.exp eta)
  | .identity, eta => eta
  | .log, eta => Real.exp eta
  | .logb b, eta => Real.exp eta - b

/-- Real version of `dy1`. -/
noncomputable def LinkKind.d1R : LinkKind → ℝ → ℝ
  | .logit, mu => 1 / ((1 - mu) * mu)
  | .identity, _ => 1
  | .log, mu => 1 / mu
  | .logb b, mu => 1 / (b + mu)

/-- Real version of `dy2`. -/
noncomputable def LinkKind.d2R : LinkKind → ℝ → ℝ
  | .logit, mu => (2 * mu - 1) / (mu ^ 2 * (1 - mu) ^ 2)
  | .identity, _ => 0
  | .log, mu => -1 * (1 / mu ^ 2)
  | .logb b, mu => -1 * (1 / (mu + b) ^ 2)

theorem dom_open (lk : LinkKind) : IsOpen lk.dom := by
  cases lk <;> simp only [LinkKind.dom]
  · exact isOpen_Ioo
  · exact isOpen_univ
  · exact isOpen_Ioi
  · exact isOpen_Ioi

theorem f_eq {lk : LinkKind} {mu : ℝ} (h : mu ∈ lk.dom) : lk.f (fin mu) = fin (lk.fR mu) := by
  cases lk with
  | logit =>
    obtain ⟨h0, h1⟩ := h
    have : 0 < 1 - mu := by linarith
    simp only [LinkKind.f, LinkKind.fR, fin_sub]
    rw [fin_div this.ne', log_fin (by positivity)]
  | identity => rfl
  | log => simp only [LinkKind.f, LinkKind.fR]; rw [log_fin h]
  | logb b =>
    have h' : -b < mu := h
    simp only [LinkKind.f, LinkKind.fR, fin_add]; rw [log_fin (by linarith)]

theorem fi_eq (lk : LinkKind) (eta : ℝ) : lk.fi (fin eta) = fin (lk.fiR eta) := by
  cases lk with
  | logit =>
    have : 0 < 1 + Real.exp eta := by positivity
    simp only [LinkKind.fi, LinkKind.fiR, exp_fin, fin_add]
    rw [fin_div this.ne']
  | identity => rfl
  | log => rfl
  | logb b => simp [LinkKind.fi, LinkKind.fiR]

theorem fi_mem (lk : LinkKind) (eta : ℝ) : lk.fiR eta ∈ lk.dom := by
  cases lk with
  | logit =>
    refine ⟨by simp only [LinkKind.fiR]; positivity, ?_⟩
    have : 0 < 1 + Real.exp eta := by positivity
    simp only [LinkKind.fiR]
    rw [div_lt_one this]; linarith
  | identity => trivial
  | log => exact Real.exp_pos _
  | logb b =>
    show -b < Real.exp eta - b
    have := Real.exp_pos eta
    linarith

theorem d1_eq {lk : LinkKind} {mu : ℝ} (h : mu ∈ lk.dom) : lk.dy1 (fin mu) = fin (lk.d1R mu) := by
  cases lk with
  | logit =>
    obtain ⟨h0, h1⟩ := h
    have : 0 < 1 - mu := by linarith
    simp only [LinkKind.dy1, LinkKind.d1R, fin_sub, fin_mul]
    rw [fin_div (by positivity)]
  | identity => rfl
  | log => simp only [LinkKind.dy1, LinkKind.d1R]; rw [fin_div (ne_of_gt h)]
  | logb b =>
    have h' : -b < mu := h
    simp only [LinkKind.dy1, LinkKind.d1R, fin_add]; rw [fin_div (by linarith)]

theorem d2_eq {lk : LinkKind} {mu : ℝ} (h : mu ∈ lk.dom) : lk.dy2 (fin mu) = fin (lk.d2R mu) := by
  cases lk with
  | logit =>
    obtain ⟨h0, h1⟩ := h
    have : 0 < 1 - mu := by linarith
    simp only [LinkKind.dy2, LinkKind.d2R, fin_sub, fin_mul, pow_fin]
    rw [fin_div (by positivity)]
  | identity => rfl
  | log =>
    have h' : 0 < mu := h
    simp only [LinkKind.dy2, LinkKind.d2R, pow_fin]; rw [fin_div (by positivity), fin_mul]
  | logb b =>
    have h' : -b < mu := h
    have : 0 < mu + b := by linarith
    simp only [LinkKind.dy2, LinkKind.d2R, fin_add, pow_fin]
    rw [fin_div (by positivity), fin_mul]

theorem d1_pos {lk : LinkKind} {mu : ℝ} (h : mu ∈ lk.dom) : 0 < lk.d1R mu := by
  cases lk with
  | logit =>
    obtain ⟨h0, h1⟩ := h
    have : 0 < 1 - mu := by linarith
    simp only [LinkKind.d1R]; positivity
  | identity => simp [LinkKind.d1R]
  | log => have h' : 0 < mu := h; simp only [LinkKind.d1R]; positivity
  | logb b =>
    have h' : -b < mu := h
    have : 0 < b + mu := by linarith
    simp only [LinkKind.d1R]; positivity

theorem fi_f {lk : LinkKind} {mu : ℝ} (h : mu ∈ lk.dom) : lk.fiR (lk.fR mu) = mu := by
  cases lk with
  | logit =>
    obtain ⟨h0, h1⟩ := h
    have h1' : 0 < 1 - mu := by linarith
    simp only [LinkKind.fiR, LinkKind.fR]
    rw [Real.exp_log (by positivity)]
    field_simp
    ring
  | identity => rfl
  | log => exact Real.exp_log h
  | logb b =>
    have h' : -b < mu := h
    simp only [LinkKind.fiR, LinkKind.fR]
    rw [Real.exp_log (by linarith)]; ring

theorem f_fi (lk : LinkKind) (eta : ℝ) : lk.fR (lk.fiR eta) = eta := by
  cases lk with
  | logit =>
    simp only [LinkKind.fiR, LinkKind.fR]
    have : Real.exp eta / (1 + Real.exp eta) / (1 - Real.exp eta / (1 + Real.exp eta))
        = Real.exp eta := by
      have := Real.exp_pos eta
      have h : 1 - Real.exp eta / (1 + Real.exp eta) = 1 / (1 + Real.exp eta) := by
        field_simp; ring
      rw [h]; field_simp
    rw [this, Real.log_exp]
  | identity => rfl
  | log => exact Real.log_exp _
  | logb b => simp [LinkKind.fiR, LinkKind.fR]

theorem fR_deriv {lk : LinkKind} {mu : ℝ} (h : mu ∈ lk.dom) :
    HasDerivAt lk.fR (lk.d1R mu) mu := by
  cases lk with
  | logit =>
    obtain ⟨h0, h1⟩ := h
    have h1' : 0 < 1 - mu := by linarith
    have hd : HasDerivAt (fun x : ℝ => x / (1 - x)) ((1 * (1 - mu) - mu * (-1)) / (1 - mu) ^ 2) mu :=
      (hasDerivAt_id mu).div ((hasDerivAt_id mu).const_sub 1) h1'.ne'
    have := hd.log (by positivity)
    refine this.congr_deriv ?_
    simp only [LinkKind.d1R]; field_simp; ring
  | identity => exact hasDerivAt_id mu
  | log =>
    have h' : 0 < mu := h
    refine HasDerivAt.congr_deriv (f := Real.log) (Real.hasDerivAt_log h'.ne') ?_
    simp [LinkKind.d1R]
  | logb b =>
    have h' : -b < mu := h
    have hp : 0 < mu + b := by linarith
    have := ((hasDerivAt_id mu).add_const b).log hp.ne'
    refine HasDerivAt.congr_deriv (f := (LinkKind.logb b).fR) this ?_
    simp [LinkKind.d1R, add_comm]

theorem d1R_deriv {lk : LinkKind} {mu : ℝ} (h : mu ∈ lk.dom) :
    HasDerivAt lk.d1R (lk.d2R mu) mu := by
  cases lk with
  | logit =>
    obtain ⟨h0, h1⟩ := h
    have h1' : 0 < 1 - mu := by linarith
    have hm : HasDerivAt (fun x : ℝ => (1 - x) * x) (-1 * mu + (1 - mu) * 1) mu :=
      ((hasDerivAt_id mu).const_sub 1).mul (hasDerivAt_id mu)
    have := (hasDerivAt_const mu (1 : ℝ)).div hm (by positivity)
    refine this.congr_deriv ?_
    simp only [LinkKind.d2R]; field_simp; ring
  | identity => exact hasDerivAt_const mu 1
  | log =>
    have h' : 0 < mu := h
    have := (hasDerivAt_const mu (1 : ℝ)).div (hasDerivAt_id mu) h'.ne'
    refine this.congr_deriv ?_
    simp [LinkKind.d2R, neg_div]
  | logb b =>
    have h' : -b < mu := h
    have hp : b + mu ≠ 0 := by linarith
    have := (hasDerivAt_const mu (1 : ℝ)).div ((hasDerivAt_id mu).const_add b) hp
    refine this.congr_deriv ?_
    simp [LinkKind.d2R, neg_div, add_comm]

theorem fiR_deriv (lk : LinkKind) (eta : ℝ) :
    HasDerivAt lk.fiR (1 / lk.d1R (lk.fiR eta)) eta := by
  cases lk with
  | logit =>
    have hp : 0 < 1 + Real.exp eta := by positivity
    have := (Real.hasDerivAt_exp eta).div ((Real.hasDerivAt_exp eta).const_add 1) hp.ne'
    refine this.congr_deriv ?_
    simp only [LinkKind.d1R, LinkKind.fiR]; field_simp
  | identity =>
    exact HasDerivAt.congr_deriv (f := LinkKind.identity.fiR) (hasDerivAt_id eta)
      (by simp [LinkKind.d1R])
  | log =>
    exact HasDerivAt.congr_deriv (f := LinkKind.log.fiR) (Real.hasDerivAt_exp eta)
      (by simp [LinkKind.d1R, LinkKind.fiR])
  | logb b =>
    exact HasDerivAt.congr_deriv (f := (LinkKind.logb b).fiR)
      ((Real.hasDerivAt_exp eta).sub_const b) (by simp [LinkKind.d1R, LinkKind.fiR])

/-! ### Families -/

/-- Means for which the density is defined. -/
def FamKind.dom : FamKind → Set ℝ
  | .binomial _ => Set.Ioo 0 1
  | .gaussian => Set.univ
  | .gamma => Set.Ioi 0
  | .invGauss => Set.Ioi 0
  | .poisson => Set.Ioi 0

/-- Observations the family admits: proportions of successes, real numbers, positive numbers,
counts. -/
def FamKind.obs : FamKind → Set ℝ
  | .binomial n => {y | 0 < n ∧ ∃ k : ℕ, k ≤ n ∧ y = k / n}
  | .gaussian => Set.univ
  | .gamma => Set.Ioi 0
  | .invGauss => Set.Ioi 0
  | .poisson => {y | ∃ k : ℕ, y = k}

theorem fdom_open (fam : FamKind) : IsOpen fam.dom := by
  cases fam <;> simp only [FamKind.dom]
  · exact isOpen_Ioo
  · exact isOpen_univ
  · exact isOpen_Ioi
  · exact isOpen_Ioi
  · exact isOpen_Ioi

/-- Real version of `V`. -/
noncomputable def FamKind.VR : FamKind → ℝ → ℝ
  | .binomial n, mu => mu * (1 - mu) / n
  | .gaussian, _ => 1
  | .gamma, mu => mu ^ 2
  | .invGauss, mu => mu ^ 3
  | .poisson, mu => mu

/-- Real version of `dVy1`. -/
noncomputable def FamKind.dVR : FamKind → ℝ → ℝ
  | .binomial n, mu => (1 - 2 * mu) / n
  | .gaussian, _ => 0
  | .gamma, mu => 2 * mu
  | .invGauss, mu => 3 * mu ^ 2
  | .poisson, _ => 1

/-- The number of trials is positive. -/
def FamKind.ok : FamKind → Prop
  | .binomial n => 0 < n
  | _ => True

theorem ok_of_obs {fam : FamKind} {y : ℝ} (h : y ∈ fam.obs) : fam.ok := by
  cases fam with
  | binomial n => exact h.1
  | _ => trivial

theorem V_eq {fam : FamKind} (ho : fam.ok) (mu : ℝ) : fam.V (fin mu) = fin (fam.VR mu) := by
  cases fam with
  | binomial n =>
    have : (n : ℝ) ≠ 0 := Nat.cast_ne_zero.2 (ne_of_gt ho)
    simp only [FamKind.V, FamKind.VR, fin_sub, fin_mul]; rw [fin_div this]
  | gaussian => rfl
  | gamma => simp [FamKind.V, FamKind.VR]
  | invGauss => simp [FamKind.V, FamKind.VR]
  | poisson => rfl

theorem dV_eq {fam : FamKind} (ho : fam.ok) (mu : ℝ) : fam.dVy1 (fin mu) = fin (fam.dVR mu) := by
  cases fam with
  | binomial n =>
    have : (n : ℝ) ≠ 0 := Nat.cast_ne_zero.2 (ne_of_gt ho)
    simp only [FamKind.dVy1, FamKind.dVR, fin_sub, fin_mul]; rw [fin_div this]
  | gaussian => rfl
  | gamma => simp [FamKind.dVy1, FamKind.dVR]
  | invGauss => simp [FamKind.dVy1, FamKind.dVR]
  | poisson => rfl

theorem V_pos {fam : FamKind} (ho : fam.ok) {mu : ℝ} (h : mu ∈ fam.dom) : 0 < fam.VR mu := by
  cases fam with
  | binomial n =>
    obtain ⟨h0, h1⟩ := h
    have : 0 < 1 - mu := by linarith
    have : (0 : ℝ) < n := Nat.cast_pos.2 ho
    simp only [FamKind.VR]; positivity
  | gaussian => simp [FamKind.VR]
  | gamma => have h' : 0 < mu := h; simp only [FamKind.VR]; positivity
  | invGauss => have h' : 0 < mu := h; simp only [FamKind.VR]; positivity
  | poisson => exact h

theorem VR_deriv (fam : FamKind) (mu : ℝ) : HasDerivAt fam.VR (fam.dVR mu) mu := by
  cases fam with
  | binomial n =>
    have := ((hasDerivAt_id mu).mul ((hasDerivAt_id mu).const_sub 1)).div_const (n : ℝ)
    refine this.congr_deriv ?_
    simp only [FamKind.dVR, id]; ring
  | gaussian => exact hasDerivAt_const mu 1
  | gamma =>
    exact HasDerivAt.congr_deriv (f := FamKind.gamma.VR) (hasDerivAt_pow 2 mu)
      (by simp [FamKind.dVR])
  | invGauss =>
    exact HasDerivAt.congr_deriv (f := FamKind.invGauss.VR) (hasDerivAt_pow 3 mu)
      (by simp [FamKind.dVR])
  | poisson => exact hasDerivAt_id mu

/-- Real version of the log density, up to a term that does not depend on the mean. -/
noncomputable def FamKind.lR : FamKind → ℝ → ℝ → ℝ → ℝ
  | .binomial n, y, mu, _ => (y * n) * Real.log mu + (n - y * n) * Real.log (1 - mu)
  | .gaussian, y, mu, s => -(y - mu) ^ 2 / (2 * s)
  | .gamma, y, mu, s => -(1 / s) * Real.log mu - y / (s * mu)
  | .invGauss, y, mu, s => -(y - mu) ^ 2 / (2 * s * mu ^ 2 * y)
  | .poisson, y, mu, _ => y * Real.log mu - mu

/-- The mean-free part of the log density. -/
noncomputable def FamKind.cR : FamKind → ℝ → ℝ → ℝ
  | .binomial n, y, _ => Real.log (n.choose ⌊y * n⌋₊)
  | .gaussian, _, s => -Real.log (Real.sqrt (2 * Real.pi * s))
  | .gamma, y, s => (1 / s) * Real.log (1 / s) - Real.log (Real.Gamma (1 / s))
      + (1 / s - 1) * Real.log y
  | .invGauss, y, s => -Real.log (Real.sqrt (2 * Real.pi * (y * s) ^ 3)) + Real.log s
  | .poisson, y, _ => -Real.log (Nat.factorial ⌊y⌋₊)

theorem floor_cast (k : ℕ) : ⌊(k : ℝ)⌋₊ = k := Nat.floor_natCast k

theorem lp_eq {fam : FamKind} {y mu s : ℝ} (hy : y ∈ fam.obs) (hs : 0 < s) (hm : mu ∈ fam.dom) :
    fam.lp y mu s = fin (fam.lR y mu s + fam.cR y s) := by
  cases fam with
  | binomial n =>
    obtain ⟨hn, k, hk, rfl⟩ := hy
    obtain ⟨h0, h1⟩ := hm
    have hn' : (n : ℝ) ≠ 0 := Nat.cast_ne_zero.2 (ne_of_gt hn)
    have h1' : 0 < 1 - mu := by linarith
    have hkk : (k : ℝ) / n * n = k := by field_simp
    have hc : (0 : ℝ) < n.choose k := Nat.cast_pos.2 (Nat.choose_pos hk)
    simp only [FamKind.lp, FamKind.lR, FamKind.cR, hkk, binomPmf, floor_cast, hk, and_self, if_true]
    rw [log_fin (by positivity), Real.log_mul (by positivity) (by positivity),
      Real.log_mul (by positivity) (by positivity), Real.log_pow, Real.log_pow, Nat.cast_sub hk]
    congr 1; ring
  | gaussian =>
    simp only [FamKind.lp, FamKind.lR, FamKind.cR, normPdf]
    have hv : Real.toNNReal (Real.sqrt s ^ 2) ≠ 0 := by
      rw [Real.sq_sqrt hs.le]; simpa using hs
    rw [log_fin (ProbabilityTheory.gaussianPDFReal_pos _ _ _ hv)]
    rw [ProbabilityTheory.gaussianPDFReal_def]
    simp only [Real.sq_sqrt hs.le, Real.coe_toNNReal _ hs.le]
    rw [Real.log_mul (by positivity) (by positivity), Real.log_exp, Real.log_inv]
    congr 1; ring
  | gamma =>
    have hm' : 0 < mu := hm
    have hy' : 0 < y := hy
    simp only [FamKind.lp, FamKind.lR, FamKind.cR, gammaPdf]
    rw [log_fin (ProbabilityTheory.gammaPDFReal_pos (by positivity) (by positivity) hy')]
    rw [ProbabilityTheory.gammaPDFReal, if_pos hy'.le]
    have hG : 0 < Real.Gamma (1 / s) := Real.Gamma_pos_of_pos (by positivity)
    have he : (1 / (1 / (1 / s / mu))) = 1 / (s * mu) := by field_simp
    rw [he, Real.log_mul (by positivity) (by positivity), Real.log_mul (by positivity) (by positivity),
      Real.log_div (by positivity) (by positivity), Real.log_exp, Real.log_rpow (by positivity),
      Real.log_rpow hy', Real.log_div one_ne_zero (by positivity), Real.log_mul hs.ne' hm'.ne',
      Real.log_div one_ne_zero hs.ne']
    congr 1; simp only [Real.log_one]; ring
  | invGauss =>
    have hm' : 0 < mu := hm
    have hy' : 0 < y := hy
    simp only [FamKind.lp, FamKind.lR, FamKind.cR, invgaussPdf, if_pos hy']
    rw [log_fin (by positivity)]
    rw [Real.log_div (by positivity) (by positivity), Real.log_div (by positivity) (by positivity),
      Real.log_exp, Real.log_div one_ne_zero hs.ne']
    have e1 : y / (1 / s) = y * s := by field_simp
    rw [e1]
    congr 1
    have e2 : -((y * s - mu / (1 / s)) ^ 2 / (2 * (y * s) * (mu / (1 / s)) ^ 2))
        = -(y - mu) ^ 2 / (2 * s * mu ^ 2 * y) := by field_simp
    rw [e2, Real.log_one]; ring
  | poisson =>
    obtain ⟨k, rfl⟩ := hy
    have hm' : 0 < mu := hm
    simp only [FamKind.lp, FamKind.lR, FamKind.cR, poissonPmf, floor_cast, if_true]
    rw [log_fin (by positivity), Real.log_div (by positivity) (by positivity),
      Real.log_mul (by positivity) (by positivity), Real.log_exp, Real.log_pow]
    congr 1; ring

/-- Derivative of the log density in the mean. -/
theorem lR_deriv {fam : FamKind} {y mu s : ℝ} (hy : y ∈ fam.obs) (hs : 0 < s) (hm : mu ∈ fam.dom)
    (h2 : fam.twopar = true ∨ s = 1) :
    HasDerivAt (fun m => fam.lR y m s) ((y - mu) / (fam.VR mu * s)) mu := by
  cases fam with
  | binomial n =>
    have hs1 : s = 1 := h2.resolve_left (by simp [FamKind.twopar])
    obtain ⟨hn, k, hk, rfl⟩ := hy
    obtain ⟨h0, h1⟩ := hm
    have hn' : (n : ℝ) ≠ 0 := Nat.cast_ne_zero.2 (ne_of_gt hn)
    have h1' : 0 < 1 - mu := by linarith
    have a := (Real.hasDerivAt_log h0.ne').const_mul ((k : ℝ) / n * n)
    have b := (((hasDerivAt_id mu).const_sub 1).log h1'.ne').const_mul ((n : ℝ) - (k : ℝ) / n * n)
    refine (a.add b).congr_deriv ?_
    simp only [FamKind.VR, hs1, id]
    field_simp
    ring
  | gaussian =>
    have := (((hasDerivAt_id mu).const_sub y).pow 2).neg.div_const (2 * s)
    refine this.congr_deriv ?_
    simp only [FamKind.VR, id]; field_simp; simp [mul_comm]
  | gamma =>
    have hm' : 0 < mu := hm
    have a := (Real.hasDerivAt_log hm'.ne').const_mul (-(1 / s))
    have b := (hasDerivAt_const mu y).div ((hasDerivAt_id mu).const_mul s)
      (by simp only [id]; positivity)
    refine (a.sub b).congr_deriv ?_
    simp only [FamKind.VR, id]; field_simp; ring
  | invGauss =>
    have hm' : 0 < mu := hm
    have hy' : 0 < y := hy
    have a := (((hasDerivAt_id mu).const_sub y).pow 2).neg
    have b := (((hasDerivAt_pow 2 mu).const_mul (2 * s)).mul_const y)
    have := a.div b (by positivity)
    refine this.congr_deriv ?_
    simp only [FamKind.VR, id, Pi.pow_apply, Pi.neg_apply]; field_simp; ring
  | poisson =>
    have hs1 : s = 1 := h2.resolve_left (by simp [FamKind.twopar])
    have hm' : 0 < mu := hm
    have a := ((Real.hasDerivAt_log hm'.ne').const_mul y).sub (hasDerivAt_id mu)
    refine a.congr_deriv ?_
    simp only [FamKind.VR, hs1]; field_simp

end Verif.Fam
