import Verif.PirlsModel
import Verif.Fam
import Verif.Step
import Mathlib.Analysis.Calculus.MeanValue
import Mathlib.Analysis.Calculus.FDeriv.Mul
import Mathlib.LinearAlgebra.Matrix.PosDef

/-! Helper lemmas for `Pirls.lean`. -/

namespace Verif.Pirls

open Matrix Fl Fam Filter Topology

variable {N p : ℕ} (x : In N p)

/-- Penalised log-likelihood of the coefficients `b` for scale `s`: the sum of the log densities of the observations at the means given by
`b`, minus `b' S b / (2 s)`. -/
noncomputable def pllk (s : ℝ) (b : Fin p → ℝ) : Fl :=
  (Fl.sum fun i => lpEta (x.fam i) x.lk (x.y i) s (fin ((∑ j, x.X i j * b j) + x.off i))) -
    fin ((∑ a, ∑ c, b a * x.S a c * b c) / (2 * s))

/-- All means lie in the domain of the family. -/
def Adm (b : Fin p → ℝ) : Prop := ∀ i, ∃ mu ∈ (x.fam i).dom, x.lk.fi (fin ((∑ j, x.X i j * b j) + x.off i)) = fin mu

/-- Observations the family admits, positive scale (one for families without scale parameter), positive semidefinite penalty. -/
structure Good (s : ℝ) : Prop where
  obs : ∀ i, x.y i ∈ (x.fam i).obs
  pos : 0 < s
  two : ∀ i, (x.fam i).twopar = true ∨ s = 1
  psd : x.S.PosSemidef

variable {x}

theorem eta_def (b : Fin p → ℝ) (i : Fin N) : (∑ j, x.X i j * b j) + x.off i = eta x b i := rfl

theorem Adm.mem {b : Fin p → ℝ} (h : Adm x b) (i : Fin N) : x.lk.fiR (eta x b i) ∈ (x.fam i).dom := by
  obtain ⟨mu, hm, he⟩ := h i
  rw [eta_def, fi_eq, fin_inj] at he
  rwa [he]

theorem adm_of {b : Fin p → ℝ} (h : ∀ i, x.lk.fiR (eta x b i) ∈ (x.fam i).dom) : Adm x b :=
  fun i => ⟨_, h i, by rw [eta_def, fi_eq]⟩

/-- Fisher weight. -/
noncomputable def wR (x : In N p) (b : Fin p → ℝ) (i : Fin N) : ℝ :=
  1 / (x.lk.d1R (x.lk.fiR (eta x b i)) ^ 2 * (x.fam i).VR (x.lk.fiR (eta x b i)))

/-- Scale times derivative of the log-likelihood in the predictor. -/
noncomputable def uF (fam : FamKind) (lk : LinkKind) (y e : ℝ) : ℝ :=
  (y - lk.fiR e) / (lk.d1R (lk.fiR e) * fam.VR (lk.fiR e))

noncomputable def uR (x : In N p) (b : Fin p → ℝ) (i : Fin N) : ℝ := uF (x.fam i) x.lk (x.y i) (eta x b i)

/-- Scale times gradient of the penalised log-likelihood. -/
noncomputable def G (x : In N p) (b : Fin p → ℝ) (a : Fin p) : ℝ := (∑ i, uR x b i * x.X i a) - (x.S *ᵥ b) a

section
variable {s : ℝ} (hg : Good x s) {b : Fin p → ℝ} (hb : Adm x b)
include hg hb

theorem wR_pos (i : Fin N) : 0 < wR x b i := by
  have h1 := d1_pos (fi_mem x.lk (eta x b i))
  have h3 := V_pos (ok_of_obs (hg.obs i)) (hb.mem i)
  unfold wR
  positivity

theorem zw_eq (i : Fin N) : zw x b i =
    (fin (x.lk.d1R (x.lk.fiR (eta x b i)) * (x.y i - x.lk.fiR (eta x b i)) + (x.X *ᵥ b) i), fin (wR x b i)) := by
  have h1 := d1_pos (fi_mem x.lk (eta x b i))
  have h3 := V_pos (ok_of_obs (hg.obs i)) (hb.mem i)
  simp only [zw, fisherZW, fi_eq]
  rw [d1_eq (fi_mem x.lk _), V_eq (ok_of_obs (hg.obs i)), fin_sub, fin_sub, fin_mul, fin_add, pow_fin, fin_mul,
    fin_div (by positivity)]
  unfold wR eta
  simp

theorem valid_all : validRows (zw x b) = List.finRange N := by
  unfold validRows
  rw [List.filter_eq_self]
  intro i _
  simp [invalid, zw_eq hg hb i, IsFin]

theorem gram_eq (a c : Fin p) : gram x b a c = (∑ i, wR x b i * x.X i a * x.X i c) + x.S a c := by
  unfold gram pirlsX
  rw [Matrix.of_apply, valid_all hg hb, List.map_map, ← List.ofFn_eq_map, List.sum_ofFn]
  congr 1
  refine Finset.sum_congr rfl fun i _ => ?_
  simp only [Function.comp, zw_eq hg hb i, val_fin]
  have := Real.mul_self_sqrt (wR_pos hg hb i).le
  linear_combination (x.X i a * x.X i c) * this

theorem rhs_eq (a : Fin p) : rhs x b a =
    ∑ i, wR x b i * x.X i a * (x.lk.d1R (x.lk.fiR (eta x b i)) * (x.y i - x.lk.fiR (eta x b i)) + (x.X *ᵥ b) i) := by
  unfold rhs pirlsX pirlsY
  rw [valid_all hg hb, List.zipWith_map, List.zipWith_self, ← List.ofFn_eq_map, List.sum_ofFn]
  refine Finset.sum_congr rfl fun i _ => ?_
  simp only [zw_eq hg hb i, val_fin]
  have := Real.mul_self_sqrt (wR_pos hg hb i).le
  linear_combination (x.X i a * (x.lk.d1R (x.lk.fiR (eta x b i)) * (x.y i - x.lk.fiR (eta x b i)) + (x.X *ᵥ b) i)) * this

theorem rhs_sub (a : Fin p) : rhs x b a - (gram x b *ᵥ b) a = G x b a := by
  have e : (gram x b *ᵥ b) a = (∑ i, wR x b i * x.X i a * (x.X *ᵥ b) i) + (x.S *ᵥ b) a := by
    simp only [Matrix.mulVec, dotProduct, gram_eq hg hb, add_mul, Finset.sum_add_distrib, Finset.sum_mul, Finset.mul_sum]
    rw [Finset.sum_comm]
    congr 1
    refine Finset.sum_congr rfl fun i _ => Finset.sum_congr rfl fun c _ => by ring
  rw [e, rhs_eq hg hb]
  unfold G uR uF
  rw [← sub_sub, ← Finset.sum_sub_distrib]
  congr 1
  refine Finset.sum_congr rfl fun i _ => ?_
  have h1 := d1_pos (fi_mem x.lk (eta x b i))
  have h3 := V_pos (ok_of_obs (hg.obs i)) (hb.mem i)
  unfold wR
  field_simp
  ring

theorem gram_step (hM : (gram x b).PosDef) : gram x b *ᵥ (next x b - b) = G x b := by
  have hu : IsUnit (gram x b).det := hM.isUnit.map Matrix.detMonoidHom
  funext a
  rw [Matrix.mulVec_sub, Pi.sub_apply, ← rhs_sub hg hb a]
  congr 1
  unfold next Gauss.solveXX
  rw [if_pos hM]
  show (gram x b *ᵥ ((gram x b)⁻¹ *ᵥ rhs x b)) a = _
  rw [Matrix.mulVec_mulVec, Matrix.mul_nonsing_inv _ hu, Matrix.one_mulVec]

end

/-! ### Real version of the penalised log-likelihood -/

noncomputable def phi (fam : FamKind) (lk : LinkKind) (y s e : ℝ) : ℝ := fam.lR y (lk.fiR e) s + fam.cR y s

noncomputable def PR (x : In N p) (s : ℝ) (b : Fin p → ℝ) : ℝ :=
  (∑ i, phi (x.fam i) x.lk (x.y i) s (eta x b i)) - (b ⬝ᵥ (x.S *ᵥ b)) / (2 * s)

theorem quad_eq (S : Matrix (Fin p) (Fin p) ℝ) (b : Fin p → ℝ) :
    ∑ a, ∑ c, b a * S a c * b c = b ⬝ᵥ (S *ᵥ b) := by
  simp only [dotProduct, Matrix.mulVec, Finset.mul_sum]
  refine Finset.sum_congr rfl fun a _ => Finset.sum_congr rfl fun c _ => by ring

theorem pllk_eq {s : ℝ} (hg : Good x s) {b : Fin p → ℝ} (hb : Adm x b) : pllk x s b = fin (PR x s b) := by
  unfold pllk PR
  rw [quad_eq, show (fun i => lpEta (x.fam i) x.lk (x.y i) s (fin ((∑ j, x.X i j * b j) + x.off i))) =
    fun i => fin (phi (x.fam i) x.lk (x.y i) s (eta x b i)) from
      funext fun i => by rw [eta_def, lpEta_eq (hg.obs i) hg.pos (hb.mem i)]; rfl, sum_fin, fin_sub]

theorem phi_deriv {fam : FamKind} {lk : LinkKind} {y s e : ℝ} (hy : y ∈ fam.obs) (hs : 0 < s)
    (hm : lk.fiR e ∈ fam.dom) (h2 : fam.twopar = true ∨ s = 1) :
    HasDerivAt (phi fam lk y s) (uF fam lk y e / s) e := lEta_deriv hy hs hm h2

theorem uF_deriv {fam : FamKind} {lk : LinkKind} {y e : ℝ} (ho : fam.ok) (hm : lk.fiR e ∈ fam.dom) :
    HasDerivAt (uF fam lk y)
      (-(aR fam lk y (lk.fiR e) / (lk.d1R (lk.fiR e) ^ 2 * fam.VR (lk.fiR e)))) e := by
  have h1 := d1_pos (fi_mem lk e)
  have h3 := V_pos ho hm
  set m := lk.fiR e with hmdef
  have hmd : HasDerivAt lk.fiR (1 / lk.d1R m) e := fiR_deriv lk e
  have hnum := hmd.const_sub y
  have hden : HasDerivAt (fun e => lk.d1R (lk.fiR e) * fam.VR (lk.fiR e))
      (lk.d2R m * (1 / lk.d1R m) * fam.VR m + lk.d1R m * (fam.dVR m * (1 / lk.d1R m))) e :=
    (HasDerivAt.comp (h₂ := lk.d1R) e (d1R_deriv (fi_mem lk e)) hmd).mul
      (HasDerivAt.comp (h₂ := fam.VR) e (VR_deriv fam (lk.fiR e)) hmd)
  have := hnum.div hden (by rw [← hmdef]; positivity)
  refine this.congr_deriv ?_
  rw [← hmdef]
  simp only [aR]
  field_simp
  ring

/-! ### Means of convex combinations -/

theorem fi_mono (lk : LinkKind) : Monotone lk.fiR := by
  refine monotone_of_hasDerivAt_nonneg (fun e => fiR_deriv lk e) fun e => ?_
  have := d1_pos (fi_mem lk e)
  show (0 : ℝ) ≤ 1 / _
  positivity

theorem dom_ord (fam : FamKind) : fam.dom.OrdConnected := by
  cases fam
  · exact Set.ordConnected_Ioo
  · exact Set.ordConnected_univ
  · exact Set.ordConnected_Ioi
  · exact Set.ordConnected_Ioi
  · exact Set.ordConnected_Ioi

theorem seg_dom {fam : FamKind} {lk : LinkKind} {e d t : ℝ} (h0 : lk.fiR e ∈ fam.dom) (h1 : lk.fiR (e + d) ∈ fam.dom)
    (ht : 0 ≤ t) (ht' : t ≤ 1) : lk.fiR (e + t * d) ∈ fam.dom := by
  rcases le_total 0 d with hd | hd
  · exact (dom_ord fam).out h0 h1 ⟨fi_mono lk (by nlinarith [mul_nonneg ht hd]), fi_mono lk (by nlinarith)⟩
  · exact (dom_ord fam).out h1 h0 ⟨fi_mono lk (by nlinarith), fi_mono lk (by nlinarith [mul_nonneg ht (neg_nonneg.2 hd)])⟩

/-- Second order expansion of the log-likelihood of a row. -/
theorem taylor {fam : FamKind} {lk : LinkKind} {y s e d : ℝ} (hy : y ∈ fam.obs) (hs : 0 < s)
    (h2 : fam.twopar = true ∨ s = 1) (h0 : lk.fiR e ∈ fam.dom) (h1 : lk.fiR (e + d) ∈ fam.dom) :
    ∃ c r : ℝ, 0 < c ∧ lk.fiR r ∈ fam.dom ∧
      phi fam lk y s (e + d) = phi fam lk y s e + uF fam lk y e / s * d -
        aR fam lk y (lk.fiR r) / (lk.d1R (lk.fiR r) ^ 2 * fam.VR (lk.fiR r)) / s * c * d ^ 2 := by
  have ho := ok_of_obs hy
  have hl : ∀ t : ℝ, HasDerivAt (fun t : ℝ => e + t * d) d t := fun t => by
    simpa using ((hasDerivAt_id t).mul_const d).const_add e
  have hd1 : ∀ t ∈ Set.Icc (0 : ℝ) 1, HasDerivAt (fun t => phi fam lk y s (e + t * d))
      (uF fam lk y (e + t * d) / s * d) t := fun t ht =>
    HasDerivAt.comp (h₂ := phi fam lk y s) t (phi_deriv hy hs (seg_dom h0 h1 ht.1 ht.2) h2) (hl t)
  obtain ⟨c, hc, hce⟩ := exists_hasDerivAt_eq_slope (fun t => phi fam lk y s (e + t * d))
    (fun t => uF fam lk y (e + t * d) / s * d) one_pos
    (fun t ht => (hd1 t ht).continuousAt.continuousWithinAt) (fun t ht => hd1 t (Set.Ioo_subset_Icc_self ht))
  have hd2 : ∀ t ∈ Set.Icc (0 : ℝ) c, HasDerivAt (fun t => uF fam lk y (e + t * d))
      (-(aR fam lk y (lk.fiR (e + t * d)) / (lk.d1R (lk.fiR (e + t * d)) ^ 2 * fam.VR (lk.fiR (e + t * d)))) * d) t :=
    fun t ht => HasDerivAt.comp (h₂ := uF fam lk y) t (uF_deriv ho (seg_dom h0 h1 ht.1 (ht.2.trans hc.2.le))) (hl t)
  obtain ⟨r, hr, hre⟩ := exists_hasDerivAt_eq_slope (fun t => uF fam lk y (e + t * d))
    (fun t => -(aR fam lk y (lk.fiR (e + t * d)) / (lk.d1R (lk.fiR (e + t * d)) ^ 2 * fam.VR (lk.fiR (e + t * d)))) * d) hc.1
    (fun t ht => (hd2 t ht).continuousAt.continuousWithinAt) (fun t ht => hd2 t (Set.Ioo_subset_Icc_self ht))
  refine ⟨c, e + r * d, hc.1, seg_dom h0 h1 hr.1.le (hr.2.le.trans hc.2.le), ?_⟩
  simp only [one_mul, zero_mul, add_zero, sub_zero, div_one] at hce hre
  rw [eq_div_iff hc.1.ne'] at hre
  have h3 : uF fam lk y (e + c * d) = uF fam lk y e -
      aR fam lk y (lk.fiR (e + r * d)) / (lk.d1R (lk.fiR (e + r * d)) ^ 2 * fam.VR (lk.fiR (e + r * d))) * d * c := by
    linarith
  rw [h3] at hce
  have h4 : phi fam lk y s (e + d) = phi fam lk y s e + (uF fam lk y e -
      aR fam lk y (lk.fiR (e + r * d)) / (lk.d1R (lk.fiR (e + r * d)) ^ 2 * fam.VR (lk.fiR (e + r * d))) * d * c) / s * d := by
    linarith
  rw [h4]
  ring

/-! ### Combinations of family and link with concave log-likelihood -/

/-- Families and links whose log-likelihood is concave in the predictor. -/
def concave : FamKind → LinkKind → Prop
  | .binomial _, .logit => True
  | .binomial _, .identity => True
  | .binomial _, .log => True
  | .gaussian, .identity => True
  | .gamma, .log => True
  | .poisson, .log => True
  | .poisson, .identity => True
  | .poisson, .logb c => 0 ≤ c
  | _, _ => False

/-- Families and links whose log-likelihood is strictly concave in the predictor. -/
def strict : FamKind → LinkKind → Prop
  | .binomial _, .logit => True
  | .binomial _, .identity => True
  | .gaussian, .identity => True
  | .gamma, .log => True
  | .poisson, .log => True
  | .poisson, .logb c => 0 ≤ c
  | _, _ => False

theorem binom_range {n : ℕ} {y : ℝ} (hy : y ∈ (FamKind.binomial n).obs) : 0 ≤ y ∧ y ≤ 1 := by
  obtain ⟨hn, k, hk, rfl⟩ := hy
  have : (0 : ℝ) < n := Nat.cast_pos.2 hn
  exact ⟨by positivity, by rw [div_le_one this]; exact_mod_cast hk⟩

theorem a_nonneg {fam : FamKind} {lk : LinkKind} (hc : concave fam lk) {y m : ℝ} (hy : y ∈ fam.obs) (hm : m ∈ fam.dom)
    (hm' : m ∈ lk.dom) : 0 ≤ aR fam lk y m := by
  unfold aR
  cases fam with
  | binomial n =>
    obtain ⟨h0, h1⟩ := hm
    obtain ⟨y0, y1⟩ := binom_range hy
    have hn : (0 : ℝ) < n := Nat.cast_pos.2 hy.1
    have h1' : 0 < 1 - m := by linarith
    cases lk with
    | logit =>
      have : 1 + (y - m) * ((FamKind.binomial n).dVR m / (FamKind.binomial n).VR m + LinkKind.logit.d2R m / LinkKind.logit.d1R m) = 1 := by
        simp only [FamKind.dVR, FamKind.VR, LinkKind.d1R, LinkKind.d2R]
        field_simp; ring
      rw [this]; norm_num
    | identity =>
      have : 1 + (y - m) * ((FamKind.binomial n).dVR m / (FamKind.binomial n).VR m + LinkKind.identity.d2R m / LinkKind.identity.d1R m)
          = (y * (1 - m) ^ 2 + (1 - y) * m ^ 2) / (m * (1 - m)) := by
        simp only [FamKind.dVR, FamKind.VR, LinkKind.d1R, LinkKind.d2R]
        field_simp; ring
      rw [this]
      have : 0 ≤ 1 - y := by linarith
      positivity
    | log =>
      have : 1 + (y - m) * ((FamKind.binomial n).dVR m / (FamKind.binomial n).VR m + LinkKind.log.d2R m / LinkKind.log.d1R m)
          = (1 - y) / (1 - m) := by
        simp only [FamKind.dVR, FamKind.VR, LinkKind.d1R, LinkKind.d2R]
        field_simp; ring
      rw [this]
      have : 0 ≤ 1 - y := by linarith
      positivity
    | logb c => exact absurd hc id
  | gaussian =>
    cases lk with
    | identity => simp [FamKind.dVR, FamKind.VR, LinkKind.d1R, LinkKind.d2R]
    | logit => exact absurd hc id
    | log => exact absurd hc id
    | logb c => exact absurd hc id
  | gamma =>
    have h0 : 0 < m := hm
    have y0 : 0 < y := hy
    cases lk with
    | log =>
      have : 1 + (y - m) * (FamKind.gamma.dVR m / FamKind.gamma.VR m + LinkKind.log.d2R m / LinkKind.log.d1R m) = y / m := by
        simp only [FamKind.dVR, FamKind.VR, LinkKind.d1R, LinkKind.d2R]
        field_simp; ring
      rw [this]; positivity
    | logit => exact absurd hc id
    | identity => exact absurd hc id
    | logb c => exact absurd hc id
  | invGauss => cases lk <;> exact absurd hc id
  | poisson =>
    have h0 : 0 < m := hm
    have y0 : 0 ≤ y := by obtain ⟨k, rfl⟩ := hy; positivity
    cases lk with
    | logit => exact absurd hc id
    | identity =>
      have : 1 + (y - m) * (FamKind.poisson.dVR m / FamKind.poisson.VR m + LinkKind.identity.d2R m / LinkKind.identity.d1R m) = y / m := by
        simp only [FamKind.dVR, FamKind.VR, LinkKind.d1R, LinkKind.d2R]
        field_simp; ring
      rw [this]; positivity
    | log =>
      have : 1 + (y - m) * (FamKind.poisson.dVR m / FamKind.poisson.VR m + LinkKind.log.d2R m / LinkKind.log.d1R m) = 1 := by
        simp only [FamKind.dVR, FamKind.VR, LinkKind.d1R, LinkKind.d2R]
        field_simp; ring
      rw [this]; norm_num
    | logb c =>
      have c0 : 0 ≤ c := hc
      have : 1 + (y - m) * (FamKind.poisson.dVR m / FamKind.poisson.VR m + (LinkKind.logb c).d2R m / (LinkKind.logb c).d1R m)
          = (m ^ 2 + y * c) / (m * (m + c)) := by
        have : m + c ≠ 0 := by positivity
        have : c + m ≠ 0 := by positivity
        simp only [FamKind.dVR, FamKind.VR, LinkKind.d1R, LinkKind.d2R]
        field_simp; ring
      rw [this]; positivity

theorem a_pos {fam : FamKind} {lk : LinkKind} (hc : strict fam lk) {y m : ℝ} (hy : y ∈ fam.obs) (hm : m ∈ fam.dom) :
    0 < aR fam lk y m := by
  unfold aR
  cases fam with
  | binomial n =>
    obtain ⟨h0, h1⟩ := hm
    obtain ⟨y0, y1⟩ := binom_range hy
    have hn : (0 : ℝ) < n := Nat.cast_pos.2 hy.1
    have h1' : 0 < 1 - m := by linarith
    cases lk with
    | logit =>
      have : 1 + (y - m) * ((FamKind.binomial n).dVR m / (FamKind.binomial n).VR m + LinkKind.logit.d2R m / LinkKind.logit.d1R m) = 1 := by
        simp only [FamKind.dVR, FamKind.VR, LinkKind.d1R, LinkKind.d2R]
        field_simp; ring
      rw [this]; norm_num
    | identity =>
      have : 1 + (y - m) * ((FamKind.binomial n).dVR m / (FamKind.binomial n).VR m + LinkKind.identity.d2R m / LinkKind.identity.d1R m)
          = (y * (1 - m) ^ 2 + (1 - y) * m ^ 2) / (m * (1 - m)) := by
        simp only [FamKind.dVR, FamKind.VR, LinkKind.d1R, LinkKind.d2R]
        field_simp; ring
      rw [this]
      have e1 : 0 < (1 - m) ^ 2 := by positivity
      have e2 : 0 < m ^ 2 := by positivity
      have : 0 < y * (1 - m) ^ 2 + (1 - y) * m ^ 2 := by
        rcases y0.lt_or_eq with hp | hz
        · have := mul_pos hp e1
          have := mul_nonneg (by linarith : 0 ≤ 1 - y) e2.le
          linarith
        · rw [← hz]; simpa using e2
      positivity
    | log => exact absurd hc id
    | logb c => exact absurd hc id
  | gaussian =>
    cases lk with
    | identity => simp [FamKind.dVR, FamKind.VR, LinkKind.d1R, LinkKind.d2R]
    | logit => exact absurd hc id
    | log => exact absurd hc id
    | logb c => exact absurd hc id
  | gamma =>
    have h0 : 0 < m := hm
    have y0 : 0 < y := hy
    cases lk with
    | log =>
      have : 1 + (y - m) * (FamKind.gamma.dVR m / FamKind.gamma.VR m + LinkKind.log.d2R m / LinkKind.log.d1R m) = y / m := by
        simp only [FamKind.dVR, FamKind.VR, LinkKind.d1R, LinkKind.d2R]
        field_simp; ring
      rw [this]; positivity
    | logit => exact absurd hc id
    | identity => exact absurd hc id
    | logb c => exact absurd hc id
  | invGauss => cases lk <;> exact absurd hc id
  | poisson =>
    have h0 : 0 < m := hm
    have y0 : 0 ≤ y := by obtain ⟨k, rfl⟩ := hy; positivity
    cases lk with
    | logit => exact absurd hc id
    | identity => exact absurd hc id
    | log =>
      have : 1 + (y - m) * (FamKind.poisson.dVR m / FamKind.poisson.VR m + LinkKind.log.d2R m / LinkKind.log.d1R m) = 1 := by
        simp only [FamKind.dVR, FamKind.VR, LinkKind.d1R, LinkKind.d2R]
        field_simp; ring
      rw [this]; norm_num
    | logb c =>
      have c0 : 0 ≤ c := hc
      have : 1 + (y - m) * (FamKind.poisson.dVR m / FamKind.poisson.VR m + (LinkKind.logb c).d2R m / (LinkKind.logb c).d1R m)
          = (m ^ 2 + y * c) / (m * (m + c)) := by
        have : m + c ≠ 0 := by positivity
        have : c + m ≠ 0 := by positivity
        simp only [FamKind.dVR, FamKind.VR, LinkKind.d1R, LinkKind.d2R]
        field_simp; ring
      rw [this]; positivity

end Verif.Pirls
