import Verif.Totals

/-!
# For which data estimates exist (property C147)
-/

namespace Verif.Sep
open Verif Matrix Fl Fam

variable {N p : ℕ} {x : Pirls.In N p} {s : ℝ}

/-- Families and links considered. -/
def covered : FamKind → LinkKind → Prop
  | .binomial _, .logit => True
  | .poisson, .log => True
  | .gaussian, .identity => True
  | .gamma, .log => True
  | _, _ => False

/-- Changing the predictor of an observation `y` by positive multiples of `d` never makes the observation less likely. -/
def Free : FamKind → ℝ → ℝ → Prop
  | .binomial _, y, d => (y ≠ 0 → 0 ≤ d) ∧ (y ≠ 1 → d ≤ 0)
  | .poisson, y, d => (y ≠ 0 → 0 ≤ d) ∧ d ≤ 0
  | _, _, d => d = 0

/-- The data are separated: there is a direction, not penalised, in which no observation becomes less likely. -/
def Separated (x : Pirls.In N p) : Prop :=
  ∃ v : Fin p → ℝ, v ≠ 0 ∧ x.S *ᵥ v = 0 ∧ ∀ i, Free (x.fam i) (x.y i) (∑ j, x.X i j * v j)

/-! ### Upper bounds of the log-likelihood -/

open Classical in
/-- What a change of the predictor costs at least, up to constants. -/
noncomputable def bad : FamKind → ℝ → ℝ → ℝ
  | .binomial _, y, d => (if y = 0 then 0 else max (-d) 0) + (if y = 1 then 0 else max d 0)
  | .poisson, y, d => (if y = 0 then 0 else max (-d) 0) + max d 0
  | _, _, d => |d|

theorem bad_nonneg (f : FamKind) (y d : ℝ) : 0 ≤ bad f y d := by
  have h1 := le_max_right (-d) 0
  have h2 := le_max_right d 0
  cases f <;> simp only [bad] <;> first | exact abs_nonneg d | skip
  · split <;> split <;> linarith
  · split <;> linarith

theorem bad_zero {f : FamKind} {y d : ℝ} (h : bad f y d = 0) : Free f y d := by
  have h1 := le_max_right (-d) 0
  have h2 := le_max_right d 0
  have h3 := le_max_left (-d) 0
  have h4 := le_max_left d 0
  cases f <;> simp only [bad] at h <;> first | exact abs_eq_zero.1 h | skip
  · refine ⟨fun hy => ?_, fun hy => ?_⟩
    · rw [if_neg hy] at h
      split at h <;> linarith
    · rw [if_neg hy] at h
      split at h <;> linarith
  · refine ⟨fun hy => ?_, ?_⟩
    · rw [if_neg hy] at h
      linarith
    · split at h <;> linarith

theorem bad_smul (f : FamKind) (y d : ℝ) {t : ℝ} (ht : 0 ≤ t) : bad f y (t * d) = t * bad f y d := by
  have e1 : max (t * d) 0 = t * max d 0 := by rw [mul_max_of_nonneg _ _ ht, mul_zero]
  have e2 : max (-(t * d)) 0 = t * max (-d) 0 := by rw [mul_max_of_nonneg _ _ ht, mul_zero, mul_neg]
  cases f <;> simp only [bad, e1, e2, abs_mul, abs_of_nonneg ht]
  · split <;> split <;> ring
  · split <;> ring

theorem bad_cont (f : FamKind) (y : ℝ) : Continuous (bad f y) := by
  classical
  cases f with
  | binomial n =>
    show Continuous fun d => (if y = 0 then 0 else max (-d) 0) + (if y = 1 then 0 else max d 0)
    refine Continuous.add ?_ ?_
    · by_cases h : y = 0 <;> simp only [h, if_true, if_false] <;> fun_prop
    · by_cases h : y = 1 <;> simp only [h, if_true, if_false] <;> fun_prop
  | poisson =>
    show Continuous fun d => (if y = 0 then 0 else max (-d) 0) + max d 0
    by_cases h : y = 0 <;> simp only [h, if_true, if_false] <;> fun_prop
  | _ => exact continuous_abs

theorem bad_shift (f : FamKind) (y d o : ℝ) : bad f y d ≤ bad f y (d + o) + 2 * |o| := by
  have a1 := neg_abs_le o
  have a2 := le_abs_self o
  have a3 := abs_nonneg o
  have m1 : max d 0 ≤ max (d + o) 0 + |o| :=
    max_le (by have := le_max_left (d + o) 0; linarith) (by have := le_max_right (d + o) 0; linarith)
  have m2 : max (-d) 0 ≤ max (-(d + o)) 0 + |o| :=
    max_le (by have := le_max_left (-(d + o)) 0; linarith) (by have := le_max_right (-(d + o)) 0; linarith)
  have m3 : |d| ≤ |d + o| + |o| := by
    have := abs_sub (d + o) o
    rwa [add_sub_cancel_right] at this
  cases f <;> simp only [bad] <;> first | linarith | skip
  · split <;> split <;> linarith
  · split <;> linarith

/-- The log-likelihood of a row is bounded by a constant minus a multiple of `bad`. -/
theorem phi_le {f : FamKind} {lk : LinkKind} {y : ℝ} (hc : covered f lk) (hy : y ∈ f.obs) (hs : 0 < s) :
    ∃ C c : ℝ, 0 < c ∧ ∀ e, Pirls.phi f lk y s e ≤ C - c * bad f y e := by
  cases f <;> cases lk <;> first | exact hc.elim | skip
  · rename_i n
    obtain ⟨hn, k, hk, rfl⟩ := hy
    have hn' : (0 : ℝ) < n := Nat.cast_pos.2 hn
    refine ⟨(FamKind.binomial n).cR (k / n) s, 1, one_pos, fun e => ?_⟩
    have he := Real.exp_pos e
    have h1 : 0 < 1 + Real.exp e := by linarith
    have l1 : Real.log (LinkKind.logit.fiR e) = e - Real.log (1 + Real.exp e) := by
      show Real.log (Real.exp e / (1 + Real.exp e)) = _
      rw [Real.log_div he.ne' h1.ne', Real.log_exp]
    have l2 : Real.log (1 - LinkKind.logit.fiR e) = -Real.log (1 + Real.exp e) := by
      show Real.log (1 - Real.exp e / (1 + Real.exp e)) = _
      rw [one_sub_div h1.ne', add_sub_cancel_right, Real.log_div one_ne_zero h1.ne', Real.log_one, zero_sub]
    have g0 : 0 ≤ Real.log (1 + Real.exp e) := Real.log_nonneg (by linarith)
    have g1 : e ≤ Real.log (1 + Real.exp e) := by
      rw [Real.le_log_iff_exp_le h1]
      linarith
    set L := Real.log (1 + Real.exp e)
    have b1 : (if ((k : ℝ) / n) = 0 then 0 else max (-e) 0) ≤ (k : ℝ) * (L - e) := by
      by_cases hk0 : k = 0
      · simp [hk0]
      · rw [if_neg (by positivity)]
        have : (1 : ℝ) ≤ k := Nat.one_le_cast.2 (Nat.pos_of_ne_zero hk0)
        have : max (-e) 0 ≤ L - e := max_le (by linarith) (by linarith)
        nlinarith
    have b2 : (if ((k : ℝ) / n) = 1 then 0 else max e 0) ≤ ((n : ℝ) - k) * L := by
      by_cases hk0 : k = n
      · have : (k : ℝ) / n = 1 := by rw [hk0, div_self hn'.ne']
        rw [if_pos this, hk0, sub_self, zero_mul]
      · have hlt : k + 1 ≤ n := lt_of_le_of_ne hk hk0
        rw [if_neg (by rw [div_eq_one_iff_eq hn'.ne']; exact_mod_cast hk0)]
        have : (1 : ℝ) ≤ (n : ℝ) - k := by
          have : ((k + 1 : ℕ) : ℝ) ≤ n := Nat.cast_le.2 hlt
          push_cast at this
          linarith
        have : max e 0 ≤ L := max_le g1 g0
        nlinarith
    show ((k : ℝ) / n * n) * Real.log (LinkKind.logit.fiR e) + (n - (k : ℝ) / n * n) * Real.log (1 - LinkKind.logit.fiR e) + _ ≤ _
    rw [l1, l2, div_mul_cancel₀ _ hn'.ne']
    simp only [bad]
    linarith
  · refine ⟨s / 2 + |y| + FamKind.gaussian.cR y s, 1, one_pos, fun e => ?_⟩
    show -(y - e) ^ 2 / (2 * s) + _ ≤ _
    simp only [bad]
    have h1 : |e| ≤ |y - e| + |y| := by
      have := abs_sub y (y - e)
      rw [sub_sub_cancel] at this
      linarith
    have h2 : |y - e| - s / 2 ≤ (y - e) ^ 2 / (2 * s) := by
      rw [le_div_iff₀ (by positivity), ← sq_abs (y - e)]
      nlinarith [sq_nonneg (|y - e| - s)]
    rw [neg_div]
    linarith
  · have y0 : 0 < y := hy
    refine ⟨|2 * Real.log (2 / y) - 2| / s + FamKind.gamma.cR y s, 1 / s, by positivity, fun e => ?_⟩
    show -(1 / s) * Real.log (Real.exp e) - y / (s * Real.exp e) + _ ≤ _
    rw [Real.log_exp]
    simp only [bad]
    have hE : y / (s * Real.exp e) = y * Real.exp (-e) / s := by
      rw [Real.exp_neg]
      field_simp
    have key : |e| - e ≤ |2 * Real.log (2 / y) - 2| + y * Real.exp (-e) := by
      have hp : 0 < y * Real.exp (-e) := by positivity
      rcases le_total 0 e with h | h
      · rw [abs_of_nonneg h]
        have := abs_nonneg (2 * Real.log (2 / y) - 2)
        linarith
      · rw [abs_of_nonpos h]
        have h1 := Real.add_one_le_exp (-e - Real.log (2 / y))
        rw [Real.exp_sub, Real.exp_log (by positivity)] at h1
        have h2 : Real.exp (-e) / (2 / y) = y * Real.exp (-e) / 2 := by field_simp
        rw [h2] at h1
        have := le_abs_self (2 * Real.log (2 / y) - 2)
        linarith
    have key' := mul_le_mul_of_nonneg_left key (by positivity : 0 ≤ 1 / s)
    rw [hE]
    have e1 : y * Real.exp (-e) / s = 1 / s * (y * Real.exp (-e)) := by ring
    have e2 : |2 * Real.log (2 / y) - 2| / s = 1 / s * |2 * Real.log (2 / y) - 2| := by ring
    rw [e1, e2]
    linarith
  · obtain ⟨k, rfl⟩ := hy
    refine ⟨|((k : ℝ) + 1) * (Real.log (k + 1) - 1)| + FamKind.poisson.cR k s, 1, one_pos, fun e => ?_⟩
    show (k : ℝ) * Real.log (Real.exp e) - Real.exp e + _ ≤ _
    rw [Real.log_exp]
    simp only [bad]
    have k0 : (0 : ℝ) ≤ k := Nat.cast_nonneg k
    have he := Real.exp_pos e
    have a0 := le_abs_self (((k : ℝ) + 1) * (Real.log (k + 1) - 1))
    have a1 := abs_nonneg (((k : ℝ) + 1) * (Real.log (k + 1) - 1))
    have b1 : (k : ℝ) * e - Real.exp e + max e 0 + (if (k : ℝ) = 0 then 0 else max (-e) 0) ≤ |((k : ℝ) + 1) * (Real.log (k + 1) - 1)| := by
      rcases le_total 0 e with h | h
      · have h1 := Real.add_one_le_exp (e - Real.log (k + 1))
        rw [Real.exp_sub, Real.exp_log (by positivity), le_div_iff₀ (by positivity)] at h1
        rw [max_eq_left h, max_eq_right (by linarith : -e ≤ 0), ite_self]
        linarith
      · rw [max_eq_right h, max_eq_left (by linarith : 0 ≤ -e)]
        by_cases hk : (k : ℝ) = 0
        · rw [if_pos hk, hk, zero_mul]
          rw [hk] at a1
          linarith
        · rw [if_neg hk]
          have : (1 : ℝ) ≤ k := Nat.one_le_cast.2 (Nat.pos_of_ne_zero fun h0 => hk (by rw [h0, Nat.cast_zero]))
          have : (k : ℝ) * e ≤ e := by nlinarith
          linarith
    linarith

/-- Cost of a direction. -/
noncomputable def cost (x : Pirls.In N p) (b : Fin p → ℝ) : ℝ := (∑ i, bad (x.fam i) (x.y i) (∑ j, x.X i j * b j)) + b ⬝ᵥ (x.S *ᵥ b)

theorem psd_nonneg (hg : Pirls.Good x s) (b : Fin p → ℝ) : 0 ≤ b ⬝ᵥ (x.S *ᵥ b) := hg.psd.dotProduct_mulVec_nonneg b

theorem PR_le_cost (hg : Pirls.Good x s) (hc : ∀ i, covered (x.fam i) x.lk) :
    ∃ C c : ℝ, 0 < c ∧ ∀ b, Pirls.PR x s b ≤ C - c * cost x b := by
  choose C c hp h using fun i => phi_le (hc i) (hg.obs i) hg.pos
  set K := 2 * s + ∑ i, 1 / c i with hK
  have hpos : ∀ i ∈ Finset.univ, 0 ≤ 1 / c i := fun i _ => (one_div_pos.2 (hp i)).le
  have hs : 0 < 2 * s := by have := hg.pos; linarith
  have hKp : 0 < K := add_pos_of_pos_of_nonneg hs (Finset.sum_nonneg hpos)
  refine ⟨(∑ i, C i) + 1 / K * ∑ i, 2 * |x.off i|, 1 / K, one_div_pos.2 hKp, fun b => ?_⟩
  have h1 : ∀ i, Pirls.phi (x.fam i) x.lk (x.y i) s (Pirls.eta x b i) ≤
      C i + 1 / K * (2 * |x.off i|) - 1 / K * bad (x.fam i) (x.y i) (∑ j, x.X i j * b j) := by
    intro i
    have hle : 1 / K ≤ c i := by
      rw [div_le_iff₀ hKp]
      have h2 : 1 / c i ≤ K := (Finset.single_le_sum hpos (Finset.mem_univ i)).trans (by rw [hK]; linarith)
      have := mul_le_mul_of_nonneg_left h2 (hp i).le
      rwa [mul_one_div_cancel (hp i).ne'] at this
    have h3 := h i (Pirls.eta x b i)
    have h4 := bad_shift (x.fam i) (x.y i) (∑ j, x.X i j * b j) (x.off i)
    have h5 : Pirls.eta x b i = (∑ j, x.X i j * b j) + x.off i := rfl
    rw [← h5] at h4
    have h6 := mul_le_mul_of_nonneg_right hle (bad_nonneg (x.fam i) (x.y i) (Pirls.eta x b i))
    have h7 := mul_le_mul_of_nonneg_left h4 (one_div_pos.2 hKp).le
    linarith
  have h2 := Finset.sum_le_sum fun i (_ : i ∈ Finset.univ) => h1 i
  simp only [Finset.sum_sub_distrib, Finset.sum_add_distrib, ← Finset.mul_sum] at h2
  have h3 : 1 / K * (b ⬝ᵥ (x.S *ᵥ b)) ≤ (b ⬝ᵥ (x.S *ᵥ b)) / (2 * s) := by
    rw [div_eq_mul_one_div _ (2 * s), mul_comm (1 / K)]
    refine mul_le_mul_of_nonneg_left ?_ (psd_nonneg hg b)
    refine one_div_le_one_div_of_le hs ?_
    have := Finset.sum_nonneg hpos
    linarith
  unfold Pirls.PR cost
  simp only [← Finset.mul_sum]
  rw [mul_add]
  linarith

theorem cost_nonneg (hg : Pirls.Good x s) (b : Fin p → ℝ) : 0 ≤ cost x b :=
  add_nonneg (Finset.sum_nonneg fun _ _ => bad_nonneg _ _ _) (psd_nonneg hg b)

theorem cost_pos (hg : Pirls.Good x s) (hn : ¬Separated x) {b : Fin p → ℝ} (hb : b ≠ 0) : 0 < cost x b := by
  refine lt_of_le_of_ne (cost_nonneg hg b) fun h0 => hn ⟨b, hb, ?_, fun i => bad_zero ?_⟩
  · have h1 := Finset.sum_nonneg fun i (_ : i ∈ Finset.univ) => bad_nonneg (x.fam i) (x.y i) (∑ j, x.X i j * b j)
    have h2 := psd_nonneg hg b
    unfold cost at h0
    exact (hg.psd.dotProduct_mulVec_zero_iff b).1 (by show b ⬝ᵥ (x.S *ᵥ b) = 0; linarith)
  · have h1 := Finset.single_le_sum (fun i (_ : i ∈ Finset.univ) => bad_nonneg (x.fam i) (x.y i) (∑ j, x.X i j * b j)) (Finset.mem_univ i)
    have h2 := psd_nonneg hg b
    have h3 := bad_nonneg (x.fam i) (x.y i) (∑ j, x.X i j * b j)
    unfold cost at h0
    linarith

theorem cost_cont (x : Pirls.In N p) : Continuous (cost x) := by
  unfold cost
  refine Continuous.add (continuous_finsetSum _ fun i _ => (bad_cont _ _).comp ?_) ?_
  · fun_prop
  · simp only [dotProduct, Matrix.mulVec]
    fun_prop

theorem cost_smul (hg : Pirls.Good x s) (b : Fin p → ℝ) {t : ℝ} (ht : 1 ≤ t) : t * cost x b ≤ cost x (t • b) := by
  have h0 : 0 ≤ t := zero_le_one.trans ht
  have e1 : ∀ i, ∑ j, x.X i j * (t • b) j = t * ∑ j, x.X i j * b j := fun i => by
    rw [Finset.mul_sum]
    exact Finset.sum_congr rfl fun j _ => by rw [Pi.smul_apply, smul_eq_mul]; ring
  unfold cost
  simp only [e1, bad_smul _ _ _ h0, ← Finset.mul_sum]
  rw [mulVec_smul, dotProduct_smul, smul_dotProduct, smul_eq_mul, smul_eq_mul, mul_add]
  have := psd_nonneg hg b
  have : t * (b ⬝ᵥ (x.S *ᵥ b)) ≤ t * (t * (b ⬝ᵥ (x.S *ᵥ b))) := mul_le_mul_of_nonneg_left (by nlinarith) h0
  linarith

theorem cov_total {f : FamKind} {l : LinkKind} (h : covered f l) : Pirls.total f l := by
  cases f <;> cases l <;> first | exact h.elim | trivial

theorem cov_strict {f : FamKind} {l : LinkKind} (h : covered f l) : Pirls.strict f l := by
  cases f <;> cases l <;> first | exact h.elim | trivial

theorem PR_cont (hg : Pirls.Good x s) (hc : ∀ i, covered (x.fam i) x.lk) : Continuous (Pirls.PR x s) := by
  unfold Pirls.PR
  refine Continuous.sub (continuous_finsetSum _ fun i _ => ?_) ?_
  · have h1 : Continuous (Pirls.phi (x.fam i) x.lk (x.y i) s) := continuous_iff_continuousAt.2 fun e => by
      refine (Pirls.phi_deriv (hg.obs i) hg.pos ?_ (hg.two i)).continuousAt
      have hi := hc i
      have hd := fi_mem x.lk e
      have he := Real.exp_pos e
      generalize x.fam i = f at hi ⊢
      generalize x.lk = lk at hi hd ⊢
      cases f <;> cases lk <;> first | exact hi.elim | exact hd | exact he
    refine h1.comp ?_
    unfold Pirls.eta
    simp only [dotProduct, Matrix.mulVec]
    fun_prop
  · simp only [dotProduct, Matrix.mulVec]
    fun_prop

/-- Without separation the penalised log-likelihood falls at least linearly. -/
theorem coercive (hg : Pirls.Good x s) (hc : ∀ i, covered (x.fam i) x.lk) (hn : ¬Separated x) :
    ∃ C m : ℝ, 0 < m ∧ ∀ b : Fin p → ℝ, 1 ≤ ‖b‖ → Pirls.PR x s b ≤ C - m * ‖b‖ := by
  obtain ⟨C, c, hc0, hle⟩ := PR_le_cost hg hc
  have hm : ∃ m : ℝ, 0 < m ∧ ∀ u ∈ Metric.sphere (0 : Fin p → ℝ) 1, m ≤ cost x u := by
    rcases (Metric.sphere (0 : Fin p → ℝ) 1).eq_empty_or_nonempty with h | h
    · exact ⟨1, one_pos, fun u hu => by rw [h] at hu; exact hu.elim⟩
    · obtain ⟨u, hu, hmin⟩ := (isCompact_sphere (0 : Fin p → ℝ) 1).exists_isMinOn h (cost_cont x).continuousOn
      refine ⟨cost x u, cost_pos hg hn fun h0 => ?_, fun v hv => hmin hv⟩
      rw [h0] at hu
      simp at hu
  obtain ⟨m, hm0, hm⟩ := hm
  refine ⟨C, c * m, mul_pos hc0 hm0, fun b hb => ?_⟩
  have hb0 : 0 < ‖b‖ := by linarith
  have hu : ‖b‖⁻¹ • b ∈ Metric.sphere (0 : Fin p → ℝ) 1 := by
    rw [mem_sphere_zero_iff_norm, norm_smul, norm_inv, norm_norm, inv_mul_cancel₀ hb0.ne']
  have h1 := cost_smul hg (‖b‖⁻¹ • b) hb
  rw [smul_smul, mul_inv_cancel₀ hb0.ne', one_smul] at h1
  have h2 := mul_le_mul_of_nonneg_left (hm _ hu) hb0.le
  have h3 := mul_le_mul_of_nonneg_left (h2.trans h1) hc0.le
  rw [show c * m * ‖b‖ = c * (‖b‖ * m) by ring]
  linarith [hle b]

theorem exists_max (hg : Pirls.Good x s) (hc : ∀ i, covered (x.fam i) x.lk) (hn : ¬Separated x) : ∃ b, ∀ b', Pirls.PR x s b' ≤ Pirls.PR x s b := by
  obtain ⟨C, m, hm0, hgrow⟩ := coercive hg hc hn
  set R := max 1 ((C - Pirls.PR x s 0) / m) with hR
  have hR0 : 0 ≤ R := zero_le_one.trans (le_max_left _ _)
  obtain ⟨b, hb, hmax⟩ := (isCompact_closedBall (0 : Fin p → ℝ) R).exists_isMaxOn ⟨0, by simpa using hR0⟩ (PR_cont hg hc).continuousOn
  refine ⟨b, fun b' => ?_⟩
  by_cases h : b' ∈ Metric.closedBall (0 : Fin p → ℝ) R
  · exact hmax h
  · rw [mem_closedBall_zero_iff, not_le] at h
    have h1 := hgrow b' ((le_max_left _ _).trans h.le)
    have h2 : (C - Pirls.PR x s 0) / m < ‖b'‖ := (le_max_right _ _).trans_lt h
    rw [div_lt_iff₀ hm0] at h2
    have h3 : Pirls.PR x s 0 ≤ Pirls.PR x s b := hmax (by simpa using hR0)
    linarith

/-! ### Theorems -/

/-- C147.  Data that are not separated: there is exactly one vector of coefficients that the iteration reproduces. -/
theorem estimate_exists (hg : Pirls.Good x s) (hi : Pirls.Ident x) (hc : ∀ i, covered (x.fam i) x.lk) (hn : ¬Separated x) :
    ∃! b, Pirls.next x b = b := by
  have ha : ∀ b, Pirls.Adm x b := Pirls.adm_total fun i => cov_total (hc i)
  obtain ⟨b, hb⟩ := exists_max hg hc hn
  have hf : Pirls.next x b = b := by
    by_contra hne
    obtain ⟨K, hK⟩ := Pirls.proposal_ascends hg hi (ha b) hne
    obtain ⟨u, v, h1, h2, h3⟩ := hK K le_rfl
    rw [Pirls.pllk_eq hg (ha _), fin_inj] at h1 h2
    have := hb (b + (1 / 2 ^ K : ℝ) • (Pirls.next x b - b))
    linarith
  refine ⟨b, hf, fun b' hf' => ?_⟩
  by_contra hne
  obtain ⟨u, v, h1, h2, h3⟩ := Pirls.fixed_is_unique_max hg hi (fun i => cov_strict (hc i)) (ha b') hf' (ha b) (Ne.symm hne)
  rw [Pirls.pllk_eq hg (ha _), fin_inj] at h1 h2
  have := hb b'
  linarith

/-- C147.  Separated data: every proposal differs from the coefficients it was computed from, so that the iteration never settles. -/
theorem separated_never (hg : Pirls.Good x s) (hi : Pirls.Ident x) (hc : ∀ i, covered (x.fam i) x.lk) (hs : Separated x) (b : Fin p → ℝ) :
    Pirls.next x b ≠ b := by
  intro hf
  obtain ⟨v, hv, h1, h2⟩ := hs
  have hb := Pirls.adm_total (x := x) (fun i => cov_total (hc i)) b
  have h0 := Tot.balance hg hi hb hf (z := fun i => ∑ j, x.X i j * v j) ⟨v, fun _ => rfl, h1⟩
  have hp : ∀ i, 0 ≤ Pirls.uR x b i * ∑ j, x.X i j * v j ∧ (∑ j, x.X i j * v j ≠ 0 → 0 < Pirls.uR x b i * ∑ j, x.X i j * v j) := by
    intro i
    have k := h2 i
    have ho := ok_of_obs (hg.obs i)
    have hy := hg.obs i
    unfold Pirls.uR
    have hi := hc i
    generalize (∑ j, x.X i j * v j) = z at k ⊢
    generalize x.y i = y at k hy ⊢
    generalize Pirls.eta x b i = e
    generalize x.fam i = f at k ho hy hi ⊢
    generalize x.lk = l at hi ⊢
    cases f <;> cases l <;> first | exact hi.elim | skip
    · rename_i n
      rw [Tot.canonical_score (f := .binomial n) (l := .logit) trivial ho]
      have hn : (0 : ℝ) < n := Nat.cast_pos.2 ho
      obtain ⟨m0, m1⟩ := fi_mem .logit e
      rcases lt_trichotomy z 0 with hz | hz | hz
      · have : y = 0 := by
          by_contra hc
          have := k.1 hc
          linarith
        have h : 0 < Tot.size (.binomial n) * (y - LinkKind.logit.fiR e) * z :=
          mul_pos_of_neg_of_neg (mul_neg_of_pos_of_neg hn (by rw [this]; linarith)) hz
        exact ⟨h.le, fun _ => h⟩
      · rw [hz, mul_zero]
        exact ⟨le_rfl, fun h => absurd rfl h⟩
      · have : y = 1 := by
          by_contra hc
          have := k.2 hc
          linarith
        have h : 0 < Tot.size (.binomial n) * (y - LinkKind.logit.fiR e) * z := mul_pos (mul_pos hn (by rw [this]; linarith)) hz
        exact ⟨h.le, fun _ => h⟩
    · rw [show z = 0 from k, mul_zero]
      exact ⟨le_rfl, fun h => absurd rfl h⟩
    · rw [show z = 0 from k, mul_zero]
      exact ⟨le_rfl, fun h => absurd rfl h⟩
    · rw [Tot.canonical_score (f := .poisson) (l := .log) trivial ho]
      have m0 : 0 < LinkKind.log.fiR e := Real.exp_pos e
      rcases k.2.lt_or_eq with hz | hz
      · have : y = 0 := by
          by_contra hc
          have := k.1 hc
          linarith
        have h : 0 < Tot.size .poisson * (y - LinkKind.log.fiR e) * z :=
          mul_pos_of_neg_of_neg (mul_neg_of_pos_of_neg one_pos (by rw [this]; linarith)) hz
        exact ⟨h.le, fun _ => h⟩
      · rw [hz, mul_zero]
        exact ⟨le_rfl, fun h => absurd rfl h⟩
  have hz := (Finset.sum_eq_zero_iff_of_nonneg fun i _ => (hp i).1).1 h0
  refine hv (hi v (fun i => ?_) ?_)
  · by_contra hne
    have := (hp i).2 hne
    rw [hz i (Finset.mem_univ i)] at this
    exact lt_irrefl _ this
  · rw [Pirls.quad_eq, h1, dotProduct_zero]

/-- C147.  Estimates exist exactly if the data are not separated. -/
theorem exists_iff (hg : Pirls.Good x s) (hi : Pirls.Ident x) (hc : ∀ i, covered (x.fam i) x.lk) :
    (∃ b, Pirls.next x b = b) ↔ ¬Separated x :=
  ⟨fun ⟨b, hb⟩ hs => separated_never hg hi hc hs b hb, fun hn => (estimate_exists hg hi hc hn).exists⟩

/-- C147.  Separated data: the penalised log-likelihood has no maximum. -/
theorem separated_no_max (hg : Pirls.Good x s) (hi : Pirls.Ident x) (hc : ∀ i, covered (x.fam i) x.lk) (hs : Separated x) (b : Fin p → ℝ) :
    ∃ b' u v, Pirls.pllk x s b = fin u ∧ Pirls.pllk x s b' = fin v ∧ u < v := by
  obtain ⟨K, hK⟩ := Pirls.proposal_ascends hg hi (Pirls.adm_total (fun i => cov_total (hc i)) b) (separated_never hg hi hc hs b)
  obtain ⟨u, v, h⟩ := hK K le_rfl
  exact ⟨_, u, v, h⟩

/-- C147.  With a penalty on all coefficients there is always exactly one estimate; so there is for Gaussian and Gamma responses. -/
theorem always (hg : Pirls.Good x s) (hi : Pirls.Ident x) (hc : ∀ i, covered (x.fam i) x.lk)
    (h : (∀ v, x.S *ᵥ v = 0 → v = 0) ∨ ∀ i, x.fam i = .gaussian ∨ x.fam i = .gamma) : ∃! b, Pirls.next x b = b := by
  refine estimate_exists hg hi hc ?_
  rintro ⟨v, hv, h1, h2⟩
  rcases h with h | h
  · exact hv (h v h1)
  · refine hv (hi v (fun i => ?_) (by rw [Pirls.quad_eq, h1, dotProduct_zero]))
    have k := h2 i
    rcases h i with e | e <;> rw [e] at k <;> exact k

end Verif.Sep
