import Verif.BsplineLemmas
import Mathlib.Analysis.Calculus.Deriv.Pow
import Mathlib.Analysis.Calculus.Deriv.Add
import Mathlib.Analysis.Calculus.Deriv.Mul
import Mathlib.Analysis.Calculus.Deriv.MeanValue
import Mathlib.Algebra.Order.BigOperators.Group.Finset

/-!
# B-spline bases: theorems (properties C42 and C66)
-/

namespace Verif.Bspline

open Finset

/-- Spacing of the knots. -/
noncomputable def step (xl xr : ℝ) (nk deg : ℕ) : ℝ := (xr - xl) / ((nk - deg : ℕ) : ℝ)

/-- Knot `i` counted from `xl - deg * step`. -/
noncomputable def knot (xl xr : ℝ) (nk deg : ℕ) (i : ℕ) : ℝ := xl - step xl xr nk deg * deg + i * step xl xr nk deg

variable {xl xr : ℝ} {nk deg : ℕ}

theorem step_pos (hx : xl < xr) (hk : deg < nk) : 0 < step xl xr nk deg := by
  unfold step
  have : (0 : ℝ) < ((nk - deg : ℕ) : ℝ) := by exact_mod_cast Nat.sub_pos_of_lt hk
  exact div_pos (by linarith) this

theorem knot_even (xl xr : ℝ) (nk deg : ℕ) : Even (knot xl xr nk deg) (step xl xr nk deg) := fun k => by
  unfold knot
  push_cast
  ring

theorem knot_deg (xl xr : ℝ) (nk deg : ℕ) : knot xl xr nk deg deg = xl := by
  unfold knot
  ring

theorem knot_nk (hk : deg < nk) : knot xl xr nk deg nk = xr := by
  have e : (nk : ℝ) = deg + ((nk - deg : ℕ) : ℝ) := by exact_mod_cast (Nat.add_sub_cancel' hk.le).symm
  have h0 : ((nk - deg : ℕ) : ℝ) ≠ 0 := by exact_mod_cast (Nat.sub_pos_of_lt hk).ne'
  unfold knot
  rw [e]
  unfold step
  field_simp
  ring

/-- The knots computed by the code are the equally spaced ones. -/
theorem linspace_knot (hk : deg < nk) : linspace (xl - (xr - xl) / ((nk - deg : ℕ) : ℝ) * deg)
    (xr + (xr - xl) / ((nk - deg : ℕ) : ℝ) * deg) (nk - deg + 1 + 2 * deg) = knot xl xr nk deg := by
  funext i
  have h0 : (0 : ℝ) < ((nk - deg : ℕ) : ℝ) := by exact_mod_cast Nat.sub_pos_of_lt hk
  have h1 : (((nk - deg + 1 + 2 * deg : ℕ) : ℝ) - 1) = ((nk - deg : ℕ) : ℝ) + 2 * deg := by
    push_cast
    ring
  unfold linspace knot step
  rw [h1]
  have h2 : ((nk - deg : ℕ) : ℝ) + 2 * deg ≠ 0 := by positivity
  field_simp
  ring

theorem basis_eq (hk : deg < nk) (x : ℝ) {j : ℕ} (hj : j < nk) :
    basis xl xr nk deg x j = bs (knot xl xr nk deg) (step xl xr nk deg) x deg j := by
  unfold basis
  simp only
  rw [bbase_eq _ _ _ _ _ _ (by omega), linspace_knot hk]
  rfl

/-- Basis functions are non-negative everywhere. -/
theorem basis_nonneg (hx : xl < xr) (hk : deg < nk) (x : ℝ) {j : ℕ} (hj : j < nk) : 0 ≤ basis xl xr nk deg x j := by
  rw [basis_eq hk x hj]
  exact bs_nonneg (knot_even xl xr nk deg) (step_pos hx hk) x deg j

theorem knot_mono (hx : xl < xr) (hk : deg < nk) {a b : ℕ} (hab : a ≤ b) : knot xl xr nk deg a ≤ knot xl xr nk deg b := by
  obtain ⟨e, rfl⟩ := Nat.exists_eq_add_of_le hab
  rw [even_add (knot_even xl xr nk deg)]
  have := step_pos hx hk
  have : 0 ≤ (e : ℝ) * step xl xr nk deg := by positivity
  linarith

/-- A basis function is zero outside the `deg + 1` knot intervals it spans. -/
theorem basis_local (hx : xl < xr) (hk : deg < nk) (x : ℝ) {j : ℕ} (hj : j < nk)
    (hout : x ≤ xl + ((j : ℝ) - deg) * ((xr - xl) / ((nk - deg : ℕ) : ℝ)) ∨ xl + ((j : ℝ) + 1) * ((xr - xl) / ((nk - deg : ℕ) : ℝ)) < x) :
    basis xl xr nk deg x j = 0 := by
  rw [basis_eq hk x hj]
  rcases hout with ho | ho
  · refine bs_left (knot_even xl xr nk deg) (step_pos hx hk) x deg j ?_
    unfold knot step
    linarith
  · refine bs_right (knot_even xl xr nk deg) (step_pos hx hk) x deg j ?_
    unfold knot step
    push_cast
    linarith

theorem tp_zero_right (hx : xl < xr) (hk : deg < nk) {x : ℝ} (hxr : x ≤ xr) (p m j : ℕ) (hj : nk ≤ j) :
    dif^[m] (fun i => tpower x (knot xl xr nk deg i) p) j = 0 := by
  rw [← dif_iter_zero m j]
  refine dif_iter_congr _ _ _ _ fun i h1 _ => ?_
  have : xr ≤ knot xl xr nk deg i := by
    have hm := knot_mono (xl := xl) (xr := xr) hx hk (hj.trans h1)
    rwa [knot_nk hk] at hm
  unfold tpower
  rw [if_neg (not_lt.2 (hxr.trans this)), mul_zero]

theorem tp_pow_left (hx : xl < xr) (hk : deg < nk) {x : ℝ} (hxl : xl ≤ x) (p m j : ℕ) (hj : j + m ≤ deg) (hp : 1 ≤ p ∨ xl < x) :
    dif^[m] (fun i => tpower x (knot xl xr nk deg i) p) j = dif^[m] (fun i => (x - knot xl xr nk deg i) ^ p) j := by
  refine dif_iter_congr _ _ _ _ fun i _ h2 => ?_
  have hk1 : knot xl xr nk deg i ≤ xl := by
    conv_rhs => rw [← knot_deg xl xr nk deg]
    exact knot_mono hx hk (h2.trans hj)
  unfold tpower
  by_cases hlt : x > knot xl xr nk deg i
  · rw [if_pos hlt, mul_one]
  · have heq : x = knot xl xr nk deg i := le_antisymm (not_lt.1 hlt) (hk1.trans hxl)
    rw [if_neg hlt, mul_zero, ← heq, sub_self]
    rcases hp with hp | hp
    · rw [zero_pow (by omega)]
    · exact absurd (hk1.trans_lt hp) (by rw [heq]; exact lt_irrefl _)

/-- Within the boundaries the basis functions sum to one; with degree zero except at the left boundary. -/
theorem basis_sum_one_partial (hx : xl < xr) (hk : deg < nk) {x : ℝ} (hxl : xl ≤ x) (hxr : x ≤ xr) (hd : 1 ≤ deg ∨ xl < x) :
    ∑ j ∈ range nk, basis xl xr nk deg x j = 1 := by
  rw [Finset.sum_congr rfl fun j hj => basis_eq hk x (mem_range.1 hj), sum_bs, tp_zero_right hx hk hxr deg deg nk le_rfl,
    tp_pow_left hx hk hxl deg deg 0 (by omega) hd, (dif_pow (knot_even xl xr nk deg) x deg 0).1]
  have hs := (step_pos hx hk).ne'
  have hf : (deg.factorial : ℝ) ≠ 0 := by exact_mod_cast deg.factorial_ne_zero
  rw [neg_pow, zero_sub, div_eq_one_iff_eq (mul_ne_zero hf (pow_ne_zero _ hs)), pow_succ]
  have : ((-1 : ℝ) ^ deg) * (-1) ^ deg = 1 := by rw [← mul_pow]; norm_num
  linear_combination (deg.factorial : ℝ) * step xl xr nk deg ^ deg * this

/-- With degree zero all basis functions are zero at the left boundary. -/
theorem basis_deg_zero_left (hx : xl < xr) (hk : 0 < nk) : ∑ j ∈ range nk, basis xl xr nk 0 xl j = 0 := by
  refine Finset.sum_eq_zero fun j hj => basis_local hx hk xl (mem_range.1 hj) (Or.inl ?_)
  have := step_pos hx hk
  unfold step at this
  have : 0 ≤ (j : ℝ) * ((xr - xl) / ((nk - 0 : ℕ) : ℝ)) := by positivity
  simpa using this

/-- Equal coefficients give a constant smooth. -/
theorem smooth_const (hx : xl < xr) (hk : deg < nk) {x : ℝ} (hxl : xl ≤ x) (hxr : x ≤ xr) (hd : 1 ≤ deg ∨ xl < x) (c : ℝ) :
    ∑ j ∈ range nk, basis xl xr nk deg x j * c = c := by
  rw [← Finset.sum_mul, basis_sum_one_partial hx hk hxl hxr hd, one_mul]

/-- The smooth stays within the range of its coefficients. -/
theorem smooth_bounds (hx : xl < xr) (hk : deg < nk) {x : ℝ} (hxl : xl ≤ x) (hxr : x ≤ xr) (hd : 1 ≤ deg ∨ xl < x) (c : ℕ → ℝ) (lo hi : ℝ)
    (hc : ∀ j < nk, lo ≤ c j ∧ c j ≤ hi) :
    lo ≤ ∑ j ∈ range nk, basis xl xr nk deg x j * c j ∧ ∑ j ∈ range nk, basis xl xr nk deg x j * c j ≤ hi := by
  constructor
  · rw [← smooth_const hx hk hxl hxr hd lo]
    exact Finset.sum_le_sum fun j hj => mul_le_mul_of_nonneg_left (hc j (mem_range.1 hj)).1 (basis_nonneg hx hk x (mem_range.1 hj))
  · rw [← smooth_const hx hk hxl hxr hd hi]
    exact Finset.sum_le_sum fun j hj => mul_le_mul_of_nonneg_left (hc j (mem_range.1 hj)).2 (basis_nonneg hx hk x (mem_range.1 hj))

/-! ## Tensor products -/

theorem sum_tp (n1 n2 : ℕ) (r1 r2 : ℕ → ℝ) :
    ∑ c ∈ range (n1 * n2), tpRow n2 r1 r2 c = (∑ a ∈ range n1, r1 a) * ∑ b ∈ range n2, r2 b := by
  induction n1 with
  | zero => simp
  | succ n ih =>
    rw [Nat.succ_mul, Finset.sum_range_add, ih, Finset.sum_range_succ, add_mul]
    congr 1
    rw [Finset.mul_sum]
    refine Finset.sum_congr rfl fun b hb => ?_
    have hb := mem_range.1 hb
    unfold tpRow
    rw [Nat.mul_comm n n2, Nat.mul_add_div (by omega), Nat.div_eq_of_lt hb, Nat.mul_add_mod, Nat.mod_eq_of_lt hb, Nat.add_zero]

/-- Row-wise products of bases that are non-negative and sum to one have both properties. -/
theorem tp_unity {n1 n2 : ℕ} {r1 r2 : ℕ → ℝ} (h1 : ∀ j < n1, 0 ≤ r1 j) (h2 : ∀ j < n2, 0 ≤ r2 j) (s1 : ∑ a ∈ range n1, r1 a = 1)
    (s2 : ∑ b ∈ range n2, r2 b = 1) :
    (∀ c < n1 * n2, 0 ≤ tpRow n2 r1 r2 c) ∧ ∑ c ∈ range (n1 * n2), tpRow n2 r1 r2 c = 1 := by
  refine ⟨fun c hc => ?_, by rw [sum_tp, s1, s2, one_mul]⟩
  have hn : 0 < n2 := Nat.pos_of_ne_zero fun h => by simp [h] at hc
  exact mul_nonneg (h1 _ (Nat.div_lt_of_lt_mul (by rwa [Nat.mul_comm] at hc))) (h2 _ (Nat.mod_lt _ hn))

/-! ## Impulse response bases -/

/-- Convolution with the event spike moves the function to the event. -/
theorem convolve_shift (f : ℕ → ℝ) (len loc i : ℕ) (hi : i < len) :
    convolveEvent f len loc i = if loc ≤ i then f (i - loc) else 0 := by
  unfold convolveEvent
  have inner : ∀ a, ∑ b ∈ range (loc + 1), (if a + b = i then f a * spike loc b else 0) = if a + loc = i then f a else 0 := by
    intro a
    rw [Finset.sum_eq_single loc]
    · simp [spike]
    · intro b _ hb
      simp [spike, hb]
    · intro h
      exact absurd (mem_range.2 (by omega)) h
  rw [Finset.sum_congr rfl fun a _ => inner a]
  by_cases h : loc ≤ i
  · rw [if_pos h, Finset.sum_eq_single (i - loc)]
    · rw [if_pos (by omega)]
    · intro a _ ha
      rw [if_neg (by omega)]
    · intro hn
      exact absurd (mem_range.2 (by omega)) hn
  · rw [if_neg h]
    exact Finset.sum_eq_zero fun a _ => if_neg (by omega)

/-- Impulse response bases are zero before the event and non-negative after it: row `i` is the basis at the
covariate value `i - onset` rows into the series. -/
theorem ir_basis {minc maxc : ℝ} (hx : minc < maxc) (hk : deg < nk) (cov : ℕ → ℝ) (len onset i : ℕ) (hi : i < len) {j : ℕ} (hj : j < nk) :
    (i < onset → irMatrix minc maxc nk deg cov len onset i j = 0) ∧
    (onset ≤ i → irMatrix minc maxc nk deg cov len onset i j = irBasis minc maxc nk deg (cov (i - onset)) j) ∧
    0 ≤ irMatrix minc maxc nk deg cov len onset i j := by
  unfold irMatrix
  rw [convolve_shift _ _ _ _ hi]
  refine ⟨fun h => if_neg (by omega), fun h => if_pos h, ?_⟩
  by_cases h : onset ≤ i
  · rw [if_pos h]
    unfold irBasis
    simp only
    rw [bbase_eq _ _ _ _ _ _ (by omega)]
    have hn : (0 : ℝ) < ((nk - deg : ℕ) : ℝ) := by exact_mod_cast Nat.sub_pos_of_lt hk
    have hp : (0 : ℝ) < (maxc - minc) / (((nk - deg : ℕ) : ℝ) + 2 * deg) := div_pos (by linarith) (by positivity)
    refine bs_nonneg (fun k => ?_) hp _ _ _
    unfold linspace
    push_cast
    have h2 : ((nk - deg : ℕ) : ℝ) + 2 * deg ≠ 0 := by positivity
    rw [show ((nk - deg : ℕ) : ℝ) + 1 + 2 * deg - 1 = ((nk - deg : ℕ) : ℝ) + 2 * deg from by ring]
    ring
  · rw [if_neg h]

/-! ## Straight lines and derivatives (C66) -/

/-- Coefficients in arithmetic progression, those left unpenalised by second differences, give a straight line. -/
theorem smooth_linear (hx : xl < xr) (hk : deg < nk) {x : ℝ} (hxl : xl ≤ x) (hxr : x ≤ xr) (hd : 1 ≤ deg) (a b : ℝ) :
    ∑ j ∈ range nk, basis xl xr nk deg x j * (a + b * j) =
      a + b * ((x - xl) / ((xr - xl) / ((nk - deg : ℕ) : ℝ)) + ((deg : ℝ) - 1) / 2) := by
  obtain ⟨e, rfl⟩ : ∃ e, deg = e + 1 := ⟨deg - 1, by omega⟩
  have hs := step_pos hx hk
  have hev := knot_even xl xr nk (e + 1)
  have hsum : ∑ j ∈ range nk, basis xl xr nk (e + 1) x j * (j : ℝ) = (x - xl) / step xl xr nk (e + 1) + (e : ℝ) / 2 := by
    set g := fun i => tpower x (knot xl xr nk (e + 1) i) (e + 1) with hg
    have habel : ∀ K : ℕ, ∑ j ∈ range K, dif^[e + 2] g j * (j : ℝ) =
        K * dif^[e + 1] g K - (dif^[e] g (K + 1) - dif^[e] g 1) := by
      intro K
      induction K with
      | zero => simp
      | succ K ih =>
        rw [Finset.sum_range_succ, ih, dif_iter_succ (e + 1) g K, dif_iter_succ e g (K + 1)]
        push_cast
        ring
    have h1 : ∀ j ∈ range nk, basis xl xr nk (e + 1) x j * (j : ℝ) =
        (-1) ^ (e + 2) / (((e + 1).factorial : ℝ) * step xl xr nk (e + 1) ^ (e + 1)) * (dif^[e + 2] g j * (j : ℝ)) := by
      intro j hj
      rw [basis_eq hk x (mem_range.1 hj)]
      unfold bs
      ring
    rw [Finset.sum_congr rfl h1, ← Finset.mul_sum, habel nk, tp_zero_right hx hk hxr (e + 1) (e + 1) nk le_rfl,
      tp_zero_right hx hk hxr (e + 1) e (nk + 1) (by omega), tp_pow_left hx hk hxl (e + 1) e 1 (by omega) (Or.inl (by omega)),
      dif_pow_succ hev x e 1]
    have hk1 : knot xl xr nk (e + 1) 1 = xl - e * step xl xr nk (e + 1) := by
      unfold knot
      push_cast
      ring
    rw [hk1, neg_pow (step xl xr nk (e + 1))]
    have hf : ((e + 1).factorial : ℝ) ≠ 0 := by exact_mod_cast (e + 1).factorial_ne_zero
    have hm : ((-1 : ℝ) ^ e) * (-1) ^ e = 1 := by rw [← mul_pow]; norm_num
    have hs' := hs.ne'
    have e2 : ((-1 : ℝ)) ^ (e + 2) = (-1) ^ e := by rw [pow_add]; norm_num
    rw [e2, mul_zero, zero_sub, zero_sub, neg_neg]
    field_simp
    have hm2 : ((-1 : ℝ) ^ e) ^ 2 = 1 := by rw [sq]; exact hm
    rw [hm2]
    ring
  have hcast : ((e + 1 : ℕ) : ℝ) - 1 = e := by push_cast; ring
  have hsplit : ∑ j ∈ range nk, basis xl xr nk (e + 1) x j * (a + b * j) =
      a * ∑ j ∈ range nk, basis xl xr nk (e + 1) x j + b * ∑ j ∈ range nk, basis xl xr nk (e + 1) x j * (j : ℝ) := by
    rw [Finset.mul_sum, Finset.mul_sum, ← Finset.sum_add_distrib]
    exact Finset.sum_congr rfl fun j _ => by ring
  rw [hsplit, hsum, basis_sum_one_partial hx hk hxl hxr (Or.inl hd), hcast, mul_one]
  rfl

theorem tpower_deriv (t : ℝ) (p : ℕ) (x : ℝ) :
    HasDerivAt (fun x => tpower x t (p + 2)) ((p + 2 : ℝ) * tpower x t (p + 1)) x := by
  have hpow : HasDerivAt (fun x : ℝ => (x - t) ^ (p + 2)) (((p + 2 : ℕ) : ℝ) * (x - t) ^ (p + 1) * 1) x :=
    ((hasDerivAt_id x).sub_const t).pow (p + 2)
  rcases lt_trichotomy x t with h | h | h
  · have : (fun x => tpower x t (p + 2)) =ᶠ[nhds x] fun _ => 0 := by
      filter_upwards [eventually_lt_nhds h] with y hy
      unfold tpower
      rw [if_neg (not_lt.2 hy.le), mul_zero]
    refine ((hasDerivAt_const x (0 : ℝ)).congr_of_eventuallyEq this).congr_deriv ?_
    unfold tpower
    rw [if_neg (not_lt.2 h.le), mul_zero, mul_zero]
  · subst h
    have h0 : tpower x x (p + 1) = 0 := by simp [tpower]
    rw [h0, mul_zero]
    rw [hasDerivAt_iff_isLittleO]
    have h1 := hasDerivAt_iff_isLittleO.1 hpow
    simp only [sub_self, ne_eq, Nat.add_eq_zero_iff, one_ne_zero, and_false, not_false_eq_true, zero_pow, mul_zero, zero_mul,
      smul_zero, sub_zero, OfNat.ofNat_ne_zero] at h1
    have h2 : tpower x x (p + 2) = 0 := by simp [tpower]
    simp only [h2, sub_zero, smul_zero, smul_eq_mul, mul_zero]
    refine (Asymptotics.IsBigO.of_bound 1 (Filter.Eventually.of_forall fun y => ?_)).trans_isLittleO h1
    unfold tpower
    rw [one_mul, norm_mul]
    by_cases hy : y > x
    · rw [if_pos hy]
      simp
    · rw [if_neg hy]
      simp
  · have : (fun x => tpower x t (p + 2)) =ᶠ[nhds x] fun x => (x - t) ^ (p + 2) := by
      filter_upwards [eventually_gt_nhds h] with y hy
      unfold tpower
      rw [if_pos hy, mul_one]
    refine (hpow.congr_of_eventuallyEq this).congr_deriv ?_
    unfold tpower
    rw [if_pos h]
    push_cast
    ring

theorem dif_deriv (F F' : ℝ → ℕ → ℝ) (x : ℝ) (m : ℕ) (hF : ∀ i, HasDerivAt (fun x => F x i) (F' x i) x) :
    ∀ j, HasDerivAt (fun x => dif^[m] (F x) j) (dif^[m] (F' x) j) x := by
  induction m with
  | zero => exact hF
  | succ m ih =>
    intro j
    have h1 := (ih (j + 1)).sub (ih j)
    refine (h1.congr_of_eventuallyEq (Filter.Eventually.of_forall fun y => ?_)).congr_deriv ?_
    · exact dif_iter_succ m (F y) j
    · exact (dif_iter_succ m (F' x) j).symm

theorem dif_iter_smul (c : ℝ) (f : ℕ → ℝ) (m : ℕ) : ∀ j, dif^[m] (fun i => c * f i) j = c * dif^[m] f j := by
  induction m with
  | zero => intro j; rfl
  | succ m ih =>
    intro j
    rw [dif_iter_succ, dif_iter_succ, ih, ih, mul_sub]

/-- Derivative of a B-spline. -/
theorem bs_deriv {t : ℕ → ℝ} {h : ℝ} (hh : h ≠ 0) (d k : ℕ) (x : ℝ) :
    HasDerivAt (fun x => bs t h x (d + 2) k) ((bs t h x (d + 1) k - bs t h x (d + 1) (k + 1)) / h) x := by
  have h1 := dif_deriv (fun x i => tpower x (t i) (d + 2)) (fun x i => (d + 2 : ℝ) * tpower x (t i) (d + 1)) x (d + 3)
    (fun i => tpower_deriv (t i) d x) k
  have h2 := (h1.const_mul ((-1 : ℝ) ^ (d + 3))).div_const (((d + 2).factorial : ℝ) * h ^ (d + 2))
  refine h2.congr_deriv ?_
  unfold bs
  rw [dif_iter_smul, dif_iter_succ (d + 2)]
  have hf : ((d + 1).factorial : ℝ) ≠ 0 := by exact_mod_cast (d + 1).factorial_ne_zero
  have hd : (d : ℝ) + 2 ≠ 0 := by positivity
  rw [Nat.factorial_succ (d + 1)]
  push_cast
  field_simp
  ring

/-- The derivative of a smooth is the spline of one degree less on the same knots with differenced coefficients. -/
theorem smooth_deriv (hx : xl < xr) (hk : deg < nk) {x : ℝ} (hxl : xl ≤ x) (hxr : x ≤ xr) (hd : 2 ≤ deg) (c : ℕ → ℝ) :
    HasDerivAt (fun x => ∑ j ∈ range nk, basis xl xr nk deg x j * c j)
      (∑ j ∈ range (nk - 1), basis xl xr (nk - 1) (deg - 1) x j * ((c (j + 1) - c j) / ((xr - xl) / ((nk - deg : ℕ) : ℝ)))) x := by
  obtain ⟨e, rfl⟩ : ∃ e, deg = e + 2 := ⟨deg - 2, by omega⟩
  obtain ⟨n, rfl⟩ : ∃ n, nk = n + 1 := ⟨nk - 1, by omega⟩
  have hs := step_pos hx hk
  have hev := knot_even xl xr (n + 1) (e + 2)
  have hstep : step xl xr n (e + 1) = step xl xr (n + 1) (e + 2) := by
    unfold step
    rw [show n + 1 - (e + 2) = n - (e + 1) from by omega]
  have hknot : ∀ i, knot xl xr n (e + 1) i = knot xl xr (n + 1) (e + 2) (i + 1) := by
    intro i
    unfold knot
    rw [hstep]
    push_cast
    ring
  have hshift : ∀ j, bs (knot xl xr n (e + 1)) (step xl xr n (e + 1)) x (e + 1) j =
      bs (knot xl xr (n + 1) (e + 2)) (step xl xr (n + 1) (e + 2)) x (e + 1) (j + 1) := by
    intro j
    unfold bs
    rw [hstep]
    have hsh : ∀ m (f : ℕ → ℝ) j, dif^[m] (fun i => f (i + 1)) j = dif^[m] f (j + 1) := by
      intro m f
      induction m with
      | zero => intro j; rfl
      | succ m ih => intro j; rw [dif_iter_succ, dif_iter_succ, ih, ih]
    have hfun : (fun i => tpower x (knot xl xr n (e + 1) i) (e + 1)) =
        fun i => (fun i => tpower x (knot xl xr (n + 1) (e + 2) i) (e + 1)) (i + 1) := by
      funext i
      simp only [hknot]
    rw [hfun, hsh (e + 1 + 1) (fun i => tpower x (knot xl xr (n + 1) (e + 2) i) (e + 1)) j]
  have hB : ∀ j ∈ range (n + 1), HasDerivAt (fun x => basis xl xr (n + 1) (e + 2) x j * c j)
      ((bs (knot xl xr (n + 1) (e + 2)) (step xl xr (n + 1) (e + 2)) x (e + 1) j -
        bs (knot xl xr (n + 1) (e + 2)) (step xl xr (n + 1) (e + 2)) x (e + 1) (j + 1)) / step xl xr (n + 1) (e + 2) * c j) x := by
    intro j hj
    refine HasDerivAt.mul_const ?_ (c j)
    refine (bs_deriv (t := knot xl xr (n + 1) (e + 2)) hs.ne' e j x).congr_of_eventuallyEq (Filter.Eventually.of_forall fun y => ?_)
    exact basis_eq hk y (mem_range.1 hj)
  refine (HasDerivAt.fun_sum hB).congr_deriv ?_
  rw [Nat.add_sub_cancel, show e + 2 - 1 = e + 1 from rfl]
  have hR : ∀ j ∈ range n, basis xl xr n (e + 1) x j * ((c (j + 1) - c j) / ((xr - xl) / ((n + 1 - (e + 2) : ℕ) : ℝ))) =
      bs (knot xl xr (n + 1) (e + 2)) (step xl xr (n + 1) (e + 2)) x (e + 1) (j + 1) * ((c (j + 1) - c j) / step xl xr (n + 1) (e + 2)) := by
    intro j hj
    rw [basis_eq (by omega) x (mem_range.1 hj), hshift]
    rfl
  rw [Finset.sum_congr rfl hR]
  have h0 : bs (knot xl xr (n + 1) (e + 2)) (step xl xr (n + 1) (e + 2)) x (e + 1) 0 = 0 := by
    refine bs_right_closed hev hs x e 0 ?_
    rw [show 0 + e + 2 = e + 2 from by ring, knot_deg]
    exact hxl
  have hn : bs (knot xl xr (n + 1) (e + 2)) (step xl xr (n + 1) (e + 2)) x (e + 1) (n + 1) = 0 := by
    refine bs_left hev hs x (e + 1) (n + 1) ?_
    rw [knot_nk hk]
    exact hxr
  generalize bs (knot xl xr (n + 1) (e + 2)) (step xl xr (n + 1) (e + 2)) x (e + 1) = b at h0 hn ⊢
  generalize step xl xr (n + 1) (e + 2) = s
  have hab : ∀ m, ∑ j ∈ range (m + 1), (b j - b (j + 1)) / s * c j =
      b 0 / s * c 0 - b (m + 1) / s * c m + ∑ j ∈ range m, b (j + 1) * ((c (j + 1) - c j) / s) := by
    intro m
    induction m with
    | zero => simp; ring
    | succ m ih =>
      rw [Finset.sum_range_succ, ih, Finset.sum_range_succ (fun j => b (j + 1) * ((c (j + 1) - c j) / s))]
      ring
  rw [hab, h0, hn]
  simp

/-- Non-decreasing coefficients give a non-decreasing smooth. -/
theorem smooth_mono (hx : xl < xr) (hk : deg < nk) (hd : 2 ≤ deg) (c : ℕ → ℝ) (hc : ∀ j, j + 1 < nk → c j ≤ c (j + 1)) :
    MonotoneOn (fun x => ∑ j ∈ range nk, basis xl xr nk deg x j * c j) (Set.Icc xl xr) := by
  refine monotoneOn_of_deriv_nonneg (convex_Icc xl xr) (fun x hxx => ?_) (fun x hxx => ?_) (fun x hxx => ?_)
  · exact (smooth_deriv hx hk hxx.1 hxx.2 hd c).continuousAt.continuousWithinAt
  · rw [interior_Icc] at hxx
    exact (smooth_deriv hx hk hxx.1.le hxx.2.le hd c).differentiableAt.differentiableWithinAt
  · rw [interior_Icc] at hxx
    rw [(smooth_deriv hx hk hxx.1.le hxx.2.le hd c).deriv]
    refine Finset.sum_nonneg fun j hj => mul_nonneg (basis_nonneg hx (by omega) x (mem_range.1 hj)) ?_
    have hs := step_pos hx hk
    unfold step at hs
    have hj := mem_range.1 hj
    exact div_nonneg (by linarith [hc j (by omega)]) hs.le

/-! ## Concrete cases: cubic splines with ten basis functions on [0, 2] -/

example : ∑ j ∈ range 10, basis 0 2 10 3 (1 / 3) j = 1 :=
  basis_sum_one_partial (by norm_num) (by norm_num) (by norm_num) (by norm_num) (Or.inl (by norm_num))

example : ∑ j ∈ range 10, basis 0 2 10 0 0 j = 0 := basis_deg_zero_left (by norm_num) (by norm_num)

example : basis 0 2 10 3 (1 / 10) 9 = 0 := basis_local (by norm_num) (by norm_num) _ (by norm_num) (Or.inl (by norm_num))

example : ∑ j ∈ range 10, basis 0 2 10 3 (1 / 2) j * (1 + 4 * j) = 1 + 4 * (7 / 4 + 1) := by
  rw [smooth_linear (by norm_num) (by norm_num) (by norm_num) (by norm_num) (by norm_num)]
  norm_num

example : MonotoneOn (fun x => ∑ j ∈ range 10, basis 0 2 10 3 x j * (j : ℝ) ^ 2) (Set.Icc 0 2) :=
  smooth_mono (by norm_num) (by norm_num) (by norm_num) _ fun j _ => by push_cast; nlinarith [Nat.cast_nonneg (α := ℝ) j]

example : irMatrix 0 1 10 3 (fun i => i / 10) 11 4 2 5 = 0 := (ir_basis (by norm_num) (by norm_num) _ 11 4 2 (by norm_num) (by norm_num)).1 (by norm_num)

end Verif.Bspline
