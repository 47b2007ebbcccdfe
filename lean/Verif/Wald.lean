import Verif.WaldLemmas
import Mathlib.MeasureTheory.Measure.Prod

/-!
# Tests of smooth terms (property C86)
-/

namespace Verif.Wald

open Matrix Finset MeasureTheory ProbabilityTheory WithLp

/-- Law of the estimated coefficients of a function that is zero: normal around zero with covariance `V`. -/
noncomputable def null {p : ℕ} (V : Matrix (Fin p) (Fin p) ℝ) : Measure (EuclideanSpace ℝ (Fin p)) := multivariateGaussian 0 V

/-- `eigh`: `s` and the columns of `U` are eigenvalues and orthonormal eigenvectors of the covariance of `R β`. -/
structure Eig {m p : ℕ} (R : Matrix (Fin (m + 1)) (Fin p) ℝ) (V : Matrix (Fin p) (Fin p) ℝ) (U : Matrix (Fin (m + 1)) (Fin (m + 1)) ℝ)
    (s : Fin (m + 1) → ℝ) : Prop where
  cov : V.PosSemidef
  eig : R * V * Rᵀ = U * Matrix.diagonal s * Uᵀ
  orth : Uᵀ * U = 1

/-- Function values `R β`. -/
noncomputable def fval {m p : ℕ} (R : Matrix (Fin (m + 1)) (Fin p) ℝ) (β : EuclideanSpace ℝ (Fin p)) : Fin (m + 1) → ℝ :=
  R.mulVec β.ofLp

/-- Wood's statistic for rank `κ + 1 + v`: components of `f` along the directions `u`, divided by their standard deviations. -/
noncomputable def wald {m κ : ℕ} (u : Fin (κ + 2) → Fin (m + 1) → ℝ) (s : Fin (κ + 2) → ℝ) (v : ℝ) (f : Fin (m + 1) → ℝ) : ℝ :=
  let a := fun j => (u j ⬝ᵥ f) / √(s j)
  (∑ j : Fin κ, a j.castSucc.castSucc ^ 2) + a (Fin.last κ).castSucc ^ 2
    + 2 * √(v * (1 - v) / 2) * a (Fin.last κ).castSucc * a (Fin.last (κ + 1)) + v * a (Fin.last (κ + 1)) ^ 2

/-- Weights of single squared normals from weights and degrees of freedom of chi-square variables. -/
def spread (ws : List ℝ) (ns : List ℕ) : List ℝ := (List.zipWith (fun w n => List.replicate n w) ws ns).flatten

/-- `daviesQF` returns, without fault, the probability that the weighted sum of chi-square variables is below a value; it
takes the integer part of the degrees of freedom (`py::array_t<int, forcecast>`, davies.cpp 425). -/
def Davies (L : Lib) : Prop :=
  ∀ (ws ns : List ℝ) (c : ℝ), L.davies ws ns c = ((chi (spread ws (ns.map Nat.floor))).real (Set.Iio c), 0)

/-- `chi2.cdf` is the distribution function of the sum of `k` squared standard normals. -/
def Chi2 (L : Lib) : Prop := ∀ (k : ℕ) (c : ℝ), L.chi2 c k = (chi (List.replicate k 1)).real (Set.Iio c)

section Law

variable {m p : ℕ} {R : Matrix (Fin (m + 1)) (Fin p) ℝ} {V : Matrix (Fin p) (Fin p) ℝ} {U : Matrix (Fin (m + 1)) (Fin (m + 1)) ℝ}
  {s : Fin (m + 1) → ℝ}

theorem fval_measurable : Measurable (fval R) := by
  refine measurable_pi_iff.2 fun i => ?_
  show Measurable fun β : EuclideanSpace ℝ (Fin p) => ∑ j, R i j * β.ofLp j
  fun_prop

/-- Components along the eigenvectors, up to signs, divided by their standard deviations, are independent standard normals. -/
theorem white (hE : Eig R V U s) {n : ℕ} (h : n ≤ m + 1) (hs : ∀ j : Fin n, 0 < s (Fin.castLE h j)) (ε : Fin n → ℝ)
    (hε : ∀ j, ε j * ε j = 1) :
    (null V).map (fun β => fun j => (√(s (Fin.castLE h j)))⁻¹ * (Matrix.of fun i j => cols U h i j * ε j)ᵀ.mulVec (fval R β) j)
      = Mvn.std n := by
  obtain ⟨A, hA⟩ := cov_root hE.cov
  have hl := Mvn.affine_law (m := p) (q := p) 0 A
  rw [← hA] at hl
  have hnull : null V = (Mvn.std p).map fun z => toLp 2 (0 + A.mulVec z) := by rw [hl]; rfl
  have hmA : Measurable fun z : Fin p → ℝ => (toLp 2 (0 + A.mulVec z) : EuclideanSpace ℝ (Fin p)) := by
    have : Measurable (fun z : Fin p → ℝ => (0 : Fin p → ℝ) + A.mulVec z) := by
      refine measurable_pi_iff.2 fun i => ?_
      show Measurable fun z : Fin p → ℝ => (0 : ℝ) + ∑ j, A i j * z j
      fun_prop
    fun_prop
  obtain ⟨C, hC⟩ : ∃ C : Matrix (Fin (m + 1)) (Fin n) ℝ, C = Matrix.of fun i j => cols U h i j * ε j := ⟨_, rfl⟩
  rw [← hC]
  have hmF : Measurable fun β : EuclideanSpace ℝ (Fin p) => fun j => (√(s (Fin.castLE h j)))⁻¹ * Cᵀ.mulVec (fval R β) j := by
    refine measurable_pi_iff.2 fun j => ?_
    refine Measurable.const_mul ?_ _
    have h1 := measurable_pi_iff.1 (fval_measurable (R := R))
    show Measurable fun β : EuclideanSpace ℝ (Fin p) => ∑ i, Cᵀ j i * fval R β i
    exact Finset.measurable_sum _ fun i _ => (h1 i).const_mul _
  rw [hnull, Measure.map_map hmF hmA]
  have hfun : (fun β : EuclideanSpace ℝ (Fin p) => fun j => (√(s (Fin.castLE h j)))⁻¹ * Cᵀ.mulVec (fval R β) j) ∘
      (fun z : Fin p → ℝ => (toLp 2 (0 + A.mulVec z) : EuclideanSpace ℝ (Fin p)))
      = (Matrix.diagonal (fun j => (√(s (Fin.castLE h j)))⁻¹) * Cᵀ * R * A).mulVec := by
    funext z j
    show (√(s (Fin.castLE h j)))⁻¹ * Cᵀ.mulVec (R.mulVec (0 + A.mulVec z)) j = _
    rw [zero_add, Matrix.mul_assoc, Matrix.mul_assoc, ← Matrix.mulVec_mulVec z (Matrix.diagonal _), Matrix.mulVec_diagonal,
      ← Matrix.mulVec_mulVec, ← Matrix.mulVec_mulVec]
  rw [hfun]
  refine std_orth _ ?_
  have hUC : Uᵀ * C = Matrix.of fun i (j : Fin n) => if i = Fin.castLE h j then ε j else 0 := by
    ext i j
    have ho := congrFun (congrFun hE.orth i) (Fin.castLE h j)
    rw [Matrix.mul_apply] at ho ⊢
    rw [hC]
    have : ∀ x, Uᵀ i x * (Matrix.of fun i j => cols U h i j * ε j) x j = Uᵀ i x * U x (Fin.castLE h j) * ε j := by
      intro x
      simp [cols]
      ring
    rw [Finset.sum_congr rfl fun x _ => this x, ← Finset.sum_mul, ho, Matrix.one_apply]
    simp
  have e1 : Cᵀ * (R * V * Rᵀ) * C = Matrix.diagonal fun j => s (Fin.castLE h j) := by
    rw [hE.eig, show Cᵀ * (U * Matrix.diagonal s * Uᵀ) * C = (Uᵀ * C)ᵀ * Matrix.diagonal s * (Uᵀ * C) by
      rw [Matrix.transpose_mul, Matrix.transpose_transpose]; simp only [Matrix.mul_assoc], hUC]
    ext i j
    rw [Matrix.mul_apply]
    simp only [Matrix.mul_diagonal, Matrix.transpose_apply, Matrix.of_apply, Matrix.diagonal_apply]
    by_cases hij : i = j
    · subst hij
      rw [Finset.sum_eq_single (Fin.castLE h i)]
      · simp
        linear_combination s (Fin.castLE h i) * hε i
      · intro b _ hb
        simp [hb]
      · intro hh; exact absurd (mem_univ _) hh
    · rw [if_neg hij]
      refine Finset.sum_eq_zero fun b _ => ?_
      by_cases h1 : b = Fin.castLE h i
      · have : b ≠ Fin.castLE h j := by
          rw [h1]
          intro he
          exact hij ((Fin.castLE_injective h) he)
        simp [this]
      · simp [h1]
  rw [show Matrix.diagonal (fun j => (√(s (Fin.castLE h j)))⁻¹) * Cᵀ * R * A
      * (Matrix.diagonal (fun j => (√(s (Fin.castLE h j)))⁻¹) * Cᵀ * R * A)ᵀ
      = Matrix.diagonal (fun j => (√(s (Fin.castLE h j)))⁻¹) * (Cᵀ * (R * (A * Aᵀ) * Rᵀ) * C)
        * Matrix.diagonal (fun j => (√(s (Fin.castLE h j)))⁻¹) by
    simp only [Matrix.transpose_mul, Matrix.transpose_transpose, Matrix.diagonal_transpose, Matrix.mul_assoc], ← hA, e1,
    Matrix.diagonal_mul_diagonal, Matrix.diagonal_mul_diagonal, ← Matrix.diagonal_one]
  congr 1
  funext j
  have := Real.mul_self_sqrt (hs j).le
  have hp := Real.sqrt_pos.2 (hs j)
  field_simp
  nlinarith

theorem sign_sq {x : ℝ} (hx : x ≠ 0) : (SignType.sign x : ℝ) * SignType.sign x = 1 := by
  rcases lt_or_gt_of_ne hx with h | h
  · rw [sign_neg h]; norm_num
  · rw [sign_pos h]; norm_num

/-- Eigenvectors with signs such that the first entry is positive. -/
noncomputable def fixed (U : Matrix (Fin (m + 1)) (Fin (m + 1)) ℝ) (j : Fin (m + 1)) : Fin (m + 1) → ℝ := fun i => U i j * SignType.sign (U 0 j)

/-- Eigenvectors as returned. -/
def raw (U : Matrix (Fin (m + 1)) (Fin (m + 1)) ℝ) (j : Fin (m + 1)) : Fin (m + 1) → ℝ := fun i => U i j

/-- The statistic in terms of directions. -/
theorem quad_wald {κ : ℕ} (C : Matrix (Fin (m + 1)) (Fin (κ + 2)) ℝ) {σ : Fin (κ + 2) → ℝ} (hs : ∀ j, 0 < σ j) (v : ℝ)
    (f : Fin (m + 1) → ℝ) : quad C (sNon σ v) f = wald (fun j i => C i j) σ v f := by
  rw [quad_eq, sNon_core hs]
  unfold core wald pB
  rw [half_pow]
  have e : ∀ j, (√(σ j))⁻¹ * Cᵀ.mulVec f j = ((fun i => C i j) ⬝ᵥ f) / √(σ j) := by
    intro j
    rw [div_eq_inv_mul]
    rfl
  simp only [e]

/-- **C86.** If the degrees of freedom are not an integer, the two statistics are Wood's statistic for the eigenvectors with
fixed signs and for the eigenvectors as returned. -/
theorem stats_wald {κ : ℕ} (h : κ + 2 ≤ m + 1) (hs : ∀ j : Fin (κ + 2), 0 < s (Fin.castLE h j))
    (hU : ∀ j : Fin (κ + 2), U 0 (Fin.castLE h j) ≠ 0) (v : ℝ) (f : Fin (m + 1) → ℝ) :
    stats (cols U h) (sNon (fun j => s (Fin.castLE h j)) v) f
      = (wald (fun j => fixed U (Fin.castLE h j)) (fun j => s (Fin.castLE h j)) v f,
        wald (fun j => raw U (Fin.castLE h j)) (fun j => s (Fin.castLE h j)) v f) := by
  unfold stats
  rw [quad_wald _ hs, quad_wald _ hs]
  have e1 : (fun (j : Fin (κ + 2)) i => flip (cols U h) (cols U h) i j) = fun j => fixed U (Fin.castLE h j) := rfl
  have e2 : (fun (j : Fin (κ + 2)) i => flip (cols U h) (flip (cols U h) (cols U h)) i j) = fun j => raw U (Fin.castLE h j) := by
    funext j i
    show (U i (Fin.castLE h j) * SignType.sign (U 0 (Fin.castLE h j))) * SignType.sign (U 0 (Fin.castLE h j)) = U i (Fin.castLE h j)
    rw [mul_assoc, sign_sq (hU j), mul_one]
  rw [e1, e2]

/-- Law of Wood's statistic under the null hypothesis, for eigenvectors with any signs. -/
theorem wald_law (hE : Eig R V U s) {κ : ℕ} (h : κ + 2 ≤ m + 1) (hs : ∀ j : Fin (κ + 2), 0 < s (Fin.castLE h j))
    (ε : Fin (κ + 2) → ℝ) (hε : ∀ j, ε j * ε j = 1) {v : ℝ} (h0 : 0 < v) (h1 : v < 1) :
    (null V).map (fun β => wald (fun j i => U i (Fin.castLE h j) * ε j) (fun j => s (Fin.castLE h j)) v (fval R β))
      = chi (List.replicate κ 1 ++ [v1 v, v2 v]) := by
  obtain ⟨c, d, hcd, e1, e2, e3⟩ := block_rot h0 h1
  have hw := white hE h hs ε hε
  have hcore : Measurable (core κ v) := by unfold core; fun_prop
  have hmF : Measurable fun β : EuclideanSpace ℝ (Fin p) => fun j =>
      (√(s (Fin.castLE h j)))⁻¹ * (Matrix.of fun i j => cols U h i j * ε j)ᵀ.mulVec (fval R β) j := by
    refine measurable_pi_iff.2 fun j => ?_
    refine Measurable.const_mul ?_ _
    have h1 := measurable_pi_iff.1 (fval_measurable (R := R))
    show Measurable fun β : EuclideanSpace ℝ (Fin p) => ∑ i, (Matrix.of fun i j => cols U h i j * ε j)ᵀ j i * fval R β i
    exact Finset.measurable_sum _ fun i _ => (h1 i).const_mul _
  have hfun : (fun β => wald (fun j i => U i (Fin.castLE h j) * ε j) (fun j => s (Fin.castLE h j)) v (fval R β))
      = core κ v ∘ fun β => fun j => (√(s (Fin.castLE h j)))⁻¹ * (Matrix.of fun i j => cols U h i j * ε j)ᵀ.mulVec (fval R β) j := by
    funext β
    have := quad_wald (Matrix.of fun i j => cols U h i j * ε j) hs v (fval R β)
    rw [quad_eq, sNon_core hs] at this
    exact this.symm
  rw [hfun, ← Measure.map_map hcore hmF, hw]
  have hrot : core κ v = (fun x : Fin (κ + 2) → ℝ => ∑ j, wts κ v j * x j ^ 2) ∘ (rot κ c d).mulVec := by
    funext x
    exact core_rot e1 e2 e3 x
  have hmr : Measurable ((rot κ c d).mulVec : (Fin (κ + 2) → ℝ) → Fin (κ + 2) → ℝ) := by
    refine measurable_pi_iff.2 fun i => ?_
    show Measurable fun z : Fin (κ + 2) → ℝ => ∑ j, rot κ c d i j * z j
    fun_prop
  rw [hrot, ← Measure.map_map (sumsq_measurable _) hmr, std_orth _ (rot_orth κ hcd)]
  refine (chi_eq _ (by simp) _ fun j => ?_).symm
  unfold wts
  by_cases hj : (j : ℕ) < κ
  · rw [if_pos hj, List.getElem?_append_left (by simpa using hj), List.getElem?_replicate, if_pos hj]
  · rw [if_neg hj, List.getElem?_append_right (by simpa using hj), List.length_replicate]
    by_cases hk : (j : ℕ) = κ
    · rw [if_pos hk, hk, Nat.sub_self]; rfl
    · have hl := j.isLt
      rw [if_neg hk, show (j : ℕ) - κ = 1 by omega]; rfl

/-- Degrees of freedom handed to Davies' method, as natural numbers. -/
def dofs (k : ℕ) : List ℕ := (if 1 < k then [k - 1] else []) ++ [1, 1]

theorem dofs_floor (k : ℕ) : (nn k).map Nat.floor = dofs k := by
  unfold dofs nn
  by_cases hk : 1 < k
  · rw [if_pos hk, if_pos hk]
    have : (k : ℝ) - 2 + 1 = ((k - 1 : ℕ) : ℝ) := by rw [Nat.cast_sub hk.le]; push_cast; ring
    rw [this]
    simp
  · rw [if_neg hk, if_neg hk]
    simp

theorem dofs_cast (k : ℕ) : (dofs k).map Nat.cast = nn k := by
  unfold dofs nn
  by_cases hk : 1 < k
  · rw [if_pos hk, if_pos hk]
    simp [Nat.cast_sub hk.le]
    ring
  · rw [if_neg hk, if_neg hk]
    simp

/-- Weights and degrees of freedom describe the law of the statistic. -/
theorem spread_lb (κ : ℕ) (v : ℝ) : spread (lb (κ + 1) v) (dofs (κ + 1)) = List.replicate κ 1 ++ [v1 v, v2 v] := by
  unfold spread lb dofs
  by_cases hk : 1 < κ + 1
  · rw [if_pos hk, if_pos hk]
    simp [List.replicate]
  · obtain rfl : κ = 0 := by omega
    rw [if_neg hk, if_neg hk]
    simp [List.replicate]

theorem std_sq (n : ℕ) (j : Fin n) : Integrable (fun x : Fin n → ℝ => x j ^ 2) (Mvn.std n) ∧ ∫ x, x j ^ 2 ∂(Mvn.std n) = 1 := by
  have hmp : MeasurePreserving (Function.eval j) (Mvn.std n) (gaussianReal 0 1) :=
    measurePreserving_eval (fun _ : Fin n => gaussianReal 0 1) j
  have hi : Integrable (fun x : ℝ => x ^ 2) (gaussianReal 0 1) := (memLp_id_gaussianReal 2).integrable_sq
  refine ⟨?_, ?_⟩
  · exact (hmp.integrable_comp hi.aestronglyMeasurable).2 hi
  · have h1 : ∫ x, x j ^ 2 ∂(Mvn.std n) = ∫ y, y ^ 2 ∂(gaussianReal 0 1) := by
      rw [← hmp.map_eq, integral_map hmp.measurable.aemeasurable (by fun_prop)]
    rw [h1]
    have h2 := variance_fun_id_gaussianReal (μ := 0) (v := 1)
    rw [show (fun x : ℝ => x) = id from rfl, variance_eq_sub (memLp_id_gaussianReal 2)] at h2
    simp at h2
    exact h2

theorem chi_mean (e : List ℝ) : ∫ t, t ∂(chi e) = e.sum := by
  unfold chi
  rw [integral_map (sumsq_measurable _).aemeasurable (by fun_prop), integral_finsetSum]
  · simp only [integral_const_mul, (std_sq _ _).2, mul_one]
    rw [← List.sum_ofFn, List.ofFn_get]
  · intro j _
    exact (std_sq _ j).1.const_mul _

/-- **C86.** The weights and degrees of freedom handed to Davies' method are those of the law of the statistic under the null
hypothesis, for both statistics. Its mean is the number of degrees of freedom of the function. -/
theorem law_noninteger (hE : Eig R V U s) {κ : ℕ} (h : κ + 2 ≤ m + 1) (hs : ∀ j : Fin (κ + 2), 0 < s (Fin.castLE h j))
    (hU : ∀ j : Fin (κ + 2), U 0 (Fin.castLE h j) ≠ 0) {v : ℝ} (h0 : 0 < v) (h1 : v < 1) :
    ∃ ns : List ℕ, ns.map Nat.cast = nn (κ + 1) ∧
      (null V).map (fun β => (stats (cols U h) (sNon (fun j => s (Fin.castLE h j)) v) (fval R β)).1) = chi (spread (lb (κ + 1) v) ns) ∧
      (null V).map (fun β => (stats (cols U h) (sNon (fun j => s (Fin.castLE h j)) v) (fval R β)).2) = chi (spread (lb (κ + 1) v) ns) ∧
      ∫ t, t ∂(chi (spread (lb (κ + 1) v) ns)) = (κ + 1 : ℕ) + v := by
  refine ⟨dofs (κ + 1), dofs_cast _, ?_, ?_, ?_⟩
  · rw [spread_lb]
    simp only [stats_wald h hs hU]
    exact wald_law hE h hs (fun j => SignType.sign (U 0 (Fin.castLE h j))) (fun j => sign_sq (hU j)) h0 h1
  · rw [spread_lb]
    simp only [stats_wald h hs hU]
    have := wald_law hE h hs (fun _ => 1) (fun _ => by norm_num) h0 h1
    simp only [mul_one] at this
    exact this
  · rw [chi_mean, spread_lb]
    simp [v2]
    ring

theorem fval_wald_measurable {κ : ℕ} (u : Fin (κ + 2) → Fin (m + 1) → ℝ) (σ : Fin (κ + 2) → ℝ) (v : ℝ) :
    Measurable fun β : EuclideanSpace ℝ (Fin p) => wald u σ v (fval R β) := by
  have h1 := measurable_pi_iff.1 (fval_measurable (R := R))
  have h2 : ∀ j, Measurable fun β : EuclideanSpace ℝ (Fin p) => (u j ⬝ᵥ fval R β) / √(σ j) := by
    intro j
    refine Measurable.div_const ?_ _
    show Measurable fun β : EuclideanSpace ℝ (Fin p) => ∑ i, u j i * fval R β i
    exact Finset.measurable_sum _ fun i _ => (h1 i).const_mul _
  unfold wald
  dsimp only
  fun_prop

/-- Upper tail under a law given as an image. -/
theorem tail_map {e : List ℝ} {T : EuclideanSpace ℝ (Fin p) → ℝ} (hT : Measurable T) (hl : (null V).map T = chi e) (c : ℝ) :
    1 - min ((chi e).real (Set.Iio c)) 1 = (null V).real {β | c ≤ T β} := by
  rw [min_eq_left measureReal_le_one, ← probReal_compl_eq_one_sub measurableSet_Iio, Set.compl_Iio]
  unfold Measure.real
  rw [← hl, Measure.map_apply hT measurableSet_Ici]
  rfl

/-- **C86, partial.** Degrees of freedom not an integer, scale known, Davies' method exact: the returned p-value is the mean
of two probabilities under the null hypothesis, of a statistic at least as large as observed, for the eigenvectors
with fixed signs and for the eigenvectors as returned, and the returned statistic is the larger of the two. Not covered: an
estimated scale, fallbacks after a fault, and eigenvectors with first entry zero. -/
theorem p_noninteger_partial (hE : Eig R V U s) {L : Lib} (hL : Davies L) {r : ℝ} {κ : ℕ} (hk : ⌊r⌋₊ = κ + 1) (hr : r ≠ (κ + 1 : ℕ))
    (h : κ + 2 ≤ m + 1) (hs : ∀ j : Fin (κ + 2), 0 < s (Fin.castLE h j)) (hU : ∀ j : Fin (κ + 2), U 0 (Fin.castLE h j) ≠ 0)
    (rsdf : ℝ) (β : EuclideanSpace ℝ (Fin p)) :
    ∃ T1 T2 : EuclideanSpace ℝ (Fin p) → ℝ,
      T1 = (fun β => wald (fun j => fixed U (Fin.castLE h j)) (fun j => s (Fin.castLE h j)) (r - (κ + 1 : ℕ)) (fval R β)) ∧
      T2 = (fun β => wald (fun j => raw U (Fin.castLE h j)) (fun j => s (Fin.castLE h j)) (r - (κ + 1 : ℕ)) (fval R β)) ∧
      test L false false rsdf U s r (fval R β)
        = some (((null V).real {γ | T1 β ≤ T1 γ} + (null V).real {γ | T2 β ≤ T2 γ}) / 2, max (T1 β) (T2 β)) := by
  refine ⟨_, _, rfl, rfl, ?_⟩
  have hrpos : 0 < r := by
    by_contra hn
    rw [Nat.floor_of_nonpos (not_lt.1 hn)] at hk
    omega
  have hfl := Nat.floor_le hrpos.le
  have hfl2 := Nat.lt_floor_add_one r
  rw [hk] at hfl hfl2
  have h0 : 0 < r - (κ + 1 : ℕ) := sub_pos.2 (lt_of_le_of_ne hfl (Ne.symm hr))
  have h1 : r - (κ + 1 : ℕ) < 1 := by linarith
  have l1 := wald_law hE h hs (fun j => SignType.sign (U 0 (Fin.castLE h j))) (fun j => sign_sq (hU j)) h0 h1
  have l2 := wald_law hE h hs (fun _ => 1) (fun _ => by norm_num) h0 h1
  simp only [mul_one] at l2
  unfold test
  rw [hk]
  dsimp only
  rw [if_neg h0.ne', dif_pos h, stats_wald h hs hU]
  unfold nonCase
  simp only [Bool.false_eq_true, if_false]
  rw [hL, hL, dofs_floor, spread_lb]
  have hf : fallback false 0 0 = false := by decide
  simp only [hf, Bool.false_eq_true, if_false]
  rw [tail_map (fval_wald_measurable _ _ _) l1, tail_map (fval_wald_measurable _ _ _) l2]
  rfl

/-- **C86.** If moreover the first entries of the eigenvectors are positive, the test is valid: under the null hypothesis the
p-value is at most `α` with probability at most `α`. -/
theorem p_noninteger_valid (hE : Eig R V U s) {L : Lib} (hL : Davies L) {r : ℝ} {κ : ℕ} (hk : ⌊r⌋₊ = κ + 1) (hr : r ≠ (κ + 1 : ℕ))
    (h : κ + 2 ≤ m + 1) (hs : ∀ j : Fin (κ + 2), 0 < s (Fin.castLE h j)) (hU : ∀ j : Fin (κ + 2), 0 < U 0 (Fin.castLE h j))
    (rsdf : ℝ) {α : ℝ} (hα : 0 ≤ α) :
    (null V).real {β | ∃ p T, test L false false rsdf U s r (fval R β) = some (p, T) ∧ p ≤ α} ≤ α := by
  have hT : (fun j => fixed U (Fin.castLE h j)) = fun j : Fin (κ + 2) => raw U (Fin.castLE h j) := by
    funext j i
    unfold fixed raw
    rw [sign_pos (hU j)]
    simp
  obtain ⟨T, hTe⟩ : ∃ T : EuclideanSpace ℝ (Fin p) → ℝ, T = fun β => wald (fun j => raw U (Fin.castLE h j))
    (fun j => s (Fin.castLE h j)) (r - (κ + 1 : ℕ)) (fval R β) := ⟨_, rfl⟩
  have hTm : Measurable T := by rw [hTe]; exact fval_wald_measurable _ _ _
  have hset : {β | ∃ p T, test L false false rsdf U s r (fval R β) = some (p, T) ∧ p ≤ α}
      = T ⁻¹' {t | ((null V).map T).real (Set.Ici t) ≤ α} := by
    ext β
    obtain ⟨T1, T2, e1, e2, e3⟩ := p_noninteger_partial hE hL hk hr h hs (fun j => (hU j).ne') rsdf β
    rw [hT, ← hTe] at e1
    rw [← hTe] at e2
    rw [e1, e2] at e3
    have hr' : ((null V).map T).real (Set.Ici (T β)) = (null V).real {γ | T β ≤ T γ} := by
      unfold Measure.real
      rw [Measure.map_apply hTm measurableSet_Ici]
      rfl
    simp only [Set.mem_ofPred_eq, Set.mem_preimage, e3, Option.some.injEq, Prod.mk.injEq, hr']
    constructor
    · rintro ⟨p, t, ⟨rfl, _⟩, hp⟩
      linarith
    · intro hp
      exact ⟨_, _, ⟨rfl, rfl⟩, by linarith⟩
  rw [hset]
  haveI : IsProbabilityMeasure (null V) := by unfold null; infer_instance
  haveI : IsProbabilityMeasure ((null V).map T) := Measure.isProbabilityMeasure_map hTm.aemeasurable
  have := tail_valid ((null V).map T) hα
  refine le_trans (le_of_eq ?_) this
  have hms : MeasurableSet {t : ℝ | ((null V).map T).real (Set.Ici t) ≤ α} := by
    refine Set.OrdConnected.measurableSet ⟨?_⟩
    intro a ha b _ c hc
    exact le_trans (measureReal_mono (Set.Ici_subset_Ici.2 hc.1)) ha
  rw [map_measureReal_apply hTm hms]

end Law

end Verif.Wald
