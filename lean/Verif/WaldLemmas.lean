import Verif.WaldModel
import Verif.Mvn
import Mathlib.Probability.CDF
import Mathlib.Analysis.Matrix.Order

/-! Helper lemmas for the tests of smooth terms. -/

namespace Verif.Wald

open Matrix Finset MeasureTheory ProbabilityTheory WithLp

/-- A linear map with orthonormal rows takes independent standard normals to independent standard normals. -/
theorem std_orth {n q : ℕ} (A : Matrix (Fin n) (Fin q) ℝ) (hA : A * Aᵀ = 1) : (Mvn.std q).map A.mulVec = Mvn.std n := by
  have hmA : Measurable (A.mulVec : (Fin q → ℝ) → Fin n → ℝ) := by
    refine measurable_pi_iff.2 fun i => ?_
    show Measurable fun z : Fin q → ℝ => ∑ j, A i j * z j
    fun_prop
  have h1 := Mvn.affine_law (m := n) (q := q) 0 A
  have h2 := Mvn.affine_law (m := n) (q := n) 0 1
  rw [hA] at h1
  rw [Matrix.transpose_one, Matrix.one_mul, ← h1] at h2
  have e := congrArg (fun μ : Measure (EuclideanSpace ℝ (Fin n)) => μ.map fun x => x.ofLp) h2
  simp only at e
  rw [Measure.map_map (by fun_prop) (by simp only [Matrix.one_mulVec]; fun_prop), Measure.map_map (by fun_prop) (by
    have : Measurable (fun z : Fin q → ℝ => (0 : Fin n → ℝ) + A.mulVec z) := by
      simp only [zero_add]; exact hmA
    fun_prop)] at e
  have e1 : ((fun x : EuclideanSpace ℝ (Fin n) => x.ofLp) ∘ fun z : Fin n → ℝ => toLp 2 (0 + (1 : Matrix (Fin n) (Fin n) ℝ).mulVec z)) = id := by
    funext z
    simp
  have e2 : ((fun x : EuclideanSpace ℝ (Fin n) => x.ofLp) ∘ fun z : Fin q → ℝ => toLp 2 (0 + A.mulVec z)) = A.mulVec := by
    funext z
    simp
  rw [e1, e2, Measure.map_id] at e
  exact e.symm

/-- Law of the sum of squared independent standard normals with weights `e`. -/
noncomputable def chi (e : List ℝ) : Measure ℝ := (Mvn.std e.length).map fun x => ∑ j, e.get j * x j ^ 2

theorem sumsq_measurable {n : ℕ} (w : Fin n → ℝ) : Measurable fun x : Fin n → ℝ => ∑ j, w j * x j ^ 2 := by fun_prop

instance (e : List ℝ) : IsProbabilityMeasure (chi e) := by
  unfold chi
  exact Measure.isProbabilityMeasure_map (sumsq_measurable _).aemeasurable

theorem chi_eq {n : ℕ} (e : List ℝ) (h : e.length = n) (w : Fin n → ℝ) (hw : ∀ j : Fin n, e[(j : ℕ)]? = some (w j)) :
    chi e = (Mvn.std n).map fun x => ∑ j, w j * x j ^ 2 := by
  subst h
  unfold chi
  congr 1
  funext x
  refine sum_congr rfl fun j _ => ?_
  have := hw j
  rw [List.getElem?_eq_getElem j.isLt, Option.some.injEq] at this
  rw [← this]
  rfl

/-! ### The 2 x 2 block -/

theorem half_pow (x : ℝ) : x ^ (1 / 2 : ℝ) = √x := (Real.sqrt_eq_rpow x).symm

theorem neg_half_pow {x : ℝ} (hx : 0 < x) : x ^ (-1 / 2 : ℝ) = (√x)⁻¹ := by
  rw [show (-1 / 2 : ℝ) = -(1 / 2) by ring, Real.rpow_neg hx.le, half_pow]

section Block

variable {v : ℝ} (h0 : 0 < v) (h1 : v < 1)
include h0 h1

theorem v12_pos : 0 < v1 v - v2 v := by
  unfold v2 v1
  rw [half_pow]
  have : 0 < √(1 - v ^ 2) := Real.sqrt_pos.2 (by nlinarith)
  linarith

theorem v1_gt : 1 < v1 v := by
  unfold v1
  rw [half_pow]
  have : 1 - v < √(1 - v ^ 2) := Real.lt_sqrt_of_sq_lt (by nlinarith)
  linarith

theorem pB_sq : pB v ^ 2 = (v1 v - 1) * (v1 v - v) := by
  unfold pB v1
  rw [half_pow, half_pow, Real.sq_sqrt (by nlinarith)]
  have := Real.sq_sqrt (show (0 : ℝ) ≤ 1 - v ^ 2 by nlinarith)
  nlinarith

theorem pB_pos : 0 < pB v := by
  unfold pB
  rw [half_pow]
  exact Real.sqrt_pos.2 (by nlinarith)

theorem v2_pos : 0 < v2 v := by
  unfold v2 v1
  rw [half_pow]
  have : √(1 - v ^ 2) < 1 := by
    rw [Real.sqrt_lt' one_pos]
    nlinarith
  linarith

/-- The block has eigenvalues `v1`, `v2`. -/
theorem block_rot : ∃ c d : ℝ, c ^ 2 + d ^ 2 = 1 ∧ v1 v * c ^ 2 + v2 v * d ^ 2 = 1 ∧ (v1 v - v2 v) * (c * d) = pB v ∧
    v1 v * d ^ 2 + v2 v * c ^ 2 = v := by
  have hp := v12_pos h0 h1
  have hg := v1_gt h0 h1
  have hs : v2 v = v + 1 - v1 v := rfl
  have e1 : √((v1 v - v) / (v1 v - v2 v)) ^ 2 = (v1 v - v) / (v1 v - v2 v) := Real.sq_sqrt (div_nonneg (by linarith) hp.le)
  have e2 : √((v1 v - 1) / (v1 v - v2 v)) ^ 2 = (v1 v - 1) / (v1 v - v2 v) := Real.sq_sqrt (div_nonneg (by linarith) hp.le)
  refine ⟨√((v1 v - v) / (v1 v - v2 v)), √((v1 v - 1) / (v1 v - v2 v)), ?_, ?_, ?_, ?_⟩
  · rw [e1, e2]; field_simp; rw [hs]; ring
  · rw [e1, e2]; field_simp; rw [hs]; ring
  · rw [← Real.sqrt_mul (div_nonneg (by linarith) hp.le),
      show (v1 v - v) / (v1 v - v2 v) * ((v1 v - 1) / (v1 v - v2 v)) = pB v ^ 2 / (v1 v - v2 v) ^ 2 by rw [pB_sq h0 h1]; field_simp,
      ← div_pow, Real.sqrt_sq (div_nonneg (pB_pos h0 h1).le hp.le)]
    field_simp
  · rw [e1, e2]; field_simp; rw [hs]; ring

end Block

/-! ### Rotation of all components -/

/-- Weights of the components: 1 for the first `κ`, then `v1`, `v2`. -/
noncomputable def wts (κ : ℕ) (v : ℝ) (j : Fin (κ + 2)) : ℝ := if (j : ℕ) < κ then 1 else if (j : ℕ) = κ then v1 v else v2 v

/-- Rotation of the last two components. -/
def rot (κ : ℕ) (c d : ℝ) : Matrix (Fin (κ + 2)) (Fin (κ + 2)) ℝ := Matrix.of fun i j =>
  if (i : ℕ) < κ ∨ (j : ℕ) < κ then (if i = j then 1 else 0)
  else if (i : ℕ) = κ then (if (j : ℕ) = κ then c else d) else (if (j : ℕ) = κ then -d else c)

/-- Quadratic form of the statistic in the whitened components. -/
noncomputable def core (κ : ℕ) (v : ℝ) (h : Fin (κ + 2) → ℝ) : ℝ :=
  (∑ j : Fin κ, h j.castSucc.castSucc ^ 2) + h (Fin.last κ).castSucc ^ 2
    + 2 * pB v * h (Fin.last κ).castSucc * h (Fin.last (κ + 1)) + v * h (Fin.last (κ + 1)) ^ 2

theorem rot_mulVec (κ : ℕ) (c d : ℝ) (h : Fin (κ + 2) → ℝ) :
    (∀ j : Fin κ, (rot κ c d).mulVec h j.castSucc.castSucc = h j.castSucc.castSucc) ∧
    (rot κ c d).mulVec h (Fin.last κ).castSucc = c * h (Fin.last κ).castSucc + d * h (Fin.last (κ + 1)) ∧
    (rot κ c d).mulVec h (Fin.last (κ + 1)) = -d * h (Fin.last κ).castSucc + c * h (Fin.last (κ + 1)) := by
  refine ⟨fun j => ?_, ?_, ?_⟩
  · show ∑ l, rot κ c d _ l * h l = _
    rw [Finset.sum_eq_single j.castSucc.castSucc]
    · simp [rot]
    · intro l _ hl
      simp [rot, hl.symm]
    · intro hh; exact absurd (mem_univ _) hh
  · show ∑ l, rot κ c d _ l * h l = _
    rw [Fin.sum_univ_castSucc, Fin.sum_univ_castSucc]
    have e0 : ∑ l : Fin κ, rot κ c d (Fin.last κ).castSucc l.castSucc.castSucc * h l.castSucc.castSucc = 0 := by
      refine sum_eq_zero fun l _ => ?_
      have : (Fin.last κ).castSucc ≠ l.castSucc.castSucc := by
        intro he
        have := congrArg Fin.val he
        simp at this
        have := l.isLt
        omega
      simp [rot, this]
    rw [e0]
    simp [rot]
  · show ∑ l, rot κ c d _ l * h l = _
    rw [Fin.sum_univ_castSucc, Fin.sum_univ_castSucc]
    have e0 : ∑ l : Fin κ, rot κ c d (Fin.last (κ + 1)) l.castSucc.castSucc * h l.castSucc.castSucc = 0 := by
      refine sum_eq_zero fun l _ => ?_
      have : Fin.last (κ + 1) ≠ l.castSucc.castSucc := by
        intro he
        have := congrArg Fin.val he
        simp at this
        have := l.isLt
        omega
      simp [rot, this]
    rw [e0]
    simp [rot]

theorem rot_orth (κ : ℕ) {c d : ℝ} (hcd : c ^ 2 + d ^ 2 = 1) : rot κ c d * (rot κ c d)ᵀ = 1 := by
  ext i j
  rw [Matrix.mul_apply]
  show ∑ l, rot κ c d i l * rot κ c d j l = _
  have h := rot_mulVec κ c d fun l => rot κ c d j l
  have key : (rot κ c d).mulVec (fun l => rot κ c d j l) i = (1 : Matrix (Fin (κ + 2)) (Fin (κ + 2)) ℝ) i j := by
    refine Fin.lastCases ?_ (fun i => Fin.lastCases ?_ (fun i => ?_) i) i
    · rw [h.2.2]
      refine Fin.lastCases ?_ (fun j => Fin.lastCases ?_ (fun j => ?_) j) j
      · simp [rot]; linarith
      · simp [rot, Matrix.one_apply, Fin.ext_iff]; ring
      · have := j.isLt
        simp [rot, Matrix.one_apply, Fin.ext_iff]
        rw [if_neg (by omega), if_neg (by omega), if_neg (by omega)]; simp
    · rw [h.2.1]
      refine Fin.lastCases ?_ (fun j => Fin.lastCases ?_ (fun j => ?_) j) j
      · simp [rot, Matrix.one_apply, Fin.ext_iff]; ring
      · simp [rot]; linarith
      · have := j.isLt
        simp [rot, Matrix.one_apply, Fin.ext_iff]
        rw [if_neg (by omega), if_neg (by omega), if_neg (by omega)]; simp
    · rw [h.1 i]
      have := i.isLt
      simp [rot, Matrix.one_apply, eq_comm]
  exact key

theorem core_rot {κ : ℕ} {v c d : ℝ} (e1 : v1 v * c ^ 2 + v2 v * d ^ 2 = 1) (e2 : (v1 v - v2 v) * (c * d) = pB v)
    (e3 : v1 v * d ^ 2 + v2 v * c ^ 2 = v) (h : Fin (κ + 2) → ℝ) :
    core κ v h = ∑ j, wts κ v j * (rot κ c d).mulVec h j ^ 2 := by
  obtain ⟨r1, r2, r3⟩ := rot_mulVec κ c d h
  rw [Fin.sum_univ_castSucc, Fin.sum_univ_castSucc, r2, r3]
  have hs : ∑ j : Fin κ, wts κ v j.castSucc.castSucc * (rot κ c d).mulVec h j.castSucc.castSucc ^ 2
      = ∑ j : Fin κ, h j.castSucc.castSucc ^ 2 := by
    refine sum_congr rfl fun j _ => ?_
    rw [r1 j]
    simp [wts]
  rw [hs]
  have w1 : wts κ v (Fin.last κ).castSucc = v1 v := by simp [wts]
  have w2 : wts κ v (Fin.last (κ + 1)) = v2 v := by simp [wts]
  rw [w1, w2]
  unfold core
  linear_combination -(h (Fin.last κ).castSucc ^ 2) * e1 - 2 * (h (Fin.last κ).castSucc) * (h (Fin.last (κ + 1))) * e2
    - (h (Fin.last (κ + 1)) ^ 2) * e3

/-! ### The statistic -/

theorem quad_eq {m n : ℕ} (U : Matrix (Fin (m + 1)) (Fin n) ℝ) (S : Matrix (Fin n) (Fin n) ℝ) (f : Fin (m + 1) → ℝ) :
    quad U S f = Uᵀ.mulVec f ⬝ᵥ S.mulVec (Uᵀ.mulVec f) := by
  unfold quad
  rw [← Matrix.mulVec_mulVec, ← Matrix.mulVec_mulVec, Matrix.dotProduct_mulVec, ← Matrix.mulVec_transpose]

theorem sNon_core {κ : ℕ} {s : Fin (κ + 2) → ℝ} (hs : ∀ j, 0 < s j) (v : ℝ) (g : Fin (κ + 2) → ℝ) :
    g ⬝ᵥ (sNon s v).mulVec g = core κ v fun j => (√(s j))⁻¹ * g j := by
  have row : ∀ i, (sNon s v).mulVec g i = ∑ j, sNon s v i j * g j := fun i => rfl
  show ∑ i, g i * (sNon s v).mulVec g i = _
  have rl : ∀ i : Fin κ, (sNon s v).mulVec g i.castSucc.castSucc = (√(s i.castSucc.castSucc))⁻¹ ^ 2 * g i.castSucc.castSucc := by
    intro i
    rw [row, Finset.sum_eq_single i.castSucc.castSucc]
    · have hi := i.isLt
      simp [sNon]
      rw [if_neg (by omega), Real.sq_sqrt (hs _).le]
    · intro l _ hl
      have hi := i.isLt
      simp [sNon, hl.symm]
    · intro hh; exact absurd (mem_univ _) hh
  have z1 : ∀ i : Fin (κ + 2), κ ≤ (i : ℕ) → ∑ l : Fin κ, sNon s v i l.castSucc.castSucc * g l.castSucc.castSucc = 0 := by
    intro i hi
    refine sum_eq_zero fun l _ => ?_
    have hl := l.isLt
    have hne : i ≠ l.castSucc.castSucc := by
      intro he
      have := congrArg Fin.val he
      simp at this
      omega
    simp [sNon, hne]
  have r1 : (sNon s v).mulVec g (Fin.last κ).castSucc
      = (√(s (Fin.last κ).castSucc))⁻¹ * ((√(s (Fin.last κ).castSucc))⁻¹ * g (Fin.last κ).castSucc
        + pB v * ((√(s (Fin.last (κ + 1))))⁻¹ * g (Fin.last (κ + 1)))) := by
    rw [row, Fin.sum_univ_castSucc, Fin.sum_univ_castSucc, z1 _ (by simp)]
    simp [sNon, bB, neg_half_pow (hs _)]
    ring
  have r2 : (sNon s v).mulVec g (Fin.last (κ + 1))
      = (√(s (Fin.last (κ + 1))))⁻¹ * (pB v * ((√(s (Fin.last κ).castSucc))⁻¹ * g (Fin.last κ).castSucc)
        + v * ((√(s (Fin.last (κ + 1))))⁻¹ * g (Fin.last (κ + 1)))) := by
    rw [row, Fin.sum_univ_castSucc, Fin.sum_univ_castSucc, z1 _ (by simp)]
    simp [sNon, bB, neg_half_pow (hs _)]
    ring
  rw [Fin.sum_univ_castSucc, Fin.sum_univ_castSucc, r1, r2]
  simp only [rl]
  unfold core
  have : ∀ i : Fin κ, g i.castSucc.castSucc * ((√(s i.castSucc.castSucc))⁻¹ ^ 2 * g i.castSucc.castSucc)
      = ((√(s i.castSucc.castSucc))⁻¹ * g i.castSucc.castSucc) ^ 2 := fun i => by ring
  simp only [this]
  ring

/-- A covariance matrix has a root. -/
theorem cov_root {p : ℕ} {V : Matrix (Fin p) (Fin p) ℝ} (hV : V.PosSemidef) : ∃ A : Matrix (Fin p) (Fin p) ℝ, V = A * Aᵀ := by
  have hex : ∃ B : Matrix (Fin p) (Fin p) ℝ, V = star B * B := by
    open scoped MatrixOrder in
    exact CStarAlgebra.nonneg_iff_eq_star_mul_self.1 hV.nonneg
  obtain ⟨B, hB⟩ := hex
  refine ⟨Bᵀ, ?_⟩
  rw [hB, Matrix.star_eq_conjTranspose, Matrix.conjTranspose_eq_transpose_of_trivial, Matrix.transpose_transpose]

/-- p-values computed as upper tail probabilities are valid. -/
theorem tail_valid (μ : Measure ℝ) [IsProbabilityMeasure μ] {α : ℝ} (hα : 0 ≤ α) : μ.real {t | μ.real (Set.Ici t) ≤ α} ≤ α := by
  classical
  set S := {t : ℝ | μ.real (Set.Ici t) ≤ α} with hS
  have hup : ∀ a ∈ S, ∀ b, a ≤ b → b ∈ S := fun a ha b hab =>
    le_trans (measureReal_mono (Set.Ici_subset_Ici.2 hab)) ha
  rcases Set.eq_empty_or_nonempty S with he | hne
  · rw [he]; simpa using hα
  by_cases hb : BddBelow S
  · by_cases hm : sInf S ∈ S
    · have : S ⊆ Set.Ici (sInf S) := fun t ht => csInf_le hb ht
      exact le_trans (measureReal_mono this) hm
    · have hsub : S ⊆ ⋃ n : ℕ, Set.Ici (sInf S + 1 / ((n : ℝ) + 1)) := by
        intro t ht
        have hlt : sInf S < t := lt_of_le_of_ne (csInf_le hb ht) fun h => hm (h ▸ ht)
        obtain ⟨n, hn⟩ := exists_nat_one_div_lt (sub_pos.2 hlt)
        refine Set.mem_iUnion.2 ⟨n, ?_⟩
        simp only [Set.mem_Ici]
        linarith
      have hmono : Monotone fun n : ℕ => Set.Ici (sInf S + 1 / ((n : ℝ) + 1)) := by
        intro a b hab
        refine Set.Ici_subset_Ici.2 ?_
        have : 1 / ((b : ℝ) + 1) ≤ 1 / ((a : ℝ) + 1) := one_div_le_one_div_of_le (by positivity) (by exact_mod_cast Nat.succ_le_succ hab)
        linarith
      have hin : ∀ n : ℕ, sInf S + 1 / ((n : ℝ) + 1) ∈ S := by
        intro n
        have hpos : (0 : ℝ) < 1 / ((n : ℝ) + 1) := by positivity
        obtain ⟨a, ha, hlt⟩ := exists_lt_of_csInf_lt hne (show sInf S < sInf S + 1 / ((n : ℝ) + 1) by linarith)
        exact hup a ha _ hlt.le
      have hlim := tendsto_measure_iUnion_atTop (μ := μ) hmono
      have hle : μ (⋃ n : ℕ, Set.Ici (sInf S + 1 / ((n : ℝ) + 1))) ≤ ENNReal.ofReal α := by
        refine le_of_tendsto hlim (Filter.Eventually.of_forall fun n => ?_)
        have := hin n
        rw [hS] at this
        exact (ENNReal.le_ofReal_iff_toReal_le (measure_ne_top _ _) hα).2 this
      refine le_trans (measureReal_mono hsub) ?_
      exact ENNReal.toReal_le_of_le_ofReal hα hle
  · have huniv : ∀ t, t ∈ S := by
      intro t
      by_contra ht
      refine hb ⟨t, fun a ha => ?_⟩
      by_contra hlt
      exact ht (hup a ha t (not_le.1 hlt).le)
    have hsub : S ⊆ ⋃ n : ℕ, Set.Ici (-(n : ℝ)) := by
      intro t _
      obtain ⟨n, hn⟩ := exists_nat_ge (-t)
      refine Set.mem_iUnion.2 ⟨n, ?_⟩
      simp only [Set.mem_Ici]
      linarith
    have hmono : Monotone fun n : ℕ => Set.Ici (-(n : ℝ)) := by
      intro a b hab
      refine Set.Ici_subset_Ici.2 ?_
      have : (a : ℝ) ≤ b := by exact_mod_cast hab
      linarith
    have hlim := tendsto_measure_iUnion_atTop (μ := μ) hmono
    have hle : μ (⋃ n : ℕ, Set.Ici (-(n : ℝ))) ≤ ENNReal.ofReal α := by
      refine le_of_tendsto hlim (Filter.Eventually.of_forall fun n => ?_)
      exact (ENNReal.le_ofReal_iff_toReal_le (measure_ne_top _ _) hα).2 (huniv _)
    refine le_trans (measureReal_mono hsub) ?_
    exact ENNReal.toReal_le_of_le_ofReal hα hle

end Verif.Wald
