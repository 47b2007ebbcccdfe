import Verif.Wald

/-!
# Tests of smooth terms: integer degrees of freedom, estimated scale, failures (property C86)
-/

namespace Verif.Wald

open Matrix Finset MeasureTheory ProbabilityTheory WithLp

section

variable {m p : ℕ} {R : Matrix (Fin (m + 1)) (Fin p) ℝ} {V : Matrix (Fin p) (Fin p) ℝ} {U : Matrix (Fin (m + 1)) (Fin (m + 1)) ℝ}
  {s : Fin (m + 1) → ℝ}

/-- Wald statistic of rank `k`: squared components along the first `k` eigenvectors, divided by their variances. -/
noncomputable def waldInt (U : Matrix (Fin (m + 1)) (Fin (m + 1)) ℝ) (s : Fin (m + 1) → ℝ) (k : ℕ) (f : Fin (m + 1) → ℝ) : ℝ :=
  ∑ j ∈ univ.filter (fun j : Fin (m + 1) => (j : ℕ) < k), (raw U j ⬝ᵥ f) ^ 2 / s j

theorem quad_int (C : Matrix (Fin (m + 1)) (Fin (m + 1)) ℝ) (k : ℕ) (f : Fin (m + 1) → ℝ) : quad C (sInt s k) f = waldInt C s k f := by
  rw [quad_eq]
  unfold sInt waldInt
  rw [sum_filter]
  show ∑ j, Cᵀ.mulVec f j * _ = _
  refine sum_congr rfl fun j _ => ?_
  rw [Matrix.mulVec_diagonal]
  have e : Cᵀ.mulVec f j = raw C j ⬝ᵥ f := rfl
  rw [e]
  by_cases hj : (j : ℕ) < k
  · rw [if_pos hj, if_pos hj]; ring
  · rw [if_neg hj, if_neg hj]; ring

theorem waldInt_sign (ε : Fin (m + 1) → ℝ) (k : ℕ) (hε : ∀ j : Fin (m + 1), (j : ℕ) < k → ε j * ε j = 1) (f : Fin (m + 1) → ℝ) :
    waldInt (Matrix.of fun i j => U i j * ε j) s k f = waldInt U s k f := by
  unfold waldInt
  refine sum_congr rfl fun j hj => ?_
  have hj' := (mem_filter.1 hj).2
  have e : raw (Matrix.of fun i j => U i j * ε j) j ⬝ᵥ f = ε j * (raw U j ⬝ᵥ f) := by
    show ∑ i, U i j * ε j * f i = ε j * ∑ i, U i j * f i
    rw [mul_sum]
    exact sum_congr rfl fun i _ => by ring
  rw [e, mul_pow, sq (ε j), hε j hj', one_mul]

/-- **C86.** If the degrees of freedom are an integer, both statistics are the Wald statistic of that rank. -/
theorem stats_int {k : ℕ} (hU : ∀ j : Fin (m + 1), (j : ℕ) < k → U 0 j ≠ 0) (f : Fin (m + 1) → ℝ) :
    stats U (sInt s k) f = (waldInt U s k f, waldInt U s k f) := by
  unfold stats
  rw [quad_int, quad_int]
  refine Prod.ext ?_ ?_
  · exact waldInt_sign (fun j => SignType.sign (U 0 j)) k (fun j hj => sign_sq (hU j hj)) f
  · have e : flip U (flip U U) = Matrix.of fun i j => U i j * ((SignType.sign (U 0 j) : ℝ) * SignType.sign (U 0 j)) := by
      ext i j
      show U i j * _ * _ = U i j * (_ * _)
      ring
    rw [e]
    exact waldInt_sign (fun j => (SignType.sign (U 0 j) : ℝ) * SignType.sign (U 0 j)) k
      (fun j hj => by rw [sign_sq (hU j hj), one_mul]) f

theorem sum_first {k : ℕ} (h : k ≤ m + 1) (g : Fin (m + 1) → ℝ) :
    ∑ j ∈ univ.filter (fun j : Fin (m + 1) => (j : ℕ) < k), g j = ∑ j : Fin k, g (Fin.castLE h j) := by
  have : univ.filter (fun j : Fin (m + 1) => (j : ℕ) < k) = univ.map (Fin.castLEEmb h) := by
    ext j
    simp only [mem_filter, mem_univ, true_and, mem_map]
    constructor
    · intro hj
      exact ⟨⟨j, hj⟩, rfl⟩
    · rintro ⟨i, rfl⟩
      exact i.isLt
  rw [this, sum_map]
  rfl

theorem waldInt_measurable (k : ℕ) : Measurable fun β : EuclideanSpace ℝ (Fin p) => waldInt U s k (fval R β) := by
  have h1 := measurable_pi_iff.1 (fval_measurable (R := R))
  unfold waldInt
  refine Finset.measurable_sum _ fun j _ => ?_
  refine Measurable.div_const ?_ _
  refine Measurable.pow_const ?_ 2
  show Measurable fun β : EuclideanSpace ℝ (Fin p) => ∑ i, raw U j i * fval R β i
  exact Finset.measurable_sum _ fun i _ => (h1 i).const_mul _

/-- **C86.** Under the null hypothesis the Wald statistic of rank `k` has the chi-square law with `k` degrees of freedom. -/
theorem law_int (hE : Eig R V U s) {k : ℕ} (h : k ≤ m + 1) (hs : ∀ j : Fin k, 0 < s (Fin.castLE h j)) :
    (null V).map (fun β => waldInt U s k (fval R β)) = chi (List.replicate k 1) := by
  have hw := white hE h hs (fun _ => 1) (fun _ => by norm_num)
  have hmF : Measurable fun β : EuclideanSpace ℝ (Fin p) => fun j =>
      (√(s (Fin.castLE h j)))⁻¹ * (Matrix.of fun i j => cols U h i j * 1)ᵀ.mulVec (fval R β) j := by
    refine measurable_pi_iff.2 fun j => ?_
    refine Measurable.const_mul ?_ _
    have h1 := measurable_pi_iff.1 (fval_measurable (R := R))
    show Measurable fun β : EuclideanSpace ℝ (Fin p) => ∑ i, (Matrix.of fun i j => cols U h i j * 1)ᵀ j i * fval R β i
    exact Finset.measurable_sum _ fun i _ => (h1 i).const_mul _
  rw [chi_eq (n := k) (List.replicate k 1) (by simp) (fun _ => 1) (fun j => by simp), ← hw,
    Measure.map_map (sumsq_measurable _) hmF]
  congr 1
  funext β
  unfold waldInt
  rw [sum_first h]
  show _ = ∑ j : Fin k, (1 : ℝ) * ((√(s (Fin.castLE h j)))⁻¹ * (Matrix.of fun i j => cols U h i j * 1)ᵀ.mulVec (fval R β) j) ^ 2
  refine sum_congr rfl fun j _ => ?_
  have e : (Matrix.of fun i j => cols U h i j * (1 : ℝ))ᵀ.mulVec (fval R β) j = raw U (Fin.castLE h j) ⬝ᵥ fval R β := by
    show ∑ i, cols U h i j * 1 * fval R β i = ∑ i, U i (Fin.castLE h j) * fval R β i
    refine sum_congr rfl fun i _ => ?_
    rw [mul_one]
    rfl
  rw [e, mul_pow, inv_pow, Real.sq_sqrt (hs j).le]
  ring

theorem null_prob : IsProbabilityMeasure (null V) := by unfold null; infer_instance

/-- **C86.** Integer degrees of freedom, known scale, exact chi-square distribution function: the p-value is the probability,
under the null hypothesis, of a Wald statistic at least as large as the one returned. -/
theorem p_int (hE : Eig R V U s) {L : Lib} (hL : Chi2 L) {k : ℕ} (hk : 0 < k) (h : k ≤ m + 1) (hs : ∀ j : Fin k, 0 < s (Fin.castLE h j))
    (hU : ∀ j : Fin (m + 1), (j : ℕ) < k → U 0 j ≠ 0) (force : Bool) (rsdf : ℝ) (β : EuclideanSpace ℝ (Fin p)) :
    test L false force rsdf U s k (fval R β)
      = some ((null V).real {γ | waldInt U s k (fval R β) ≤ waldInt U s k (fval R γ)}, waldInt U s k (fval R β)) := by
  obtain ⟨κ, rfl⟩ : ∃ κ, k = κ + 1 := ⟨k - 1, by omega⟩
  have hlaw := law_int hE h hs
  have htail := tail_map (waldInt_measurable (R := R) (U := U) (s := s) (κ + 1)) hlaw (waldInt U s (κ + 1) (fval R β))
  rw [min_eq_left measureReal_le_one] at htail
  unfold test
  rw [Nat.floor_natCast]
  dsimp only
  rw [if_pos (sub_self _), stats_int hU]
  unfold intCase
  simp only [Bool.false_eq_true, if_false, max_self]
  rw [hL, htail]
  congr 2
  ring

/-- **C86.** The test with integer degrees of freedom is valid. -/
theorem p_int_valid (hE : Eig R V U s) {L : Lib} (hL : Chi2 L) {k : ℕ} (hk : 0 < k) (h : k ≤ m + 1)
    (hs : ∀ j : Fin k, 0 < s (Fin.castLE h j)) (hU : ∀ j : Fin (m + 1), (j : ℕ) < k → U 0 j ≠ 0) (force : Bool) (rsdf : ℝ) {α : ℝ}
    (hα : 0 ≤ α) :
    (null V).real {β | ∃ p T, test L false force rsdf U s k (fval R β) = some (p, T) ∧ p ≤ α} ≤ α := by
  have hTm : Measurable fun β : EuclideanSpace ℝ (Fin p) => waldInt U s k (fval R β) := waldInt_measurable k
  obtain ⟨T, hT⟩ : ∃ T : EuclideanSpace ℝ (Fin p) → ℝ, T = fun β => waldInt U s k (fval R β) := ⟨_, rfl⟩
  rw [← hT] at hTm
  have hset : {β | ∃ p T, test L false force rsdf U s k (fval R β) = some (p, T) ∧ p ≤ α}
      = T ⁻¹' {t | ((null V).map T).real (Set.Ici t) ≤ α} := by
    ext β
    have e := p_int hE hL hk h hs hU force rsdf β
    have hr' : ((null V).map T).real (Set.Ici (T β)) = (null V).real {γ | waldInt U s k (fval R β) ≤ waldInt U s k (fval R γ)} := by
      rw [map_measureReal_apply hTm measurableSet_Ici, hT]
      rfl
    simp only [Set.mem_ofPred_eq, Set.mem_preimage, e, Option.some.injEq, Prod.mk.injEq, hr']
    constructor
    · rintro ⟨p, t, ⟨rfl, _⟩, hp⟩
      exact hp
    · intro hp
      exact ⟨_, _, ⟨rfl, rfl⟩, hp⟩
  rw [hset]
  have := null_prob (V := V)
  have : IsProbabilityMeasure ((null V).map T) := Measure.isProbabilityMeasure_map hTm.aemeasurable
  have hv := tail_valid ((null V).map T) hα
  refine le_trans (le_of_eq ?_) hv
  have hms : MeasurableSet {t : ℝ | ((null V).map T).real (Set.Ici t) ≤ α} := by
    refine Set.OrdConnected.measurableSet ⟨?_⟩
    intro a ha b _ c hc
    exact le_trans (measureReal_mono (Set.Ici_subset_Ici.2 hc.1)) ha
  rw [map_measureReal_apply hTm hms]

/-! ### Estimated scale -/

/-- Independent standard normals, put together. -/
theorem std_append (a b : ℕ) : ((Mvn.std a).prod (Mvn.std b)).map (fun y => Fin.append y.1 y.2) = Mvn.std (a + b) := by
  have hm : Measurable fun y : (Fin a → ℝ) × (Fin b → ℝ) => Fin.append y.1 y.2 := by
    refine measurable_pi_iff.2 fun i => ?_
    refine Fin.addCases (fun i => ?_) (fun i => ?_) i
    · simp only [Fin.append_left]; fun_prop
    · simp only [Fin.append_right]; fun_prop
  symm
  unfold Mvn.std
  refine Measure.pi_eq fun t ht => ?_
  rw [Measure.map_apply hm (MeasurableSet.univ_pi ht)]
  have hpre : (fun y : (Fin a → ℝ) × (Fin b → ℝ) => Fin.append y.1 y.2) ⁻¹' Set.pi Set.univ t
      = (Set.pi Set.univ fun i => t (Fin.castAdd b i)) ×ˢ (Set.pi Set.univ fun i => t (Fin.natAdd a i)) := by
    ext y
    simp only [Set.mem_preimage, Set.mem_pi, Set.mem_univ, true_imp_iff, Set.mem_prod]
    constructor
    · intro hy
      refine ⟨fun i => ?_, fun i => ?_⟩
      · have := hy (Fin.castAdd b i); rwa [Fin.append_left] at this
      · have := hy (Fin.natAdd a i); rwa [Fin.append_right] at this
    · rintro ⟨h1, h2⟩ i
      refine Fin.addCases (fun i => ?_) (fun i => ?_) i
      · rw [Fin.append_left]; exact h1 i
      · rw [Fin.append_right]; exact h2 i
  rw [hpre, Measure.prod_prod, Measure.pi_pi, Measure.pi_pi, Fin.prod_univ_add]

theorem chi_append (a b : List ℝ) : chi (a ++ b) = ((chi a).prod (chi b)).map fun y => y.1 + y.2 := by
  have hm : Measurable fun y : (Fin a.length → ℝ) × (Fin b.length → ℝ) => Fin.append y.1 y.2 := by
    refine measurable_pi_iff.2 fun i => ?_
    refine Fin.addCases (fun i => ?_) (fun i => ?_) i
    · simp only [Fin.append_left]; fun_prop
    · simp only [Fin.append_right]; fun_prop
  rw [chi_eq (n := a.length + b.length) (a ++ b) (by simp) (Fin.append a.get b.get), ← std_append,
    Measure.map_map (sumsq_measurable _) hm]
  · unfold chi
    rw [Measure.map_prod_map _ _ (sumsq_measurable _) (sumsq_measurable _), Measure.map_map (by fun_prop) (by fun_prop)]
    congr 1
    funext y
    show ∑ j, Fin.append a.get b.get j * Fin.append y.1 y.2 j ^ 2 = _
    rw [Fin.sum_univ_add]
    simp only [Fin.append_left, Fin.append_right]
    rfl
  · intro j
    refine Fin.addCases (fun i => ?_) (fun i => ?_) j
    · rw [Fin.append_left]
      have hi : (i : ℕ) < a.length := i.isLt
      simp [List.getElem?_append_left hi]
    · rw [Fin.append_right]
      simp

theorem chi_scale (n : ℕ) (w : ℝ) : chi (List.replicate n w) = (chi (List.replicate n 1)).map fun x => w * x := by
  rw [chi_eq (n := n) (List.replicate n w) (by simp) (fun _ => w) (fun j => by simp),
    chi_eq (n := n) (List.replicate n 1) (by simp) (fun _ => 1) (fun j => by simp), Measure.map_map (by fun_prop) (sumsq_measurable _)]
  congr 1
  funext x
  show _ = w * ∑ j, (1 : ℝ) * x j ^ 2
  rw [mul_sum]
  exact sum_congr rfl fun j _ => by ring

theorem spread_snoc (ws : List ℝ) (ns : List ℕ) (h : ws.length = ns.length) (w : ℝ) (n : ℕ) :
    spread (ws ++ [w]) (ns ++ [n]) = spread ws ns ++ List.replicate n w := by
  unfold spread
  rw [List.zipWith_append h, List.flatten_append]
  simp

/-- Probability, for a sum of weighted chi-square variables with law `chi e` and an independent chi-square variable `x` with
`n` degrees of freedom, that the first is at least `t` times `x / ρ`. -/
noncomputable def ratioTail (e : List ℝ) (n : ℕ) (ρ t : ℝ) : ℝ :=
  ((chi e).prod (chi (List.replicate n 1))).real {y | t * (y.2 / ρ) ≤ y.1}

theorem davies_ratio (e : List ℝ) (n : ℕ) (ρ t : ℝ) :
    1 - (chi (e ++ List.replicate n (-t / ρ))).real (Set.Iio 0) = ratioTail e n ρ t := by
  rw [← probReal_compl_eq_one_sub measurableSet_Iio, Set.compl_Iio, chi_append, chi_scale]
  have hid : chi e = (chi e).map id := Measure.map_id.symm
  conv_lhs => rw [hid]
  rw [Measure.map_prod_map _ _ measurable_id (by fun_prop), Measure.map_map (by fun_prop) (by fun_prop),
    map_measureReal_apply (by fun_prop) measurableSet_Ici]
  unfold ratioTail
  congr 1
  ext y
  simp only [Set.mem_preimage, Set.mem_Ici, Set.mem_ofPred_eq, Function.comp, Prod.map]
  show 0 ≤ y.1 + -t / ρ * y.2 ↔ _
  have : -t / ρ * y.2 = -(t * (y.2 / ρ)) := by ring
  rw [this]
  constructor <;> intro h <;> linarith

/-- **C86, partial.** Degrees of freedom not an integer, scale estimated, Davies' method exact: the returned p-value is the
mean over the two statistics of the probability that a statistic at least as large is made by a numerator with the null law of
Wood's statistic and an independent chi-square variable with `⌊rs_df⌋` degrees of freedom divided by `rs_df`. The law is that
of the statistic under the null hypothesis if `rs_df` is an integer and the scale estimate has its chi-square law; `rs_df` is
an integer only by chance (what fails: its integer part is taken in the degrees of freedom but not in the division). -/
theorem p_estimated_partial (hE : Eig R V U s) {L : Lib} (hL : Davies L) {r : ℝ} {κ : ℕ} (hk : ⌊r⌋₊ = κ + 1) (hr : r ≠ (κ + 1 : ℕ))
    (h : κ + 2 ≤ m + 1) (hs : ∀ j : Fin (κ + 2), 0 < s (Fin.castLE h j)) (hU : ∀ j : Fin (κ + 2), U 0 (Fin.castLE h j) ≠ 0)
    (rsdf : ℝ) (β : EuclideanSpace ℝ (Fin p)) :
    ∃ T1 T2 : EuclideanSpace ℝ (Fin p) → ℝ,
      T1 = (fun β => wald (fun j => fixed U (Fin.castLE h j)) (fun j => s (Fin.castLE h j)) (r - (κ + 1 : ℕ)) (fval R β)) ∧
      T2 = (fun β => wald (fun j => raw U (Fin.castLE h j)) (fun j => s (Fin.castLE h j)) (r - (κ + 1 : ℕ)) (fval R β)) ∧
      test L true false rsdf U s r (fval R β) = some (
        (((null V).prod (chi (List.replicate ⌊rsdf⌋₊ 1))).real {y | T1 β * (y.2 / rsdf) ≤ T1 y.1}
          + ((null V).prod (chi (List.replicate ⌊rsdf⌋₊ 1))).real {y | T2 β * (y.2 / rsdf) ≤ T2 y.1}) / 2,
        max (T1 β / r) (T2 β / r)) := by
  refine ⟨_, _, rfl, rfl, ?_⟩
  have hrpos : 0 < r := by
    by_contra hn
    rw [Nat.floor_of_nonpos (not_lt.1 hn)] at hk
    omega
  have hfl := Nat.floor_le hrpos.le
  have hfl2 := Nat.lt_floor_add_one r
  rw [hk] at hfl hfl2
  have h0 : 0 < r - (κ + 1 : ℕ) := sub_pos.2 (lt_of_le_of_ne hfl (Ne.symm hr))
  have h1 : r - (κ + 1 : ℕ) < 1 := by linarith
  have l1 := wald_law hE h hs (fun j => SignType.sign (U 0 (Fin.castLE h j))) (fun j => sign_sq (hU j)) h0 h1
  have l2 := wald_law hE h hs (fun _ => 1) (fun _ => by norm_num) h0 h1
  simp only [mul_one] at l2
  have hlen : ∀ v : ℝ, (lb (κ + 1) v).length = (dofs (κ + 1)).length := by
    intro v
    unfold lb dofs
    by_cases h2 : 1 < κ + 1
    · rw [if_pos h2, if_pos h2]; rfl
    · rw [if_neg h2, if_neg h2]; rfl
  have hpr := null_prob (V := V)
  have key : ∀ (T : EuclideanSpace ℝ (Fin p) → ℝ) (hT : Measurable T) (hl : (null V).map T = chi (List.replicate κ 1 ++ [v1 (r - (κ + 1 : ℕ)), v2 (r - (κ + 1 : ℕ))])),
      1 - (chi (spread (lb (κ + 1) (r - (κ + 1 : ℕ)) ++ [-T β / rsdf]) ((nn (κ + 1) ++ [rsdf]).map Nat.floor))).real (Set.Iio 0)
        = ((null V).prod (chi (List.replicate ⌊rsdf⌋₊ 1))).real {y | T β * (y.2 / rsdf) ≤ T y.1} := by
    intro T hT hl
    rw [List.map_append, dofs_floor, List.map_singleton, spread_snoc _ _ (hlen _), spread_lb, davies_ratio]
    unfold ratioTail
    rw [← hl]
    have hid : chi (List.replicate ⌊rsdf⌋₊ 1) = (chi (List.replicate ⌊rsdf⌋₊ 1)).map id := Measure.map_id.symm
    conv_lhs => rw [hid]
    rw [Measure.map_prod_map _ _ hT measurable_id, map_measureReal_apply (by fun_prop) (measurableSet_le (by fun_prop) (by fun_prop))]
    rfl
  unfold test
  rw [hk]
  dsimp only
  rw [if_neg h0.ne', dif_pos h, stats_wald h hs hU]
  unfold nonCase
  simp only [if_true]
  rw [hL, hL]
  have hf : fallback false 0 0 = false := by decide
  simp only [hf, Bool.false_eq_true, if_false]
  have k1 := key _ (fval_wald_measurable _ _ _) l1
  have k2 := key _ (fval_wald_measurable _ _ _) l2
  unfold fixed raw
  rw [k1, k2]

/-! ### Where the claim fails -/

/-- **C86, what fails (1).** If an eigenvector has first entry zero, its sign is taken to be zero and the statistics do not
depend on the component of the function along it, however large. -/
theorem zero_entry_wrong (hO : Uᵀ * U = 1) {n : ℕ} (h : n ≤ m + 1) (S : Matrix (Fin n) (Fin n) ℝ) (j : Fin n)
    (hj : U 0 (Fin.castLE h j) = 0) (f : Fin (m + 1) → ℝ) (c : ℝ) :
    stats (cols U h) S (f + c • raw U (Fin.castLE h j)) = stats (cols U h) S f := by
  have key : ∀ ε : Fin n → ℝ, ε j = 0 →
      quad (Matrix.of fun i l => cols U h i l * ε l) S (f + c • raw U (Fin.castLE h j))
        = quad (Matrix.of fun i l => cols U h i l * ε l) S f := by
    intro ε hε
    have e : (Matrix.of fun i l => cols U h i l * ε l)ᵀ.mulVec (f + c • raw U (Fin.castLE h j))
        = (Matrix.of fun i l => cols U h i l * ε l)ᵀ.mulVec f := by
      rw [Matrix.mulVec_add, Matrix.mulVec_smul]
      have z : (Matrix.of fun i l => cols U h i l * ε l)ᵀ.mulVec (raw U (Fin.castLE h j)) = 0 := by
        funext l
        show ∑ i, U i (Fin.castLE h l) * ε l * U i (Fin.castLE h j) = 0
        have ho := congrFun (congrFun hO (Fin.castLE h l)) (Fin.castLE h j)
        rw [Matrix.mul_apply, Matrix.one_apply] at ho
        have : ∑ i, U i (Fin.castLE h l) * ε l * U i (Fin.castLE h j) = ε l * ∑ i, Uᵀ (Fin.castLE h l) i * U i (Fin.castLE h j) := by
          rw [mul_sum]
          exact sum_congr rfl fun i _ => by rw [Matrix.transpose_apply]; ring
        rw [this, ho]
        by_cases hl : l = j
        · rw [hl, hε, zero_mul]
        · rw [if_neg (fun he => hl (Fin.castLE_injective h he)), mul_zero]
      rw [z, smul_zero, add_zero]
    rw [quad_eq, quad_eq, e]
  unfold stats
  refine Prod.ext ?_ ?_
  · exact key (fun l => SignType.sign (U 0 (Fin.castLE h l))) (by rw [hj]; simp)
  · have e : flip (cols U h) (flip (cols U h) (cols U h))
        = Matrix.of fun i l => cols U h i l * ((SignType.sign (U 0 (Fin.castLE h l)) : ℝ) * SignType.sign (U 0 (Fin.castLE h l))) := by
      ext i l
      show cols U h i l * _ * _ = cols U h i l * (_ * _)
      rw [mul_assoc]
      rfl
    rw [e]
    exact key (fun l => (SignType.sign (U 0 (Fin.castLE h l)) : ℝ) * SignType.sign (U 0 (Fin.castLE h l))) (by rw [hj]; simp)

end

/-- Eigenvectors of one and the same matrix that differ in the sign of the second one. -/
noncomputable def uA : Matrix (Fin 2) (Fin 2) ℝ := !![3 / 5, 4 / 5; 4 / 5, -3 / 5]
noncomputable def uB : Matrix (Fin 2) (Fin 2) ℝ := !![3 / 5, -4 / 5; 4 / 5, 3 / 5]
def sAB : Fin 2 → ℝ := ![4, 1]

theorem uA_orth : uAᵀ * uA = 1 := by
  ext i j; fin_cases i <;> fin_cases j <;> simp [uA, Matrix.mul_apply, Fin.sum_univ_two] <;> norm_num
theorem uB_orth : uBᵀ * uB = 1 := by
  ext i j; fin_cases i <;> fin_cases j <;> simp [uB, Matrix.mul_apply, Fin.sum_univ_two] <;> norm_num
theorem uAB : uA * Matrix.diagonal sAB * uAᵀ = uB * Matrix.diagonal sAB * uBᵀ := by
  ext i j
  rw [Matrix.mul_apply, Matrix.mul_apply]
  simp only [Matrix.mul_diagonal, Fin.sum_univ_two, Matrix.transpose_apply]
  fin_cases i <;> fin_cases j <;> simp [uA, uB, sAB] <;> norm_num

theorem sAB_pos (j : Fin (0 + 2)) : 0 < sAB (Fin.castLE (le_refl 2) j) := by fin_cases j <;> simp [sAB]
theorem uA_ne (j : Fin (0 + 2)) : uA 0 (Fin.castLE (le_refl 2) j) ≠ 0 := by fin_cases j <;> simp [uA]
theorem uB_ne (j : Fin (0 + 2)) : uB 0 (Fin.castLE (le_refl 2) j) ≠ 0 := by fin_cases j <;> simp [uB]

/-- **C86, what fails (2).** The signs of eigenvectors are arbitrary. The first statistic does not depend on them, but the
second one, for the eigenvectors as returned by the eigenvalue routine, does: here two decompositions of the same
matrix, differing in one sign, give different second statistics for the same coefficients. -/
theorem sign_matters : ∃ (f : Fin 2 → ℝ) (v : ℝ), 0 < v ∧ v < 1 ∧
    (stats (cols uA (le_refl 2)) (sNon (κ := 0) (fun j => sAB (Fin.castLE (le_refl 2) j)) v) f).1
      = (stats (cols uB (le_refl 2)) (sNon (κ := 0) (fun j => sAB (Fin.castLE (le_refl 2) j)) v) f).1 ∧
    (stats (cols uA (le_refl 2)) (sNon (κ := 0) (fun j => sAB (Fin.castLE (le_refl 2) j)) v) f).2
      ≠ (stats (cols uB (le_refl 2)) (sNon (κ := 0) (fun j => sAB (Fin.castLE (le_refl 2) j)) v) f).2 := by
  have fA : (fun j : Fin (0 + 2) => fixed uA (Fin.castLE (le_refl 2) j)) = ![![3 / 5, 4 / 5], ![4 / 5, -3 / 5]] := by
    funext j i
    fin_cases j <;> fin_cases i <;> simp [fixed, uA] <;> norm_num
  have fB : (fun j : Fin (0 + 2) => fixed uB (Fin.castLE (le_refl 2) j)) = ![![3 / 5, 4 / 5], ![4 / 5, -3 / 5]] := by
    have hn : SignType.sign (-4 / 5 : ℝ) = -1 := sign_neg (by norm_num)
    funext j i
    fin_cases j <;> fin_cases i <;> simp [fixed, uB, hn] <;> norm_num
  refine ⟨![1, 0], 1 / 2, by norm_num, by norm_num, ?_, ?_⟩
  · rw [stats_wald (le_refl 2) sAB_pos uA_ne, stats_wald (le_refl 2) sAB_pos uB_ne]
    refine Eq.trans (b := wald ![![3 / 5, 4 / 5], ![4 / 5, -3 / 5]] (fun j => sAB (Fin.castLE (le_refl 2) j)) (1 / 2) ![1, 0]) ?_ ?_
    · rw [← fA]
    · rw [← fB]
  · rw [stats_wald (le_refl 2) sAB_pos uA_ne, stats_wald (le_refl 2) sAB_pos uB_ne]
    show wald _ _ _ _ ≠ wald _ _ _ _
    have h4 : √(4 : ℝ) = 2 := by rw [show (4 : ℝ) = 2 ^ 2 by norm_num]; exact Real.sqrt_sq (by norm_num)
    have hp : 0 < (√(2 : ℝ))⁻¹ * √(1 - 2⁻¹) / √2 :=
      div_pos (mul_pos (inv_pos.2 (Real.sqrt_pos.2 (by norm_num))) (Real.sqrt_pos.2 (by norm_num))) (Real.sqrt_pos.2 (by norm_num))
    unfold wald
    dsimp only
    simp [raw, uA, uB, sAB, dotProduct, Fin.sum_univ_two, Fin.last, h4]
    intro he
    nlinarith

/-! ### Cases meeting the hypotheses -/

theorem demo_cov : (uA * Matrix.diagonal sAB * uAᵀ).PosSemidef := by
  have := (Matrix.PosSemidef.diagonal (d := sAB) (fun j => by fin_cases j <;> simp [sAB])).mul_mul_conjTranspose_same uA
  rwa [Matrix.conjTranspose_eq_transpose_of_trivial] at this

theorem demo_eig : Eig (m := 1) (1 : Matrix (Fin 2) (Fin 2) ℝ) (uA * Matrix.diagonal sAB * uAᵀ) uA sAB :=
  ⟨demo_cov, by rw [Matrix.one_mul, Matrix.transpose_one, Matrix.mul_one], uA_orth⟩

/-- Exact routines. -/
noncomputable def exact : Lib where
  fcdf _ _ _ := 0
  chi2 c k := (chi (List.replicate ⌊k⌋₊ 1)).real (Set.Iio c)
  beta _ _ _ := 0
  gamma _ _ := 0
  davies ws ns c := ((chi (spread ws (ns.map Nat.floor))).real (Set.Iio c), 0)

theorem exact_davies : Davies exact := fun _ _ _ => rfl
theorem exact_chi2 : Chi2 exact := fun k c => by
  show (chi (List.replicate ⌊(k : ℝ)⌋₊ 1)).real (Set.Iio c) = _
  rw [Nat.floor_natCast]

theorem floor_demo : ⌊(3 / 2 : ℝ)⌋₊ = 0 + 1 := (Nat.floor_eq_iff (by norm_num)).2 ⟨by norm_num, by norm_num⟩

/-- One and a half degrees of freedom, known scale: both eigenvectors have a positive first entry, the test is valid. -/
example {α : ℝ} (hα : 0 ≤ α) :
    (null (uA * Matrix.diagonal sAB * uAᵀ)).real
      {β | ∃ p T, test exact false false 7 uA sAB (3 / 2) (fval (m := 1) (1 : Matrix (Fin 2) (Fin 2) ℝ) β) = some (p, T) ∧ p ≤ α} ≤ α :=
  p_noninteger_valid demo_eig exact_davies floor_demo (by norm_num) (le_refl 2) sAB_pos
    (fun j => by fin_cases j <;> simp [uA]) 7 hα

/-- One degree of freedom. -/
example {α : ℝ} (hα : 0 ≤ α) :
    (null (uA * Matrix.diagonal sAB * uAᵀ)).real
      {β | ∃ p T, test exact false true 7 uA sAB (1 : ℕ) (fval (m := 1) (1 : Matrix (Fin 2) (Fin 2) ℝ) β) = some (p, T) ∧ p ≤ α} ≤ α :=
  p_int_valid demo_eig exact_chi2 (by norm_num) (by norm_num) (fun j => by fin_cases j; simp [sAB])
    (fun j hj => by fin_cases j <;> simp [uA] at *) true 7 hα

/-- Estimated scale, `7.5` residual degrees of freedom: the statistic is returned divided by the degrees of freedom. -/
example (β : EuclideanSpace ℝ (Fin 2)) : ∃ p T, test exact true false (15 / 2) uA sAB (3 / 2)
    (fval (m := 1) (1 : Matrix (Fin 2) (Fin 2) ℝ) β) = some (p, T) := by
  obtain ⟨T1, T2, _, _, h⟩ := p_estimated_partial demo_eig exact_davies floor_demo (by norm_num) (le_refl 2) sAB_pos uA_ne (15 / 2) β
  exact ⟨_, _, h⟩

/-- An eigenvector with first entry zero. The
statistics for a zero function and for one with a component along this eigenvector only are the same. -/
noncomputable def uZ : Matrix (Fin 2) (Fin 2) ℝ := !![1, 0; 0, 1]

example (c : ℝ) (S : Matrix (Fin 2) (Fin 2) ℝ) :
    stats (cols (m := 1) uZ (le_refl 2)) S ![0, c] = stats (cols (m := 1) uZ (le_refl 2)) S 0 := by
  have h := zero_entry_wrong (m := 1) (U := uZ) (by
    ext i j; fin_cases i <;> fin_cases j <;> simp [uZ, Matrix.mul_apply, Fin.sum_univ_two]) (le_refl 2) S 1 (by simp [uZ]) 0 c
  rw [← h]
  congr 1
  funext i
  fin_cases i <;> simp [raw, uZ]

end Verif.Wald
