import Verif.CompactInv

/-!
# Stored update vectors, counterexamples and concrete cases (property C40)
-/

namespace Verif.Compact

open Matrix

variable {n m : ℕ}

/-! ## Storage -/

/-- Reciprocal inner products are stored with every pair. -/
def StoreOK (l : List (Pair n)) : Prop := ∀ p ∈ l, p.rho = 1 / (p.s ⬝ᵥ p.y) ∧ p.s ⬝ᵥ p.y ≠ 0

theorem updateYs_skip {maxcor : ℕ} {grad next step : Fin n → ℝ} {alpha : ℝ} {skip : Bool} {st : List (Pair n)}
    (h : (updateYs maxcor grad next step alpha skip st).2 = true) :
    (updateYs maxcor grad next step alpha skip st).1 = st := by
  unfold updateYs at h ⊢
  simp only at h ⊢
  split at h
  · rename_i hc
    rw [if_pos hc]
  · simp at h

theorem updateYs_accept {maxcor : ℕ} {grad next step : Fin n → ℝ} {alpha : ℝ} {skip : Bool} {st : List (Pair n)}
    (h : (updateYs maxcor grad next step alpha skip st).2 = false) :
    (cand grad next step alpha).y ⬝ᵥ (cand grad next step alpha).s ≠ 0 ∧ ¬ testFails st (cand grad next step alpha) ∧
    (updateYs maxcor grad next step alpha skip st).1
      = if (st ++ [cand grad next step alpha]).length > maxcor then (st ++ [cand grad next step alpha]).tail
        else st ++ [cand grad next step alpha] := by
  unfold updateYs at h ⊢
  simp only at h ⊢
  split at h
  · simp at h
  · rename_i hc
    rw [if_neg hc]
    simp only [Bool.or_eq_true, decide_eq_true_eq, not_or] at hc
    exact ⟨hc.1.2, hc.2, rfl⟩

theorem updateYs_of {maxcor : ℕ} {grad next step : Fin n → ℝ} {alpha : ℝ} {st : List (Pair n)} {c : Pair n}
    (hc : cand grad next step alpha = c) (h1 : c.y ⬝ᵥ c.s ≠ 0) (h2 : ¬ testFails st c) :
    updateYs maxcor grad next step alpha false st
      = (if (st ++ [c]).length > maxcor then (st ++ [c]).tail else st ++ [c], false) := by
  subst hc
  unfold updateYs
  simp only
  rw [if_neg]
  simp only [Bool.false_or, Bool.or_eq_true, decide_eq_true_eq, not_or]
  exact ⟨h1, h2⟩

/-- Stored pairs: never more than `maxcor`, consistent `rho`, newest last. -/
theorem updateYs_store {maxcor : ℕ} (hm : 1 ≤ maxcor) {grad next step : Fin n → ℝ} {alpha : ℝ} {skip : Bool} {st : List (Pair n)}
    (hst : StoreOK st) (hl : st.length ≤ maxcor) :
    StoreOK (updateYs maxcor grad next step alpha skip st).1 ∧ (updateYs maxcor grad next step alpha skip st).1.length ≤ maxcor ∧
    ((updateYs maxcor grad next step alpha skip st).2 = false →
      ∃ p, (updateYs maxcor grad next step alpha skip st).1.getLast? = some p ∧ p.y = grad - next ∧ p.s = alpha • step) := by
  have hcy : (cand grad next step alpha).y = grad - next := by
    unfold cand
    funext i
    simp only [Pi.sub_apply, Pi.smul_apply, smul_eq_mul]
    ring
  cases hb : (updateYs maxcor grad next step alpha skip st).2 with
  | true =>
    rw [updateYs_skip hb]
    exact ⟨hst, hl, fun h => by simp at h⟩
  | false =>
    obtain ⟨h1, -, h3⟩ := updateYs_accept hb
    have hnew : StoreOK (st ++ [cand grad next step alpha]) := by
      intro p hp
      rcases List.mem_append.1 hp with hp | hp
      · exact hst p hp
      · rw [List.mem_singleton] at hp
        subst hp
        rw [dotProduct_comm]
        exact ⟨rfl, h1⟩
    rw [h3]
    by_cases hgt : (st ++ [cand grad next step alpha]).length > maxcor
    · rw [if_pos hgt]
      refine ⟨fun p hp => hnew p (List.mem_of_mem_tail hp), ?_, fun _ => ⟨cand grad next step alpha, ?_, hcy, rfl⟩⟩
      · rw [List.length_tail, List.length_append, List.length_singleton]
        omega
      · cases st with
        | nil =>
          simp only [List.nil_append, List.length_singleton] at hgt
          omega
        | cons a st =>
          rw [List.cons_append, List.tail_cons, List.getLast?_append]
          simp
    · rw [if_neg hgt]
      refine ⟨hnew, not_lt.1 hgt, fun _ => ⟨cand grad next step alpha, ?_, hcy, rfl⟩⟩
      rw [List.getLast?_append]
      simp

/-- From the accepted step to the approximation: as long as no pair had to be discarded, the approximation built
from the stored pairs exists and maps the step to the change in the gradient. -/
theorem accepted_secant_partial {maxcor : ℕ} {grad next step : Fin n → ℝ} {alpha : ℝ} {skip : Bool} {st : List (Pair n)}
    (hst : StoreOK st) (hl : st.length < maxcor) (h : (updateYs maxcor grad next step alpha skip st).2 = false) :
    ∃ f : Fac n (updateYs maxcor grad next step alpha skip st).1.length,
      hsr1List (updateYs maxcor grad next step alpha skip st).1 (omegaNoWr (grad - next) (alpha • step)) = some f ∧
      f.val (omegaNoWr (grad - next) (alpha • step) • 1) *ᵥ (alpha • step) = grad - next := by
  obtain ⟨h1, h2, h3⟩ := updateYs_accept h
  have hcy : (cand grad next step alpha).y = grad - next := by
    unfold cand
    funext i
    simp only [Pi.sub_apply, Pi.smul_apply, smul_eq_mul]
    ring
  have hcs : (cand grad next step alpha).s = alpha • step := rfl
  rw [if_neg (by rw [List.length_append, List.length_singleton]; omega)] at h3
  rw [h3]
  unfold testFails at h2
  rw [hcy, hcs] at h2
  obtain ⟨f, hf⟩ := Option.ne_none_iff_exists'.1 h2
  refine ⟨f, hf, ?_⟩
  have hlen : st.length < (st ++ [cand grad next step alpha]).length := by simp
  have hsec := hsr1_secant_max (fun k => ?_) ?_ hf ⟨st.length, hlen⟩ (fun i => ?_)
  · have hg : (st ++ [cand grad next step alpha]).get ⟨st.length, hlen⟩ = cand grad next step alpha := by simp
    rw [hg, hcy, hcs] at hsec
    exact hsec
  · rcases List.mem_append.1 (List.get_mem (st ++ [cand grad next step alpha]) k) with hp | hp
    · exact (hst _ hp).1
    · rw [List.mem_singleton] at hp
      rw [hp, dotProduct_comm]
      rfl
  · rw [Matrix.transpose_smul, Matrix.transpose_one]
  · have h4 : (st ++ [cand grad next step alpha]).length = st.length + 1 := by simp
    exact Nat.lt_succ_iff.1 (lt_of_lt_of_eq i.2 h4)

/-! ## Counterexamples -/

/-- Two steps along the axes. -/
def sEx : Fin 2 → Fin 2 → ℝ := ![![1, 0], ![0, 1]]

/-- Differences with `s_0 · y_1 ≠ s_1 · y_0`. -/
def yEx : Fin 2 → Fin 2 → ℝ := ![![3, 1], ![0, 2]]

/-- Differences of a quadratic. -/
def yQ : Fin 2 → Fin 2 → ℝ := ![![3, 0], ![0, 2]]

noncomputable def rhoOf (s y : Fin m → Fin n → ℝ) : Fin m → ℝ := fun k => 1 / (s k ⬝ᵥ y k)

theorem rhoOf_ok (s y : Fin m → Fin n → ℝ) : RhoOK s y (rhoOf s y) := fun _ => rfl

theorem hMid_ex : hMid sEx yEx (rhoOf sEx yEx) 1 = !![2, 1; 1, 1] := by
  ext i j
  rw [hMid_apply (rhoOf_ok _ _), Matrix.one_mulVec]
  fin_cases i <;> fin_cases j <;> simp [sEx, yEx, dotProduct, Fin.sum_univ_two] <;> norm_num

theorem hMid_q : hMid sEx yQ (rhoOf sEx yQ) 1 = !![2, 0; 0, 1] := by
  ext i j
  rw [hMid_apply (rhoOf_ok _ _), Matrix.one_mulVec]
  fin_cases i <;> fin_cases j <;> simp [sEx, yQ, dotProduct, Fin.sum_univ_two] <;> norm_num

theorem hsr1_ex : hsr1 sEx yEx (rhoOf sEx yEx) 1 = some ⟨cols yEx - 1 * cols sEx, (hMid sEx yEx (rhoOf sEx yEx) 1)⁻¹⟩ :=
  hsr1_of (by norm_num) (by rw [hMid_ex, Matrix.det_fin_two_of]; norm_num)

theorem hsr1_q : hsr1 sEx yQ (rhoOf sEx yQ) 1 = some ⟨cols yQ - 1 * cols sEx, (hMid sEx yQ (rhoOf sEx yQ) 1)⁻¹⟩ :=
  hsr1_of (by norm_num) (by rw [hMid_q, Matrix.det_fin_two_of]; norm_num)

/-- Earlier pairs need not be reproduced. -/
theorem not_all_secants : ∃ f : Fac 2 2, hsr1 sEx yEx (rhoOf sEx yEx) 1 = some f ∧ f.val 1 *ᵥ sEx 0 ≠ yEx 0 := by
  refine ⟨_, hsr1_ex, fun h => ?_⟩
  have hi : (hMid sEx yEx (rhoOf sEx yEx) 1)⁻¹ = !![1, -1; -1, 2] := by
    rw [hMid_ex]
    refine Matrix.inv_eq_right_inv ?_
    ext i j
    fin_cases i <;> fin_cases j <;> simp [Matrix.mul_apply, Fin.sum_univ_two] <;> norm_num
  have h1 := congrFun h 0
  unfold Fac.val at h1
  simp only [hi, Matrix.one_mul] at h1
  simp [Matrix.mulVec, dotProduct, Matrix.mul_apply, Fin.sum_univ_two, cols, sEx, yEx, Matrix.one_apply] at h1
  norm_num at h1

/-- The test is made before the oldest pair is discarded: the pairs that are kept may have no approximation. -/
theorem kept_pairs_singular :
    ∃ (st : List (Pair 2)) (grad next step : Fin 2 → ℝ), StoreOK st ∧ st.length ≤ 1 ∧
      (updateYs 1 grad next step 1 false st).2 = false ∧
      hsr1List (updateYs 1 grad next step 1 false st).1 (omegaNoWr (grad - next) ((1 : ℝ) • step)) = none := by
  let p0 : Pair 2 := ⟨![3, 1], ![1, 0], 1 / 3⟩
  let grad : Fin 2 → ℝ := ![0, 2]
  let step : Fin 2 → ℝ := ![0, 1]
  have hc : cand grad 0 step 1 = ⟨![0, 2], ![0, 1], 1 / 2⟩ := by
    have e1 : (-1 : ℝ) • (0 : Fin 2 → ℝ) - (-1 : ℝ) • grad = ![0, 2] := by
      funext i
      fin_cases i <;> simp [grad]
    have e2 : (1 : ℝ) • step = ![0, 1] := by rw [one_smul]
    unfold cand
    simp only [e1, e2]
    congr 1
    simp [dotProduct, Fin.sum_univ_two]
  have ho : omegaNoWr (![0, 2] : Fin 2 → ℝ) ![0, 1] = 2 := by
    unfold omegaNoWr
    simp [dotProduct, Fin.sum_univ_two]
  have hM2 : hMid (fun k : Fin 2 => (([p0, ⟨![0, 2], ![0, 1], 1 / 2⟩] : List (Pair 2)).get k).s)
      (fun k => (([p0, ⟨![0, 2], ![0, 1], 1 / 2⟩] : List (Pair 2)).get k).y)
      (fun k => (([p0, ⟨![0, 2], ![0, 1], 1 / 2⟩] : List (Pair 2)).get k).rho)
      ((2 : ℝ) • (1 : Matrix (Fin 2) (Fin 2) ℝ)) = !![1, 1; 1, 0] := by
    ext i j
    rw [hMid_apply (fun k => by fin_cases k <;> simp [p0, dotProduct, Fin.sum_univ_two]), Matrix.smul_mulVec, Matrix.one_mulVec]
    fin_cases i <;> fin_cases j <;> simp [p0, dotProduct, Fin.sum_univ_two] <;> norm_num
  have hM1 : hMid (fun k : Fin 1 => (([⟨![0, 2], ![0, 1], 1 / 2⟩] : List (Pair 2)).get k).s)
      (fun k => (([⟨![0, 2], ![0, 1], 1 / 2⟩] : List (Pair 2)).get k).y)
      (fun k => (([⟨![0, 2], ![0, 1], 1 / 2⟩] : List (Pair 2)).get k).rho)
      ((2 : ℝ) • (1 : Matrix (Fin 2) (Fin 2) ℝ)) = 0 := by
    ext i j
    rw [hMid_apply (fun k => by fin_cases k; simp [dotProduct, Fin.sum_univ_two]), Matrix.smul_mulVec, Matrix.one_mulVec]
    fin_cases i
    fin_cases j
    simp [dotProduct, Fin.sum_univ_two]
  have hacc : (updateYs 1 grad 0 step 1 false [p0]) = ([⟨![0, 2], ![0, 1], 1 / 2⟩], false) := by
    have ht : ¬ testFails [p0] ⟨![0, 2], ![0, 1], 1 / 2⟩ := by
      unfold testFails hsr1List
      rw [ho]
      change ¬ hsr1 (m := 2) _ _ _ _ = none
      rw [hsr1_of (by norm_num) (by erw [hM2]; rw [Matrix.det_fin_two_of]; norm_num)]
      simp
    have hd : (![0, 2] : Fin 2 → ℝ) ⬝ᵥ ![0, 1] ≠ 0 := by
      simp [dotProduct, Fin.sum_univ_two]
    rw [updateYs_of hc hd ht]
    rfl
  refine ⟨[p0], grad, 0, step, ?_, by simp, by rw [hacc], ?_⟩
  · intro p hp
    rw [List.mem_singleton] at hp
    subst hp
    simp [p0, dotProduct, Fin.sum_univ_two]
  · have e1 : grad - 0 = ![0, 2] := sub_zero _
    have e2 : (1 : ℝ) • step = ![0, 1] := one_smul _ _
    rw [hacc, e1, e2, ho]
    change hsr1 (m := 1) _ _ _ _ = none
    unfold hsr1 inv?
    rw [if_neg (by norm_num), if_neg]
    · rfl
    · erw [hM1]
      simp

/-- One step of negative curvature: every eigenvalue is shifted, see `make_pd_singular`. -/
theorem make_pd_singular_case : ∃ (f : Fac 2 1) (d : Dec 2 1 1),
    hsr1 ![![1, 0]] ![![-2, 0]] ![-(1 / 2)] ((omegaNoWr (![-2, 0] : Fin 2 → ℝ) ![1, 0]) • 1) = some f ∧ DecOK f d ∧
    omegaNoWr (![-2, 0] : Fin 2 → ℝ) ![1, 0] = 1 ∧ ∀ i, d.ev i + 1 ≤ 0 := by
  have ho : omegaNoWr (![-2, 0] : Fin 2 → ℝ) ![1, 0] = 1 := by
    unfold omegaNoWr
    simp [dotProduct, Fin.sum_univ_two]
    norm_num
  have hr : RhoOK (![![1, 0]] : Fin 1 → Fin 2 → ℝ) ![![-2, 0]] ![-(1 / 2)] := by
    intro k
    fin_cases k
    simp [dotProduct, Fin.sum_univ_two]
  have hM : hMid (![![1, 0]] : Fin 1 → Fin 2 → ℝ) ![![-2, 0]] ![-(1 / 2)] ((1 : ℝ) • (1 : Matrix (Fin 2) (Fin 2) ℝ)) = !![-3] := by
    ext i j
    rw [hMid_apply hr, one_smul, Matrix.one_mulVec]
    fin_cases i
    fin_cases j
    simp [dotProduct, Fin.sum_univ_two]
    norm_num
  have hi : (!![-3] : Matrix (Fin 1) (Fin 1) ℝ)⁻¹ = !![-(1 / 3)] := by
    refine Matrix.inv_eq_right_inv ?_
    ext i j
    fin_cases i
    fin_cases j
    simp [Matrix.mul_apply]
  refine ⟨⟨!![-3; 0], !![-(1 / 3)]⟩, ⟨!![1; 0], !![-3], ![-3], 1⟩, ?_, ⟨?_, ?_, ?_, ?_⟩, ho, ?_⟩
  · rw [ho, hsr1_of (by norm_num) (by rw [hM]; simp), hM, hi]
    congr 2
    rw [one_smul, Matrix.one_mul]
    ext i j
    fin_cases i <;> fin_cases j <;> simp [cols] <;> norm_num
  · ext i j
    fin_cases i <;> fin_cases j <;> simp [Matrix.mul_apply]
  · ext i j
    fin_cases i
    fin_cases j
    simp [Matrix.mul_apply, Fin.sum_univ_two]
  · ext i j
    fin_cases i
    fin_cases j
    simp [Matrix.mul_apply]
  · simp
  · intro i
    fin_cases i
    norm_num

/-! ## Concrete cases -/

example : ∃ f, hsr1 sEx yEx (rhoOf sEx yEx) 1 = some f ∧ f.val 1 *ᵥ sEx (Fin.last 1) = yEx (Fin.last 1) :=
  ⟨_, hsr1_ex, hsr1_secant_last (fun _ => rfl) Matrix.transpose_one hsr1_ex⟩

example : ∃ f, hsr1 sEx yQ (rhoOf sEx yQ) 1 = some f ∧ ∀ k, f.val 1 *ᵥ sEx k = yQ k :=
  ⟨_, hsr1_q, fun k => hsr1_secant_all_partial (fun _ => rfl) Matrix.transpose_one
    (fun k l => by fin_cases k <;> fin_cases l <;> simp [sEx, yQ, dotProduct, Fin.sum_univ_two]) hsr1_q k⟩

theorem vMid_q : vMid sEx yQ (rhoOf sEx yQ) 1 = !![-6, 0; 0, -2] := by
  rw [vMid_eq (rhoOf_ok _ _)]
  have hr : RhoOK yQ sEx (rhoOf sEx yQ) := fun k => by rw [rhoOf_ok sEx yQ k, dotProduct_comm]
  ext i j
  rw [hMid_apply hr, Matrix.one_mulVec]
  fin_cases i <;> fin_cases j <;> simp [sEx, yQ, dotProduct, Fin.sum_univ_two] <;> norm_num

example : ∃ f g, hsr1 sEx yQ (rhoOf sEx yQ) 1 = some f ∧ vsr1 sEx yQ (rhoOf sEx yQ) 1 = some g ∧ g.val 1 * f.val 1 = 1 := by
  have hg : vsr1 sEx yQ (rhoOf sEx yQ) 1 = some ⟨cols sEx - 1 * cols yQ, (vMid sEx yQ (rhoOf sEx yQ) 1)⁻¹⟩ := by
    unfold vsr1 inv?
    rw [if_neg (by norm_num), if_pos (by rw [vMid_q, Matrix.det_fin_two_of]; norm_num)]
    rfl
  exact ⟨_, _, hsr1_q, hg, vsr1_inverse Matrix.transpose_one (Matrix.one_mul _) hsr1_q hg⟩

/-- Two coefficients, the second one by finite differences. -/
def tEx : Fin 1 ⊕ Fin 1 → Fin 2 := Sum.elim (fun _ => 1) (fun _ => 0)

def fdEx : Matrix (Fin 2) (Fin 2) ℝ := !![0, 1; 1, 2]

theorem fdEx_ok : FdOK tEx fdEx where
  bij := by
    constructor
    · intro x z h
      rcases x with x | x <;> rcases z with z | z <;> fin_cases x <;> fin_cases z <;> simp [tEx] at h ⊢
    · intro i
      fin_cases i
      · exact ⟨Sum.inr 0, rfl⟩
      · exact ⟨Sum.inl 0, rfl⟩
  mixed := fun i j => by simp [tEx, fdEx]
  rest := fun i j => by simp [tEx, fdEx]

theorem BB_ex : BB tEx fdEx = !![2] := by
  ext i j
  fin_cases i
  fin_cases j
  exact (onHfd_apply tEx fdEx (Sum.inl 0) (Sum.inl 0)).trans (by simp [tEx, fdEx])

theorem Bb_ex : Bb tEx fdEx = !![1] := by
  ext i j
  fin_cases i
  fin_cases j
  exact (onHfd_apply tEx fdEx (Sum.inl 0) (Sum.inr 0)).trans (by simp [tEx, fdEx])

example : (shExplicit tEx fdEx !![1 / 2] 1 0).PosSemidef := by
  refine sh_psd fdEx_ok ?_ ?_ ?_ ?_ ?_
  · rw [BB_ex]
    have : (!![2] : Matrix (Fin 1) (Fin 1) ℝ) = Matrix.diagonal fun _ => 2 := by
      ext i j
      fin_cases i
      fin_cases j
      simp
    rw [this]
    exact Matrix.PosSemidef.diagonal fun _ => by norm_num
  · ext i j
    fin_cases i
    fin_cases j
    rfl
  · rw [BB_ex]
    ext i j
    fin_cases i
    fin_cases j
    simp [Matrix.mul_apply]
  · rw [BB_ex, Bb_ex]
    ext i j
    fin_cases i
    fin_cases j
    simp [Matrix.mul_apply]
  · rw [add_zero]
    exact Matrix.PosSemidef.one

/-- A decomposition for positive diagonal matrices. -/
def svdEx (k : ℕ) (K : Matrix (Fin k) (Fin k) ℝ) : Svd k := ⟨1, fun i => K i i, 1⟩

def cEx : Corr 2 := ⟨1, !![1; 0], !![1], !![1, 0]⟩

example : svps svdEx (1 / 10) (fun _ => (1 / 2 : ℝ) • (1 : Matrix (Fin 2) (Fin 2) ℝ)) false 1 1 [cEx] * (1 + ([cEx].map Corr.val).sum + 1) = 1 := by
  have hp : precond false (1 + 1 : Matrix (Fin 2) (Fin 2) ℝ) = 1 := by
    unfold precond
    simp
  have hK : invt2 ((1 / 2 : ℝ) • (1 : Matrix (Fin 2) (Fin 2) ℝ)) (Corr.cond 1 cEx) = Matrix.diagonal (fun _ : Fin 1 => (3 / 2 : ℝ)) := by
    unfold invt2 Corr.cond cEx
    ext i j
    fin_cases i
    fin_cases j
    simp [Matrix.mul_apply, Matrix.one_apply]
    norm_num
  refine svps_inverse (fun i => by simp) ?_ ?_
  · rw [hp]
    ext i j
    fin_cases i <;> fin_cases j <;> simp [Matrix.mul_apply, Fin.sum_univ_two, Matrix.one_apply] <;> norm_num
  · rw [hp]
    refine ⟨⟨?_, ?_, ?_⟩, ?_, trivial⟩
    · change invt2 _ (Corr.cond 1 cEx) = 1 * Matrix.diagonal (fun i => invt2 _ (Corr.cond 1 cEx) i i) * 1
      rw [Matrix.one_mul, Matrix.mul_one, hK]
      have : (fun i : Fin 1 => Matrix.diagonal (fun _ : Fin 1 => (3 / 2 : ℝ)) i i) = fun _ => 3 / 2 := by
        funext i
        exact Matrix.diagonal_apply_eq _ i
      exact (congrArg Matrix.diagonal this).symm
    · change (1 : Matrix _ _ ℝ)ᵀ * 1 = 1
      simp
    · change (1 : Matrix _ _ ℝ) * 1ᵀ = 1
      simp
    · intro i
      change (1 / 10 : ℝ) ≤ invt2 _ (Corr.cond 1 cEx) i i ∧ 0 < invt2 _ (Corr.cond 1 cEx) i i
      rw [hK]
      have : Matrix.diagonal (fun _ : Fin 1 => (3 / 2 : ℝ)) i i = 3 / 2 := Matrix.diagonal_apply_eq _ _
      erw [this]
      norm_num

end Verif.Compact
