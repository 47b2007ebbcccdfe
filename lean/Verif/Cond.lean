import Verif.CondLemmas

/-!
# Condition number checks (C119)
-/

namespace Verif.Cond

open Matrix
open scoped Matrix.Norms.L2Operator

variable {m n : ℕ} {L Linv : Matrix (Fin n) (Fin n) ℝ}

theorem svds_eq (hn : 2 ≤ n) (A : Matrix (Fin n) (Fin n) ℝ) : svds true A = some ‖A‖ := by
  unfold svds
  rw [if_pos ⟨rfl, by omega⟩]

theorem est_eq (hn : 2 ≤ n) {arp lob : Bool × Bool} (hc : arp = (true, true) ∨ lob = (true, true)) :
    estCondition arp lob L Linv = finish ‖L‖ ‖Linv‖ := by
  unfold estCondition
  rcases hc with rfl | rfl
  · simp only [svds_eq hn]
  · simp only [svds_eq hn]
    obtain ⟨a, b⟩ := arp
    cases a <;> cases b <;> simp [svds, show 1 ≤ n - 1 by omega]

theorem thr_le : 1 / √u ≤ 1 / u := by
  have := u_pos
  have h1 := Real.sqrt_pos.2 this
  refine one_div_le_one_div_of_le this ?_
  rw [Real.le_sqrt this.le this.le]
  nlinarith [u_lt]

theorem code_cases (a b : ℝ) : ((finish a b).code = 0 ↔ a * b ≤ 1 / √u) ∧ ((finish a b).code = 2 ↔ 1 / u < a * b) ∧
    ((finish a b).code = 1 ↔ 1 / √u < a * b ∧ a * b ≤ 1 / u) := by
  have h := thr_le
  unfold finish
  by_cases h1 : a * b > 1 / √u
  · by_cases h2 : a * b > 1 / u
    · simp only [if_pos h1, if_pos h2]
      refine ⟨⟨by simp, fun h3 => absurd h1 (not_lt.2 h3)⟩, ⟨fun _ => h2, fun _ => trivial⟩, ⟨by simp, fun h3 => absurd h2 (not_lt.2 h3.2)⟩⟩
    · simp only [if_pos h1, if_neg h2]
      refine ⟨⟨by simp, fun h3 => absurd h1 (not_lt.2 h3)⟩, ⟨by simp, fun h3 => absurd h3 h2⟩, ⟨fun _ => ⟨h1, not_lt.1 h2⟩, fun _ => trivial⟩⟩
  · have h2 : ¬ a * b > 1 / u := fun h3 => h1 (lt_of_le_of_lt h h3)
    simp only [if_neg h1, if_neg h2]
    refine ⟨⟨fun _ => not_lt.1 h1, fun _ => trivial⟩, ⟨by simp, fun h3 => absurd h3 h2⟩, ⟨by simp, fun h3 => absurd h3.1 h1⟩⟩

/-- **C119.** If one of the solvers converges, `est_condition` returns the largest singular value, the smallest singular value and their
ratio for every matrix `A` with `A.T @ A = L @ L.T`. -/
theorem condition_number {arp lob : Bool × Bool} (hn : 2 ≤ n) (hc : arp = (true, true) ∨ lob = (true, true)) (hL : L * Linv = 1)
    (A : Matrix (Fin m) (Fin n) ℝ) (hA : Aᵀ * A = L * Lᵀ) :
    ∃ smax smin : ℝ, (estCondition arp lob L Linv).maxSing = smax ∧ (estCondition arp lob L Linv).minSing = smin ∧
      (estCondition arp lob L Linv).K = ((smax / smin : ℝ) : EReal) ∧ 0 < smin ∧ smin ≤ smax ∧
      (∀ x, smin * len x ≤ len (A *ᵥ x) ∧ len (A *ᵥ x) ≤ smax * len x) ∧
      (∃ x, x ≠ 0 ∧ len (A *ᵥ x) = smax * len x) ∧ ∃ x, x ≠ 0 ∧ len (A *ᵥ x) = smin * len x := by
  obtain ⟨hp, hs⟩ := smallest_tr (by omega : 0 < n) hL
  have hg : ∀ x, len (A *ᵥ x) = len (Lᵀ *ᵥ x) := gram_len (by rw [hA, transpose_transpose])
  obtain ⟨v, hv, hv2⟩ := norm_attained (by omega : 0 < n) Lᵀ
  have hv0 : v ≠ 0 := by
    rintro rfl
    rw [len_zero] at hv
    exact zero_ne_one hv
  refine ⟨‖L‖, 1 / ‖Linv‖, ?_, ?_, ?_, by positivity, ?_, fun x => ?_, ⟨v, hv0, ?_⟩, ?_⟩
  · rw [est_eq hn hc]; rfl
  · rw [est_eq hn hc]
    show (if ‖Linv‖ = 0 then (⊤ : EReal) else _) = _
    rw [if_neg hp.ne']
  · rw [est_eq hn hc]
    show ((‖L‖ * ‖Linv‖ : ℝ) : EReal) = _
    congr 1
    field_simp
  · have h1 := hs.1 v
    have h2 := mul_le Lᵀ v
    rw [hv, norm_tr] at h2
    rw [hv] at h1
    linarith
  · rw [hg]
    refine ⟨hs.1 x, ?_⟩
    have := mul_le Lᵀ x
    rwa [norm_tr] at this
  · rw [hg, hv2, hv, norm_tr, mul_one]
  · obtain ⟨x, hx, hx2⟩ := hs.2
    exact ⟨x, hx, by rw [hg, hx2]⟩

example : ∃ L Linv : Matrix (Fin 2) (Fin 2) ℝ, L * Linv = 1 ∧ L ≠ Linv :=
  ⟨!![2, 0; 1, 1], !![1 / 2, 0; -1 / 2, 1], by ext i j; fin_cases i <;> fin_cases j <;> simp <;> norm_num, by
    intro h
    have := congrFun (congrFun h 0) 0
    norm_num at this⟩

/-- **C119.** The code is zero exactly if no perturbation of `A.T @ A` smaller than the unit round-off, relative to its norm, makes it
singular: the Cholesky decomposition is safe. -/
theorem code_zero_iff {arp lob : Bool × Bool} (hn : 2 ≤ n) (hc : arp = (true, true) ∨ lob = (true, true)) (hL : L * Linv = 1) :
    (estCondition arp lob L Linv).code = 0 ↔
      ∀ E : Matrix (Fin n) (Fin n) ℝ, ‖E‖ < 1 / 2 ^ 53 * ‖L * Lᵀ‖ → ∀ x, (L * Lᵀ + E) *ᵥ x = 0 → x = 0 := by
  rw [← u_eq]
  obtain ⟨hp, -⟩ := smallest_tr (by omega : 0 < n) hL
  rw [est_eq hn hc, (code_cases _ _).1, distance (by positivity) (smallest_prod (by omega : 0 < n) hL)]
  have e : ‖L * Lᵀ‖ = ‖L‖ * ‖L‖ := by
    have := norm_gram Lᵀ
    rwa [transpose_transpose, norm_tr] at this
  have hu := u_pos
  have hsu := Real.sqrt_pos.2 hu
  have h1 : ‖L‖ * ‖Linv‖ ≤ 1 / √u ↔ (‖L‖ * ‖Linv‖) ^ 2 ≤ (1 / √u) ^ 2 := by
    rw [pow_le_pow_iff_left₀ (by positivity) (by positivity) two_ne_zero]
  rw [h1, e, div_pow, Real.sq_sqrt hu.le, one_pow, div_pow, one_pow, le_div_iff₀ hu, le_div_iff₀ (by positivity)]
  constructor <;> intro h <;> nlinarith

/-- **C119.** The code is two exactly if a perturbation of `A` smaller than the unit round-off, relative to its norm, makes its columns
linearly dependent: not even a QR decomposition of `A` is safe. -/
theorem code_two_iff {arp lob : Bool × Bool} (hn : 2 ≤ n) (hc : arp = (true, true) ∨ lob = (true, true)) (hL : L * Linv = 1)
    (A : Matrix (Fin m) (Fin n) ℝ) (hA : Aᵀ * A = L * Lᵀ) :
    (estCondition arp lob L Linv).code = 2 ↔ ∃ E : Matrix (Fin m) (Fin n) ℝ, ‖E‖ < 1 / 2 ^ 53 * ‖A‖ ∧
      ∃ x, x ≠ 0 ∧ (A + E) *ᵥ x = 0 := by
  rw [← u_eq]
  obtain ⟨hp, hs⟩ := smallest_tr (by omega : 0 < n) hL
  have hg : ∀ x, len (A *ᵥ x) = len (Lᵀ *ᵥ x) := gram_len (by rw [hA, transpose_transpose])
  have hsA : Smallest A (1 / ‖Linv‖) := by
    refine ⟨fun x => by rw [hg]; exact hs.1 x, ?_⟩
    obtain ⟨x, hx, hx2⟩ := hs.2
    exact ⟨x, hx, by rw [hg, hx2]⟩
  have e : ‖A‖ = ‖L‖ := by
    have h1 := norm_gram A
    have h2 := norm_gram Lᵀ
    rw [hA] at h1
    rw [transpose_transpose, norm_tr, h1] at h2
    exact (mul_self_inj (norm_nonneg _) (norm_nonneg _)).1 h2
  have hd := distance (t := u * ‖A‖) (by positivity) hsA
  rw [est_eq hn hc, (code_cases _ _).2.1]
  have hu := u_pos
  have h1 : 1 / u < ‖L‖ * ‖Linv‖ ↔ ¬ u * ‖A‖ ≤ 1 / ‖Linv‖ := by
    rw [e, not_le, div_lt_iff₀ hu, div_lt_iff₀ hp]
    constructor <;> intro h <;> linarith
  rw [h1, ← hd]
  push Not
  constructor
  · rintro ⟨E, hE, x, hx, hx0⟩
    exact ⟨E, hE, x, hx0, hx⟩
  · rintro ⟨E, hE, x, hx0, hx⟩
    exact ⟨E, hE, x, hx, hx0⟩

/-- **C119.** Relative errors of the right-hand side reach the solution of the penalised system multiplied by at most the square of the
condition number. -/
theorem sensitivity {arp lob : Bool × Bool} (hn : 2 ≤ n) (hc : arp = (true, true) ∨ lob = (true, true)) (hL : L * Linv = 1)
    {x x' b b' : Fin n → ℝ} (hx : (L * Lᵀ) *ᵥ x = b) (hx' : (L * Lᵀ) *ᵥ x' = b') :
    ∃ K : ℝ, (estCondition arp lob L Linv).K = (K : EReal) ∧ 1 ≤ K ∧ len (x' - x) * len b ≤ K ^ 2 * (len (b' - b) * len x) := by
  obtain ⟨hp, hs⟩ := smallest_tr (by omega : 0 < n) hL
  have h1 := (smallest_prod (by omega : 0 < n) hL).1 (x' - x)
  rw [mulVec_sub, hx, hx'] at h1
  have h2 := mul_le (L * Lᵀ) x
  have e : ‖L * Lᵀ‖ = ‖L‖ * ‖L‖ := by
    have := norm_gram Lᵀ
    rwa [transpose_transpose, norm_tr] at this
  rw [hx, e] at h2
  refine ⟨‖L‖ * ‖Linv‖, by rw [est_eq hn hc]; rfl, ?_, ?_⟩
  · obtain ⟨v, hv, hv2⟩ := norm_attained (by omega : 0 < n) Lᵀ
    have h3 := hs.1 v
    have h4 := mul_le Lᵀ v
    rw [hv, norm_tr] at h4
    rw [hv, mul_one] at h3
    have h5 : 1 / ‖Linv‖ ≤ ‖L‖ := by linarith
    rwa [div_le_iff₀ hp] at h5
  · rw [div_pow, one_pow, div_mul_eq_mul_div, one_mul, div_le_iff₀ (by positivity)] at h1
    have ha := len_nonneg (x' - x)
    have hb := len_nonneg b
    have hd := len_nonneg (b' - b)
    have hxn := len_nonneg x
    calc len (x' - x) * len b ≤ (len (b' - b) * ‖Linv‖ ^ 2) * (‖L‖ * ‖L‖ * len x) := by gcongr
      _ = (‖L‖ * ‖Linv‖) ^ 2 * (len (b' - b) * len x) := by ring

/-- **C119.** Models with a single coefficient: `svds` raises for both solvers, so that the condition number is reported as infinite and the
code is one, whatever the system is. -/
theorem single_coefficient_wrong (arp lob : Bool × Bool) (L Linv : Matrix (Fin 1) (Fin 1) ℝ) :
    (estCondition arp lob L Linv).K = ⊤ ∧ (estCondition arp lob L Linv).code = 1 := by
  have h : ∀ (c : Bool) (A : Matrix (Fin 1) (Fin 1) ℝ), svds c A = none := by
    intro c A
    unfold svds
    rw [if_neg (by omega)]
  unfold estCondition
  simp only [h]
  exact ⟨trivial, trivial⟩

/-! ### The checks of the solvers -/

theorem findSome_none {f : Res → Option Err} {l : List Res} : l.findSome? f = none ↔ ∀ r ∈ l, f r = none := by
  induction l with
  | nil => simp
  | cons a t ih =>
    rw [List.findSome?_cons]
    cases h : f a with
    | none => simp [ih, h]
    | some e => simp [h]

theorem iter_arith {chol : Bool} {c : ℕ} {e : Err} (h : iterErr chol c = some e) : e = .arithmetic := by
  unfold iterErr at h
  split_ifs at h <;> simp_all

/-- **C119.** `check_cond=2` with a method other than "Chol": an `ArithmeticError` is raised exactly if some system has code two. -/
theorem qr_guard (first last : Res) (later : List Res) (fitCode : ℕ) :
    checkGam 2 false first later last fitCode = .error .arithmetic ↔ ∃ r ∈ first :: later, r.code = 2 := by
  unfold checkGam
  rw [if_pos rfl]
  cases h : (first :: later).findSome? (fun r => iterErr false r.code) with
  | none =>
    rw [findSome_none] at h
    refine ⟨fun h0 => by simp at h0, ?_⟩
    rintro ⟨r, hr, hc⟩
    have := h r hr
    simp [iterErr, hc] at this
  | some e =>
    obtain ⟨r, hr, hre⟩ := List.exists_of_findSome?_eq_some h
    refine ⟨fun _ => ⟨r, hr, ?_⟩, fun _ => by rw [iter_arith hre]⟩
    by_contra hn
    simp [iterErr, hn] at hre

/-- **C119.** `check_cond=2` with "Chol": an `ArithmeticError` is raised exactly if some system has code one. -/
theorem chol_guard_partial (first last : Res) (later : List Res) (fitCode : ℕ) :
    checkGam 2 true first later last fitCode = .error .arithmetic ↔ ∃ r ∈ first :: later, r.code = 1 := by
  unfold checkGam
  rw [if_pos rfl]
  cases h : (first :: later).findSome? (fun r => iterErr true r.code) with
  | none =>
    rw [findSome_none] at h
    refine ⟨fun h0 => by simp at h0, ?_⟩
    rintro ⟨r, hr, hc⟩
    have := h r hr
    simp [iterErr, hc] at this
  | some e =>
    obtain ⟨r, hr, hre⟩ := List.exists_of_findSome?_eq_some h
    refine ⟨fun _ => ⟨r, hr, ?_⟩, fun _ => by rw [iter_arith hre]⟩
    by_contra hn
    simp [iterErr, hn] at hre

/-- The factor `diag(1, d)` and its inverse (example). -/
noncomputable def dg (d : ℝ) : Matrix (Fin 2) (Fin 2) ℝ := diagonal ![1, d]

theorem dg_inv {d : ℝ} (hd : d ≠ 0) : dg d * dg (1 / d) = 1 := by
  unfold dg
  rw [diagonal_mul_diagonal, ← diagonal_one]
  congr 1
  funext i
  fin_cases i
  · simp
  · simp [hd]

theorem norm2 {a : ℝ} (h0 : 0 ≤ a) : ‖![(1 : ℝ), a]‖ = max 1 a := by
  refine le_antisymm ((pi_norm_le_iff_of_nonneg (by positivity)).2 fun i => ?_) (max_le ?_ ?_)
  · fin_cases i
    · simp
    · simp [abs_of_nonneg h0]
  · have := norm_le_pi_norm ![(1 : ℝ), a] 0
    simpa using this
  · have := norm_le_pi_norm ![(1 : ℝ), a] 1
    simpa [abs_of_nonneg h0] using this

theorem dg_norm {d : ℝ} (h0 : 0 < d) (h1 : d ≤ 1) : ‖dg d‖ = 1 ∧ ‖dg (1 / d)‖ = 1 / d := by
  unfold dg
  have : 1 ≤ 1 / d := by rw [le_div_iff₀ h0]; linarith
  rw [l2_opNorm_diagonal, l2_opNorm_diagonal, norm2 h0.le, norm2 (by positivity), max_eq_left h1, max_eq_right this]
  exact ⟨rfl, rfl⟩

theorem dg_code : (estCondition (true, true) (true, true) (dg (u / 2)) (dg (1 / (u / 2)))).code = 2 := by
  have hu := u_pos
  rw [est_eq le_rfl (Or.inl rfl), (code_cases _ _).2.1, (dg_norm (by positivity) (by linarith [u_lt])).1,
    (dg_norm (by positivity) (by linarith [u_lt])).2, one_mul]
  exact one_div_lt_one_div_of_lt (by positivity) (by linarith)

/-- **C119.** With "Chol" the worst systems pass the check of `check_cond=2`, and after convergence (`check_cond=1`) they give no warning:
there is a factor and its inverse with a condition number above `2^53` for which neither an error is raised nor a warning issued. -/
theorem chol_guard_wrong : ∃ L Linv : Matrix (Fin 2) (Fin 2) ℝ, L * Linv = 1 ∧
    ((2 ^ 53 : ℝ) : EReal) < (estCondition (true, true) (true, true) L Linv).K ∧
    (∀ later, (∀ r ∈ later, r = estCondition (true, true) (true, true) L Linv) → ∀ last fitCode, ∃ i,
      checkGam 2 true (estCondition (true, true) (true, true) L Linv) later last fitCode = .ok i ∧ i.code = fitCode ∧ i.warned = false) ∧
    ∀ first later fitCode, ∃ i, checkGam 1 true first later (estCondition (true, true) (true, true) L Linv) fitCode = .ok i ∧ i.warned = false := by
  have hu := u_pos
  refine ⟨dg (u / 2), dg (1 / (u / 2)), dg_inv (by positivity), ?_, fun later hl last fitCode => ?_, fun first later fitCode => ?_⟩
  · have := (code_cases ‖dg (u / 2)‖ ‖dg (1 / (u / 2))‖).2.1.1 (by rw [← est_eq le_rfl (Or.inl rfl) (lob := (true, true))]; exact dg_code)
    rw [est_eq le_rfl (Or.inl rfl)]
    rw [show 1 / u = (2:ℝ) ^ 53 by rw [u_eq, one_div_one_div]] at this
    exact EReal.coe_lt_coe_iff.2 this
  · unfold checkGam
    rw [if_pos rfl]
    have hnone : (estCondition (true, true) (true, true) (dg (u / 2)) (dg (1 / (u / 2))) :: later).findSome? (fun r => iterErr true r.code) = none := by
      rw [findSome_none]
      intro r hr
      have hr' : r = estCondition (true, true) (true, true) (dg (u / 2)) (dg (1 / (u / 2))) := by
        rcases List.mem_cons.1 hr with h | h
        · exact h
        · exact hl r h
      rw [hr', dg_code]
      rfl
    rw [hnone]
    exact ⟨_, rfl, rfl, rfl⟩
  · unfold checkGam
    rw [if_neg (by norm_num), if_pos rfl]
    unfold finalGam
    rw [if_neg (by simp)]
    exact ⟨_, rfl, by dsimp only; rw [dg_code]; rfl⟩

/-- **C119.** `check_cond=1`: a fit never raises an `ArithmeticError`; with "Chol" or without code two it ends, `fit_info.K2` is the
condition number of the final system, a converged fit has code zero exactly if the final system has, and a warning is issued with "Chol"
exactly for code one. -/
theorem final_partial (chol : Bool) (first last : Res) (later : List Res) (fitCode : ℕ) :
    checkGam 1 chol first later last fitCode ≠ .error .arithmetic ∧ (chol = true ∨ last.code ≠ 2 → ∃ i, checkGam 1 chol first later last fitCode = .ok i ∧
      i.K2 = some last.K ∧ (i.code = 0 ↔ fitCode = 0 ∧ last.code = 0) ∧ (i.warned = true ↔ chol = true ∧ last.code = 1)) := by
  unfold checkGam
  rw [if_neg (by norm_num), if_pos rfl]
  unfold finalGam
  constructor
  · dsimp only
    split_ifs <;> simp
  · intro h
    have : ¬ (chol = false ∧ last.code = 2) := by
      rintro ⟨rfl, h2⟩
      rcases h with h | h
      · simp at h
      · exact h h2
    dsimp only
    rw [if_neg this]
    refine ⟨_, rfl, rfl, ?_, by simp⟩
    by_cases hf : fitCode = 0
    · simp [hf]
    · simp [hf]

/-- **C119.** `check_cond=1` with a method other than "Chol" (the default of `GAMM.fit`): where a warning is documented for code two, the fit
ends with a `TypeError`. -/
theorem final_raises_wrong : ∃ L Linv : Matrix (Fin 2) (Fin 2) ℝ, L * Linv = 1 ∧
    ∀ first later fitCode, checkGam 1 false first later (estCondition (true, true) (true, true) L Linv) fitCode = .error .type := by
  have hu := u_pos
  refine ⟨dg (u / 2), dg (1 / (u / 2)), dg_inv (by positivity), fun first later fitCode => ?_⟩
  unfold checkGam
  rw [if_neg (by norm_num), if_pos rfl]
  unfold finalGam
  dsimp only
  rw [if_pos ⟨rfl, dg_code⟩]

/-- **C119.** A converged model with a single coefficient is reported as not converged with the default `check_cond=1`. -/
theorem single_code_wrong (arp lob : Bool × Bool) (L Linv : Matrix (Fin 1) (Fin 1) ℝ) (chol : Bool) (first : Res) (later : List Res) :
    (∃ i, checkGam 1 chol first later (estCondition arp lob L Linv) 0 = .ok i ∧ i.code = 1 ∧ i.K2 = some ⊤) ∧
      (checkGsm 1 false true (estCondition arp lob L Linv) 0).code = 1 := by
  obtain ⟨hK, hc⟩ := single_coefficient_wrong arp lob L Linv
  constructor
  · unfold checkGam
    rw [if_neg (by norm_num), if_pos rfl]
    unfold finalGam
    dsimp only
    rw [if_neg (by rw [hc]; simp)]
    exact ⟨_, rfl, by simp [hc], by simp [hK]⟩
  · simp [checkGsm, hc]

/-- **C119.** Location-scale and general models with `check_cond=1`: a warning is issued exactly if the code is not zero, `fit_info.K2` is the
condition number, and a converged fit has code zero exactly if the final system has. Quasi-Newton fits without the explicit factor and
fits with `check_cond=0` are not checked. -/
theorem general_check (checkCond : ℕ) (qefs formVH : Bool) (last : Res) (fitCode : ℕ) :
    ((checkCond = 1 ∧ (qefs = false ∨ formVH = true)) →
      ((checkGsm checkCond qefs formVH last fitCode).warned = true ↔ last.code ≠ 0) ∧ (checkGsm checkCond qefs formVH last fitCode).K2 = some last.K ∧
      ((checkGsm checkCond qefs formVH last fitCode).code = 0 ↔ fitCode = 0 ∧ last.code = 0)) ∧
    (¬ (checkCond = 1 ∧ (qefs = false ∨ formVH = true)) → (checkGsm checkCond qefs formVH last fitCode).K2 = none ∧
      (checkGsm checkCond qefs formVH last fitCode).code = fitCode) := by
  unfold checkGsm
  constructor
  · intro h
    rw [if_pos h]
    refine ⟨by simp [Nat.pos_iff_ne_zero], rfl, ?_⟩
    by_cases hf : fitCode = 0
    · simp [hf]
    · simp [hf]
  · intro h
    rw [if_neg h]
    exact ⟨rfl, rfl⟩

/-- **C119.** `check_cond=2` is documented for additive models only; location-scale and general models ignore it: no `K2`, no warning. -/
theorem general_two (qefs formVH : Bool) (last : Res) (fitCode : ℕ) : checkGsm 2 qefs formVH last fitCode = ⟨fitCode, none, false⟩ := by
  unfold checkGsm
  rw [if_neg (by simp)]

end Verif.Cond
