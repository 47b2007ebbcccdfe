import Verif.InvarFam

/-!
# Fits do not depend on the order of the rows, the time scale, units or parameterisation (property C126)
-/

namespace Verif.Invar
open Verif Matrix Lml Step

/-- Two fits tell the same, coefficients `c'` of the second standing for coefficients `A c'` of the first: coefficients,
log-likelihood, penalised log-likelihood, ridge, how the iterations ended, and variances of predictions, where a row `v` of the first
model matrix is the row `Aᵀ v` of the second. -/
structure Agree {p : ℕ} (A S S' : Matrix (Fin p) (Fin p) ℝ)
    (r r' : Coef.S (Fin p → ℝ) (Matrix (Fin p) (Fin p) ℝ) × Coef.End) : Prop where
  coef : r.1.coef = A *ᵥ r'.1.coef
  llk : r.1.llk = r'.1.llk
  pen : r.1.pen = r'.1.pen
  ridge : r.1.eps = r'.1.eps
  ended : r.2 = r'.2
  width : ∀ H, r.1.hess = some H → IsUnit (-H + S) → ∃ H', r'.1.hess = some H' ∧ IsUnit (-H' + S') ∧
    ∀ v : Fin p → ℝ, (Aᵀ *ᵥ v) ⬝ᵥ (-H' + S')⁻¹ *ᵥ (Aᵀ *ᵥ v) = v ⬝ᵥ (-H + S)⁻¹ *ᵥ v

theorem agree_of {p : ℕ} {C : Coef.Cfg} (hC : C.grad = false) {x x' : In p} {A : Matrix (Fin p) (Fin p) ℝ} (hA : IsUnit A)
    (h : Same x x' A) (hf : ∀ c, (x.llk c).IsFin) {c : Fin p → ℝ} (hst : Steps C x x' A c) (left : ℕ) :
    Agree A x.S x'.S (Coef.phase C (ext x) left 0 (start x (A *ᵥ c))) (Coef.phase C (ext x') left 0 (start x' c)) := by
  obtain ⟨h1, h2⟩ := phase_same hC h hf hst left 0
  refine ⟨h1.coef, h1.llk, h1.pen, h1.eps, h2, fun H hH hu => ⟨Aᵀ * H * A, ?_, ?_, fun v => ?_⟩⟩
  · exact h1.hess.trans (by rw [show (Coef.phase C (ext x) left 0 (iter C x (A *ᵥ c) 0)).1.hess = some H from hH]; rfl)
  · rw [h.pen, show -(Aᵀ * H * A) + Aᵀ * x.S * A = Aᵀ * (-H + x.S) * A by
      rw [Matrix.mul_add, Matrix.add_mul, Matrix.mul_neg, Matrix.neg_mul]]
    exact (((isUnit_transpose A).2 hA).mul hu).mul hA
  · have hd : IsUnit Aᵀ.det := (Matrix.isUnit_iff_isUnit_det _).1 ((isUnit_transpose A).2 hA)
    rw [h.pen, show -(Aᵀ * H * A) + Aᵀ * x.S * A = Aᵀ * (-H + x.S) * A by
      rw [Matrix.mul_add, Matrix.add_mul, Matrix.mul_neg, Matrix.neg_mul], Matrix.mul_inv_rev, Matrix.mul_inv_rev,
      ← mulVec_mulVec, ← mulVec_mulVec, mulVec_mulVec v (Aᵀ)⁻¹, Matrix.nonsing_inv_mul _ hd, one_mulVec, dotProduct_mulVec _ A⁻¹,
      ← mulVec_transpose, mulVec_mulVec, transpose_nonsing_inv, Matrix.nonsing_inv_mul _ hd, one_mulVec]

section lss
variable {K n : ℕ} {fam : EtaBeta.LFam K} {w : ℕ → ℕ} {X : ℕ → Fin n → ℕ → ℝ} {y : Fin n → ℝ}
  {S : Matrix (Fin (∑ l ∈ Finset.range K, w l)) (Fin (∑ l ∈ Finset.range K, w l)) ℝ} {chol noise}
  {stored stored' : ℕ → ℕ → ℕ → List ℕ}

/-- **C126.** Location-scale models of any family: with the rows in another order every method returns the same. -/
theorem rows_lss (σ : Equiv.Perm (Fin n)) (h : Holds fam w X y stored) (h' : Holds fam w (fun k => X k ∘ σ) (y ∘ σ) stored')
    (C : Coef.Cfg) (left : ℕ) (c) :
    let x := lssIn fam w X y stored S chol noise
    let x' := lssIn fam w (fun k => X k ∘ σ) (y ∘ σ) stored' S chol noise
    Coef.phase C (ext x') left 0 (start x' c) = Coef.phase C (ext x) left 0 (start x c) := by
  dsimp only
  rw [lss_rows σ h h']

/-- **C126.** Location-scale models with covariates in other units (columns times positive numbers `s`, penalty accordingly): Newton's
method returns the same fit, the coefficients in the new units, whether or not the Hessian needs a ridge. -/
theorem units_lss (hc : Newton.CholSpec chol) (hS : S.IsSymm) {s : (Σ k : Fin K, Fin (w k)) → ℝ} (hs : ∀ q, 0 < s q)
    (h : Holds fam w X y stored) (h' : Holds fam w (fun k o b => recombine w X (fun k => diagonal fun a => s ⟨k, a⟩) k o b) y stored')
    (C : Coef.Cfg) (hC : C.grad = false) (left : ℕ) (c) :
    let A := whole w fun k => diagonal fun a => s ⟨k, a⟩
    let x := lssIn fam w X y stored S chol noise
    let x' := lssIn fam w (recombine w X fun k => diagonal fun a => s ⟨k, a⟩) y stored' (Aᵀ * S * A) chol noise
    let r := Coef.phase C (ext x) left 0 (start x (A *ᵥ c))
    let r' := Coef.phase C (ext x') left 0 (start x' c)
    (∀ k i, -x.hess (iter C x (A *ᵥ c) k).coef i i + S i i ≠ 0) →
    Agree A S (Aᵀ * S * A) r r' ∧ (∀ q : Σ k : Fin K, Fin (w k), blk w r.1.coef q = s q * blk w r'.1.coef q) ∧
      ∀ o, EtaBeta.etaOf w (recombine w X fun k => diagonal fun a => s ⟨k, a⟩) (blk w r'.1.coef) o = EtaBeta.etaOf w X (blk w r.1.coef) o := by
  intro A x x' r r' hd
  have hsame : Same x x' A := lss_recombine _ h h'
  have hA : IsUnit A := whole_unit _ fun k => by
    rw [Matrix.isUnit_iff_isUnit_det, det_diagonal]
    exact (Finset.prod_ne_zero_iff.2 fun i _ => (hs _).ne').isUnit
  have hdiag : A = diagonal fun i => s ((Equiv.ofBijective _ (at_bij (w := w) (K := K))).symm i) := whole_diag s
  have hag : Agree A S (Aᵀ * S * A) r r' := agree_of hC hA hsame (fun _ => trivial) (fun k c' hc' => by
    have hr : Reg x (A *ᵥ c') := ⟨hc, lss_hess_symm h _, hS, fun i => by rw [← hc']; exact hd k i⟩
    rw [hdiag] at hsame hr ⊢
    exact step_units hsame (fun i => hs _) c' rfl hr) left
  refine ⟨hag, fun q => ?_, fun o => ?_⟩
  · have := congrFun hag.coef (place w q)
    rw [whole_vec, Finset.sum_eq_single q.2] at this
    · rw [diagonal_apply_eq] at this
      exact this
    · intro b _ hb
      rw [diagonal_apply_ne _ hb.symm, zero_mul]
    · simp
  · rw [eta_recombine, hag.coef]

/-- **C126.** Location-scale models with recombined columns (another basis of the same space, penalty accordingly): as long as the
penalised negative Hessian is positive definite at the coefficients visited, Newton's method returns the same fit. -/
theorem recombined_lss (hc : Newton.CholSpec chol) (hS : S.IsSymm) {B : (k : Fin K) → Matrix (Fin (w k)) (Fin (w k)) ℝ}
    (hB : ∀ k, IsUnit (B k)) (h : Holds fam w X y stored) (h' : Holds fam w (recombine w X B) y stored') (C : Coef.Cfg)
    (hC : C.grad = false) (left : ℕ) (c) :
    let A := whole w B
    let x := lssIn fam w X y stored S chol noise
    let x' := lssIn fam w (recombine w X B) y stored' (Aᵀ * S * A) chol noise
    let r := Coef.phase C (ext x) left 0 (start x (A *ᵥ c))
    let r' := Coef.phase C (ext x') left 0 (start x' c)
    (∀ k v, v ≠ 0 → 0 < v ⬝ᵥ (-x.hess (iter C x (A *ᵥ c) k).coef + S) *ᵥ v) →
    Agree A S (Aᵀ * S * A) r r' ∧
      (∀ q : Σ k : Fin K, Fin (w k), blk w r.1.coef q = ∑ b, B q.1 q.2 b * blk w r'.1.coef ⟨q.1, b⟩) ∧
      ∀ o, EtaBeta.etaOf w (recombine w X B) (blk w r'.1.coef) o = EtaBeta.etaOf w X (blk w r.1.coef) o := by
  intro A x x' r r' hd
  have hsame : Same x x' A := lss_recombine _ h h'
  have hA : IsUnit A := whole_unit _ hB
  have hag : Agree A S (Aᵀ * S * A) r r' := agree_of hC hA hsame (fun _ => trivial) (fun k c' hc' => by
    have hp := hd k
    rw [hc'] at hp
    have hr : Reg x (A *ᵥ c') := ⟨hc, lss_hess_symm h _, hS, fun i => by
      have := hp (Pi.single i 1) (by simp)
      rw [mulVec_single_one, single_one_dotProduct] at this
      exact this.ne'⟩
    exact step_recomb hsame hA hc hr hp) left
  refine ⟨hag, fun q => ?_, fun o => ?_⟩
  · have := congrFun hag.coef (place w q)
    rw [whole_vec] at this
    exact this
  · rw [eta_recombine, hag.coef]

end lss

section haz
variable {n p nt : ℕ} {ut : ℕ → ℝ} {r delta : Fin n → ℕ} {X : Fin n → Fin p → ℝ} {S : Matrix (Fin p) (Fin p) ℝ} {chol noise}

/-- **C126.** Proportional hazard models: with the subjects in another order every method returns the same. -/
theorem rows_hazard (σ : Equiv.Perm (Fin n)) (C : Coef.Cfg) (left : ℕ) (c) :
    let x := hazIn nt r delta X S chol noise
    let x' := hazIn nt (r ∘ σ) (delta ∘ σ) (X ∘ σ) S chol noise
    Coef.phase C (ext x') left 0 (start x' c) = Coef.phase C (ext x) left 0 (start x c) := by
  dsimp only
  rw [haz_rows σ]

/-- **C126.** Proportional hazard models: with the times on another, strictly increasing scale `g` (hours instead of days, logarithms)
every method returns the same. -/
theorem times_hazard {nt' : ℕ} {ut' : ℕ → ℝ} {r' : Fin n → ℕ} (h : Haz.Data nt ut r) (h' : Haz.Data nt' ut' r') {g : ℝ → ℝ}
    (hg : StrictMonoOn g (Set.range fun i => ut (r i))) (ht : ∀ i, ut' (r' i) = g (ut (r i))) (C : Coef.Cfg) (left : ℕ) (c) :
    let x := hazIn nt r delta X S chol noise
    let x' := hazIn nt' r' delta X S chol noise
    Coef.phase C (ext x') left 0 (start x' c) = Coef.phase C (ext x) left 0 (start x c) := by
  obtain ⟨rfl, rfl⟩ := haz_index h h' hg ht
  rfl

/-- **C126.** Proportional hazard models with covariates in other units: Newton's method returns the same fit. -/
theorem units_hazard (h : Haz.Data nt ut r) (hc : Newton.CholSpec chol) (hS : S.IsSymm) {s : Fin p → ℝ} (hs : ∀ i, 0 < s i)
    (C : Coef.Cfg) (hC : C.grad = false) (left : ℕ) (c) :
    let x := hazIn nt r delta X S chol noise
    let x' := hazIn nt r delta (fun i k => X i k * s k) (fun k l => s k * S k l * s l) chol noise
    let f := Coef.phase C (ext x) left 0 (start x fun k => s k * c k)
    let f' := Coef.phase C (ext x') left 0 (start x' c)
    (∀ k i, -x.hess (iter C x (fun k => s k * c k) k).coef i i + S i i ≠ 0) →
    Agree (diagonal s) S (fun k l => s k * S k l * s l) f f' ∧ ∀ i, f.1.coef i = s i * f'.1.coef i := by
  intro x x' f f' hd
  have e1 : (fun (i : Fin n) (k : Fin p) => X i k * s k) = fun i k => ∑ l, X i l * diagonal s l k := by
    funext i k
    rw [Finset.sum_eq_single k]
    · rw [diagonal_apply_eq]
    · intro l _ hl
      rw [diagonal_apply_ne _ hl, mul_zero]
    · simp
  have e2 : (fun k l => s k * S k l * s l : Matrix (Fin p) (Fin p) ℝ) = (diagonal s)ᵀ * S * diagonal s := by
    ext k l
    rw [diagonal_transpose, Matrix.mul_diagonal, Matrix.diagonal_mul]
  have e3 : ∀ c, (fun k => s k * c k) = diagonal s *ᵥ c := fun c => by
    funext k
    rw [mulVec_diagonal]
  have hx : x' = hazIn nt r delta (fun i k => ∑ l, X i l * diagonal s l k) ((diagonal s)ᵀ * S * diagonal s) chol noise := by
    show hazIn _ _ _ _ _ _ _ = _
    rw [e1, e2]
  have hsame : Same x x' (diagonal s) := by rw [hx]; exact haz_recombine (diagonal s)
  rw [e3] at hd
  have hag : Agree (diagonal s) x.S x'.S f f' := by
    show Agree _ _ _ (Coef.phase C (ext x) left 0 (start x fun k => s k * c k)) _
    rw [e3]
    refine agree_of hC (units_isUnit hsame hs) hsame (fun _ => trivial) (fun k c' hc' => ?_) left
    exact step_units hsame hs c' rfl ⟨hc, by
      ext i j
      exact (Haz.hessian_symm_negSemidef nt ut r h delta X _).1 _ _, hS, fun i => by rw [← hc']; exact hd k i⟩
  refine ⟨hag, fun i => ?_⟩
  rw [hag.coef, mulVec_diagonal]

/-- **C126.** Proportional hazard models with recombined covariates: Newton's method returns the same fit as long as the penalised
negative Hessian is positive definite at the coefficients visited. -/
theorem recombined_hazard (h : Haz.Data nt ut r) (hc : Newton.CholSpec chol) (hS : S.IsSymm) {A : Matrix (Fin p) (Fin p) ℝ}
    (hA : IsUnit A) (C : Coef.Cfg) (hC : C.grad = false) (left : ℕ) (c) :
    let x := hazIn nt r delta X S chol noise
    let x' := hazIn nt r delta (fun i k => ∑ l, X i l * A l k) (Aᵀ * S * A) chol noise
    let f := Coef.phase C (ext x) left 0 (start x (A *ᵥ c))
    let f' := Coef.phase C (ext x') left 0 (start x' c)
    (∀ k v, v ≠ 0 → 0 < v ⬝ᵥ (-x.hess (iter C x (A *ᵥ c) k).coef + S) *ᵥ v) →
    Agree A S (Aᵀ * S * A) f f' ∧ (∀ i, f.1.coef i = ∑ k, A i k * f'.1.coef k) ∧
      ∀ i, ∑ k, (∑ l, X i l * A l k) * f'.1.coef k = ∑ k, X i k * f.1.coef k := by
  intro x x' f f' hd
  have hsame : Same x x' A := haz_recombine A
  have hag : Agree A S (Aᵀ * S * A) f f' := agree_of hC hA hsame (fun _ => trivial) (fun k c' hc' => by
    have hp := hd k
    rw [hc'] at hp
    have hr : Reg x (A *ᵥ c') := ⟨hc, by
      ext i j
      exact (Haz.hessian_symm_negSemidef nt ut r h delta X _).1 _ _, hS, fun i => by
      have := hp (Pi.single i 1) (by simp)
      rw [mulVec_single_one, single_one_dotProduct] at this
      exact this.ne'⟩
    exact step_recomb hsame hA hc hr hp) left
  refine ⟨hag, fun i => by rw [hag.coef]; rfl, fun i => ?_⟩
  rw [hag.coef]
  exact congrFun (eta_mix A f'.1.coef) i

end haz

/-! ### What is not true -/

/-- Quadratic log-likelihood with gradient `g` and Hessian `H` at zero, no penalty. -/
noncomputable def quadIn {p : ℕ} (g : Fin p → ℝ) (H : Matrix (Fin p) (Fin p) ℝ)
    (chol : Matrix (Fin p) (Fin p) ℝ → Option (Matrix (Fin p) (Fin p) ℝ × Equiv.Perm (Fin p))) : In p where
  llk := fun c => .fin (g ⬝ᵥ c + 1 / 2 * (c ⬝ᵥ H *ᵥ c))
  grad := fun c => g + H *ᵥ c
  hess := fun _ => H
  S := 0
  chol := chol
  noise := fun _ _ => 0

theorem quad_reparam {p : ℕ} (g : Fin p → ℝ) (H A : Matrix (Fin p) (Fin p) ℝ) (chol) :
    Same (quadIn g H chol) (quadIn (Aᵀ *ᵥ g) (Aᵀ * H * A) chol) A := by
  refine ⟨fun c => ?_, fun c => ?_, fun c => rfl, by simp [quadIn]⟩
  · show Fl.fin _ = Fl.fin _
    congr 1
    rw [← mulVec_mulVec, ← mulVec_mulVec, dotProduct_mulVec c Aᵀ, vecMul_transpose, mulVec_transpose, ← dotProduct_mulVec]
  · show Aᵀ *ᵥ g + (Aᵀ * H * A) *ᵥ c = Aᵀ *ᵥ (g + H *ᵥ (A *ᵥ c))
    rw [mulVec_add, mulVec_mulVec, mulVec_mulVec]

/-- Hessian with a saddle. -/
def Hs : Matrix (Fin 2) (Fin 2) ℝ := diagonal ![-1, 1]

/-- Recombination: twice the first column is added to the second. -/
def As : Matrix (Fin 2) (Fin 2) ℝ := !![1, 2; 0, 1]

theorem As_unit : IsUnit As := by
  rw [Matrix.isUnit_iff_isUnit_det]
  simp [As, Matrix.det_fin_two]

theorem conj_s : Asᵀ * Hs * As = !![-1, -2; -2, -3] := by
  ext i j
  fin_cases i <;> fin_cases j <;> simp [As, Hs, Matrix.mul_apply, Fin.sum_univ_two, diagonal] <;> norm_num

theorem sys_s (e : ℝ) : -Hs + 0 + e • diagonal (fun i => |-Hs i i + (0 : Matrix (Fin 2) (Fin 2) ℝ) i i|) = diagonal ![1 + e, -1 + e] := by
  ext i j
  fin_cases i <;> fin_cases j <;> simp [Hs]

theorem reg_s {chol} (hc : Newton.CholSpec chol) (g : Fin 2 → ℝ) (c) : Reg (quadIn g Hs chol) c :=
  ⟨hc, isSymm_diagonal _, isSymm_zero, fun i => by fin_cases i <;> simp [quadIn, Hs]⟩

theorem reg_s' {chol} (hc : Newton.CholSpec chol) (g : Fin 2 → ℝ) (c) : Reg (quadIn (Asᵀ *ᵥ g) (Asᵀ * Hs * As) chol) c :=
  ⟨hc, by
    show (Asᵀ * Hs * As).IsSymm
    rw [conj_s]
    ext i j
    fin_cases i <;> fin_cases j <;> rfl, isSymm_zero, fun i => by
    show -(Asᵀ * Hs * As) i i + (0 : Matrix (Fin 2) (Fin 2) ℝ) i i ≠ 0
    rw [conj_s]
    fin_cases i <;> norm_num⟩

theorem sys_eq {p : ℕ} {M M' A : Matrix (Fin p) (Fin p) ℝ} {δ δ' : (Fin p → ℝ) → Fin p → ℝ} (hA : IsUnit A) (h1 : ∀ g, M *ᵥ δ g = g)
    (h2 : ∀ g, M' *ᵥ δ' g = Aᵀ *ᵥ g) (hM : IsUnit M') (h : ∀ g, A *ᵥ δ' g = δ g) : M' = Aᵀ * M * A := by
  have hAd : IsUnit (Aᵀ).det := (Matrix.isUnit_iff_isUnit_det _).1 ((isUnit_transpose A).2 hA)
  refine ext_vec fun v => ?_
  have h3 := h2 ((Aᵀ)⁻¹ *ᵥ (M' *ᵥ v))
  rw [mulVec_mulVec (M' *ᵥ v), Matrix.mul_nonsing_inv _ hAd, one_mulVec] at h3
  have h4 := mulVec_injective_of_isUnit hM h3
  have h5 := h ((Aᵀ)⁻¹ *ᵥ (M' *ᵥ v))
  rw [h4] at h5
  rw [← mulVec_mulVec, ← mulVec_mulVec, h5, h1, mulVec_mulVec (M' *ᵥ v), Matrix.mul_nonsing_inv _ hAd, one_mulVec]

/-- **C126.** The condition of the theorems on recombined columns is needed: with an indefinite Hessian the ridge depends on the
parameterisation, and for some gradient the proposals differ. -/
theorem ridge_wrong {chol} (hc : Newton.CholSpec chol) :
    ∃ g : Fin 2 → ℝ, let x := quadIn g Hs chol
      let x' := quadIn (Asᵀ *ᵥ g) (Asᵀ * Hs * As) chol
      Same x x' As ∧ Reg x 0 ∧ Reg x' 0 ∧ As *ᵥ step x' 0 ≠ step x 0 := by
  by_contra hno
  have hall : ∀ g : Fin 2 → ℝ, As *ᵥ step (quadIn (Asᵀ *ᵥ g) (Asᵀ * Hs * As) chol) 0 = step (quadIn g Hs chol) 0 := fun g => by
    by_contra hne
    exact hno ⟨g, quad_reparam g Hs As chol, reg_s hc g 0, reg_s' hc g 0, hne⟩
  have he : ∀ g, eps (quadIn g Hs chol) 0 = eps (quadIn 0 Hs chol) 0 := fun g =>
    eps_congr (x := quadIn 0 Hs chol) (x' := quadIn g Hs chol) rfl (reg_s hc 0 0) (reg_s hc g 0) rfl
  have he' : ∀ g, eps (quadIn (Asᵀ *ᵥ g) (Asᵀ * Hs * As) chol) 0 = eps (quadIn (Asᵀ *ᵥ 0) (Asᵀ * Hs * As) chol) 0 := fun g =>
    eps_congr (x := quadIn (Asᵀ *ᵥ 0) (Asᵀ * Hs * As) chol)
      (x' := quadIn (Asᵀ *ᵥ g) (Asᵀ * Hs * As) chol) rfl (reg_s' hc 0 0) (reg_s' hc g 0) rfl
  have hs : ∀ g, sysM (quadIn g Hs chol) 0 = sysM (quadIn 0 Hs chol) 0 := fun g => by unfold sysM; rw [he g]; rfl
  have hs' : ∀ g, sysM (quadIn (Asᵀ *ᵥ g) (Asᵀ * Hs * As) chol) 0 = sysM (quadIn (Asᵀ *ᵥ 0) (Asᵀ * Hs * As) chol) 0 :=
    fun g => by unfold sysM; rw [he' g]; rfl
  have key : sysM (quadIn (Asᵀ *ᵥ 0) (Asᵀ * Hs * As) chol) 0 = Asᵀ * sysM (quadIn 0 Hs chol) 0 * As := by
    refine sys_eq (δ := fun g => step (quadIn g Hs chol) 0) (δ' := fun g => step (quadIn (Asᵀ *ᵥ g) (Asᵀ * Hs * As) chol) 0) As_unit
      (fun g => ?_) (fun g => ?_) (step_solves (reg_s' hc 0 0)).2.1 hall
    · have a3 := (step_solves (reg_s hc g 0)).2.2
      rw [hs g, sub_zero] at a3
      rw [a3]
      simp [quadIn]
    · have b3 := (step_solves (reg_s' hc g 0)).2.2
      rw [hs' g, sub_zero] at b3
      rw [b3]
      simp [quadIn]
  have e0 := (step_solves (reg_s hc 0 0)).1
  obtain ⟨o, ⟨fuel, ho⟩, -, h2⟩ := step_newtons (reg_s hc 0 0)
  obtain ⟨-, a2, -⟩ := Newton.newton_correct chol hc fuel 0 _ _ _ (reg_s hc 0 0).diag o ho
  set e := eps (quadIn 0 Hs chol) 0 with hee
  have k01 := congrFun (congrFun key 0) 1
  have hm : sysM (quadIn 0 Hs chol) 0 = diagonal ![1 + e, -1 + e] := sys_s e
  have hz : e = 0 := by
    rw [hm] at k01
    have l : sysM (quadIn (Asᵀ *ᵥ 0) (Asᵀ * Hs * As) chol) 0 0 1 = 2 := by
      show -(Asᵀ * Hs * As) 0 1 + (0 : Matrix (Fin 2) (Fin 2) ℝ) 0 1 + (_ • diagonal _ : Matrix (Fin 2) (Fin 2) ℝ) 0 1 = 2
      rw [Matrix.smul_apply, diagonal_apply_ne _ (by decide), conj_s]
      norm_num
    rw [l] at k01
    simp [As, Matrix.mul_apply, Fin.sum_univ_two, diagonal] at k01
    linarith
  have hn : (o.L * o.Lᵀ) 1 1 = -1 := by
    rw [a2, ← h2, hz]
    have := congrFun (congrFun (sys_s 0) 1) 1
    refine this.trans ?_
    simp
  have hp : 0 ≤ (o.L * o.Lᵀ) 1 1 := by
    rw [Matrix.mul_apply]
    exact Finset.sum_nonneg fun k _ => mul_self_nonneg _
  rw [hn] at hp
  linarith

/-- **C126.** Gradient steps (`method="Grad"`) depend on the units. -/
theorem gradient_wrong (chol) : ∃ (x x' : In 1) (s : ℝ), 0 < s ∧ x.chol = chol ∧ x'.chol = chol ∧ Same x x' (diagonal fun _ => s) ∧
    ∀ a : ℝ, 0 < a → (diagonal fun _ => s) *ᵥ (ext x').gd 0 a ≠ (ext x).gd ((diagonal fun _ => s) *ᵥ 0) a := by
  refine ⟨quadIn (fun _ => 1) (-1) chol, quadIn ((diagonal fun _ => (2 : ℝ))ᵀ *ᵥ fun _ => 1)
    ((diagonal fun _ => (2 : ℝ))ᵀ * (-1) * diagonal fun _ => 2) chol, 2, by norm_num, rfl, rfl, quad_reparam _ _ _ _, fun a ha h => ?_⟩
  have := congrFun h 0
  simp [Lml.ext, Newton.gradStep, Newton.pgrad, quadIn, mulVec_diagonal] at this
  linarith

end Verif.Invar
