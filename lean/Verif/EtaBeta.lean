import Verif.EtaBetaLemmas
import Verif.FamLemmas
import Verif.Lss
import Mathlib.Analysis.Calculus.FDeriv.Symmetric
import Mathlib.Analysis.Calculus.FDeriv.Pi
import Mathlib.Analysis.Calculus.FDeriv.Add
import Mathlib.Analysis.Calculus.FDeriv.Mul
import Mathlib.Analysis.Calculus.Deriv.Pi

/-!
# Gradient and Hessian in the coefficients (C20)
-/

namespace Verif.EtaBeta
open Verif Filter Topology

variable {K n : ℕ}

/-- Linear functional with given coefficients. -/
noncomputable def lin {ι : Type} [Fintype ι] (g : ι → ℝ) : (ι → ℝ) →L[ℝ] ℝ :=
  ∑ k, g k • ContinuousLinearMap.proj (R := ℝ) (φ := fun _ : ι => ℝ) k

theorem lin_apply {ι : Type} [Fintype ι] (g v : ι → ℝ) : lin g v = ∑ k, g k * v k := by
  simp [lin, _root_.sum_apply]

/-- Log density as a function of the linear predictors. -/
noncomputable def lpEta (fam : LFam K) (y : ℝ) (eta : Fin K → ℝ) : ℝ := fam.lp y (musOf fam eta)

/-- The lists handed to the coefficient stage are, near `eta`, the gradient of the log density in
the linear predictors and, at `eta`, its second derivatives `H`. -/
def EtaExact (fam : LFam K) (y : ℝ) (eta : Fin K → ℝ) : Prop :=
  ∃ (g : (Fin K → ℝ) → Fin K → ℝ) (H : Fin K → Fin K → ℝ),
    (∀ᶠ e in 𝓝 eta, HasFDerivAt (lpEta fam y) (lin (g e)) e ∧
      ∀ k : Fin K, (etaDerivs fam y (musOf fam e)).1[k.val]? = some (.fin (g e k))) ∧
    (∀ k, HasFDerivAt (fun e => g e k) (lin (H k)) eta) ∧
    (∀ k : Fin K, (etaDerivs fam y (musOf fam eta)).2.1[k.val]? = some (.fin (H k k))) ∧
    (∀ i j : Fin K, i < j →
      (etaDerivs fam y (musOf fam eta)).2.2[posn K i j]? = some (.fin (H i j)))

/-- Second derivatives are symmetric. -/
theorem H_symm {fam : LFam K} {y : ℝ} {eta : Fin K → ℝ} {g : (Fin K → ℝ) → Fin K → ℝ}
    {H : Fin K → Fin K → ℝ} (h1 : ∀ᶠ e in 𝓝 eta, HasFDerivAt (lpEta fam y) (lin (g e)) e)
    (h2 : ∀ k, HasFDerivAt (fun e => g e k) (lin (H k)) eta) (i j : Fin K) : H i j = H j i := by
  have hg : HasFDerivAt (fun e => lin (g e)) (∑ k, (lin (H k)).smulRight
      (ContinuousLinearMap.proj (R := ℝ) (φ := fun _ : Fin K => ℝ) k)) eta := by
    unfold lin
    refine HasFDerivAt.fun_sum fun k _ => ?_
    exact (h2 k).smul_const (ContinuousLinearMap.proj (R := ℝ) (φ := fun _ : Fin K => ℝ) k)
  have := second_derivative_symmetric_of_eventually h1 hg (Pi.single i 1) (Pi.single j 1)
  simpa [_root_.sum_apply, lin_apply, Pi.single_apply] using this.symm

/-- Flat position of coefficient `a` of predictor `k`. -/
def pos (w : ℕ → ℕ) (q : Σ k : Fin K, Fin (w k)) : ℕ := off w q.1 + q.2

theorem pos_injective (w : ℕ → ℕ) : Function.Injective (pos (K := K) w) := by
  rintro ⟨k, a⟩ ⟨l, b⟩ h
  obtain ⟨h1, h2⟩ := off_inj a.isLt b.isLt h
  have : k = l := Fin.ext h1
  subst this
  have : a = b := Fin.ext h2
  subst this
  rfl

theorem eta_fderiv (w : ℕ → ℕ) (X : ℕ → Fin n → ℕ → ℝ) (c : (Σ k : Fin K, Fin (w k)) → ℝ)
    (o : Fin n) :
    HasFDerivAt (fun c => etaOf w X c o) (ContinuousLinearMap.pi fun k : Fin K =>
      lin fun q : Σ k : Fin K, Fin (w k) => if q.1 = k then X q.1 o q.2 else 0) c := by
  rw [hasFDerivAt_pi]
  intro k
  have h : (fun c => etaOf w X c o k) = fun c => (lin fun q : Σ k : Fin K, Fin (w k) =>
      if q.1 = k then X q.1 o q.2 else 0) c := by
    funext c
    rw [lin_apply, Fintype.sum_sigma]
    unfold etaOf
    rw [Finset.sum_eq_single k]
    · simp
    · intro l _ hl; simp [hl]
    · simp
  rw [h]
  exact ContinuousLinearMap.hasFDerivAt _

theorem lin_comp_eta (w : ℕ → ℕ) (X : ℕ → Fin n → ℕ → ℝ) (o : Fin n) (g : Fin K → ℝ) :
    (lin g).comp (ContinuousLinearMap.pi fun k : Fin K =>
      lin fun q : Σ k : Fin K, Fin (w k) => if q.1 = k then X q.1 o q.2 else 0) =
    lin fun q : Σ k : Fin K, Fin (w k) => g q.1 * X q.1 o q.2 := by
  ext v
  simp only [ContinuousLinearMap.comp_apply, lin_apply, ContinuousLinearMap.pi_apply]
  simp only [Finset.mul_sum]
  rw [Finset.sum_comm]
  refine Finset.sum_congr rfl fun q _ => ?_
  rw [Finset.sum_eq_single q.1]
  · simp; ring
  · intro k _ hk; simp [hk.symm]
  · simp

theorem sum_lin {ι : Type} [Fintype ι] (f : Fin n → ι → ℝ) :
    ∑ o, lin (f o) = lin fun q => ∑ o, f o q := by
  ext v
  simp only [_root_.sum_apply, lin_apply, Finset.sum_mul]
  exact Finset.sum_comm

/-- Gradient entries when the linear predictor derivatives are finite. -/
theorem gradient_get (fam : LFam K) (w : ℕ → ℕ) (X : ℕ → Fin n → ℕ → ℝ) (y : Fin n → ℝ)
    (c : (Σ k : Fin K, Fin (w k)) → ℝ) (g : Fin n → Fin K → ℝ)
    (hg : ∀ o (k : Fin K), (etaDerivs fam (y o) (musOf fam (etaOf w X c o))).1[k.val]? =
      some (.fin (g o k))) (q : Σ k : Fin K, Fin (w k)) :
    (gradient fam w X y c)[pos w q]? = some (∑ o, g o q.1 * X q.1 o q.2) := by
  unfold gradient pos
  rw [grad_get K w X _ q.1.isLt q.2.isLt]
  congr 1
  refine Finset.sum_congr rfl fun o _ => ?_
  congr 1
  simp only [obsList]
  rw [List.getD_eq_getElem?_getD, List.getElem?_map, List.getElem?_range q.1.isLt]
  simp only [Option.map_some, Option.getD_some]
  rw [List.getD_eq_getElem?_getD, hg o q.1]
  rfl

/-- First-order part of `EtaExact`: the first list is the gradient in the linear predictors. -/
def EtaGrad (fam : LFam K) (y : ℝ) (eta : Fin K → ℝ) : Prop :=
  ∃ g : Fin K → ℝ, HasFDerivAt (lpEta fam y) (lin g) eta ∧
    ∀ k : Fin K, (etaDerivs fam y (musOf fam eta)).1[k.val]? = some (.fin (g k))

theorem EtaExact.grad {fam : LFam K} {y : ℝ} {eta : Fin K → ℝ} (h : EtaExact fam y eta) :
    EtaGrad fam y eta := by
  obtain ⟨g, H, h1, _⟩ := h
  exact ⟨g eta, h1.self_of_nhds.1, h1.self_of_nhds.2⟩

/-- **C20.** The gradient vector has one entry per coefficient and is the total derivative of the
log-likelihood in the stacked coefficient vector. -/
theorem gradient_correct (fam : LFam K) (w : ℕ → ℕ) (X : ℕ → Fin n → ℕ → ℝ) (y : Fin n → ℝ)
    (c : (Σ k : Fin K, Fin (w k)) → ℝ) (h : ∀ o, EtaGrad fam (y o) (etaOf w X c o)) :
    (gradient fam w X y c).length = ∑ k ∈ Finset.range K, w k ∧
    HasFDerivAt (llk fam w X y)
      (lin fun q => (gradient fam w X y c).getD (pos w q) 0) c := by
  refine ⟨grad_length _ _ _ _, ?_⟩
  choose g h1 h2 using h
  have hget := gradient_get fam w X y c g h2
  have e : (lin fun q => (gradient fam w X y c).getD (pos w q) 0) =
      ∑ o, (lin (g o)).comp (ContinuousLinearMap.pi fun k : Fin K =>
        lin fun q : Σ k : Fin K, Fin (w k) => if q.1 = k then X q.1 o q.2 else 0) := by
    simp only [lin_comp_eta, sum_lin]
    congr 1
    funext q
    rw [List.getD_eq_getElem?_getD, hget q]
    rfl
  rw [e]
  refine HasFDerivAt.fun_sum fun o _ => ?_
  exact HasFDerivAt.comp (g := lpEta fam (y o)) c (h1 o) (eta_fderiv w X c o)

/-- **C20.** The assembled Hessian is symmetric, its entries lie inside the coefficient range, and
row `q` is the total derivative of gradient entry `q`: it is the Hessian of the log-likelihood. -/
theorem hessian_correct (fam : LFam K) (w : ℕ → ℕ) (X : ℕ → Fin n → ℕ → ℝ) (y : Fin n → ℝ)
    (stored : ℕ → ℕ → ℕ → List ℕ) (c : (Σ k : Fin K, Fin (w k)) → ℝ)
    (h : ∀ o, EtaExact fam (y o) (etaOf w X c o))
    (hS : AllStored w X
      (obsList K fun o => (etaDerivs fam (y o) (musOf fam (etaOf w X c o))).2.1)
      (obsList (K * (K - 1) / 2) fun o => (etaDerivs fam (y o) (musOf fam (etaOf w X c o))).2.2)
      stored K) :
    (∀ t ∈ hessian fam w X y stored c, t.1 < ∑ k ∈ Finset.range K, w k ∧
      t.2.1 < ∑ k ∈ Finset.range K, w k) ∧
    (∀ q q' : Σ k : Fin K, Fin (w k), entry (hessian fam w X y stored c) (pos w q) (pos w q') =
      entry (hessian fam w X y stored c) (pos w q') (pos w q)) ∧
    ∀ q : Σ k : Fin K, Fin (w k), HasFDerivAt (fun c => (gradient fam w X y c).getD (pos w q) 0)
      (lin fun q' => entry (hessian fam w X y stored c) (pos w q) (pos w q')) c := by
  choose g H h1 h2 h3 h4 using h
  have hsym : ∀ o i j, H o i j = H o j i := fun o i j =>
    H_symm ((h1 o).mono fun e he => he.1) (h2 o) i j
  -- the derivatives used for each block
  have hD : ∀ i j : Fin K, i ≤ j → ∀ o,
      D (obsList K fun o => (etaDerivs fam (y o) (musOf fam (etaOf w X c o))).2.1)
        (obsList (K * (K - 1) / 2) fun o => (etaDerivs fam (y o) (musOf fam (etaOf w X c o))).2.2)
        K i j o = H o i j := by
    intro i j hij o
    unfold D obsList
    by_cases hij' : i = j
    · subst hij'
      rw [if_pos rfl, List.getD_eq_getElem?_getD, List.getElem?_map, List.getElem?_range i.isLt]
      simp only [Option.map_some, Option.getD_some]
      rw [List.getD_eq_getElem?_getD, h3 o i]
      rfl
    · have hlt : i < j := lt_of_le_of_ne hij hij'
      rw [if_neg (fun h => hij' (Fin.ext h)), List.getD_eq_getElem?_getD, List.getElem?_map,
        List.getElem?_range (posn_lt hlt j.isLt)]
      simp only [Option.map_some, Option.getD_some]
      rw [List.getD_eq_getElem?_getD, h4 o i j hlt]
      rfl
  have hE : ∀ q q' : Σ k : Fin K, Fin (w k),
      entry (hessian fam w X y stored c) (pos w q) (pos w q') =
        ∑ o, H o q.1 q'.1 * X q.1 o q.2 * X q'.1 o q'.2 := by
    intro q q'
    unfold hessian pos
    rcases le_total q.1 q'.1 with hle | hle
    · rw [(hess_entry_le hS (show (q.1 : ℕ) ≤ q'.1 from hle) q'.1.isLt q.2.isLt q'.2.isLt).1]
      exact Finset.sum_congr rfl fun o _ => by rw [hD q.1 q'.1 hle o]
    · rw [(hess_entry_le hS (show (q'.1 : ℕ) ≤ q.1 from hle) q.1.isLt q'.2.isLt q.2.isLt).2]
      exact Finset.sum_congr rfl fun o _ => by rw [hD q'.1 q.1 hle o, hsym o q'.1 q.1]; ring
  refine ⟨fun t ht => hess_range hS ht, fun q q' => ?_, fun q => ?_⟩
  · rw [hE, hE]
    exact Finset.sum_congr rfl fun o _ => by rw [hsym o q.1 q'.1]; ring
  · have hev : (fun c => (gradient fam w X y c).getD (pos w q) 0) =ᶠ[𝓝 c]
        fun c => ∑ o, g o (etaOf w X c o) q.1 * X q.1 o q.2 := by
      have hall : ∀ᶠ c' in 𝓝 c, ∀ o, ∀ k : Fin K,
          (etaDerivs fam (y o) (musOf fam (etaOf w X c' o))).1[k.val]? =
            some (.fin (g o (etaOf w X c' o) k)) := by
        rw [eventually_all]
        intro o
        have hc := (eta_fderiv (K := K) w X c o).continuousAt
        exact (hc.eventually (h1 o)).mono fun c' hc' => hc'.2
      filter_upwards [hall] with c' hc'
      rw [List.getD_eq_getElem?_getD, gradient_get fam w X y c' (fun o => g o (etaOf w X c' o)) hc' q]
      rfl
    refine HasFDerivAt.congr_of_eventuallyEq ?_ hev
    have e : (lin fun q' => entry (hessian fam w X y stored c) (pos w q) (pos w q')) =
        ∑ o, X q.1 o q.2 • (lin (H o q.1)).comp (ContinuousLinearMap.pi fun k : Fin K =>
          lin fun q : Σ k : Fin K, Fin (w k) => if q.1 = k then X q.1 o q.2 else 0) := by
      simp only [lin_comp_eta]
      ext v
      simp only [lin_apply, _root_.sum_apply, _root_.smul_apply, smul_eq_mul, hE, Finset.sum_mul,
        Finset.mul_sum]
      rw [Finset.sum_comm]
      refine Finset.sum_congr rfl fun o _ => Finset.sum_congr rfl fun q' _ => by ring
    rw [e]
    refine HasFDerivAt.fun_sum fun o _ => ?_
    have := (HasFDerivAt.comp (g := fun e => g o e q.1) c (h2 o q.1) (eta_fderiv w X c o))
    exact this.mul_const (X q.1 o q.2)

/-! ### From distribution parameters to linear predictors -/

/-- The family's `d1` is the gradient of the log density in the distribution parameters near `m`,
and `d2`, `d2m` are its second derivatives at `m`. -/
def MuExact (fam : LFam K) (y : ℝ) (m : Fin K → ℝ) : Prop :=
  ∃ (g : (Fin K → ℝ) → Fin K → ℝ) (H : Fin K → Fin K → ℝ),
    (∀ᶠ e in 𝓝 m, HasFDerivAt (fam.lp y) (lin (g e)) e ∧ ∀ k, fam.d1 k y e = .fin (g e k)) ∧
    (∀ k, HasFDerivAt (fun e => g e k) (lin (H k)) m) ∧
    (∀ k, fam.d2 k y m = .fin (H k k)) ∧
    (∀ i j : Fin K, i < j → fam.d2m (posn K i j) y m = .fin (H i j))

theorem musOf_eq (fam : LFam K) (eta : Fin K → ℝ) (k : Fin K) :
    musOf fam eta k = (fam.links k).fiR (eta k) := by
  unfold musOf
  rw [Fam.fi_eq]
  rfl

theorem musOf_fderiv (fam : LFam K) (eta : Fin K → ℝ) :
    HasFDerivAt (musOf fam) (ContinuousLinearMap.pi fun k : Fin K =>
      (1 / (fam.links k).d1R (musOf fam eta k)) •
        ContinuousLinearMap.proj (R := ℝ) (φ := fun _ : Fin K => ℝ) k) eta := by
  rw [hasFDerivAt_pi]
  intro k
  have hf : (fun e => musOf fam e k) = fun e => (fam.links k).fiR (e k) := by
    funext e; exact musOf_eq fam e k
  rw [hf, musOf_eq]
  have hp : HasFDerivAt (fun e : Fin K → ℝ => e k)
      (ContinuousLinearMap.proj (R := ℝ) (φ := fun _ : Fin K => ℝ) k) eta :=
    (ContinuousLinearMap.proj (R := ℝ) (φ := fun _ : Fin K => ℝ) k).hasFDerivAt
  exact HasDerivAt.comp_hasFDerivAt (h₂ := (fam.links k).fiR) eta (Fam.fiR_deriv _ _) hp

theorem mu_dom (fam : LFam K) (eta : Fin K → ℝ) (k : Fin K) :
    musOf fam eta k ∈ (fam.links k).dom := by
  rw [musOf_eq]; exact Fam.fi_mem _ _

/-- **C20.** Transformation of distribution-parameter derivatives to linear predictors: if the family
reports true first and second derivatives, the transformed lists are the true first, pure second and
mixed second derivatives in the linear predictors. -/
theorem mu_to_eta {fam : LFam K} (hd : fam.dEta = false) {y : ℝ} {eta : Fin K → ℝ}
    (h : MuExact fam y (musOf fam eta)) : EtaExact fam y eta := by
  obtain ⟨g, H, h1, h2, h3, h4⟩ := h
  have hc : ContinuousAt (musOf fam) eta := (musOf_fderiv fam eta).continuousAt
  have hld : ∀ e k, 0 < (fam.links k).d1R (musOf fam e k) := fun e k => Fam.d1_pos (mu_dom fam e k)
  refine ⟨fun e k => g (musOf fam e) k / (fam.links k).d1R (musOf fam e k),
    fun k l => (if k = l then H k k / (fam.links k).d1R (musOf fam eta k) ^ 2 -
      g (musOf fam eta) k * (fam.links k).d2R (musOf fam eta k) /
        (fam.links k).d1R (musOf fam eta k) ^ 3
      else H k l * (1 / (fam.links k).d1R (musOf fam eta k)) *
        (1 / (fam.links l).d1R (musOf fam eta l))), ?_, ?_, ?_, ?_⟩
  · refine (hc.eventually h1).mono fun e he => ⟨?_, fun k => ?_⟩
    · have := HasFDerivAt.comp (g := fam.lp y) e he.1 (musOf_fderiv fam e)
      refine this.congr_fderiv ?_
      ext v
      simp only [ContinuousLinearMap.comp_apply, lin_apply, ContinuousLinearMap.pi_apply,
        _root_.smul_apply, ContinuousLinearMap.proj_apply, smul_eq_mul]
      exact Finset.sum_congr rfl fun k _ => by ring
    · simp only [etaDerivs, hd, Bool.false_eq_true, if_false, List.getElem?_map]
      rw [List.getElem?_eq_getElem (by simp)]
      simp only [List.getElem_finRange, Option.map_some, Option.some.injEq]
      have hk : (Fin.cast (List.length_finRange (n := K)) ⟨k.val, by simp⟩ : Fin K) = k := rfl
      simp only [Fin.cast_mk, Fin.eta]
      unfold d1eta
      rw [he.2 k, Fam.d1_eq (mu_dom fam e k), Fl.fin_div (hld e k).ne', Fl.clean_fin]
  · intro k
    have hproj : HasFDerivAt (fun e => musOf fam e k)
        ((1 / (fam.links k).d1R (musOf fam eta k)) •
          ContinuousLinearMap.proj (R := ℝ) (φ := fun _ : Fin K => ℝ) k) eta :=
      (hasFDerivAt_pi.1 (musOf_fderiv fam eta)) k
    have hl : HasFDerivAt (fun e => (fam.links k).d1R (musOf fam e k)) _ eta :=
      HasDerivAt.comp_hasFDerivAt (h₂ := (fam.links k).d1R) eta
        (Fam.d1R_deriv (mu_dom fam eta k)) hproj
    have hg : HasFDerivAt (fun e => g (musOf fam e) k) _ eta :=
      HasFDerivAt.comp (g := fun m => g m k) eta (h2 k) (musOf_fderiv fam eta)
    have hi : HasFDerivAt (fun e => ((fam.links k).d1R (musOf fam e k))⁻¹) _ eta :=
      HasDerivAt.comp_hasFDerivAt (h₂ := fun x : ℝ => x⁻¹) eta
        (hasDerivAt_inv (hld eta k).ne') hl
    have hq := hg.mul hi
    have e0 : (fun e => g (musOf fam e) k / (fam.links k).d1R (musOf fam e k)) =
        fun e => g (musOf fam e) k * ((fam.links k).d1R (musOf fam e k))⁻¹ := by
      funext e; rw [div_eq_mul_inv]
    rw [e0]
    refine hq.congr_fderiv ?_
    have hne := (hld eta k).ne'
    ext v
    simp only [_root_.add_apply, _root_.smul_apply, ContinuousLinearMap.comp_apply, lin_apply,
      ContinuousLinearMap.pi_apply, ContinuousLinearMap.proj_apply, smul_eq_mul]
    have e1 : ∀ l, (if k = l then H k k / (fam.links k).d1R (musOf fam eta k) ^ 2 -
        g (musOf fam eta) k * (fam.links k).d2R (musOf fam eta k) /
          (fam.links k).d1R (musOf fam eta k) ^ 3
        else H k l * (1 / (fam.links k).d1R (musOf fam eta k)) *
          (1 / (fam.links l).d1R (musOf fam eta l))) * v l =
        ((fam.links k).d1R (musOf fam eta k))⁻¹ *
          (H k l * (1 / (fam.links l).d1R (musOf fam eta l) * v l)) +
        (if k = l then -(g (musOf fam eta) k * (fam.links k).d2R (musOf fam eta k) /
          (fam.links k).d1R (musOf fam eta k) ^ 3) * v k else 0) := by
      intro l
      by_cases hkl : k = l
      · subst hkl
        rw [if_pos rfl, if_pos rfl]
        field_simp
        ring
      · rw [if_neg hkl, if_neg hkl]
        ring
    rw [Finset.sum_congr rfl fun l _ => e1 l, Finset.sum_add_distrib, ← Finset.mul_sum]
    simp only [Finset.sum_ite_eq, Finset.mem_univ, if_true]
    field_simp
    ring
  · intro k
    simp only [etaDerivs, hd, Bool.false_eq_true, if_false, List.getElem?_map]
    rw [List.getElem?_eq_getElem (by simp)]
    simp only [List.getElem_finRange, Option.map_some, Option.some.injEq, Fin.cast_mk, Fin.eta,
      if_true]
    unfold d2eta
    simp only
    rw [h3 k, h1.self_of_nhds.2 k, Fam.d1_eq (mu_dom fam eta k), Fam.d2_eq (mu_dom fam eta k),
      Fl.pow_fin, Fl.pow_fin, Fl.fin_mul, Fl.fin_div (pow_pos (hld eta k) 2).ne',
      Fl.fin_div (pow_pos (hld eta k) 3).ne', Fl.fin_sub, Fl.clean_fin]
  · intro i j hij
    simp only [etaDerivs, hd, Bool.false_eq_true, if_false]
    rw [d2meta_get fam y _ hij, if_neg (ne_of_lt hij)]
    unfold d2em
    rw [h4 i j hij, Fam.d1_eq (mu_dom fam eta i), Fam.d1_eq (mu_dom fam eta j),
      Fl.fin_div (hld eta i).ne', Fl.fin_div (hld eta j).ne', Fl.fin_mul, Fl.fin_mul, Fl.clean_fin]

/-- First-order part: the family's `d1` is the gradient in the distribution parameters at `m`. -/
def MuGrad (fam : LFam K) (y : ℝ) (m : Fin K → ℝ) : Prop :=
  ∃ g : Fin K → ℝ, HasFDerivAt (fam.lp y) (lin g) m ∧ ∀ k, fam.d1 k y m = .fin (g k)

/-- **C20.** First derivatives only (families reporting expected second derivatives). -/
theorem mu_to_eta_grad {fam : LFam K} (hd : fam.dEta = false) {y : ℝ} {eta : Fin K → ℝ}
    (h : MuGrad fam y (musOf fam eta)) : EtaGrad fam y eta := by
  obtain ⟨g, h1, h2⟩ := h
  refine ⟨fun k => g k / (fam.links k).d1R (musOf fam eta k), ?_, fun k => ?_⟩
  · have := HasFDerivAt.comp (g := fam.lp y) eta h1 (musOf_fderiv fam eta)
    refine this.congr_fderiv ?_
    ext v
    simp only [ContinuousLinearMap.comp_apply, lin_apply, ContinuousLinearMap.pi_apply,
      _root_.smul_apply, ContinuousLinearMap.proj_apply, smul_eq_mul]
    exact Finset.sum_congr rfl fun k _ => by ring
  · simp only [etaDerivs, hd, Bool.false_eq_true, if_false, List.getElem?_map]
    rw [List.getElem?_eq_getElem (by simp)]
    simp only [List.getElem_finRange, Option.map_some, Option.some.injEq, Fin.cast_mk, Fin.eta]
    unfold d1eta
    rw [h2 k, Fam.d1_eq (mu_dom fam eta k), Fl.fin_div (Fam.d1_pos (mu_dom fam eta k)).ne',
      Fl.clean_fin]

/-! ### The families of the package -/

theorem fderiv_of_partials {ι : Type} [Fintype ι] [DecidableEq ι] {f : (ι → ℝ) → ℝ} {m : ι → ℝ}
    {g : ι → ℝ} (hf : DifferentiableAt ℝ f m)
    (hp : ∀ k, HasDerivAt (fun t => f (Function.update m k t)) (g k) (m k)) :
    HasFDerivAt f (lin g) m := by
  refine hf.hasFDerivAt.congr_fderiv ?_
  ext v
  rw [lin_apply, ← ContinuousLinearMap.coe_coe, LinearMap.pi_apply_eq_sum_univ]
  refine Finset.sum_congr rfl fun k _ => ?_
  have hu := hasDerivAt_update m k (m k)
  have h2 : HasFDerivAt f (fderiv ℝ f m) (Function.update m k (m k)) := by
    rw [Function.update_eq_self]; exact hf.hasFDerivAt
  have h3 := (h2.comp_hasDerivAt (m k) hu).unique (hp k)
  have e : (fun j => if k = j then (1 : ℝ) else 0) = Pi.single k 1 := by
    funext j
    by_cases h : k = j
    · subst h; simp
    · simp [h]
  rw [smul_eq_mul, mul_comm]
  congr 1
  rw [e, ← h3]
  rfl

theorem diff_div {E : Type} [NormedAddCommGroup E] [NormedSpace ℝ E] {f g : E → ℝ} {x : E}
    (hf : DifferentiableAt ℝ f x) (hg : DifferentiableAt ℝ g x) (h : g x ≠ 0) :
    DifferentiableAt ℝ (fun x => f x / g x) x := by
  simp only [div_eq_mul_inv]
  exact hf.mul (hg.inv h)

/-- `MULNOMLSS` (derivatives in the linear predictors). -/
noncomputable def mnFam (K : ℕ) : LFam K where
  links := fun _ => .log
  dEta := true
  lp := fun y m => Lss.mnLp ⌊y⌋₊ m
  d1 := fun k y m => match Lss.mnD1 ⌊y⌋₊ m k.val with | some d => .fin d | none => .nan
  d2 := fun k _ m => match Lss.mnD2 m k.val with | some d => .fin d | none => .nan
  d2m := fun i _ m => match Lss.mnD2m m i with | some d => .fin d | none => .nan

theorem mn_mus (e : Fin K → ℝ) : musOf (mnFam K) e = Lss.muOf e := by
  funext k
  rw [musOf_eq]
  rfl

theorem mn_norm_diff (e : Fin K → ℝ) :
    DifferentiableAt ℝ (fun e => Lss.norm (Lss.muOf e)) e := by
  unfold Lss.norm Lss.muOf
  fun_prop

/-- **C20.** The multinomial family: first and second derivative lists are exact, for every number
of classes, class label and linear predictor. -/
theorem mn_exact (y : ℝ) (eta : Fin K → ℝ) : EtaExact (mnFam K) y eta := by
  have hn : ∀ e : Fin K → ℝ, Lss.norm (Lss.muOf e) ≠ 0 := fun e => (Lss.norm_pos (Lss.muOf_pos e)).ne'
  have hd : ∀ e : Fin K → ℝ, ∀ k : Fin K,
      (etaDerivs (mnFam K) y (musOf (mnFam K) e)).1[k.val]? =
        some (.fin (-(Lss.muOf e k / Lss.norm (Lss.muOf e)) + if ⌊y⌋₊ = k.val + 1 then 1 else 0)) := by
    intro e k
    have : (mnFam K).dEta = true := rfl
    simp only [etaDerivs, this, if_true, List.getElem?_map]
    rw [List.getElem?_eq_getElem (by simp)]
    simp only [List.getElem_finRange, Option.map_some, Option.some.injEq, Fin.cast_mk, Fin.eta, mn_mus]
    simp [mnFam, Lss.mnD1]
  refine ⟨fun e k => -(Lss.muOf e k / Lss.norm (Lss.muOf e)) + if ⌊y⌋₊ = k.val + 1 then 1 else 0,
    fun k l => if k = l then -(Lss.muOf eta k / Lss.norm (Lss.muOf eta)) +
      Lss.muOf eta k ^ 2 / Lss.norm (Lss.muOf eta) ^ 2 else
      (Lss.muOf eta k * Lss.muOf eta l) / Lss.norm (Lss.muOf eta) ^ 2, ?_, ?_, ?_, ?_⟩
  · refine Eventually.of_forall fun e => ⟨fderiv_of_partials ?_ fun k => ?_, hd e⟩
    · have hf : lpEta (mnFam K) y = fun e => -Real.log (Lss.norm (Lss.muOf e)) +
          ∑ pi : Fin K, if ⌊y⌋₊ = pi.val + 1 then e pi else 0 := by
        funext e
        simp only [lpEta, mn_mus]
        simp only [mnFam, Lss.mnLp, Lss.muOf, Real.log_exp]
      rw [hf]
      refine ((mn_norm_diff e).log (hn e)).neg.add ?_
      refine DifferentiableAt.fun_sum fun i _ => ?_
      split_ifs
      · fun_prop
      · fun_prop
    · obtain ⟨d, h1, h2⟩ := Lss.mn_first ⌊y⌋₊ e k
      have e1 : d = -(Lss.muOf e k / Lss.norm (Lss.muOf e)) + if ⌊y⌋₊ = k.val + 1 then 1 else 0 := by
        simp [Lss.mnD1] at h1
        exact h1.symm
      refine HasDerivAt.congr_deriv ?_ e1
      have e2 : (fun t => lpEta (mnFam K) y (Function.update e k t)) =
          fun t => Lss.mnLp ⌊y⌋₊ (Lss.muOf (Function.update e k t)) := by
        funext t; simp only [lpEta, mn_mus]; rfl
      rw [e2]; exact h2
  · intro k
    refine fderiv_of_partials ?_ fun l => ?_
    · refine DifferentiableAt.add_const _ (DifferentiableAt.neg ?_)
      refine diff_div ?_ (mn_norm_diff eta) (hn eta)
      unfold Lss.muOf; fun_prop
    · have hm : HasDerivAt (fun t => Lss.muOf (Function.update eta l t) k)
          (if k = l then Lss.muOf eta k else 0) (eta l) := by
        by_cases hkl : k = l
        · subst hkl; simp only [Lss.mu_upd, if_true]; exact Real.hasDerivAt_exp _
        · simp only [Lss.mu_upd, hkl, if_false]; exact hasDerivAt_const _ _
      have h := (hm.div (Lss.norm_upd eta l) (by rw [Lss.upd_self]; exact hn eta)).neg.add_const
        (if ⌊y⌋₊ = k.val + 1 then (1 : ℝ) else 0)
      refine h.congr_deriv ?_
      rw [Lss.upd_self]
      have := hn eta
      by_cases hkl : k = l
      · subst hkl
        simp only [if_true]
        field_simp
        ring
      · simp only [if_neg hkl]
        field_simp
        ring
  · intro k
    have : (mnFam K).dEta = true := rfl
    simp only [etaDerivs, this, if_true, List.getElem?_map]
    rw [List.getElem?_eq_getElem (by simp)]
    simp only [List.getElem_finRange, Option.map_some, Option.some.injEq, Fin.cast_mk, Fin.eta, mn_mus]
    simp [mnFam, Lss.mnD2]
  · intro i j hij
    have : (mnFam K).dEta = true := rfl
    simp only [etaDerivs, this, if_true, List.getElem?_map]
    rw [List.getElem?_range (posn_lt hij j.isLt)]
    simp only [Option.map_some, Option.some.injEq, mn_mus]
    have hp := dpairs_posn (K := K) (i := i) (j := j) hij j.isLt
    simp only [mnFam, Lss.mnD2m, hp, dif_pos (show (i : ℕ) < K ∧ (j : ℕ) < K from ⟨i.isLt, j.isLt⟩),
      Fin.eta, if_neg (ne_of_lt hij)]

/-- `GAUMLSS` with arbitrary links. -/
noncomputable def gauFam (links : Fin 2 → Fam.LinkKind) : LFam 2 where
  links := links
  dEta := false
  lp := fun y m => Lss.gauLp y (m 0) (m 1)
  d1 := fun k y m => .fin (if k = 0 then Lss.gauD1mu y (m 0) (m 1) else Lss.gauD1sigma y (m 0) (m 1))
  d2 := fun k y m => .fin (if k = 0 then Lss.gauD2mu y (m 0) (m 1) else Lss.gauD2sigma y (m 0) (m 1))
  d2m := fun _ y m => .fin (Lss.gauD2m y (m 0) (m 1))

/-- `GAMMALS` with arbitrary links. -/
noncomputable def gamFam (links : Fin 2 → Fam.LinkKind) : LFam 2 where
  links := links
  dEta := false
  lp := fun y m => Lss.gamLp y (m 0) (m 1)
  d1 := fun k y m => .fin (if k = 0 then Lss.gamD1mu y (m 0) (m 1) else Lss.gamD1scale y (m 0) (m 1))
  d2 := fun k y m => .fin (if k = 0 then Lss.gamD2mu y (m 0) (m 1) else Lss.gamD2scale y (m 0) (m 1))
  d2m := fun _ y m => .fin (Lss.gamD2m y (m 0) (m 1))

/-- **C20.** Gaussian location-scale family: first derivatives in the linear predictors are exact
for every choice of links, as long as the standard deviation is positive. -/
theorem gau_grad (links : Fin 2 → Fam.LinkKind) (y : ℝ) (eta : Fin 2 → ℝ)
    (hs : 0 < musOf (gauFam links) eta 1) : EtaGrad (gauFam links) y eta := by
  refine mu_to_eta_grad rfl ⟨fun k => if k = 0 then
    Lss.gauD1mu y (musOf (gauFam links) eta 0) (musOf (gauFam links) eta 1) else
    Lss.gauD1sigma y (musOf (gauFam links) eta 0) (musOf (gauFam links) eta 1), ?_, fun k => rfl⟩
  set m := musOf (gauFam links) eta
  obtain ⟨_, h0, h1⟩ := Lss.gau_first hs y (m 0)
  refine fderiv_of_partials ?_ fun k => ?_
  · have hf : (gauFam links).lp y =ᶠ[𝓝 m] fun m => -Real.log (Real.sqrt (2 * Real.pi))
        - Real.log (m 1) - (y - m 0) ^ 2 / (2 * m 1 ^ 2) := by
      have : ∀ᶠ m' : Fin 2 → ℝ in 𝓝 m, 0 < m' 1 :=
        (continuous_apply 1).continuousAt.eventually (isOpen_Ioi.mem_nhds hs)
      filter_upwards [this] with m' hm'
      exact Lss.gauLp_eq hm' y (m' 0)
    refine DifferentiableAt.congr_of_eventuallyEq ?_ hf
    have hd : DifferentiableAt ℝ (fun m : Fin 2 → ℝ => (y - m 0) ^ 2 / (2 * m 1 ^ 2)) m := by
      refine diff_div (by fun_prop) (by fun_prop) (by positivity)
    have hl : DifferentiableAt ℝ (fun m : Fin 2 → ℝ => Real.log (m 1)) m :=
      DifferentiableAt.log (by fun_prop) hs.ne'
    exact (hl.const_sub _).sub hd
  · fin_cases k
    · simpa [gauFam] using h0
    · simpa [gauFam] using h1

/-- **C20.** Gamma location-scale family. -/
theorem gam_grad (links : Fin 2 → Fam.LinkKind) {y : ℝ} (hy : 0 < y) (eta : Fin 2 → ℝ)
    (hm : 0 < musOf (gamFam links) eta 0) (hs : 0 < musOf (gamFam links) eta 1) :
    EtaGrad (gamFam links) y eta := by
  refine mu_to_eta_grad rfl ⟨fun k => if k = 0 then
    Lss.gamD1mu y (musOf (gamFam links) eta 0) (musOf (gamFam links) eta 1) else
    Lss.gamD1scale y (musOf (gamFam links) eta 0) (musOf (gamFam links) eta 1), ?_, fun k => rfl⟩
  set m := musOf (gamFam links) eta
  obtain ⟨_, h0, h1⟩ := Lss.gam_first hs hm hy
  refine fderiv_of_partials ?_ fun k => ?_
  · have hf : (gamFam links).lp y =ᶠ[𝓝 m] fun m => (1 / m 1) * Real.log (1 / m 1)
        - gammaln (1 / m 1) + (1 / m 1 - 1) * Real.log y - (1 / m 1) * Real.log (m 0)
        - (1 / m 1) * (y / m 0) := by
      have e0 : ∀ᶠ m' : Fin 2 → ℝ in 𝓝 m, 0 < m' 0 :=
        (continuous_apply 0).continuousAt.eventually (isOpen_Ioi.mem_nhds hm)
      have e1 : ∀ᶠ m' : Fin 2 → ℝ in 𝓝 m, 0 < m' 1 :=
        (continuous_apply 1).continuousAt.eventually (isOpen_Ioi.mem_nhds hs)
      filter_upwards [e0, e1] with m' h0' h1'
      exact Lss.gamLp_eq h1' h0' hy
    refine DifferentiableAt.congr_of_eventuallyEq ?_ hf
    have p0 : DifferentiableAt ℝ (fun m : Fin 2 → ℝ => m 0) m := by fun_prop
    have p1 : DifferentiableAt ℝ (fun m : Fin 2 → ℝ => m 1) m := by fun_prop
    have pi : DifferentiableAt ℝ (fun m : Fin 2 → ℝ => 1 / m 1) m :=
      diff_div (by fun_prop) p1 hs.ne'
    have pl : DifferentiableAt ℝ (fun m : Fin 2 → ℝ => Real.log (1 / m 1)) m :=
      pi.log (one_div_pos.2 hs).ne'
    have pg : DifferentiableAt ℝ (fun m : Fin 2 → ℝ => gammaln (1 / m 1)) m :=
      DifferentiableAt.comp (g := gammaln) m (gammaln_hasDeriv (one_div_pos.2 hs)).differentiableAt pi
    have pl0 : DifferentiableAt ℝ (fun m : Fin 2 → ℝ => Real.log (m 0)) m := p0.log hm.ne'
    have pq : DifferentiableAt ℝ (fun m : Fin 2 → ℝ => y / m 0) m :=
      diff_div (by fun_prop) p0 hm.ne'
    exact ((((pi.mul pl).sub pg).add ((pi.sub_const 1).mul_const _)).sub (pi.mul pl0)).sub (pi.mul pq)
  · fin_cases k
    · simpa [gamFam] using h0
    · simpa [gamFam] using h1

/-! ### The shape of the Hessian -/

/-- **C20** (violated part). The triplets are turned into a matrix without passing the shape, so the
number of rows is one more than the largest stored row: when the last coefficient has no non-zero
second derivative the Hessian comes out too small. Witness: one predictor with a column of zeros at
the end. -/
theorem hessian_shape_wrong :
    ∃ (w : ℕ → ℕ) (X : ℕ → Fin 1 → ℕ → ℝ) (d2 : List (Fin 1 → ℝ)) (stored : ℕ → ℕ → ℕ → List ℕ),
      AllStored w X d2 [] stored 1 ∧ off w 1 = 2 ∧
        inferShape (hessTrip 1 w X d2 [] stored) = some (1, 1) := by
  refine ⟨fun _ => 2, fun _ _ c => if c = 0 then 1 else 0, [fun _ => -1],
    fun _ _ c => if c = 0 then [0] else [], ?_, by simp [off], ?_⟩
  · intro i j hij hj c hc
    have hi : i = 0 := by omega
    have hj0 : j = 0 := by omega
    subst hi; subst hj0
    simp only [if_true]
    by_cases hc0 : c = 0
    · subst hc0
      refine ⟨by simp, by simp, fun x hx hne => ?_⟩
      by_cases hx0 : x = 0
      · simp [hx0]
      · simp [hx0] at hne
    · refine ⟨by simp [hc0], by simp [hc0], fun x hx hne => ?_⟩
      simp [hc0] at hne
  · rw [hessTrip_eq]
    simp [blk, blockTrip, List.range_succ, off, inferShape, D]

theorem foldr_max_le {l : List ℕ} {m : ℕ} (h : ∀ x ∈ l, x ≤ m) : l.foldr max 0 ≤ m := by
  induction l with
  | nil => simp
  | cons a l ih =>
    simp only [List.foldr_cons]
    exact max_le (h a (List.mem_cons_self)) (ih fun x hx => h x (List.mem_cons_of_mem _ hx))

theorem le_foldr_max {l : List ℕ} {x : ℕ} (h : x ∈ l) : x ≤ l.foldr max 0 := by
  induction l with
  | nil => simp at h
  | cons a l ih =>
    simp only [List.foldr_cons]
    rcases List.mem_cons.1 h with rfl | h'
    · exact le_max_left _ _
    · exact (ih h').trans (le_max_right _ _)

/-- **C20.** The shape is right as soon as the last coefficient's own second derivative is not
zero. -/
theorem hessian_shape_partial {w : ℕ → ℕ} {X : ℕ → Fin n → ℕ → ℝ} {d2e d2m : List (Fin n → ℝ)}
    {stored : ℕ → ℕ → ℕ → List ℕ} (hS : AllStored w X d2e d2m stored K)
    (hpos : 0 < off w K)
    (hne : entry (hessTrip K w X d2e d2m stored) (off w K - 1) (off w K - 1) ≠ 0) :
    inferShape (hessTrip K w X d2e d2m stored) = some (off w K, off w K) := by
  obtain ⟨t, ht, h1, h2⟩ : ∃ t ∈ hessTrip K w X d2e d2m stored, t.1 = off w K - 1 ∧
      t.2.1 = off w K - 1 := by
    by_contra hcon
    push Not at hcon
    exact hne (entry_zero fun t ht h => hcon t ht h.1 h.2)
  unfold inferShape
  rw [if_neg (List.ne_nil_of_mem ht)]
  have r1 : ((hessTrip K w X d2e d2m stored).map fun t => t.1).foldr max 0 = off w K - 1 := by
    refine le_antisymm (foldr_max_le fun x hx => ?_) ?_
    · obtain ⟨t', ht', rfl⟩ := List.mem_map.1 hx
      have := (hess_range hS ht').1
      omega
    · exact le_foldr_max (List.mem_map.2 ⟨t, ht, h1⟩)
  have r2 : ((hessTrip K w X d2e d2m stored).map fun t => t.2.1).foldr max 0 = off w K - 1 := by
    refine le_antisymm (foldr_max_le fun x hx => ?_) ?_
    · obtain ⟨t', ht', rfl⟩ := List.mem_map.1 hx
      have := (hess_range hS ht').2
      omega
    · exact le_foldr_max (List.mem_map.2 ⟨t, ht, h2⟩)
  rw [r1, r2]
  have : off w K - 1 + 1 = off w K := by omega
  rw [this]

/-- A full pattern (every column stored) meets the storage assumption, so the theorems above apply
to any data: two predictors, three observations. -/
example (w : ℕ → ℕ) (X : ℕ → Fin 3 → ℕ → ℝ) (d2e d2m : List (Fin 3 → ℝ)) :
    AllStored w X d2e d2m
      (fun i j c => List.range (if i = j then w j - c else w j)) 2 := by
  intro i j hij hj c hc
  by_cases h : i = j
  · subst h
    simp only [if_true]
    exact ⟨List.pairwise_lt_range, fun x hx => by rw [List.mem_range] at hx; omega,
      fun x hx _ => by rw [List.mem_range]; omega⟩
  · simp only [if_neg h]
    exact ⟨List.pairwise_lt_range, fun x hx => by rw [List.mem_range] at hx; omega,
      fun x hx _ => by rw [List.mem_range]; omega⟩

/-- The default links of `GAUMLSS` give a positive standard deviation for every predictor when the
scale link is `log`. -/
example (e : Fin 2 → ℝ) : 0 < musOf (gauFam ![.identity, .log]) e 1 := by
  rw [musOf_eq]
  exact Real.exp_pos _

end Verif.EtaBeta
