import Verif.Iface
import Verif.LmlEx

/-!
# Cases for C136
-/

namespace Verif.Ifc
open Verif Matrix Lml Fam

/-! ### An observation in each of two classes, intercept only -/

/-- Logistic regression with the data of `Lml.mn2`. -/
noncomputable def lg : Pirls.In 2 (wOne 0) := ⟨fun _ => .binomial 1, .logit, fun o => o.val, fun _ _ => 1, 0, 0⟩

theorem lg_binary : Binary (w := wOne) lg (fun _ _ _ => 1) 0 where
  fam _ := rfl
  lk := rfl
  off _ := rfl
  obs i := by fin_cases i <;> simp [lg]
  mat _ _ := rfl
  pen _ _ := rfl
  psd := PosSemidef.zero

theorem ident_ones {N : ℕ} (hN : 0 < N) {x : Pirls.In N (wOne 0)} (hX : ∀ i j, x.X i j = 1) : Pirls.Ident x := by
  intro v h _
  have h0 := h ⟨0, hN⟩
  funext a
  obtain rfl : a = ⟨0, by decide⟩ := Subsingleton.elim (α := Fin 1) a _
  have e : ∑ j : Fin (wOne 0), x.X ⟨0, hN⟩ j * v j = v ⟨0, by decide⟩ := by
    show ∑ j : Fin 1, x.X ⟨0, hN⟩ j * v j = v (0 : Fin 1)
    rw [Fin.sum_univ_one]
    exact (congrArg (· * v (0 : Fin 1)) (hX ⟨0, hN⟩ (0 : Fin 1))).trans (one_mul _)
  rw [← e, h0]
  rfl

theorem lg_fits : Fits (EtaBeta.mnFam 1) wOne (fun _ _ _ => 1) lg.y (fullPat wOne) 0 Ridge.cholC (fun _ _ => 0) 0 :=
  ⟨Ridge.cholC_spec, fullPat_holds _ _ _ _, isSymm_zero, mn2_diag⟩

/-- Equal probabilities. -/
example : Pirls.next lg (first 0 wOne 0) = first 0 wOne 0 :=
  (binary lg_binary (ident_ones two_pos fun _ _ => rfl) 0 lg_fits).2
    ((fixed_iff_stationary ⟨mn2_smooth.chol, mn2_smooth.hsym 0, mn2_smooth.ssym, mn2_diag⟩ mn2_smooth.grad).2 mn2_stationary)

example {b : Fin (wOne 0) → ℝ} (hb : Pirls.next lg b = b) (a : Fin (wOne 0)) : b a = 0 :=
  (binary_same lg_binary (ident_ones two_pos fun _ _ => rfl) lg_fits hb
    ((fixed_iff_stationary ⟨mn2_smooth.chol, mn2_smooth.hsym 0, mn2_smooth.ssym, mn2_diag⟩ mn2_smooth.grad).2 mn2_stationary) a).symm

/-! ### Second derivatives with respect to one predictor -/

theorem P2_diag {K : ℕ} {fam : EtaBeta.LFam K} (hd : fam.dEta = false) {y : ℝ} {e : Fin K → ℝ} {k : Fin K} {g H : ℝ}
    (h1 : fam.d1 k y (EtaBeta.musOf fam e) = .fin g) (h2 : fam.d2 k y (EtaBeta.musOf fam e) = .fin H) :
    Invar.P2s fam y e k k = H / (fam.links k).d1R (EtaBeta.musOf fam e k) ^ 2 -
      g * (fam.links k).d2R (EtaBeta.musOf fam e k) / (fam.links k).d1R (EtaBeta.musOf fam e k) ^ 3 := by
  have hp := d1_pos (EtaBeta.mu_dom fam e k)
  unfold Invar.P2s Invar.P2
  rw [if_pos le_rfl, if_pos rfl]
  simp only [EtaBeta.etaDerivs, hd, Bool.false_eq_true, if_false]
  rw [List.getD_eq_getElem?_getD, List.getElem?_eq_getElem (by simp)]
  simp only [List.getElem_map, List.getElem_finRange, Fin.cast_mk, Fin.eta, Option.getD_some]
  unfold EtaBeta.d2eta
  dsimp only
  rw [h1, h2, d1_eq (EtaBeta.mu_dom fam e k), d2_eq (EtaBeta.mu_dom fam e k), Fl.pow_fin, Fl.pow_fin, Fl.fin_div (pow_pos hp 2).ne', Fl.fin_mul,
    Fl.fin_div (pow_pos hp 3).ne', Fl.fin_sub, Fl.clean_fin]
  rfl

theorem diag_of {N : ℕ} {fam : EtaBeta.LFam 2} {y : Fin N → ℝ}
    (h : ∀ k : Fin 2, ∑ o, Invar.P2s fam (y o) (fun _ => 0) k k ≠ 0) (i : Fin (∑ l ∈ Finset.range 2, wOne l)) :
    -(lssIn fam wOne (fun _ _ _ => 1) y (fullPat wOne) 0 Ridge.cholC fun _ _ => 0).hess 0 i i +
      (0 : Matrix (Fin (∑ l ∈ Finset.range 2, wOne l)) (Fin (∑ l ∈ Finset.range 2, wOne l)) ℝ) i i ≠ 0 := by
  obtain ⟨q, rfl⟩ := at_bij.2 i
  have e : ∀ o : Fin N, EtaBeta.etaOf (K := 2) wOne (fun _ (_ : Fin N) _ => (1 : ℝ)) (blk wOne 0) o = fun _ => 0 := fun o => by
    funext k
    simp [EtaBeta.etaOf, blk]
  have H := Invar.hess_at (fullPat_holds fam wOne (fun _ (_ : Fin N) _ => (1 : ℝ)) y) (blk wOne 0) q q
  simp only [e, mul_one] at H
  rw [show (lssIn fam wOne (fun _ _ _ => 1) y (fullPat wOne) 0 Ridge.cholC fun _ _ => 0).hess 0 (at' wOne q) (at' wOne q) = _ from H,
    Matrix.zero_apply, add_zero, neg_ne_zero]
  exact h q.1

/-! ### Gaussian observations −1 and 1: mean 0, standard deviation 1 -/

noncomputable def ga : Pirls.In 2 (wOne 0) := ⟨fun _ => .gaussian, .identity, ![-1, 1], fun _ _ => 1, 0, 0⟩

theorem icpt_zero : icpt wOne rfl 0 = 0 := rfl

theorem ga_const (phi : ℝ) : Const (w := wOne) .gaussian ga (fun _ _ _ => 1) 0 phi where
  fam _ := rfl
  two := rfl
  obs _ := trivial
  off _ := rfl
  mat _ _ := rfl
  pen _ _ := by simp [ga]
  psd := PosSemidef.zero
  one := rfl
  ones _ := rfl
  free _ _ := rfl

theorem ga_fits : Fits (EtaBeta.gauFam ![ga.lk, .log]) wOne (fun _ _ _ => 1) ga.y (fullPat wOne) 0 Ridge.cholC (fun _ _ => 0) 0 := by
  refine ⟨Ridge.cholC_spec, fullPat_holds _ _ _ _, isSymm_zero, diag_of fun k => ?_⟩
  simp only [P2_diag (fam := EtaBeta.gauFam ![ga.lk, .log]) rfl rfl rfl, EtaBeta.musOf_eq, Fin.sum_univ_two]
  fin_cases k <;>
    norm_num [ga, EtaBeta.gauFam, LinkKind.fiR, LinkKind.d1R, LinkKind.d2R, Lss.gauD1mu, Lss.gauD2mu, Lss.gauD1sigma, Lss.gauD2sigma]

theorem ga_next : Pirls.next ga (first 1 wOne 0) = first 1 wOne 0 := by
  rw [next_iff ((ga_const 1).good one_pos) (ident_ones two_pos fun _ _ => rfl) (Pirls.adm_of fun i => trivial)]
  intro a
  simp [Fin.sum_univ_two, Pirls.uR, Pirls.uF, ga, Pirls.eta, first, LinkKind.fiR, LinkKind.d1R, FamKind.VR, Matrix.mulVec, dotProduct]

theorem ga_step : step (lssIn (EtaBeta.gauFam ![ga.lk, .log]) wOne (fun _ _ _ => 1) ga.y (fullPat wOne) 0 Ridge.cholC fun _ _ => 0) 0 = 0 := by
  refine (gaussian_constant (l := .log) rfl 0 (Real.exp_pos _) (ga_const _) (ident_ones two_pos fun _ _ => rfl) ga_fits).2 ⟨ga_next, ?_⟩
  simp [Fin.sum_univ_two, icpt_zero, ga, Pirls.eta, first, LinkKind.fiR, Matrix.mulVec, dotProduct]
  norm_num

/-! ### A Gamma observation -/

noncomputable def gm (y : ℝ) : Pirls.In 1 (wOne 0) := ⟨fun _ => .gamma, .log, fun _ => y, fun _ _ => 1, 0, 0⟩

theorem gm_const {y : ℝ} (hy : 0 < y) (phi : ℝ) : Const (w := wOne) .gamma (gm y) (fun _ _ _ => 1) 0 phi where
  fam _ := rfl
  two := rfl
  obs _ := hy
  off _ := rfl
  mat _ _ := rfl
  pen _ _ := by simp [gm]
  psd := PosSemidef.zero
  one := rfl
  ones _ := rfl
  free _ _ := rfl

theorem gm_fits : ∃ y : ℝ, 0 < y ∧ Fits (EtaBeta.gamFam ![(gm y).lk, .log]) wOne (fun _ _ _ => 1) (gm y).y (fullPat wOne) 0 Ridge.cholC
    (fun _ _ => 0) 0 := by
  have key : ∀ y : ℝ, 0 < y → y ≠ 2 → 1 - trigamma 1 + (y - Real.log y - 1 + digamma 1) ≠ 0 →
      Fits (EtaBeta.gamFam ![(gm y).lk, .log]) wOne (fun _ _ _ => 1) (gm y).y (fullPat wOne) 0 Ridge.cholC (fun _ _ => 0) 0 := by
    intro y hy hy2 h
    refine ⟨Ridge.cholC_spec, fullPat_holds _ _ _ _, isSymm_zero, diag_of fun k => ?_⟩
    simp only [P2_diag (fam := EtaBeta.gamFam ![(gm y).lk, .log]) rfl rfl rfl, EtaBeta.musOf_eq, Fin.sum_univ_one]
    fin_cases k
    · simp [gm, EtaBeta.gamFam, LinkKind.fiR, LinkKind.d1R, LinkKind.d2R, Lss.gamD1mu, Lss.gamD2mu]
      exact fun h0 => hy2 (by linarith)
    · refine fun h0 => h ?_
      simp [gm, EtaBeta.gamFam, LinkKind.fiR, LinkKind.d1R, LinkKind.d2R, Lss.gamD1scale, Lss.gamD2scale] at h0
      linarith
  by_cases h : 1 - trigamma 1 + ((1 : ℝ) - Real.log 1 - 1 + digamma 1) = 0
  · refine ⟨4, by norm_num, key 4 (by norm_num) (by norm_num) fun h2 => ?_⟩
    rw [show (4 : ℝ) = 2 ^ 2 by norm_num, Real.log_pow] at h2
    rw [Real.log_one] at h
    have := Real.log_two_lt_d9
    norm_num at h2
    linarith
  · exact ⟨1, one_pos, key 1 one_pos (by norm_num) h⟩

example : ∃ y : ℝ, 0 < y ∧ (step (lssIn (EtaBeta.gamFam ![(gm y).lk, .log]) wOne (fun _ _ _ => 1) (gm y).y (fullPat wOne) 0 Ridge.cholC
      fun _ _ => 0) 0 = 0 ↔ Pirls.next (gm y) (first 1 wOne 0) = first 1 wOne 0 ∧
        HasDerivAt (fun t => ∑ o, Lss.gamLp ((gm y).y o) ((gm y).lk.fiR (Pirls.eta (gm y) (first 1 wOne 0) o)) t) 0
          (LinkKind.log.fiR (icpt wOne rfl 0))) := by
  obtain ⟨y, hy, hf⟩ := gm_fits
  exact ⟨y, hy, gamma_constant (l := .log) rfl 0 (Real.exp_pos _) (gm_const hy _) (ident_ones one_pos fun _ _ => rfl)
    (Pirls.adm_total (x := gm y) (fun _ => trivial) _) hf⟩

example : ∑ o : Fin 2, Lss.gauLp (![-1, 1] o) 0 (Real.exp (-0)) < MGauss.llk (of fun (o : Fin 2) (_ : Fin 1) => ![-1, 1] o - 0) fun _ => 0 :=
  multigauss_wrong two_pos _ (fun _ => 0) fun _ => 0

end Verif.Ifc
