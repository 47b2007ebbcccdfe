import Verif.Fit
import Mathlib.LinearAlgebra.Matrix.PosDef
import Mathlib.Algebra.BigOperators.Field
import Mathlib.Analysis.Matrix.Order
import Mathlib.Algebra.Order.Star.Real

/-!
# The log-likelihood reported for Gaussian models (property C90)
-/

namespace Verif.Fit

open Matrix Finset

section Core

variable {n p : ℕ} {X : Matrix (Fin n) (Fin p) ℝ} {y : Fin n → ℝ} {S : Matrix (Fin p) (Fin p) ℝ} {β : Fin p → ℝ}

theorem gauss_dot (r : Fin n → ℝ) (φ : ℝ) : Ar1.gaussLlk r φ = n * (-(1 / 2) * Real.log (2 * Real.pi * φ)) - (r ⬝ᵥ r) / (2 * φ) := by
  unfold Ar1.gaussLlk
  rw [sum_sub_distrib, sum_const, card_univ, Fintype.card_fin, nsmul_eq_mul, ← sum_div]
  congr 2
  exact sum_congr rfl fun i _ => by ring

/-- Sum of squares at another point. -/
theorem rss_shift (hS : Sᵀ = S) (hβ : (Xᵀ * X + S) *ᵥ β = Xᵀ *ᵥ y) (d : Fin p → ℝ) :
    (y - X *ᵥ (β + d)) ⬝ᵥ (y - X *ᵥ (β + d))
      = (y - X *ᵥ β) ⬝ᵥ (y - X *ᵥ β) - 2 * (d ⬝ᵥ (S *ᵥ β)) + (X *ᵥ d) ⬝ᵥ (X *ᵥ d) := by
  have hn : Xᵀ *ᵥ (y - X *ᵥ β) = S *ᵥ β := by
    rw [Matrix.add_mulVec] at hβ
    rw [Matrix.mulVec_sub, ← hβ, Matrix.mulVec_mulVec]
    abel
  have hc : (X *ᵥ d) ⬝ᵥ (y - X *ᵥ β) = d ⬝ᵥ (S *ᵥ β) := by
    rw [← hn, Matrix.dotProduct_mulVec, Matrix.vecMul_transpose]
  have hc' : (y - X *ᵥ β) ⬝ᵥ (X *ᵥ d) = d ⬝ᵥ (S *ᵥ β) := by rw [dotProduct_comm, hc]
  have he : y - X *ᵥ (β + d) = (y - X *ᵥ β) - X *ᵥ d := by rw [Matrix.mulVec_add]; abel
  obtain ⟨r, hr⟩ : ∃ r, r = y - X *ᵥ β := ⟨_, rfl⟩
  rw [he]
  rw [← hr] at hc hc' ⊢
  rw [sub_dotProduct, dotProduct_sub, dotProduct_sub, hc, hc']
  ring

theorem pen_shift (hS : Sᵀ = S) (d : Fin p → ℝ) :
    (β + d) ⬝ᵥ (S *ᵥ (β + d)) = β ⬝ᵥ (S *ᵥ β) + 2 * (d ⬝ᵥ (S *ᵥ β)) + d ⬝ᵥ (S *ᵥ d) := by
  have : β ⬝ᵥ (S *ᵥ d) = d ⬝ᵥ (S *ᵥ β) := by
    rw [Matrix.dotProduct_mulVec, ← Matrix.mulVec_transpose, hS, dotProduct_comm]
  rw [Matrix.mulVec_add, add_dotProduct, dotProduct_add, dotProduct_add, this]
  ring

theorem crit_shift (hS : Sᵀ = S) (hβ : (Xᵀ * X + S) *ᵥ β = Xᵀ *ᵥ y) (φ κ : ℝ) (d : Fin p → ℝ) :
    Ar1.gaussLlk (y - X *ᵥ (β + d)) φ - 1 / 2 * (κ * ((β + d) ⬝ᵥ (S *ᵥ (β + d))))
      = Ar1.gaussLlk (y - X *ᵥ β) φ - 1 / 2 * (κ * (β ⬝ᵥ (S *ᵥ β))) + (1 / φ - κ) * (d ⬝ᵥ (S *ᵥ β))
        - ((X *ᵥ d) ⬝ᵥ (X *ᵥ d) / (2 * φ) + κ / 2 * (d ⬝ᵥ (S *ᵥ d))) := by
  rw [gauss_dot, gauss_dot, rss_shift hS hβ, pen_shift hS]
  by_cases h : φ = 0
  · subst h; simp; ring
  · field_simp
    ring

theorem crit_max (hS : S.PosSemidef) (hβ : (Xᵀ * X + S) *ᵥ β = Xᵀ *ᵥ y) {φ : ℝ} (hφ : 0 < φ) (b : Fin p → ℝ) :
    Ar1.gaussLlk (y - X *ᵥ b) φ - 1 / 2 * (1 / φ * (b ⬝ᵥ (S *ᵥ b)))
      ≤ Ar1.gaussLlk (y - X *ᵥ β) φ - 1 / 2 * (1 / φ * (β ⬝ᵥ (S *ᵥ β))) := by
  have ht : Sᵀ = S := by have := hS.isHermitian; rwa [Matrix.IsHermitian, Matrix.conjTranspose_eq_transpose_of_trivial] at this
  have h := crit_shift ht hβ φ (1 / φ) (b - β)
  rw [add_sub_cancel] at h
  rw [h, sub_self, zero_mul, add_zero]
  have h1 : 0 ≤ (X *ᵥ (b - β)) ⬝ᵥ (X *ᵥ (b - β)) := by
    exact sum_nonneg fun i _ => mul_self_nonneg _
  have h2 : 0 ≤ (b - β) ⬝ᵥ (S *ᵥ (b - β)) := by
    have := hS.dotProduct_mulVec_nonneg (b - β)
    simpa using this
  have : 0 ≤ (X *ᵥ (b - β)) ⬝ᵥ (X *ᵥ (b - β)) / (2 * φ) + 1 / φ / 2 * ((b - β) ⬝ᵥ (S *ᵥ (b - β))) := by positivity
  linarith

/-- With another multiplier the estimate is no maximum. -/
theorem crit_not_max (hS : S.PosSemidef) (hβ : (Xᵀ * X + S) *ᵥ β = Xᵀ *ᵥ y) {φ : ℝ} (hφ : 0 < φ) (hφ1 : φ ≠ 1) (h0 : S *ᵥ β ≠ 0) :
    ∃ b, Ar1.gaussLlk (y - X *ᵥ β) φ - 1 / 2 * (β ⬝ᵥ (S *ᵥ β)) < Ar1.gaussLlk (y - X *ᵥ b) φ - 1 / 2 * (b ⬝ᵥ (S *ᵥ b)) := by
  have ht : Sᵀ = S := by have := hS.isHermitian; rwa [Matrix.IsHermitian, Matrix.conjTranspose_eq_transpose_of_trivial] at this
  obtain ⟨g, hg⟩ : ∃ g, g = (1 / φ - 1) • (S *ᵥ β) := ⟨_, rfl⟩
  have hc : 1 / φ - 1 ≠ 0 := by
    intro h
    apply hφ1
    field_simp at h
    linarith
  have hss : 0 < (S *ᵥ β) ⬝ᵥ (S *ᵥ β) := by
    have h1 : 0 ≤ (S *ᵥ β) ⬝ᵥ (S *ᵥ β) := sum_nonneg fun i _ => mul_self_nonneg _
    rcases h1.lt_or_eq with h | h
    · exact h
    · exact absurd (dotProduct_self_eq_zero.1 h.symm) h0
  obtain ⟨l, hl⟩ : ∃ l, l = (1 / φ - 1) ^ 2 * ((S *ᵥ β) ⬝ᵥ (S *ᵥ β)) := ⟨_, rfl⟩
  have hl0 : 0 < l := by rw [hl]; positivity
  obtain ⟨C, hC⟩ : ∃ C, C = (X *ᵥ g) ⬝ᵥ (X *ᵥ g) / (2 * φ) + 1 / 2 * (g ⬝ᵥ (S *ᵥ g)) := ⟨_, rfl⟩
  have hC0 : 0 ≤ C := by
    have h1 : 0 ≤ (X *ᵥ g) ⬝ᵥ (X *ᵥ g) := sum_nonneg fun i _ => mul_self_nonneg _
    have h2 : 0 ≤ g ⬝ᵥ (S *ᵥ g) := by
      have := hS.dotProduct_mulVec_nonneg g
      simpa using this
    rw [hC]
    positivity
  have key : ∀ t : ℝ, Ar1.gaussLlk (y - X *ᵥ (β + t • g)) φ - 1 / 2 * ((β + t • g) ⬝ᵥ (S *ᵥ (β + t • g)))
      = Ar1.gaussLlk (y - X *ᵥ β) φ - 1 / 2 * (β ⬝ᵥ (S *ᵥ β)) + t * l - t ^ 2 * C := by
    intro t
    have h := crit_shift ht hβ φ 1 (t • g)
    simp only [one_mul] at h
    have e1 : (1 / φ - 1) * (t • g ⬝ᵥ S *ᵥ β) = t * l := by
      rw [smul_dotProduct, hg, smul_dotProduct, hl, smul_eq_mul, smul_eq_mul]
      ring
    have e2 : (X *ᵥ (t • g)) ⬝ᵥ (X *ᵥ (t • g)) / (2 * φ) + 1 / 2 * ((t • g) ⬝ᵥ (S *ᵥ (t • g))) = t ^ 2 * C := by
      simp only [Matrix.mulVec_smul, smul_dotProduct, dotProduct_smul, smul_eq_mul]
      rw [hC]
      ring
    rw [h, e1, e2]
  refine ⟨β + (l / (2 * (C + 1))) • g, ?_⟩
  rw [key]
  obtain ⟨t, htt⟩ : ∃ t, t = l / (2 * (C + 1)) := ⟨_, rfl⟩
  rw [← htt]
  have ht0 : 0 < t := by rw [htt]; positivity
  have h2 : t * (2 * (C + 1)) = l := by rw [htt]; field_simp
  nlinarith [mul_pos ht0 ht0, mul_nonneg (mul_pos ht0 ht0).le hC0]

end Core

variable {F : Form} {fam : Family F.start.length} {build : List (Pen F.p)} {solve : In F → List (Pen F.p) × Option (Out F)}

/-- `Gaussian` with identity link. -/
structure IsGauss (fam : Family F.start.length) : Prop where
  id : fam.gaussId = true
  two : fam.twopar = true
  llk : ∀ y mu φ, fam.llk y mu φ = Ar1.gaussLlk (y - mu) φ

/-- Model matrix and response, transformed by `Lrhoi.T` if there is one. -/
def whX (i : In F) : MMat F :=
  match i.L with
  | some L => Lᵀ * i.X
  | none => i.X

def whY (i : In F) : Obs F :=
  match i.L with
  | some L => Lᵀ *ᵥ i.y
  | none => i.y

/-- Total penalty matrix. -/
def total {p : ℕ} (ps : List (Pen p)) : Matrix (Fin p) (Fin p) ℝ := (ps.map fun q => q.lam • q.S).sum

/-- What the solver returns for Gaussian models, `S` the total penalty of the penalties it leaves: the solution of the penalised normal equations of the data transformed by `Lrhoi.T`,
the predictor and residuals of the transformed data, the penalty `coef.T @ S_emb @ coef`. No coefficients are dropped. -/
structure Solved (i : In F) (o : Out F) (S : Matrix (Fin F.p) (Fin F.p) ℝ) : Prop where
  psd : S.PosSemidef
  normal : ((whX i)ᵀ * whX i + S) *ᵥ o.coef = (whX i)ᵀ *ᵥ whY i
  eta : o.eta = whX i *ᵥ o.coef
  res : o.resAr = whY i - o.eta
  penalty : o.penalty = o.coef ⬝ᵥ (S *ᵥ o.coef)
  scale : 0 < o.scale
  kept : o.dropped = []

/-- Log-likelihood of coefficients `b`: residuals `y - X b - offset`, whitened if there is a `rho`. -/
noncomputable def trueLlk (a : Args F) (φ : ℝ) (b : Fin F.p → ℝ) : ℝ :=
  let X := match a.transform with | some t => t F.X | none => F.X
  let r := F.y - X *ᵥ b - a.offset.getD 0
  match a.rho with
  | some ρ => Ar1.arLlk ρ F.start r φ
  | none => Ar1.gaussLlk r φ

theorem fit_out {s s' : State F} {c : Args F} (h : fit fam build solve s c = (s', none)) :
    ∃ ps o, pens build s c = some ps ∧ (solve (input fam c ps)).2 = some o ∧
      s' = finish fam c (input fam c ps) o (begin s c (solve (input fam c ps)).1) := by
  unfold fit at h
  cases hp : pens build s c with
  | none => rw [hp] at h; dsimp only at h; split at h <;> simp at h
  | some ps =>
    rw [hp] at h
    dsimp only at h
    cases hso : (solve (input fam c ps)).2 with
    | none => rw [hso] at h; simp at h
    | some o =>
      rw [hso] at h
      simp only [Prod.mk.injEq, and_true] at h
      exact ⟨_, _, rfl, hso, h.symm⟩

theorem zeroed_nil (X : MMat F) : zeroed [] X = X := by
  ext i j
  simp [zeroed]

/-- The reported value in terms of the estimates. -/
theorem llk_value (hg : IsGauss fam) {s s' : State F} {a : Args F} (hs : s.rho = none) (h : fit fam build solve s a = (s', none))
    (hsol : ∀ i o, (solve i).2 = some o → Solved i o (total (solve i).1)) (b : Bool) :
    ∃ β ps, s'.coef = some β ∧ s'.pens = some ps ∧ (total ps).PosSemidef ∧ 0 < s'.scale ∧ (∀ c, trueLlk a s'.scale c - 1 / 2 * (1 / s'.scale * (c ⬝ᵥ (total ps *ᵥ c)))
        ≤ trueLlk a s'.scale β - 1 / 2 * (1 / s'.scale * (β ⬝ᵥ (total ps *ᵥ β)))) ∧
      (s'.scale ≠ 1 → total ps *ᵥ β ≠ 0 → ∃ c, trueLlk a s'.scale β - 1 / 2 * (β ⬝ᵥ (total ps *ᵥ β)) < trueLlk a s'.scale c - 1 / 2 * (c ⬝ᵥ (total ps *ᵥ c))) ∧
      getLlk fam s' b none = .ok (some (trueLlk a s'.scale β - if b then 1 / 2 * (β ⬝ᵥ (total ps *ᵥ β)) else 0)) := by
  obtain ⟨ps, o, -, hso, e⟩ := fit_out h
  have hS := hsol _ _ hso
  have hps : s'.pens = some (solve (input fam a ps)).1 := by rw [e]; rfl
  have hsc : s'.scale = o.scale := by rw [e]; rfl
  have hco : s'.coef = some o.coef := by rw [e]; rfl
  have hpe : s'.penalty = o.penalty := by rw [e]; rfl
  obtain ⟨X, hX⟩ : ∃ X, X = (input fam a ps).X := ⟨_, rfl⟩
  have hXd : X = match a.transform with | some t => t F.X | none => F.X := by rw [hX]; rfl
  have hy : (input fam a ps).y = F.y - a.offset.getD 0 := by simp [input, hg.id]
  have hn := hS.normal
  have hr := hS.res
  have hre : ∀ c, F.y - X *ᵥ c - a.offset.getD 0 = (F.y - a.offset.getD 0) - X *ᵥ c := fun c => by abel
  cases hrho : a.rho with
  | none =>
    have hL : (input fam a ps).L = none := by simp [input, hrho]
    have htl : ∀ φ c, trueLlk a φ c = Ar1.gaussLlk (F.y - a.offset.getD 0 - X *ᵥ c) φ := by
      intro φ c
      unfold trueLlk
      rw [hrho, ← hXd]
      dsimp only
      rw [hre]
    have heta := hS.eta
    unfold whX whY at hn
    unfold whY at hr
    unfold whX at heta
    rw [hL] at hn hr heta
    dsimp only at hn hr heta
    rw [← hX, hy] at hn
    rw [← hX] at heta
    refine ⟨o.coef, _, hco, hps, hS.psd, hsc ▸ hS.scale, ?_, ?_, ?_⟩
    · intro c
      rw [htl, htl, hsc]
      exact crit_max hS.psd hn hS.scale c
    · intro h1 h2
      simp only [htl, hsc] at h1 ⊢
      exact crit_not_max hS.psd hn hS.scale h1 h2
    · have hr' : s'.rho = none := by rw [e]; simp [finish, begin, hrho, hs]
      have hp' : s'.preds = some (o.eta + a.offset.getD 0) := by rw [e]; simp [finish, hg.id, hrho]
      unfold getLlk
      rw [hp', hr', hpe, hsc, htl, hS.penalty]
      simp only [hg.two, hg.llk, hg.id, if_true, Option.getD_none, Option.isSome_none, Bool.false_and, Bool.false_eq_true, if_false]
      rw [show F.y - (o.eta + a.offset.getD 0) = F.y - a.offset.getD 0 - X *ᵥ o.coef by rw [heta]; abel]
  | some ρ =>
    have hL : (input fam a ps).L = some (Ar1.W ρ F.start)ᵀ := by simp [input, hrho]
    obtain ⟨W, hW⟩ : ∃ W, W = Ar1.W ρ F.start := ⟨_, rfl⟩
    have htl : ∀ φ c, trueLlk a φ c = Ar1.gaussLlk (W *ᵥ (F.y - a.offset.getD 0) - (W * X) *ᵥ c) φ + Ar1.llc ρ F.start := by
      intro φ c
      unfold trueLlk
      rw [hrho, ← hXd]
      dsimp only
      rw [hre]
      unfold Ar1.arLlk
      rw [← hW, Matrix.mulVec_sub, Matrix.mulVec_mulVec]
    have heta := hS.eta
    unfold whX whY at hn
    unfold whY at hr
    unfold whX at heta
    rw [hL] at hn hr heta
    dsimp only at hn hr heta
    rw [← hX, hy, Matrix.transpose_transpose, ← hW] at hn
    rw [← hX, Matrix.transpose_transpose, ← hW] at heta
    rw [hy, Matrix.transpose_transpose, ← hW] at hr
    refine ⟨o.coef, _, hco, hps, hS.psd, hsc ▸ hS.scale, ?_, ?_, ?_⟩
    · intro c
      rw [htl, htl, hsc]
      have := crit_max hS.psd hn hS.scale c
      linarith
    · intro h1 h2
      simp only [htl, hsc] at h1 ⊢
      obtain ⟨c, hc⟩ := crit_not_max hS.psd hn hS.scale h1 h2
      exact ⟨c, by linarith⟩
    · have hr' : s'.rho = some ρ := by rw [e]; simp [finish, begin, hrho]
      have hv' : s'.resAr = some o.resAr := by rw [e]; simp [finish, hrho]
      obtain ⟨q, hq⟩ : ∃ q, s'.preds = some q := by rw [e]; exact ⟨_, rfl⟩
      unfold getLlk
      rw [hq, hr', hpe, hsc, htl, hS.penalty, hv']
      simp only [hg.two, hg.llk, hg.id, if_true, Option.getD_none, Option.isSome_some, Bool.and_self]
      rw [sub_zero, hr, heta]
      congr 2
      cases b <;> simp <;> ring

/-- **C90.** Gaussian models, with or without `rho`, offset, transformation: the unpenalised log-likelihood reported after the first
fits of a model is the log density of the response at the estimates. -/
theorem llk_unpenalized (hg : IsGauss fam) {s s' : State F} {a : Args F} (hs : s.rho = none) (h : fit fam build solve s a = (s', none))
    (hsol : ∀ i o, (solve i).2 = some o → Solved i o (total (solve i).1)) :
    ∃ β, s'.coef = some β ∧ getLlk fam s' false none = .ok (some (trueLlk a s'.scale β)) := by
  obtain ⟨β, ps, h1, -, -, -, -, -, h5⟩ := llk_value hg hs h hsol false
  exact ⟨β, h1, by rw [h5]; simp⟩

/-- **C90, partial.** If the scale is one or the penalty does not act on the estimates, the penalised log-likelihood reported is the
maximum over all coefficients of the log-likelihood minus half the penalty over the scale. What is missing: any other scale, see
`llk_penalized_wrong`. -/
theorem llk_penalized_partial (hg : IsGauss fam) {s s' : State F} {a : Args F} (hs : s.rho = none)
    (h : fit fam build solve s a = (s', none)) (hsol : ∀ i o, (solve i).2 = some o → Solved i o (total (solve i).1)) :
    ∃ β ps x, s'.coef = some β ∧ s'.pens = some ps ∧ (total ps).PosSemidef ∧ getLlk fam s' true none = .ok (some x) ∧
      (s'.scale = 1 ∨ total ps *ᵥ β = 0 →
        IsGreatest (Set.range fun c => trueLlk a s'.scale c - 1 / 2 * (1 / s'.scale * (c ⬝ᵥ (total ps *ᵥ c)))) x) := by
  obtain ⟨β, ps, h1, h1', h2, -, h3, -, h5⟩ := llk_value hg hs h hsol true
  refine ⟨β, ps, _, h1, h1', h2, h5, fun hh => ?_⟩
  have e : trueLlk a s'.scale β - (if true = true then 1 / 2 * (β ⬝ᵥ (total ps *ᵥ β)) else 0)
      = trueLlk a s'.scale β - 1 / 2 * (1 / s'.scale * (β ⬝ᵥ (total ps *ᵥ β))) := by
    rw [if_pos rfl]
    rcases hh with hh | hh
    · rw [hh]; ring
    · rw [hh]; simp
  rw [e]
  refine ⟨⟨β, rfl⟩, ?_⟩
  rintro _ ⟨c, rfl⟩
  exact h3 c

/-- **C90, what fails.** For any other scale the reported value is not the maximum of the penalised log-likelihood, and the estimates
do not maximise the reported criterion either. -/
theorem llk_penalized_wrong (hg : IsGauss fam) {s s' : State F} {a : Args F} (hs : s.rho = none)
    (h : fit fam build solve s a = (s', none)) (hsol : ∀ i o, (solve i).2 = some o → Solved i o (total (solve i).1)) :
    ∃ β ps x, s'.coef = some β ∧ s'.pens = some ps ∧ (total ps).PosSemidef ∧ getLlk fam s' true none = .ok (some x) ∧
      (s'.scale ≠ 1 → total ps *ᵥ β ≠ 0 →
        ¬ IsGreatest (Set.range fun c => trueLlk a s'.scale c - 1 / 2 * (1 / s'.scale * (c ⬝ᵥ (total ps *ᵥ c)))) x ∧
        ¬ IsGreatest (Set.range fun c => trueLlk a s'.scale c - 1 / 2 * (c ⬝ᵥ (total ps *ᵥ c))) x) := by
  obtain ⟨β, ps, h1, h1', h2, hpos, h3, h4, h5⟩ := llk_value hg hs h hsol true
  refine ⟨β, ps, _, h1, h1', h2, h5, fun hs1 hb => ⟨fun hgr => ?_, fun hgr => ?_⟩⟩
  · rw [if_pos rfl] at hgr
    have e : IsGreatest (Set.range fun c => trueLlk a s'.scale c - 1 / 2 * (1 / s'.scale * (c ⬝ᵥ (total ps *ᵥ c))))
        (trueLlk a s'.scale β - 1 / 2 * (1 / s'.scale * (β ⬝ᵥ (total ps *ᵥ β)))) := by
      refine ⟨⟨β, rfl⟩, ?_⟩
      rintro _ ⟨c, rfl⟩
      exact h3 c
    have heq := hgr.unique e
    have hq : β ⬝ᵥ (total ps *ᵥ β) = 0 := by
      have h6 : (1 - 1 / s'.scale) * (β ⬝ᵥ (total ps *ᵥ β)) = 0 := by linarith
      rcases mul_eq_zero.1 h6 with h7 | h7
      · exfalso
        apply hs1
        field_simp at h7
        linarith
      · exact h7
    apply hb
    have := (h2.dotProduct_mulVec_zero_iff β).1 (by simpa using hq)
    exact this
  · rw [if_pos rfl] at hgr
    obtain ⟨c, hc⟩ := h4 hs1 hb
    exact absurd (hgr.2 ⟨c, rfl⟩) (not_le.2 hc)

/-! ### Cases meeting the hypotheses -/

/-- A ridge penalty for the demonstration model: a solver for the penalised model. -/
noncomputable def ridgeSolve (i : In demo) : List (Pen demo.p) × Option (Out demo) :=
  let X := whX i
  let y := whY i
  let c : Fin 1 → ℝ := fun _ => (∑ k : Fin 2, X k (0 : Fin 1) * y k) / (∑ k : Fin 2, X k (0 : Fin 1) ^ 2 + 2)
  ([⟨1, 2⟩], some ⟨c, X *ᵥ c, y - X *ᵥ c, y - X *ᵥ c, 1, 1, 3, 1, [], c ⬝ᵥ (total [(⟨1, 2⟩ : Pen 1)] *ᵥ c), []⟩)

theorem ridge_solved (i : In demo) (o : Out demo) (h : (ridgeSolve i).2 = some o) : Solved i o (total (ridgeSolve i).1) := by
  obtain ⟨rfl⟩ : _ = o := Option.some.inj h
  have ht : total (ridgeSolve i).1 = (2 : ℝ) • (1 : Matrix (Fin 1) (Fin 1) ℝ) := by
    show (2 : ℝ) • (1 : Matrix (Fin 1) (Fin 1) ℝ) + 0 = _
    rw [add_zero]
  refine ⟨?_, ?_, rfl, rfl, rfl, show (0 : ℝ) < 3 by norm_num, rfl⟩
  · rw [ht]
    exact (PosSemidef.one).smul (by norm_num)
  · rw [ht]
    obtain ⟨X, hX⟩ : ∃ X : Matrix (Fin 2) (Fin 1) ℝ, X = whX i := ⟨_, rfl⟩
    obtain ⟨y, hy⟩ : ∃ y : Fin 2 → ℝ, y = whY i := ⟨_, rfl⟩
    have key : (Xᵀ * X + (2 : ℝ) • (1 : Matrix (Fin 1) (Fin 1) ℝ)) *ᵥ
        (fun _ => (∑ k : Fin 2, X k (0 : Fin 1) * y k) / (∑ k : Fin 2, X k (0 : Fin 1) ^ 2 + 2)) = Xᵀ *ᵥ y := by
      funext j
      have hj : j = 0 := Subsingleton.elim _ _
      subst hj
      simp only [Matrix.mulVec, dotProduct, Fin.sum_univ_two, Finset.univ_unique, Fin.default_eq_zero, Finset.sum_singleton, Matrix.add_apply,
        Matrix.mul_apply, Matrix.transpose_apply, Matrix.smul_apply, Matrix.one_apply_eq, smul_eq_mul]
      have : X 0 0 ^ 2 + X 1 0 ^ 2 + 2 ≠ 0 := by positivity
      field_simp
    rw [hX, hy] at key
    exact key

/-- Ridge regression of two observations with scale three, whose penalised log-likelihood is wrong. -/
example : ∃ s' β ps, fit demoFam [⟨1, 1⟩] ridgeSolve (new demo) (demoArgs none) = (s', none) ∧ s'.coef = some β ∧ s'.pens = some ps ∧
    s'.scale ≠ 1 ∧ total ps *ᵥ β ≠ 0 := by
  refine ⟨_, _, _, rfl, rfl, rfl, show (3 : ℝ) ≠ 1 by norm_num, fun h => ?_⟩
  have h1 := congrFun h (0 : Fin 1)
  have h2 : (total [(⟨1, 2⟩ : Pen 1)] *ᵥ
      fun _ => (∑ k : Fin 2, (1 : ℝ) * ((![1, 3] : Fin 2 → ℝ) - 0) k) / (∑ _k : Fin 2, (1 : ℝ) ^ 2 + 2)) (0 : Fin 1) = 0 := h1
  simp [total, Matrix.mulVec, dotProduct, Fin.sum_univ_two] at h2
  norm_num at h2

example : IsGauss demoFam := ⟨rfl, rfl, fun _ _ _ => rfl⟩

end Verif.Fit
