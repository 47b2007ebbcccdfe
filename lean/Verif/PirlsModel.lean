import Verif.FamModel
import Verif.StepModel
import Verif.GaussModel

/-!
# Penalised iteratively re-weighted least squares for fixed smoothing parameters (property C124)

Model of the coefficient estimation of generalised additive models (src/mssm/src/python/gamm_solvers.py): working data
(`update_PIRLS` 580-616), proposed coefficients (`update_coef` 1286-1291, `Cholesky`), step control (`correct_coef_step`
1798-1858) and the loop over `i_iter` in `correct_lambda_step` (2210-2292).

`S` is `S_emb`, the sum of the penalty matrices times their smoothing parameters (zero without penalties); no AR(1) residuals
(`Lrhoi` is None, which `fit` demands for `max_inner > 1`, models.py 3114), no file-based data, exponential families only.
For Gaussian models with identity link the code skips the working data and uses response and model matrix as they are; the working
data equal them (`Pirls.gaussian_identity`).
-/

namespace Verif.Pirls

open Matrix Fl Fam

/-- Data of the model; `off` is `offset`. The family is one value per row because the number of binomial trials can differ. -/
structure In (N p : ℕ) where
  fam : Fin N → FamKind
  lk : LinkKind
  y : Fin N → ℝ
  X : Matrix (Fin N) (Fin p) ℝ
  off : Fin N → ℝ
  S : Matrix (Fin p) (Fin p) ℝ

variable {N p : ℕ} (x : In N p)

/-- `eta = (X @ coef) + offset` (1341, 1823). -/
def eta (b : Fin p → ℝ) (i : Fin N) : ℝ := (x.X *ᵥ b) i + x.off i

/-- `PIRLS_pdat_weights(y, mu, eta - offset, family)` (459-461, called from `update_PIRLS` with `eta - offset`: 1655, 2271, 2845, 2942). -/
noncomputable def zw (b : Fin p → ℝ) (i : Fin N) : Fl × Fl :=
  fisherZW (x.fam i) x.lk (fin (x.y i)) (x.lk.fi (fin (eta x b i))) (fin (eta x b i) - fin (x.off i))

/-- `Xb.T @ Xb + S_emb` (590-598; `solve_coef`). -/
noncomputable def gram (b : Fin p → ℝ) : Matrix (Fin p) (Fin p) ℝ :=
  Matrix.of fun a c => ((pirlsX (zw x b) x.X).map fun r => r a * r c).sum + x.S a c

/-- `Xb.T @ yb`. -/
noncomputable def rhs (b : Fin p → ℝ) (a : Fin p) : ℝ :=
  (List.zipWith (fun r z => r a * z) (pirlsX (zw x b) x.X) (pirlsY (zw x b))).sum

/-- Coefficients proposed from the working data at `b` (1291, 2217-2219, 2283-2285). -/
noncomputable def next (b : Fin p → ℝ) : Fin p → ℝ := (Gauss.solveXX (gram x b) (rhs x b)).1

open Classical in
/-- What `correct_coef_step` evaluates: predictors (1823), means (1844), deviance of the rows whose mean is not nan (1847-1848,
`family.deviance` is the sum of `D`), penalty (1853). -/
noncomputable def prob : Step.Prob (Fin p → ℝ) (Fin N → Fl) (Fin N → Fl) where
  etaF b i := fin (eta x b i)
  muF e i := x.lk.fi (e i)
  devF mu := Fl.sum fun i => if mu i = .nan then fin 0 else (x.fam i).D (fin (x.y i)) (mu i)
  quad b := b ⬝ᵥ (x.S *ᵥ b)
  pen := true

/-- One step from coefficients `b`: proposal and step control against the penalised deviance `c` (2234-2250, 2283-2292). -/
noncomputable def accept (b : Fin p → ℝ) (c : Fl) (prop : Fin p → ℝ) : Option (Step.St (Fin p → ℝ) (Fin N → Fl) (Fin N → Fl)) :=
  Step.coefLoop (prob x) b c 34 0 (Step.evalAt (prob x) prop)

/-- One step whose reference is the penalised deviance of the current coefficients. -/
noncomputable def pass (b : Fin p → ℝ) : Fin p → ℝ :=
  match accept x b (Step.evalAt (prob x) b).pen (next x b) with
  | some r => r.n
  | none => b

/-- `dev_diff_inner < 1e-9 * pen_dev` (2276-2277): false as soon as a value is not finite. -/
def small : Fl → Fl → Prop
  | fin a, fin b => |a - b| < 1 / 10 ^ 9 * a
  | _, _ => False

open Classical in
/-- The loop over `i_iter` (2231-2292): `left` further passes, `i` the number of passes done, `b` is `n_coef`, `prop` is `n_coef2`,
`c` is `c_dev_prev`. Returns `n_coef`. -/
noncomputable def loop (maxInner : ℕ) : ℕ → ℕ → (Fin p → ℝ) → (Fin p → ℝ) → Fl → Option (Fin p → ℝ)
  | 0, _, b, _, _ => some b
  | left + 1, i, b, prop, c =>
    match accept x b c prop with
    | none => none
    | some r =>
      if 0 < i ∧ (small r.pen c ∨ i = maxInner - 2) then some r.n
      else loop maxInner left (i + 1) r.n (next x r.n) r.pen

/-- Coefficients returned for the current smoothing parameters when `max_inner > 1` (2217-2292): `coef` are the incoming
coefficients, whose working data and deviance (`dev_check`) are at hand. -/
noncomputable def inner (maxInner : ℕ) (coef : Fin p → ℝ) : Option (Fin p → ℝ) :=
  loop x maxInner (maxInner - 1) 0 coef (next x coef)
    ((prob x).devF ((prob x).muF ((prob x).etaF coef)) + fin (coef ⬝ᵥ (x.S *ᵥ coef)))

end Verif.Pirls
