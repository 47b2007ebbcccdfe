import Verif.PirlsModel

/-!
# Means that are rounded to the boundary of their range or overflow (property C139)

`PirlsModel` uses exact inverse links. In double precision `np.exp` is infinite for large and zero for small arguments, and `1 + np.exp(eta)` is
rounded to `np.exp(eta)` if the latter is large. This file puts these roundings into the inverse links and into the step control
(src/mssm/src/python/gamm_solvers.py, `correct_coef_step` 1798-1858); all other operations stay exact.
-/

namespace Verif.Bound

open Matrix Fl Fam

/-- Where the exponential function is rounded: zero below `lo` (≈ -745.13), `1 + exp(eta) = exp(eta)` from `one` on (53 log 2 ≈ 36.74), infinite above
`over` (≈ 709.78). -/
structure Arith where
  lo : ℝ
  one : ℝ
  over : ℝ
  neg : lo < 0
  pos : 0 < one
  lt : one < over

variable (A : Arith)

open Classical in
/-- `np.exp`. -/
noncomputable def expF : Fl → Fl
  | fin e => if A.over < e then pinf else if e < A.lo then fin 0 else fin (Real.exp e)
  | e => Fl.exp e

open Classical in
/-- `1 + np.exp(eta)`. -/
noncomputable def onePlus : Fl → Fl
  | fin e => if A.one ≤ e then expF A (fin e) else fin 1 + expF A (fin e)
  | e => fin 1 + Fl.exp e

/-- `Link.fi` (exp_fam.py 142-146, 238, 312-316, 403-407). -/
noncomputable def fi : LinkKind → Fl → Fl
  | .logit, e => expF A e / onePlus A e
  | .identity, e => e
  | .log, e => expF A e
  | .logb b, e => expF A e - fin b

variable {N p : ℕ} (x : Pirls.In N p)

/-- What `correct_coef_step` evaluates (1823, 1844, 1847-1848, 1853), as in `Pirls.prob`: rows whose mean is nan are left out. -/
noncomputable def prob : Step.Prob (Fin p → ℝ) (Fin N → Fl) (Fin N → Fl) where
  etaF b i := fin (Pirls.eta x b i)
  muF e i := fi A x.lk (e i)
  devF := (Pirls.prob x).devF
  quad b := b ⬝ᵥ (x.S *ᵥ b)
  pen := true

/-- `correct_coef_step` (1798-1858). -/
noncomputable def accept (b : Fin p → ℝ) (c : Fl) (prop : Fin p → ℝ) : Option (Step.St (Fin p → ℝ) (Fin N → Fl) (Fin N → Fl)) :=
  Step.coefLoop (prob A x) b c 34 0 (Step.evalAt (prob A x) prop)

/-- `PIRLS_pdat_weights` at coefficients `b` (459-473): `none` is the `ValueError`. -/
noncomputable def working (b : Fin p → ℝ) : Option ((Fin N → Fl) × (Fin N → Fl) × (Fin N → Prop)) :=
  workingData fun i => fisherZW (x.fam i) x.lk (fin (x.y i)) (fi A x.lk (fin (Pirls.eta x b i))) (fin (Pirls.eta x b i) - fin (x.off i))

end Verif.Bound
