import Verif.CompareModel
import Verif.PirlsModel
import Verif.ScaleModel

/-!
# Likelihood ratio tests of nested models (property C146): what `compare_CDL` reads from a `GAMM`
-/

namespace Verif.Glrt
open Verif Fl Fam Compare

variable {N p : ℕ}

/-- `GAMM.get_llk(penalized=False)` without an autoregressive model (models.py 2702-2744): log densities of the observations at the means of
the fitted predictor, for the scale of the model. -/
noncomputable def llk (x : Pirls.In N p) (s : ℝ) (b : Fin p → ℝ) : Fl :=
  Fl.sum fun i => lpEta (x.fam i) x.lk (x.y i) s (fin (Pirls.eta x b i))

/-- `model.scale` of a Gaussian model without penalties and without known scale (gamm_solvers.py 1205-1226, `est_scale` exp_fam.py 450-470). -/
noncomputable def scale (x : Pirls.In N p) (b : Fin p → ℝ) : ℝ := Scale.scaleA none x.y (Pirls.eta x b) none p

/-- Values `compare_CDL` reads from a `GAMM` without penalties (compare.py 385, 459-486, 510-511, 552-553): the degrees of freedom are the
number of columns, the matrix of `t1` is the identity. -/
structure Reads (x : Pirls.In N p) (s : ℝ) (b : Fin p → ℝ) (m : Mod) : Prop where
  llk : llk x s b = fin m.llk
  edf : m.edf = p
  t1 : m.t1 = p
  nCoef : m.nCoef = p
  nObs : m.nObs = N

end Verif.Glrt
