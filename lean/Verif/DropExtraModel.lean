import Verif.DropModel

/-!
# Dropping coefficients of models with extra coefficients

General smooth models may have coefficients that belong to no formula (`family.extra_coef`, at the end of
the coefficient vector) and may leave out model matrices (`None`).  `check_drop_valid_gensmooth`
(gamm_solvers.py 6602-6623) decides whether dropping is safe, `handle_drop_gsmm` (6798-6813) does it.
-/

namespace Verif.Drop

/-- Split positions with which `check_drop_valid_gensmooth` evaluates the log-likelihood (6606-6610) of a
family with extra coefficients. -/
def checkSplit (Xs : List Mat) (keep : List ℕ) : List ℕ :=
  let r := dropTerms Xs keep
  r.2 ++ [(r.1.getLastD ⟨0, fun _ _ => 0⟩).w + r.2.getLastD 0]

/-- Split positions with which `handle_drop_gsmm` (6802, 6810) evaluates it, also returned (6813) and used
by the iterations that follow (8268, 8382): those of the formulas only. -/
def handleSplit (Xs : List Mat) (keep : List ℕ) : List ℕ := (dropTerms Xs keep).2

/-- `drop_terms_X` when matrices may be `None`: `X.shape` raises (4950). -/
def dropTermsOpt (Xs : List (Option Mat)) (keep : List ℕ) : Except String (List Mat × List ℕ) :=
  match Xs.mapM id with
  | some Ys => .ok (dropTerms Ys keep)
  | none => .error "AttributeError: 'NoneType' object has no attribute 'shape'"

end Verif.Drop
