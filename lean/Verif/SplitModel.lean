import Verif.DropModel

/-!
# Splitting the coefficient vector (property C47)

Model of the split index (src/mssm/models.py 1047-1073, 2057-2070), of `GSMM.get_pars` (262-314), of the column
numbers of terms (src/mssm/src/python/formula.py 773-874) and of the split index after coefficients were dropped
(src/mssm/src/python/gamm_solvers.py 6606-6610, 6802).  `np.split` is `Verif.Drop.npSplit`.
-/

namespace Verif.Split

open Verif.Drop

/-- Loop turning counts into positions (1072-1073, 2069-2070). -/
def accum (l : List ℕ) : List ℕ :=
  (List.range (l.length - 1)).foldl (fun l i => l.set (i + 1) (l.getD (i + 1) 0 + l.getD i 0)) l

/-- Split index (1047-1073): coefficients per formula, extra coefficients of the family last.
The loop is skipped for a single formula, where it would do nothing. -/
def splitIndex (counts : List ℕ) (extra : Option ℕ) : List ℕ :=
  let all := counts ++ extra.toList
  if counts.length > 1 then accum all.dropLast else all.dropLast

/-- Python list indexing, negative positions counted from the end; `none` when an `IndexError` is raised. -/
def pyGet {α : Type} (l : List α) (i : Int) : Option α :=
  if 0 ≤ i then l[i.toNat]? else if -(l.length : Int) ≤ i then l[(l.length + i).toNat]? else none

/-- `sub_coef[idx]` with a vector of positions (314); `none` when one is out of range. -/
def pick (v : List ℝ) : List ℕ → Option (List ℝ)
  | [] => some []
  | a :: as =>
    match v[a]?, pick v as with
    | some x, some xs => some (x :: xs)
    | _, _ => none

/-- A fitted model as seen by `get_pars`: coefficient vector, coefficients per formula, extra coefficients, column
numbers of the terms of every formula (`coef_idx_per_term`). -/
structure Model where
  coef : Option (List ℝ)
  counts : List ℕ
  extra : Option ℕ
  terms : List (List (List ℕ))

/-- `len(self.formulas) + (1 if self.has_extra_coef else 0)` (286-287). -/
def nBlocks (m : Model) : ℕ := m.counts.length + (if m.extra.isSome then 1 else 0)

/-- `sub_coef` (301-305). -/
def subCoef (m : Model) (coef : List ℝ) (par : Int) : Option (List ℝ) :=
  if m.counts.length > 1 ∨ m.extra.isSome then pyGet (npSplit coef 0 (splitIndex m.counts m.extra)) par else some coef

/-- Result of `get_pars`. -/
inductive Res
  | raises
  | notFitted
  | vec (v : List ℝ)

/-- Turn an optional vector into a result. -/
def ofOpt : Option (List ℝ) → Res
  | none => .raises
  | some v => .vec v

/-- `sub_coef[form.coef_idx_per_term[term]]` (312-314). -/
def termCoef (m : Model) (par term : Int) (sub : List ℝ) : Option (List ℝ) :=
  match pyGet m.terms par with
  | none => none
  | some ts =>
    match pyGet ts term with
    | none => none
    | some idx => pick sub idx

/-- Lines 300-314: index given and model fitted. -/
def getBlock (m : Model) (coef : List ℝ) (par : Int) (term : Option Int) : Res :=
  match subCoef m coef par with
  | none => .raises
  | some sub =>
    match term with
    | none => .vec sub
    | some t => if par = m.counts.length then .vec sub else ofOpt (termCoef m par t sub)

/-- `GSMM.get_pars` (262-314). -/
def getPars (m : Model) (par : Option Int) (term : Option Int) : Res :=
  match par with
  | none =>
    match m.coef with
    | none => .notFitted
    | some c => .vec c
  | some p =>
    if p ≥ nBlocks m then .raises
    else
      match m.coef with
      | none => .notFitted
      | some c => getBlock m c p term

/-- Column numbers per term (formula.py 816-818, 832-834, 848-850, 870-872): `np.arange(n_coef, n_coef + total)`, terms taken
in the order linear, impulse response, smooth, random. -/
def coefIdx : ℕ → List ℕ → List (List ℕ)
  | _, [] => []
  | n, t :: ts => List.range' n t :: coefIdx (n + t) ts

/-- Split index used to evaluate the likelihood when testing a drop, `check_drop_valid_gensmooth`
(gamm_solvers.py 6606-6610). -/
def checkDropSplit (Xs : List Mat) (keep : List ℕ) (extra : Option ℕ) : List ℕ :=
  let d := dropTerms Xs keep
  if extra.isSome then d.2 ++ [(d.1.getLastD ⟨0, fun _ _ => 0⟩).w + d.2.getLastD 0] else d.2

/-- Split index used after the drop, `handle_drop_gsmm` (gamm_solvers.py 6802). -/
def handleDropSplit (Xs : List Mat) (keep : List ℕ) : List ℕ := (dropTerms Xs keep).2

end Verif.Split
