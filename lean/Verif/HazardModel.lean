import Mathlib.Analysis.SpecialFunctions.Log.Basic
import Mathlib.Algebra.BigOperators.Fin
import Mathlib.Data.Matrix.Basic

/-!
Model of the Cox proportional hazard family: `src/mssm/src/cpp/hazard.cpp` (`llk2` 17-56, `grad2` 58-106, `hessian` 108-165)
and `src/mssm/src/python/exp_fam.py: PropHaz` (lines 4012-4564).

`n` subjects, `nt` unique times `ut`, `r i` is the index of the time of subject `i` in `ut`; `delta i` is 1 for an event and
0 for a censored time. `double` is modelled by `ℝ`; overflow handling (exp_fam.py 4276, 4299-4300) is not modelled.
Arrays indexed beyond their length do not occur: all indices are bounded by construction.
-/

namespace Verif.Haz

open Finset

variable {n p : ℕ}

/-- `self.__ris[j]`: the rows with time index `j` (exp_fam.py 4021-4024). -/
def ris (r : Fin n → ℕ) (j : ℕ) : Finset (Fin n) := univ.filter fun i => r i = j

/-- `X @ coef` -/
def eta (X : Fin n → Fin p → ℝ) (coef : Fin p → ℝ) (i : Fin n) : ℝ := ∑ k, X i k * coef k

/-- `gamma = np.exp(eta)` -/
noncomputable def gam (X : Fin n → Fin p → ℝ) (coef : Fin p → ℝ) (i : Fin n) : ℝ := Real.exp (eta X coef i)

/-- `dj` -/
def dj (r : Fin n → ℕ) (delta : Fin n → ℕ) (j : ℕ) : ℝ := ∑ i ∈ ris r j, (delta i : ℝ)

/-- `gamma_p` after `j` iterations (hazard.cpp 35, 52). -/
def gammaP (r : Fin n → ℕ) (g : Fin n → ℝ) : ℕ → ℝ
  | 0 => 0
  | j + 1 => gammaP r g j + ∑ i ∈ ris r j, g i

/-- `allk` after `j` iterations of `llk2` (hazard.cpp 36, 54). -/
noncomputable def llk2 (r : Fin n → ℕ) (delta : Fin n → ℕ) (g : Fin n → ℝ) : ℕ → ℝ
  | 0 => 0
  | j + 1 => llk2 r delta g j - dj r delta j * Real.log (gammaP r g (j + 1))

/-- `PropHaz.llk` (exp_fam.py 4055-4071). -/
noncomputable def llk (nt : ℕ) (r : Fin n → ℕ) (delta : Fin n → ℕ) (X : Fin n → Fin p → ℝ) (coef : Fin p → ℝ) : ℝ :=
  (∑ i, (delta i : ℝ) * eta X coef i) + llk2 r delta (gam X coef) nt

/-- `bp` after `j` iterations (hazard.cpp 83-84, 100 and 137-138, 154). -/
def bp (r : Fin n → ℕ) (g : Fin n → ℝ) (X : Fin n → Fin p → ℝ) : ℕ → Fin p → ℝ
  | 0 => fun _ => 0
  | j + 1 => fun k => bp r g X j k + ∑ i ∈ ris r j, g i * X i k

/-- `grad2` after `j` iterations (hazard.cpp 79-80, 102). -/
noncomputable def grad2 (r : Fin n → ℕ) (delta : Fin n → ℕ) (g : Fin n → ℝ) (X : Fin n → Fin p → ℝ) : ℕ → Fin p → ℝ
  | 0 => fun _ => 0
  | j + 1 => fun k => grad2 r delta g X j k - dj r delta j * (bp r g X (j + 1) k / gammaP r g (j + 1))

/-- `PropHaz.gradient` (exp_fam.py 4103-4119). -/
noncomputable def gradient (nt : ℕ) (r : Fin n → ℕ) (delta : Fin n → ℕ) (X : Fin n → Fin p → ℝ) (coef : Fin p → ℝ) (k : Fin p) : ℝ :=
  (∑ i, (delta i : ℝ) * X i k) + grad2 r delta (gam X coef) X nt k

/-- `Ap` after `j` iterations (hazard.cpp 133-134, 157-158). -/
def Ap (r : Fin n → ℕ) (g : Fin n → ℝ) (X : Fin n → Fin p → ℝ) : ℕ → Fin p → Fin p → ℝ
  | 0 => fun _ _ => 0
  | j + 1 => fun k l => Ap r g X j k l + ∑ i ∈ ris r j, (g i * X i k) * X i l

/-- `hess` after `j` iterations (hazard.cpp 131-132, 160). -/
noncomputable def hess (r : Fin n → ℕ) (delta : Fin n → ℕ) (g : Fin n → ℝ) (X : Fin n → Fin p → ℝ) : ℕ → Fin p → Fin p → ℝ
  | 0 => fun _ _ => 0
  | j + 1 => fun k l => hess r delta g X j k l +
      (dj r delta j * bp r g X (j + 1) k * bp r g X (j + 1) l / gammaP r g (j + 1) ^ 2
        - dj r delta j * Ap r g X (j + 1) k l / gammaP r g (j + 1))

/-- `PropHaz.hessian` (exp_fam.py 4150-4164). -/
noncomputable def hessian (nt : ℕ) (r : Fin n → ℕ) (delta : Fin n → ℕ) (X : Fin n → Fin p → ℝ) (coef : Fin p → ℝ) (k l : Fin p) : ℝ :=
  hess r delta (gam X coef) X nt k l

/-- `hs[nt-1-s]` of `__prepare_predictions` (exp_fam.py 4314-4321): backward recursion over `j = nt-1, nt-2, ..., 0`; `s`
counts the steps from the end. `gamma_ps[j]` is `gammaP (j+1)`. -/
noncomputable def hsBack (nt : ℕ) (r : Fin n → ℕ) (delta : Fin n → ℕ) (g : Fin n → ℝ) : ℕ → ℝ
  | 0 => dj r delta (nt - 1) / gammaP r g (nt - 1 + 1)
  | s + 1 => hsBack nt r delta g s + dj r delta (nt - 1 - (s + 1)) / gammaP r g (nt - 1 - (s + 1) + 1)

/-- `hs[j]` for `j < nt`. -/
noncomputable def hs (nt : ℕ) (r : Fin n → ℕ) (delta : Fin n → ℕ) (g : Fin n → ℝ) (j : ℕ) : ℝ :=
  hsBack nt r delta g (nt - 1 - j)

/-- Index of the time used for `t` in `get_survival` (exp_fam.py 4540-4545): the position of `t` in `ut`, or of the smallest
time larger than `t`; `none` if there is no such time (`min` of an empty array raises). -/
noncomputable def survIndex (nt : ℕ) (ut : ℕ → ℝ) (t : ℝ) : Option ℕ :=
  let t' : Option ℝ :=
    if ∃ j < nt, ut j = t then some t
    else if h : (((range nt).image ut).filter fun u => t < u).Nonempty then
      some ((((range nt).image ut).filter fun u => t < u).min' h)
    else none
  t'.bind fun t' => (List.range nt).find? fun j => ut j = t'

/-- Survival estimate `S` of `get_survival` for linear predictor `e = x @ coef` (exp_fam.py 4536, 4549-4550), given the stored
`hs`. -/
noncomputable def survival (nt : ℕ) (ut : ℕ → ℝ) (h : ℕ → ℝ) (t e : ℝ) : Option ℝ :=
  (survIndex nt ut t).map fun j => Real.exp (-(h j) * Real.exp e)

/-- Martingale residual of subject `i` (exp_fam.py 4220-4228), with the stored `hs` computed from the same arguments. -/
noncomputable def martingale (nt : ℕ) (ut : ℕ → ℝ) (r : Fin n → ℕ) (delta : Fin n → ℕ) (X : Fin n → Fin p → ℝ) (coef : Fin p → ℝ)
    (i : Fin n) : Option ℝ :=
  (survival nt ut (hs nt r delta (gam X coef)) (ut (r i)) (eta X coef i)).map fun S => (delta i : ℝ) + Real.log S

/-- `get_baseline_hazard` as a state transition on the stored array `self.__hs` (exp_fam.py 4393-4396). -/
noncomputable def getBaseline (nt : ℕ) (r : Fin n → ℕ) (delta : Fin n → ℕ) (X : Fin n → Fin p → ℝ) (coef : Fin p → ℝ)
    (stored : Option (ℕ → ℝ)) : (ℕ → ℝ) × Option (ℕ → ℝ) :=
  match stored with
  | some h => (h, some h)
  | none => (hs nt r delta (gam X coef), some (hs nt r delta (gam X coef)))

/-- Deviance residual of `get_resid` for survival `S` and event indicator `d` (exp_fam.py 4224, 4229-4234). `eps` is the machine
epsilon. `np.power(.., 0.5)` of a negative number is nan, here `none`. -/
noncomputable def devianceResid (eps S : ℝ) (d : ℕ) : Option ℝ :=
  let mi := (d : ℝ) + Real.log S
  let q := -2 * (mi + d * Real.log (-(min (Real.log S) (-eps))))
  if 0 ≤ q then some (SignType.sign mi * Real.sqrt q) else none

end Verif.Haz
