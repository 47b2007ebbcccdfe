import Mathlib.Data.Real.Basic
import Mathlib.Algebra.Order.Group.Abs

/-!
# Model comparison (property C39)

Model of `compare_CDL`, src/mssm/src/python/compare.py (17-583).  Likelihoods and degrees of freedom are inputs;
`correct_VB` is a function of the settings and the model.  Not modelled: the warning (543-548) and the printing
(397-398).
-/

namespace Verif.Compare

/-- What the comparison reads from a fitted model. -/
structure Mod where
  llk : ℝ
  edf : ℝ
  /-- `2 * edf - trace(F F)` (463-481) -/
  t1 : ℝ
  nCoef : ℕ
  /-- rows of the model matrix (552-553) -/
  nObs : ℕ
  /-- Gaussian family with identity link -/
  gaussId : Bool
  estTheta : Bool
  nTheta : ℕ

/-- Grid types (327-340). -/
inductive Grid | JJJ1 | JJJ2 | JJJ3
  deriving DecidableEq

/-- Arguments; `none` is Python's `None`. -/
structure Args where
  correctV : Bool
  correctT1 : Option Bool
  glrt : Bool
  nc : ℕ
  alpha : ℝ
  grid : Option Grid
  onlyExp : Option Bool
  computeVcc : Option Bool
  impW : Option Bool
  recompH : Option Bool

/-- Settings passed to `correct_VB`. -/
structure Settings where
  correctT1 : Bool
  grid : Grid
  onlyExp : Bool
  computeVcc : Bool
  impW : Bool
  recompH : Bool

/-- `grid` (327-340), from the first model. -/
def fillGrid (u : Args) (m1 : Mod) : Grid :=
  u.grid.getD (if m1.gaussId then (if m1.nCoef > 2000 ∧ u.nc > 5 ∧ u.glrt = false then .JJJ2 else .JJJ1)
    else if u.nc ≤ 5 ∨ m1.nCoef > 2000 then .JJJ1 else .JJJ3)

/-- Automatic arguments (317-379), from the first model. -/
def fill (u : Args) (m1 : Mod) : Settings :=
  let t1 := u.correctT1.getD u.glrt
  let grid := fillGrid u m1
  { correctT1 := t1
    grid := grid
    onlyExp := u.onlyExp.getD (decide (grid = .JJJ2 ∧ m1.nCoef > 4000 ∧ u.glrt = false ∧ t1 = false))
    computeVcc := u.computeVcc.getD (decide (¬ m1.nCoef > 2000))
    impW := u.impW.getD (!(decide (grid = .JJJ1) || m1.gaussId))
    recompH := u.recompH.getD (!(decide (grid = .JJJ1) || m1.gaussId)) }

/-- Values of `correct_VB` used here: `total_edf`, `total_edf2`, `expected_edf`. -/
structure VB where
  edf : Option ℝ
  edf2 : Option ℝ
  expd : Option ℝ

/-- Kinds of families (488-507): two parameter `Family`; `ExtendedFamily`; class names must agree (381). -/
structure Fams where
  same : Bool
  twopar : Bool
  extended : Bool

/-- Degrees of freedom of one model before scale and theta: for the AIC (`aic_DOF`, present with `correct_t1`)
and for the test (396-486). -/
def baseDof (vb : Settings → Mod → VB) (u : Args) (st : Settings) (m : Mod) : Option (Option ℝ × ℝ) :=
  if u.correctV then
    let d := if st.onlyExp then (vb st m).expd else (vb st m).edf
    if st.correctT1 then
      match d, (vb st m).edf2 with
      | some a, some t => some (some a, t)
      | _, _ => none
    else d.map fun t => (none, t)
  else if st.correctT1 then some (some m.edf, m.t1) else some (none, m.edf)

/-- Correction for the scale (489-495). -/
def addScale (fam : Fams) (d : Option ℝ × ℝ) : Option ℝ × ℝ :=
  if fam.twopar then (d.1.map (· + 1), d.2 + 1) else d

/-- Correction for theta (498-507); the outer condition reads only the first model. -/
def addTheta (fam : Fams) (m1 m : Mod) (d : Option ℝ × ℝ) : Option ℝ × ℝ :=
  if fam.extended ∧ m1.estTheta = true then
    (if m.estTheta then (d.1.map (· + (m.nTheta : ℝ)), d.2 + (m.nTheta : ℝ)) else d)
  else d

/-- Returned values (569-581); `none` for nan. -/
structure Result where
  H1 : Option Prop
  p : Option ℝ
  stat : ℝ
  dof1 : ℝ
  dof2 : ℝ
  resDof : ℝ
  aic1 : ℝ
  aic2 : ℝ
  aicDiff : ℝ

/-- Statistic used in the test (515, 533-534). -/
noncomputable def testStat (m1 m2 : Mod) (d1 d2 : ℝ) : ℝ :=
  if m1.llk < m2.llk ∧ d1 < d2 then -1 * (2 * (m1.llk - m2.llk)) else 2 * (m1.llk - m2.llk)

/-- p-value (550-556).  With no difference in degrees of freedom scipy returns nan. -/
noncomputable def pval (fcdf : ℝ → ℝ → ℝ → ℝ) (ccdf : ℝ → ℝ → ℝ) (fam : Fams) (m1 m2 : Mod) (d1 d2 : ℝ) : Option ℝ :=
  if |d1 - d2| = 0 then none
  else if fam.twopar then
    some (1 - fcdf (testStat m1 m2 d1 d2 / |d1 - d2|) |d1 - d2| ((m1.nObs : ℝ) - max d1 d2))
  else some (1 - ccdf (testStat m1 m2 d1 d2) |d1 - d2|)

open Classical in
/-- `compare_CDL`; `none` when an exception is raised. -/
noncomputable def compareCDL (vb : Settings → Mod → VB) (fcdf : ℝ → ℝ → ℝ → ℝ) (ccdf : ℝ → ℝ → ℝ) (fam : Fams) (u : Args)
    (m1 m2 : Mod) : Option Result :=
  let st := fill u m1
  if fam.same = false then none
  else if u.glrt = true ∧ m1.nCoef < m2.nCoef then none
  else
    match baseDof vb u st m1, baseDof vb u st m2 with
    | some b1, some b2 =>
      let e1 := addTheta fam m1 m1 (addScale fam b1)
      let e2 := addTheta fam m1 m2 (addScale fam b2)
      let d1 := e1.2
      let d2 := e2.2
      let a1 := e1.1.getD d1
      let a2 := e2.1.getD d2
      let skip : Prop := u.glrt = false ∨ testStat m1 m2 d1 d2 < 0
      let p := if skip then none else pval fcdf ccdf fam m1 m2 d1 d2
      some {
        H1 := if skip then none else some (∃ q, p = some q ∧ q ≤ u.alpha)
        p := p
        stat := 2 * (m1.llk - m2.llk)
        dof1 := d1
        dof2 := d2
        resDof := d1 - d2
        aic1 := -2 * m1.llk + 2 * a1
        aic2 := -2 * m2.llk + 2 * a2
        aicDiff := (-2 * m1.llk + 2 * a1) - (-2 * m2.llk + 2 * a2) }
    | _, _ => none

end Verif.Compare
