import Mathlib.Algebra.BigOperators.Group.Finset.Basic
import Mathlib.Data.Real.Basic
import Mathlib.Analysis.SpecialFunctions.Log.Basic

/-!
Model of the hidden semi-Markov log-likelihood, `src/mssm/src/cpp/hsmm/llk.cpp: llk` (lines 14-181).

Array access `a(i,j)` is modelled by a total function of natural number indices; every loop bound of the code is kept.
`double` is modelled by `ℝ`. Division by `Lam(t-1)` is real division, theorems exclude a zero divisor.
The arguments `weights` and `scale` are not used by the code and left out.
-/

namespace Verif.Hsmm

/-- Arguments of `llk` / `viterbi` (llk.cpp 14-21, decode.cpp 19-26). `R` is the number type of the tables
(probabilities for `llk`, log-probabilities for `viterbi`). The code passes a 2-d or 3-d array depending on
`hmp_code`/`tvdtpi`; the model carries both readings and selects as the code does. -/
structure Tables (R : Type) where
  n_T : ℕ
  D : ℕ
  n_S : ℕ
  event_width : ℕ
  starts_with_first : Bool
  ends_with_last : Bool
  ends_in_last : Bool
  /-- `hmp_code != 0` -/
  hmp : Bool
  tvdtpi : Bool
  /-- `bs(t,j)` -/
  bs2 : ℕ → ℕ → R
  /-- `bs(t,k,j)` -/
  bs3 : ℕ → ℕ → ℕ → R
  /-- `ds(d,j)` -/
  ds2 : ℕ → ℕ → R
  /-- `ds(d,j,t)` -/
  ds3 : ℕ → ℕ → ℕ → R
  /-- `T(i,j)` -/
  T2 : ℕ → ℕ → R
  /-- `T(i,j,t)` -/
  T3 : ℕ → ℕ → ℕ → R
  /-- `pi(j)` -/
  pi : ℕ → R

namespace Tables
variable {R : Type} (m : Tables R)

/-- `(tvdtpi) ? ds(d,j,t): ds(d,j)` (llk.cpp 67, 71, 129-136). -/
def ds (d j t : ℕ) : R := if m.tvdtpi then m.ds3 d j t else m.ds2 d j

/-- `(tvdtpi) ? T(i,j,t): T(i,j)` (llk.cpp 116). -/
def T (i j t : ℕ) : R := if m.tvdtpi then m.T3 i j t else m.T2 i j

/-- `(starts_with_first) ? j : j + n_S` (llk.cpp 129, 135). -/
def dcol (j : ℕ) : ℕ := if m.starts_with_first then j else j + m.n_S

end Tables

/-- Value left in `lam(t,d,j)` when the loop body for `(t,d,j)` is done (llk.cpp 57-143), as a function of the
previous time slice `prev = lam(t-1,.,.)` and `LamPrev = Lam(t-1)`. `lam` is initialised with 0 (line 37),
which is what skipped cells keep. -/
noncomputable def lamCell (m : Tables ℝ) (t : ℕ) (prev : ℕ → ℕ → ℝ) (LamPrev : ℝ) (d j : ℕ) : ℝ :=
  if m.hmp ∧ j % 2 = 1 ∧ m.event_width ≤ d then 0            -- 58-61
  else if t = 0 then                                            -- 63
    if m.hmp then m.pi j * m.bs3 t 0 j * m.ds d j t             -- 67
    else m.pi j * m.bs2 t j * m.ds d j t                        -- 71
  else if t + d < m.n_T ∨ m.ends_with_last = false then         -- 75
    let c : ℝ :=
      if d + 1 ≤ m.D - 2 then                                   -- 78
        if m.hmp then
          if j % 2 = 1 then
            if d ≤ m.event_width - 1 then
              prev (d + 1) j * m.bs3 t ((m.event_width - 1) - d) j  -- 87
            else 0                                              -- 91
          else prev (d + 1) j * m.bs3 t 0 j                     -- 96
        else prev (d + 1) j * m.bs2 t j                         -- 101
      else 0
    let tp : ℝ := ∑ i ∈ Finset.range m.n_S,
      if i = j then 0 else prev 0 i * m.T i j (t - 1)           -- 108-117
    let tp : ℝ :=
      if m.hmp then
        tp * ((if j % 2 = 0 then m.bs3 t 1 j else m.bs3 t 0 j) * m.ds d (m.dcol j) t)  -- 122-130
      else tp * (m.bs2 t j * m.ds d (m.dcol j) t)               -- 135-136
    (c + tp) / LamPrev                                          -- 139-142
  else 0

/-- Contribution of cell `(t,d,j)` holding value `v` to `Lam(t)` (llk.cpp 58-61 and 146-173). -/
noncomputable def lamContrib (m : Tables ℝ) (t d j : ℕ) (v : ℝ) : ℝ :=
  if m.hmp ∧ j % 2 = 1 ∧ m.event_width ≤ d then 0
  else if t < m.n_T - 1 ∨ m.ends_with_last = false then
    if t < m.n_T - 1 ∨ m.ends_in_last = false then v
    else if j = m.n_S - 1 then v else 0
  else if d = 0 then
    if m.ends_in_last = false then v
    else if j = m.n_S - 1 then v else 0
  else 0

/-- `Lam(t)` after the loops over `d` and `j` (llk.cpp 53-175). -/
noncomputable def lamSum (m : Tables ℝ) (t : ℕ) (lam : ℕ → ℕ → ℝ) : ℝ :=
  ∑ d ∈ Finset.range (m.D - 1), ∑ j ∈ Finset.range m.n_S, lamContrib m t d j (lam d j)

/-- Time slice `lam(t,.,.)` of the scaled forward variables (llk.cpp 51-178). The cell at `t-1` and the
normaliser `Lam(t-1)` are those computed in the previous pass of the loop over `t`. -/
noncomputable def lam (m : Tables ℝ) : ℕ → ℕ → ℕ → ℝ
  | 0 => fun d j => lamCell m 0 (fun _ _ => 0) 0 d j
  | t + 1 => fun d j => lamCell m (t + 1) (lam m t) (lamSum m t (lam m t)) d j

/-- `Lam(t)`. -/
noncomputable def Lam (m : Tables ℝ) (t : ℕ) : ℝ := lamSum m t (lam m t)

/-- Return value of `llk` (llk.cpp 48, 177, 180). -/
noncomputable def llk (m : Tables ℝ) : ℝ := ∑ t ∈ Finset.range m.n_T, Real.log (Lam m t)

end Verif.Hsmm
