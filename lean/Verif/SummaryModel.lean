import Verif.PredictModel

/-!
# Printed summaries (properties C85 and C87)

Model of `print_parametric_terms` (src/mssm/src/python/utils.py 675-811), `print_smooth_terms` (814-1021) and of the part of
`approx_smooth_p_values` (1096-1538) choosing the coefficients and degrees of freedom of each test (1183-1259, 1529-1538).
The tests themselves are in `WaldModel.lean`. Exact arithmetic: rounding for printing is left out, and a standard error of
zero (`inf` or `nan` in the source) divides to zero here. The distribution functions of scipy are inputs.
-/

namespace Verif.Summary

open Matrix Predict

/-- `n_j_coef` linear coefficients, whether the family is a `Family` (a GAMM), whether it has a scale parameter
(`twopar`), and the degrees of freedom `len(y[NOT_NA]) - n_coef`. -/
structure Par where
  M : Fit
  isFamily : Bool
  twopar : Bool
  nj : ℕ
  dof : ℤ

/-- One printed line: value, statistic with sign, p-value. -/
structure Row where
  coef : ℝ
  stat : ℝ
  p : ℝ

/-- `form`, `coef`, `lvi` (718-742): all coefficients of a GAMM, else piece `par`. -/
def coefs (P : Par) (par : ℕ) : Option (ℕ × ℕ) :=
  if P.isFamily then some (0, P.M.p) else piece P.M par

/-- `scale` (725, 740). -/
def scale (P : Par) : ℝ := if P.isFamily then P.M.scale else 1

/-- Diagonal entry `j` of `V_b_j` (765-769), for coefficients starting at `s`. -/
noncomputable def vbj (P : Par) (s j : ℕ) : ℝ := (∑ l, P.M.lvi l (s + j) * P.M.lvi l (s + j)) * scale P

/-- `ts` (772). -/
noncomputable def ts (P : Par) (s j : ℕ) : ℝ := |P.M.coef (s + j) / √(vbj P s j)|

/-- Line of coefficient `j` (760-794). -/
noncomputable def line (ncdf : ℝ → ℝ) (tcdf : ℤ → ℝ → ℝ) (P : Par) (s j : ℕ) : Row :=
  ⟨P.M.coef (s + j), SignType.sign (P.M.coef (s + j)) * ts P s j,
    (1 - (if P.isFamily && P.twopar then tcdf P.dof (ts P s j) else ncdf (ts P s j))) * 2⟩

/-- `print_parametric_terms` for a fitted model (718-811); `coef[:n_j_coef]` has at most as many entries as there are
coefficients. `none`: an exception. -/
noncomputable def parametric (ncdf : ℝ → ℝ) (tcdf : ℤ → ℝ → ℝ) (P : Par) (par : ℕ) : Option (List Row) :=
  (coefs P par).map fun se => (List.range (min P.nj (se.2 - se.1))).map (line ncdf tcdf P se.1)

/-- Stars (801-808; 931-938, 962-969). -/
noncomputable def stars (p : ℝ) : String :=
  if p < 0.001 then " ***" else if p < 0.01 then " **" else if p < 0.05 then " *" else if p < 0.1 then " ." else ""

/-! ### Rows for smooth and random terms -/

/-- A smooth term (or impulse response term): its index; the numbers of coefficients of its functions, one per level
if it has a `by` variable and no id, else one; whether it is `fs`; whether it is penalised. -/
structure STerm where
  idx : ℕ
  sizes : List ℕ
  isFs : Bool
  penalized : Bool

/-- A random term: one part per level for `rs` with a `by` variable, else one. -/
structure RTerm where
  idx : ℕ
  sizes : List ℕ

/-- A formula: number of coefficients of linear terms, then the other terms by kind. -/
structure Form where
  lin : ℕ
  irf : List STerm
  smooth : List STerm
  rand : List RTerm

/-- `coef_per_term` of a smooth term. -/
def STerm.ncoef (t : STerm) : ℕ := t.sizes.sum

/-- `unpenalized_coef` (formula.py 783-874): linear terms and unpenalised impulse response and smooth terms. -/
def unpenalized (F : Form) : ℕ :=
  F.lin + (((F.irf ++ F.smooth).filter fun t => !t.penalized).map STerm.ncoef).sum

/-- A test made by `approx_smooth_p_values`: term, number of the function within the term, first coefficient, end, degrees
of freedom. `edf = none`: `term_edf[edf_idx]` is out of range, an exception. -/
structure Test where
  idx : ℕ
  part : ℕ
  start : ℕ
  stop : ℕ
  edf : Option ℝ

/-- Loop variables of 1247-1251: tests so far, `start_coef`, `edf_idx`. -/
structure TSt where
  out : List Test
  start : ℕ
  edf : ℕ

/-- One pass of the loop over functions (1263-1531): `n` is `n_s_coef`. -/
def testFun (edf : List ℝ) (idx n : ℕ) (st : TSt) (part : ℕ) : TSt :=
  ⟨st.out ++ [⟨idx, part, st.start, st.start + n, edf[st.edf]?⟩], st.start + n, st.edf + 1⟩

/-- One pass of the loop over smooth terms (1252-1535). With one function `n_s_coef` is the number of coefficients of the
term, else the integer quotient by the number of levels (1256-1261). -/
def testTerm (edf : List ℝ) (st : TSt) (t : STerm) : TSt :=
  if t.isFs = false then
    (List.range t.sizes.length).foldl (testFun edf t.idx (t.ncoef / t.sizes.length)) st
  else ⟨st.out, st.start + t.ncoef, st.edf + 1⟩

/-- Tests of `approx_smooth_p_values` (1242-1537). -/
def tests (F : Form) (edf : List ℝ) : List Test := (F.smooth.foldl (testTerm edf) ⟨[], unpenalized F, 0⟩).out

/-- A line printed by `print_smooth_terms`: term, number of the function, its degrees of freedom and, if p-values are
printed, the position in `ps` of its p-value. -/
structure Line where
  idx : ℕ
  part : ℕ
  edf : Option ℝ
  p : Option ℕ

/-- Loop variables of 903-906: lines, `edf_idx`, `p_idx`. -/
structure LSt where
  out : List Line
  edf : ℕ
  p : ℕ

/-- Line of one function (911-943, 945-974). -/
def printFun (edf : List ℝ) (t : STerm) (st : LSt) (part : ℕ) : LSt :=
  if t.isFs = false then ⟨st.out ++ [⟨t.idx, part, edf[st.edf]?, some st.p⟩], st.edf + 1, st.p + 1⟩
  else ⟨st.out ++ [⟨t.idx, part, edf[st.edf]?, none⟩], st.edf + 1, st.p⟩

/-- Lines of a smooth term (907-976). -/
def printTerm (edf : List ℝ) (st : LSt) (t : STerm) : LSt :=
  (List.range t.sizes.length).foldl (printFun edf t) st

/-- Lines of a random term (978-1001). -/
def printRand (edf : List ℝ) (st : LSt) (t : RTerm) : LSt :=
  (List.range t.sizes.length).foldl (fun st part => ⟨st.out ++ [⟨t.idx, part, edf[st.edf]?, none⟩], st.edf + 1, st.p⟩) st

/-- Lines of `print_smooth_terms` with p-values (901-1001). -/
def lines (F : Form) (edf : List ℝ) : List Line :=
  (F.rand.foldl (printRand edf) (F.smooth.foldl (printTerm edf) ⟨[], 0, 0⟩)).out

/-- Fields of a penalty used here: `start_index`, `dist_param`, and `rep_sj * S_J.shape[1]`. -/
structure Pn where
  start : ℕ
  par : ℕ
  dim : ℕ

/-- Loop variables of 873-875: `term_edf`, `prev_start_idx`, `prev_edf_idx`; `true` after `break`. -/
structure ESt where
  out : List (Option ℝ)
  prev : ℤ
  idx : ℕ
  stop : Bool

/-- Body of the loop in `print_smooth_terms` (878-889). -/
def edfStepPrint (all : List ℝ) (par : ℕ) (st : ESt) (q : Pn) : ESt :=
  if st.stop then st
  else if q.par > par then { st with stop := true }
  else if (q.start : ℤ) > st.prev then
    ⟨if q.par = par then st.out ++ [all[st.idx]?] else st.out, q.start, st.idx + 1, false⟩
  else st

/-- Body of the loop in `approx_smooth_p_values` (1214-1238); `all` is `term_edf1` or `term_edf`. -/
noncomputable def edfStepTest (all : List ℝ) (par : ℕ) (st : ESt) (q : Pn) : ESt :=
  if st.stop then st
  else if (q.start : ℤ) > st.prev then
    if q.par > par then { st with stop := true }
    else ⟨if q.par = par then st.out ++ [(all[st.idx]?).map fun e => min e (q.dim : ℝ)] else st.out, q.start, st.idx + 1, false⟩
  else st

/-- `term_edf` of parameter `par` in `print_smooth_terms` (869-889). -/
def parEdfPrint (all : List ℝ) (par : ℕ) (pens : List Pn) : List (Option ℝ) :=
  (pens.foldl (edfStepPrint all par) ⟨[], -1, 0, false⟩).out

/-- `term_edf` of parameter `par` in `approx_smooth_p_values` (1205-1238). -/
noncomputable def parEdfTest (all : List ℝ) (par : ℕ) (pens : List Pn) : List (Option ℝ) :=
  (pens.foldl (edfStepTest all par) ⟨[], -1, 0, false⟩).out

end Verif.Summary
