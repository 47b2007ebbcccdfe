import Verif.EmbedModel
import Mathlib.Data.Real.Basic
import Mathlib.Data.Matrix.Mul
import Mathlib.LinearAlgebra.Matrix.Trace

/-!
# Effective degrees of freedom (property C32)

Model of `calculate_edf`, `calculate_term_edf` and the degrees of freedom part of `update_scale_edf`
(src/mssm/src/python/gamm_solvers.py 890-1228).  Penalties are the `LTerm`s of `EmbedModel`.  Exact
real arithmetic.  Not modelled: the branch for quasi-Newton inverse Hessians (954-967).
-/

namespace Verif.Edf

open Verif.Pen

/-- The leading `p × p` part of an embedded matrix. -/
def toMat (p : ℕ) (A : Arr) : Matrix (Fin p) (Fin p) ℝ := fun i j => A i j

/-- `B = InvCholXXS @ lTerm.D_J_emb; Bps = B.power(2).sum()` (969-970). -/
def bps {p : ℕ} (Linv : Matrix (Fin p) (Fin p) ℝ) (q : LTerm) : ℝ :=
  ∑ i, ∑ j, (Linv * toMat p q.Demb) i j ^ 2

/-- Choice between the two bounds for a clustered random effect (974-984): `b0`, `b1` the entries of
`Bps`, `lg` the entry of `lgdetDs`. -/
noncomputable def pickB (b0 b1 lg : ℝ) : ℝ :=
  if b1 < lg then b1
  else if b1 * 0.7 + b0 * 0.3 < lg then b1 * 0.7 + b0 * 0.3
  else if (b1 + b0) / 2 < lg then (b1 + b0) / 2
  else if b0 < lg then b0
  else lg - 1 / 10 ^ 7

/-- Traces per smoothing parameter (995-1010), for traces `B` per penalty. -/
def mergeBs (qs : List LTerm) (B : LTerm → ℝ) : List ℝ :=
  if shared qs then (qs.filter (unmerged qs)).map B
    ++ (idKeys qs).map fun i => ((qs.filter fun q => q.id = some i).map B).sum
  else qs.map B

/-- `calculate_edf` (890-1012): total degrees of freedom, parameters penalised away per penalty,
traces per smoothing parameter.  `B` is the trace computed for a penalty. -/
noncomputable def calcEdf (B : LTerm → ℝ) (sort : List LTerm → List LTerm) (merged : List LTerm)
    (colsX : ℕ) : ℝ × List ℝ × List ℝ :=
  let qs := split sort merged
  (qs.foldl (fun t q => t - q.lam * B q) colsX, qs.map fun q => q.lam * B q, mergeBs qs B)

/-- Entry of the lists built by `calculate_term_edf`: start index, number of coefficients, parameters
penalised away. -/
structure Ent where
  idx : ℕ
  n : ℕ
  pen : ℝ

/-- Body of the loop of `calculate_term_edf` (1049-1070); the state is the list of entries and
`SJ_idx_max`.  `none`: an exception. -/
def termStep (st : Option (List Ent × ℕ)) (x : LTerm × ℝ) : Option (List Ent × ℕ) :=
  match st with
  | none => none
  | some (es, mx) =>
    if es = [] ∨ x.1.start > mx then some (es ++ [⟨x.1.start, x.1.k * x.1.rep, x.2⟩], x.1.start)
    else
      match es.filter fun e => e.idx = x.1.start with
      | [e] =>
        if e.n = x.1.k * x.1.rep then
          some (es.map fun e => if e.idx = x.1.start then { e with pen := e.pen + x.2 } else e, mx)
        else none
      | _ => none

/-- `calculate_term_edf` (1015-1077). -/
def calcTermEdf (sort : List LTerm → List LTerm) (merged : List LTerm) (params : List ℝ) :
    Option (List ℝ) :=
  ((List.zip (split sort merged) params).foldl termStep (some ([], 0))).map fun st =>
    st.1.map fun e => (e.n : ℝ) - e.pen

/-- Zero rows and columns for dropped coefficients (1193-1201): `keep` lists the kept positions. -/
def embedKeep {k p : ℕ} (keep : Fin k → Fin p) (M : Matrix (Fin k) (Fin k) ℝ) :
    Matrix (Fin p) (Fin p) ℝ :=
  fun i j => ∑ a, ∑ b, if keep a = i ∧ keep b = j then M a b else 0

/-- Degrees of freedom in `update_scale_edf` (1187-1220): `Linv` the inverse factor for the `k` kept
of `p` coefficients, `dropped` the length of `drop`. -/
noncomputable def scaleEdf {k p : ℕ} (keep : Fin k → Fin p) (Linv : Matrix (Fin k) (Fin k) ℝ)
    (sort : List LTerm → List LTerm) (merged : List LTerm) (dropped : ℕ) : ℝ :=
  if merged.length > 0 then (calcEdf (bps (embedKeep keep Linv)) sort merged (p - dropped)).1 else p

/-- `est_scale` exp_fam.py 450-470: residual sum of squares over residual degrees of freedom. -/
noncomputable def estScale {n : ℕ} (res : Fin n → ℝ) (rows edf : ℝ) : ℝ := (∑ i, res i ^ 2) / (rows - edf)

end Verif.Edf
