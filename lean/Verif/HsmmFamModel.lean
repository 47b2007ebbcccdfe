import Verif.HsmmFtpModel
import Verif.HsmmGradModel
import Verif.LssModel

/-!
Model of the class `HSMMFamily`, `src/mssm/src/python/hsmm.py`: probability tables from coefficients
(`_compute_series_probs`, 356-792), log-likelihood (`llk`, 2883-3080) and gradient (`gradient`, 3126-4260), for models
whose emissions are independent signals with one family each (no event template, no `MultiGauss`).

Simplifications. The counter `idx` that walks over `ys`, `Xs` and `split_coef` is replaced by names of the formulas
(`Key`), in the order of the loops (`allKeys`). A family is given by its log density as a function of the linear
predictors and by the derivatives the code works with (`lp`, and `dpars` or `deriv_transform_mu_eta`). `shared_pars` is
`[0, ..., n_shared - 1]`: the code indexes the list of shared predictors with the parameter itself (444, 3212), which
raises for other values. Entries are finite real numbers, so that the replacements of NaN and infinity (2930-2940, 3368,
3523, 3671, 3706, 3714, 3815, 3851, 3911, 3927) do nothing.
-/

namespace Verif.HFam

open Hsmm

/-- Formulas, i.e. blocks of coefficients: shared part of parameter `par` (and signal `m`), parameter `par` of signal `m`
in state `j`, parameter `par` of the duration column `j`, `par`-th predictor of the transitions out of `j`, `par`-th
predictor of the initial distribution. -/
inductive Key
  | sh (par m : ℕ)
  | em (j m par : ℕ)
  | du (j par : ℕ)
  | tr (j par : ℕ)
  | ini (par : ℕ)
deriving DecidableEq

/-- A family with the response it is evaluated at: `lp i e` is the log density of observation `i` (row of the series, or
duration `i + 1`) at the linear predictors `e`, and `d1 i e par` the derivative handed to the gradient code. -/
structure Fam where
  n_par : ℕ
  lp : ℕ → (ℕ → ℝ) → ℝ
  d1 : ℕ → (ℕ → ℝ) → ℕ → ℝ

/-- Fixed transition matrix and initial distribution. -/
structure FixTP where
  T2 : ℕ → ℕ → ℝ
  T3 : ℕ → ℕ → ℕ → ℝ
  pi : ℕ → ℝ

/-- One series. `X k t c` is entry `(t, c)` of the model matrix of formula `k`; matrices of durations, transitions and
initial distribution have a single row unless `tvdtpi`. -/
structure Model where
  n_T : ℕ
  D : ℕ
  n_S : ℕ
  M : ℕ
  starts_with_first : Bool
  ends_with_last : Bool
  ends_in_last : Bool
  tvdtpi : Bool
  obs : ℕ → ℕ → Fam
  dur : ℕ → Fam
  n_shared : ℕ
  shared_m : Bool
  fixed : Option FixTP
  p : Key → ℕ
  X : Key → ℕ → ℕ → ℝ

abbrev Coef := Key → ℕ → ℝ

/-- `n_S * (1 if starts_with_first else 2)` -/
def Model.nd (h : Model) : ℕ := h.n_S * (if h.starts_with_first then 1 else 2)

/-- `Xs[idx] @ split_coef[idx]` -/
noncomputable def eta (h : Model) (β : Coef) (k : Key) (t : ℕ) : ℝ := ∑ c ∈ Finset.range (h.p k), h.X k t c * β k c

/-- `shared_eta[par][m]` if not `shared_m`, else `shared_eta[par][0]` (534-538, 3271-3279). -/
def shKey (h : Model) (par m : ℕ) : Key := .sh par (if h.shared_m then 0 else m)

/-- `etasbjm` (527-538, 3253-3279): a list of `n_par` predictors. -/
noncomputable def emEta (h : Model) (β : Coef) (j m t par : ℕ) : ℝ :=
  if par < (h.obs j m).n_par then
    eta h β (.em j m par) t + (if par < h.n_shared then eta h β (shKey h par m) t else 0)
  else 0

/-- `bs[t,j]` (543-554, 657-659, 3425, 3522). -/
noncomputable def bsAt (h : Model) (β : Coef) (t j : ℕ) : ℝ :=
  Real.exp (∑ m ∈ Finset.range h.M, (h.obs j m).lp t (emEta h β j m t))

/-- `etasdj` at row `t` (670-676). -/
noncomputable def duEta (h : Model) (β : Coef) (j t par : ℕ) : ℝ :=
  if par < (h.dur j).n_par then eta h β (.du j par) t else 0

/-- `np.exp(lpd)` at row `t` (678-685, 3636, 3655). -/
noncomputable def rds (h : Model) (β : Coef) (j t d : ℕ) : ℝ := Real.exp ((h.dur j).lp d (duEta h β j t))

/-- `ds[d,j]`, `ds[d,j,t]` with the predictors of row `t` (701-711). -/
noncomputable def dsAt (h : Model) (β : Coef) (j t d : ℕ) : ℝ :=
  rds h β j t d / ∑ d' ∈ Finset.range (h.D - 1), rds h β j t d'

/-- `mustj` at row `t` (728-737), `LOG` links. -/
noncomputable def muT (h : Model) (β : Coef) (j t : ℕ) : Fin (h.n_S - 2) → ℝ := fun q => Real.exp (eta h β (.tr j q) t)

/-- The list of probabilities built from the means of `MULNOMLSS` (744-756, 784-786): `mu_first = sum + 1`, divide, and
insert `1 / mu_first` in front. -/
noncomputable def mnRow {K : ℕ} (mus : Fin K → ℝ) : List ℝ :=
  1 / Lss.norm mus :: List.ofFn fun q => mus q / Lss.norm mus

/-- `T[j, idx] = v`, read at `i`; entries that are not assigned keep 0. -/
def assign (idx : List ℕ) (v : List ℝ) (i : ℕ) : ℝ := ((idx.zip v).lookup i).getD 0

/-- `Tj_idx` (741) -/
def tjIdx (n j : ℕ) : List ℕ := (List.range n).filter (· ≠ j)

/-- `T[i,j]`, `T[i,j,t]` with the predictors of row `t` (723-764). With two states and `tvdtpi` the array of line 764 has
four axes; reading it with three indices returns the entries of line 760-761. -/
noncomputable def TAt (h : Model) (β : Coef) (t i j : ℕ) : ℝ :=
  if 2 < h.n_S then assign (tjIdx h.n_S i) (mnRow (muT h β i t)) j
  else if (i = 0 ∧ j = 1) ∨ (i = 1 ∧ j = 0) then 1 else 0

/-- `muspi` (776-782): first row of the trial. -/
noncomputable def muPi (h : Model) (β : Coef) : Fin (h.n_S - 1) → ℝ := fun q => Real.exp (eta h β (.ini q) 0)

/-- `pi[j]` (784-787). -/
noncomputable def piAt (h : Model) (β : Coef) (j : ℕ) : ℝ := (mnRow (muPi h β)).getD j 0

/-- The tables handed to `hsmm.llk` (2896-2964) and, computed again, to the gradient code (3126-3936). -/
noncomputable def tables (h : Model) (β : Coef) : Tables ℝ where
  n_T := h.n_T
  D := h.D
  n_S := h.n_S
  event_width := 0
  starts_with_first := h.starts_with_first
  ends_with_last := h.ends_with_last
  ends_in_last := h.ends_in_last
  hmp := false
  tvdtpi := h.tvdtpi
  bs2 := bsAt h β
  bs3 := fun _ _ _ => 0
  ds2 := fun d j => dsAt h β j 0 d
  ds3 := fun d j t => dsAt h β j t d
  T2 := fun i j => match h.fixed with
    | some f => f.T2 i j
    | none => TAt h β 0 i j
  T3 := fun i j t => match h.fixed with
    | some f => f.T3 i j t
    | none => TAt h β t i j
  pi := fun j => match h.fixed with
    | some f => f.pi j
    | none => piAt h β j

/-- `series_llk` (2883-2965). -/
noncomputable def seriesLlk (h : Model) (β : Coef) : ℝ := llk (tables h β)

/-! ### Gradient -/

/-- A column of `b_grad` (3331-3358): derivative in parameter `par` of signal `m` of state `j` times column `c` of the
model matrix of `k` (the formula itself or the shared one appended to it, 3282-3284). -/
noncomputable def emCol (h : Model) (β : Coef) (j m par : ℕ) (k : Key) (c : ℕ) : GradTables where
  kind := .emission
  jidx := j
  b_grad := fun t => (h.obs j m).d1 t (emEta h β j m t) par * h.X k t c
  d_grad2 := fun _ => 0
  d_grad3 := fun _ _ => 0
  T_grad2 := fun _ => 0
  T_grad3 := fun _ _ => 0
  pi_grad := fun _ => 0

/-- The derivative of the normalised durations at row `t` (3604-3669). -/
noncomputable def durGrad (h : Model) (β : Coef) (j par c t d : ℕ) : ℝ :=
  let gradPar := fun d => (h.dur j).d1 d (duEta h β j t) par * h.X (.du j par) t c
  let gradParD := fun d => rds h β j t d * gradPar d
  let norm := ∑ d' ∈ Finset.range (h.D - 1), rds h β j t d'
  let normedSum := ∑ d' ∈ Finset.range (h.D - 1), gradParD d'
  (gradParD d * norm - rds h β j t d * normedSum) / norm ^ 2

noncomputable def durCol (h : Model) (β : Coef) (j par c : ℕ) : GradTables where
  kind := .duration
  jidx := j
  b_grad := fun _ => 0
  d_grad2 := durGrad h β j par c 0
  d_grad3 := fun d t => durGrad h β j par c t d
  T_grad2 := fun _ => 0
  T_grad3 := fun _ _ => 0
  pi_grad := fun _ => 0

/-- A column of `T_grad` (3755-3830): `MULNOMLSS.dpars` at the classes `0, ..., n_S - 2`. -/
noncomputable def trGrad (h : Model) (β : Coef) (j par c t q : ℕ) : ℝ :=
  (Lss.mnD1 q (muT h β j t) par).getD 0 * h.X (.tr j par) t c

noncomputable def trCol (h : Model) (β : Coef) (j par c : ℕ) : GradTables where
  kind := .transition
  jidx := j
  b_grad := fun _ => 0
  d_grad2 := fun _ => 0
  d_grad3 := fun _ _ => 0
  T_grad2 := trGrad h β j par c 0
  T_grad3 := fun q t => trGrad h β j par c t q
  pi_grad := fun _ => 0

/-- A column of `pi_grad` (3886-3920). -/
noncomputable def piCol (h : Model) (β : Coef) (par c : ℕ) : GradTables where
  kind := .initial
  jidx := 0
  b_grad := fun _ => 0
  d_grad2 := fun _ => 0
  d_grad3 := fun _ _ => 0
  T_grad2 := fun _ => 0
  T_grad3 := fun _ _ => 0
  pi_grad := fun j => (Lss.mnD1 j (muPi h β) par).getD 0 * h.X (.ini par) 0 c

/-- The loops over states, signals and parameters (3223-3257). -/
def emBlocks (h : Model) : List (ℕ × ℕ × ℕ) :=
  (List.range h.n_S).flatMap fun j => (List.range h.M).flatMap fun m =>
    (List.range (h.obs j m).n_par).map fun par => (j, m, par)

def duBlocks (h : Model) : List (ℕ × ℕ) :=
  (List.range h.nd).flatMap fun j => (List.range (h.dur j).n_par).map fun par => (j, par)

def trBlocks (h : Model) : List (ℕ × ℕ) :=
  if h.fixed.isNone ∧ 2 < h.n_S then
    (List.range h.n_S).flatMap fun j => (List.range (h.n_S - 2)).map fun par => (j, par)
  else []

def piBlocks (h : Model) : List ℕ := if h.fixed.isNone then List.range (h.n_S - 1) else []

/-- Columns of `b_grad` of one formula: its own columns, then the columns of the shared formula (3282-3284). -/
noncomputable def blockCols (h : Model) (β : Coef) (b : ℕ × ℕ × ℕ) : List GradTables :=
  (List.range (h.p (.em b.1 b.2.1 b.2.2))).map (emCol h β b.1 b.2.1 b.2.2 (.em b.1 b.2.1 b.2.2)) ++
    if b.2.2 < h.n_shared then
      (List.range (h.p (shKey h b.2.2 b.2.1))).map (emCol h β b.1 b.2.1 b.2.2 (shKey h b.2.2 b.2.1))
    else []

/-- The columns after those of the emission models. -/
noncomputable def restCols (h : Model) (β : Coef) : List GradTables :=
  ((duBlocks h).flatMap fun b => (List.range (h.p (.du b.1 b.2))).map (durCol h β b.1 b.2)) ++
  ((trBlocks h).flatMap fun b => (List.range (h.p (.tr b.1 b.2))).map (trCol h β b.1 b.2)) ++
  ((piBlocks h).flatMap fun par => (List.range (h.p (.ini par))).map (piCol h β par))

/-- Arguments of `llkFTPgrad` for a column (4059-4088). -/
noncomputable def toFtp (g : GradTables) : Ftp where
  isDur := match g.kind with
    | .duration => true
    | _ => false
  jidx := g.jidx
  midx := 0
  b_grad := g.b_grad
  d_grad2 := g.d_grad2
  d_grad3 := g.d_grad3
  y := fun _ _ => 0
  mu := fun _ _ _ => 0
  weights := fun _ => 0
  scale := 1
  hmp_code := 0
  rho := 999

/-- The entry of `grad` for a column (3957-3978, 4059-4088). -/
noncomputable def entry (h : Model) (β : Coef) (g : GradTables) : ℝ :=
  if h.fixed.isSome then llkFTPgrad (tables h β) (toFtp g) else llkgrad (tables h β) g

/-- `grad` with duplicates of the shared coefficients. -/
noncomputable def rawGrad (h : Model) (β : Coef) : List ℝ :=
  ((emBlocks h).flatMap (blockCols h β) ++ restCols h β).map (entry h β)

/-- Collection of the positions of duplicates, with the counter `total_coef` (3286-3309): the positions of the columns
of the shared formula start after the own columns of the block. -/
def dupScan (h : Model) : List (ℕ × ℕ × ℕ) → ℕ → List (Key × List ℕ)
  | [], _ => []
  | b :: r, tot =>
    let own := h.p (.em b.1 b.2.1 b.2.2)
    if b.2.2 < h.n_shared then
      let s := h.p (shKey h b.2.2 b.2.1)
      (shKey h b.2.2 b.2.1, List.range' (tot + own) s) :: dupScan h r (tot + s + own)
    else dupScan h r (tot + own)

/-- The shared formulas in order (4097-4112). -/
def sharedKeys (h : Model) : List Key :=
  (List.range h.n_shared).flatMap fun par => (List.range (if h.shared_m then 1 else h.M)).map fun m => .sh par m

/-- The unique gradient (4091-4131): with shared formulas the entries of duplicates are added up and moved to the front,
followed by the entries whose positions are not those of duplicates. -/
noncomputable def collect (h : Model) (grad : List ℝ) : List ℝ :=
  if h.n_shared = 0 then grad
  else
    let dup := dupScan h (emBlocks h) 0
    let flat := dup.flatMap (·.2)
    ((sharedKeys h).flatMap fun k => (List.range (h.p k)).map fun c =>
        ((dup.filter fun e => e.1 = k).map fun e => grad.getD (e.2.getD c 0) 0).sum) ++
      ((List.range grad.length).filter fun i => i ∉ flat).map fun i => grad.getD i 0

/-- The gradient of one series (3126-4152). -/
noncomputable def seriesGrad (h : Model) (β : Coef) : List ℝ := collect h (rawGrad h β)

/-- All formulas in the order of `split_coef`. -/
def allKeys (h : Model) : List Key :=
  sharedKeys h ++ (emBlocks h).map (fun b => .em b.1 b.2.1 b.2.2) ++ (duBlocks h).map (fun b => .du b.1 b.2) ++
    (trBlocks h).map (fun b => .tr b.1 b.2) ++ (piBlocks h).map .ini

/-- `HSMMFamily.llk` for several series without autocorrelation (3026-3044, 3072). -/
noncomputable def famLlk (hs : List Model) (β : Coef) : ℝ := (hs.map fun h => seriesLlk h β).sum

/-- Sum of arrays of the same length (4227-4230, 4258); `none` before the first series. -/
noncomputable def addGrad (a : Option (List ℝ)) (b : List ℝ) : Option (List ℝ) :=
  match a with
  | none => some b
  | some a => some (List.zipWith (· + ·) a b)

/-- `HSMMFamily.gradient` (4209-4260). -/
noncomputable def famGrad (hs : List Model) (β : Coef) : Option (List ℝ) :=
  hs.foldl (fun a h => addGrad a (seriesGrad h β)) none

/-! ### Coefficient vector, shared parameters, event durations -/

/-- First position of formula `k` in the coefficient vector: after the blocks of the formulas before it. -/
def offs (K : List Key) (p : Key → ℕ) (k : Key) : ℕ := ((K.takeWhile (· ≠ k)).map p).sum

def offset (h : Model) (k : Key) : ℕ := offs (allKeys h) h.p k

/-- `np.split(coef, coef_split_idx)` (401, 3182): block `k` of the coefficient vector. The value outside of the blocks is
never read. -/
def splitBy (K : List Key) (p : Key → ℕ) (coef : ℕ → ℝ) : Coef := fun k c =>
  if k ∈ K ∧ c < p k then coef (offs K p k + c) else 0

def split (h : Model) (coef : ℕ → ℝ) : Coef := splitBy (allKeys h) h.p coef

/-- Number of coefficients. -/
def nCoef (h : Model) : ℕ := ((allKeys h).map h.p).sum

/-- `shared_eta` (433-445): for every `par` in `shared_pars` an empty list is appended and then the list at position `par`
is extended by the `n` predictors of the formula; `none` is an `IndexError`. (`par` is non-negative.) -/
def buildShared {α : Type} (f : ℕ → List α) (shared_pars : List ℕ) : Option (List (List α)) :=
  shared_pars.foldlM (fun acc par =>
    let acc := acc ++ [[]]
    if par < acc.length then some (acc.modify par (· ++ f par)) else none) []

/-- Durations of an event (bump) state without family, durations that do not vary (690-692, 709-711): `exp` of `-inf`
everywhere except position `event_width - 1`; `none` is an `IndexError`. -/
noncomputable def bumpDs (D ew : ℕ) : Option (ℕ → ℝ) :=
  let e : ℕ → ℝ := fun d => if d = ew - 1 then 1 else 0
  if ew - 1 < D - 1 then some (fun d => e d / ∑ d' ∈ Finset.range (D - 1), e d') else none

/-- The same with `tvdtpi` (690-695, 701-705): `lpd` becomes a list of `D - 1` copies of the vector, and the assignment
`ds[di, j, :] = np.exp(lpd[di].flatten())` puts a vector of length `D - 1` into a row of length `n_T`. NumPy raises
(`none`) unless the lengths agree or the vector has length one. An entry `none` is NaN (0 / 0). -/
noncomputable def bumpDsTv (n_T D ew : ℕ) : Option (ℕ → ℕ → Option ℝ) :=
  let e : ℕ → ℝ := fun d => if d = ew - 1 then 1 else 0
  if ew - 1 < D - 1 then
    if D - 1 = n_T ∨ D - 1 = 1 then
      let r : ℕ → ℝ := fun t => if D - 1 = 1 then e 0 else e t
      some (fun _ t =>
        let s := ∑ _d' ∈ Finset.range (D - 1), r t
        if s = 0 then none else some (r t / s))
    else none
  else none

end Verif.HFam
