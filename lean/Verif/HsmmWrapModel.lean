import Verif.HsmmSpec

/-!
# Fixed matrices, decoded paths and duration residuals (properties C99, C100)

Model of the parts of `HSMMFamily` (src/mssm/src/python/hsmm.py) around the computations for one series: `compute_Tpi` (1449-1631),
`decode_viterbi` (1987-2225), `sample_posterior_states` (2227-2471), the duration residuals of `get_resid` (2553-2837) and
`_compute_dur_res_series` (1008-1078).
-/

namespace Verif.HWrap

/-- The constructor's `T` or `pi`: one array or a Python list with one array per series. -/
inductive Fixed (α : Type) where
  | one (a : α)
  | perSeries (l : List α)

/-- What `series_Tpi`, `series_viterbi` and the others use for one series if `fix_T_pi` (1530-1536, 2078-2084, 2325-2331): the entry
of the lists if both are lists, the arguments themselves otherwise. `none`: `IndexError`. -/
def select {α β : Type} (T : Fixed α) (pi : Fixed β) (series : ℕ) : Option (Fixed α × Fixed β) :=
  match T, pi with
  | .perSeries Ts, .perSeries pis =>
    match Ts[series]?, pis[series]? with
    | some a, some b => some (.one a, .one b)
    | _, _ => none
  | T, pi => some (T, pi)

/-- `series_Tpi` (1499-1538); `est` is the result of `_compute_series_probs` for a series if the matrices are estimated. -/
def seriesTpi {α β : Type} (fixed : Bool) (est : ℕ → α × β) (T : Fixed α) (pi : Fixed β) (series : ℕ) : Option (Fixed α × Fixed β) :=
  if fixed then select T pi series else some (.one (est series).1, .one (est series).2)

/-- Loop over the series with one core (1588-1604). The loop assigns its results to the names `T` and `pi` (1592) that `series_Tpi`
reads. -/
def serialTpi {α β : Type} (fixed : Bool) (est : ℕ → α × β) : ℕ → ℕ → Fixed α → Fixed β → Option (List (Fixed α × Fixed β))
  | 0, _, _, _ => some []
  | n + 1, series, T, pi =>
    match seriesTpi fixed est T pi series with
    | none => none
    | some (T', pi') =>
      match serialTpi fixed est n (series + 1) T' pi' with
      | none => none
      | some rest => some ((T', pi') :: rest)

/-- Results collected from all series, `none` if one of them raises. -/
def collect {γ : Type} (f : ℕ → Option γ) : ℕ → ℕ → Option (List γ)
  | 0, _ => some []
  | n + 1, i =>
    match f i, collect f n (i + 1) with
    | some x, some r => some (x :: r)
    | _, _ => none

/-- `compute_Tpi` (1588-1631). `cores = 1` stands for one core or no multiprocessing module; otherwise every series is computed by a
worker from the arguments as they were (1606-1629). -/
def computeTpi {α β : Type} (cores : ℕ) (fixed : Bool) (est : ℕ → α × β) (T : Fixed α) (pi : Fixed β) (n : ℕ) :
    Option (List (Fixed α × Fixed β)) :=
  if cores = 1 then serialTpi fixed est n 0 T pi else collect (seriesTpi fixed est T pi) n 0

/-! ## Decoding -/

/-- A family: matrices fixed or estimated from the covariates of a series, and the autocorrelation matrix as its number of rows
with the map `y ↦ Lrhoi.T @ y`. `X` stands for everything of a series that is not its signal. -/
structure Fam (α β X : Type) where
  fixed : Bool
  est : X → α × β
  T : Fixed α
  pi : Fixed β
  lrho : Option (ℕ × (List ℝ → List ℝ))

/-- `np.split(y, sid[1:])`: series from the numbers of rows between the starts. -/
def cut {γ : Type} (y : List γ) : List ℕ → List (List γ)
  | [] => []
  | [_] => [y]
  | n :: ns => y.take n :: cut (y.drop n) ns

/-- `_split_matrices` (95-231) for the signal: optional transformation, then split. `lens` are the lengths of the series. -/
def splitY (w : Option (List ℝ → List ℝ)) (y : List ℝ) (lens : List ℕ) : List (List ℝ) :=
  match w with
  | none => cut y lens
  | some f => cut (f y) lens

/-- The matrices handed to the decoder of series `i` (2067-2084, 2315-2331). -/
def matrices {α β X : Type} (F : Fam α β X) (i : ℕ) (x : X) : Option (Fixed α × Fixed β) :=
  if F.fixed then select F.T F.pi i else some (.one (F.est x).1, .one (F.est x).2)

/-- `Lrhoi` is used only if the signal has as many rows (2137-2139, 2384-2386). -/
def whiten {α β X : Type} (F : Fam α β X) (y : List ℝ) : Option (List ℝ → List ℝ) :=
  match F.lrho with
  | some (n, f) => if y.length = n then some f else none
  | none => none

/-- `series_viterbi` (2038-2114) or `sample_posterior_series` (2286-2362) for series `i`. -/
def decodeOne {α β X P : Type} (F : Fam α β X) (dec : Fixed α × Fixed β → List ℝ → X → P) (parts : List (List ℝ × X)) (i : ℕ) : Option P :=
  match parts[i]? with
  | none => none
  | some p => (matrices F i p.2).map fun M => dec M p.1 p.2

/-- `decode_viterbi` and, with another `dec`, `sample_posterior_states`: transformation, split, then `dec` for every series
(2178-2225, 2424-2471). `dec` gets the matrices, the signal and the rest of the series; both branches of the code, one core or
several, compute the same list. -/
def decode {α β X P : Type} (F : Fam α β X) (dec : Fixed α × Fixed β → List ℝ → X → P) (y : List ℝ) (lens : List ℕ) (xs : List X) :
    Option (List P) :=
  let parts := (splitY (whiten F y) y lens).zip xs
  collect (decodeOne F dec parts) parts.length 0

/-- The path used for the residuals of series `i` (2657-2665, 2684-2694): decoded on its own, `sid = tid = np.array([0])`. -/
def residOne {α β X P : Type} (F : Fam α β X) (dec : Fixed α × Fixed β → List ℝ → X → P) (parts : List (List ℝ × X)) (i : ℕ) : Option P :=
  match parts[i]? with
  | none => none
  | some p => (decode F dec p.1 [p.1.length] [p.2]).bind fun l => l[0]?

/-- Paths used by `get_resid` for `resid_type` "viterbi_dur" and "posterior_dur" (2654-2665, 2683-2694, 2757-2799): the signal is
transformed and split, then every series is decoded on its own. -/
def residPaths {α β X P : Type} (F : Fam α β X) (dec : Fixed α × Fixed β → List ℝ → X → P) (y : List ℝ) (lens : List ℕ)
    (xs : List X) : Option (List P) :=
  let parts := (splitY (F.lrho.map Prod.snd) y lens).zip xs
  collect (residOne F dec parts) parts.length 0

/-! ## Residuals of durations -/

/-- Ingredients of `_compute_dur_res_series`: number of states, `has dj` is `mus_d[dj] is not None`, `res dj d t` is entry `t` of
`d_fams[dj].get_resid(d, *mus_d[dj])`. -/
structure DurFam where
  n_S : ℕ
  starts_with_first : Bool
  tvdtpi : Bool
  has : ℕ → Bool
  res : ℕ → ℕ → ℕ → ℝ

/-- Variables of the loop (1038-1042). `lists j` is `res[j]`, with `none` for `None`. -/
structure DurSt where
  lists : ℕ → Option (List ℝ)
  d : ℕ
  j : ℕ
  transitions : ℕ
  t : ℕ

/-- Store the residual of one duration (1052-1060, 1069-1076). `append` to `None` raises (`none`). -/
def store (F : DurFam) (lists : ℕ → Option (List ℝ)) (j dj d t : ℕ) : Option (ℕ → Option (List ℝ)) :=
  if F.has dj = false then some (Function.update lists j none)
  else
    match lists j with
    | none => none
    | some l => some (Function.update lists j (some (l ++ [F.res dj d (if F.tvdtpi then t else 0)])))

/-- Loop body (1044-1064). -/
def durStep (F : DurFam) (x : DurSt) (s : ℕ) : Option DurSt :=
  if s = x.j then some { x with d := x.d + 1, t := x.t + 1 }
  else
    let dj := if x.transitions = 0 ∨ F.starts_with_first = true then x.j else x.j + F.n_S
    match store F x.lists x.j dj x.d x.t with
    | none => none
    | some lists => some ⟨lists, 1, s, x.transitions + 1, x.t + 1⟩

/-- The whole loop. -/
def durLoop (F : DurFam) : DurSt → List ℕ → Option DurSt
  | x, [] => some x
  | x, s :: r =>
    match durStep F x s with
    | none => none
    | some y => durLoop F y r

/-- `_compute_dur_res_series` (1008-1078); `states[0]` raises for an empty series. -/
def durRes (F : DurFam) (states : List ℕ) : Option (ℕ → Option (List ℝ)) :=
  match states with
  | [] => none
  | j :: _ =>
    match durLoop F ⟨fun _ => some [], 0, j, 0, 0⟩ states with
    | none => none
    | some x => store F x.lists x.j (if F.starts_with_first = true then x.j else x.j + F.n_S) x.d (x.t - 1)

/-! ## Specification -/

/-- The runs of equal states in a series, earliest first: they follow each other, states of neighbours differ. -/
def Runs : ℕ → List Verif.Hsmm.Seg → Prop
  | _, [] => True
  | t, [s] => s.start = t
  | t, s :: p :: r => s.start = t ∧ s.state ≠ p.state ∧ Runs (t + s.dur + 1) (p :: r)

/-- The states of the runs. -/
def unroll (l : List Verif.Hsmm.Seg) : List ℕ := l.flatMap fun s => List.replicate (s.dur + 1) s.state

/-- Residuals of the runs in state `j`: column of the first run is the state itself, column of later runs depends on
`starts_with_first`; `row s` is the row of the predictors used for run `s`. -/
def wanted (F : DurFam) (row : Verif.Hsmm.Seg → ℕ) (l : List Verif.Hsmm.Seg) (j : ℕ) : List ℝ :=
  ((l.zipIdx).filter fun p => p.1.state = j).map fun p =>
    F.res (if p.2 = 0 ∨ F.starts_with_first = true then p.1.state else p.1.state + F.n_S) (p.1.dur + 1)
      (if F.tvdtpi then row p.1 else 0)

end Verif.HWrap
