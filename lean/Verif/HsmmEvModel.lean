import Verif.HsmmFamModel

/-!
Model of event ("HMP-like") models of the class `HSMMFamily`, `src/mssm/src/python/hsmm.py`: data, means and tables
(`_compute_series_probs`, 356-792), log-likelihood (`llk`, 2883-3080) and gradient (`gradient`, 3126-4260). Event models
start with the first state (1252-1255), the code handles them with fixed transition matrix and initial distribution only
(C76), and with durations that do not vary over the series (C77).

The names of the formulas, their order, the block structure of the coefficient vector and the collection of duplicates
of shared coefficients are those of `Verif.HsmmFamModel`. Data are those after multiplication with `Lrhoi` (C79).
-/

namespace Verif.HEv

open Hsmm HFam

/-- One series. `resp k` is the response of formula `k`: `ys[i]`, or `ys[0]` where `ys[i]` is `None` (359-360,
3134-3135), which `get_ys` (models.py 362-371) uses for formulas with the response of the first formula. -/
structure Ev where
  n_T : ℕ
  D : ℕ
  n_S : ℕ
  M : ℕ
  ends_with_last : Bool
  ends_in_last : Bool
  event_width : ℕ
  template : ℕ → ℝ
  scale : ℝ
  gaussian : Bool
  rho : Option ℝ
  /-- `d_fams`; `None` for events of fixed width -/
  dur : ℕ → Option Fam
  /-- `0 in shared_pars` -/
  shared : Bool
  shared_m : Bool
  fix : FixTP
  p : Key → ℕ
  X : Key → ℕ → ℕ → ℝ
  resp : Key → ℕ → ℝ

/-- A family that only says how many formulas there are. -/
noncomputable def slots (n : ℕ) : Fam where
  n_par := n
  lp := fun _ _ => 0
  d1 := fun _ _ _ => 0

/-- Formulas: one for every signal of every event state (563-567, 3431-3435), none for the signals of flats; as many as
parameters for the duration family of a state, none if there is no family (666-676, 3529-3546). -/
noncomputable def Ev.fm (v : Ev) : Model where
  n_T := v.n_T
  D := v.D
  n_S := v.n_S
  M := v.M
  starts_with_first := true
  ends_with_last := v.ends_with_last
  ends_in_last := v.ends_in_last
  tvdtpi := false
  obs := fun j _ => slots (if j % 2 = 1 then 1 else 0)
  dur := fun j => (v.dur j).getD (slots 0)
  n_shared := if v.shared then 1 else 0
  shared_m := v.shared_m
  fixed := some v.fix
  p := v.p
  X := v.X

/-- `y_mat[:,m] = ys[m]` (621-625, 3515-3518): entry `m` of the list of responses of all formulas. -/
noncomputable def ymat (v : Ev) (t m : ℕ) : ℝ :=
  if m < v.M then (((allKeys v.fm).map v.resp).getD m (fun _ => 0)) t else 0

/-- `mus[t,m,j]` (569-579, 3435-3472): identity link, shared predictor added; 0 for flats (622, 3516). -/
noncomputable def mus (v : Ev) (β : Coef) (t m j : ℕ) : ℝ :=
  if j < v.n_S ∧ m < v.M ∧ j % 2 = 1 then emEta v.fm β j m t 0 else 0

/-- What the emission tables are built from (405-431, 561-661, 3981-4052). -/
noncomputable def args (v : Ev) (β : Coef) : EventArgs where
  M := v.M
  event_width := v.event_width
  y := ymat v
  mu := mus v β
  template := v.template
  scale := v.scale
  hmp_code := if v.gaussian then 2 else 1
  rho := v.rho

/-- `ds[d,j]` (665-711, 3529-3716): normalised probabilities of the family, or the event width with probability one. A
flat without family raises (697, 3695-3697). -/
noncomputable def evDs (v : Ev) (β : Coef) (d j : ℕ) : ℝ :=
  if j < v.n_S then
    match v.dur j with
    | some _ => dsAt v.fm β j 0 d
    | none => ((bumpDs v.D v.event_width).getD fun _ => 0) d
  else 0

/-- The tables other than the emission probabilities. -/
noncomputable def base (v : Ev) (β : Coef) : Tables ℝ where
  n_T := v.n_T
  D := v.D
  n_S := v.n_S
  event_width := v.event_width
  starts_with_first := true
  ends_with_last := v.ends_with_last
  ends_in_last := v.ends_in_last
  hmp := true
  tvdtpi := false
  bs2 := fun _ _ => 0
  bs3 := fun _ _ _ => 0
  ds2 := evDs v β
  ds3 := fun _ _ _ => 0
  T2 := v.fix.T2
  T3 := v.fix.T3
  pi := v.fix.pi

/-- The tables handed to `hsmm.llk` (2896-2964) and `hsmm.llkFTPgrad` (4059-4084). -/
noncomputable def tabs (v : Ev) (β : Coef) : Tables ℝ :=
  { base v β with
    bs3 := eventBs (args v β) }

/-- `series_llk` (2883-2965). -/
noncomputable def seriesLlk (v : Ev) (β : Coef) : ℝ := llk (tabs v β)

/-- Entry of `grad` for column `c` of formula `k` in the block of signal `m` of event state `j`: `b_grad` is the column
of the model matrix (3474-3510), `j_idx_grad` and `m_idx_grad` name the state and the signal. -/
noncomputable def emEntry (v : Ev) (β : Coef) (b : ℕ × ℕ × ℕ) (k : Key) (c : ℕ) : ℝ :=
  llkFTPgrad (tabs v β)
    { isDur := false
      jidx := b.1
      midx := b.2.1
      b_grad := fun t => v.X k t c
      d_grad2 := fun _ => 0
      d_grad3 := fun _ _ => 0
      y := ymat v
      mu := mus v β
      weights := v.template
      scale := v.scale
      hmp_code := (args v β).hmp_code
      rho := v.rho.getD 999 }

/-- Entry of `grad` for column `c` of parameter `par` of the durations of state `j` (3598-3680). -/
noncomputable def duEntry (v : Ev) (β : Coef) (j par c : ℕ) : ℝ :=
  llkFTPgrad (tabs v β)
    { isDur := true
      jidx := j
      midx := 0
      b_grad := fun _ => 0
      d_grad2 := durGrad v.fm β j par c 0
      d_grad3 := fun _ _ => 0
      y := ymat v
      mu := mus v β
      weights := v.template
      scale := v.scale
      hmp_code := (args v β).hmp_code
      rho := v.rho.getD 999 }

/-- `grad` with duplicates: for every signal of every event state the entries of its own columns, then those of the
shared formula (3475-3486); then the durations. -/
noncomputable def rawGrad (v : Ev) (β : Coef) : List ℝ :=
  ((emBlocks v.fm).flatMap fun b =>
    (List.range (v.p (.em b.1 b.2.1 b.2.2))).map (emEntry v β b (.em b.1 b.2.1 b.2.2)) ++
      if v.shared then (List.range (v.p (shKey v.fm 0 b.2.1))).map (emEntry v β b (shKey v.fm 0 b.2.1)) else []) ++
  ((duBlocks v.fm).flatMap fun b => (List.range (v.p (.du b.1 b.2))).map (duEntry v β b.1 b.2))

/-- The gradient of one series (3126-4152). -/
noncomputable def seriesGrad (v : Ev) (β : Coef) : List ℝ := collect v.fm (rawGrad v β)

/-- `HSMMFamily.llk` up to the term of the autocorrelation (3026-3044, 3072; C79). -/
noncomputable def famLlk (vs : List Ev) (β : Coef) : ℝ := (vs.map fun v => seriesLlk v β).sum

/-- `HSMMFamily.gradient` (4209-4260). -/
noncomputable def famGrad (vs : List Ev) (β : Coef) : Option (List ℝ) :=
  vs.foldl (fun a v => addGrad a (seriesGrad v β)) none

end Verif.HEv
