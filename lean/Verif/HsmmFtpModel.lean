import Verif.HsmmModel
import Mathlib.Analysis.SpecialFunctions.Sqrt
import Mathlib.Analysis.SpecialFunctions.Trigonometric.Basic

/-!
Model of the gradient of the hidden semi-Markov log-likelihood with fixed transition matrix and initial distribution,
`src/mssm/src/cpp/hsmm/llk.cpp: llkFTPgrad` (lines 183-892), for one coefficient, and of the emission tables of event
(`hmp`) models, `src/mssm/src/python/hsmm.py: _compute_series_probs` (lines 561-661).

As in `Verif.HsmmGradModel` the slices of `psi` of different coefficients do not interact, so the model follows one
coefficient. The forward pass of `llkFTPgrad` (260-287, 363-425, 807-846) is `lam` of `Verif.HsmmModel`.
-/

namespace Verif.Hsmm

/-- Arguments of `llkFTPgrad` that are not tables, and the gradient columns of the coefficient. -/
structure Ftp where
  /-- the coefficient is handled by the loop over `d_grad` (338-361, 655-804), else by that over `b_grad` (294-337, 430-653) -/
  isDur : Bool
  /-- `j_idx_grad(tci)` -/
  jidx : ℕ
  /-- `m_idx_grad(ci)` -/
  midx : ℕ
  /-- `b_grad(t,ci)`: derivative of the log emission probability, or of the mean in event models -/
  b_grad : ℕ → ℝ
  /-- `d_grad(d,ci)` -/
  d_grad2 : ℕ → ℝ
  /-- `d_grad(d,ci,t)` -/
  d_grad3 : ℕ → ℕ → ℝ
  /-- `y(t,m)` -/
  y : ℕ → ℕ → ℝ
  /-- `mu(t,m,j)` -/
  mu : ℕ → ℕ → ℕ → ℝ
  /-- `weights(k)`, the event template -/
  weights : ℕ → ℝ
  scale : ℝ
  /-- 0: no event model, 1: exponential, 2: Gaussian -/
  hmp_code : ℕ
  /-- 999 for "no autocorrelation" -/
  rho : ℝ

namespace Ftp
variable (a : Ftp)

/-- llk.cpp 254-258 -/
noncomputable def d0 : ℝ := if a.rho < 999 then 1 / Real.sqrt (1 - a.rho ^ 2) else 0

/-- llk.cpp 254-258 -/
noncomputable def d1 : ℝ := if a.rho < 999 then -a.rho / Real.sqrt (1 - a.rho ^ 2) else 0

/-- `(hmp_code == 1) ? 2 : 1` -/
def fac : ℝ := if a.hmp_code = 1 then 2 else 1

/-- `b * (fac * (y(t,m) - ebump) / scale) * dbump` (320-322, 479-481, 542-544, 628-630) -/
noncomputable def bgc (b : ℝ) (t : ℕ) (ebump dbump : ℝ) : ℝ :=
  b * ((a.fac * (a.y t a.midx - ebump)) / a.scale) * dbump

/-- `ebump`, `dbump` at the first time point of an event (311-318, 533-540) -/
noncomputable def ebump0 (t j : ℕ) : ℝ :=
  if a.rho < 999 then a.weights 0 * a.mu t a.midx j * a.d0 else a.weights 0 * a.mu t a.midx j

noncomputable def dbump0 (t : ℕ) : ℝ :=
  if a.rho < 999 then a.weights 0 * a.b_grad t * a.d0 else a.weights 0 * a.b_grad t

/-- `ebump`, `dbump` at slot `k = (event_width-1) - d` of a continued event (454-477) -/
noncomputable def ebumpC (t k j : ℕ) : ℝ :=
  if a.rho < 999 then
    a.weights k * a.mu t a.midx j * a.d0 +
      (if 0 < k then a.d1 * a.weights (k - 1) * a.mu (t - 1) a.midx j else 0)
  else a.weights k * a.mu t a.midx j

noncomputable def dbumpC (t k : ℕ) : ℝ :=
  if a.rho < 999 then
    a.weights k * a.b_grad t * a.d0 + (if 0 < k then a.d1 * a.weights (k - 1) * a.b_grad (t - 1) else 0)
  else a.weights k * a.b_grad t

end Ftp

/-- `(tvdtpi) ? d_grad(d,ci,t): d_grad(d,ci)` -/
def ftpDG (m : Tables ℝ) (a : Ftp) (d t : ℕ) : ℝ := if m.tvdtpi then a.d_grad3 d t else a.d_grad2 d

/-- `psi(t1,d,j,tci)` at `t = 0` (llk.cpp 277-361). -/
noncomputable def ftpInit (m : Tables ℝ) (a : Ftp) (d j : ℕ) : ℝ :=
  if a.isDur then
    if a.jidx = j then
      if a.hmp_code ≠ 0 then m.pi j * m.bs3 0 0 j * ftpDG m a d 0                    -- 347-348
      else m.pi j * m.bs2 0 j * ftpDG m a d 0                                       -- 352-353
    else 0
  else if a.jidx = j then
    let bc := if a.hmp_code ≠ 0 then a.bgc (m.bs3 0 0 j) 0 (a.ebump0 0 j) (a.dbump0 0)   -- 311-322
      else m.bs2 0 j * a.b_grad 0                                                   -- 326
    m.pi j * bc * m.ds d j 0                                                        -- 331
  else 0

/-- `b1` (366-383); only used when `(d+1) <= (D-2)`. -/
def ftpB1 (m : Tables ℝ) (t d j : ℕ) : ℝ :=
  if j % 2 = 1 then (if d ≤ m.event_width - 1 then m.bs3 t ((m.event_width - 1) - d) j else 0) else m.bs3 t 0 j

/-- `b2` (408-414 and copies). -/
def ftpB2 (m : Tables ℝ) (t j : ℕ) : ℝ := if j % 2 = 0 then m.bs3 t 1 j else m.bs3 t 0 j

/-- `psi(t1,d,j,tci)` for `t > 0` in a cell that is computed (llk.cpp 427-804), after the division by `Lam(t-1)`
(809-812). `pl`, `pp` are `lam(t-1,.,.)` and `psi(t2,.,.)`. In the comparison `j_idx_grad(tci) == (j-1)` (line 622) the
unsigned `j-1` of state 0 is larger than any index. -/
noncomputable def ftpStep (m : Tables ℝ) (a : Ftp) (t : ℕ) (pl pp : ℕ → ℕ → ℝ) (LamPrev : ℝ) (d j : ℕ) : ℝ :=
  let tp := ∑ i ∈ Finset.range m.n_S, if i = j then 0 else pl 0 i * m.T i j (t - 1)
  let tpg := ∑ i ∈ Finset.range m.n_S, if i = j then 0 else pp 0 i * m.T i j (t - 1)
  let dsc := m.ds d (m.dcol j) t
  let cont : ℝ :=
    if d + 1 ≤ m.D - 2 then (if a.hmp_code ≠ 0 then pp (d + 1) j * ftpB1 m t d j else pp (d + 1) j * m.bs2 t j) else 0
  let v : ℝ :=
    if a.isDur then
      if a.jidx = m.dcol j then
        if a.hmp_code ≠ 0 then
          cont + tpg * ftpB2 m t j * dsc + tp * ftpB2 m t j * ftpDG m a d t          -- 668-722
        else cont + tpg * m.bs2 t j * dsc + tp * m.bs2 t j * ftpDG m a d t           -- 726-736
      else if a.hmp_code ≠ 0 then cont + tpg * ftpB2 m t j * dsc                     -- 746-791
      else cont + tpg * m.bs2 t j * dsc                                              -- 794-799
    else if a.jidx = j then
      if a.hmp_code ≠ 0 then
        (if d + 1 ≤ m.D - 2 then
          pp (d + 1) j * ftpB1 m t d j +
            (if d ≤ m.event_width - 1 then
              a.bgc (ftpB1 m t d j) t (a.ebumpC t ((m.event_width - 1) - d) j)
                (a.dbumpC t ((m.event_width - 1) - d))
             else 0) * pl (d + 1) j
         else 0)                                                                    -- 445-497
        + tpg * m.bs3 t 0 j * dsc                                                    -- 527-530
        + tp * a.bgc (m.bs3 t 0 j) t (a.ebump0 t j) (a.dbump0 t) * dsc               -- 533-551
      else
        (if d + 1 ≤ m.D - 2 then pp (d + 1) j * m.bs2 t j + a.b_grad t * m.bs2 t j * pl (d + 1) j else 0)   -- 490-491
        + tpg * m.bs2 t j * dsc + tp * a.b_grad t * m.bs2 t j * dsc                  -- 555-565
    else if a.hmp_code ≠ 0 then
      cont
        + (if j % 2 = 0 ∧ a.rho < 999 ∧ a.jidx + 1 = j then
            tp * a.bgc (ftpB2 m t j) t (a.d1 * a.weights (m.event_width - 1) * a.mu (t - 1) a.midx (j - 1))
              (a.d1 * a.weights (m.event_width - 1) * a.b_grad (t - 1)) * dsc
           else 0)                                                                  -- 622-636
        + tpg * ftpB2 m t j * dsc                                                    -- 638-640
    else cont + tpg * m.bs2 t j * dsc                                               -- 645-648
  v / LamPrev

/-- The two slots of `psi` after time `t` (llk.cpp 216-220, 262-263). Skipped cells keep what slot `t % 2` held before:
bumps with `d >= event_width` (271-274) in every pass, and for `t > 0` cells that would outlast the series (363). -/
noncomputable def ftpBuf (m : Tables ℝ) (a : Ftp) : ℕ → (ℕ → ℕ → ℝ) × (ℕ → ℕ → ℝ)
  | 0 => (fun d j => if a.hmp_code ≠ 0 ∧ j % 2 = 1 ∧ m.event_width ≤ d then 0 else ftpInit m a d j, fun _ _ => 0)
  | t + 1 =>
    let old := ftpBuf m a t
    (fun d j =>
      if a.hmp_code ≠ 0 ∧ j % 2 = 1 ∧ m.event_width ≤ d then old.2 d j
      else if t + 1 + d < m.n_T ∨ m.ends_with_last = false then
        ftpStep m a (t + 1) (lam m t) old.1 (Lam m t) d j
      else old.2 d j, old.1)

/-- `grad(tci)` (llk.cpp 849-889). -/
noncomputable def llkFTPgrad (m : Tables ℝ) (a : Ftp) : ℝ :=
  let psi := (ftpBuf m a (m.n_T - 1)).1
  (if m.ends_with_last then
    if m.ends_in_last = false then ∑ j ∈ Finset.range m.n_S, psi 0 j
    else psi 0 (m.n_S - 1)
   else
    ∑ d ∈ Finset.range (m.D - 1),
      if m.ends_in_last = false then ∑ j ∈ Finset.range m.n_S, psi d j
      else psi d (m.n_S - 1)) / Lam m (m.n_T - 1)

/-- The whole array `grad` (llk.cpp 245-247, 809-812, 849-889): one entry for each of the `n_coef` coefficients. The
loops fill `psi(.,.,.,tci)` for the columns of `b_grad` and `d_grad` only; the slices of further coefficients keep the
initial value 0 (line 220). -/
noncomputable def llkFTPgradAll (m : Tables ℝ) (cols : List Ftp) (n_coef : ℕ) : List ℝ :=
  (List.range n_coef).map fun tci => match cols[tci]? with
    | some a => llkFTPgrad m a
    | none => 0 / Lam m (m.n_T - 1)

/-! ### Emission tables of event models -/

/-- `ld_wrapper` (hsmm.py 421-428): `scipy.stats.expon.logpdf((y - pred)**2, scale=scale)` for the exponential,
`scipy.stats.norm.logpdf(y, loc=pred, scale=scale**0.5)` for the Gaussian. -/
noncomputable def ldWrapper (hmp_code : ℕ) (y pred scale : ℝ) : ℝ :=
  if hmp_code = 1 then -((y - pred) ^ 2 / scale) - Real.log scale
  else -(((y - pred) / Real.sqrt scale) ^ 2 / 2) - Real.log (Real.sqrt (2 * Real.pi)) - Real.log (Real.sqrt scale)

/-- What the emission tables of an event model are built from: data, means of the bump states, event template. -/
structure EventArgs where
  M : ℕ
  event_width : ℕ
  y : ℕ → ℕ → ℝ
  /-- `mus[t,m,j]` of bump states -/
  mu : ℕ → ℕ → ℕ → ℝ
  template : ℕ → ℝ
  scale : ℝ
  hmp_code : ℕ
  rho : Option ℝ

/-- `np.concatenate(([0], v[:-1]))` at row `t` -/
def lag (v : ℕ → ℝ) (t : ℕ) : ℝ := if t = 0 then 0 else v (t - 1)

/-- Expected value of signal `m` at time `t` in slot `k` of bump `j` (hsmm.py 584-597). -/
noncomputable def eBump (e : EventArgs) (t m k j : ℕ) : ℝ :=
  match e.rho with
  | none => e.template k * e.mu t m j
  | some r =>
    if 0 < k then
      1 / Real.sqrt (1 - r ^ 2) * (e.template k * e.mu t m j)
        + -r / Real.sqrt (1 - r ^ 2) * (e.template (k - 1) * lag (fun s => e.mu s m j) t)
    else 1 / Real.sqrt (1 - r ^ 2) * (e.template k * e.mu t m j)

/-- Expected value of signal `m` at time `t` in slot `k` of flat `j` (hsmm.py 627-642); slot 0 has mean zero. -/
noncomputable def eFlat (e : EventArgs) (t m k j : ℕ) : ℝ :=
  if k = 0 then 0
  else match e.rho with
    | none => 0
    | some r =>
      if 0 < j then -r / Real.sqrt (1 - r ^ 2) * (e.template (e.event_width - 1) * lag (fun s => e.mu s m (j - 1)) t)
      else 0

/-- `bs[t,k,j]` (hsmm.py 610, 644-650, 661): exponential of the sum over signals of the log densities; the slots of a
flat other than 0 and 1 hold `exp(-inf) = 0`. -/
noncomputable def eventBs (e : EventArgs) (t k j : ℕ) : ℝ :=
  if j % 2 = 1 then Real.exp (∑ m ∈ Finset.range e.M, ldWrapper e.hmp_code (e.y t m) (eBump e t m k j) e.scale)
  else if k ≤ 1 then
    Real.exp (∑ m ∈ Finset.range e.M, ldWrapper e.hmp_code (e.y t m) (eFlat e t m k j) e.scale)
  else 0

end Verif.Hsmm
