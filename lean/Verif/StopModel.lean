import Verif.ChkModel
import Verif.SchedModel

/-!
# Early stop, callback and result of the sampler (property C111)

Model of the parts of `sample_mssm` (src/mssm/src/python/mcmc.py) left open in `SchedModel`: blocks of parameters of a draw
(1217-1242), slices given to the convergence check and criteria of the early stop (1258-1371), callback (1373-1396), result
(1404-1412). Diagnostics of arviz are parameters (`Chk.Diag`), with real values; `nan` is left out (comparisons with `nan` are false,
so that the sampler does not stop). Progress bar and shared memory are left out.
-/

namespace Verif.Stop

open Verif.Sched

/-- A draw: log density and parameter vector (rows of `omegaprime`). -/
abbrev Draw := ℝ × (ℕ → ℝ)

/-- Arguments and dimensions: number of coefficients, scale, theta and smoothing parameters (593-615), options (355-383). `nLam` is the
number of penalties, their parameters are sampled if `sampleRho`. -/
structure Opt where
  nCoef : ℕ
  nScale : ℕ
  nTheta : ℕ
  nLam : ℕ
  sampleRho : Bool
  autoConverge : Bool
  hasArviz : Bool
  convType : ℕ
  minEss : ℝ
  maxRhat : ℝ
  splitIdx : Option (List ℕ)
  forms : List Chk.Form

/-- Sampled quantities: `SamplerResult` (custom_types.py 247-251). -/
structure Result where
  lps : Chk.Samples
  coefs : Chk.Samples
  lscales : Option Chk.Samples
  thetas : Option Chk.Samples
  rhos : Option Chk.Samples

variable {c : ℕ}

/-- Rows `from_ .. upto - 1` of an array whose entry for a chain and a draw is `v chain draw`; chains out of range have no entry (zero). -/
def slice (c np from_ upto : ℕ) (v : Fin c → ℕ → ℕ → ℝ) : Chk.Samples :=
  ⟨c, upto - from_, np, fun ch i j => if h : ch < c then v ⟨ch, h⟩ (from_ + i) j else 0⟩

/-- Array of the log densities (1242). -/
def lpArr (s : Fin c → ℕ → Draw) : Fin c → ℕ → ℕ → ℝ := fun ch i _ => (s ch i).1

/-- Array of the coefficients (1220, 1241). -/
def coefArr (s : Fin c → ℕ → Draw) : Fin c → ℕ → ℕ → ℝ := fun ch i j => (s ch i).2 j

/-- Array of the log scale parameters (1224-1227). -/
def scaleArr (o : Opt) (s : Fin c → ℕ → Draw) : Fin c → ℕ → ℕ → ℝ := fun ch i j => (s ch i).2 (o.nCoef + j)

/-- Array of theta parameters (1230-1234): written only if there is no scale parameter. -/
def thetaArr (o : Opt) (s : Fin c → ℕ → Draw) : Fin c → ℕ → ℕ → ℝ :=
  fun ch i j => if 0 < o.nScale then 0 else (s ch i).2 (o.nCoef + j)

/-- Array of the log smoothing parameters (1237-1239). -/
def rhoArr (o : Opt) (s : Fin c → ℕ → Draw) : Fin c → ℕ → ℕ → ℝ :=
  fun ch i j => (s ch i).2 (o.nCoef + o.nScale + o.nTheta + j)

/-- All arrays, rows `from_ .. upto - 1` (1326-1357, 1377-1395, 1404-1410): arrays that were not set up (1123-1134) are `None`. -/
def pack (o : Opt) (s : Fin c → ℕ → Draw) (from_ upto : ℕ) : Result where
  lps := slice c 1 from_ upto (lpArr s)
  coefs := slice c o.nCoef from_ upto (coefArr s)
  lscales := if 0 < o.nScale then some (slice c o.nScale from_ upto (scaleArr o s)) else none
  thetas := if 0 < o.nTheta then some (slice c o.nTheta from_ upto (thetaArr o s)) else none
  rhos := if o.sampleRho then some (slice c o.nLam from_ upto (rhoArr o s)) else none

/-- Arrays given to the convergence check after `k` draws (1263-1297): the first half is left out if `auto_converge`, except for the
log density. -/
def checked (o : Opt) (s : Fin c → ℕ → Draw) (k : ℕ) : Result :=
  { pack o s (if o.autoConverge then k / 2 else 0) k with lps := slice c 1 0 k (lpArr s) }

/-- `check_convergence` of these arrays (1299-1307), one diagnostic; `none` is an exception. -/
noncomputable def report (o : Opt) (f : Chk.Diag) (q : Result) : Option (List ℝ) :=
  Chk.check f (some q.coefs) q.lscales q.thetas (some q.lps) q.rhos o.splitIdx o.forms o.convType

/-- Outcome of the check after `k` draws (1261-1325). `np.min(ess) > x` and `np.max(rhat) < x` for arrays that are not empty. The outer
`none` is an exception. The number of draws is tested in `run`. -/
noncomputable def stop (o : Opt) (ess rhat : Chk.Diag) (s : Fin c → ℕ → Draw) (k : ℕ) : Option Bool := by
  classical
  exact
    if 2 * c < k / 4 ∧ o.hasArviz = true then do
      let e ← report o ess (checked o s k)
      let r ← report o rhat (checked o s k)
      return decide ((∀ x ∈ e, o.minEss * c < x) ∧ (∀ x ∈ r, x < o.maxRhat) ∧ o.autoConverge = true)
    else some false

/-- Result of a call: what is returned, and the calls of the callback with their first arguments. -/
structure Ret where
  res : Result
  calls : List (ℕ × Result)
  st : ℕ

/-- The loop (1140-1396) and the result (1404-1412). Exceptions of the check and lack of fuel are `none`. -/
noncomputable def run (o : Opt) (cfg : Cfg) (adv : Adv Draw c) (ess rhat : Chk.Diag) : ℕ → St Draw c → List (ℕ × Result) → Option Ret
  | 0, _, _ => none
  | fuel + 1, st, calls =>
    if st.iter < cfg.nIter + cfg.Madapt then
      let st' := body cfg adv st
      if cfg.Madapt < st'.iter then
        let k := st'.iter - cfg.Madapt
        match stop o ess rhat st'.samples k with
        | none => none
        | some b =>
          if b = true ∧ 2 * cfg.minIter ≤ k then some ⟨pack o st'.samples (k / 2) k, calls, st'.iter⟩
          else run o cfg adv ess rhat fuel st' (calls ++ [(k, pack o st'.samples 0 k)])
      else run o cfg adv ess rhat fuel st' calls
    else some ⟨pack o st.samples 0 cfg.nIter, calls, st.iter⟩

end Verif.Stop
