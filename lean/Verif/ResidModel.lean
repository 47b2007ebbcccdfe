import Verif.SampleModel
import Mathlib.Analysis.SpecialFunctions.Pow.Real

/-!
Model of the residuals for hidden semi-Markov models, `src/mssm/src/cpp/hsmm/resid.cpp`: `forward_resid` (lines 12-257)
and `predictive_resid` (lines 259-603, for `hmp_code == 0`).
-/

namespace Verif.Hsmm

/-- Value of `lam(t,d,j)` or `clam(t,m,d,j)` after the loop body (resid.cpp 65-201). The code computes both with the same
branches; `lam` uses the densities `bs` at time `t`, `clam` the distribution functions `cbs` of signal `m` at time `t`:
`e2 j` is `bs(t,j)` or `cbs(t,j,m)`, `e3 k j` is `bs(t,k,j)` or `cbs(t,m,k,j)`. `prev`, `LamPrev` are `lam(t-1,.,.)` and
`Lam(t-1)`. -/
noncomputable def residCell (m : Tables ℝ) (e2 : ℕ → ℝ) (e3 : ℕ → ℕ → ℝ) (t : ℕ) (prev : ℕ → ℕ → ℝ) (LamPrev : ℝ)
    (d j : ℕ) : ℝ :=
  if t = 0 then
    if m.hmp then m.pi j * e3 0 j * m.ds d j t                             -- 69-74
    else m.pi j * e2 j * m.ds d j t                                        -- 78-83
  else if t + d < m.n_T ∨ m.ends_with_last = false then                    -- 88
    let c : ℝ :=
      if d + 1 ≤ m.D - 2 then
        if m.hmp then
          if j % 2 = 1 then
            if d ≤ m.event_width - 1 then prev (d + 1) j * e3 ((m.event_width - 1) - d) j   -- 102-107
            else 0                                                         -- 111
          else prev (d + 1) j * e3 0 j                                     -- 121-123
        else prev (d + 1) j * e2 j                                         -- 129-133
      else 0
    let tp : ℝ := ∑ i ∈ Finset.range m.n_S, if i = j then 0 else prev 0 i * m.T i j (t - 1)  -- 141-150
    let tp : ℝ :=
      if m.hmp then tp * (if j % 2 = 0 then e3 1 j else e3 0 j) * m.ds d (m.dcol j) t     -- 155-178
      else tp * e2 j * m.ds d (m.dcol j) t                                 -- 187-195
    (c + tp) / LamPrev                                                     -- 181, 198, 203
  else 0

/-- `lam(t,.,.)` of the residual functions. -/
noncomputable def fwdLam (m : Tables ℝ) : ℕ → ℕ → ℕ → ℝ
  | 0 => fun d j => residCell m (m.bs2 0) (m.bs3 0) 0 (fun _ _ => 0) 0 d j
  | t + 1 => fun d j => residCell m (m.bs2 (t + 1)) (m.bs3 (t + 1)) (t + 1) (fwdLam m t) (sbLam m t (fwdLam m t)) d j

/-- `resid(t,m)` of `forward_resid` for one signal: `c2 j = cbs(t,j,m)`, `c3 k j = cbs(t,m,k,j)`. The cells that are added
(resid.cpp 208-249) are those added to `Lam(t)`. -/
noncomputable def forwardResid (m : Tables ℝ) (c2 : ℕ → ℝ) (c3 : ℕ → ℕ → ℝ) : ℕ → ℝ
  | 0 => sbLam m 0 (residCell m c2 c3 0 (fun _ _ => 0) 0)
  | t + 1 => sbLam m (t + 1) (residCell m c2 c3 (t + 1) (fwdLam m t) (sbLam m t (fwdLam m t)))

/-- `elam(t,m,d,j)` of `predictive_resid`, `hmp_code == 0` (resid.cpp 352, 426-429, 501-508). `mu` is the memory of the
Fortran-ordered array `mus` of shape `(n_T, M, n_S)`: `mus(t,m,j)` is `mu (t + n_T * (m + M * j))`. When a state is
entered the code reads `mus(t,j)` with two indices (line 501); pybind11's unchecked access multiplies the indices with the
first two strides, which is the entry `mu (t + n_T * j)`. -/
noncomputable def elamCell (m : Tables ℝ) (M sig : ℕ) (mu : ℕ → ℝ) (t : ℕ) (prev : ℕ → ℕ → ℝ) (LamPrev : ℝ) (d j : ℕ) : ℝ :=
  if t = 0 then m.pi j * mu (t + m.n_T * (sig + M * j)) * m.ds d j t
  else if t + d < m.n_T ∨ m.ends_with_last = false then
    let c : ℝ := if d + 1 ≤ m.D - 2 then prev (d + 1) j * mu (t + m.n_T * (sig + M * j)) else 0
    let tp : ℝ := ∑ i ∈ Finset.range m.n_S, if i = j then 0 else prev 0 i * m.T i j (t - 1)
    (c + tp * mu (t + m.n_T * j) * m.ds d (m.dcol j) t) / LamPrev
  else 0

/-- `e(t,m)` (resid.cpp 517-556). -/
noncomputable def predE (m : Tables ℝ) (M sig : ℕ) (mu : ℕ → ℝ) : ℕ → ℝ
  | 0 => sbLam m 0 (elamCell m M sig mu 0 (fun _ _ => 0) 0)
  | t + 1 => sbLam m (t + 1) (elamCell m M sig mu (t + 1) (fwdLam m t) (sbLam m t (fwdLam m t)))

/-- `resid(n,m)` after the first pair of loops (resid.cpp 566-577): running sum of `y(n,m) - e(n,m)`. -/
noncomputable def cumResid (r : ℕ → ℝ) : ℕ → ℝ
  | 0 => r 0
  | n + 1 => cumResid r n + r (n + 1)

/-- `resid_sd(m)` and `resid1(m)` after iteration `n` of the last loop (resid.cpp 583-596). -/
noncomputable def sdLoop (r : ℕ → ℝ) : ℕ → ℝ × ℝ
  | 0 => (cumResid r 0 ^ 2, cumResid r 0)
  | n + 1 => ((sdLoop r n).1 + (cumResid r (n + 1) - (sdLoop r n).2) ^ 2, cumResid r (n + 1))

/-- The returned `resid(n,m)`; `r n = y(n,m) - e(n,m)`. Row 0 is not touched by the last loop. -/
noncomputable def predResid (r : ℕ → ℝ) : ℕ → ℝ
  | 0 => cumResid r 0
  | n + 1 => cumResid r (n + 1) / Real.sqrt (sdLoop r (n + 1)).1

end Verif.Hsmm
