import Verif.HsmmModel

/-!
Model of the gradient of the hidden semi-Markov log-likelihood, `src/mssm/src/cpp/hsmm/llk.cpp: llkgrad`
(lines 894-1480), for one coefficient. The code keeps one slice of `psi` per coefficient (`tci`); slices of different
coefficients do not interact, so the model follows one coefficient of one of the four kinds.
`llkgrad` has no `hmp` branches: its forward pass (952-1056, 1400) is `lam` of `Verif.HsmmModel` with `hmp = false`.
-/

namespace Verif.Hsmm

/-- Which loop of the code handles the coefficient: emission (971-995, 1061-1161), duration (996-1010, 1163-1250),
transition (1012-1020, 1251-1359) or initial state (1022-1030, 1360-1398). -/
inductive Kind
  | emission
  | duration
  | transition
  | initial

/-- Gradient tables, restricted to the coefficient. -/
structure GradTables where
  kind : Kind
  /-- `j_idx_grad(tci)` -/
  jidx : ℕ
  /-- `b_grad(t,ci)` -/
  b_grad : ℕ → ℝ
  /-- `d_grad(d,ci)` -/
  d_grad2 : ℕ → ℝ
  /-- `d_grad(d,ci,t)` -/
  d_grad3 : ℕ → ℕ → ℝ
  /-- `T_grad(k,ci)` -/
  T_grad2 : ℕ → ℝ
  /-- `T_grad(k,ci,t)` -/
  T_grad3 : ℕ → ℕ → ℝ
  /-- `pi_grad(j,ci)` -/
  pi_grad : ℕ → ℝ

/-- `(tvdtpi) ? d_grad(d,ci,t): d_grad(d,ci)` -/
def dG (m : Tables ℝ) (g : GradTables) (d t : ℕ) : ℝ := if m.tvdtpi then g.d_grad3 d t else g.d_grad2 d

/-- `(tvdtpi) ? T_grad(k,ci,t): T_grad(k,ci)` -/
def tG (m : Tables ℝ) (g : GradTables) (k t : ℕ) : ℝ := if m.tvdtpi then g.T_grad3 k t else g.T_grad2 k

/-- The search loop for `tidx` (llk.cpp 1329-1344): walk over `ti = 0, 1, ...`, skip `i`, stop at `j`. -/
def tidxLoop (i j : ℕ) : List ℕ → ℕ → ℕ
  | [], acc => acc
  | ti :: rest, acc =>
    if ti = i then tidxLoop i j rest acc
    else if ti = j then acc
    else tidxLoop i j rest (acc + 1)

def tidx (n_S i j : ℕ) : ℕ := tidxLoop i j (List.range n_S) 0

/-- The unsigned sum `tpg` over `i ≠ j` of `psi(t2,0,i) * T(i,j,t-1)` (llk.cpp 1096-1107 and copies). -/
noncomputable def tpgSum (m : Tables ℝ) (t : ℕ) (pp : ℕ → ℕ → ℝ) (j : ℕ) : ℝ :=
  ∑ i ∈ Finset.range m.n_S, if i = j then 0 else pp 0 i * m.T i j (t - 1)

/-- `psi(t1,d,j,tci)` at `t = 0` (llk.cpp 970-1030). For transition coefficients the initial value 0 is kept. -/
noncomputable def psiInit (m : Tables ℝ) (g : GradTables) (d j : ℕ) : ℝ :=
  match g.kind with
  | .emission => if g.jidx = j then m.pi j * (m.bs2 0 j * g.b_grad 0) * m.ds d j 0 else 0       -- 974-993
  | .duration => if g.jidx = j then m.pi j * m.bs2 0 j * dG m g d 0 else 0                      -- 1001-1008
  | .transition => 0                                                                           -- 1012-1020
  | .initial => (m.pi j * g.pi_grad j) * m.bs2 0 j * m.ds d j 0                                -- 1026-1027

/-- `psi(t1,d,j,tci)` for `t > 0` in a cell that is computed (llk.cpp 1060-1398), after the division by `Lam(t-1)`.
`pl`, `pp` are `lam(t-1,.,.)` and `psi(t2,.,.)`. For initial-state coefficients the code indexes the duration table
without the time index (line 1395) also when the table is time-varying; reading a 3-d array with two indices returns
the entry for time 0. -/
noncomputable def psiStep (m : Tables ℝ) (g : GradTables) (t : ℕ) (pl pp : ℕ → ℕ → ℝ) (LamPrev : ℝ) (d j : ℕ) : ℝ :=
  let tp := ∑ i ∈ Finset.range m.n_S, if i = j then 0 else pl 0 i * m.T i j (t - 1)
  let plain := if d + 1 ≤ m.D - 2 then pp (d + 1) j * m.bs2 t j else 0
  let v : ℝ :=
    match g.kind with
    | .emission =>
      if g.jidx = j then
        (if d + 1 ≤ m.D - 2 then (pp (d + 1) j * m.bs2 t j) + (g.b_grad t * m.bs2 t j * pl (d + 1) j) else 0)
          + tpgSum m t pp j * m.bs2 t j * m.ds d (m.dcol j) t
          + tp * g.b_grad t * m.bs2 t j * m.ds d (m.dcol j) t                                  -- 1065-1124
      else plain + tpgSum m t pp j * m.bs2 t j * m.ds d (m.dcol j) t                           -- 1126-1158
    | .duration =>
      if g.jidx = m.dcol j then
        plain + tpgSum m t pp j * m.bs2 t j * m.ds d (m.dcol j) t
          + tp * m.bs2 t j * dG m g d t                                                        -- 1169-1212
      else plain + tpgSum m t pp j * m.bs2 t j * m.ds d (m.dcol j) t                           -- 1214-1247
    | .transition =>
      if g.jidx = j then plain + tpgSum m t pp j * m.bs2 t j * m.ds d (m.dcol j) t             -- 1257-1293
      else
        let tpg := ∑ i ∈ Finset.range m.n_S,
          if i = j then 0
          else pp 0 i * m.T i j (t - 1) +
            (if g.jidx = i then pl 0 i * m.T i j (t - 1) * tG m g (tidx m.n_S i j) (t - 1) else 0)
        plain + tpg * m.bs2 t j * m.ds d (m.dcol j) t                                          -- 1295-1355
    | .initial =>
      let dsWrong := if m.tvdtpi then m.ds3 d (m.dcol j) 0 else m.ds2 d (m.dcol j)
      plain + tpgSum m t pp j * m.bs2 t j * dsWrong                                            -- 1369-1395
  v / LamPrev

/-- The two slots of `psi` after time `t`: current slot `t % 2` and the other slot. Cells that are skipped at time `t`
keep what slot `t % 2` held before, i.e. the value of time `t - 2`. -/
noncomputable def psiBuf (m : Tables ℝ) (g : GradTables) : ℕ → (ℕ → ℕ → ℝ) × (ℕ → ℕ → ℝ)
  | 0 => (fun d j => psiInit m g d j, fun _ _ => 0)
  | t + 1 =>
    let old := psiBuf m g t
    (fun d j =>
      if t + 1 + d < m.n_T ∨ m.ends_with_last = false then
        psiStep m g (t + 1) (lam m t) old.1 (Lam m t) d j
      else old.2 d j, old.1)

/-- `grad(tci)` (llk.cpp final loops, same as 850-889 of `llkFTPgrad`). -/
noncomputable def llkgrad (m : Tables ℝ) (g : GradTables) : ℝ :=
  let psi := (psiBuf m g (m.n_T - 1)).1
  (if m.ends_with_last then
    if m.ends_in_last = false then ∑ j ∈ Finset.range m.n_S, psi 0 j
    else psi 0 (m.n_S - 1)
   else
    ∑ d ∈ Finset.range (m.D - 1),
      if m.ends_in_last = false then ∑ j ∈ Finset.range m.n_S, psi d j
      else psi d (m.n_S - 1)) / Lam m (m.n_T - 1)

end Verif.Hsmm
