import Verif.HsmmModel
import Mathlib.Algebra.Order.Monoid.Unbundled.WithTop

/-!
Model of Viterbi decoding, `src/mssm/src/cpp/hsmm/decode.cpp: viterbi` (lines 14-241).

Log-probabilities are `WithBot ℝ`, `⊥` is minus infinity (`-INFINITY`). The integer `-1` used for "no state" is `none`.
Reading `psi` outside its bounds is modelled by the result `none` of the back-tracking.
-/

namespace Verif.Hsmm

/-- `if (tmp_d2 > tmp_d) { tmp_d = tmp_d2; tmp_j = i; }` (decode.cpp 107-111, 144-148, 169-174). -/
noncomputable def upd {ι : Type} (acc : WithBot ℝ × Option ι) (c : WithBot ℝ) (i : ι) : WithBot ℝ × Option ι :=
  if acc.1 < c then (c, some i) else acc

/-- `(delta(t,d,j), psi(t,d,j))` after the loop body for `(t,d,j)` (decode.cpp 62-153). -/
noncomputable def vitCell (m : Tables (WithBot ℝ)) (t : ℕ) (prev : ℕ → ℕ → WithBot ℝ) (d j : ℕ) :
    WithBot ℝ × Option ℕ :=
  if t = 0 then
    if m.hmp then (m.pi j + m.bs3 t 0 j + m.ds d j t, none)              -- 66
    else (m.pi j + m.bs2 t j + m.ds d j t, none)                          -- 70
  else if t + d < m.n_T ∨ m.ends_with_last = false then                   -- 74
    let acc : WithBot ℝ × Option ℕ := (⊥, none)                          -- 77-79
    let acc :=
      if d + 1 ≤ m.D - 2 then                                             -- 80
        let c :=
          if m.hmp then
            if j % 2 = 1 then
              if d ≤ m.event_width - 1 then
                prev (d + 1) j + m.bs3 t ((m.event_width - 1) - d) j      -- 89
              else ⊥                                                      -- 93
            else prev (d + 1) j + m.bs3 t 0 j                             -- 99
          else prev (d + 1) j + m.bs2 t j                                 -- 104
        upd acc c j                                                       -- 107-111
      else acc
    (List.range m.n_S).foldl (fun acc i =>                                -- 115-149
      if i = j then acc
      else
        let c :=
          if m.hmp then
            prev 0 i + m.T i j (t - 1) + (if j % 2 = 0 then m.bs3 t 1 j else m.bs3 t 0 j) + m.ds d (m.dcol j) t
          else prev 0 i + m.T i j (t - 1) + m.bs2 t j + m.ds d (m.dcol j) t
        upd acc c i) acc
  else (⊥, none)                                                          -- 41-42

/-- `delta(t,.,.)`. -/
noncomputable def delta (m : Tables (WithBot ℝ)) : ℕ → ℕ → ℕ → WithBot ℝ
  | 0 => fun d j => (vitCell m 0 (fun _ _ => ⊥) d j).1
  | t + 1 => fun d j => (vitCell m (t + 1) (delta m t) d j).1

/-- `psi(t,.,.)`. -/
noncomputable def psi (m : Tables (WithBot ℝ)) : ℕ → ℕ → ℕ → Option ℕ
  | 0 => fun _ _ => none
  | t + 1 => fun d j => (vitCell m (t + 1) (delta m t) d j).2

/-- Selection of the final state: `(max_ed, tmp_j)` (decode.cpp 53, 158-209). -/
noncomputable def vitFinal (m : Tables (WithBot ℝ)) : ℕ × Option ℕ :=
  if m.ends_with_last = false then
    if m.ends_in_last = false then
      -- 165-176: loop over `j`, inside it over `d`
      match ((List.range m.n_S).foldl (fun acc j =>
        (List.range (m.D - 1)).foldl (fun acc d => upd acc (delta m (m.n_T - 1) d j) (d, j)) acc)
        ((⊥, none) : WithBot ℝ × Option (ℕ × ℕ))).2 with
      | some (d, j) => (d, some j)
      | none => (0, none)
    else
      -- 179-187
      match ((List.range (m.D - 1)).foldl (fun acc d => upd acc (delta m (m.n_T - 1) d (m.n_S - 1)) d)
        ((⊥, none) : WithBot ℝ × Option ℕ)).2 with
      | some d => (d, some (m.n_S - 1))
      | none => (0, none)
  else
    if m.ends_in_last = false then
      -- 193-202
      (0, ((List.range m.n_S).foldl (fun acc j => upd acc (delta m (m.n_T - 1) 0 j) j)
        ((⊥, none) : WithBot ℝ × Option ℕ)).2)
    else (0, some (m.n_S - 1))                                            -- 205-206

/-- Backward pass (decode.cpp 218-238) from state `j` with remaining duration `ed` at time `t`; the result lists
`states[0], ..., states[t]`. `none` stands for a read of `psi` outside its bounds or for a stored state `-1`. -/
noncomputable def backtrack (m : Tables (WithBot ℝ)) : ℕ → ℕ → ℕ → Option (List ℕ)
  | 0, ed, j => if ed < m.D - 1 ∧ j < m.n_S then some [j] else none
  | t + 1, ed, j =>
    if ed < m.D - 1 ∧ j < m.n_S then
      match psi m (t + 1) ed j with
      | none => none
      | some j2 =>
        if j2 = j then (backtrack m t (ed + 1) j2).map (· ++ [j])         -- 223-226
        else (backtrack m t 0 j2).map (· ++ [j])                          -- 227-230
    else none

/-- `viterbi`: returns `max_ed` and the state path. -/
noncomputable def viterbi (m : Tables (WithBot ℝ)) : Option (ℕ × List ℕ) :=
  match vitFinal m with
  | (_, none) => none
  | (ed, some j) => (backtrack m (m.n_T - 1) ed j).map fun st => (ed, st)

end Verif.Hsmm
