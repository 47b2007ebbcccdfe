import Verif.HsmmModel

/-!
Model of backward sampling of state sequences, `src/mssm/src/cpp/hsmm/decode.cpp: sample_backwards` (lines 243-562).

The random draws `std::discrete_distribution<int>(w)(gen)` are modelled by their documented law: index `i` is returned
with probability `w[i] / sum w`. The model gives the probability with which the function returns one sample, i.e. the
pair `(ed(s), states(.,s))`.
-/

namespace Verif.Hsmm

/-- `lam(t,d,j)` before the scaling pass (decode.cpp 293-374), as a function of the scaled previous slice. In contrast to
`llk` there is no skip of long bumps. -/
noncomputable def sbCell (m : Tables ℝ) (t : ℕ) (prev : ℕ → ℕ → ℝ) (d j : ℕ) : ℝ :=
  if t = 0 then
    if m.hmp then m.pi j * m.bs3 t 0 j * m.ds d j t
    else m.pi j * m.bs2 t j * m.ds d j t
  else if t + d < m.n_T ∨ m.ends_with_last = false then
    let c : ℝ :=
      if d + 1 ≤ m.D - 2 then
        if m.hmp then
          if j % 2 = 1 then
            if d ≤ m.event_width - 1 then prev (d + 1) j * m.bs3 t ((m.event_width - 1) - d) j
            else 0
          else prev (d + 1) j * m.bs3 t 0 j
        else prev (d + 1) j * m.bs2 t j
      else 0
    let tp : ℝ := ∑ i ∈ Finset.range m.n_S, if i = j then 0 else prev 0 i * m.T i j (t - 1)
    let tp : ℝ :=
      if m.hmp then tp * ((if j % 2 = 0 then m.bs3 t 1 j else m.bs3 t 0 j) * m.ds d (m.dcol j) t)
      else tp * (m.bs2 t j * m.ds d (m.dcol j) t)
    c + tp
  else 0

/-- Amount added to `Lam(t)` for the cell holding `v` (decode.cpp 377-416). At the last time point the same amount is
added to `state_probsT[j]` and `dur_probs[j][d]`. -/
noncomputable def sbContrib (m : Tables ℝ) (t d j : ℕ) (v : ℝ) : ℝ :=
  if t < m.n_T - 1 ∨ m.ends_with_last = false then
    if t < m.n_T - 1 ∨ m.ends_in_last = false then v
    else if j = m.n_S - 1 then v else 0
  else if d = 0 then
    if m.ends_in_last = false then v
    else if j = m.n_S - 1 then v else 0
  else 0

/-- `Lam(t)`, given the unscaled slice. -/
noncomputable def sbLam (m : Tables ℝ) (t : ℕ) (raw : ℕ → ℕ → ℝ) : ℝ :=
  ∑ d ∈ Finset.range (m.D - 1), ∑ j ∈ Finset.range m.n_S, sbContrib m t d j (raw d j)

/-- The unscaled slice at time `t`. The next time point sees the slice divided by its own `Lam` (decode.cpp 419-428). -/
noncomputable def sbRaw (m : Tables ℝ) : ℕ → ℕ → ℕ → ℝ
  | 0 => fun d j => sbCell m 0 (fun _ _ => 0) d j
  | t + 1 => fun d j => sbCell m (t + 1) (fun d' j' => sbRaw m t d' j' / sbLam m t (sbRaw m t)) d j

/-- `lam(t,d,j)` as read by the backward pass. -/
noncomputable def sbScaled (m : Tables ℝ) (t d j : ℕ) : ℝ := sbRaw m t d j / sbLam m t (sbRaw m t)

/-- `state_probsT[j]` (decode.cpp 454). -/
noncomputable def stateProbsT (m : Tables ℝ) (j : ℕ) : ℝ :=
  (∑ d ∈ Finset.range (m.D - 1), sbContrib m (m.n_T - 1) d j (sbRaw m (m.n_T - 1) d j)) /
    sbLam m (m.n_T - 1) (sbRaw m (m.n_T - 1))

/-- `dur_probs[j][d]` (decode.cpp 466-467). -/
noncomputable def durProbs (m : Tables ℝ) (j d : ℕ) : ℝ :=
  sbContrib m (m.n_T - 1) d j (sbRaw m (m.n_T - 1) d j) / sbLam m (m.n_T - 1) (sbRaw m (m.n_T - 1)) / stateProbsT m j

/-- `state_probs[i]` while at time `t` in state `j` with remaining duration `ed` (decode.cpp 512-536). Note the time index
`t-1` of the duration table (line 531). -/
noncomputable def backWeight (m : Tables ℝ) (t j ed i : ℕ) : ℝ :=
  if i = j then
    if ed + 1 ≤ m.D - 2 then sbScaled m (t - 1) (ed + 1) i else 0
  else sbScaled m (t - 1) 0 i * m.T i j (t - 1) * m.ds ed (m.dcol j) (t - 1)

/-- Probability of drawing `i` from weights `w` on `0..n-1` (`std::discrete_distribution`). -/
noncomputable def drawProb (n : ℕ) (w : ℕ → ℝ) (i : ℕ) : ℝ := if i < n then w i / ∑ k ∈ Finset.range n, w k else 0

/-- Probability that the `while` loop (decode.cpp 500-560), at time `t` in state `j` with remaining duration `ed`, draws the
states `path` for times `t-1, t-2, ..., 0`. -/
noncomputable def loopProb (m : Tables ℝ) : ℕ → ℕ → ℕ → List ℕ → ℝ
  | 0, _, _, [] => 1
  | t + 1, j, ed, i :: rest =>
    drawProb m.n_S (backWeight m (t + 1) j ed) i * loopProb m t i (if j = i then ed + 1 else 0) rest
  | _, _, _, _ => 0

/-- Probability that one sample is: last state `j`, `ed(s) = ed`, states `path` at times `n_T-2, ..., 0`
(decode.cpp 487-498 and the loop). -/
noncomputable def sampleProb (m : Tables ℝ) (j ed : ℕ) (path : List ℕ) : ℝ :=
  drawProb m.n_S (stateProbsT m) j * drawProb (m.D - 1) (durProbs m j) ed * loopProb m (m.n_T - 1) j ed path

end Verif.Hsmm
