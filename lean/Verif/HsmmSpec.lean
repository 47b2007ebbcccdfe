import Verif.HsmmModel
import Mathlib.Algebra.BigOperators.Intervals

/-!
Specification for hidden semi-Markov models, independent of any recursion: labelled segmentations of the time axis.
-/

namespace Verif.Hsmm

/-- A segment occupies the time points `start, ..., start + dur` (so it lasts `dur + 1` time points) in state `state`. -/
structure Seg where
  start : ℕ
  dur : ℕ
  state : ℕ
deriving DecidableEq

/-- Consecutive segments, latest first: each segment starts right after the previous one ended, in another state; the
earliest segment starts at time 0. -/
def Chained : List Seg → Prop
  | [] => False
  | [s] => s.start = 0
  | s :: p :: r => s.start = p.start + p.dur + 1 ∧ s.state ≠ p.state ∧ Chained (p :: r)

/-- Bounds on states and durations. For `hmp` models odd states are bumps that last at most `event_width` time points. -/
def SegOk {R : Type} (m : Tables R) (s : Seg) : Prop :=
  s.state < m.n_S ∧ s.dur < m.D - 1 ∧ (m.hmp = true → s.state % 2 = 1 → s.dur < m.event_width)

/-- A labelled segmentation (latest segment first) of the time axis `0, ..., n_T-1` allowed by the boundary switches:
the last segment contains the last time point; it ends there if `ends_with_last`; it is in the last state if
`ends_in_last`. -/
def Admissible {R : Type} (m : Tables R) (l : List Seg) : Prop :=
  Chained l ∧ (∀ s ∈ l, SegOk m s) ∧
  ∃ h r, l = h :: r ∧ h.start < m.n_T ∧ m.n_T ≤ h.start + h.dur + 1 ∧
    (m.ends_with_last = true → m.n_T = h.start + h.dur + 1) ∧
    (m.ends_in_last = true → h.state = m.n_S - 1)

/-- Emission table entry that belongs to time `t` of segment `s`. In `hmp` models: flats (even states) use slot 0,
except slot 1 at the first time point of a flat that follows another segment; bumps use slot 0 at their first time point
and afterwards the slot counted back from the end of the event. -/
def obs {R : Type} (m : Tables R) (s : Seg) (t : ℕ) : R :=
  if m.hmp then
    if t = s.start then
      if s.start = 0 then m.bs3 t 0 s.state
      else if s.state % 2 = 0 then m.bs3 t 1 s.state else m.bs3 t 0 s.state
    else if s.state % 2 = 1 then m.bs3 t (m.event_width - 1 - (s.start + s.dur - t)) s.state
    else m.bs3 t 0 s.state
  else m.bs2 t s.state

/-- Product of the emission probabilities of segment `s` over its time points that are at most `tmax`. -/
noncomputable def obsProd (m : Tables ℝ) (tmax : ℕ) (s : Seg) : ℝ :=
  ∏ t ∈ Finset.Icc s.start (min (s.start + s.dur) tmax), obs m s t

/-- Joint probability of a labelled segmentation (latest first) and the observations up to time `tmax`: initial
probability, transition probabilities, duration probabilities (the table column of non-first segments depends on
`starts_with_first`) and emissions. -/
noncomputable def weightUpTo (m : Tables ℝ) (tmax : ℕ) : List Seg → ℝ
  | [] => 1
  | [s] => m.pi s.state * m.ds s.dur s.state 0 * obsProd m tmax s
  | s :: p :: r =>
      m.T p.state s.state (s.start - 1) * m.ds s.dur (m.dcol s.state) s.start * obsProd m tmax s
        * weightUpTo m tmax (p :: r)

/-- Joint probability of a labelled segmentation and the whole series. -/
noncomputable def weight (m : Tables ℝ) (l : List Seg) : ℝ := weightUpTo m (m.n_T - 1) l

/-- All table entries are non-negative. -/
structure NonNeg (m : Tables ℝ) : Prop where
  bs2 : ∀ t j, 0 ≤ m.bs2 t j
  bs3 : ∀ t k j, 0 ≤ m.bs3 t k j
  ds2 : ∀ d j, 0 ≤ m.ds2 d j
  ds3 : ∀ d j t, 0 ≤ m.ds3 d j t
  T2 : ∀ i j, 0 ≤ m.T2 i j
  T3 : ∀ i j t, 0 ≤ m.T3 i j t
  pi : ∀ j, 0 ≤ m.pi j

end Verif.Hsmm
