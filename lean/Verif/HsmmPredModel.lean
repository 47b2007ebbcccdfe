import Verif.SampleModel
import Verif.HsmmSpec
import Mathlib.Algebra.BigOperators.Field
import Mathlib.LinearAlgebra.Matrix.NonsingularInverse

/-!
# Simulating state and observation series (property C98)

Model of `HSMMFamily.predict` (src/mssm/src/python/hsmm.py 1633-1985), its inner function `predict_series` (1695-1878) for one
series.  The tables `ds`, `T`, `pi` are those of `Verif.Hsmm.Tables`, as handed to the likelihood (hsmm.py 1730-1763).

`np_gen = np.random.default_rng(series_seed)` is a stream `u 0, u 1, ...` of numbers in `[0, 1)` together with the position of
the next number.  `np_gen.choice(vals, p=p)` (numpy) reads one number `x`, normalises the cumulative sums of `p` by their last
entry and returns the entry of `vals` whose position is the number of cumulative sums that are at most `x`
(`searchsorted` with `side="right"`).  The `ValueError` for probabilities that do not sum to one is left out: the tables
are normalised by `_compute_series_probs`.
-/

namespace Verif.HPred

open Verif.Hsmm

/-- Position drawn by `Generator.choice` from `n` values with probabilities `w` when the next random number is `x`. -/
noncomputable def pick (n : ℕ) (w : ℕ → ℝ) (x : ℝ) : ℕ :=
  ((Finset.range n).filter fun k => (∑ i ∈ Finset.range (k + 1), w i) / (∑ i ∈ Finset.range n, w i) ≤ x).card

/-- Variables of the `while` loop: position in the random stream, `state`, `dur`. -/
structure St where
  pos : ℕ
  state : ℕ
  dur : ℤ

/-- Initial state and its duration (1779-1784). `d_vals = np.arange(1, D)` (1766): position `k` stands for duration `k + 1`. -/
noncomputable def initial (m : Tables ℝ) (u : ℕ → ℝ) (pos : ℕ) : St :=
  let state := pick m.n_S m.pi (u pos)
  { pos := pos + 2, state := state, dur := (pick (m.D - 1) (fun d => m.ds d state 0) (u (pos + 1)) : ℤ) + 1 }

/-- Top of the loop body at time `t` (1792-1815). -/
noncomputable def top (m : Tables ℝ) (u : ℕ → ℝ) (t : ℕ) (x : St) : St :=
  if x.dur < 0 then
    if m.hmp = true ∧ x.state = m.n_S - 1 then { x with dur := x.dur + 1 }
    else
      let state := pick m.n_S (fun j => m.T x.state j t) (u x.pos)
      { pos := x.pos + 2, state := state,
        dur := (pick (m.D - 1) (fun d => m.ds d (m.dcol state) t) (u (x.pos + 1)) : ℤ) + 1 }
  else x

/-- The loop from time `t` on, for `n` more time points (1789-1862): `state` and `dur` used at every time point, and the
position in the random stream afterwards. -/
noncomputable def walk (m : Tables ℝ) (u : ℕ → ℝ) : ℕ → ℕ → St → List (ℕ × ℤ) × ℕ
  | 0, _, x => ([], x.pos)
  | n + 1, t, x =>
    let y := top m u t x
    let z := walk m u n (t + 1) { y with dur := y.dur - 1 }
    ((y.state, y.dur) :: z.1, z.2)

/-- One sample (1778-1862), reading random numbers from `pos` on. -/
noncomputable def sample (m : Tables ℝ) (u : ℕ → ℝ) (pos : ℕ) : List (ℕ × ℤ) × ℕ := walk m u m.n_T 0 (initial m u pos)

/-- All samples of a series (1773-1862); the generator is shared. -/
noncomputable def samples (m : Tables ℝ) (u : ℕ → ℝ) : ℕ → ℕ → List (List (ℕ × ℤ))
  | 0, _ => []
  | n + 1, pos => (sample m u pos).1 :: samples m u n (sample m u pos).2

/-- `state_samples[:, sample]` (1819). -/
noncomputable def states (m : Tables ℝ) (u : ℕ → ℝ) (pos : ℕ) : List ℕ := (sample m u pos).1.map Prod.fst

/-- Ingredients of the observations of event models: template, means `mus[t, m, j]`, autocorrelation. -/
structure Event where
  template : List ℝ
  mus : ℕ → ℕ → ℕ → ℝ
  rho : Option ℝ

/-- `d0` and `d1` (1770-1771). -/
noncomputable def d0 (r : ℝ) : ℝ := 1 / Real.sqrt (1 - r ^ 2)
@[inherit_doc d0] noncomputable def d1 (r : ℝ) : ℝ := -r / Real.sqrt (1 - r ^ 2)

/-- `event_template[d]` with Python's negative positions; the `IndexError` for positions out of range is not modelled (0). -/
noncomputable def tmpl (e : Event) (d : ℤ) : ℝ :=
  if 0 ≤ d then e.template.getD d.toNat 0 else if -(e.template.length : ℤ) ≤ d then e.template.getD (e.template.length + d).toNat 0 else 0

/-- `Ebump` (1826-1840) for signal `k` at time `t` in bump `j` when `dur` is left. -/
noncomputable def ebump (e : Event) (t k j : ℕ) (dur : ℤ) : ℝ :=
  let d : ℤ := ((e.template.length : ℤ) - 1) - dur
  let E := tmpl e d * e.mus t k j
  match e.rho with
  | none => E
  | some r => if 0 < d ∧ 0 < t then d0 r * E + d1 r * (tmpl e (d - 1) * e.mus (t - 1) k j) else d0 r * E

/-- What is added to the drawn emission of signal `k` at time `t` (1822-1842 and, from the previous time point, 1849-1858). -/
noncomputable def added (m : Tables ℝ) (e : Event) (tr : List (ℕ × ℤ)) (t k : ℕ) : ℝ :=
  let c := tr.getD t (0, 0)
  let b := tr.getD (t - 1) (0, 0)
  (if m.hmp = true ∧ c.1 % 2 = 1 then ebump e t k c.1 c.2 else 0) +
  (match e.rho with
   | none => 0
   | some r =>
     if 0 < t ∧ m.hmp = true ∧ b.1 % 2 = 1 ∧ b.2 - 1 = 0 then d1 r * tmpl e (-1) * e.mus (t - 1) k b.1 else 0)

/-- Emission samples of one series before the autocorrelation is put back (1818, 1842, 1858): `noise[t, state, m]` is the draw of
`_sample_series_emissions` for this sample. -/
noncomputable def emission (m : Tables ℝ) (e : Event) (noise : ℕ → ℕ → ℕ → ℝ) (tr : List (ℕ × ℤ)) (t k : ℕ) : ℝ :=
  noise t (tr.getD t (0, 0)).1 k + added m e tr t k

/-- `Lhrois` (1866-1869): `d0` on the diagonal, 1 in its first entry, `d1` above it. -/
noncomputable def lrhoi (n : ℕ) (r : ℝ) : Matrix (Fin n) (Fin n) ℝ := fun i j =>
  if i = j then (if (i : ℕ) = 0 then 1 else d0 r) else if (i : ℕ) + 1 = j then d1 r else 0

/-- The autocorrelation is put back (1870-1876): `Lrhos.T @ emission_samples` with `Lrhos` the inverse of `Lhrois` (`cpp_backsolve_tr`). -/
noncomputable def arBack (n : ℕ) (r : ℝ) (e : Fin n → ℝ) : Fin n → ℝ := (lrhoi n r)⁻¹.transpose.mulVec e

/-- State samples of `predict` (1936-1985): every series starts its generator from the same seed (1704, 1765); `gen seed` is the
stream of `np.random.default_rng(seed)`. -/
noncomputable def predictStates {S : Type} (gen : S → ℕ → ℝ) (seed : S) (n : ℕ) (series : List (Tables ℝ)) : List (List (List ℕ)) :=
  series.map fun m => (samples m (gen seed) n 0).map (List.map Prod.fst)

/-! ## Specification: draw segment after segment -/

/-- First segment: state from `pi`, duration from its table. Position `d` of a duration table stands for a segment of `d + 1`
time points, as in the likelihood. -/
noncomputable def initSeg (m : Tables ℝ) (u : ℕ → ℝ) (pos : ℕ) : Seg :=
  let j := pick m.n_S m.pi (u pos)
  ⟨0, pick (m.D - 1) (fun d => m.ds d j 0) (u (pos + 1)), j⟩

/-- Segment after `s`: it starts when `s` is over, its state is drawn from the transition probabilities of the likelihood. -/
noncomputable def nextSeg (m : Tables ℝ) (u : ℕ → ℝ) (pos : ℕ) (s : Seg) : Seg :=
  let e := s.start + s.dur + 1
  let j := pick m.n_S (fun j => m.T s.state j (e - 1)) (u pos)
  ⟨e, pick (m.D - 1) (fun d => m.ds d (m.dcol j) e) (u (pos + 1)), j⟩

/-- No further segment is drawn: the series is covered, or the last state of an event model, which is never left, is reached. -/
def Done (m : Tables ℝ) (s : Seg) : Prop := m.n_T ≤ s.start + s.dur + 1 ∨ (m.hmp = true ∧ s.state = m.n_S - 1)

open Classical in
/-- Draw up to `n` further segments (latest first). -/
noncomputable def extend (m : Tables ℝ) (u : ℕ → ℝ) (pos : ℕ) : ℕ → List Seg → List Seg
  | 0, l => l
  | _ + 1, [] => []
  | n + 1, s :: r =>
    if Done m s then s :: r else extend m u pos n (nextSeg m u (pos + 2 * (r.length + 1)) s :: s :: r)

/-- The segments of a simulated series, latest first. -/
noncomputable def segs (m : Tables ℝ) (u : ℕ → ℝ) (pos : ℕ) : List Seg := extend m u pos m.n_T [initSeg m u pos]

/-- State and remaining time points (after the present one) at time `t`. -/
def now : List Seg → ℕ → ℕ × ℤ
  | [], _ => (0, 0)
  | s :: r, t => if s.start ≤ t then (s.state, max 0 ((s.start + s.dur : ℤ) - t)) else now r t

/-- The same model with every duration one time point longer and transition tables one time point later. -/
def later (m : Tables ℝ) : Tables ℝ :=
  { m with
    D := m.D + 1
    ds2 := fun d j => if d = 0 then 0 else m.ds2 (d - 1) j
    ds3 := fun d j t => if d = 0 then 0 else m.ds3 (d - 1) j t
    T3 := fun i j t => m.T3 i j (t + 1) }

/-- The process of states alone: observations carry no information, the series may end anywhere. -/
def free (m : Tables ℝ) : Tables ℝ :=
  { m with bs2 := fun _ _ => 1, bs3 := fun _ _ _ => 1, ends_with_last := false, ends_in_last := false }

/-- Tables are probabilities: non-negative, rows sum to one, no transition from a state to itself. -/
structure Stochastic (m : Tables ℝ) : Prop where
  pi0 : ∀ j, 0 ≤ m.pi j
  pi1 : ∑ j ∈ Finset.range m.n_S, m.pi j = 1
  ds0 : ∀ d c t, 0 ≤ m.ds d c t
  ds1 : ∀ j < m.n_S, ∀ t, ∑ d ∈ Finset.range (m.D - 1), m.ds d j t = 1 ∧ ∑ d ∈ Finset.range (m.D - 1), m.ds d (m.dcol j) t = 1
  T0 : ∀ i j t, 0 ≤ m.T i j t
  T1 : ∀ i < m.n_S, ∀ t, ∑ j ∈ Finset.range m.n_S, m.T i j t = 1
  Tdiag : ∀ i t, m.T i i t = 0

end Verif.HPred
