import Verif.Pool
import Verif.MmatModel

/-!
# Property C131: columns of smooths by level and of random intercepts
-/

namespace Verif.Pool
open Verif.Mmat

theorem pairs_length (m L : ℕ) : ((List.range L).flatMap fun l => (List.range m).map fun k => (l, k)).length = L * m := by
  simp

theorem pairs_get (m : ℕ) : ∀ (L a : ℕ), a < L * m →
    ((List.range L).flatMap fun l => (List.range m).map fun k => (l, k))[a]? = some (a / m, a % m) := by
  intro L
  induction L with
  | zero => intro a h; rw [Nat.zero_mul] at h; exact absurd h (Nat.not_lt_zero a)
  | succ L ih =>
    intro a h
    rw [List.range_succ, List.flatMap_append]
    by_cases hl : a < L * m
    · rw [List.getElem?_append_left (by rw [pairs_length]; exact hl)]
      exact ih a hl
    · push Not at hl
      have hlt : a - L * m < m := by rw [Nat.succ_mul] at h; omega
      rw [List.getElem?_append_right (by rw [pairs_length]; exact hl), pairs_length]
      have e1 : a / m = L := Nat.div_eq_of_lt_le hl h
      have e2 : a % m = a - L * m := by
        have := Nat.div_add_mod a m
        rw [e1, Nat.mul_comm] at this
        omega
      rw [e1, e2]
      simp [hlt]

/-- C131.  A smooth by level of `b`: its columns come in blocks, one for each level, and the columns of the block of a level vanish in
the rows of other levels. -/
theorem by_columns {d : Data} {tol : ℝ} {s : Smooth} {b : String} (hb : s.by_ = some b) (hd : s.drop = none) {cs : List Col}
    (hc : smoothCols d tol s = some cs) {a : ℕ} (ha : a < cs.length) {r : ℕ} (h : (cs[a]).at r ≠ 0) :
    cs.length = (d.levels b).length * mCols s ∧ d.cov r b = ((a / mCols s : ℕ) : ℝ) := by
  have hr : termRidx d s = ((List.range (d.levels b).length).flatMap fun lvl => (List.range (mCols s)).map fun m => (lvl, m)).map
      fun q => isLevel d b q.1 := by
    unfold termRidx
    rw [hb]
    simp only [notDropped, hd, if_true]
    exact congrFun List.filterMap_eq_map' _
  unfold smoothCols at hc
  split_ifs at hc
  rw [Option.some.injEq] at hc
  subst hc
  rw [List.length_mapIdx] at ha
  have hlen : (termRidx d s).length = (d.levels b).length * mCols s := by rw [hr, List.length_map, pairs_length]
  refine ⟨by rw [List.length_mapIdx, hlen], ?_⟩
  rw [List.getElem_mapIdx] at h
  have hg : (termRidx d s)[a] = isLevel d b (a / mCols s) := by
    have : (termRidx d s)[a]? = some (isLevel d b (a / mCols s)) := by
      rw [hr, List.getElem?_map, pairs_get _ _ _ (hlen ▸ ha)]
      rfl
    rwa [List.getElem?_eq_getElem ha, Option.some.injEq] at this
  unfold Col.at at h
  simp only [hg] at h
  by_contra hne
  refine h (if_neg ?_)
  unfold isLevel
  simp [hne]

/-- C131.  An intercept and random intercepts for the levels of `var`, coded `0, 1, ...`: the model matrix is the one assumed for
`random_intercept`. -/
theorem ri_columns {d : Data} {tol : ℝ} {var : String} {N q : ℕ} (hq : (d.levels var).length = q) {gr : Fin N → Fin q}
    (hg : ∀ i : Fin N, d.cov i var = ((gr i : ℕ) : ℝ)) :
    ∃ c0 cs, termCols d tol true .int = some [c0] ∧ termCols d tol true (.ri var) = some cs ∧ cs.length = q ∧
      (∀ i : Fin N, c0.at i = 1) ∧ ∀ (i : Fin N) (a : Fin q) (h : (a : ℕ) < cs.length), (cs[(a : ℕ)]).at i = if gr i = a then 1 else 0 := by
  refine ⟨_, _, rfl, rfl, by simp [hq], fun i => rfl, fun i a h => ?_⟩
  rw [List.getElem_map, List.getElem_range]
  unfold Col.at isLevel
  simp only [decide_eq_true_eq, hg i, Nat.cast_inj]
  by_cases he : gr i = a
  · rw [if_pos he, if_pos (by rw [he])]
  · rw [if_neg he, if_neg (fun h' => he (Fin.ext h'))]

/-- Two levels, two columns for each. -/
noncomputable def dat : Data := ⟨2, fun r _ => (r : ℝ), fun v => v == "g", fun _ => ["a", "b"], fun _ k => if k = 0 then "a" else "b"⟩

noncomputable def smo : Smooth := ⟨["x"], [2], false, false, some "g", none, none, true, fun _ _ => 1⟩

example : ∃ cs, smoothCols dat 0 smo = some cs ∧ ∃ (h : 3 < cs.length), (cs[3]).at 1 ≠ 0 ∧ dat.cov 1 "g" = ((3 / mCols smo : ℕ) : ℝ) := by
  refine ⟨_, if_neg ?_, ?_⟩
  · simp [termNCoef, byFactor, smo, termRidx, dat, mCols, vWidth, notDropped, List.range_succ]
  · refine ⟨?_, ?_, ?_⟩
    · simp [smo, termRidx, dat, mCols, vWidth, notDropped, List.range_succ]
    · simp [smo, termRidx, dat, mCols, vWidth, notDropped, List.range_succ, Col.at, isLevel]
    · simp [smo, dat, mCols, vWidth]

end Verif.Pool
