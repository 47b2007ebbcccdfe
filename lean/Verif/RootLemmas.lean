import Verif.RootModel
import Verif.Shared

/-! # Lemmas on the root of the total penalty (property C109) -/

namespace Verif.Root

open Verif.Pen Finset

/-! ### Blocks -/

theorem step_blk (st : Option (List RBlk × ℕ)) (p : LTerm) :
    (collectStepR st p).map (fun s => (s.1.map (·.blk), s.2)) = collectStep (st.map fun s => (s.1.map (·.blk), s.2)) p := by
  cases st with
  | none => rfl
  | some st =>
    obtain ⟨bs, mx⟩ := st
    simp only [collectStepR, collectStep, Option.bind_some, Option.map_some]
    by_cases h : bs = [] ∨ p.start > mx
    · rw [if_pos h, if_pos (by simpa using h)]
      simp
    · rw [if_neg h, if_neg (by simpa using h)]
      have e : (List.range (bs.map (·.blk)).length).filter (fun i => decide ((((bs.map (·.blk)).map (·.start)).getD i 0) = p.start))
          = (List.range bs.length).filter (fun i => decide ((bs.map (·.blk.start)).getD i 0 = p.start)) := by
        rw [List.length_map, List.map_map]
        rfl
      rw [e]
      generalize (List.range bs.length).filter (fun i => decide ((bs.map (·.blk.start)).getD i 0 = p.start)) = l
      match l with
      | [] => rfl
      | [i] =>
        simp only [List.getElem?_map]
        cases bs[i]? with
        | none => rfl
        | some b =>
          simp only [Option.bind_some, Option.map_some]
          by_cases hr : b.blk.rep = p.rep
          · rw [if_pos hr, if_pos hr]
            simp [List.map_set]
          · rw [if_neg hr, if_neg hr]
            rfl
      | _ :: _ :: _ => rfl

theorem fold_blk (ps : List LTerm) (st : Option (List RBlk × ℕ)) :
    (ps.foldl collectStepR st).map (fun s => (s.1.map (·.blk), s.2)) = ps.foldl collectStep (st.map fun s => (s.1.map (·.blk), s.2)) := by
  induction ps generalizing st with
  | nil => rfl
  | cons p ps ih => rw [List.foldl_cons, List.foldl_cons, ih, step_blk]

theorem collectR_blk (ps : List LTerm) (bs : List RBlk) (h : collectR ps = some bs) : collect ps = some (bs.map (·.blk)) := by
  unfold collectR at h
  unfold collect
  have e := fold_blk ps (some ([], 0))
  obtain ⟨st, h1, rfl⟩ := Option.map_eq_some_iff.1 h
  rw [h1] at e
  simp only [Option.map_some, List.map_nil] at e
  rw [← e]
  rfl

/-- Entries of `DJs` and sizes. -/
theorem collectR_dj (ps : List LTerm) (bs : List RBlk) (mx : ℕ) (h : ps.foldl collectStepR (some ([], 0)) = some (bs, mx)) :
    ∀ b ∈ bs, (∃ p ∈ ps, p.start = b.blk.start ∧ p.k = b.blk.k ∧ p.rep = b.blk.rep) ∧ 0 < b.blk.terms ∧
      (b.blk.terms = 1 → ∃ p ∈ ps, p.start = b.blk.start ∧ b.dj = some fun i j => p.Demb i j * Real.sqrt p.lam) := by
  induction ps using List.reverseRecOn generalizing bs mx with
  | nil =>
    simp only [List.foldl_nil, Option.some.injEq, Prod.mk.injEq] at h
    obtain ⟨rfl, rfl⟩ := h
    simp
  | append_singleton ps p ih =>
    rw [List.foldl_append, List.foldl_cons, List.foldl_nil] at h
    cases hst : ps.foldl collectStepR (some ([], 0)) with
    | none => rw [hst] at h; simp [collectStepR] at h
    | some st =>
      obtain ⟨cs, m0⟩ := st
      have hc := ih cs m0 hst
      have up : ∀ b ∈ cs, (∃ q ∈ ps ++ [p], q.start = b.blk.start ∧ q.k = b.blk.k ∧ q.rep = b.blk.rep) ∧ 0 < b.blk.terms ∧
          (b.blk.terms = 1 → ∃ q ∈ ps ++ [p], q.start = b.blk.start ∧ b.dj = some fun i j => q.Demb i j * Real.sqrt q.lam) := by
        intro b hb
        obtain ⟨⟨q, hq, h1⟩, h0, h2⟩ := hc b hb
        refine ⟨⟨q, List.mem_append_left _ hq, h1⟩, h0, fun ht => ?_⟩
        obtain ⟨q, hq, h3⟩ := h2 ht
        exact ⟨q, List.mem_append_left _ hq, h3⟩
      rw [hst] at h
      simp only [collectStepR, Option.bind_some] at h
      by_cases hnew : cs = [] ∨ p.start > m0
      · rw [if_pos hnew] at h
        simp only [Option.some.injEq, Prod.mk.injEq] at h
        obtain ⟨rfl, rfl⟩ := h
        intro b hb
        rcases List.mem_append.1 hb with hb | hb
        · exact up b hb
        · simp only [List.mem_singleton] at hb
          subst hb
          exact ⟨⟨p, by simp, rfl, rfl, rfl⟩, Nat.one_pos, fun _ => ⟨p, by simp, rfl, rfl⟩⟩
      · rw [if_neg hnew] at h
        split at h
        · rename_i i hi
          cases hb : cs[i]? with
          | none => rw [hb] at h; simp at h
          | some b =>
            rw [hb] at h
            simp only [Option.bind_some] at h
            by_cases hr : b.blk.rep = p.rep
            · rw [if_pos hr] at h
              simp only [Option.some.injEq, Prod.mk.injEq] at h
              obtain ⟨rfl, rfl⟩ := h
              intro c hc'
              rcases List.mem_or_eq_of_mem_set hc' with hc' | rfl
              · exact up c hc'
              · obtain ⟨⟨q, hq, h1⟩, h0, -⟩ := up b (List.mem_of_getElem? hb)
                refine ⟨⟨q, hq, h1⟩, Nat.succ_pos _, fun ht => ?_⟩
                simp only at ht
                omega
            · rw [if_neg hr] at h; simp at h
        · simp at h

/-! ### The two parts of the root -/

theorem rep_loopR (P : Trip) (k n : ℕ) (st : RSt) :
    (List.range n).foldl (fun (st : RSt) _ => { st with trips := st.trips ++ shiftT st.cur P, cur := st.cur + k }) st
      = { st with trips := ((List.range n).foldl (fun (s : Trip × ℕ) _ => (s.1 ++ shiftT s.2 P, s.2 + k)) (st.trips, st.cur)).1,
                  cur := ((List.range n).foldl (fun (s : Trip × ℕ) _ => (s.1 ++ shiftT s.2 P, s.2 + k)) (st.trips, st.cur)).2 } := by
  induction n with
  | zero => simp
  | succ n ih => simp only [List.range_succ, List.foldl_append, ih, List.foldl_cons, List.foldl_nil]

theorem rootStep_eq (eigh : Blk → (ℕ → ℝ) × Arr) (st : RSt) (b : RBlk) :
    (rootStep eigh st b).trips = (pinvStep (fun b => dRoot b.k (eigh b)) (st.trips, st.cur) b.blk).1 ∧
    (rootStep eigh st b).cur = (pinvStep (fun b => dRoot b.k (eigh b)) (st.trips, st.cur) b.blk).2 ∧
    (rootStep eigh st b).singles = if b.blk.terms = 1 then addSingle st.singles b.dj else st.singles := by
  unfold rootStep pinvStep
  by_cases h : b.blk.terms = 1
  · simp only [if_pos h]
    trivial
  · simp only [if_neg h]
    rw [rep_loopR]
    exact ⟨rfl, rfl, rfl⟩

theorem root_fold (eigh : Blk → (ℕ → ℝ) × Arr) (bs : List RBlk) (st : RSt) :
    (bs.foldl (rootStep eigh) st).trips = ((bs.map (·.blk)).foldl (pinvStep fun b => dRoot b.k (eigh b)) (st.trips, st.cur)).1 ∧
    ∀ i j, ((bs.foldl (rootStep eigh) st).singles.elim 0 fun S => S i j)
      = (st.singles.elim 0 fun S => S i j) + (bs.map fun b => if b.blk.terms = 1 then (b.dj.elim 0 fun D => D i j) else 0).sum := by
  induction bs generalizing st with
  | nil => exact ⟨rfl, fun i j => by simp⟩
  | cons b bs ih =>
    obtain ⟨h1, h2, h3⟩ := rootStep_eq eigh st b
    obtain ⟨i1, i2⟩ := ih (rootStep eigh st b)
    simp only [List.foldl_cons, List.map_cons]
    refine ⟨?_, fun i j => ?_⟩
    · rw [i1, h1, h2]
    · rw [i2, h3, List.sum_cons, ← add_assoc]
      congr 1
      by_cases h : b.blk.terms = 1
      · rw [if_pos h, if_pos h]
        cases st.singles <;> cases b.dj <;> simp [addSingle]
      · rw [if_neg h, if_neg h, add_zero]

theorem totalRoot_eq (eigh : Blk → (ℕ → ℝ) × Arr) (bs : List RBlk) (i j : ℕ) :
    totalRoot eigh bs i j = totalPinv (fun b => dRoot b.k (eigh b)) (bs.map (·.blk)) i j
      + (bs.map fun b => if b.blk.terms = 1 then (b.dj.elim 0 fun D => D i j) else 0).sum := by
  cases bs with
  | nil => simp [totalRoot, totalPinv]
  | cons b bs =>
    obtain ⟨h1, h2⟩ := root_fold eigh (b :: bs) ⟨[], b.blk.start, none⟩
    simp only [totalRoot]
    rw [h1, h2]
    simp only [totalPinv, List.map_cons, Option.elim_none, zero_add]

theorem dRoot_range (k : ℕ) (eU : (ℕ → ℝ) × Arr) : InRange k (dRoot k eU) := by
  intro t ht
  simp only [dRoot, List.mem_flatMap, List.mem_range, List.mem_map] at ht
  obtain ⟨i, hi, j, hj, rfl⟩ := ht
  exact ⟨hi, hj⟩

open Classical in
theorem coo_dRoot (k : ℕ) (eU : (ℕ → ℝ) × Arr) (a c : ℕ) (ha : a < k) (hc : c < k) :
    coo (dRoot k eU) a c = eU.2 a c * (if eU.1 c > rootTol then Real.sqrt (eU.1 c) else 0) := by
  unfold dRoot
  rw [coo_flatMap_range, Finset.sum_eq_single a]
  · unfold coo
    rw [List.map_map]
    have e : ((List.range k).map ((fun t : ℕ × ℕ × ℝ => if t.1 = a ∧ t.2.1 = c then t.2.2 else 0) ∘ fun j =>
        (a, j, eU.2 a j * (if eU.1 j > rootTol then (eU.1 j) ^ (1 / 2 : ℝ) else 0)))).sum
        = ∑ j ∈ range k, if j = c then eU.2 a j * (if eU.1 j > rootTol then (eU.1 j) ^ (1 / 2 : ℝ) else 0) else 0 := by
      rw [Finset.sum_range, ← List.sum_ofFn, List.ofFn_eq_map, ← List.map_coe_finRange_eq_range, List.map_map]
      congr 1
      refine List.map_congr_left fun j _ => ?_
      simp only [Function.comp_apply, true_and]
    rw [e, Finset.sum_ite_eq' , if_pos (mem_range.2 hc), ← Real.sqrt_eq_rpow]
  · intro i _ hi
    unfold coo
    refine List.sum_eq_zero fun x hx => ?_
    simp only [List.map_map, List.mem_map] at hx
    obtain ⟨j, _, rfl⟩ := hx
    simp [hi]
  · intro h
    exact absurd (mem_range.2 ha) h

end Verif.Root
