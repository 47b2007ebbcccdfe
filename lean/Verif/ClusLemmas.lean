import Verif.ClusModel
import Mathlib.Tactic.Linarith
import Mathlib.Tactic.FieldSimp
import Mathlib.Tactic.Ring
import Mathlib.Algebra.Order.BigOperators.Group.List
import Mathlib.Data.List.Perm.Basic

/-!
# Lemmas about clusters of series (property C101)
-/

namespace Verif.Clus

/-! ## Largest entry -/

theorem argmax_lt : ∀ {l : List ℝ}, l ≠ [] → argmax l < l.length
  | [], h => absurd rfl h
  | [_], _ => by simp [argmax]
  | x :: y :: l, _ => by
    rw [argmax]
    by_cases h : ∀ z ∈ y :: l, z ≤ x
    · rw [if_pos h]; simp
    · rw [if_neg h]
      have := argmax_lt (l := y :: l) (by simp)
      simpa using this

theorem le_top : ∀ {l : List ℝ}, ∀ x ∈ l, x ≤ top l
  | [], x, h => absurd h (by simp)
  | [y], x, h => by
    have : x = y := by simpa using h
    simp [top, argmax, this]
  | x :: y :: l, z, h => by
    rw [top, argmax]
    by_cases hx : ∀ z ∈ y :: l, z ≤ x
    · rw [if_pos hx]
      rcases List.mem_cons.1 h with rfl | h
      · simp
      · simpa using hx z h
    · rw [if_neg hx]
      have ih := le_top (l := y :: l)
      have e : (x :: y :: l).getD (argmax (y :: l) + 1) 0 = top (y :: l) := by simp [top]
      rw [e]
      rcases List.mem_cons.1 h with rfl | h
      · push Not at hx
        obtain ⟨w, hw, hlt⟩ := hx
        exact le_of_lt (lt_of_lt_of_le hlt (ih w hw))
      · exact ih z h

theorem top_map {ι : Type} (f : ι → ℝ) (l : List ι) (d : ι) (h : l ≠ []) : top (l.map f) = f (l.getD (argmax (l.map f)) d) := by
  have hlt : argmax (l.map f) < l.length := by simpa using argmax_lt (l := l.map f) (by simpa using h)
  unfold top
  generalize argmax (l.map f) = k at hlt ⊢
  rw [List.getD_eq_getElem?_getD, List.getD_eq_getElem?_getD, List.getElem?_map, List.getElem?_eq_getElem hlt]
  rfl

theorem rep_mem (total : ℕ → ℝ) (g : List ℕ) (h : g ≠ []) : (cluster total g).rep ∈ g := by
  have hlt : argmax (g.map total) < g.length := by simpa using argmax_lt (l := g.map total) (by simpa using h)
  show g.getD (argmax (g.map total)) 0 ∈ g
  rw [List.getD_eq_getElem?_getD, List.getElem?_eq_getElem hlt]
  exact List.getElem_mem hlt

theorem rep_max (total : ℕ → ℝ) (g : List ℕ) (i : ℕ) (hi : i ∈ g) : total i ≤ total (cluster total g).rep := by
  have h : g ≠ [] := List.ne_nil_of_mem hi
  have := le_top (l := g.map total) (total i) (List.mem_map_of_mem hi)
  rwa [top_map total g 0 h] at this

theorem weights_eq (total : ℕ → ℝ) (g : List ℕ) :
    (cluster total g).weights = g.map fun i => total i / total (cluster total g).rep := by
  by_cases h : g = []
  · subst h; rfl
  · show (g.map total).map (fun x => x / top (g.map total)) = _
    rw [List.map_map]
    apply List.map_congr_left
    intro i _
    show total i / top (g.map total) = _
    rw [top_map total g 0 h]
    rfl

/-! ## Series of the rows -/

theorem le_foldl_max : ∀ (l : List ℕ) (a x : ℕ), (x ∈ l ∨ x ≤ a) → x ≤ l.foldl max a
  | [], a, x, h => by simpa using h
  | y :: l, a, x, h => by
    rw [List.foldl_cons]
    apply le_foldl_max
    rcases h with h | h
    · rcases List.mem_cons.1 h with rfl | h
      · exact Or.inr (le_max_right _ _)
      · exact Or.inl h
    · exact Or.inr (le_trans h (le_max_left _ _))

theorem mem_ids (rows : List Row) (s : ℕ) : s ∈ ids rows ↔ ∃ r ∈ rows, r.sid = s := by
  unfold ids
  rw [List.mem_filter, List.mem_range]
  constructor
  · rintro ⟨_, h⟩
    simpa using h
  · rintro ⟨r, hr, rfl⟩
    exact ⟨Nat.lt_succ_of_le (le_foldl_max _ _ _ (Or.inl (List.mem_map_of_mem hr))), by simpa using ⟨r, hr, rfl⟩⟩

theorem nodup_ids (rows : List Row) : (ids rows).Nodup := List.Nodup.filter _ List.nodup_range

/-- Members of the clusters of a run: the series of all factor combinations. -/
theorem run_members (total : List Row → ℕ → ℝ) (lab : List Row → ℕ → ℕ) (order : List Row → List ℕ) (splits : List (List Row))
    (ho : ∀ rows ∈ splits, (order rows).Perm (ids rows)) :
    ((run total lab order splits).flatMap Cluster.members).Perm (splits.flatMap ids) := by
  induction splits with
  | nil => simp [run]
  | cons a l ih =>
    have e : (run total lab order (a :: l)).flatMap Cluster.members =
        order a ++ (run total lab order l).flatMap Cluster.members := by
      show ((clustersOf (total a) (lab a) (order a)) ++ run total lab order l).flatMap Cluster.members = _
      rw [List.flatMap_append]
      congr 1
      unfold clustersOf
      rw [List.flatMap_map]
      show (List.splitBy _ (order a)).flatMap (fun g => g) = _
      rw [List.flatMap_id']
      exact List.flatten_splitBy _ _
    rw [e]
    exact (ho a (by simp)).append (ih fun r hr => ho r (by simp [hr]))

theorem run_group (total : List Row → ℕ → ℝ) (lab : List Row → ℕ → ℕ) (order : List Row → List ℕ) (splits : List (List Row))
    (c : Cluster) (hc : c ∈ run total lab order splits) :
    ∃ rows ∈ splits, ∃ g : List ℕ, g ≠ [] ∧ (∀ i ∈ g, i ∈ order rows) ∧ c = cluster (total rows) g := by
  obtain ⟨rows, hr, hc⟩ := List.mem_flatMap.1 hc
  obtain ⟨g, hg, rfl⟩ := List.mem_map.1 hc
  refine ⟨rows, hr, g, ?_, ?_, rfl⟩
  · rintro rfl
    exact List.nil_notMem_splitBy _ _ hg
  · intro i hi
    rw [← List.flatten_splitBy (fun a b => lab rows a == lab rows b) (order rows)]
    exact List.mem_flatten.2 ⟨g, hg, hi⟩

/-! ## Factor combinations -/

theorem mem_part (rows : List Row) (key : Row → List ℕ) (x : List ℕ) (r : Row) :
    r ∈ ((rows.zip (rows.map key)).filter fun p => p.2 = x).map Prod.fst ↔ r ∈ rows ∧ key r = x := by
  rw [show rows.zip (rows.map key) = rows.map (fun r => (r, key r)) from by
    induction rows with
    | nil => rfl
    | cons a l ih => simp [ih]]
  simp only [List.mem_map, List.mem_filter, decide_eq_true_eq]
  constructor
  · rintro ⟨p, ⟨⟨q, hq, rfl⟩, hx⟩, rfl⟩
    exact ⟨hq, hx⟩
  · rintro ⟨h, hx⟩
    exact ⟨(r, key r), ⟨⟨r, h, rfl⟩, hx⟩, rfl⟩

theorem parts_perm (rows : List Row) (key : Row → List ℕ) (hk : ∀ r ∈ rows, ∀ r' ∈ rows, r.sid = r'.sid → key r = key r') :
    ((((rows.map key).dedup).map fun x => ((rows.zip (rows.map key)).filter fun p => p.2 = x).map Prod.fst).flatMap ids).Perm
      (ids rows) := by
  rw [List.perm_ext_iff_of_nodup _ (nodup_ids rows)]
  · intro s
    rw [List.flatMap_map, List.mem_flatMap]
    constructor
    · rintro ⟨x, _, hs⟩
      obtain ⟨r, hr, rfl⟩ := (mem_ids _ _).1 hs
      exact (mem_ids _ _).2 ⟨r, ((mem_part rows key x r).1 hr).1, rfl⟩
    · intro hs
      obtain ⟨r, hr, rfl⟩ := (mem_ids _ _).1 hs
      exact ⟨key r, List.mem_dedup.2 (List.mem_map_of_mem hr), (mem_ids _ _).2 ⟨r, (mem_part rows key _ r).2 ⟨hr, rfl⟩, rfl⟩⟩
  · rw [List.flatMap_map, List.nodup_flatMap]
    refine ⟨fun x _ => nodup_ids _, ?_⟩
    refine (List.nodup_dedup _).imp ?_
    intro x y hxy s hx hy
    obtain ⟨r, hr, rfl⟩ := (mem_ids _ _).1 hx
    obtain ⟨r', hr', he⟩ := (mem_ids _ _).1 hy
    obtain ⟨h1, rfl⟩ := (mem_part rows key x r).1 hr
    obtain ⟨h2, rfl⟩ := (mem_part rows key y r').1 hr'
    exact hxy (hk r h1 r' h2 he.symm)

/-! ## Sums -/

theorem approx_eq (b : ℕ → ℝ) (cs : List Cluster) (h : ∀ c ∈ cs, c.weights.length = c.members.length) :
    approx b cs = ((cs.map fun c => (c.weights.map fun w => w * b c.rep).sum).sum,
      (cs.map fun c => (c.members.map fun _ => b c.rep).sum).sum) := by
  unfold approx
  congr 2
  apply List.map_congr_left
  intro c hc
  rw [h c hc]
  simp

theorem sum_members (b : ℕ → ℝ) (cs : List Cluster) :
    (cs.map fun c => (c.members.map b).sum).sum = ((cs.flatMap Cluster.members).map b).sum := by
  induction cs with
  | nil => rfl
  | cons a l ih => simp [ih]

theorem exact_blocks (q : ℕ → ℝ) (dStart nCoef levels : ℕ) :
    exact q dStart nCoef levels = ∑ s ∈ Finset.range levels, ∑ c ∈ Finset.Ico (dStart + s * nCoef) (dStart + (s + 1) * nCoef), q c := by
  unfold exact
  induction levels with
  | zero => simp
  | succ n ih =>
    rw [Finset.sum_range_succ, ← ih]
    exact (Finset.sum_Ico_consecutive q (by nlinarith) (by nlinarith)).symm

theorem block_full (q : ℕ → ℝ) (dStart nCoef rank s : ℕ) (hr : rank ≤ nCoef)
    (h0 : ∀ c ∈ Finset.Ico (dStart + s * nCoef + rank) (dStart + (s + 1) * nCoef), q c = 0) :
    block q dStart nCoef rank s = ∑ c ∈ Finset.Ico (dStart + s * nCoef) (dStart + (s + 1) * nCoef), q c := by
  have e : dStart + (s + 1) * nCoef - (nCoef - rank) = dStart + s * nCoef + rank := by
    have : (s + 1) * nCoef = s * nCoef + nCoef := by ring
    omega
  unfold block
  rw [e, ← Finset.sum_Ico_consecutive q (show dStart + s * nCoef ≤ dStart + s * nCoef + rank by omega)
    (show dStart + s * nCoef + rank ≤ dStart + (s + 1) * nCoef by
      have : (s + 1) * nCoef = s * nCoef + nCoef := by ring
      omega), Finset.sum_eq_zero h0, add_zero]

/-! ## Features -/

theorem place_lt (stat : ℕ → Stat) (rows : List Row) (v : ℕ) (h : stat v ≠ .n) (r : Row) (hr : r ∈ rows) :
    place rows v (r.vals.getD v 0) < count stat rows v := by
  unfold place count
  rw [if_neg h]
  apply Finset.card_lt_card
  rw [Finset.filter_ssubset]
  exact ⟨r.vals.getD v 0, by simpa using ⟨r, hr, rfl⟩, by simp⟩

theorem place_inj (rows : List Row) (v : ℕ) (r r' : Row) (hr : r ∈ rows) (hr' : r' ∈ rows)
    (h : place rows v (r.vals.getD v 0) = place rows v (r'.vals.getD v 0)) : r.vals.getD v 0 = r'.vals.getD v 0 := by
  have key : ∀ a b : Row, a ∈ rows → a.vals.getD v 0 < b.vals.getD v 0 →
      place rows v (a.vals.getD v 0) < place rows v (b.vals.getD v 0) := by
    intro a b ha hab
    unfold place
    apply Finset.card_lt_card
    rw [Finset.ssubset_iff_of_subset]
    · exact ⟨a.vals.getD v 0, by rw [Finset.mem_filter]; exact ⟨by simpa using ⟨a, ha, rfl⟩, hab⟩, by simp⟩
    · intro x hx
      rw [Finset.mem_filter] at hx ⊢
      exact ⟨hx.1, lt_trans hx.2 hab⟩
  rcases lt_trichotomy (r.vals.getD v 0) (r'.vals.getD v 0) with hl | he | hl
  · exact absurd h (ne_of_lt (key r r' hr hl))
  · exact he
  · exact absurd h.symm (ne_of_lt (key r' r hr' hl))

end Verif.Clus
