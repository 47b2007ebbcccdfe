import Verif.ClusLemmas
import Mathlib.Data.Real.Archimedean
import Mathlib.Algebra.Order.BigOperators.Group.Finset
import Mathlib.Tactic.NormNum

/-!
# Approximate derivatives for factor smooths (property C101)
-/

namespace Verif.Clus

open Finset (range)

/-! ## Binning -/

/-- C101: larger values are in the same or a later bin. -/
theorem bin_mono (a b : ℝ) (u : ℕ) {x y : ℝ} (h : x ≤ y) : bin a b u x ≤ bin a b u y := by
  unfold bin digitize
  apply List.Sublist.length_le
  apply List.monotone_filter_right
  intro e he
  simp only [decide_eq_true_eq] at he ⊢
  exact le_trans he h

/-- C101: two values in the same bin differ by less than the width of a bin, for a variable with at least four values. -/
theorem bin_close (a b : ℝ) (u : ℕ) (hu : 4 ≤ u) (hab : a < b) {x y : ℝ} (hx : a ≤ x) (hy : y ≤ b) (hxy : x ≤ y)
    (h : bin a b u x = bin a b u y) : y - x < (b - a) / ((Nat.sqrt u : ℝ) - 1) := by
  have hk : 2 ≤ Nat.sqrt u := Nat.le_sqrt.2 (by omega)
  unfold bin at h
  generalize Nat.sqrt u = k at hk h
  have hk' : (0 : ℝ) < (k : ℝ) - 1 := by
    have : (2 : ℝ) ≤ k := by exact_mod_cast hk
    linarith
  set w := (b - a) / ((k : ℝ) - 1) with hw
  have hw0 : 0 < w := div_pos (by linarith) hk'
  by_contra hc
  push Not at hc
  -- the first edge above `x` is at most `y`
  have hex : ∃ i : ℕ, i < k ∧ x < a + i * w ∧ a + i * w ≤ y := by
    have h1 : ∃ i : ℕ, x < a + i * w := by
      obtain ⟨i, hi⟩ := exists_nat_gt ((x - a) / w)
      exact ⟨i, by rw [div_lt_iff₀ hw0] at hi; linarith⟩
    classical
    set i := Nat.find h1 with hi
    have hs : x < a + i * w := Nat.find_spec h1
    have hpos : i ≠ 0 := by
      intro h0
      rw [h0] at hs
      simp at hs
      linarith
    obtain ⟨j, hj⟩ := Nat.exists_eq_succ_of_ne_zero hpos
    have hp : ¬ x < a + j * w := Nat.find_min h1 (by omega)
    push Not at hp
    have hiy : a + i * w ≤ y := by
      rw [hj]; push_cast; linarith
    refine ⟨i, ?_, hs, hiy⟩
    by_contra hik
    push Not at hik
    have : (k : ℝ) ≤ i := by exact_mod_cast hik
    have h2 : ((k : ℝ) - 1) * w = b - a := by rw [hw]; field_simp
    nlinarith
  obtain ⟨i, hik, hxi, hyi⟩ := hex
  have hlt : digitize (linspace a b k) x < digitize (linspace a b k) y := by
    have hmem : a + i * w ∈ linspace a b k := by
      unfold linspace
      rw [List.mem_map]
      exact ⟨i, List.mem_range.2 hik, by rw [if_neg (by omega)]⟩
    unfold digitize
    have hsub : ((linspace a b k).filter fun e => decide (e ≤ x)).Sublist ((linspace a b k).filter fun e => decide (e ≤ y)) := by
      apply List.monotone_filter_right
      intro e he
      simp only [decide_eq_true_eq] at he ⊢
      exact le_trans he hxy
    rcases lt_or_eq_of_le hsub.length_le with hl | hl
    · exact hl
    · exfalso
      have := hsub.eq_of_length hl
      have h1 : a + i * w ∈ (linspace a b k).filter fun e => decide (e ≤ x) := by
        rw [this, List.mem_filter]
        exact ⟨hmem, by simpa using hyi⟩
      rw [List.mem_filter] at h1
      simp at h1
      linarith [h1.2]
  omega

example : bin 0 10 9 4 = bin 0 10 9 1 ∧ bin 0 10 9 5 ≠ bin 0 10 9 4 := by
  have h : linspace 0 10 (Nat.sqrt 9) = [0, 5, 10] := by
    have : Nat.sqrt 9 = 3 := Nat.sqrt_eq' 3
    rw [this]
    norm_num [linspace, List.range_succ]
  constructor <;> norm_num [bin, h, digitize, List.filter]

/-! ## Every series is in one cluster -/

/-- C101: if the factors in `split_by` do not change within a series, every series is in exactly one cluster, whatever the labels. -/
theorem every_series_once_partial (rows : List Row) (k : ℕ) (splits : List (List Row)) (hs : split false rows k = some splits)
    (hk : ∀ r ∈ rows, ∀ r' ∈ rows, r.sid = r'.sid → r.facts = r'.facts)
    (total : List Row → ℕ → ℝ) (lab : List Row → ℕ → ℕ) (order : List Row → List ℕ)
    (ho : ∀ rows ∈ splits, (order rows).Perm (ids rows)) :
    ((run total lab order splits).flatMap Cluster.members).Perm (ids rows) := by
  refine (run_members total lab order splits ho).trans ?_
  by_cases h0 : k = 0
  · simp only [split, h0, if_true] at hs
    obtain rfl : [rows] = splits := by simpa using hs
    simp
  · simp only [split, h0, if_false, keys, Option.map_some, Bool.false_eq_true] at hs
    obtain rfl := Option.some.inj hs
    exact parts_perm rows Row.facts hk

theorem rank_lt (S : Finset ℕ) (x y : ℕ) (hx : x ∈ S) (h : x < y) : (S.filter (· < x)).card < (S.filter (· < y)).card := by
  refine Finset.card_lt_card ⟨fun z hz => ?_, fun hs => ?_⟩
  · rw [Finset.mem_filter] at hz ⊢
    exact ⟨hz.1, hz.2.trans h⟩
  · have := hs (Finset.mem_filter.2 ⟨hx, h⟩)
    rw [Finset.mem_filter] at this
    exact absurd this.2 (lt_irrefl x)

/-- C101: within a sub-group the series are numbered from zero without gaps, in their order, and different series keep different numbers; nothing else of a row changes. -/
theorem renumber_spec (rows : List Row) :
    (∀ s, (∃ r ∈ renumber rows, r.sid = s) ↔ s < (rows.map Row.sid).toFinset.card) ∧ (renumber rows).length = rows.length ∧
    (∀ i j (hi : i < rows.length) (hj : j < rows.length) (hi' : i < (renumber rows).length) (hj' : j < (renumber rows).length),
      (rows[i].sid < rows[j].sid ↔ (renumber rows)[i].sid < (renumber rows)[j].sid)) ∧
    ∀ i (hi : i < rows.length) (hi' : i < (renumber rows).length), (renumber rows)[i].vals = rows[i].vals ∧ (renumber rows)[i].facts = rows[i].facts := by
  have hord : ∀ x ∈ (rows.map Row.sid).toFinset, ∀ y ∈ (rows.map Row.sid).toFinset,
      (x < y ↔ ((rows.map Row.sid).toFinset.filter (· < x)).card < ((rows.map Row.sid).toFinset.filter (· < y)).card) := by
    intro x hx y hy
    refine ⟨rank_lt _ x y hx, fun h => ?_⟩
    by_contra hc
    rcases Nat.lt_or_ge y x with h1 | h1
    · have := rank_lt _ y x hy h1; omega
    · obtain rfl : x = y := by omega
      exact lt_irrefl _ h
  have hmem : ∀ r ∈ rows, r.sid ∈ (rows.map Row.sid).toFinset := fun r hr => List.mem_toFinset.2 (List.mem_map_of_mem hr)
  refine ⟨fun s => ?_, by simp [renumber], fun i j hi hj hi' hj' => ?_, fun i hi hi' => ?_⟩
  · have himg : (rows.map Row.sid).toFinset.image (fun x => ((rows.map Row.sid).toFinset.filter (· < x)).card) = Finset.range (rows.map Row.sid).toFinset.card := by
      refine Finset.eq_of_subset_of_card_le (fun y hy => ?_) ?_
      · obtain ⟨x, hx, rfl⟩ := Finset.mem_image.1 hy
        rw [Finset.mem_range]
        refine Finset.card_lt_card ⟨Finset.filter_subset _ _, fun hs => ?_⟩
        have := hs hx
        rw [Finset.mem_filter] at this
        exact absurd this.2 (lt_irrefl x)
      · rw [Finset.card_range, Finset.card_image_of_injOn]
        intro x hx y hy h
        dsimp only at h
        have h1 := hord x hx y hy
        have h2 := hord y hy x hx
        omega
    rw [← Finset.mem_range, ← himg, Finset.mem_image]
    constructor
    · rintro ⟨r, hr, rfl⟩
      obtain ⟨q, hq, rfl⟩ := List.mem_map.1 hr
      exact ⟨q.sid, hmem q hq, rfl⟩
    · rintro ⟨x, hx, rfl⟩
      obtain ⟨q, hq, rfl⟩ := List.mem_map.1 (List.mem_toFinset.1 hx)
      exact ⟨_, List.mem_map_of_mem hq, rfl⟩
  · simp only [renumber, List.getElem_map]
    exact hord _ (hmem _ (List.getElem_mem hi)) _ (hmem _ (List.getElem_mem hj))
  · simp [renumber]

/-- C101 for a sub-group with at most one factor in `split_by`: if it does not change within a series, every series of the sub-group is in exactly one cluster. -/
theorem every_series_once_sub_partial (rows : List Row) (k : ℕ) (h1 : k ≤ 1) (splits : List (List Row))
    (hs : split true rows k = some splits)
    (hk : ∀ r ∈ rows, ∀ r' ∈ rows, r.sid = r'.sid → r.facts = r'.facts)
    (total : List Row → ℕ → ℝ) (lab : List Row → ℕ → ℕ) (order : List Row → List ℕ)
    (ho : ∀ rows ∈ splits, (order rows).Perm (ids rows)) :
    ((run total lab order splits).flatMap Cluster.members).Perm (List.range (rows.map Row.sid).toFinset.card) := by
  have hsp := renumber_spec rows
  have hids : (ids (renumber rows)).Perm (List.range (rows.map Row.sid).toFinset.card) := by
    refine (List.perm_ext_iff_of_nodup (List.nodup_range.filter _) List.nodup_range).2 fun s => ?_
    rw [List.mem_range, ← hsp.1 s]
    rw [List.mem_filter, decide_eq_true_eq, List.mem_map]
    refine ⟨fun h => h.2, fun h => ⟨?_, h⟩⟩
    have hmax : ∀ (l : List ℕ) (a : ℕ), a ≤ l.foldl max a ∧ ∀ x ∈ l, x ≤ l.foldl max a := by
      intro l
      induction l with
      | nil => intro a; exact ⟨le_rfl, fun x hx => absurd hx (by simp)⟩
      | cons y ys ih =>
        intro a
        obtain ⟨i1, i2⟩ := ih (max a y)
        refine ⟨(le_max_left a y).trans i1, fun x hx => ?_⟩
        rcases List.mem_cons.1 hx with rfl | hx
        · exact (le_max_right a x).trans i1
        · exact i2 x hx
    rw [List.mem_range]
    obtain ⟨r, hr, rfl⟩ := h
    have := (hmax ((renumber rows).map Row.sid) 0).2 r.sid (List.mem_map_of_mem hr)
    omega
  have hk' : ∀ r ∈ renumber rows, ∀ r' ∈ renumber rows, r.sid = r'.sid → r.facts = r'.facts := by
    intro r hr r' hr' he
    obtain ⟨i, hi, rfl⟩ := List.getElem_of_mem hr
    obtain ⟨j, hj, rfl⟩ := List.getElem_of_mem hr'
    have hi' : i < rows.length := by rw [← hsp.2.1]; exact hi
    have hj' : j < rows.length := by rw [← hsp.2.1]; exact hj
    rw [(hsp.2.2.2 i hi' hi).2, (hsp.2.2.2 j hj' hj).2]
    have o1 := hsp.2.2.1 i j hi' hj' hi hj
    have o2 := hsp.2.2.1 j i hj' hi' hj hi
    exact hk _ (List.getElem_mem hi') _ (List.getElem_mem hj') (by omega)
  refine (run_members total lab order splits ho).trans (List.Perm.trans ?_ hids)
  by_cases h0 : k = 0
  · simp only [split, h0, if_true] at hs
    obtain rfl : [renumber rows] = splits := by simpa using hs
    simp
  · have h1 : k = 1 := by omega
    subst h1
    simp only [split, keys, pairIndex, if_true, Option.map_some, one_ne_zero, if_false] at hs
    obtain rfl := Option.some.inj hs
    exact parts_perm (renumber rows) (fun r => [r.facts.getD 0 0]) fun r hr r' hr' he => by simp [hk' r hr r' hr' he]

/-- Data with one series whose factor changes. -/
def changing : List Row := [⟨0, [1], [0]⟩, ⟨0, [2], [1]⟩]

/-- C101 fails if a factor in `split_by` changes within a series: the series is then in several clusters. -/
theorem every_series_once_wrong : ¬ ∀ (rows : List Row) (k : ℕ) (splits : List (List Row)), split false rows k = some splits →
    ∀ (total : List Row → ℕ → ℝ) (lab : List Row → ℕ → ℕ) (order : List Row → List ℕ),
    (∀ rows ∈ splits, (order rows).Perm (ids rows)) →
    ((run total lab order splits).flatMap Cluster.members).Perm (ids rows) := by
  intro h
  have := h changing 1 [[⟨0, [1], [0]⟩], [⟨0, [2], [1]⟩]]
    (by simp [split, keys, changing, List.dedup_cons_of_notMem]) (fun _ _ => 1) (fun _ _ => 0) ids (fun _ _ => List.Perm.refl _)
  have h2 := (run_members (fun _ _ => 1) (fun _ _ => 0) ids [[⟨0, [1], [0]⟩], [⟨0, [2], [1]⟩]]
    (fun _ _ => List.Perm.refl _)).symm.trans this
  have h3 := h2.length_eq
  revert h3
  simp [changing, ids, List.range_succ]

/-- C101 fails for sub-groups with two or more factors in `split_by`: `IndexError`. -/
theorem sub_two_factors_wrong (rows : List Row) (k : ℕ) (hk : 2 ≤ k) (hr : rows.length ≠ k) : split true rows k = none := by
  have : (renumber rows).length ≠ k := by simpa [renumber] using hr
  simp only [split, keys, pairIndex, if_true]
  rw [if_neg (by omega), if_neg (by omega), if_neg this]
  rfl

/-- C101: representative and weights. The representative is a member with the largest sum of features, a member's weight is its sum
relative to that of the representative: at most one, and one for the representative. -/
theorem cluster_weights (total : List Row → ℕ → ℝ) (lab : List Row → ℕ → ℕ) (order : List Row → List ℕ) (splits : List (List Row))
    (hpos : ∀ rows ∈ splits, ∀ i ∈ order rows, 0 < total rows i) (c : Cluster) (hc : c ∈ run total lab order splits) :
    c.rep ∈ c.members ∧ c.weights.length = c.members.length ∧ (∀ w ∈ c.weights, 0 < w ∧ w ≤ 1) ∧
      ∃ rows ∈ splits, (∀ i ∈ c.members, i ∈ order rows ∧ total rows i ≤ total rows c.rep) ∧
        c.weights = c.members.map fun i => total rows i / total rows c.rep := by
  obtain ⟨rows, hr, g, hg, ho, rfl⟩ := run_group total lab order splits c hc
  have hrep := rep_mem (total rows) g hg
  have hw := weights_eq (total rows) g
  have hp := hpos rows hr _ (ho _ hrep)
  refine ⟨hrep, by rw [hw]; simp [cluster], ?_, rows, hr, fun i hi => ⟨ho i hi, rep_max _ _ _ hi⟩, hw⟩
  intro w hwm
  rw [hw, List.mem_map] at hwm
  obtain ⟨i, hi, rfl⟩ := hwm
  exact ⟨div_pos (hpos rows hr i (ho i hi)) hp, (div_le_one hp).2 (rep_max _ _ _ hi)⟩

/-- C101: the run that is kept has the smallest loss. -/
theorem best_least {α : Type} (loss : α → ℝ) (l : List α) (a : α) (h : best loss l = some a) : a ∈ l ∧ ∀ b ∈ l, loss a ≤ loss b := by
  cases l with
  | nil => simp [best] at h
  | cons x l =>
    have key : ∀ (l : List α) (x : α), let r := l.foldl (fun b c => if loss c < loss b then c else b) x
        (r = x ∨ r ∈ l) ∧ loss r ≤ loss x ∧ ∀ b ∈ l, loss r ≤ loss b := by
      intro l
      induction l with
      | nil => intro x; simp
      | cons y l ih =>
        intro x
        simp only [List.foldl_cons]
        by_cases hlt : loss y < loss x
        · rw [if_pos hlt]
          obtain ⟨h1, h2, h3⟩ := ih y
          refine ⟨Or.inr ?_, le_of_lt (lt_of_le_of_lt h2 hlt), ?_⟩
          · rcases h1 with h1 | h1
            · rw [h1]; simp
            · exact List.mem_cons_of_mem _ h1
          · intro b hb
            rcases List.mem_cons.1 hb with rfl | hb
            · exact h2
            · exact h3 b hb
        · rw [if_neg hlt]
          obtain ⟨h1, h2, h3⟩ := ih x
          refine ⟨?_, h2, ?_⟩
          · rcases h1 with h1 | h1
            · exact Or.inl h1
            · exact Or.inr (List.mem_cons_of_mem _ h1)
          · intro b hb
            rcases List.mem_cons.1 hb with rfl | hb
            · push Not at hlt
              exact le_trans h2 hlt
            · exact h3 b hb
    obtain ⟨h1, h2, h3⟩ := key l x
    rw [best] at h
    obtain rfl := Option.some.inj h
    refine ⟨?_, ?_⟩
    · rcases h1 with h1 | h1
      · rw [h1]; simp
      · exact List.mem_cons_of_mem _ h1
    · intro b hb
      rcases List.mem_cons.1 hb with rfl | hb
      · exact h2
      · exact h3 b hb

example : best (fun x : ℕ => (x : ℝ)) [3, 1, 2] = some 1 := by simp [best]

/-! ## The pair of approximations -/

/-- Value of a column sum for the function of series `i` when the functions are ordered as the levels `code`. -/
noncomputable def own (q : ℕ → ℝ) (dStart nCoef rank : ℕ) (code : ℕ → ℕ) (i : ℕ) : ℝ := block q dStart nCoef rank (code i)

/-- If the series appear in the order of the levels of the factor, the exact sum lies between the two approximations as soon as
the function of every series contributes at most as much as that of its representative and at least its weight times that. -/
theorem approx_brackets (q : ℕ → ℝ) (dStart nCoef rank levels : ℕ) (code : ℕ → ℕ) (hcode : ∀ i < levels, code i = i)
    (hr : rank ≤ nCoef)
    (h0 : ∀ s < levels, ∀ c ∈ Finset.Ico (dStart + s * nCoef + rank) (dStart + (s + 1) * nCoef), q c = 0)
    (cs : List Cluster) (hcs : (cs.flatMap Cluster.members).Perm (List.range levels))
    (hrep : ∀ c ∈ cs, c.rep ∈ c.members) (hlen : ∀ c ∈ cs, c.weights.length = c.members.length)
    (hlow : ∀ c ∈ cs, ∀ p ∈ c.members.zip c.weights, p.2 * own q dStart nCoef rank code c.rep ≤ own q dStart nCoef rank code p.1)
    (hup : ∀ c ∈ cs, ∀ i ∈ c.members, own q dStart nCoef rank code i ≤ own q dStart nCoef rank code c.rep) :
    (approx (block q dStart nCoef rank) cs).1 ≤ exact q dStart nCoef levels ∧
      exact q dStart nCoef levels ≤ (approx (block q dStart nCoef rank) cs).2 := by
  set b := block q dStart nCoef rank with hb
  have hmem : ∀ c ∈ cs, ∀ i ∈ c.members, i < levels := by
    intro c hc i hi
    have : i ∈ cs.flatMap Cluster.members := List.mem_flatMap.2 ⟨c, hc, hi⟩
    simpa using hcs.mem_iff.1 this
  have hown : ∀ i < levels, own q dStart nCoef rank code i = b i := fun i hi => by rw [own, hcode i hi]
  have he : exact q dStart nCoef levels = (cs.map fun c => (c.members.map b).sum).sum := by
    rw [sum_members, (hcs.map b).sum_eq, exact_blocks]
    rw [show ((List.range levels).map b).sum = ∑ s ∈ range levels, b s from rfl]
    apply Finset.sum_congr rfl
    intro s hs
    exact (block_full q dStart nCoef rank s hr (h0 s (Finset.mem_range.1 hs))).symm
  rw [approx_eq b cs hlen, he]
  constructor
  · apply List.sum_le_sum
    intro c hc
    have hz : (c.weights.map fun w => w * b c.rep) = ((c.members.zip c.weights).map fun p => p.2 * b c.rep) := by
      rw [show (fun p : ℕ × ℝ => p.2 * b c.rep) = (fun w => w * b c.rep) ∘ Prod.snd from rfl, ← List.map_map,
        List.map_snd_zip (le_of_eq (hlen c hc))]
    have hm : c.members.map b = ((c.members.zip c.weights).map fun p => b p.1) := by
      rw [show (fun p : ℕ × ℝ => b p.1) = b ∘ Prod.fst from rfl, ← List.map_map,
        List.map_fst_zip (le_of_eq (hlen c hc).symm)]
    show (c.weights.map fun w => w * b c.rep).sum ≤ (c.members.map b).sum
    rw [hz, hm]
    apply List.sum_le_sum
    intro p hp
    have h1 := hlow c hc p hp
    rwa [hown _ (hmem c hc _ (hrep c hc)), hown _ (hmem c hc _ (List.of_mem_zip hp).1)] at h1
  · apply List.sum_le_sum
    intro c hc
    apply List.sum_le_sum
    intro i hi
    have h1 := hup c hc i hi
    rwa [hown _ (hmem c hc _ (hrep c hc)), hown _ (hmem c hc _ hi)] at h1

/-- C101: data with series numbered `0, 1, ...` in the order of the levels of the factor and factors that do not change within a
series. Whatever the clustering, the exact sum lies between the two approximations as soon as the function of every series contributes
at most as much as that of its representative and at least its weight times that. -/
theorem approx_partial (rows : List Row) (k levels : ℕ) (splits : List (List Row)) (hs : split false rows k = some splits)
    (hk : ∀ r ∈ rows, ∀ r' ∈ rows, r.sid = r'.sid → r.facts = r'.facts) (hids : ids rows = List.range levels)
    (total : List Row → ℕ → ℝ) (lab : List Row → ℕ → ℕ) (order : List Row → List ℕ)
    (ho : ∀ rows ∈ splits, (order rows).Perm (ids rows)) (hpos : ∀ rows ∈ splits, ∀ i ∈ order rows, 0 < total rows i)
    (q : ℕ → ℝ) (dStart nCoef rank : ℕ) (code : ℕ → ℕ) (hcode : ∀ i < levels, code i = i) (hr : rank ≤ nCoef)
    (h0 : ∀ s < levels, ∀ c ∈ Finset.Ico (dStart + s * nCoef + rank) (dStart + (s + 1) * nCoef), q c = 0)
    (hlow : ∀ c ∈ run total lab order splits, ∀ p ∈ c.members.zip c.weights,
      p.2 * own q dStart nCoef rank code c.rep ≤ own q dStart nCoef rank code p.1)
    (hup : ∀ c ∈ run total lab order splits, ∀ i ∈ c.members, own q dStart nCoef rank code i ≤ own q dStart nCoef rank code c.rep) :
    (approx (block q dStart nCoef rank) (run total lab order splits)).1 ≤ exact q dStart nCoef levels ∧
      exact q dStart nCoef levels ≤ (approx (block q dStart nCoef rank) (run total lab order splits)).2 :=
  approx_brackets q dStart nCoef rank levels code hcode hr h0 _
    (hids ▸ every_series_once_partial rows k splits hs hk total lab order ho)
    (fun c hc => (cluster_weights total lab order splits hpos c hc).1)
    (fun c hc => (cluster_weights total lab order splits hpos c hc).2.1) hlow hup

/-- C101: under the same conditions on the data the larger approximation is exact if the functions of all series in a cluster contribute
the same. -/
theorem approx_equal_partial (rows : List Row) (k levels : ℕ) (splits : List (List Row)) (hs : split false rows k = some splits)
    (hk : ∀ r ∈ rows, ∀ r' ∈ rows, r.sid = r'.sid → r.facts = r'.facts) (hids : ids rows = List.range levels)
    (total : List Row → ℕ → ℝ) (lab : List Row → ℕ → ℕ) (order : List Row → List ℕ)
    (ho : ∀ rows ∈ splits, (order rows).Perm (ids rows)) (hpos : ∀ rows ∈ splits, ∀ i ∈ order rows, 0 < total rows i)
    (q : ℕ → ℝ) (hq : ∀ c, 0 ≤ q c) (dStart nCoef rank : ℕ) (code : ℕ → ℕ) (hcode : ∀ i < levels, code i = i) (hr : rank ≤ nCoef)
    (h0 : ∀ s < levels, ∀ c ∈ Finset.Ico (dStart + s * nCoef + rank) (dStart + (s + 1) * nCoef), q c = 0)
    (hsame : ∀ c ∈ run total lab order splits, ∀ i ∈ c.members, own q dStart nCoef rank code i = own q dStart nCoef rank code c.rep) :
    (approx (block q dStart nCoef rank) (run total lab order splits)).2 = exact q dStart nCoef levels := by
  have hcw := fun c hc => cluster_weights total lab order splits hpos c hc
  have hperm := every_series_once_partial rows k splits hs hk total lab order ho
  rw [hids] at hperm
  have hmem : ∀ c ∈ run total lab order splits, ∀ i ∈ c.members, i < levels := fun c hc i hi => by
    simpa using hperm.mem_iff.1 (List.mem_flatMap.2 ⟨c, hc, hi⟩)
  refine le_antisymm ?_ (approx_partial rows k levels splits hs hk hids total lab order ho hpos q dStart nCoef rank code hcode hr h0
    ?_ fun c hc i hi => le_of_eq (hsame c hc i hi)).2
  · have hown : ∀ i < levels, own q dStart nCoef rank code i = block q dStart nCoef rank i := fun i hi => by rw [own, hcode i hi]
    rw [approx_eq _ _ fun c hc => (hcw c hc).2.1, exact_blocks]
    rw [show (∑ s ∈ range levels, ∑ c ∈ Finset.Ico (dStart + s * nCoef) (dStart + (s + 1) * nCoef), q c) =
        ((List.range levels).map (block q dStart nCoef rank)).sum from
      Finset.sum_congr rfl fun s hs => (block_full q dStart nCoef rank s hr (h0 s (Finset.mem_range.1 hs))).symm,
      ← (hperm.map _).sum_eq, ← sum_members]
    apply le_of_eq
    show (List.map (fun c : Cluster => (List.map (fun _ => block q dStart nCoef rank c.rep) c.members).sum) _).sum = _
    congr 1
    apply List.map_congr_left
    intro c hc
    congr 1
    apply List.map_congr_left
    intro i hi
    rw [← hown _ (hmem c hc i hi), ← hown _ (hmem c hc _ (hcw c hc).1), hsame c hc i hi]
  · intro c hc p hp
    have hp1 := (List.of_mem_zip hp).1
    rw [hsame c hc p.1 hp1]
    have hw := ((hcw c hc).2.2.1 p.2 (List.of_mem_zip hp).2).2
    have hb : 0 ≤ own q dStart nCoef rank code c.rep := by
      unfold own block
      exact Finset.sum_nonneg fun c _ => hq c
    nlinarith

/-- Three series, the last two with the same data. -/
def three : List Row := [⟨0, [1], []⟩, ⟨1, [2], []⟩, ⟨2, [2], []⟩]

theorem three_run : run (fun _ _ => 1) (fun _ i => if i = 0 then 0 else 1) ids [three] =
    [⟨[0], 0, [1]⟩, ⟨[1, 2], 1, [1, 1]⟩] := by
  have h : ids three = [0, 1, 2] := by simp [ids, three, List.range_succ]
  simp [run, clustersOf, h, List.splitBy, List.splitBy.loop, cluster, argmax, top]

/-- C101 fails if the series do not appear in the order of the levels: series 0, 1, 2 belong to levels 2, 0, 1. The functions of the
series in a cluster contribute the same, and the result is still wrong. -/
theorem approx_order_wrong : ∃ (q : ℕ → ℝ) (code : ℕ → ℕ), (∀ l < 3, ∃ i < 3, code i = l) ∧ split false three 0 = some [three] ∧
    (∀ c ∈ run (fun _ _ => 1) (fun _ i => if i = 0 then 0 else 1) ids [three], ∀ i ∈ c.members,
      own q 0 1 1 code i = own q 0 1 1 code c.rep) ∧
    (approx (block q 0 1 1) (run (fun _ _ => 1) (fun _ i => if i = 0 then 0 else 1) ids [three])).2 = 3 ∧ exact q 0 1 3 = 7 := by
  have hb : ∀ (q : ℕ → ℝ) s, block q 0 1 1 s = q s := fun q s => by simp [block]
  refine ⟨fun c => if c = 2 then 5 else 1, fun i => if i = 0 then 2 else i - 1, ?_, by simp [split], ?_, ?_, ?_⟩
  · intro l hl
    have : l = 0 ∨ l = 1 ∨ l = 2 := by omega
    rcases this with rfl | rfl | rfl
    · exact ⟨1, by norm_num, by simp⟩
    · exact ⟨2, by norm_num, by simp⟩
    · exact ⟨0, by norm_num, by simp⟩
  · rw [three_run]
    simp [own, hb]
  · rw [three_run]
    simp [approx, hb]
    norm_num
  · simp [exact, Finset.sum_range_succ]
    norm_num

example : exact (fun c => if c = 0 then 5 else 1) 0 1 3 = 7 ∧
    (approx (block (fun c => if c = 0 then 5 else 1) 0 1 1) (run (fun _ _ => 1) (fun _ i => if i = 0 then 0 else 1) ids [three])).2 = 7 := by
  constructor
  · simp [exact, ← Finset.range_eq_Ico, Finset.sum_range_succ]
    norm_num
  · rw [three_run]
    simp [approx, block]
    norm_num

/-! ## Features -/

theorem start_one (stat : ℕ → Stat) (rows : List Row) : start stat rows 1 = count stat rows 0 := by simp [start]

/-- Position of a row for variable `v`, without shift. -/
noncomputable def pos (stat : ℕ → Stat) (rows : List Row) (r : Row) (v : ℕ) : ℕ :=
  if stat v = .n then 0 else place rows v (r.vals.getD v 0)

theorem column_eq (stat : ℕ → Stat) (rows : List Row) (r : Row) (v : ℕ) (hv : v < 2) :
    column stat rows r v = start stat rows v + pos stat rows r v := by
  have : v = 0 ∨ v = 1 := by omega
  rcases this with rfl | rfl
  · simp [column, pos, shift, start]
  · rw [start_one]
    by_cases h : stat 1 = .n
    · simp [column, pos, shift, h]
    · simp [column, pos, shift, h]
      omega

theorem pos_lt (stat : ℕ → Stat) (rows : List Row) (r : Row) (hr : r ∈ rows) (v : ℕ) : pos stat rows r v < count stat rows v := by
  by_cases h : stat v = .n
  · simp [pos, count, h]
  · rw [pos, if_neg h]
    exact place_lt stat rows v h r hr

theorem sum_indicator (L : List Row) (f : Row → ℕ) (p : Row → Prop) [DecidablePred p] (h : ∀ r ∈ L, f r = if p r then 1 else 0) :
    (L.map f).sum = (L.filter fun r => p r).length := by
  induction L with
  | nil => rfl
  | cons a l ih =>
    rw [List.map_cons, List.sum_cons, ih fun r hr => h r (by simp [hr]), h a (by simp)]
    by_cases hp : p a
    · simp [hp]; omega
    · simp [hp]

theorem raw_eq (stat : ℕ → Stat) (nv : ℕ) (hnv : nv ≤ 2) (rows : List Row) (s v k : ℕ) (hv : v < nv) (hk : k < count stat rows v) :
    raw stat nv rows s (start stat rows v + k) = ((rows.filter fun r => r.sid = s).filter fun r => pos stat rows r v = k).length := by
  unfold raw
  apply sum_indicator
  intro r hr
  have hr : r ∈ rows := (List.mem_filter.1 hr).1
  have h0 := column_eq stat rows r 0 (by norm_num)
  have h1 := column_eq stat rows r 1 (by norm_num)
  have p0 := pos_lt stat rows r hr 0
  have hs0 : start stat rows 0 = 0 := by simp [start]
  have hs1 := start_one stat rows
  have hn : nv = 1 ∨ nv = 2 := by omega
  rcases hn with rfl | rfl
  · obtain rfl : v = 0 := by omega
    rw [List.range_one]
    by_cases hp : pos stat rows r 0 = k <;> simp [hp, h0, hs0]
  · have hv : v = 0 ∨ v = 1 := by omega
    rcases hv with rfl | rfl
    · have hne : column stat rows r 1 ≠ start stat rows 0 + k := by omega
      by_cases hp : pos stat rows r 0 = k
      · have he : column stat rows r 0 = start stat rows 0 + k := by omega
        simp [List.range_succ, hp, he, hne]
      · have he : column stat rows r 0 ≠ start stat rows 0 + k := by omega
        simp [List.range_succ, hp, he, hne]
    · have hne : column stat rows r 0 ≠ start stat rows 1 + k := by omega
      by_cases hp : pos stat rows r 1 = k
      · have he : column stat rows r 1 = start stat rows 1 + k := by omega
        simp [List.range_succ, hp, he, hne]
      · have he : column stat rows r 1 ≠ start stat rows 1 + k := by omega
        simp [List.range_succ, hp, he, hne]

/-- C101: with one or two covariates every entry of the vector of a series is the number of its rows with one value of one covariate. -/
theorem features_partial (nv : ℕ) (hnv : nv ≤ 2) (rows : List Row) (s v : ℕ) (hv : v < nv) (r : Row) (hr : r ∈ rows) :
    (features false (fun _ => .none) nv rows s)[start (fun _ => .none) rows v + place rows v (r.vals.getD v 0)]? =
      some ((((rows.filter fun r => r.sid = s).filter fun r' => r'.vals.getD v 0 = r.vals.getD v 0).length : ℕ) : ℝ) := by
  have hlt := place_lt (fun _ => .none) rows v (by simp) r hr
  have hlt' : start (fun _ => .none) rows v + place rows v (r.vals.getD v 0) < start (fun _ => .none) rows nv := by
    have hn : (nv = 1 ∧ v = 0) ∨ (nv = 2 ∧ v = 0) ∨ (nv = 2 ∧ v = 1) := by omega
    rcases hn with ⟨rfl, rfl⟩ | ⟨rfl, rfl⟩ | ⟨rfl, rfl⟩ <;> simp only [start, List.range_succ, List.range_zero, List.nil_append, List.map_nil, List.sum_nil, List.map_cons,
      List.sum_cons, List.cons_append, zero_add, add_zero] <;> omega
  rw [features, if_neg (by simp), List.getElem?_map, List.getElem?_range hlt', Option.map_some,
    raw_eq (fun _ => .none) nv hnv rows s v _ hv hlt]
  congr 3
  apply List.filter_congr
  intro r' hr'
  have hr' : r' ∈ rows := (List.mem_filter.1 hr').1
  have : (pos (fun _ => .none) rows r' v = place rows v (r.vals.getD v 0)) ↔ r'.vals.getD v 0 = r.vals.getD v 0 := by
    rw [pos, if_neg (by simp)]
    exact ⟨fun h => place_inj rows v r' r hr' hr h, fun h => by rw [h]⟩
  simp only [this]

/-- C101: with one or two covariates and `stat`, a covariate with entry "n" is represented by the number of rows of the series, one with
entry "n_unique" by the number of different values it takes in the series. -/
theorem features_stat_partial (stat : ℕ → Stat) (nv : ℕ) (hnv : nv ≤ 2) (rows : List Row) (s : ℕ) :
    features true stat nv rows s = (List.range nv).flatMap fun v =>
      match stat v with
      | .n => [((rows.filter fun r => r.sid = s).length : ℝ)]
      | .nUnique => [((((rows.filter fun r => r.sid = s).map fun r => r.vals.getD v 0).toFinset.card : ℕ) : ℝ)]
      | .none => (List.range (rows.map fun r => r.vals.getD v 0).toFinset.card).map fun k =>
          (((rows.filter fun r => r.sid = s).filter fun r => place rows v (r.vals.getD v 0) = k).length : ℝ) := by
  rw [features, if_pos rfl]
  apply List.flatMap_congr
  intro v hv
  have hv : v < nv := List.mem_range.1 hv
  have hpart : (List.range (count stat rows v)).map (fun c => raw stat nv rows s (start stat rows v + c)) =
      (List.range (count stat rows v)).map fun k => ((rows.filter fun r => r.sid = s).filter fun r => pos stat rows r v = k).length :=
    List.map_congr_left fun k hk => raw_eq stat nv hnv rows s v k hv (List.mem_range.1 hk)
  simp only [hpart]
  cases hst : stat v with
  | n =>
    have hc : count stat rows v = 1 := by simp [count, hst]
    have hp : ∀ r, pos stat rows r v = 0 := fun r => by simp [pos, hst]
    simp [hc, hp]
  | none =>
    have hc : count stat rows v = (rows.map fun r => r.vals.getD v 0).toFinset.card := by rw [count, hst, if_neg (by simp)]
    have hp : ∀ r, pos stat rows r v = place rows v (r.vals.getD v 0) := fun r => by rw [pos, hst, if_neg (by simp)]
    rw [if_neg (by simp), hc, List.map_map]
    apply List.map_congr_left
    intro k _
    simp only [hp, Function.comp]
  | nUnique =>
    have hp : ∀ r, pos stat rows r v = place rows v (r.vals.getD v 0) := fun r => by rw [pos, hst, if_neg (by simp)]
    rw [if_pos rfl]
    congr 2
    rw [List.filter_map, List.length_map]
    set L := rows.filter fun r => r.sid = s with hL
    have hLr : ∀ r ∈ L, r ∈ rows := fun r hr => (List.mem_filter.1 hr).1
    have hinj : Set.InjOn (place rows v) (L.map fun r => r.vals.getD v 0).toFinset := by
      intro x hx y hy he
      simp only [List.coe_toFinset, List.mem_map, Set.mem_ofPred_eq] at hx hy
      obtain ⟨r, hr, rfl⟩ := hx
      obtain ⟨r', hr', rfl⟩ := hy
      exact place_inj rows v r r' (hLr r hr) (hLr r' hr') he
    rw [← Finset.card_image_of_injOn hinj, ← List.toFinset_card_of_nodup (List.Nodup.filter _ List.nodup_range)]
    congr 1
    ext k
    simp only [List.mem_toFinset, List.mem_filter, List.mem_range, Function.comp, decide_eq_true_eq, Finset.mem_image, List.mem_map,
      List.length_pos_iff_exists_mem, hp]
    constructor
    · rintro ⟨_, r, hr, hk⟩
      exact ⟨_, ⟨r, hr, rfl⟩, hk⟩
    · rintro ⟨x, ⟨r, hr, rfl⟩, rfl⟩
      exact ⟨place_lt stat rows v (by simp [hst]) r (hLr r hr), r, hr, rfl⟩

/-- Two series with one row each and three covariates; in the rows of the first series the covariates are `0, 0, 1`, in those of the
second `0, 1, 0`. Two more series make every covariate take two values. -/
def swapped : List Row := [⟨0, [0, 0, 1], []⟩, ⟨1, [0, 1, 0], []⟩, ⟨2, [1, 0, 0], []⟩, ⟨3, [1, 1, 1], []⟩]

theorem swapped_place (v : ℕ) (hv : v < 3) : place swapped v 0 = 0 ∧ place swapped v 1 = 1 ∧ count (fun _ => .none) swapped v = 2 := by
  have : v = 0 ∨ v = 1 ∨ v = 2 := by omega
  have h2 : ({0, 1} : Finset ℝ).card = 2 := by rw [Finset.card_insert_of_notMem (by simp)]; simp
  have hs : ((swapped.map fun r => r.vals.getD v 0).toFinset : Finset ℝ) = {0, 1} := by
    rcases this with rfl | rfl | rfl <;> (ext x; simp [swapped])
  refine ⟨?_, ?_, ?_⟩
  · rw [place, hs, Finset.card_eq_zero, Finset.filter_eq_empty_iff]
    intro x hx
    simp at hx
    rcases hx with rfl | rfl <;> norm_num
  · rw [place, hs]
    have : ({0, 1} : Finset ℝ).filter (· < 1) = {0} := by
      ext x
      simp
      constructor
      · rintro ⟨rfl | rfl, h⟩
        · rfl
        · exact absurd h (by norm_num)
      · rintro rfl; norm_num
    rw [this]; rfl
  · rw [count, if_neg (by simp), hs, h2]

/-- C101 fails with three covariates: columns of the third covariate start after as many columns as the second one has, so they coincide
with columns of other covariates. Series 0 and 1 take different values of the second and of the third covariate, and have the same vector. -/
theorem features_wrong : features false (fun _ => .none) 3 swapped 0 = features false (fun _ => .none) 3 swapped 1 ∧
    (swapped.filter fun r => r.sid = 0).map (fun r => r.vals.getD 1 0) ≠ (swapped.filter fun r => r.sid = 1).map (fun r => r.vals.getD 1 0) ∧
    (swapped.filter fun r => r.sid = 0).map (fun r => r.vals.getD 2 0) ≠ (swapped.filter fun r => r.sid = 1).map (fun r => r.vals.getD 2 0) := by
  have h0 := swapped_place 0 (by norm_num)
  have h1 := swapped_place 1 (by norm_num)
  have h2 := swapped_place 2 (by norm_num)
  refine ⟨?_, by simp [swapped], by simp [swapped]⟩
  unfold features
  rw [if_neg (by simp), if_neg (by simp)]
  apply List.map_congr_left
  intro c _
  have key : raw (fun _ => .none) 3 swapped 0 c = raw (fun _ => .none) 3 swapped 1 c := by
    have f0 : swapped.filter (fun r => r.sid = 0) = [⟨0, [0, 0, 1], []⟩] := by simp [swapped]
    have f1 : swapped.filter (fun r => r.sid = 1) = [⟨1, [0, 1, 0], []⟩] := by simp [swapped]
    unfold raw
    rw [f0, f1]
    simp [List.range_succ, column, shift, h0, h1, h2, List.filter_cons, List.filter_append]
    split_ifs <;> simp_all
  rw [key]

end Verif.Clus
