import Verif.RowsModel
import Mathlib.Data.List.GetD
import Mathlib.Data.List.Nodup
import Mathlib.Tactic.Linarith
import Mathlib.Tactic.NormNum
import Mathlib.Tactic.Ring

/-!
# Rows with missing values are left out consistently (property C107)
-/

namespace Verif.Rows

/-! ### Which rows are used -/

theorem mask_iff (f : Form) (row : Row) : mask f row = true ↔ row f.y ≠ none ∧ ∀ t ∈ f.terms, ∀ v ∈ t.vars, row v ≠ none := by
  unfold mask
  rw [List.all_eq_true]
  simp only [List.mem_cons, List.mem_flatMap, forall_eq_or_imp, Option.isSome_iff_ne_none]
  exact ⟨fun h => ⟨h.1, fun t ht v hv => h.2 v ⟨t, ht, hv⟩⟩, fun h => ⟨h.1, fun v ⟨t, ht, hv⟩ => h.2 t ht v hv⟩⟩

/-- C107: with `drop_NA` exactly the rows are used in which the response and all variables of the formula are available, in their order; otherwise all rows. -/
theorem used_spec (f : Form) (drop : Bool) (dat : List Row) :
    (used (mask f) drop dat).Pairwise (· < ·) ∧
    (∀ r, r ∈ used (mask f) drop dat ↔ ∃ h : r < dat.length, drop = true → dat[r] f.y ≠ none ∧ ∀ t ∈ f.terms, ∀ v ∈ t.vars, dat[r] v ≠ none) := by
  refine ⟨List.Pairwise.filter _ List.pairwise_lt_range, fun r => ?_⟩
  unfold used
  rw [List.mem_filter, List.mem_range]
  constructor
  · rintro ⟨h, h2⟩
    refine ⟨h, fun hd => ?_⟩
    rw [List.getD_eq_getElem _ _ h, hd] at h2
    exact (mask_iff f _).1 (by simpa using h2)
  · rintro ⟨h, h2⟩
    refine ⟨h, ?_⟩
    rw [List.getD_eq_getElem _ _ h]
    cases drop with
    | false => rfl
    | true => simpa using (mask_iff f _).2 (h2 rfl)

theorem used_congr (m m' : Row → Bool) (dat : List Row) (h : ∀ row ∈ dat, m row = m' row) : used m true dat = used m' true dat := by
  unfold used
  refine List.filter_congr fun r hr => ?_
  have hr := List.mem_range.1 hr
  rw [List.getD_eq_getElem _ _ hr, h _ (List.getElem_mem hr)]

/-- C107: two formulas use the same rows exactly if in every row both or neither lack a value. -/
theorem used_eq_iff (f g : Form) (dat : List Row) : used (mask f) true dat = used (mask g) true dat ↔ ∀ row ∈ dat, mask f row = mask g row := by
  refine ⟨fun h row hrow => ?_, used_congr _ _ dat⟩
  obtain ⟨r, hr, rfl⟩ := List.getElem_of_mem hrow
  have key : ∀ k : Form, (r ∈ used (mask k) true dat ↔ mask k dat[r] = true) := by
    intro k
    unfold used
    rw [List.mem_filter, List.mem_range, List.getD_eq_getElem _ _ hr]
    simp [hr]
  have := (key f).symm.trans ((by rw [h] : r ∈ used (mask f) true dat ↔ r ∈ used (mask g) true dat).trans (key g))
  exact Bool.eq_iff_iff.2 this

/-- C107, part: if every row lacks values in all formulas of the model or in none, the response and the matrices of all formulas have the same rows of the data at every position: those in
which nothing is missing. Missing: rows that lack values in some formulas only (`aligned_wrong`). -/
theorem aligned_partial (dat : List Row) (f : Form) (fs : List Form) (hm : ∀ g ∈ fs, ∀ row ∈ dat, mask g row = mask f row) :
    ∃ rs : List ℕ, rs.Pairwise (· < ·) ∧
      (∀ r, r ∈ rs ↔ ∃ h : r < dat.length, ∀ g ∈ f :: fs, dat[r] g.y ≠ none ∧ ∀ t ∈ g.terms, ∀ v ∈ t.vars, dat[r] v ≠ none) ∧
      fitData dat (f :: fs) = some (rs.map fun r => dat.getD r (fun _ => none) f.y,
        (f :: fs).map fun g => rs.map fun r => rowOf g (fun _ => true) (dat.getD r fun _ => none)) := by
  obtain ⟨h1, h2⟩ := used_spec f true dat
  refine ⟨_, h1, fun r => ?_, ?_⟩
  · rw [h2]
    constructor
    · rintro ⟨h, h3⟩
      refine ⟨h, fun g hg => ?_⟩
      rcases List.mem_cons.1 hg with rfl | hg
      · exact h3 rfl
      · rw [← mask_iff, hm g hg _ (List.getElem_mem h), mask_iff]
        exact h3 rfl
    · rintro ⟨h, h3⟩
      exact ⟨h, fun _ => h3 f List.mem_cons_self⟩
  · have hX : (f :: fs).map (fun g => mmatOf g true dat) =
        (f :: fs).map fun g => (used (mask f) true dat).map fun r => rowOf g (fun _ => true) (dat.getD r fun _ => none) := ?_
    · show some (ysOf f true dat, (f :: fs).map fun g => mmatOf g true dat) = _
      rw [hX]
      rfl
    refine List.map_congr_left fun g hg => ?_
    unfold mmatOf
    rcases List.mem_cons.1 hg with rfl | hg
    · rfl
    · rw [used_congr _ _ dat (hm g hg)]

/-- C107: without `drop_NA` response and matrices have all rows. -/
theorem undropped (dat : List Row) (g : Form) :
    ysOf g false dat = dat.map (fun row => row g.y) ∧ mmatOf g false dat = dat.map (rowOf g fun _ => true) := by
  have hu : used (mask g) false dat = List.range dat.length := by simp [used]
  unfold ysOf mmatOf
  rw [hu]
  have key : ∀ {α : Type} (F : Row → α), (List.range dat.length).map (fun r => F (dat.getD r fun _ => none)) = dat.map F := by
    intro α F
    refine List.ext_getElem (by simp) fun i h1 h2 => ?_
    have hi : i < dat.length := by simpa using h2
    rw [List.getElem_map, List.getElem_map, List.getElem_range, List.getD_eq_getElem _ _ hi]
  exact ⟨key fun row => row g.y, key _⟩

/-! ### Rows that lack values in some formulas only -/

/-- Response 0, `x` is 1, `z` is 2. `x` is missing in the first row, `z` in the last. -/
def gaps : List Row := [fun v => [some 10, none, some 20].getD v none, fun v => [some 11, some 1, some 21].getD v none, fun v => [some 12, some 2, none].getD v none]

/-- `y ~ x`. -/
def formX : Form := ⟨0, [.lin 1]⟩
/-- `y ~ z`. -/
def formZ : Form := ⟨0, [.lin 2]⟩

theorem gaps_used : used (mask formX) true gaps = [1, 2] ∧ used (mask formZ) true gaps = [0, 1] := by
  constructor <;> rfl

/-- C107 fails if formulas of a model lack values in different rows: the numbers of rows may agree and the fit then pairs the responses of rows 1 and 2 with the values of `z` of rows 0 and 1. -/
theorem aligned_wrong : fitData gaps [formX, formZ] = some ([some 11, some 12], [[[some 1], [some 2]], [[some 20], [some 21]]]) := by
  unfold fitData ysOf mmatOf
  simp only [List.map_cons, List.map_nil, gaps_used.1, gaps_used.2]
  rfl

/-- C107 fails in general as soon as masks differ: some position of the response and of a matrix belong to different rows of the data, or the numbers of rows differ. -/
theorem misaligned_wrong (f g : Form) (dat : List Row) (h : ∃ row ∈ dat, mask f row ≠ mask g row) : (used (mask f) true dat).length ≠ (used (mask g) true dat).length ∨
    ∃ i r r' : ℕ, (used (mask f) true dat)[i]? = some r ∧ (used (mask g) true dat)[i]? = some r' ∧ r ≠ r' := by
  by_contra hc
  push Not at hc
  obtain ⟨hl, hi⟩ := hc
  obtain ⟨row, hr, hne⟩ := h
  refine hne ((used_eq_iff f g dat).1 (List.ext_getElem hl fun i h1 h2 => ?_) row hr)
  exact hi i _ _ (List.getElem?_eq_getElem h1) (List.getElem?_eq_getElem h2)

/-- C107: the list of responses holds the response of the first formula once; formulas with the same response have no entry of their own, whatever their missing values. -/
theorem getYs_spec (drop : Bool) (dat : List Row) (f : Form) (fs : List Form) (k : ℕ) (hk : k < fs.length) :
    (getYs drop dat (f :: fs))[0]? = some (some (ysOf f drop dat)) ∧
    (getYs drop dat (f :: fs))[k + 1]? = some (if fs[k].y = f.y then none else some (ysOf fs[k] drop dat)) := by
  unfold getYs
  constructor
  · simp
  · rw [List.getElem?_mapIdx, List.getElem?_cons_succ, List.getElem?_eq_getElem hk]
    simp

/-! ### Offsets -/

/-- C107: the offset at a position belongs to the row of the data whose response is at this position. -/
theorem offset_rows (f : Form) (dat : List Row) (off : List ℝ) (i : ℕ) :
    (ysOf f true dat)[i]? = ((used (mask f) true dat)[i]?).map (fun r => dat.getD r (fun _ => none) f.y) ∧
    (mmatOf f true dat)[i]? = ((used (mask f) true dat)[i]?).map (fun r => rowOf f (fun _ => true) (dat.getD r fun _ => none)) ∧
    (offsetOf f dat off)[i]? = ((used (mask f) true dat)[i]?).map fun r => off.getD r 0 := by
  unfold ysOf mmatOf offsetOf
  simp

/-! ### Levels that occur in rows without response only -/

/-- C107 fails for levels of a factor that only occur in rows which are left out: their random intercepts stay in the model with a column of zeros. -/
theorem empty_level_wrong (y g levels l : ℕ) (hl : l < levels) (dat : List Row) (h : ∀ row ∈ dat, row g = some (l : ℝ) → row y = none) :
    ∀ x ∈ mmatOf ⟨y, [.ri g levels]⟩ true dat, x.length = levels ∧ x[l]? = some (some 0) := by
  intro x hx
  obtain ⟨r, hr, rfl⟩ := List.mem_map.1 hx
  obtain ⟨h1, h2⟩ := ((used_spec ⟨y, [.ri g levels]⟩ true dat).2 r).1 hr
  have h3 := (h2 rfl).1
  rw [List.getD_eq_getElem _ _ h1]
  have h4 : dat[r] g ≠ some (l : ℝ) := fun hc => h3 (h _ (List.getElem_mem h1) hc)
  have h5 : isLevel (dat[r] g) l = false := by
    unfold isLevel
    cases hg : dat[r] g with
    | none => rfl
    | some z =>
      simp only [decide_eq_false_iff_not]
      intro hz
      exact h4 (by rw [hg, hz])
  have hrow : rowOf ⟨y, [.ri g levels]⟩ (fun _ => true) dat[r] = (List.range levels).map fun l => if isLevel (dat[r] g) l then some 1 else some 0 := by
    simp [rowOf, Term.cols]
  rw [hrow]
  refine ⟨by simp, ?_⟩
  rw [List.getElem?_map, List.getElem?_range hl, Option.map_some, h5]
  simp

/-! ### Covariates of file data kept in memory -/

/-- C107 fails for file data whose covariates are kept in memory: rows with a response are used even if a covariate is missing. -/
theorem files_mask_wrong (f : Form) (dat : List Row) (r : ℕ) (hr : r < dat.length) (hy : dat[r] f.y ≠ none) (t : Term) (ht : t ∈ f.terms) (v : ℕ) (hv : v ∈ t.vars) (hm : dat[r] v = none) :
    r ∈ used (maskFiles f) true dat ∧ r ∉ used (mask f) true dat := by
  constructor
  · unfold used
    rw [List.mem_filter, List.mem_range, List.getD_eq_getElem _ _ hr]
    exact ⟨hr, by simpa [maskFiles, Option.isSome_iff_ne_none] using hy⟩
  · intro hc
    obtain ⟨h, h2⟩ := ((used_spec f true dat).2 r).1 hc
    exact (h2 rfl).2 t ht v hv hm

/-! ### Prediction -/

theorem dot_append (a b : List Cell) (c : List ℝ) : dot (a ++ b) c = addN (dot a (c.take a.length)) (dot b (c.drop a.length)) := by
  induction a generalizing c with
  | nil => cases h : dot b c <;> simp [dot, addN, h]
  | cons x xs ih =>
    cases c with
    | nil => cases b <;> simp [dot, addN]
    | cons y ys =>
      simp only [List.cons_append, dot, List.length_cons, List.take_succ_cons, List.drop_succ_cons, ih]
      cases x <;> cases dot xs (List.take xs.length ys) <;> cases dot b (List.drop xs.length ys) <;> simp [addN, add_assoc]

theorem dot_zero (n : ℕ) (c : List ℝ) : dot (List.replicate n (some 0)) c = some 0 := by
  induction n generalizing c with
  | zero => cases c <;> rfl
  | succ n ih =>
    cases c with
    | nil => rfl
    | cons b bs => rw [List.replicate_succ]; simp [dot, ih, addN]

theorem cols_length (row : Row) (t : Term) : (t.cols row).length = t.width := by
  cases t <;> simp [Term.cols, Term.width, List.length_flatMap]

/-- Contribution of the terms, one after the other, each with its coefficients. -/
noncomputable def contributions (row : Row) (use : ℕ → Bool) : List Term → ℕ → List ℝ → List Cell
  | [], _, _ => []
  | t :: ts, i, c => (if use i then dot (t.cols row) (c.take t.width) else some 0) :: contributions row use ts (i + 1) (c.drop t.width)

theorem dot_terms (row : Row) (use : ℕ → Bool) (ts : List Term) : ∀ (k : ℕ) (c : List ℝ),
    dot ((ts.mapIdx fun i t => if use (k + i) then t.cols row else List.replicate t.width (some 0)).flatten) c = (contributions row use ts k c).foldr addN (some 0) := by
  induction ts with
  | nil => intro k c; cases c <;> rfl
  | cons t ts ih =>
    intro k c
    rw [List.mapIdx_cons, List.flatten_cons, dot_append]
    have hl : (if use (k + 0) then t.cols row else List.replicate t.width (some 0)).length = t.width := by
      split_ifs
      · exact cols_length row t
      · simp
    rw [hl]
    show addN _ _ = addN _ _
    congr 1
    · rw [Nat.add_zero]
      split_ifs
      · rfl
      · exact dot_zero _ _
    · rw [← ih (k + 1) (c.drop t.width)]
      congr 3
      funext i
      rw [show k + (i + 1) = k + 1 + i from by ring]

/-- C107: a prediction is the sum of the contributions of the terms that are used. -/
theorem predict_sum (f : Form) (use : ℕ → Bool) (coef : List ℝ) (row : Row) : predict f use coef row = (contributions row use f.terms 0 coef).foldr addN (some 0) := by
  unfold predict rowOf
  have := dot_terms row use f.terms 0 coef
  simpa only [Nat.zero_add] using this

theorem cols_congr (row row' : Row) (t : Term) (ht : ∀ v ∈ t.vars, row v = row' v) : t.cols row = t.cols row' := by
  cases t <;> simp_all [Term.cols, Term.vars]

/-- C107: variables of terms that are not used do not matter for a prediction, even if they are missing. -/
theorem predict_used_only (f : Form) (use : ℕ → Bool) (coef : List ℝ) (row row' : Row)
    (h : ∀ i (hi : i < f.terms.length), use i = true → ∀ v ∈ f.terms[i].vars, row v = row' v) : predict f use coef row = predict f use coef row' := by
  unfold predict rowOf
  congr 2
  refine List.ext_getElem (by simp) fun i h1 h2 => ?_
  rw [List.getElem_mapIdx, List.getElem_mapIdx]
  have hi : i < f.terms.length := by simpa using h1
  by_cases hu : use i = true
  · rw [if_pos hu, if_pos hu, cols_congr row row' _ (h i hi hu)]
  · rw [if_neg hu, if_neg hu]

theorem foldr_none (l : List Cell) (h : none ∈ l) : l.foldr addN (some 0) = none := by
  induction l with
  | nil => simp at h
  | cons x xs ih =>
    rw [List.foldr_cons]
    rcases List.mem_cons.1 h with h | h
    · rw [← h]; rfl
    · rw [ih h]; cases x <;> rfl

theorem contributions_get (row : Row) (use : ℕ → Bool) (ts : List Term) : ∀ (k : ℕ) (c : List ℝ) (i : ℕ) (hi : i < ts.length),
    (contributions row use ts k c)[i]? = some (if use (k + i) then dot (ts[i].cols row) ((c.drop ((ts.take i).map Term.width).sum).take ts[i].width) else some 0) := by
  induction ts with
  | nil => intro k c i hi; simp at hi
  | cons t ts ih =>
    intro k c i hi
    cases i with
    | zero => simp [contributions]
    | succ i =>
      have := ih (k + 1) (c.drop t.width) i (by simpa using hi)
      rw [contributions, List.getElem?_cons_succ, this, List.drop_drop]
      simp only [List.getElem_cons_succ, List.take_succ_cons, List.map_cons, List.sum_cons]
      rw [show k + (i + 1) = k + 1 + i from by ring]

/-- C107, part: the prediction is missing if a variable of a linear effect that is used is missing. Missing: smooth terms and factors (`predict_smooth_wrong`, `predict_factor_wrong`). -/
theorem predict_linear_partial (f : Form) (use : ℕ → Bool) (coef : List ℝ) (row : Row) (i : ℕ) (hi : i < f.terms.length) (v : ℕ) (ht : f.terms[i] = .lin v) (hu : use i = true) (hv : row v = none)
    (hc : ((f.terms.take i).map Term.width).sum < coef.length) : predict f use coef row = none := by
  rw [predict_sum]
  refine foldr_none _ ?_
  have hg := contributions_get row use f.terms 0 coef i hi
  rw [Nat.zero_add, if_pos hu, ht] at hg
  obtain ⟨b, bs, hb⟩ : ∃ b bs, (coef.drop ((f.terms.take i).map Term.width).sum).take (Term.lin v).width = b :: bs := by
    refine List.exists_cons_of_ne_nil ?_
    intro he
    have := congrArg List.length he
    rw [List.length_take, List.length_drop, List.length_nil] at this
    simp only [Term.width] at this
    omega
  rw [hb] at hg
  have : dot ((Term.lin v).cols row) (b :: bs) = none := by simp [Term.cols, dot, hv, addN]
  rw [this] at hg
  exact List.mem_of_getElem? hg

/-- C107 fails for predictions of smooth terms: if the variable of a smooth is missing the smooth counts as zero and the prediction is that without the term. -/
theorem predict_smooth_wrong (f : Form) (use : ℕ → Bool) (coef : List ℝ) (row : Row) (i : ℕ) (hi : i < f.terms.length) (v nk : ℕ) (B : ℝ → ℕ → ℝ) (ht : f.terms[i] = .smooth v nk B)
    (hv : row v = none) : predict f use coef row = predict f (fun k => use k && k != i) coef row := by
  unfold predict rowOf
  congr 2
  refine List.ext_getElem (by simp) fun k h1 h2 => ?_
  rw [List.getElem_mapIdx, List.getElem_mapIdx]
  by_cases hk : k = i
  · subst hk
    rw [ht]
    simp only [bne_self_eq_false, Bool.and_false, Bool.false_eq_true, if_false]
    split_ifs
    · simp [Term.cols, Term.width, hv, stored]
    · rfl
  · have : (k != i) = true := by simpa using hk
    show _ = if (use k && k != i) = true then _ else _
    rw [this, Bool.and_true]

/-- C107 fails for predictions with factors: a missing level and a level that was not in the data count as the first level of a dummy-coded factor. -/
theorem predict_factor_wrong (f : Form) (use : ℕ → Bool) (coef : List ℝ) (row : Row) (g : ℕ) (hg : row g = none) (hf : ∀ t ∈ f.terms, g ∈ t.vars → ∃ levels, t = .fac g levels) :
    predict f use coef row = predict f use coef (fun v => if v = g then some 0 else row v) := by
  have hcols : ∀ t ∈ f.terms, t.cols row = t.cols (fun v => if v = g then some 0 else row v) := by
    intro t ht
    by_cases hm : g ∈ t.vars
    · obtain ⟨levels, rfl⟩ := hf t ht hm
      simp only [Term.cols, hg, if_true]
      refine List.map_congr_left fun l hl => ?_
      have h1 : isLevel none l = false := rfl
      have h2 : isLevel (some 0) l = false := by
        have hl' : l ≠ 0 := by
          rintro rfl
          rw [List.mem_iff_getElem] at hl
          obtain ⟨q, hq, he⟩ := hl
          rw [List.getElem_drop, List.getElem_range] at he
          omega
        have hl2 : (0 : ℝ) ≠ (l : ℝ) := by exact_mod_cast Ne.symm hl'
        simp [isLevel, hl2]
      rw [h1, h2]
    · refine cols_congr row _ t fun v hv => ?_
      have : v ≠ g := fun h => hm (h ▸ hv)
      simp [this]
  unfold predict rowOf
  congr 2
  refine List.ext_getElem (by simp) fun k h1 h2 => ?_
  rw [List.getElem_mapIdx, List.getElem_mapIdx, hcols _ (List.getElem_mem _)]

/-! ### Examples -/

example : ∃ rs : List ℕ, rs.Pairwise (· < ·) ∧ fitData gaps [formX, ⟨0, [.int, .lin 1]⟩] = some (rs.map fun r => gaps.getD r (fun _ => none) 0,
    [formX, ⟨0, [.int, .lin 1]⟩].map fun g => rs.map fun r => rowOf g (fun _ => true) (gaps.getD r fun _ => none)) := by
  obtain ⟨rs, h1, -, h3⟩ := aligned_partial gaps formX [⟨0, [.int, .lin 1]⟩] (by intro g hg row _; simp at hg; subst hg; rfl)
  exact ⟨rs, h1, h3⟩

example : ∃ row ∈ gaps, mask formX row ≠ mask formZ row := ⟨_, List.mem_cons_self, by decide⟩

/-- `y ~ 1 + f(x)`: with `x` missing the prediction is the intercept. -/
example (B : ℝ → ℕ → ℝ) (coef : List ℝ) : predict ⟨0, [.int, .smooth 1 3 B]⟩ (fun _ => true) (5 :: coef) (fun _ => none) = some 5 := by
  rw [predict_smooth_wrong ⟨0, [.int, .smooth 1 3 B]⟩ _ _ _ 1 (by simp) 1 3 B rfl rfl]
  have : rowOf ⟨0, [.int, .smooth 1 3 B]⟩ (fun k => true && k != 1) (fun _ => none) = some 1 :: List.replicate 3 (some 0) := by simp [rowOf, Term.cols, Term.width]
  unfold predict
  rw [this, dot, dot_zero]
  simp [addN]

example : predict formX (fun _ => true) [2] (fun _ => none) = none := predict_linear_partial formX _ _ _ 0 (by simp [formX]) 1 rfl rfl rfl (by simp)

/-- Level 1 only occurs in a row without response. -/
example : ∀ x ∈ mmatOf ⟨0, [.ri 1 2]⟩ true [fun v => [some 3, some 0].getD v none, fun v => [none, some 1].getD v none], x.length = 2 ∧ x[1]? = some (some 0) :=
  empty_level_wrong 0 1 2 1 (by omega) _ (by
    intro row hrow h
    simp only [List.mem_cons, List.not_mem_nil, or_false] at hrow
    rcases hrow with rfl | rfl
    · simp at h
    · rfl)

example : 0 ∈ used (maskFiles formX) true gaps ∧ 0 ∉ used (mask formX) true gaps :=
  files_mask_wrong formX gaps 0 (by simp [gaps]) (fun h => nomatch (h : some (10 : ℝ) = none)) (.lin 1) (by simp [formX]) 1 (by simp [Term.vars]) rfl

example (coef : List ℝ) : predict ⟨0, [.int, .fac 1 3]⟩ (fun _ => true) coef (fun _ => none) = predict ⟨0, [.int, .fac 1 3]⟩ (fun _ => true) coef (fun v => if v = 1 then some 0 else none) :=
  predict_factor_wrong ⟨0, [.int, .fac 1 3]⟩ _ coef _ 1 rfl (by
    intro t ht hm
    simp only [List.mem_cons, List.not_mem_nil, or_false] at ht
    rcases ht with rfl | rfl
    · simp [Term.vars] at hm
    · exact ⟨3, rfl⟩)

end Verif.Rows
