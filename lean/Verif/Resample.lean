import Verif.ResampleModel
import Verif.SecantDraw
import Verif.Secant

/-!
# The last approximation of quasi-Newton fits (property C135)
-/

namespace Verif.Rsm

open Matrix Verif.Compact Verif.Secant

variable {t f a : ℕ}

/-! ## Columns by finite differences -/

theorem mem_unique (l : List ℕ) (i : ℕ) : i ∈ unique l ↔ i ∈ l := by
  unfold unique
  rw [Finset.mem_sort, List.mem_toFinset]

theorem unique_sorted (l : List ℕ) : (unique l).SortedLT := Finset.sortedLT_sort _

theorem unique_length (l : List ℕ) (h : l.Nodup) : (unique l).length = l.length := by
  unfold unique
  rw [Finset.length_sort, List.toFinset_card_of_nodup h]

/-- Coefficients of all formulas fit together: the terms of a formula have different columns among those of the formula. -/
def FormsOk (forms : List Form) : Prop := ∀ f ∈ forms, (f.terms.flatMap Prod.snd).Nodup ∧ ∀ i ∈ f.terms.flatMap Prod.snd, i < f.nCoef

theorem flat_map (l : List (Bool × List ℕ)) (s : ℕ) : (l.flatMap fun t => t.2.map (· + s)) = (l.flatMap Prod.snd).map (· + s) := by
  induction l with
  | nil => rfl
  | cons x l ih => rw [List.flatMap_cons, List.flatMap_cons, ih, List.map_append]

theorem fixedCols_ok : ∀ (forms : List Form) (s : ℕ), FormsOk forms →
    (fixedCols s forms).Nodup ∧ ∀ i ∈ fixedCols s forms, s ≤ i ∧ i < s + total forms := by
  intro forms
  induction forms with
  | nil => intro s _; exact ⟨List.nodup_nil, fun i hi => by cases hi⟩
  | cons g fs ih =>
    intro s h
    obtain ⟨h1, h2⟩ := ih (s + g.nCoef) fun f hf => h f (List.mem_cons_of_mem _ hf)
    obtain ⟨h3, h4⟩ := h g List.mem_cons_self
    have hsub : ((g.terms.filter fun t => !t.1).flatMap Prod.snd).Sublist (g.terms.flatMap Prod.snd) :=
      List.Sublist.flatMap List.filter_sublist _
    have e : fixedCols s (g :: fs) = ((g.terms.filter fun t => !t.1).flatMap Prod.snd).map (· + s) ++ fixedCols (s + g.nCoef) fs := by
      show _ ++ _ = _
      rw [flat_map]
    have ht : total (g :: fs) = g.nCoef + total fs := by simp [total]
    rw [e, ht]
    have hb : ∀ i ∈ ((g.terms.filter fun t => !t.1).flatMap Prod.snd).map (· + s), s ≤ i ∧ i < s + g.nCoef := by
      intro i hi
      obtain ⟨k, hk, rfl⟩ := List.mem_map.1 hi
      have := h4 k (hsub.subset hk)
      exact ⟨by omega, by omega⟩
    refine ⟨List.Nodup.append ((hsub.nodup h3).map fun x y hxy => Nat.add_right_cancel hxy) h1 ?_, ?_⟩
    · intro i hi hi'
      have := hb i hi
      have := h2 i hi'
      omega
    · intro i hi
      rcases List.mem_append.1 hi with hi | hi
      · have := hb i hi
        exact ⟨this.1, by omega⟩
      · have := h2 i hi
        exact ⟨by omega, by omega⟩

/-- C135.  The columns among which those for finite differences are chosen are different coefficients of the model. -/
theorem candidates_ok (forms : List Form) (extra : ℕ) (h : FormsOk forms) :
    (candidates forms extra).Nodup ∧ ∀ i ∈ candidates forms extra, i < total forms + extra := by
  obtain ⟨h1, h2⟩ := fixedCols_ok forms 0 h
  have hb : ∀ i ∈ (List.range extra).map (· + total forms), total forms ≤ i ∧ i < total forms + extra := by
    intro i hi
    obtain ⟨k, hk, rfl⟩ := List.mem_map.1 hi
    have := List.mem_range.1 hk
    exact ⟨by omega, by omega⟩
  refine ⟨List.Nodup.append h1 (List.nodup_range.map fun x y hxy => Nat.add_right_cancel hxy) ?_, ?_⟩
  · intro i hi hi'
    have := h2 i hi
    have := hb i hi'
    omega
  · intro i hi
    rcases List.mem_append.1 hi with hi | hi
    · have := h2 i hi
      omega
    · exact (hb i hi).2

/-- C135.  The first coefficient of formula `j` is counted from the coefficients of the formulas before it: the columns offered are those of the terms other
than factor smooths, and the additional coefficients of the family. -/
theorem mem_fixedCols : ∀ (forms : List Form) (s i : ℕ), i ∈ fixedCols s forms ↔
    ∃ j, ∃ g, forms[j]? = some g ∧ ∃ c ∈ g.terms, c.1 = false ∧ ∃ k ∈ c.2, i = s + total (forms.take j) + k := by
  intro forms
  induction forms with
  | nil => intro s i; simp [fixedCols]
  | cons g fs ih =>
    intro s i
    show i ∈ _ ++ _ ↔ _
    rw [List.mem_append, ih]
    constructor
    · rintro (h | ⟨j, g', hj, c, hc, hc1, k, hk, rfl⟩)
      · obtain ⟨c, hc, hi⟩ := List.mem_flatMap.1 h
        obtain ⟨hc1, hc2⟩ := List.mem_filter.1 hc
        obtain ⟨k, hk, rfl⟩ := List.mem_map.1 hi
        exact ⟨0, g, rfl, c, hc1, by simpa using hc2, k, hk, by simp [total]; omega⟩
      · exact ⟨j + 1, g', by simpa using hj, c, hc, hc1, k, hk, by simp [total]; omega⟩
    · rintro ⟨j, g', hj, c, hc, hc1, k, hk, rfl⟩
      cases j with
      | zero =>
        left
        simp only [List.getElem?_cons_zero, Option.some.injEq] at hj
        subst hj
        refine List.mem_flatMap.2 ⟨c, List.mem_filter.2 ⟨hc, by simp [hc1]⟩, List.mem_map.2 ⟨k, hk, ?_⟩⟩
        simp [total]
        omega
      | succ j =>
        right
        exact ⟨j, g', by simpa using hj, c, hc, hc1, k, hk, by simp [total]; omega⟩

theorem choice_nodup {choice : List ℕ → ℕ → List ℕ} (hch : Choice choice) {l : List ℕ} (hl : l.Nodup) {k : ℕ} (hk : k ≤ l.length) :
    (choice l k).Nodup ∧ (choice l k).length = k ∧ ∀ i ∈ choice l k, i ∈ l := by
  obtain ⟨s, h1, h2, h3⟩ := hch l k hk
  exact ⟨h3.nodup_iff.2 (h1.nodup hl), by rw [h3.length_eq, h2], fun i hi => h1.subset (h3.mem_iff.1 hi)⟩

/-- The budget is a number, or a share of at most one. -/
def Budget.Auto : Budget → Prop
  | .cols _ => False
  | .count _ => True
  | .share q => q ≤ 1

theorem pick_spec {choice : List ℕ → ℕ → List ℕ} (hch : Choice choice) {c : List ℕ} (hc : c.Nodup) {n : ℕ} (hn : ∀ i ∈ c, i < n)
    {budget : ℕ} {l : List ℕ} (h : pick choice c budget n = some l) :
    l.Nodup ∧ l ≠ [] ∧ (∀ i ∈ l, i ∈ c) ∧ l.length = min budget (min c.length (n - 1)) ∧ (c.length ≤ budget → c.length < n → l = c) := by
  classical
  have hlen : c.length ≤ n := by
    have : c.toFinset ⊆ Finset.range n := fun i hi => Finset.mem_range.2 (hn i (List.mem_toFinset.1 hi))
    have := Finset.card_le_card this
    rwa [List.toFinset_card_of_nodup hc, Finset.card_range] at this
  unfold pick at h
  dsimp only at h
  by_cases h1 : c.length = n ∧ c.length ≤ budget
  · rw [if_pos h1] at h
    by_cases h0 : choice c (n - 1) = []
    · rw [if_pos h0] at h; cases h
    · rw [if_neg h0, Option.some.injEq] at h
      obtain ⟨e1, e2, e3⟩ := choice_nodup hch hc (k := n - 1) (by omega)
      subst h
      exact ⟨e1, h0, e3, by rw [e2]; omega, fun _ h' => by omega⟩
  · rw [if_neg h1] at h
    by_cases h2 : budget < c.length
    · rw [if_pos h2] at h
      by_cases h0 : choice c budget = []
      · rw [if_pos h0] at h; cases h
      · rw [if_neg h0, Option.some.injEq] at h
        obtain ⟨e1, e2, e3⟩ := choice_nodup hch hc (k := budget) h2.le
        subst h
        exact ⟨e1, h0, e3, by rw [e2]; omega, fun h' _ => by omega⟩
    · rw [if_neg h2] at h
      by_cases h0 : c = []
      · rw [if_pos h0] at h; cases h
      · rw [if_neg h0, Option.some.injEq] at h
        subst h
        have : c.length ≠ n := fun h' => h1 ⟨h', by omega⟩
        exact ⟨hc, h0, fun i hi => hi, by omega, fun _ _ => rfl⟩

/-- C135.  With an automatic budget the columns approximated by finite differences are different candidates in ascending order, as many as the budget and the
candidates allow, and at least one coefficient is left to the quasi-Newton update; if the budget suffices and there are other coefficients, they
are all candidates. -/
theorem fcols_spec {choice : List ℕ → ℕ → List ℕ} (hch : Choice choice) {c : List ℕ} (hc : c.Nodup) {n : ℕ} (hn : ∀ i ∈ c, i < n)
    {b : Budget} (hb : b.Auto) {l : List ℕ} (h : fcols choice true b c n = some l) :
    l.SortedLT ∧ l ≠ [] ∧ (∀ i ∈ l, i ∈ c) ∧ l.length < n ∧ l.length = min (colsBudget c.length b) (min c.length (n - 1)) ∧
      (c.length ≤ colsBudget c.length b → c.length < n → ∀ i, i ∈ l ↔ i ∈ c) := by
  have key : ∀ m, (pick choice c (colsBudget c.length b) n).map unique = some m → m.SortedLT ∧ m ≠ [] ∧ (∀ i ∈ m, i ∈ c) ∧ m.length < n ∧
      m.length = min (colsBudget c.length b) (min c.length (n - 1)) ∧
      (c.length ≤ colsBudget c.length b → c.length < n → ∀ i, i ∈ m ↔ i ∈ c) := by
    intro m hm
    obtain ⟨l0, h0, rfl⟩ := Option.map_eq_some_iff.1 hm
    obtain ⟨e1, e2, e3, e4, e5⟩ := pick_spec hch hc hn h0
    have hpos : 0 < l0.length := List.length_pos_iff.2 e2
    refine ⟨unique_sorted l0, ?_, fun i hi => e3 i ((mem_unique _ _).1 hi), ?_, ?_, fun h1 h2 i => ?_⟩
    · intro he
      have := unique_length l0 e1
      rw [he] at this
      simp at this
      omega
    · rw [unique_length _ e1]; omega
    · rw [unique_length _ e1, e4]
    · rw [mem_unique, e5 h1 h2]
  unfold fcols at h
  rw [if_pos rfl] at h
  cases b with
  | cols l => exact hb.elim
  | count k =>
    dsimp only at h
    by_cases hk : 0 < k
    · rw [if_pos hk] at h
      exact key l h
    · rw [if_neg hk] at h; cases h
  | share q =>
    dsimp only at h
    by_cases hk : 0 < q
    · rw [if_pos hk] at h
      exact key l h
    · rw [if_neg hk] at h; cases h

/-- C135.  There are such columns exactly if they were asked for, the budget is positive, there are candidates and the model has another
coefficient. -/
theorem fcols_none_iff {choice : List ℕ → ℕ → List ℕ} (hch : Choice choice) {c : List ℕ} (hc : c.Nodup) {n : ℕ} (hn : ∀ i ∈ c, i < n) (k : ℕ) :
    fcols choice true (.count k) c n = none ↔ k = 0 ∨ c = [] ∨ n = 1 := by
  classical
  have hlen : c.length ≤ n := by
    have : c.toFinset ⊆ Finset.range n := fun i hi => Finset.mem_range.2 (hn i (List.mem_toFinset.1 hi))
    have := Finset.card_le_card this
    rwa [List.toFinset_card_of_nodup hc, Finset.card_range] at this
  unfold fcols
  rw [if_pos rfl]
  dsimp only
  by_cases hk : 0 < k
  · rw [if_pos hk, Option.map_eq_none_iff]
    unfold pick
    dsimp only
    show (if (if c.length = n ∧ c.length ≤ k then choice c (n - 1) else if k < c.length then choice c k else c) = [] then none else _) = none ↔ _
    by_cases h1 : c.length = n ∧ c.length ≤ k
    · rw [if_pos h1]
      obtain ⟨_, e2, _⟩ := choice_nodup hch hc (k := n - 1) (by omega)
      by_cases h0 : choice c (n - 1) = []
      · rw [if_pos h0]
        rw [h0] at e2
        simp only [true_iff]
        by_cases hce : c = []
        · exact Or.inr (Or.inl hce)
        · have := List.length_pos_iff.2 hce
          simp at e2
          exact Or.inr (Or.inr (by omega))
      · rw [if_neg h0]
        simp only [reduceCtorEq, false_iff, not_or]
        have := List.length_pos_iff.2 h0
        refine ⟨by omega, fun h' => ?_, by omega⟩
        rw [h'] at h1
        simp at h1
        omega
    · rw [if_neg h1]
      by_cases h2 : k < c.length
      · rw [if_pos h2]
        obtain ⟨_, e2, _⟩ := choice_nodup hch hc (k := k) h2.le
        have h0 : choice c k ≠ [] := fun h' => by rw [h'] at e2; simp at e2; omega
        rw [if_neg h0]
        simp only [reduceCtorEq, false_iff, not_or]
        exact ⟨by omega, fun h' => by rw [h'] at h2; simp at h2, by omega⟩
      · rw [if_neg h2]
        by_cases h0 : c = []
        · rw [if_pos h0]; simp [h0]
        · rw [if_neg h0]
          have := List.length_pos_iff.2 h0
          simp only [reduceCtorEq, false_iff, not_or]
          refine ⟨by omega, h0, fun h' => h1 ⟨by omega, by omega⟩⟩
  · rw [if_neg hk]
    simp only [true_iff]
    exact Or.inl (by omega)

/-- C135.  Between one and as many update vectors as coefficients are approximated. -/
theorem nVectors_range {usage : ℝ} (h1 : usage ≤ 1) {n : ℕ} {fc : Option (List ℕ)} (hn : (fc.getD []).length < n) :
    1 ≤ nVectors usage n fc ∧ nVectors usage n fc ≤ n - (fc.getD []).length := by
  unfold nVectors
  refine ⟨le_max_left _ _, max_le (by omega) ?_⟩
  refine Nat.floor_le_of_le ?_
  have : (0 : ℝ) ≤ ((n - (fc.getD []).length : ℕ) : ℝ) := Nat.cast_nonneg _
  nlinarith

/-! ## Sampling -/

/-- C135.  At most 30 attempts with seeds `seed, seed + 1, ...`: the result is that of the last one, all earlier ones had fewer updates than asked for, and
the last one has enough or is the thirtieth. -/
theorem attempts_spec (sample : ℕ → List (Pair t) × ℕ) (force : ℕ) (seed : ℕ) :
    ∃ k < 30, attempts sample force 29 seed = sample (seed + k) ∧ (∀ j < k, (sample (seed + j)).2 < force) ∧
      (force ≤ (sample (seed + k)).2 ∨ k = 29) := by
  have key : ∀ left seed, ∃ k ≤ left, attempts sample force left seed = sample (seed + k) ∧ (∀ j < k, (sample (seed + j)).2 < force) ∧
      (force ≤ (sample (seed + k)).2 ∨ k = left) := by
    intro left
    induction left with
    | zero => intro seed; exact ⟨0, le_rfl, rfl, fun j hj => by omega, Or.inr rfl⟩
    | succ left ih =>
      intro seed
      by_cases h : (sample seed).2 < force
      · obtain ⟨k, h1, h2, h3, h4⟩ := ih (seed + 1)
        refine ⟨k + 1, by omega, ?_, fun j hj => ?_, ?_⟩
        · rw [attempts, if_pos h, h2, show seed + 1 + k = seed + (k + 1) by omega]
        · cases j with
          | zero => exact h
          | succ j => rw [show seed + (j + 1) = seed + 1 + j by omega]; exact h3 j (by omega)
        · rw [show seed + (k + 1) = seed + 1 + k by omega]
          exact h4.imp id (by omega)
      · exact ⟨0, Nat.zero_le _, by rw [attempts, if_neg h]; rfl, fun j hj => by omega, Or.inl (by simpa using h)⟩
  obtain ⟨k, h1, h2, h3, h4⟩ := key 29 seed
  exact ⟨k, by omega, h2, h3, h4⟩

/-- C135.  Without updates the approximation stays as it was. -/
theorem unchanged (x : Args t f a) (o : Op t f) (h : (x.run o).2.1 = 0) : (x.run o).1 = o ∧ (x.run o).2.2.2 = none := by
  unfold Args.run at h ⊢
  dsimp only at h ⊢
  by_cases h0 : 0 < (attempts x.sample x.force 29 x.seed).2
  · rw [if_pos h0] at h
    by_cases hp : (x.penalised && x.makePsd) = true
    · rw [if_pos hp] at h
      exact absurd h h0.ne'
    · rw [if_neg hp] at h
      exact absurd h h0.ne'
  · rw [if_neg h0]
    exact ⟨rfl, rfl⟩

/-- With updates the operator holds the pairs of the last attempt. -/
theorem changed (x : Args t f a) (o : Op t f) (h : 0 < (x.run o).2.1) :
    (x.run o).1 = x.fill o (attempts x.sample x.force 29 x.seed).1 ∧ (x.run o).2.1 = (attempts x.sample x.force 29 x.seed).2 := by
  unfold Args.run at h ⊢
  dsimp only at h ⊢
  by_cases h0 : 0 < (attempts x.sample x.force 29 x.seed).2
  · rw [if_pos h0]
    by_cases hp : (x.penalised && x.makePsd) = true
    · rw [if_pos hp]; exact ⟨rfl, rfl⟩
    · rw [if_neg hp]; exact ⟨rfl, rfl⟩
  · rw [if_neg h0] at h
    exact absurd h h0

/-- C135.  After sampling with finite differences for some columns: `updates` counts the stored pairs, each with a step ending at the final coefficients; an
approximation whose quasi-Newton block satisfies the secant equation of such a pair reproduces, for the other coefficients, minus the change of the
gradient of the log-likelihood over the step. -/
theorem sampled_secant (x : Args t f a) (o : Op t f) {tc : Fin f ⊕ Fin a → Fin t} (htc : x.tc = some tc) (hb : Function.Bijective tc)
    {jh : Vec t → Matrix (Fin t) (Fin t) ℝ} {eig : Matrix (Fin t) (Fin t) ℝ → Eig f} {thresh damp : ℝ} {pd : Bool} {coef : Vec t}
    (hblk : x.blk = blkAt tc jh eig thresh damp pd coef) (hjh : ∀ i j, jh coef (tc (Sum.inr i)) (tc (Sum.inr j)) = 0)
    {chol : Matrix (Fin t) (Fin t) ℝ → Option (Matrix (Fin t) (Fin t) ℝ)} {p : ℕ → Samp t} (hs : ∀ s, x.sample s = (p s).draw chol)
    {grad : Vec t → Vec t} (hg : ∀ s, (p s).grad = grad ∧ (p s).coef = coef) (hu : 0 < (x.run o).2.1) :
    (x.run o).2.1 = (x.run o).1.pairs.length ∧ (x.run o).1.sampled = true ∧ ∀ q ∈ (x.run o).1.pairs, q.rho = 1 / (q.s ⬝ᵥ q.y) ∧
      ∀ (H0 qa : Matrix (Fin a) (Fin a) ℝ), ((H0 + qa) *ᵥ (fun i => q.s (tc (Sum.inr i))) = fun i => q.y (tc (Sum.inr i))) → ∀ i,
        (shExplicit tc (x.run o).1.nHfd (x.run o).1.I H0 qa *ᵥ q.s) (tc (Sum.inr i)) =
          -(grad coef (tc (Sum.inr i)) - grad (coef - q.s) (tc (Sum.inr i))) := by
  obtain ⟨h1, h2⟩ := changed x o hu
  rw [h1, h2]
  obtain ⟨k, _, hk, _⟩ := attempts_spec x.sample x.force x.seed
  rw [hk, hs]
  obtain ⟨ks, _, he, _⟩ := draw_pairs chol (p (x.seed + k)) rfl
  rw [he, (hg _).1, (hg _).2]
  unfold Args.fill
  rw [htc]
  dsimp only
  refine ⟨by rw [List.length_map, List.length_map], rfl, fun q hq => ?_⟩
  obtain ⟨q0, hq0, rfl⟩ := List.mem_map.1 hq
  obtain ⟨j, _, rfl⟩ := List.mem_map.1 hq0
  refine ⟨rfl, fun H0 qa hsec i => ?_⟩
  have hok : FdOK tc x.blk.nHfd := by
    rw [hblk]
    refine makepdd_fdok hb (fun i j => ?_) _ _ _ _ _
    rw [Matrix.smul_apply, hjh, smul_zero]
  have := sh_secant hok (I := x.blk.I) (H0 := H0) (qa := qa)
    (s := (p (x.seed + k)).radius chol • (p (x.seed + k)).step0 chol ((if (p (x.seed + k)).opts.adaptR then (p (x.seed + k)).opts.Madapt else 0) + j))
    (y := (tried grad coef ((p (x.seed + k)).radius chol • (p (x.seed + k)).step0 chol
      ((if (p (x.seed + k)).opts.adaptR then (p (x.seed + k)).opts.Madapt else 0) + j))).y) hsec i
  refine this.trans ?_
  simp only [correct, tried, Pi.sub_apply]
  ring

/-! ## Degrees of freedom -/

/-- C135, part: models with penalties report degrees of freedom, those of the new approximation if there is one. Missing: models without penalties
(`edf_wrong`). -/
theorem edf_partial (x : Args t f a) (o : Op t f) (before : ℝ) (again : Bool) (hp : x.penalised = true) (hm : x.makePsd = true) :
    finalEdf x o before again = some (if again = true ∧ 0 < (x.run o).2.1 then (x.edf (x.run o).1).1 else before) := by
  unfold finalEdf
  dsimp only
  rw [if_pos hp]
  cases again with
  | false => simp
  | true =>
    rw [if_pos rfl]
    have e : ({ x with passed := true } : Args t f a).run o = x.run o := by
      unfold Args.run
      dsimp only
      by_cases h0 : 0 < (attempts x.sample x.force 29 x.seed).2
      · rw [if_pos h0, if_pos h0, hp, hm]
        simp only [Bool.and_self, if_true]
        rfl
      · rw [if_neg h0, if_neg h0]
        unfold Args.edf0
        rw [hp]
        simp
    rw [e]
    by_cases hu : 0 < (x.run o).2.1
    · rw [if_pos hu, if_pos ⟨rfl, hu⟩]
      unfold Args.run at hu ⊢
      dsimp only at hu ⊢
      by_cases h0 : 0 < (attempts x.sample x.force 29 x.seed).2
      · rw [if_pos h0, hp, hm]
        rfl
      · rw [if_neg h0] at hu
        exact absurd hu h0
    · rw [if_neg hu, if_neg (fun h' => hu h'.2)]

/-- C135, negation: a model without penalties loses its degrees of freedom when the approximation is sampled again successfully; without sampling they are
the number of coefficients. -/
theorem edf_wrong (x : Args t f a) (o : Op t f) (before : ℝ) (hp : x.penalised = false) (hu : 0 < (attempts x.sample x.force 29 x.seed).2) :
    finalEdf x o before true = none ∧ finalEdf x o before false = some (t : ℝ) := by
  unfold finalEdf
  dsimp only
  refine ⟨?_, by rw [hp]; simp⟩
  rw [if_pos rfl]
  unfold Args.run
  dsimp only
  rw [if_pos hu, hp]
  simp only [Bool.false_and, Bool.false_eq_true, if_false]
  rw [if_pos hu]
  rfl

end Verif.Rsm
