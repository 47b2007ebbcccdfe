import Verif.HsmmFamLemmas

/-! Helper lemmas for the class of hidden semi-Markov models: columns of the gradient and collection of duplicates. -/

namespace Verif.HFam

open Hsmm Finset

variable (h : Model) (β : Coef) (k : Key) (c : ℕ)

/-- Columns that belong to coefficient `(k, c)`. -/
noncomputable def colsOf : Key → ℕ → List GradTables
  | .sh par0 m0, c => ((emBlocks h).filter fun b => b.2.2 < h.n_shared ∧ shKey h b.2.2 b.2.1 = .sh par0 m0).map fun b =>
      emCol h β b.1 b.2.1 b.2.2 (.sh par0 m0) c
  | .em j m par, c => [emCol h β j m par (.em j m par) c]
  | .du j par, c => [durCol h β j par c]
  | .tr j par, c => [trCol h β j par c]
  | .ini par, c => [piCol h β par c]

theorem sum_map_flatMap {α γ : Type} (l : List α) (g : α → List γ) (f : γ → ℝ) :
    ((l.flatMap g).map f).sum = (l.map fun a => ((g a).map f).sum).sum := by
  induction l with
  | nil => rfl
  | cons a l ih => simp [List.flatMap_cons, ih]

theorem sum_map_range (n : ℕ) (f : ℕ → ℝ) : ((List.range n).map f).sum = ∑ i ∈ range n, f i := by
  induction n with
  | zero => rfl
  | succ n ih => rw [List.range_succ, List.map_append, List.sum_append, ih, sum_range_succ]; simp

theorem sum_map_filter {α : Type} (l : List α) (P : α → Bool) (f : α → ℝ) :
    ((l.filter P).map f).sum = (l.map fun b => if P b then f b else 0).sum := by
  induction l with
  | nil => rfl
  | cons a l ih =>
    by_cases hp : P a
    · simp [List.filter_cons, hp, ih]
    · simp [List.filter_cons, hp, ih]

theorem sum_emBlocks (f : ℕ × ℕ × ℕ → ℝ) : ((emBlocks h).map f).sum =
    ∑ j ∈ range h.n_S, ∑ m ∈ range h.M, ∑ par ∈ range (h.obs j m).n_par, f (j, m, par) := by
  unfold emBlocks
  rw [sum_map_flatMap, sum_map_range]
  refine sum_congr rfl fun j _ => ?_
  rw [sum_map_flatMap, sum_map_range]
  refine sum_congr rfl fun m _ => ?_
  rw [List.map_map, ← sum_map_range]
  rfl

theorem mem_emBlocks (b : ℕ × ℕ × ℕ) :
    b ∈ emBlocks h ↔ b.1 < h.n_S ∧ b.2.1 < h.M ∧ b.2.2 < (h.obs b.1 b.2.1).n_par := by
  unfold emBlocks
  obtain ⟨j, m, par⟩ := b
  simp only [List.mem_flatMap, List.mem_range, List.mem_map, Prod.mk.injEq]
  constructor
  · rintro ⟨j', hj, m', hm, par', hp, rfl, rfl, rfl⟩
    exact ⟨hj, hm, hp⟩
  · rintro ⟨hj, hm, hp⟩
    exact ⟨j, hj, m, hm, par, hp, rfl, rfl, rfl⟩

theorem mem_duBlocks (b : ℕ × ℕ) : b ∈ duBlocks h ↔ b.1 < h.nd ∧ b.2 < (h.dur b.1).n_par := by
  unfold duBlocks
  obtain ⟨j, par⟩ := b
  simp only [List.mem_flatMap, List.mem_range, List.mem_map, Prod.mk.injEq]
  constructor
  · rintro ⟨j', hj, par', hp, rfl, rfl⟩
    exact ⟨hj, hp⟩
  · rintro ⟨hj, hp⟩
    exact ⟨j, hj, par, hp, rfl, rfl⟩

theorem mem_trBlocks (b : ℕ × ℕ) :
    b ∈ trBlocks h ↔ h.fixed.isNone ∧ 2 < h.n_S ∧ b.1 < h.n_S ∧ b.2 < h.n_S - 2 := by
  unfold trBlocks
  obtain ⟨j, par⟩ := b
  split_ifs with hc
  · simp only [List.mem_flatMap, List.mem_range, List.mem_map, Prod.mk.injEq]
    constructor
    · rintro ⟨j', hj, par', hp, rfl, rfl⟩
      exact ⟨hc.1, hc.2, hj, hp⟩
    · rintro ⟨_, _, hj, hp⟩
      exact ⟨j, hj, par, hp, rfl, rfl⟩
  · simp only [List.not_mem_nil, false_iff]
    exact fun hn => hc ⟨hn.1, hn.2.1⟩

theorem mem_piBlocks (par : ℕ) : par ∈ piBlocks h ↔ h.fixed.isNone ∧ par < h.n_S - 1 := by
  unfold piBlocks
  split_ifs with hc
  · simp [hc]
  · simp [hc]

theorem mem_sharedKeys (par m : ℕ) :
    Key.sh par m ∈ sharedKeys h ↔ par < h.n_shared ∧ m < (if h.shared_m then 1 else h.M) := by
  unfold sharedKeys
  simp only [List.mem_flatMap, List.mem_range, List.mem_map, Key.sh.injEq]
  constructor
  · rintro ⟨a, ha, b, hb, rfl, rfl⟩
    exact ⟨ha, hb⟩
  · rintro ⟨ha, hb⟩
    exact ⟨par, ha, m, hb, rfl, rfl⟩

/-! ### The direction of a coefficient is the sum of the directions of its columns -/

/-- Emission part. -/
theorem dBs_cols (t j : ℕ) (hj : j < h.n_S)
    (hem : ∀ j' m' par', k = .em j' m' par' → m' < h.M ∧ par' < (h.obs j' m').n_par) :
    dBs h β k c t j = ((colsOf h β k c).map fun g => (dirOf (tables h β) g).bs2 t j).sum := by
  cases k with
  | sh par0 m0 =>
    simp only [colsOf]
    rw [List.map_map, sum_map_filter, sum_emBlocks, sum_eq_single j]
    · unfold dBs
      rw [mul_sum]
      refine sum_congr rfl fun m _ => ?_
      rw [mul_sum]
      refine sum_congr rfl fun par _ => ?_
      simp only [dEm, reduceCtorEq, if_false, zero_add, decide_eq_true_eq]
      by_cases hc : par < h.n_shared ∧ shKey h par m = Key.sh par0 m0
      · rw [if_pos hc, if_pos hc]
        simp [Function.comp, dirOf, emCol, tables]
      · rw [if_neg hc, if_neg hc]
        simp
    · intro j' _ hne
      refine sum_eq_zero fun m _ => sum_eq_zero fun par _ => ?_
      simp [Function.comp, dirOf, emCol, tables, hne]
    · intro hn
      exact absurd (mem_range.2 hj) hn
  | em j0 m0 par0 =>
    obtain ⟨hm, hp⟩ := hem j0 m0 par0 rfl
    simp only [colsOf, List.map_cons, List.map_nil, List.sum_cons, List.sum_nil, add_zero]
    unfold dBs dEm
    simp only [Key.em.injEq, shKey, reduceCtorEq, and_false, if_false, add_zero]
    by_cases hjj : j = j0
    · subst hjj
      rw [sum_eq_single m0, sum_eq_single par0]
      · simp [dirOf, emCol, tables]
      · intro par _ hne
        rw [if_neg (fun hc => hne hc.2.2), mul_zero]
      · intro hn
        exact absurd (mem_range.2 hp) hn
      · intro m _ hne
        refine sum_eq_zero fun par _ => ?_
        rw [if_neg (fun hc => hne hc.2.1), mul_zero]
      · intro hn
        exact absurd (mem_range.2 hm) hn
    · rw [sum_eq_zero, mul_zero]
      · simp [dirOf, emCol, tables, Ne.symm hjj]
      · intro m _
        refine sum_eq_zero fun par _ => ?_
        rw [if_neg (fun hc => hjj hc.1), mul_zero]
  | du j0 par0 => simp [colsOf, dBs, dEm, shKey, dirOf, durCol]
  | tr j0 par0 => simp [colsOf, dBs, dEm, shKey, dirOf, trCol]
  | ini par0 => simp [colsOf, dBs, dEm, shKey, dirOf, piCol]

theorem dDs_zero (j t d : ℕ) (hz : ∀ par, dDu h k c j par t = 0) : dDs h β k c j t d = 0 := by
  have hgl : ∀ d, gl h β k c j t d = 0 := fun d => by
    unfold gl
    exact sum_eq_zero fun par _ => by rw [hz par, mul_zero]
  unfold dDs
  simp [hgl]

theorem dDs_du (j par t d : ℕ) (hp : par < (h.dur j).n_par) :
    dDs h β (.du j par) c j t d = durGrad h β j par c t d := by
  have hgl : ∀ d, gl h β (.du j par) c j t d = (h.dur j).d1 d (duEta h β j t) par * h.X (.du j par) t c := fun d => by
    unfold gl dDu
    rw [sum_eq_single par]
    · rw [if_pos rfl]
    · intro par' _ hne
      rw [if_neg (fun hc => hne (by injection hc)), mul_zero]
    · intro hn
      exact absurd (mem_range.2 hp) hn
  unfold dDs durGrad
  simp only [hgl]

/-- `colsOf` of formulas other than those of the emissions. -/
theorem dirOf_em_zero (g : GradTables) (hg : g ∈ colsOf h β k c) (hk : (∃ a b, k = .sh a b) ∨ ∃ a b d, k = .em a b d) :
    g.kind = .emission := by
  rcases hk with ⟨a, b, rfl⟩ | ⟨a, b, d, rfl⟩
  · simp only [colsOf, List.mem_map] at hg
    obtain ⟨x, _, rfl⟩ := hg
    rfl
  · simp only [colsOf, List.mem_singleton] at hg
    rw [hg]; rfl

theorem sum_map_zero {α : Type} (l : List α) (f : α → ℝ) (hf : ∀ a ∈ l, f a = 0) : (l.map f).sum = 0 := by
  rw [List.map_congr_left (g := fun _ => 0) hf]
  simp

/-- Row read for the durations and transitions. -/
def row (t : ℕ) : ℕ := if h.tvdtpi then t else 0

theorem dirKey_ds (d j t : ℕ) : (dirKey h β k c).ds d j t = dDs h β k c j (row h t) d := by
  cases htv : h.tvdtpi <;> simp [Tables.ds, dirKey, tables, row, htv]

theorem dDs_cols (d j t : ℕ) (hdu : ∀ j' par', k = .du j' par' → par' < (h.dur j').n_par) :
    dDs h β k c j (row h t) d = ((colsOf h β k c).map fun g => (dirOf (tables h β) g).ds d j t).sum := by
  have hem : ∀ g : GradTables, g.kind ≠ .duration → (dirOf (tables h β) g).ds d j t = 0 := by
    intro g hg
    cases hk : g.kind <;> simp_all [Tables.ds, dirOf]
  cases k with
  | sh par0 m0 =>
    rw [dDs_zero h β _ c j _ d (fun par => by simp [dDu])]
    rw [sum_map_zero]
    intro g hg
    exact hem g (by rw [dirOf_em_zero h β _ c g hg (Or.inl ⟨_, _, rfl⟩)]; simp)
  | em j0 m0 par0 =>
    rw [dDs_zero h β _ c j _ d (fun par => by simp [dDu])]
    rw [sum_map_zero]
    intro g hg
    exact hem g (by rw [dirOf_em_zero h β _ c g hg (Or.inr ⟨_, _, _, rfl⟩)]; simp)
  | du j0 par0 =>
    simp only [colsOf, List.map_cons, List.map_nil, List.sum_cons, List.sum_nil, add_zero]
    by_cases hj : j = j0
    · subst hj
      rw [dDs_du h β c j par0 _ d (hdu j par0 rfl)]
      cases htv : h.tvdtpi <;> simp [Tables.ds, dirOf, durCol, tables, row, htv]
    · rw [dDs_zero h β _ c j _ d (fun par => by simp [dDu, hj])]
      simp [Tables.ds, dirOf, durCol, Ne.symm hj]
  | tr j0 par0 =>
    rw [dDs_zero h β _ c j _ d (fun par => by simp [dDu])]
    simp only [colsOf, List.map_cons, List.map_nil, List.sum_cons, List.sum_nil, add_zero]
    exact (hem _ (by simp [trCol])).symm
  | ini par0 =>
    rw [dDs_zero h β _ c j _ d (fun par => by simp [dDu])]
    simp only [colsOf, List.map_cons, List.map_nil, List.sum_cons, List.sum_nil, add_zero]
    exact (hem _ (by simp [piCol])).symm

theorem dT_zero (t i j : ℕ) (hz : ∀ par, dTr h k c i par t = 0) : dT h β k c t i j = 0 := by
  unfold dT
  split_ifs
  · rw [sum_eq_zero, mul_zero]
    intro par _
    rw [hz par, mul_zero]
  · rfl

/-- Entry of the direction of the transitions. -/
noncomputable def dirT (t i j : ℕ) : ℝ := if h.fixed.isSome then 0 else dT h β k c t i j

theorem dirKey_T (i j t : ℕ) : (dirKey h β k c).T i j t = dirT h β k c (row h t) i j := by
  cases htv : h.tvdtpi <;> cases hfx : h.fixed <;> simp [Tables.T, dirKey, tables, row, dirT, htv, hfx]

theorem dT_cols (i j t : ℕ)
    (htr : ∀ j' par', k = .tr j' par' → h.fixed.isNone ∧ 2 < h.n_S ∧ par' < h.n_S - 2) :
    dirT h β k c (row h t) i j = ((colsOf h β k c).map fun g => (dirOf (tables h β) g).T i j t).sum := by
  have hem : ∀ g : GradTables, g.kind ≠ .transition → (dirOf (tables h β) g).T i j t = 0 := by
    intro g hg
    cases hk : g.kind <;> simp_all [Tables.T, dirOf]
  have hzero : (∀ par, dTr h k c i par (row h t) = 0) → dirT h β k c (row h t) i j = 0 := by
    intro hz
    unfold dirT
    rw [dT_zero h β k c _ i j hz, ite_self]
  cases k with
  | sh par0 m0 =>
    rw [hzero (fun par => by simp [dTr]), sum_map_zero]
    intro g hg
    exact hem g (by rw [dirOf_em_zero h β _ c g hg (Or.inl ⟨_, _, rfl⟩)]; simp)
  | em j0 m0 par0 =>
    rw [hzero (fun par => by simp [dTr]), sum_map_zero]
    intro g hg
    exact hem g (by rw [dirOf_em_zero h β _ c g hg (Or.inr ⟨_, _, _, rfl⟩)]; simp)
  | du j0 par0 =>
    rw [hzero (fun par => by simp [dTr])]
    simp only [colsOf, List.map_cons, List.map_nil, List.sum_cons, List.sum_nil, add_zero]
    exact (hem _ (by simp [durCol])).symm
  | tr j0 par0 =>
    simp only [colsOf, List.map_cons, List.map_nil, List.sum_cons, List.sum_nil, add_zero]
    obtain ⟨hfx, hS, hp⟩ := htr j0 par0 rfl
    have hfx' : h.fixed = none := Option.isNone_iff_eq_none.1 hfx
    by_cases hi : i = j0
    · subst hi
      have e : ∀ r, dirT h β (.tr i par0) c r i j = TAt h β r i j * trGrad h β i par0 c r (tidx h.n_S i j) := by
        intro r
        unfold dirT dT dTr trGrad
        rw [hfx', if_pos hS, sum_eq_single par0]
        · simp
        · intro par _ hne
          rw [if_neg (fun hc => hne (by injection hc)), mul_zero]
        · intro hn
          exact absurd (mem_range.2 hp) hn
      rw [e]
      cases htv : h.tvdtpi <;> simp [Tables.T, dirOf, trCol, tables, row, htv, hfx']
    · rw [hzero (fun par => by
        unfold dTr
        rw [if_neg]
        intro hc
        injection hc with h1
        exact hi h1)]
      simp [Tables.T, dirOf, trCol, Ne.symm hi]
  | ini par0 =>
    rw [hzero (fun par => by simp [dTr])]
    simp only [colsOf, List.map_cons, List.map_nil, List.sum_cons, List.sum_nil, add_zero]
    exact (hem _ (by simp [piCol])).symm

/-- Entry of the direction of the initial distribution. -/
theorem dPi_cols (j : ℕ) (hini : ∀ par', k = .ini par' → h.fixed.isNone ∧ par' < h.n_S - 1) :
    (dirKey h β k c).pi j = ((colsOf h β k c).map fun g => (dirOf (tables h β) g).pi j).sum := by
  have hem : ∀ g : GradTables, g.kind ≠ .initial → (dirOf (tables h β) g).pi j = 0 := by
    intro g hg
    cases hk : g.kind <;> simp_all [dirOf]
  have hzero : (∀ par, dIni h k c par = 0) → (dirKey h β k c).pi j = 0 := by
    intro hz
    cases hfx : h.fixed <;> simp [dirKey, hfx, dPi, hz]
  cases k with
  | sh par0 m0 =>
    rw [hzero (fun par => by simp [dIni]), sum_map_zero]
    intro g hg
    exact hem g (by rw [dirOf_em_zero h β _ c g hg (Or.inl ⟨_, _, rfl⟩)]; simp)
  | em j0 m0 par0 =>
    rw [hzero (fun par => by simp [dIni]), sum_map_zero]
    intro g hg
    exact hem g (by rw [dirOf_em_zero h β _ c g hg (Or.inr ⟨_, _, _, rfl⟩)]; simp)
  | du j0 par0 =>
    rw [hzero (fun par => by simp [dIni])]
    simp only [colsOf, List.map_cons, List.map_nil, List.sum_cons, List.sum_nil, add_zero]
    exact (hem _ (by simp [durCol])).symm
  | tr j0 par0 =>
    rw [hzero (fun par => by simp [dIni])]
    simp only [colsOf, List.map_cons, List.map_nil, List.sum_cons, List.sum_nil, add_zero]
    exact (hem _ (by simp [trCol])).symm
  | ini par0 =>
    simp only [colsOf, List.map_cons, List.map_nil, List.sum_cons, List.sum_nil, add_zero]
    obtain ⟨hfx, hp⟩ := hini par0 rfl
    have hfx' : h.fixed = none := Option.isNone_iff_eq_none.1 hfx
    have e : dPi h β (.ini par0) c j = piAt h β j * ((Lss.mnD1 j (muPi h β) par0).getD 0 * h.X (.ini par0) 0 c) := by
      unfold dPi dIni
      rw [sum_eq_single par0]
      · simp
      · intro par _ hne
        rw [if_neg (fun hc => hne (by injection hc)), mul_zero]
      · intro hn
        exact absurd (mem_range.2 hp) hn
    simp [dirKey, hfx', e, dirOf, piCol, tables]

/-- What membership in `allKeys` says about the indices of a formula. -/
theorem mem_allKeys (hk : k ∈ allKeys h) :
    (∀ j' m' par', k = .em j' m' par' → m' < h.M ∧ par' < (h.obs j' m').n_par) ∧
    (∀ j' par', k = .du j' par' → par' < (h.dur j').n_par) ∧
    (∀ j' par', k = .tr j' par' → h.fixed.isNone ∧ 2 < h.n_S ∧ par' < h.n_S - 2) ∧
    (∀ par', k = .ini par' → h.fixed.isNone ∧ par' < h.n_S - 1) := by
  have hsh : k ∈ sharedKeys h → ∃ a b, k = .sh a b := by
    unfold sharedKeys
    simp only [List.mem_flatMap, List.mem_map]
    rintro ⟨a, _, b, _, rfl⟩
    exact ⟨a, b, rfl⟩
  unfold allKeys at hk
  simp only [List.mem_append, List.mem_map] at hk
  refine ⟨?_, ?_, ?_, ?_⟩
  · rintro j m par rfl
    rcases hk with (((hk | ⟨b, hb, e⟩) | ⟨b, hb, e⟩) | ⟨b, hb, e⟩) | ⟨b, hb, e⟩
    · obtain ⟨a, b, hk⟩ := hsh hk
      cases hk
    · have := (mem_emBlocks h b).1 hb
      cases e
      exact this.2
    · cases e
    · cases e
    · cases e
  · rintro j par rfl
    rcases hk with (((hk | ⟨b, hb, e⟩) | ⟨b, hb, e⟩) | ⟨b, hb, e⟩) | ⟨b, hb, e⟩
    · obtain ⟨a, b, hk⟩ := hsh hk
      cases hk
    · cases e
    · have := (mem_duBlocks h b).1 hb
      cases e
      exact this.2
    · cases e
    · cases e
  · rintro j par rfl
    rcases hk with (((hk | ⟨b, hb, e⟩) | ⟨b, hb, e⟩) | ⟨b, hb, e⟩) | ⟨b, hb, e⟩
    · obtain ⟨a, b, hk⟩ := hsh hk
      cases hk
    · cases e
    · cases e
    · have := (mem_trBlocks h b).1 hb
      cases e
      exact ⟨this.1, this.2.1, this.2.2.2⟩
    · cases e
  · rintro par rfl
    rcases hk with (((hk | ⟨b, hb, e⟩) | ⟨b, hb, e⟩) | ⟨b, hb, e⟩) | ⟨b, hb, e⟩
    · obtain ⟨a, b, hk⟩ := hsh hk
      cases hk
    · cases e
    · cases e
    · cases e
    · have := (mem_piBlocks h b).1 hb
      cases e
      exact this

theorem isSum_cols (hk : k ∈ allKeys h) :
    IsSum (univ : Finset (Fin (colsOf h β k c).length)) (tables h β) (dirKey h β k c)
      (fun i => dirOf (tables h β) (colsOf h β k c)[(i : ℕ)]) := by
  obtain ⟨h1, h2, h3, h4⟩ := mem_allKeys h k hk
  refine ⟨⟨rfl, rfl, rfl⟩, fun _ _ => ⟨rfl, rfl, rfl⟩, ?_, ?_, ?_, ?_, ?_⟩
  · intro _ t j hj
    rw [Fin.sum_univ_fun_getElem (colsOf h β k c) fun g => (dirOf (tables h β) g).bs2 t j]
    exact dBs_cols h β k c t j hj h1
  · intro hm
    exact absurd hm (by simp [tables])
  · intro d j t _ _
    rw [Fin.sum_univ_fun_getElem (colsOf h β k c) fun g => (dirOf (tables h β) g).ds d j t, dirKey_ds]
    exact dDs_cols h β k c d j t h2
  · intro i j t _ _ _
    rw [Fin.sum_univ_fun_getElem (colsOf h β k c) fun g => (dirOf (tables h β) g).T i j t, dirKey_T]
    exact dT_cols h β k c i j t h3
  · intro j _
    rw [Fin.sum_univ_fun_getElem (colsOf h β k c) fun g => (dirOf (tables h β) g).pi j]
    exact dPi_cols h β k c j h4

/-- The derivative the code reports for coefficient `(k, c)`: entries of its columns added up. -/
noncomputable def D (k : Key) (c : ℕ) : ℝ := ((colsOf h β k c).map (entry h β)).sum

theorem D_eq (hk : k ∈ allKeys h)
    (he : ∀ g ∈ colsOf h β k c, entry h β g = gradDir (tables h β) (dirOf (tables h β) g)) :
    D h β k c = gradDir (tables h β) (dirKey h β k c) := by
  rw [gradDir_sum (isSum_cols h β k c hk), Fin.sum_univ_fun_getElem (colsOf h β k c) fun g =>
    gradDir (tables h β) (dirOf (tables h β) g)]
  unfold D
  rw [List.map_congr_left he]

/-! ### Collection of duplicates -/

/-- Own and shared entries of a block. -/
def ownVals (V : ℕ × ℕ × ℕ → Key → ℕ → ℝ) (b : ℕ × ℕ × ℕ) : List ℝ :=
  (List.range (h.p (.em b.1 b.2.1 b.2.2))).map (V b (.em b.1 b.2.1 b.2.2))

def shVals (V : ℕ × ℕ × ℕ → Key → ℕ → ℝ) (b : ℕ × ℕ × ℕ) : List ℝ :=
  if b.2.2 < h.n_shared then (List.range (h.p (shKey h b.2.2 b.2.1))).map (V b (shKey h b.2.2 b.2.1))
  else []

/-- The values of the columns of the blocks. -/
noncomputable def colV (E : GradTables → ℝ) (b : ℕ × ℕ × ℕ) (k : Key) (c : ℕ) : ℝ := E (emCol h β b.1 b.2.1 b.2.2 k c)

theorem blockCols_map (E : GradTables → ℝ) (b : ℕ × ℕ × ℕ) :
    (blockCols h β b).map E = ownVals h (colV h β E) b ++ shVals h (colV h β E) b := by
  unfold blockCols ownVals shVals
  rw [List.map_append, List.map_map]
  split_ifs
  · rw [List.map_map]; rfl
  · rfl

theorem ownVals_length (V : ℕ × ℕ × ℕ → Key → ℕ → ℝ) (b : ℕ × ℕ × ℕ) :
    (ownVals h V b).length = h.p (.em b.1 b.2.1 b.2.2) := by simp [ownVals]

theorem dupScan_cons (b : ℕ × ℕ × ℕ) (B : List (ℕ × ℕ × ℕ)) (tot : ℕ) : dupScan h (b :: B) tot =
    if b.2.2 < h.n_shared then
      (shKey h b.2.2 b.2.1, List.range' (tot + h.p (.em b.1 b.2.1 b.2.2)) (h.p (shKey h b.2.2 b.2.1))) ::
        dupScan h B (tot + h.p (shKey h b.2.2 b.2.1) + h.p (.em b.1 b.2.1 b.2.2))
    else dupScan h B (tot + h.p (.em b.1 b.2.1 b.2.2)) := rfl

theorem dupScan_ge (B : List (ℕ × ℕ × ℕ)) : ∀ tot, ∀ i ∈ (dupScan h B tot).flatMap (·.2), tot ≤ i := by
  induction B with
  | nil => intro tot i hi; simp [dupScan] at hi
  | cons b B ih =>
    intro tot i hi
    rw [dupScan_cons] at hi
    split_ifs at hi with hs
    · rw [List.flatMap_cons, List.mem_append] at hi
      rcases hi with hi | hi
      · have := (List.mem_range'_1.1 hi).1
        omega
      · have := ih _ i hi
        omega
    · have := ih _ i hi
      omega

/-- Entries at the positions of duplicates of formula `k`. -/
theorem dup_sum (V : ℕ × ℕ × ℕ → Key → ℕ → ℝ) (hc : c < h.p k) (R : List ℝ) (B : List (ℕ × ℕ × ℕ)) : ∀ P : List ℝ,
    (((dupScan h B P.length).filter fun e => e.1 = k).map fun e =>
      (P ++ (B.flatMap (fun b => ownVals h V b ++ shVals h V b) ++ R)).getD (e.2.getD c 0) 0).sum =
    ((B.filter fun b => b.2.2 < h.n_shared ∧ shKey h b.2.2 b.2.1 = k).map fun b =>
      V b k c).sum := by
  induction B with
  | nil => intro P; simp [dupScan]
  | cons b B ih =>
    intro P
    have hassoc : P ++ ((b :: B).flatMap (fun b => ownVals h V b ++ shVals h V b) ++ R) =
        (P ++ ownVals h V b ++ shVals h V b) ++ (B.flatMap (fun b => ownVals h V b ++ shVals h V b) ++ R) := by
      simp [List.flatMap_cons]
    rw [hassoc]
    have ih' := ih (P ++ ownVals h V b ++ shVals h V b)
    rw [dupScan_cons]
    by_cases hs : b.2.2 < h.n_shared
    · rw [if_pos hs]
      have hlen : (P ++ ownVals h V b ++ shVals h V b).length =
          P.length + h.p (shKey h b.2.2 b.2.1) + h.p (.em b.1 b.2.1 b.2.2) := by
        simp only [List.length_append, ownVals_length, shVals, if_pos hs, List.length_map, List.length_range]
        omega
      rw [hlen] at ih'
      by_cases hk : shKey h b.2.2 b.2.1 = k
      · rw [List.filter_cons_of_pos (by simpa using hk), List.map_cons, List.sum_cons, ih',
          List.filter_cons_of_pos (by simpa using ⟨hs, hk⟩), List.map_cons, List.sum_cons]
        congr 1
        have e1 : (List.range' (P.length + h.p (.em b.1 b.2.1 b.2.2)) (h.p (shKey h b.2.2 b.2.1))).getD c 0 =
            P.length + h.p (.em b.1 b.2.1 b.2.2) + c := by
          rw [List.getD_eq_getElem?_getD, List.getElem?_range' (by rw [hk]; exact hc)]
          simp
        dsimp only
        rw [e1, List.getD_eq_getElem?_getD, List.getElem?_append_left (by rw [hlen, hk]; omega),
          List.getElem?_append_right (by simp only [List.length_append, ownVals_length]; omega)]
        have e2 : P.length + h.p (.em b.1 b.2.1 b.2.2) + c - (P ++ ownVals h V b).length = c := by
          simp only [List.length_append, ownVals_length]; omega
        rw [e2]
        unfold shVals
        rw [if_pos hs, hk, List.getElem?_map, List.getElem?_range hc]
        rfl
      · rw [List.filter_cons_of_neg (by simpa using hk), ih', List.filter_cons_of_neg (by simpa using fun _ => hk)]
    · rw [if_neg hs]
      have hlen : (P ++ ownVals h V b ++ shVals h V b).length = P.length + h.p (.em b.1 b.2.1 b.2.2) := by
        simp only [List.length_append, ownVals_length, shVals, if_neg hs, List.length_nil]
        omega
      rw [hlen] at ih'
      rw [ih', List.filter_cons_of_neg (by simpa using fun h1 => absurd h1 hs)]

theorem map_getD_range' (P Q R : List ℝ) :
    (List.range' P.length Q.length).map (fun i => (P ++ (Q ++ R)).getD i 0) = Q := by
  apply List.ext_getElem
  · simp
  · intro n h1 h2
    simp only [List.getElem_map, List.getElem_range', one_mul]
    rw [List.getD_eq_getElem?_getD, List.getElem?_append_right (by omega), Nat.add_sub_cancel_left,
      List.getElem?_append_left h2, List.getElem?_eq_getElem h2]
    rfl

/-- Entries that are no duplicates. -/
theorem dup_rest (V : ℕ × ℕ × ℕ → Key → ℕ → ℝ) (R : List ℝ) (B : List (ℕ × ℕ × ℕ)) : ∀ P : List ℝ,
    ((List.range' P.length (B.flatMap (fun b => ownVals h V b ++ shVals h V b) ++ R).length).filter fun i =>
      i ∉ (dupScan h B P.length).flatMap (·.2)).map (fun i =>
        (P ++ (B.flatMap (fun b => ownVals h V b ++ shVals h V b) ++ R)).getD i 0) =
    B.flatMap (ownVals h V) ++ R := by
  induction B with
  | nil =>
    intro P
    have := map_getD_range' P R []
    simp only [List.append_nil] at this
    simpa [dupScan] using this
  | cons b B ih =>
    intro P
    set rest := B.flatMap (fun b => ownVals h V b ++ shVals h V b) ++ R with hrest
    have hassoc : (b :: B).flatMap (fun b => ownVals h V b ++ shVals h V b) ++ R =
        ownVals h V b ++ (shVals h V b ++ rest) := by
      simp [List.flatMap_cons, hrest]
    have ih' := ih (P ++ ownVals h V b ++ shVals h V b)
    rw [hassoc]
    have hl1 : (ownVals h V b ++ (shVals h V b ++ rest)).length =
        (ownVals h V b).length + ((shVals h V b).length + rest.length) := by simp
    rw [hl1, ← List.range'_append_1, ← List.range'_append_1, List.filter_append, List.filter_append, List.map_append,
      List.map_append, List.flatMap_cons, List.append_assoc]
    have hP2 : P ++ (ownVals h V b ++ (shVals h V b ++ rest)) =
        (P ++ ownVals h V b ++ shVals h V b) ++ rest := by simp
    have hl2 : (P ++ ownVals h V b ++ shVals h V b).length =
        P.length + (ownVals h V b).length + (shVals h V b).length := by simp; omega
    -- the positions: those of this block and later ones
    have hdup : ∀ i, i ∈ (dupScan h (b :: B) P.length).flatMap (·.2) ↔
        (P.length + (ownVals h V b).length ≤ i ∧
          i < P.length + (ownVals h V b).length + (shVals h V b).length) ∨
        i ∈ (dupScan h B (P ++ ownVals h V b ++ shVals h V b).length).flatMap (·.2) := by
      intro i
      rw [hl2, dupScan_cons, ownVals_length]
      by_cases hs : b.2.2 < h.n_shared
      · have hsl : (shVals h V b).length = h.p (shKey h b.2.2 b.2.1) := by simp [shVals, if_pos hs]
        rw [if_pos hs, List.flatMap_cons, List.mem_append, List.mem_range'_1, hsl,
          show P.length + h.p (shKey h b.2.2 b.2.1) + h.p (.em b.1 b.2.1 b.2.2) =
            P.length + h.p (.em b.1 b.2.1 b.2.2) + h.p (shKey h b.2.2 b.2.1) by omega]
      · have hsl : (shVals h V b).length = 0 := by simp [shVals, if_neg hs]
        rw [if_neg hs, hsl, Nat.add_zero]
        constructor
        · exact Or.inr
        · rintro (hi | hi)
          · omega
          · exact hi
    have hge := dupScan_ge h B (P ++ ownVals h V b ++ shVals h V b).length
    congr 1
    · -- own columns are kept
      rw [List.filter_eq_self.2]
      · exact map_getD_range' P (ownVals h V b) _
      · intro i hi
        have hi' := List.mem_range'_1.1 hi
        simp only [decide_eq_true_eq]
        rw [hdup i]
        rintro (h1 | h1)
        · omega
        · have := hge i h1
          rw [hl2] at this
          omega
    · have hmid : (List.range' (P.length + (ownVals h V b).length) (shVals h V b).length).filter (fun i =>
          i ∉ (dupScan h (b :: B) P.length).flatMap (·.2)) = [] := by
        rw [List.filter_eq_nil_iff]
        intro i hi
        have hi' := List.mem_range'_1.1 hi
        simp only [decide_eq_true_eq, not_not]
        rw [hdup i]
        exact Or.inl hi'
      rw [hmid, List.map_nil, List.nil_append, hP2, ← ih', hl2]
      congr 1
      apply List.filter_congr
      intro i hi
      have hi' := List.mem_range'_1.1 hi
      rw [decide_eq_decide, not_iff_not, hdup i, hl2]
      constructor
      · rintro (h1 | h1)
        · omega
        · exact h1
      · exact Or.inr

/-- Collection of duplicates: sums for the shared formulas, then the own entries of the blocks and the remaining ones. -/
theorem collect_eq (V : ℕ × ℕ × ℕ → Key → ℕ → ℝ) (R : List ℝ) :
    collect h ((emBlocks h).flatMap (fun b => ownVals h V b ++ shVals h V b) ++ R) =
      ((sharedKeys h).flatMap fun k => (List.range (h.p k)).map fun c =>
        (((emBlocks h).filter fun b => b.2.2 < h.n_shared ∧ shKey h b.2.2 b.2.1 = k).map fun b => V b k c).sum) ++
      ((emBlocks h).flatMap (ownVals h V) ++ R) := by
  unfold collect
  by_cases h0 : h.n_shared = 0
  · rw [if_pos h0]
    have hsk : sharedKeys h = [] := by simp [sharedKeys, h0]
    rw [hsk, List.flatMap_nil, List.nil_append]
    congr 2
    funext b
    simp [shVals, h0]
  · rw [if_neg h0]
    dsimp only
    congr 1
    · refine List.flatMap_congr fun k _ => List.map_congr_left fun c hc => ?_
      have h1 := dup_sum h k c V (List.mem_range.1 hc) R (emBlocks h) []
      rw [List.nil_append, List.length_nil] at h1
      exact h1
    · have h1 := dup_rest h V R (emBlocks h) []
      rw [List.nil_append, List.length_nil] at h1
      rw [← h1, List.range_eq_range']

/-- The gradient of a series lists, formula by formula, the entries of the columns of each coefficient added up. -/
theorem seriesGrad_eq : seriesGrad h β = (allKeys h).flatMap fun k => (List.range (h.p k)).map (D h β k) := by
  have hown : (emBlocks h).flatMap (ownVals h (colV h β (entry h β))) =
      ((emBlocks h).map (fun b => Key.em b.1 b.2.1 b.2.2)).flatMap fun k => (List.range (h.p k)).map (D h β k) := by
    rw [List.flatMap_map]
    congr 1
    funext b
    unfold ownVals
    apply List.map_congr_left
    intro c _
    simp [D, colsOf, colV]
  have hrest : (restCols h β).map (entry h β) =
      ((duBlocks h).map (fun b => Key.du b.1 b.2) ++ (trBlocks h).map (fun b => Key.tr b.1 b.2) ++
        (piBlocks h).map Key.ini).flatMap fun k => (List.range (h.p k)).map (D h β k) := by
    unfold restCols
    simp only [List.map_append, List.flatMap_append, List.map_flatMap, List.flatMap_map, List.map_map]
    congr 1
    · congr 1
      · congr 1
        funext b
        apply List.map_congr_left
        intro c _
        simp [D, colsOf]
      · congr 1
        funext b
        apply List.map_congr_left
        intro c _
        simp [D, colsOf]
    · congr 1
      funext b
      apply List.map_congr_left
      intro c _
      simp [D, colsOf]
  have hraw : rawGrad h β = (emBlocks h).flatMap (fun b => ownVals h (colV h β (entry h β)) b ++ shVals h (colV h β (entry h β)) b) ++
      (restCols h β).map (entry h β) := by
    unfold rawGrad
    rw [List.map_append, List.map_flatMap]
    congr 2
    funext b
    exact blockCols_map h β (entry h β) b
  have hall : ∀ f : Key → List ℝ, (allKeys h).flatMap f = (sharedKeys h).flatMap f ++
      (((emBlocks h).map (fun b => Key.em b.1 b.2.1 b.2.2)).flatMap f ++
        ((duBlocks h).map (fun b => Key.du b.1 b.2) ++ (trBlocks h).map (fun b => Key.tr b.1 b.2) ++
          (piBlocks h).map Key.ini).flatMap f) := by
    intro f
    unfold allKeys
    simp only [List.flatMap_append, List.append_assoc]
  rw [hall, ← hown, ← hrest]
  unfold seriesGrad
  rw [hraw, collect_eq]
  congr 1
  refine List.flatMap_congr fun k hk => List.map_congr_left fun c _ => ?_
  have hsh : ∃ a b, k = .sh a b := by
    unfold sharedKeys at hk
    simp only [List.mem_flatMap, List.mem_map] at hk
    obtain ⟨a, _, b, _, rfl⟩ := hk
    exact ⟨a, b, rfl⟩
  obtain ⟨a, b, rfl⟩ := hsh
  unfold D
  simp only [colsOf, List.map_map]
  rfl

end Verif.HFam
