import Verif.ParModel
import Mathlib.Algebra.BigOperators.Ring.List
import Mathlib.Tactic.Ring
import Mathlib.Tactic.Linarith
import Mathlib.Tactic.NormNum

/-!
# Parallel computations equal their serial counterparts (properties C29, C63)
-/

namespace Verif.Par

variable {α β : Type}

theorem sizes_sum (len n : ℕ) (hn : 0 < n) : (sizes len n).sum = len := by
  unfold sizes
  rw [List.sum_append, List.sum_replicate, List.sum_replicate, smul_eq_mul, smul_eq_mul]
  have h1 := Nat.mod_lt len hn
  have h2 := Nat.div_add_mod len n
  obtain ⟨d, hd⟩ := Nat.exists_eq_add_of_lt h1
  have h3 : n - len % n = d + 1 := by omega
  rw [h3]
  calc len % n * (len / n + 1) + (d + 1) * (len / n)
      = (len % n + d + 1) * (len / n) + len % n := by ring
    _ = len := by rw [← hd]; exact h2

theorem sizes_length (len n : ℕ) (hn : 0 < n) : (sizes len n).length = n := by
  unfold sizes
  have h1 := Nat.mod_lt len hn
  rw [List.length_append, List.length_replicate, List.length_replicate]
  omega

theorem slices_flatten (l : List α) (s : List ℕ) (m : ℕ) (hm : m ≤ s.length) :
    ((List.range m).map fun i => slice l (s.take i).sum (s.take (i + 1)).sum).flatten
      = l.take (s.take m).sum := by
  induction m with
  | zero => simp
  | succ m ih =>
    rw [List.range_succ, List.map_append, List.flatten_append, ih (by omega)]
    simp only [List.map_cons, List.map_nil, List.flatten_cons, List.flatten_nil, List.append_nil]
    have : (s.take (m + 1)).sum = (s.take m).sum + s[m] := by
      rw [List.take_add_one, List.getElem?_eq_getElem (by omega), List.sum_append]; simp
    rw [this]
    unfold slice
    rw [Nat.add_sub_cancel_left, ← List.take_add]

/-- **C29.** Splitting for the workers: `n` pieces in order, whose sizes differ by at most one and
which together are the whole list. -/
theorem split_correct (l : List α) (n : ℕ) (hn : 0 < n) :
    ∃ ps, arraySplit l n = some ps ∧ ps.length = n ∧ ps.flatten = l ∧
      ∀ p ∈ ps, p.length = l.length / n ∨ p.length = l.length / n + 1 := by
  refine ⟨_, if_neg (by omega), by simp, ?_, ?_⟩
  · rw [slices_flatten l _ n (by rw [sizes_length _ _ hn]), List.take_of_length_le (l := sizes _ _)
      (by rw [sizes_length _ _ hn]), sizes_sum _ _ hn, List.take_length]
  · intro p hp
    obtain ⟨i, hi, rfl⟩ := List.mem_map.1 hp
    have hi := List.mem_range.1 hi
    have hil : i < (sizes l.length n).length := by rw [sizes_length _ _ hn]; exact hi
    have h1 : ((sizes l.length n).take (i + 1)).sum
        = ((sizes l.length n).take i).sum + (sizes l.length n)[i] := by
      rw [List.take_add_one, List.getElem?_eq_getElem hil, List.sum_append]; simp
    have h2 : ((sizes l.length n).take (i + 1)).sum ≤ l.length := by
      calc ((sizes l.length n).take (i + 1)).sum
          ≤ ((sizes l.length n).take (i + 1)).sum + ((sizes l.length n).drop (i + 1)).sum :=
            Nat.le_add_right _ _
        _ = l.length := by rw [← List.sum_append, List.take_append_drop, sizes_sum _ _ hn]
    have h3 : (slice l ((sizes l.length n).take i).sum ((sizes l.length n).take (i + 1)).sum).length
        = (sizes l.length n)[i] := by
      unfold slice
      rw [List.length_take, List.length_drop]
      omega
    rw [h3]
    have hmem : (sizes l.length n)[i] ∈ sizes l.length n := List.getElem_mem hil
    unfold sizes at hmem
    rcases List.mem_append.1 hmem with h | h
    · right; exact List.eq_of_mem_replicate h
    · left; exact List.eq_of_mem_replicate h

/-- Pieces of two lists of equal length have equal lengths. -/
theorem split_lengths {γ : Type} (l : List α) (m : List γ) (h : l.length = m.length) (n : ℕ)
    (ps : List (List α)) (qs : List (List γ)) (hp : arraySplit l n = some ps)
    (hq : arraySplit m n = some qs) : List.Forall₂ (fun p q => p.length = q.length) ps qs := by
  unfold arraySplit at hp hq
  split_ifs at hp hq with hn
  simp only [Option.some.injEq] at hp hq
  subst hp hq
  rw [← h]
  rw [List.forall₂_map_left_iff, List.forall₂_map_right_iff, List.forall₂_same]
  intro i _
  unfold slice
  simp only [List.length_take, List.length_drop, h]

theorem foldl_addM (xs : List (ℕ → ℕ → ℝ)) (A : ℕ → ℕ → ℝ) (i j : ℕ) :
    (xs.foldl addM A) i j = A i j + (xs.map fun X => X i j).sum := by
  induction xs generalizing A with
  | nil => simp
  | cons x xs ih => rw [List.foldl_cons, ih, List.map_cons, List.sum_cons, ← add_assoc]; rfl

theorem foldl_addV (xs : List (ℕ → ℝ)) (a : ℕ → ℝ) (i : ℕ) :
    (xs.foldl addV a) i = a i + (xs.map fun x => x i).sum := by
  induction xs generalizing a with
  | nil => simp
  | cons x xs ih => rw [List.foldl_cons, ih, List.map_cons, List.sum_cons, ← add_assoc]; rfl

theorem reduce_addM (xs : List (ℕ → ℕ → ℝ)) (h : xs ≠ []) :
    reduce addM xs = some fun i j => (xs.map fun X => X i j).sum := by
  cases xs with
  | nil => exact absurd rfl h
  | cons x xs =>
    simp only [reduce, Option.some.injEq]
    funext i j
    rw [foldl_addM, List.map_cons, List.sum_cons]

theorem reduce_addV (xs : List (ℕ → ℝ)) (h : xs ≠ []) :
    reduce addV xs = some fun i => (xs.map fun x => x i).sum := by
  cases xs with
  | nil => exact absurd rfl h
  | cons x xs =>
    simp only [reduce, Option.some.injEq]
    funext i
    rw [foldl_addV, List.map_cons, List.sum_cons]

theorem crossXX_flatten (build : α → ℕ → ℝ) (ps : List (List α)) (i j : ℕ) :
    crossXX (ps.flatten.map build) i j = (ps.map fun p => crossXX (p.map build) i j).sum := by
  induction ps with
  | nil => simp [crossXX]
  | cons p ps ih =>
    rw [List.map_cons, List.sum_cons, ← ih]
    simp [crossXX]

theorem crossXy_flatten (build : α → ℕ → ℝ) (ps : List (List α)) (qs : List (List ℝ))
    (h : List.Forall₂ (fun p q => p.length = q.length) ps qs) (i : ℕ) :
    crossXy (ps.flatten.map build) qs.flatten i
      = (List.zipWith (fun p q => crossXy (p.map build) q i) ps qs).sum := by
  induction h with
  | nil => simp [crossXy]
  | cons hpq _ ih =>
    rw [List.zipWith_cons_cons, List.sum_cons, ← ih]
    simp only [crossXy, List.flatten_cons, List.map_append]
    rw [List.zipWith_append (by simpa using hpq), List.sum_append]

/-- **C29.** `X'X` and `X'y` accumulated over the workers are those of all rows, for any number of
workers; a file without valid rows is an exception. -/
theorem readXTX_eq (build : α → ℕ → ℝ) (nc : ℕ) (cov : List α) (y : List ℝ)
    (hy : cov.length = y.length) :
    readXTX build nc cov y = if nc = 0 ∨ cov = [] then none
      else some (crossXX (cov.map build), crossXy (cov.map build) y, y.length) := by
  by_cases h0 : nc = 0 ∨ cov = []
  · rw [if_pos h0]
    have : min nc cov.length = 0 := by
      rcases h0 with h | h
      · rw [h]; simp
      · rw [h]; simp
    simp [readXTX, arraySplit, this]
  · rw [if_neg h0]
    push Not at h0
    have hpos : 0 < min nc cov.length := by
      have := List.length_pos_iff.2 h0.2
      omega
    obtain ⟨ps, hp1, hp2, hp3, -⟩ := split_correct cov (min nc cov.length) hpos
    obtain ⟨qs, hq1, hq2, hq3, -⟩ := split_correct y (min nc cov.length) hpos
    have hlen := split_lengths cov y hy _ ps qs hp1 hq1
    have hne : List.zipWith (fun c v => (crossXX (c.map build), crossXy (c.map build) v)) ps qs ≠ [] := by
      intro h
      have := congrArg List.length h
      rw [List.length_zipWith, hp2, hq2, List.length_nil, min_self] at this
      omega
    simp only [readXTX, hp1, hq1, Option.bind_eq_bind, Option.bind_some]
    rw [reduce_addM _ (by simpa using hne), reduce_addV _ (by simpa using hne)]
    simp only [Option.bind_some, Option.pure_def, Option.some.injEq, Prod.mk.injEq, and_true]
    refine ⟨?_, ?_⟩
    · funext i j
      conv_rhs => rw [← hp3, crossXX_flatten]
      rw [List.map_map, List.map_zipWith]
      clear hp1 hp2 hp3 hq1 hq2 hq3 hne
      induction hlen with
      | nil => simp
      | cons _ _ ih => simp only [List.zipWith_cons_cons, List.map_cons, List.sum_cons, ih]; rfl
    · funext i
      conv_rhs => rw [← hp3, ← hq3, crossXy_flatten build ps qs hlen]
      rw [List.map_map, List.map_zipWith]
      rfl

theorem mapM_some (f : α → Option β) (g : α → β) (l : List α) (h : ∀ a ∈ l, f a = some (g a)) :
    l.mapM f = some (l.map g) := by
  induction l with
  | nil => rfl
  | cons a l ih =>
    rw [List.mapM_cons, h a (by simp), ih (fun b hb => h b (by simp [hb]))]
    rfl

theorem mapM_none (f : α → Option β) (l : List α) (h : ∃ a ∈ l, f a = none) : l.mapM f = none := by
  induction l with
  | nil => obtain ⟨a, ha, -⟩ := h; simp at ha
  | cons a l ih =>
    rw [List.mapM_cons]
    cases hfa : f a with
    | none => rfl
    | some b =>
      obtain ⟨c, hc, hfc⟩ := h
      rcases List.mem_cons.1 hc with rfl | hc
      · rw [hfa] at hfc; exact absurd hfc (by simp)
      · rw [ih ⟨c, hc, hfc⟩]; rfl

/-- **C29.** The same with the rows kept in memory, as long as there are at least as many rows as
files. -/
theorem keepXTX_eq (build : α → ℕ → ℝ) (files nc : ℕ) (cov : List α) (y : List ℝ)
    (hy : cov.length = y.length) (hf : 0 < files) (hn : 0 < nc) (hr : files ≤ cov.length) :
    keepXTX build files nc cov y = some (crossXX (cov.map build), crossXy (cov.map build) y) := by
  obtain ⟨ps, hp1, hp2, hp3, hp4⟩ := split_correct cov files hf
  obtain ⟨qs, hq1, hq2, hq3, -⟩ := split_correct y files hf
  have hlen := split_lengths cov y hy _ ps qs hp1 hq1
  have hpne : ∀ p ∈ ps, p ≠ [] := by
    intro p hp h
    have h1 : 1 ≤ cov.length / files := (Nat.one_le_div_iff hf).2 hr
    rcases hp4 p hp with h2 | h2 <;> rw [h] at h2 <;> simp at h2 <;> omega
  have hmap : (List.zip ps qs).mapM (fun p => readXTX build nc p.1 p.2)
      = some ((List.zip ps qs).map fun p =>
        (crossXX (p.1.map build), crossXy (p.1.map build) p.2, p.2.length)) := by
    refine mapM_some _ _ _ ?_
    intro p hp
    have h1 : p.1 ∈ ps := (List.of_mem_zip hp).1
    have h2 : p.1.length = p.2.length := by
      clear hp1 hp2 hp3 hp4 hq1 hq2 hq3 hpne h1
      induction hlen with
      | nil => simp at hp
      | cons h _ ih =>
        rw [List.zip_cons_cons, List.mem_cons] at hp
        rcases hp with rfl | hp
        · exact h
        · exact ih hp
    rw [readXTX_eq build nc p.1 p.2 h2, if_neg]
    rintro (h | h)
    · omega
    · exact hpne p.1 h1 h
  have hne : List.zip ps qs ≠ [] := by
    intro h
    have := congrArg List.length h
    rw [List.length_zip, hp2, hq2, List.length_nil, min_self] at this
    omega
  simp only [keepXTX, hp1, hq1, Option.bind_eq_bind, Option.bind_some, hmap]
  rw [reduce_addM _ (by simpa using hne), reduce_addV _ (by simpa using hne)]
  simp only [Option.bind_some, Option.pure_def, Option.some.injEq, Prod.mk.injEq]
  refine ⟨?_, ?_⟩
  · funext i j
    conv_rhs => rw [← hp3, crossXX_flatten]
    rw [List.map_map, List.map_map]
    clear hp1 hp2 hp3 hp4 hq1 hq2 hq3 hne hmap hpne
    induction hlen with
    | nil => simp
    | cons _ _ ih => simp only [List.zip_cons_cons, List.map_cons, List.sum_cons, ih]; rfl
  · funext i
    conv_rhs => rw [← hp3, ← hq3, crossXy_flatten build ps qs hlen]
    rw [List.map_map, List.map_map]
    clear hp1 hp2 hp3 hp4 hq1 hq2 hq3 hne hmap hpne
    induction hlen with
    | nil => simp
    | cons _ _ ih =>
      simp only [List.zip_cons_cons, List.map_cons, List.sum_cons, ih, List.zipWith_cons_cons]; rfl

/-- With fewer rows than files the computation stops with an exception although the serial
computation is well defined. -/
theorem keepXTX_few_rows (build : α → ℕ → ℝ) (c : α) (v : ℝ) (nc : ℕ) :
    keepXTX build 2 nc [c] [v] = none := by
  have h1 : ∀ {γ : Type} (x : γ), arraySplit [x] 2 = some [[x], []] := by
    intro γ x
    simp [arraySplit, sizes, slice, List.range_succ]
  simp only [keepXTX, h1, Option.bind_eq_bind, Option.bind_some, List.zip_cons_cons, List.zip_nil_left,
    List.mapM_cons]
  have h2 : readXTX build nc ([] : List α) [] = none := by simp [readXTX, arraySplit]
  rw [h2]
  cases readXTX build nc [c] [v] <;> rfl

/-- **C29.** Linear predictors come back in the order of the rows. -/
theorem readEta_eq (build : α → ℕ → ℝ) (p nc : ℕ) (coef : ℕ → ℝ) (cov : List α) (hn : 0 < nc)
    (hc : cov ≠ []) : readEta build p nc coef cov = some (cov.map (etaRow build p coef)) := by
  have hpos : 0 < min nc cov.length := by
    have := List.length_pos_iff.2 hc
    omega
  obtain ⟨ps, hp1, -, hp3, -⟩ := split_correct cov (min nc cov.length) hpos
  simp only [readEta, hp1, Option.bind_eq_bind, Option.bind_some, Option.pure_def, Option.some.injEq]
  rw [← List.map_flatten, hp3]

theorem keepEta_eq (build : α → ℕ → ℝ) (p files nc : ℕ) (coef : ℕ → ℝ) (cov : List α)
    (hf : 0 < files) (hn : 0 < nc) (hr : files ≤ cov.length) :
    keepEta build p files nc coef cov = some (cov.map (etaRow build p coef)) := by
  obtain ⟨ps, hp1, -, hp3, hp4⟩ := split_correct cov files hf
  have hpne : ∀ q ∈ ps, q ≠ [] := by
    intro q hq h
    have h1 : 1 ≤ cov.length / files := (Nat.one_le_div_iff hf).2 hr
    rcases hp4 q hq with h2 | h2 <;> rw [h] at h2 <;> simp at h2 <;> omega
  simp only [keepEta, hp1, Option.bind_eq_bind, Option.bind_some]
  rw [mapM_some _ (fun c => c.map (etaRow build p coef)) ps
    (fun q hq => readEta_eq build p nc coef q hn (hpne q hq))]
  simp only [Option.bind_some, Option.pure_def, Option.some.injEq]
  rw [← List.map_flatten, hp3]

/-- **C29 (partial).** The model matrix built in pieces is the model matrix, for models without
impulse response terms.  Missing: impulse response terms, see `fitMat_irf_fails`. -/
theorem fitMat_eq_partial (build : α → ℕ → ℝ) (nc : ℕ) (hn : 0 < nc) (cov : List α) :
    fitMat build none nc cov = fitMat build none 1 cov := by
  have h1 : fitMat build none 1 cov = some (cov.map build) := by simp [fitMat, buildMat]
  rw [h1]
  unfold fitMat
  by_cases hn1 : nc = 1
  · rw [if_pos hn1]; rfl
  · rw [if_neg hn1]
    obtain ⟨ps, hp1, -, hp3, -⟩ := split_correct cov nc hn
    simp only [hp1, Option.bind_eq_bind, Option.bind_some]
    rw [mapM_some (buildMat build none) (fun c => c.map build) ps (fun q _ => rfl)]
    simp only [Option.bind_some, Option.pure_def, Option.some.injEq]
    rw [← List.map_flatten, hp3]

/-- With an impulse response term and several workers, building the model matrix raises an
exception whenever there are data, although it is defined for one worker. -/
theorem fitMat_irf_fails (build : α → ℕ → ℝ) (rows : List (ℕ → ℝ)) (nc : ℕ) (hn : 1 < nc)
    (cov : List α) (hc : cov ≠ []) (hl : rows.length = cov.length) :
    fitMat build (some rows) nc cov = none ∧ fitMat build (some rows) 1 cov ≠ none := by
  refine ⟨?_, by simp [fitMat, buildMat, hl]⟩
  unfold fitMat
  rw [if_neg (by omega)]
  obtain ⟨ps, hp1, hp2, hp3, hp4⟩ := split_correct cov nc (by omega)
  simp only [hp1, Option.bind_eq_bind, Option.bind_some]
  have hpos := List.length_pos_iff.2 hc
  have hex : ∃ p ∈ ps, buildMat build (some rows) p = none := by
    by_contra hcon
    push Not at hcon
    have hall : ∀ p ∈ ps, p.length = cov.length := by
      intro p hp
      by_contra h
      exact hcon p hp (by simp only [buildMat]; rw [if_neg]; rw [hl]; exact fun e => h e.symm)
    have hsum : (ps.map List.length).sum = cov.length := by rw [← List.length_flatten, hp3]
    have h2 : ps.map List.length = List.replicate ps.length cov.length := by
      rw [List.eq_replicate_iff]
      refine ⟨by simp, ?_⟩
      intro b hb
      obtain ⟨p, hp, rfl⟩ := List.mem_map.1 hb
      exact hall p hp
    rw [h2, List.sum_replicate, hp2, smul_eq_mul] at hsum
    nlinarith
  rw [mapM_none _ ps hex]
  rfl

/-- **C29.** Whatever the order in which the workers finish their tasks, the results are those of
the serial loop, in the order of the tasks. -/
theorem starmap_eq (f : α → β) (tasks : List α) (order : List ℕ)
    (ho : ∀ i < tasks.length, i ∈ order) :
    starmap order f tasks = tasks.map fun t => some (f t) := by
  have key : ∀ (order : List ℕ) (res : List (Option β)), res.length = tasks.length →
      (order.foldl (fun res i => match tasks[i]? with
        | none => res
        | some t => res.set i (some (f t))) res).length = tasks.length ∧
      ∀ (i : ℕ) (hi : i < tasks.length), (i ∈ order ∨ res[i]? = some (some (f tasks[i]))) →
        (order.foldl (fun res i => match tasks[i]? with
          | none => res
          | some t => res.set i (some (f t))) res)[i]? = some (some (f tasks[i])) := by
    intro order
    induction order with
    | nil =>
      intro res hr
      refine ⟨hr, ?_⟩
      rintro i hi (h | h)
      · simp at h
      · exact h
    | cons k order ih =>
      intro res hr
      rw [List.foldl_cons]
      by_cases hk : k < tasks.length
      · rw [List.getElem?_eq_getElem hk]
        dsimp only
        obtain ⟨h1, h2⟩ := ih (res.set k (some (f tasks[k]))) (by simpa using hr)
        refine ⟨h1, ?_⟩
        intro i hi h
        refine h2 i hi ?_
        by_cases hik : i = k
        · right; subst hik; rw [List.getElem?_set_self (by omega)]
        · rcases h with h | h
          · rcases List.mem_cons.1 h with h | h
            · exact absurd h hik
            · exact Or.inl h
          · right; rw [List.getElem?_set_ne (fun e => hik e.symm)]; exact h
      · rw [List.getElem?_eq_none (by omega)]
        dsimp only
        obtain ⟨h1, h2⟩ := ih res hr
        refine ⟨h1, ?_⟩
        intro i hi h
        refine h2 i hi ?_
        rcases h with h | h
        · rcases List.mem_cons.1 h with h | h
          · omega
          · exact Or.inl h
        · exact Or.inr h
  obtain ⟨h1, h2⟩ := key order (List.replicate tasks.length none) (by simp)
  apply List.ext_getElem?
  intro i
  by_cases hi : i < tasks.length
  · rw [List.getElem?_map, List.getElem?_eq_getElem hi]
    exact h2 i hi (Or.inl (ho i hi))
  · rw [List.getElem?_map, List.getElem?_eq_none (by omega : tasks.length ≤ i)]
    exact List.getElem?_eq_none (le_of_eq_of_le (show (starmap order f tasks).length = _ from h1) (by omega))

theorem filterMap_range (l : List α) : (List.range l.length).filterMap (l[·]?) = l := by
  induction l using List.reverseRecOn with
  | nil => rfl
  | append_singleton l a ih =>
    rw [List.length_append, List.length_singleton, List.range_succ, List.filterMap_append]
    congr 1
    · conv_rhs => rw [← ih]
      apply List.filterMap_congr
      intro i hi
      rw [List.getElem?_append_left (List.mem_range.1 hi)]
    · simp

theorem filterMap_flatten (ps : List (List ℕ)) (l : List α) :
    (ps.map fun idx => idx.filterMap (l[·]?)).flatten = ps.flatten.filterMap (l[·]?) := by
  induction ps with
  | nil => rfl
  | cons p ps ih => rw [List.map_cons, List.flatten_cons, ih, List.flatten_cons, List.filterMap_append]

/-- **C29.** The inverse of a triangular factor computed in blocks of columns has the columns
obtained by solving for each unit vector, for any number of workers. -/
theorem computeLinv_eq {γ : Type} (solve : (ℕ → ℝ) → γ) (n nc : ℕ) :
    computeLinv solve n nc = some ((List.range n).map fun c => solve fun r => if r = c then 1 else 0) := by
  unfold computeLinv
  dsimp only
  by_cases h : n / 2000 > 1 ∧ nc > 1
  · rw [if_pos h]
    obtain ⟨ps, hp1, -, hp3, -⟩ := split_correct (List.range n) (min (n / 2000) nc) (by omega)
    simp only [hp1, Option.bind_eq_bind, Option.bind_some, Option.pure_def, Option.some.injEq]
    set T : List (ℕ → ℝ) := (List.range n).map fun c r => if r = c then 1 else 0 with hT
    have h1 : (ps.map fun idx => (idx.filterMap (T[·]?)).map solve)
        = (ps.map fun idx => idx.filterMap (T[·]?)).map (List.map solve) := by
      rw [List.map_map]; rfl
    rw [h1, ← List.map_flatten, filterMap_flatten, hp3]
    have h2 : n = T.length := by rw [hT]; simp
    rw [show List.range n = List.range T.length from congrArg _ h2, filterMap_range, hT, List.map_map]
    rw [show (List.map (fun c r => if r = c then (1:ℝ) else 0) (List.range n)).length = n by simp]
    rfl
  · rw [if_neg h, List.map_map]; rfl

/-- **C29.** The sum of squares behind the effective degrees of freedom of a term is the same for any
number of workers. -/
theorem computeB_eq (solve : (ℕ → ℝ) → (ℕ → ℝ)) (n nc : ℕ) (PD : List (ℕ → ℝ)) :
    computeB solve n nc PD = some (PD.map fun d => ∑ i ∈ Finset.range n, solve d i ^ 2).sum := by
  have hserial : sumSq n (PD.map solve) = (PD.map fun d => ∑ i ∈ Finset.range n, solve d i ^ 2).sum := by
    unfold sumSq; rw [List.map_map]; rfl
  unfold computeB
  dsimp only
  by_cases h : PD.length / 2000 > 1 ∧ nc > 1
  · rw [if_pos h]
    obtain ⟨ps, hp1, -, hp3, -⟩ := split_correct (List.range PD.length) (min (PD.length / 2000) nc)
      (by omega)
    simp only [hp1, Option.bind_eq_bind, Option.bind_some, Option.pure_def, Option.some.injEq]
    rw [← hserial]
    have h1 : ∀ (ps : List (List ℕ)),
        (ps.map fun idx => sumSq n ((idx.filterMap (PD[·]?)).map solve)).sum
          = sumSq n ((ps.flatten.filterMap (PD[·]?)).map solve) := by
      intro ps
      induction ps with
      | nil => simp [sumSq]
      | cons p ps ih =>
        rw [List.map_cons, List.sum_cons, ih, List.flatten_cons, List.filterMap_append, List.map_append]
        unfold sumSq
        rw [List.map_append, List.sum_append]
    rw [h1, hp3, filterMap_range]
  · rw [if_neg h, hserial]

/-! ### Cache -/

theorem split_last {c : Char} : ∀ (a b d e : List Char), c ∉ d → c ∉ e →
    a ++ c :: d = b ++ c :: e → a = b ∧ d = e := by
  intro a
  induction a with
  | nil =>
    intro b d e hd he h
    cases b with
    | nil => simpa using h
    | cons x b =>
      simp only [List.nil_append, List.cons_append, List.cons.injEq] at h
      exact absurd (h.2 ▸ (by simp : c ∈ b ++ c :: e)) hd
  | cons x a ih =>
    intro b d e hd he h
    cases b with
    | nil =>
      simp only [List.nil_append, List.cons_append, List.cons.injEq] at h
      exact absurd (h.2 ▸ (by simp : c ∈ a ++ c :: d)) he
    | cons y b =>
      simp only [List.cons_append, List.cons.injEq] at h
      obtain ⟨h1, h2⟩ := ih b d e hd he h.2
      exact ⟨by rw [h.1, h1], h2⟩

/-- Different pieces get different file names. -/
theorem target_inj (a b : List Char) (i j : ℕ) (h : target a i = target b j) : a = b ∧ i = j := by
  unfold target at h
  have h1 := List.append_cancel_right h
  rw [List.append_assoc, List.append_assoc] at h1
  have hu : ∀ n : ℕ, '_' ∉ Nat.toDigits 10 n := by
    intro n hm
    have := Nat.isDigit_of_mem_toDigits (by norm_num) (by norm_num) hm
    exact absurd this (by decide)
  obtain ⟨h2, h3⟩ := split_last a b _ _ (hu i) (hu j) h1
  refine ⟨h2, ?_⟩
  have := congrArg (fun l => Nat.ofDigitChars 10 l 0) h3
  simpa [Nat.ofDigitChars_ten_toDigits] using this

/-- **C63.** If the names of the data files are distinct once directories and the suffix are removed,
any sequence of reads, starting from the empty cache directory of a new fit, returns the matrices that
would be built without a cache. -/
theorem cache_transparent_partial {M : Type} (mat : List Char → ℕ → M) (files : List (List Char))
    (hinj : ∀ f ∈ files, ∀ g ∈ files, name f = name g → f = g) (should : Bool)
    (calls : List (List Char × ℕ)) (hc : ∀ c ∈ calls, c.1 ∈ files) :
    (readMany should mat [] calls).1 = calls.map fun c => mat c.1 c.2 := by
  have key : ∀ (calls : List (List Char × ℕ)), (∀ c ∈ calls, c.1 ∈ files) → ∀ cache : Cache M,
      (∀ e ∈ cache, ∃ f ∈ files, ∃ i, e = (target (name f) i, mat f i)) →
      (readMany should mat cache calls).1 = calls.map fun c => mat c.1 c.2 := by
    intro calls
    induction calls with
    | nil => intro _ cache _; rfl
    | cons c calls ih =>
      intro hc cache hcache
      obtain ⟨file, fi⟩ := c
      have hf : file ∈ files := hc (file, fi) (by simp)
      have hrest := fun c' h => hc c' (List.mem_cons_of_mem _ h)
      simp only [readMany, List.map_cons]
      unfold readMmat
      by_cases hs : should = false
      · simp only [if_pos hs]
        rw [ih hrest cache hcache]
      · simp only [if_neg hs]
        cases hfind : cache.find? (fun e => e.1 == target (name file) fi) with
        | none =>
          dsimp only
          rw [ih hrest]
          intro e he
          rcases List.mem_cons.1 he with rfl | he
          · exact ⟨file, hf, fi, rfl⟩
          · exact hcache e he
        | some e =>
          dsimp only
          rw [ih hrest cache hcache]
          obtain ⟨g, hg, i, rfl⟩ := hcache e (List.mem_of_find?_eq_some hfind)
          have h1 := List.find?_some hfind
          dsimp only at h1
          obtain ⟨h2, h3⟩ := target_inj _ _ _ _ (beq_iff_eq.1 h1)
          rw [hinj g hg file hf h2, h3]
  exact key calls hc [] (by simp)

/-- **C63, disagreement.** Two data files with the same name in different directories share their
entry: the second read returns the matrix of the first file. -/
theorem cache_collision {M : Type} (mat : List Char → ℕ → M) :
    (readMany true mat [] [("s1/d.csv".toList, 0), ("s2/d.csv".toList, 0)]).1
      = [mat "s1/d.csv".toList 0, mat "s1/d.csv".toList 0] := by
  have h1 : name "s1/d.csv".toList = ['d'] := by decide
  have h2 : name "s2/d.csv".toList = ['d'] := by decide
  simp only [readMany, readMmat, h1, h2]
  simp

/-! ### Columns used for null-space penalties of factor smooths -/

theorem arange_mem (a b k : ℕ) (hk : 0 < k) (x : ℕ) :
    x ∈ arange a b k ↔ ∃ r, x = a + r * k ∧ x < b := by
  unfold arange
  rw [List.mem_map]
  constructor
  · rintro ⟨r, hr, rfl⟩
    refine ⟨r, rfl, ?_⟩
    have hr := List.mem_range.1 hr
    have h1 : r + 1 ≤ (b - a + (k - 1)) / k := hr
    rw [Nat.le_div_iff_mul_le hk, Nat.add_mul] at h1
    omega
  · rintro ⟨r, rfl, hx⟩
    refine ⟨r, List.mem_range.2 ?_, rfl⟩
    show r + 1 ≤ (b - a + (k - 1)) / k
    rw [Nat.le_div_iff_mul_le hk, Nat.add_mul]
    omega

/-- **C64 (partial).** The columns selected for a null-space penalty with one penalised coefficient
per level are those of the `rep` levels exactly when the first of them lies in the second block of
`k` columns of the model.  Missing: terms starting further to the right, for which levels are left
out, and terms starting further to the left, for which a foreign column is used. -/
theorem null_columns_partial (start k rep null : ℕ) (hk : 0 < k) (hrep : 0 < rep) :
    (∀ x, x ∈ nullIdx start k rep null ↔ ∃ r < rep, x = start + r * k + null) ↔
      k ≤ start + null ∧ start + null < 2 * k := by
  have hmem : ∀ x, x ∈ nullIdx start k rep null ↔ ∃ r, x = start + null + r * k ∧ x < k * (rep + 1) :=
    fun x => arange_mem _ _ _ hk x
  constructor
  · intro h
    obtain ⟨m, rfl⟩ : ∃ m, rep = m + 1 := ⟨rep - 1, by omega⟩
    constructor
    · by_contra hlt
      push Not at hlt
      have h1 := (h (start + null + (m + 1) * k)).1 ((hmem _).2 ⟨m + 1, rfl, by nlinarith⟩)
      obtain ⟨r, hr, hx⟩ := h1
      have : (m + 1) * k = r * k := by omega
      have := Nat.eq_of_mul_eq_mul_right hk this
      omega
    · have h1 := (hmem _).1 ((h (start + m * k + null)).2 ⟨m, by omega, rfl⟩)
      obtain ⟨r, hx, hlt⟩ := h1
      nlinarith
  · rintro ⟨h1, h2⟩ x
    rw [hmem]
    constructor
    · rintro ⟨r, rfl, hlt⟩
      refine ⟨r, ?_, by ring⟩
      by_contra hge
      push Not at hge
      have : rep * k ≤ r * k := Nat.mul_le_mul_right k hge
      nlinarith
    · rintro ⟨r, hr, rfl⟩
      refine ⟨r, by ring, ?_⟩
      have : (r + 1) * k ≤ rep * k := Nat.mul_le_mul_right k hr
      nlinarith

/-- A factor smooth with nine coefficients per level whose first column is column 10 of the model
and whose penalised coefficient is the last of each level: the second of two levels is left out. -/
theorem null_columns_missed : nullIdx 10 9 2 8 = [18] := by decide

/-- For a second factor smooth no column at all is used: the trace is computed as zero. -/
theorem null_columns_none (start k rep null : ℕ) (h : k * (rep + 1) ≤ start + null) :
    nullIdx start k rep null = [] := by
  unfold nullIdx arange
  rcases Nat.eq_zero_or_pos k with rfl | hk
  · simp
  · rw [show k * (rep + 1) - (start + null) + (k - 1) = k - 1 by omega,
      Nat.div_eq_of_lt (by omega)]
    rfl

/-! ### Non-vacuity -/

example : arraySplit [1, 2, 3, 4, 5] 3 = some [[1, 2], [3, 4], [5]] := by decide

example : starmap [1, 0, 1] (fun n : ℕ => n + 10) [5, 7] = [some 15, some 17] := by decide

example (build : ℕ → ℕ → ℝ) :
    readXTX build 2 [1, 2, 3] [4, 5, 6] = readXTX build 1 [1, 2, 3] [4, 5, 6] := by
  rw [readXTX_eq build 2 [1, 2, 3] [4, 5, 6] rfl, readXTX_eq build 1 [1, 2, 3] [4, 5, 6] rfl]; simp

example : nullIdx 5 9 2 8 = [13, 22] := by decide

example (mat : List Char → ℕ → ℕ) :
    (readMany true mat [] [("s1/a.csv".toList, 0), ("s2/b.csv".toList, 0), ("s1/a.csv".toList, 0)]).1
      = [mat "s1/a.csv".toList 0, mat "s2/b.csv".toList 0, mat "s1/a.csv".toList 0] := by
  refine cache_transparent_partial mat ["s1/a.csv".toList, "s2/b.csv".toList] ?_ true _ ?_
  · decide
  · decide

end Verif.Par
