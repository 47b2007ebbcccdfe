import Verif.FilesModel
import Verif.Encode
import Mathlib.Tactic.NormNum

/-! # Reading covariates from several files: theorems (property C51) -/

namespace Verif.Files

/-- Columns read file by file are the columns of the concatenated data, with and without leaving out rows. -/
theorem read_columns {V : Type} (y : Row → Option ℝ) (x : Row → V) (files : List (List Row)) :
    readNoCor x files = files.flatten.map x ∧
    readCov y x files = (files.flatten.filter fun r => (y r).isSome).map x := by
  constructor
  · induction files with
    | nil => rfl
    | cons f fs ih =>
      simp only [readNoCor, List.map_cons, List.flatMap_cons, id_eq, List.flatten_cons, List.map_append] at ih ⊢
      rw [ih]
  · induction files with
    | nil => rfl
    | cons f fs ih =>
      simp only [readCov, List.map_cons, List.flatMap_cons, id_eq, List.flatten_cons, List.filter_append, List.map_append] at ih ⊢
      rw [ih]

theorem collect_some {V W : Type} (l : List W) (g : W → Option V) (h : W → V) (hg : ∀ a ∈ l, g a = some (h a)) :
    collect (l.map g) = some (l.map h) := by
  induction l with
  | nil => rfl
  | cons a l ih =>
    simp [collect, hg a (by simp), ih (fun b hb => hg b (by simp [hb]))]

/-- Without missing values the levels read from files are those of the concatenated data, but in the order in which a set
happens to be listed. -/
theorem levels_partial (enum : List (Option String) → List (Option String)) (henum : ∀ l, (enum l).Perm l) (x : Row → Option String)
    (files : List (List Row)) (hx : ∀ f ∈ files, ∀ r ∈ f, (x r).isSome) :
    ∃ u, readUniqueFac enum x files = some u ∧ u.Perm ((memLevels x files.flatten).map some) := by
  have h1 : collect (files.map fun f => uniqueFac (f.map x)) = some (files.map fun f => (f.map x).dedup) := by
    apply collect_some
    intro f hf
    unfold uniqueFac
    rw [if_neg]
    have : (f.map x).any Option.isNone = false := by
      rw [List.any_eq_false]
      intro v hv
      rw [List.mem_map] at hv
      obtain ⟨r, hr, rfl⟩ := hv
      have := hx f hf r hr
      cases h : x r <;> simp_all
    simp [this]
  refine ⟨_, by rw [readUniqueFac, h1, Option.map_some], ?_⟩
  refine (henum _).trans ?_
  rw [List.perm_ext_iff_of_nodup (List.nodup_dedup _)]
  · intro v
    rw [List.mem_dedup, List.mem_flatMap]
    constructor
    · rintro ⟨l, hl, hv⟩
      rw [List.mem_map] at hl
      obtain ⟨f, hf, rfl⟩ := hl
      rw [id_eq, List.mem_dedup, List.mem_map] at hv
      obtain ⟨r, hr, rfl⟩ := hv
      have hs := hx f hf r hr
      obtain ⟨w, hw⟩ := Option.isSome_iff_exists.mp hs
      rw [hw]
      refine List.mem_map_of_mem ?_
      unfold memLevels
      rw [(Verif.Encode.levels_spec _).1, ← hw]
      exact List.mem_map_of_mem (List.mem_flatten.mpr ⟨f, hf, hr⟩)
    · intro hv
      rw [List.mem_map] at hv
      obtain ⟨w, hw, rfl⟩ := hv
      unfold memLevels at hw
      rw [(Verif.Encode.levels_spec _).1, List.mem_map] at hw
      obtain ⟨r, hr, hrw⟩ := hw
      obtain ⟨f, hf, hrf⟩ := List.mem_flatten.mp hr
      refine ⟨(f.map x).dedup, List.mem_map_of_mem hf, ?_⟩
      rw [id_eq, List.mem_dedup, List.mem_map]
      exact ⟨r, hrf, hrw⟩
  · exact (Verif.Encode.levels_nodup _).map (fun a b h => by simpa using h)

/-- A data set with a factor `g`. -/
def exRow (a : Option String) (y x : Option ℝ) : Row := ⟨fun v => if v = "y" then y else x, fun _ => a⟩

/-- The first level, which is the reference under dummy coding, can differ from that for data in memory. -/
theorem levels_order_differs :
    ∃ enum : List (Option String) → List (Option String), (∀ l, (enum l).Perm l) ∧
      readUniqueFac enum (fun r => r.fac "g") [[exRow (some "a") none none], [exRow (some "b") none none]] = some [some "b", some "a"] ∧
      memLevels (fun r => r.fac "g") [exRow (some "a") none none, exRow (some "b") none none] = ["a", "b"] := by
  refine ⟨List.reverse, fun l => List.reverse_perm l, ?_, ?_⟩
  · simp only [readUniqueFac, List.map_cons, List.map_nil, exRow]
    decide
  · simp only [memLevels, List.map_cons, List.map_nil, exRow]
    decide

/-- A factor with a missing value: setting up the formula raises an error for data in files if the file also has a value,
while data in memory are accepted. -/
theorem missing_factor_raises (enum : List (Option String) → List (Option String)) (x : Row → Option String) (f : List Row)
    (fs : List (List Row)) (r r' : Row) (hr : r ∈ f) (hr' : r' ∈ f) (h : x r = none) (h' : (x r').isSome) :
    readUniqueFac enum x (f :: fs) = none := by
  have h1 : uniqueFac (f.map x) = none := by
    unfold uniqueFac
    rw [if_pos]
    rw [Bool.and_eq_true, List.any_eq_true, List.any_eq_true]
    exact ⟨⟨x r, List.mem_map_of_mem hr, by simp [h]⟩, ⟨x r', List.mem_map_of_mem hr', h'⟩⟩
  simp [readUniqueFac, collect, h1]

theorem mem_readUniqueNum (x : Row → Option ℝ) (files : List (List Row)) (v : Option ℝ) :
    v ∈ readUniqueNum x files ↔ ∃ r ∈ files.flatten, x r = v := by
  classical
  unfold readUniqueNum uniqueNum
  simp only [List.mem_dedup, List.mem_flatMap, List.mem_map, id_eq, List.mem_flatten]
  constructor
  · rintro ⟨l, ⟨f, hf, rfl⟩, hv⟩
    rw [List.mem_dedup, List.mem_map] at hv
    obtain ⟨r, hr, rfl⟩ := hv
    exact ⟨r, ⟨f, hf, hr⟩, rfl⟩
  · rintro ⟨r, ⟨f, hf, hr⟩, rfl⟩
    refine ⟨_, ⟨f, hf, rfl⟩, ?_⟩
    rw [List.mem_dedup]
    exact List.mem_map_of_mem hr

theorem min_congr (l l' : List ℝ) (h : ∀ v, v ∈ l ↔ v ∈ l') : l.min? = l'.min? ∧ l.max? = l'.max? := by
  constructor
  · cases hm : l'.min? with
    | none =>
      rw [List.min?_eq_none_iff] at hm ⊢
      subst hm
      rw [List.eq_nil_iff_forall_not_mem]
      intro a ha
      simpa using (h a).mp ha
    | some m =>
      rw [List.min?_eq_some_iff] at hm ⊢
      exact ⟨(h m).mpr hm.1, fun b hb => hm.2 b ((h b).mp hb)⟩
  · cases hm : l'.max? with
    | none =>
      rw [List.max?_eq_none_iff] at hm ⊢
      subst hm
      rw [List.eq_nil_iff_forall_not_mem]
      intro a ha
      simpa using (h a).mp ha
    | some m =>
      rw [List.max?_eq_some_iff] at hm ⊢
      exact ⟨(h m).mpr hm.1, fun b hb => hm.2 b ((h b).mp hb)⟩

/-- Without missing values range and boundaries agree with those of the concatenated data. -/
theorem range_partial (x : Row → Option ℝ) (files : List (List Row)) (hx : ∀ r ∈ files.flatten, (x r).isSome) :
    fileMin x files = memMin x files.flatten ∧ fileMax x files = memMax x files.flatten := by
  have h0 : (readUniqueNum x files).any Option.isNone = false := by
    rw [List.any_eq_false]
    intro v hv
    obtain ⟨r, hr, rfl⟩ := (mem_readUniqueNum x files v).mp hv
    have := hx r hr
    cases h : x r <;> simp_all
  have h1 : ∀ v, v ∈ present (readUniqueNum x files) ↔ v ∈ present (files.flatten.map x) := by
    intro v
    simp only [present, List.mem_filterMap, id_eq, exists_eq_right, mem_readUniqueNum, List.mem_map]
  have h2 := min_congr _ _ h1
  simp only [fileMin, fileMax, memMin, memMax, h0, Bool.false_eq_true, if_false]
  exact h2

/-- With a missing value the boundaries for data in files are missing too. -/
theorem range_missing (x : Row → Option ℝ) (files : List (List Row)) (r : Row) (hr : r ∈ files.flatten) (h : x r = none) :
    fileMin x files = none ∧ fileMax x files = none := by
  have h0 : (readUniqueNum x files).any Option.isNone = true := by
    rw [List.any_eq_true]
    exact ⟨none, (mem_readUniqueNum x files none).mpr ⟨r, hr, h⟩, rfl⟩
  simp [fileMin, fileMax, h0]

/-- … while they are those of the values present for data in memory. -/
theorem range_missing_witness :
    fileMin (fun r => r.num "x") [[exRow none none (some 1)], [exRow none none none]] = none ∧
    memMin (fun r => r.num "x") [exRow none none (some 1), exRow none none none] = some 1 := by
  constructor
  · exact (range_missing _ _ (exRow none none none) (by simp) rfl).1
  · simp [memMin, present, exRow]

/-- Rows kept for data in files are those kept for data in memory exactly if no row with a response misses a covariate. -/
theorem keep_iff (y : String) (nums facs : List String) (files : List (List Row)) :
    fileKeep y files = memKeep y nums facs files.flatten ↔
      ∀ r ∈ files.flatten, (r.num y).isSome → (∀ v ∈ nums, (r.num v).isSome) ∧ (∀ v ∈ facs, (r.fac v).isSome) := by
  have h : fileKeep y files = files.flatten.map fun r => (r.num y).isSome := by
    unfold fileKeep
    rw [(read_columns (fun _ => none) (fun r : Row => r.num y) files).1, List.map_map]
    rfl
  rw [h]
  unfold memKeep
  rw [List.map_inj_left]
  constructor
  · intro hk r hr hy
    have := hk r hr
    rw [hy, Bool.true_and] at this
    have := this.symm
    rw [Bool.and_eq_true, List.all_eq_true, List.all_eq_true] at this
    exact this
  · intro hk r hr
    cases hy : (r.num y).isSome with
    | false => simp
    | true =>
      have := hk r hr hy
      have h1 : nums.all (fun v => (r.num v).isSome) = true := List.all_eq_true.mpr this.1
      have h2 : facs.all (fun v => (r.fac v).isSome) = true := List.all_eq_true.mpr this.2
      simp [h1, h2]

/-- A covariate missing in a row with a response: kept for data in files, left out for data in memory. -/
theorem keep_differs :
    fileKeep "y" [[exRow none (some 1) none]] = [true] ∧ memKeep "y" ["x"] [] [exRow none (some 1) none] = [false] := by
  constructor
  · simp [fileKeep, readNoCor, exRow]
  · simp [memKeep, exRow]

/-- Arguments for reading files are used when the formula is set up but not when the model is fitted: whenever they change what is
read, the model is fitted to other rows than those the formula was set up with. -/
theorem kwargs_ignored {F K : Type} (parse : Option K → F → List Row) (k : K) (file : F) :
    (setupRows parse (some k) file = fitRows parse (some k) file ↔ parse (some k) file = parse none file) ∧
    setupRows parse none file = fitRows parse none file := ⟨Iff.rfl, rfl⟩

/-- Concrete cases: a complete data set in two files. -/
example : ∀ f ∈ [[exRow (some "a") (some 1) (some 2)], [exRow (some "b") (some 3) (some 4)]], ∀ r ∈ f, (r.fac "g").isSome := by
  simp [exRow]

example : fileMin (fun r => r.num "x") [[exRow (some "a") (some 1) (some 2)], [exRow (some "b") (some 3) (some 4)]] = some 2 := by
  rw [(range_partial _ _ (by simp [exRow])).1]
  simp [memMin, present, exRow]
  norm_num

/-- Skipping the first row of a file. -/
example : setupRows (fun (k : Option ℕ) (f : List Row) => f.drop (k.getD 0)) (some 1) [exRow none none none]
    ≠ fitRows (fun (k : Option ℕ) (f : List Row) => f.drop (k.getD 0)) (some 1) [exRow none none none] := by
  simp [setupRows, fitRows]

end Verif.Files
