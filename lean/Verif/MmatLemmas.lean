import Verif.MmatModel
import Mathlib.Data.List.GetD
import Mathlib.Data.List.Nodup
import Mathlib.Data.List.Sublists
import Mathlib.Data.Nat.Choose.Sum
import Mathlib.Algebra.BigOperators.Ring.Finset
import Mathlib.Tactic.Ring
import Mathlib.Tactic.Linarith

/-! # Helper lemmas for model matrices -/

namespace Verif.Mmat

open Verif.Jhess (Entry coo)

theorem coo_append (a b : List Entry) (r c : ℕ) : coo (a ++ b) r c = coo a r c + coo b r c := by
  simp [coo, List.sum_append]

@[simp] theorem coo_nil (r c : ℕ) : coo [] r c = 0 := rfl

theorem coo_column (n ci : ℕ) (keep : ℕ → Bool) (val : ℕ → ℝ) (r c : ℕ) :
    coo (column n ci keep val) r c = if c = ci ∧ r < n ∧ keep r = true then val r else 0 := by
  induction n with
  | zero => simp [column, coo]
  | succ n ih =>
    have h : column (n + 1) ci keep val = column n ci keep val ++ (if keep n then [(n, ci, val n)] else []) := by
      unfold column
      rw [List.range_succ, List.filter_append, List.map_append]
      congr 1
      by_cases hk : keep n = true <;> simp [hk]
    rw [h, coo_append, ih]
    by_cases hk : keep n = true
    · rw [if_pos hk]
      by_cases hr : n = r
      · subst hr
        by_cases hc : ci = c
        · subst hc; simp [coo, hk]
        · have hc' : ¬ c = ci := fun h => hc h.symm
          simp [coo, hc, hc']
      · have h1 : (r < n + 1) = (r < n) := by
          apply propext; omega
        simp [coo, hr, h1]
    · rw [if_neg hk]
      have h1 : (c = ci ∧ r < n + 1 ∧ keep r = true) ↔ (c = ci ∧ r < n ∧ keep r = true) := by
        constructor
        · rintro ⟨a, b, e⟩
          refine ⟨a, ?_, e⟩
          by_contra hb
          have : r = n := by omega
          subst this; exact hk e
        · rintro ⟨a, b, e⟩; exact ⟨a, by omega, e⟩
      rw [coo_nil, add_zero]
      simp only [h1]

theorem coo_colEntries (n ci : ℕ) (cs : List Col) (r c : ℕ) (hr : r < n) :
    coo (colEntries n ci cs) r c = if ci ≤ c then ((cs.map fun k => k.at r).getD (c - ci) 0) else 0 := by
  induction cs generalizing ci with
  | nil => simp [colEntries]
  | cons k ks ih =>
    rw [colEntries, coo_append, ih, coo_column]
    by_cases h1 : c = ci
    · subst h1
      have h2 : ¬ (c + 1 ≤ c) := by omega
      by_cases hk : k.use r = true <;> simp [h2, hr, Col.at, hk]
    · by_cases h2 : ci ≤ c
      · have h3 : ci + 1 ≤ c := by omega
        have h4 : c - ci = (c - (ci + 1)) + 1 := by omega
        rw [h4]
        simp [h1, h2, h3]
      · have h3 : ¬ ci + 1 ≤ c := by omega
        simp [h1, h2, h3]

theorem colEntries_cols (n ci : ℕ) (cs : List Col) :
    ∀ e ∈ colEntries n ci cs, ci ≤ e.2.1 ∧ e.2.1 < ci + cs.length ∧ e.1 < n := by
  induction cs generalizing ci with
  | nil => simp [colEntries]
  | cons k ks ih =>
    intro e he
    rw [colEntries, List.mem_append] at he
    rcases he with he | he
    · simp only [column, List.mem_map, List.mem_filter, List.mem_range] at he
      obtain ⟨r, ⟨hr, _⟩, rfl⟩ := he
      simp [hr]
    · have := ih (ci + 1) e he
      simp only [List.length_cons]
      omega

/-! ### combinations -/

theorem mem_combinations {α : Type} (k : ℕ) (l s : List α) :
    s ∈ combinations k l ↔ s.Sublist l ∧ s.length = k := by
  induction l generalizing k s with
  | nil =>
    cases k with
    | zero => simp [combinations]
    | succ k =>
      simp only [combinations, List.not_mem_nil, List.sublist_nil, false_iff]
      rintro ⟨rfl, h⟩; simp at h
  | cons x xs ih =>
    cases k with
    | zero =>
      simp only [combinations, List.mem_singleton, List.length_eq_zero_iff]
      constructor
      · rintro rfl; simp
      · exact fun h => h.2
    | succ k =>
      simp only [combinations, List.mem_append, List.mem_map, ih]
      constructor
      · rintro (⟨t, ⟨h1, h2⟩, rfl⟩ | ⟨h1, h2⟩)
        · exact ⟨List.cons_sublist_cons.mpr h1, by simp [h2]⟩
        · exact ⟨h1.cons x, h2⟩
      · rintro ⟨h1, h2⟩
        cases h1 with
        | cons _ h => exact Or.inr ⟨h, h2⟩
        | cons_cons _ h => exact Or.inl ⟨_, ⟨h, by simpa using h2⟩, rfl⟩

theorem nodup_combinations {α : Type} (k : ℕ) (l : List α) (hl : l.Nodup) : (combinations k l).Nodup := by
  induction l generalizing k with
  | nil => cases k <;> simp [combinations]
  | cons x xs ih =>
    cases k with
    | zero => simp [combinations]
    | succ k =>
      rw [List.nodup_cons] at hl
      rw [combinations, List.nodup_append]
      refine ⟨(ih k hl.2).map (fun a b h => by simpa using h), ih (k + 1) hl.2, ?_⟩
      intro a ha b hb hab
      subst hab
      rw [List.mem_map] at ha
      obtain ⟨t, _, rfl⟩ := ha
      have := ((mem_combinations _ _ _).mp hb).1
      exact hl.1 (this.subset (by simp))

theorem length_combinations {α : Type} (k : ℕ) (l : List α) : (combinations k l).length = l.length.choose k := by
  induction l generalizing k with
  | nil => cases k <;> simp [combinations]
  | cons x xs ih =>
    cases k with
    | zero => simp [combinations]
    | succ k => simp [combinations, ih, Nat.choose_succ_succ]

/-! ### linear terms -/

/-- Choices for one variable: `none` for a continuous variable, a code for a factor. -/
def choices (d : Data) (hasInt : Bool) (v : String) : List (String × Option ℕ) :=
  if d.isFac v then (codes d hasInt v).map fun fl => (v, some fl) else [(v, none)]

/-- All combinations of choices, the last variable changing fastest. -/
def allChoices (d : Data) (hasInt : Bool) : List String → List (List (String × Option ℕ))
  | [] => [[]]
  | v :: vs => (choices d hasInt v).flatMap fun c => (allChoices d hasInt vs).map (c :: ·)

open Classical in
/-- Value of a choice in a row: the covariate or the indicator of the level. -/
noncomputable def choiceVal (d : Data) (r : ℕ) (c : String × Option ℕ) : ℝ :=
  match c.2 with
  | none => d.cov r c.1
  | some fl => if d.cov r c.1 = (fl : ℝ) then 1 else 0

/-- Label of a choice: the variable, followed by the level for a factor. -/
def choiceLabel (d : Data) (c : String × Option ℕ) : String :=
  match c.2 with
  | none => c.1
  | some fl => c.1 ++ "_" ++ d.coding c.1 fl

theorem interStep_nil (d : Data) (h : Bool) (v : String) (r : ℕ) :
    (interStep d h [] v).map (fun k => k.at r) = (choices d h v).map (choiceVal d r) := by
  unfold interStep choices
  by_cases hf : d.isFac v = true
  · rw [if_pos hf, if_pos hf]
    simp only [List.length_nil, if_true, List.map_map]
    apply List.map_congr_left
    intro fl _
    by_cases hc : d.cov r v = (fl : ℝ) <;> simp [Col.at, isLevel, choiceVal, hc]
  · rw [if_neg hf, if_neg hf]
    simp [Col.at, choiceVal]

theorem interStep_cons (d : Data) (h : Bool) (old : List Col) (v : String) (r : ℕ) (ho : old ≠ []) :
    (interStep d h old v).map (fun k => k.at r)
      = (old.map fun k => k.at r).flatMap fun a => (choices d h v).map fun c => a * choiceVal d r c := by
  have hl : ¬ old.length = 0 := by rwa [List.length_eq_zero_iff]
  unfold interStep choices
  by_cases hf : d.isFac v = true
  · rw [if_pos hf, if_neg hl, if_pos hf, List.map_flatMap, List.flatMap_map]
    congr 1
    funext o
    rw [List.map_map, List.map_map]
    apply List.map_congr_left
    intro fl _
    by_cases hc : d.cov r v = (fl : ℝ) <;> by_cases hu : o.use r = true <;> simp [Col.at, isLevel, choiceVal, hc, hu]
  · rw [if_neg hf, if_neg hl, if_neg hf, List.map_map, List.flatMap_map]
    simp only [List.map_cons, List.map_nil, List.flatMap_singleton']
    rw [← List.map_eq_flatMap]
    apply List.map_congr_left
    intro o _
    by_cases hu : o.use r = true <;> simp [Col.at, choiceVal, hu]

theorem interStep_ne (d : Data) (h : Bool) (old : List Col) (v : String) (hv : d.isFac v = true → codes d h v ≠ []) :
    interStep d h old v ≠ [] := by
  unfold interStep
  by_cases hf : d.isFac v = true
  · have := hv hf
    rw [if_pos hf]
    by_cases hl : old.length = 0
    · rw [if_pos hl]; simpa using this
    · rw [if_neg hl]
      rw [List.length_eq_zero_iff] at hl
      obtain ⟨o, os, rfl⟩ := List.exists_cons_of_ne_nil hl
      simp [this]
  · rw [if_neg hf]
    by_cases hl : old.length = 0
    · rw [if_pos hl]; simp
    · rw [if_neg hl]
      rw [List.length_eq_zero_iff] at hl
      simpa using hl

theorem interFold (d : Data) (h : Bool) (r : ℕ) (vs : List String) (hvs : ∀ v ∈ vs, d.isFac v = true → codes d h v ≠ [])
    (old : List Col) (ho : old ≠ []) :
    (vs.foldl (interStep d h) old).map (fun k => k.at r)
      = (old.map fun k => k.at r).flatMap fun a => (allChoices d h vs).map fun cs => a * (cs.map (choiceVal d r)).prod := by
  induction vs generalizing old with
  | nil => simp [allChoices, ← List.map_eq_flatMap]
  | cons v vs ih =>
    rw [List.foldl_cons, ih (fun w hw => hvs w (by simp [hw])) _ (interStep_ne d h old v (hvs v (by simp))),
      interStep_cons d h old v r ho, List.flatMap_assoc]
    congr 1
    funext a
    rw [allChoices, List.map_flatMap, List.flatMap_map]
    congr 1
    funext c
    rw [List.map_map]
    apply List.map_congr_left
    intro cs _
    simp [mul_assoc]

theorem linCols_foldl (d : Data) (h : Bool) (vars : List String) : linCols d h vars = vars.foldl (interStep d h) [] := by
  unfold linCols
  split
  · simp [mainCols, interStep]
  · rfl

theorem linNames_foldl (d : Data) (h : Bool) (vars : List String) : linNames d h vars = vars.foldl (nameStep d h) [] := by
  unfold linNames
  split
  · simp [nameStep]
  · rfl

theorem inter_length (d : Data) (h : Bool) (vs : List String) (a : List Col) (b : List String) (hab : a.length = b.length) :
    (vs.foldl (interStep d h) a).length = (vs.foldl (nameStep d h) b).length := by
  induction vs generalizing a b with
  | nil => exact hab
  | cons v vs ih =>
    rw [List.foldl_cons, List.foldl_cons]
    apply ih
    unfold interStep nameStep
    by_cases hf : d.isFac v = true
    · rw [if_pos hf, if_pos hf, hab]
      by_cases hb : b.length = 0
      · rw [if_pos hb, if_pos hb]; simp
      · rw [if_neg hb, if_neg hb]; simp [List.length_flatMap, hab]
    · rw [if_neg hf, if_neg hf, hab]
      by_cases hb : b.length = 0
      · rw [if_pos hb, if_pos hb]; simp
      · rw [if_neg hb, if_neg hb]; simp [hab]

theorem lin_length (d : Data) (h : Bool) (vars : List String) : (linCols d h vars).length = (linNames d h vars).length := by
  rw [linCols_foldl, linNames_foldl]
  exact inter_length d h vars [] [] rfl

theorem intercalate_foldl (s a : String) (l : List String) :
    String.intercalate s (a :: l) = l.foldl (fun acc x => acc ++ s ++ x) a := by
  induction l generalizing a with
  | nil => rfl
  | cons x xs ih =>
    rw [List.foldl_cons, ← ih]
    rfl

theorem nameStep_ne (d : Data) (h : Bool) (old : List String) (v : String) (hv : d.isFac v = true → codes d h v ≠ []) :
    nameStep d h old v ≠ [] := by
  unfold nameStep
  by_cases hf : d.isFac v = true
  · have := hv hf
    rw [if_pos hf]
    by_cases hl : old.length = 0
    · rw [if_pos hl]; simpa using this
    · rw [if_neg hl]
      rw [List.length_eq_zero_iff] at hl
      obtain ⟨o, os, rfl⟩ := List.exists_cons_of_ne_nil hl
      simp [this]
  · rw [if_neg hf]
    by_cases hl : old.length = 0
    · rw [if_pos hl]; simp
    · rw [if_neg hl]
      rw [List.length_eq_zero_iff] at hl
      simpa using hl

theorem nameStep_cons (d : Data) (h : Bool) (old : List String) (v : String) (ho : old ≠ []) :
    nameStep d h old v = old.flatMap fun a => (choices d h v).map fun c => a ++ "_" ++ choiceLabel d c := by
  have hl : ¬ old.length = 0 := by rwa [List.length_eq_zero_iff]
  unfold nameStep choices
  by_cases hf : d.isFac v = true
  · rw [if_pos hf, if_neg hl, if_pos hf]
    congr 1
    funext o
    rw [List.map_map]
    apply List.map_congr_left
    intro fl _
    simp [choiceLabel, String.append_assoc]
  · rw [if_neg hf, if_neg hl, if_neg hf]
    simp only [List.map_cons, List.map_nil]
    rw [← List.map_eq_flatMap]
    rfl

theorem nameFold (d : Data) (h : Bool) (vs : List String) (hvs : ∀ v ∈ vs, d.isFac v = true → codes d h v ≠ [])
    (old : List String) (ho : old ≠ []) :
    vs.foldl (nameStep d h) old
      = old.flatMap fun a => (allChoices d h vs).map fun cs => (cs.map (choiceLabel d)).foldl (fun acc x => acc ++ "_" ++ x) a := by
  induction vs generalizing old with
  | nil => simp [allChoices]
  | cons v vs ih =>
    rw [List.foldl_cons, ih (fun w hw => hvs w (by simp [hw])) _ (nameStep_ne d h old v (hvs v (by simp))),
      nameStep_cons d h old v ho, List.flatMap_assoc]
    congr 1
    funext a
    rw [allChoices, List.map_flatMap, List.flatMap_map]
    congr 1
    funext c
    rw [List.map_map]
    rfl

/-! ### smooth terms -/

theorem range_blocks (L m : ℕ) :
    (List.range L).flatMap (fun l => (List.range m).map fun k => l * m + k) = List.range (L * m) := by
  induction L with
  | zero => simp
  | succ L ih =>
    rw [List.range_succ, List.flatMap_append, ih, Nat.succ_mul, List.range_add]
    simp

theorem length_filterMap_if {α β : Type} (l : List α) (g : α → ℕ) (q : ℕ → Bool) (f : α → β) :
    (l.filterMap fun a => if q (g a) then some (f a) else none).length = ((l.map g).filter q).length := by
  induction l with
  | nil => rfl
  | cons a l ih =>
    by_cases h : q (g a) = true <;> simp [List.filterMap_cons, h, ih]

theorem termRidx_length (d : Data) (s : Smooth) :
    (termRidx d s).length = ((List.range (byFactor d s * mCols s)).filter (notDropped s)).length := by
  unfold termRidx byFactor
  cases hb : s.by_ with
  | some b =>
    dsimp only
    rw [length_filterMap_if _ (fun p : ℕ × ℕ => p.1 * mCols s + p.2), List.map_flatMap]
    simp only [List.map_map]
    rw [← range_blocks]
    rfl
  | none =>
    cases s.binary with
    | none => simp
    | some v => simp

theorem smoothNames0_length (d : Data) (s : Smooth) : (smoothNames0 d s).length = byFactor d s * termNCoef s := by
  unfold smoothNames0 byFactor
  cases s.by_ with
  | none => simp
  | some b => simp [List.length_flatMap, List.map_const', List.sum_replicate]

theorem mapIdx_fst (l : List String) : (l.mapIdx fun k nm => (k, nm)).map Prod.fst = List.range l.length := by
  apply List.ext_getElem
  · simp
  · intro i h1 h2
    simp

theorem smoothNames_length (d : Data) (s : Smooth) :
    (smoothNames d s).length = ((List.range (byFactor d s * termNCoef s)).filter (notDropped s)).length := by
  unfold smoothNames
  cases hd : s.drop with
  | none =>
    have : (notDropped s) = fun _ => true := by
      funext m; simp [notDropped, hd]
    rw [this, smoothNames0_length]; simp
  | some dr =>
    have h1 : (notDropped s) = fun m => !dr.contains m := by
      funext m; simp [notDropped, hd]
    have h2 : (fun p : ℕ × String => if dr.contains p.1 = true then none else some p.2)
        = fun p => if (!dr.contains p.1) = true then some p.2 else none := by
      funext p
      by_cases h : dr.contains p.1 = true <;> simp [h]
    dsimp only
    rw [h2, length_filterMap_if _ (fun p : ℕ × String => p.1) (fun m => !dr.contains m) (fun p => p.2), h1]
    have h3 := mapIdx_fst (smoothNames0 d s)
    rw [smoothNames0_length] at h3
    rw [h3]

theorem mCols_eq (s : Smooth) (h1 : s.nk.length = s.vars.length) (h2 : s.vars ≠ []) (h3 : s.te = true → 1 < s.vars.length) :
    mCols s = termNCoef s := by
  have hw : s.nk.map (vWidth s) = s.nk := by
    apply List.map_id''
    intro k
    unfold vWidth
    split <;> simp
  unfold mCols termNCoef
  rw [hw]
  by_cases hl : s.vars.length > 1
  · rw [if_pos hl]
    cases s.te <;> cases s.ident <;> simp
  · rw [if_neg hl]
    have ht : s.te = false := by
      by_contra h
      exact hl (h3 (by simpa using h))
    have : s.vars.length = 1 := by
      have := List.length_pos_iff.mpr h2
      omega
    rw [this, List.length_eq_one_iff] at h1
    obtain ⟨a, ha⟩ := h1
    simp [ha, ht]

end Verif.Mmat
