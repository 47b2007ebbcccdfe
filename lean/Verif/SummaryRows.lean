import Verif.SummaryModel
import Mathlib.Data.List.Basic

/-!
# Lines and tests for smooth terms (property C87)
-/

namespace Verif.Summary

/-- A function or random effect of the additive predictor: term, number within the term, number of coefficients, whether it
is penalised, and whether it is a smooth function that gets a test. -/
structure Item where
  idx : ℕ
  part : ℕ
  size : ℕ
  pen : Bool
  tested : Bool

/-- Parts of a term, numbered from `i`. -/
def parts (idx : ℕ) (pen tested : Bool) : ℕ → List ℕ → List Item
  | _, [] => []
  | i, n :: ns => ⟨idx, i, n, pen, tested⟩ :: parts idx pen tested (i + 1) ns

def STerm.items (t : STerm) : List Item := parts t.idx t.penalized (!t.isFs) 0 t.sizes
def RTerm.items (t : RTerm) : List Item := parts t.idx true false 0 t.sizes

/-- Items with first coefficient and position: columns of the model matrix follow each other in the order of the items. -/
def placed : ℕ → ℕ → List Item → List (ℕ × ℕ × Item)
  | _, _, [] => []
  | s, k, x :: xs => (s, k, x) :: placed (s + x.size) (k + 1) xs

def smoothItems (F : Form) : List Item := F.smooth.flatMap STerm.items
def irfItems (F : Form) : List Item := F.irf.flatMap STerm.items
def randItems (F : Form) : List Item := F.rand.flatMap RTerm.items

/-- All items: linear terms come first in the model matrix, then impulse response, smooth and random terms. -/
def items (F : Form) : List Item := irfItems F ++ smoothItems F ++ randItems F

/-- The list of degrees of freedom kept by the model, one entry per penalised item, if item number `k` has `E k`. -/
def edfs (F : Form) (E : ℕ → ℝ) : List ℝ := ((placed F.lin 0 (items F)).filter fun x => x.2.2.pen).map fun x => E x.2.1

/-- The test of an item: its own coefficients, its own degrees of freedom. -/
def wanted (E : ℕ → ℝ) (x : ℕ × ℕ × Item) : Test := ⟨x.2.2.idx, x.2.2.part, x.1, x.1 + x.2.2.size, some (E x.2.1)⟩

/-! ### Helper lemmas -/

theorem placed_append (s k : ℕ) (a b : List Item) :
    placed s k (a ++ b) = placed s k a ++ placed (s + (a.map (·.size)).sum) (k + a.length) b := by
  induction a generalizing s k with
  | nil => simp [placed]
  | cons x xs ih =>
    simp only [List.cons_append, placed, ih, List.map_cons, List.sum_cons, List.length_cons]
    congr 3 <;> omega

theorem parts_size (idx : ℕ) (pen tested : Bool) (i : ℕ) (ns : List ℕ) : (parts idx pen tested i ns).map (·.size) = ns := by
  induction ns generalizing i with
  | nil => rfl
  | cons n ns ih => simp [parts, ih]

theorem parts_length (idx : ℕ) (pen tested : Bool) (i : ℕ) (ns : List ℕ) : (parts idx pen tested i ns).length = ns.length := by
  have := congrArg List.length (parts_size idx pen tested i ns)
  simpa using this

theorem parts_mem {idx : ℕ} {pen tested : Bool} {i : ℕ} {ns : List ℕ} {x : Item} (h : x ∈ parts idx pen tested i ns) :
    x.idx = idx ∧ x.pen = pen ∧ x.tested = tested := by
  induction ns generalizing i with
  | nil => simp [parts] at h
  | cons n ns ih =>
    simp only [parts, List.mem_cons] at h
    rcases h with rfl | h
    · exact ⟨rfl, rfl, rfl⟩
    · exact ih h

theorem placed_mem {s k : ℕ} {l : List Item} {x : ℕ × ℕ × Item} (h : x ∈ placed s k l) : x.2.2 ∈ l := by
  induction l generalizing s k with
  | nil => simp [placed] at h
  | cons y ys ih =>
    simp only [placed, List.mem_cons] at h
    rcases h with rfl | h
    · exact List.mem_cons_self
    · exact List.mem_cons_of_mem _ (ih h)

/-- Loop over the functions of one term with equal numbers of coefficients. -/
theorem fun_fold (edf : List ℝ) (idx c : ℕ) (pen : Bool) (st : TSt) (ns : List ℕ) (hc : ∀ n ∈ ns, n = c) (i : ℕ) :
    (List.range' i ns.length).foldl (testFun edf idx c) st
      = ⟨st.out ++ (placed st.start st.edf (parts idx pen true i ns)).map
          (fun x => ⟨x.2.2.idx, x.2.2.part, x.1, x.1 + x.2.2.size, edf[x.2.1]?⟩), st.start + ns.sum, st.edf + ns.length⟩ := by
  induction ns generalizing i st with
  | nil => simp [parts, placed]
  | cons n ns ih =>
    have hn : n = c := hc n List.mem_cons_self
    rw [List.length_cons, List.range'_succ, List.foldl_cons, ih _ (fun m hm => hc m (List.mem_cons_of_mem _ hm))]
    subst hn
    simp only [testFun, parts, placed, List.map_cons, List.append_assoc, List.singleton_append, List.sum_cons]
    congr 1 <;> omega

theorem const_div {ns : List ℕ} {c : ℕ} (hc : ∀ n ∈ ns, n = c) (h0 : ns ≠ []) : ns.sum / ns.length = c := by
  have : ns = List.replicate ns.length c := List.eq_replicate_iff.2 ⟨rfl, hc⟩
  have hs : ns.sum = ns.length * c := by
    conv_lhs => rw [this]
    simp
  rw [hs]
  exact Nat.mul_div_cancel_left _ (List.length_pos_iff.2 h0)

/-- What the loop makes of one item. -/
def made (edf : List ℝ) (x : ℕ × ℕ × Item) : Test := ⟨x.2.2.idx, x.2.2.part, x.1, x.1 + x.2.2.size, edf[x.2.1]?⟩

theorem filter_parts_true {s k idx : ℕ} {pen : Bool} {i : ℕ} {ns : List ℕ} :
    (placed s k (parts idx pen true i ns)).filter (fun x => x.2.2.tested) = placed s k (parts idx pen true i ns) := by
  rw [List.filter_eq_self]
  intro x hx
  exact (parts_mem (placed_mem hx)).2.2

theorem filter_parts_false {s k idx : ℕ} {pen : Bool} {i : ℕ} {ns : List ℕ} :
    (placed s k (parts idx pen false i ns)).filter (fun x => x.2.2.tested) = [] := by
  rw [List.filter_eq_nil_iff]
  intro x hx
  rw [(parts_mem (placed_mem hx)).2.2]
  simp

/-- Terms as built by the package: each has at least one function, `fs` terms have one, and the functions of one term have
equally many coefficients (no coefficients dropped for some levels only). -/
structure Even (t : STerm) : Prop where
  fs : t.isFs = true → t.sizes.length = 1
  even : ∃ c, ∀ n ∈ t.sizes, n = c
  some_part : t.sizes ≠ []

theorem term_fold (edf : List ℝ) (st : TSt) (t : STerm) (h : Even t) :
    testTerm edf st t = ⟨st.out ++ ((placed st.start st.edf t.items).filter fun x => x.2.2.tested).map (made edf),
      st.start + t.ncoef, st.edf + t.sizes.length⟩ := by
  unfold testTerm STerm.items
  cases hfs : t.isFs
  · rw [if_pos rfl]
    obtain ⟨c, hc⟩ := h.even
    have hd : t.ncoef / t.sizes.length = c := const_div hc h.some_part
    rw [hd, List.range_eq_range', fun_fold edf t.idx c t.penalized st t.sizes hc 0]
    show _ = TSt.mk (st.out ++ ((placed st.start st.edf (parts t.idx t.penalized true 0 t.sizes)).filter _).map _) _ _
    rw [filter_parts_true]
    rfl
  · rw [if_neg (by simp)]
    show _ = TSt.mk (st.out ++ ((placed st.start st.edf (parts t.idx t.penalized false 0 t.sizes)).filter _).map _) _ _
    rw [filter_parts_false, h.fs hfs]
    simp

theorem items_size (t : STerm) : (t.items.map (·.size)).sum = t.ncoef := by unfold STerm.items STerm.ncoef; rw [parts_size]
theorem items_length (t : STerm) : t.items.length = t.sizes.length := by unfold STerm.items; rw [parts_length]

theorem terms_fold (edf : List ℝ) (st : TSt) (ts : List STerm) (h : ∀ t ∈ ts, Even t) :
    (ts.foldl (testTerm edf) st).out
      = st.out ++ ((placed st.start st.edf (ts.flatMap STerm.items)).filter fun x => x.2.2.tested).map (made edf) := by
  induction ts generalizing st with
  | nil => simp [placed]
  | cons t ts ih =>
    rw [List.foldl_cons, ih _ fun u hu => h u (List.mem_cons_of_mem _ hu), term_fold edf st t (h t List.mem_cons_self),
      List.flatMap_cons, placed_append, List.filter_append, List.map_append, items_size, items_length, List.append_assoc]

theorem placed_pos {s k : ℕ} {l : List Item} {x : ℕ × ℕ × Item} (h : x ∈ placed s k l) : k ≤ x.2.1 ∧ x.2.1 < k + l.length := by
  induction l generalizing s k with
  | nil => simp [placed] at h
  | cons y ys ih =>
    simp only [placed, List.mem_cons] at h
    rcases h with rfl | h
    · simp
    · have := ih h
      simp only [List.length_cons]
      omega

theorem placed_range (s k : ℕ) (l : List Item) : (placed s k l).map (fun x => x.2.1) = List.range' k l.length := by
  induction l generalizing s k with
  | nil => rfl
  | cons y ys ih => simp [placed, ih, List.range'_succ]

theorem all_edf {F : Form} {E : ℕ → ℝ} (h : ∀ x ∈ items F, x.pen = true) {k : ℕ} (hk : k < (items F).length) :
    (edfs F E)[k]? = some (E k) := by
  have e : edfs F E = (List.range' 0 (items F).length).map E := by
    unfold edfs
    rw [List.filter_eq_self.2 fun x hx => h _ (placed_mem hx), ← placed_range F.lin 0, List.map_map]
    rfl
  rw [e, List.getElem?_map, List.getElem?_eq_getElem (by simpa using hk)]
  simp

theorem smooth_mem {ts : List STerm} {x : Item} (h : x ∈ ts.flatMap STerm.items) : ∃ t ∈ ts, x.idx = t.idx ∧ x.pen = t.penalized := by
  rw [List.mem_flatMap] at h
  obtain ⟨t, ht, hx⟩ := h
  exact ⟨t, ht, (parts_mem hx).1, (parts_mem hx).2.1⟩

theorem rand_mem {ts : List RTerm} {x : Item} (h : x ∈ ts.flatMap RTerm.items) : x.pen = true ∧ x.tested = false := by
  rw [List.mem_flatMap] at h
  obtain ⟨t, ht, hx⟩ := h
  exact ⟨(parts_mem hx).2.1, (parts_mem hx).2.2⟩

/-! ### Tests of `approx_smooth_p_values` -/

/-- **C87, partial.** If the formula has no impulse response terms, all smooth terms are penalised and the functions of each
term have equally many coefficients, then `approx_smooth_p_values` makes one test for each function of a smooth term, in order,
leaving out random smooths, and each test uses the coefficients and the degrees of freedom of the function it is reported for. -/
theorem tests_rows_partial (F : Form) (E : ℕ → ℝ) (hirf : F.irf = []) (hpen : ∀ t ∈ F.smooth, t.penalized = true)
    (heven : ∀ t ∈ F.smooth, Even t) :
    tests F (edfs F E) = ((placed F.lin 0 (items F)).filter fun x => x.2.2.tested).map (wanted E) := by
  have hu : unpenalized F = F.lin := by
    unfold unpenalized
    rw [hirf, List.nil_append, List.filter_eq_nil_iff.2 fun t ht => by simp [hpen t ht]]
    simp
  have hall : ∀ x ∈ items F, x.pen = true := by
    intro x hx
    unfold items irfItems at hx
    rw [hirf] at hx
    simp only [List.flatMap_nil, List.nil_append, List.mem_append] at hx
    rcases hx with hx | hx
    · obtain ⟨t, ht, _, hp⟩ := smooth_mem hx
      rw [hp, hpen t ht]
    · exact (rand_mem hx).1
  have hsplit : (placed F.lin 0 (items F)).filter (fun x => x.2.2.tested)
      = (placed F.lin 0 (smoothItems F)).filter fun x => x.2.2.tested := by
    unfold items irfItems
    rw [hirf, List.flatMap_nil, List.nil_append, placed_append, List.filter_append,
      List.filter_eq_nil_iff.2 fun x (hx : x ∈ placed _ _ (randItems F)) => by rw [(rand_mem (placed_mem hx)).2]; simp,
      List.append_nil]
  unfold tests
  rw [terms_fold _ _ _ heven, hsplit]
  show [] ++ _ = _
  rw [List.nil_append]
  show ((placed (unpenalized F) 0 (smoothItems F)).filter _).map _ = _
  rw [hu]
  refine List.map_congr_left fun x hx => ?_
  have hx' := (List.mem_filter.1 hx).1
  have hpos := placed_pos hx'
  unfold made wanted
  rw [all_edf hall]
  unfold items
  simp only [List.length_append]
  omega

/-! ### Lines of `print_smooth_terms` -/

/-- What the loop prints for one item; `p` is the position of its p-value. -/
def printed (edf : List ℝ) (p : ℕ) (x : ℕ × ℕ × Item) : Line := ⟨x.2.2.idx, x.2.2.part, edf[x.2.1]?, if x.2.2.tested then some p else none⟩

/-- Lines with p-values numbered from `p`. -/
def numbered (edf : List ℝ) : ℕ → List (ℕ × ℕ × Item) → List Line
  | _, [] => []
  | p, x :: xs => printed edf p x :: numbered edf (if x.2.2.tested then p + 1 else p) xs

theorem numbered_append (edf : List ℝ) (p : ℕ) (a b : List (ℕ × ℕ × Item)) :
    numbered edf p (a ++ b) = numbered edf p a ++ numbered edf (p + (a.filter fun x => x.2.2.tested).length) b := by
  induction a generalizing p with
  | nil => rfl
  | cons x xs ih =>
    rw [List.cons_append]
    show printed edf p x :: numbered edf _ (xs ++ b) = printed edf p x :: (numbered edf _ xs ++ _)
    rw [ih]
    cases hx : x.2.2.tested
    · simp [hx]
    · simp [hx, Nat.add_assoc, Nat.add_comm 1]

theorem printFun_fold (edf : List ℝ) (t : STerm) (s : ℕ) (st : LSt) (ns : List ℕ) (i : ℕ) :
    (List.range' i ns.length).foldl (printFun edf t) st
      = ⟨st.out ++ numbered edf st.p (placed s st.edf (parts t.idx t.penalized (!t.isFs) i ns)), st.edf + ns.length,
        st.p + ((placed s st.edf (parts t.idx t.penalized (!t.isFs) i ns)).filter fun x => x.2.2.tested).length⟩ := by
  induction ns generalizing i st s with
  | nil => simp [parts, placed, numbered]
  | cons n ns ih =>
    rw [List.length_cons, List.range'_succ, List.foldl_cons, ih (s + n)]
    unfold printFun
    cases hfs : t.isFs
    · simp only [if_true, parts, placed, numbered, printed, List.append_assoc, List.singleton_append, Bool.not_false,
        List.filter_cons_of_pos, List.length_cons]
      congr 1 <;> omega
    · simp only [Bool.true_eq_false, if_false, parts, placed, numbered, printed, List.append_assoc, List.singleton_append,
        Bool.not_true, Bool.false_eq_true, not_false_eq_true, List.filter_cons_of_neg]
      congr 1
      omega

theorem printTerm_fold (edf : List ℝ) (s : ℕ) (st : LSt) (t : STerm) :
    printTerm edf st t = ⟨st.out ++ numbered edf st.p (placed s st.edf t.items), st.edf + t.items.length,
      st.p + ((placed s st.edf t.items).filter fun x => x.2.2.tested).length⟩ := by
  unfold printTerm
  rw [List.range_eq_range', printFun_fold edf t s, items_length]
  rfl

theorem printTerms_fold (edf : List ℝ) (s : ℕ) (st : LSt) (ts : List STerm) :
    ts.foldl (printTerm edf) st = ⟨st.out ++ numbered edf st.p (placed s st.edf (ts.flatMap STerm.items)),
      st.edf + (ts.flatMap STerm.items).length,
      st.p + ((placed s st.edf (ts.flatMap STerm.items)).filter fun x => x.2.2.tested).length⟩ := by
  induction ts generalizing st s with
  | nil => simp [placed, numbered]
  | cons t ts ih =>
    rw [List.foldl_cons, ih (s + (t.items.map (·.size)).sum), printTerm_fold edf s, List.flatMap_cons, placed_append, numbered_append,
      List.filter_append, List.length_append, List.length_append]
    simp only [List.append_assoc, Nat.add_assoc]

theorem printRand_fold (edf : List ℝ) (idx : ℕ) (s : ℕ) (st : LSt) (ns : List ℕ) (i : ℕ) :
    (List.range' i ns.length).foldl (fun st part => LSt.mk (st.out ++ [⟨idx, part, edf[st.edf]?, none⟩]) (st.edf + 1) st.p) st
      = ⟨st.out ++ numbered edf st.p (placed s st.edf (parts idx true false i ns)), st.edf + ns.length, st.p⟩ := by
  induction ns generalizing i st s with
  | nil => simp [parts, placed, numbered]
  | cons n ns ih =>
    rw [List.length_cons, List.range'_succ, List.foldl_cons, ih (s + n)]
    simp only [parts, placed, numbered, printed, List.append_assoc, List.singleton_append, Bool.false_eq_true, if_false]
    congr 1
    omega

theorem printRands_fold (edf : List ℝ) (s : ℕ) (st : LSt) (ts : List RTerm) :
    (ts.foldl (printRand edf) st).out = st.out ++ numbered edf st.p (placed s st.edf (ts.flatMap RTerm.items)) := by
  induction ts generalizing st s with
  | nil => simp [placed, numbered]
  | cons t ts ih =>
    have h1 : printRand edf st t = ⟨st.out ++ numbered edf st.p (placed s st.edf t.items), st.edf + t.items.length, st.p⟩ := by
      unfold printRand RTerm.items
      rw [List.range_eq_range', printRand_fold edf t.idx s, parts_length]
    rw [List.foldl_cons, ih (s + (t.items.map (·.size)).sum), h1, List.flatMap_cons, placed_append, numbered_append,
      List.append_assoc]
    congr 3
    unfold RTerm.items
    rw [filter_parts_false]
    rfl

theorem lines_eq (F : Form) (edf : List ℝ) (s : ℕ) : lines F edf = numbered edf 0 (placed s 0 (smoothItems F ++ randItems F)) := by
  unfold lines
  rw [printTerms_fold edf s, printRands_fold edf (s + ((smoothItems F).map (·.size)).sum), placed_append, numbered_append]
  rfl

/-- The line wanted for an item. -/
def wantedLine (E : ℕ → ℝ) (x : ℕ × ℕ × Item) : ℕ × ℕ × Option ℝ := (x.2.2.idx, x.2.2.part, some (E x.2.1))

theorem numbered_map (edf : List ℝ) (p : ℕ) (xs : List (ℕ × ℕ × Item)) :
    (numbered edf p xs).map (fun l => (l.idx, l.part, l.edf)) = xs.map fun x => (x.2.2.idx, x.2.2.part, edf[x.2.1]?) := by
  induction xs generalizing p with
  | nil => rfl
  | cons x xs ih => simp [numbered, printed, ih]

/-- **C87, partial.** If the formula has no impulse response terms and all smooth terms are penalised, then
`print_smooth_terms` prints one line for each function and random effect, in order, with its own degrees of freedom. -/
theorem lines_rows_partial (F : Form) (E : ℕ → ℝ) (hirf : F.irf = []) (hpen : ∀ t ∈ F.smooth, t.penalized = true) :
    (lines F (edfs F E)).map (fun l => (l.idx, l.part, l.edf)) = (placed F.lin 0 (items F)).map (wantedLine E) := by
  have hall : ∀ x ∈ items F, x.pen = true := by
    intro x hx
    unfold items irfItems at hx
    rw [hirf] at hx
    simp only [List.flatMap_nil, List.nil_append, List.mem_append] at hx
    rcases hx with hx | hx
    · obtain ⟨t, ht, _, hp⟩ := smooth_mem hx
      rw [hp, hpen t ht]
    · exact (rand_mem hx).1
  have hi : items F = smoothItems F ++ randItems F := by
    unfold items irfItems
    rw [hirf, List.flatMap_nil, List.nil_append]
  rw [lines_eq F _ F.lin, numbered_map, ← hi]
  refine List.map_congr_left fun x hx => ?_
  have hpos := placed_pos hx
  unfold wantedLine
  rw [all_edf hall (by omega)]

theorem placed_idx (s k s' k' : ℕ) (l : List Item) :
    ((placed s k l).filter fun x => x.2.2.tested).map (fun x => (x.2.2.idx, x.2.2.part))
      = ((placed s' k' l).filter fun x => x.2.2.tested).map fun x => (x.2.2.idx, x.2.2.part) := by
  induction l generalizing s k s' k' with
  | nil => rfl
  | cons x xs ih =>
    cases hx : x.tested
    · simp only [placed, List.filter_cons, hx, Bool.false_eq_true, if_false]
      exact ih _ _ _ _
    · simp only [placed, List.filter_cons, hx, if_true, List.map_cons]
      rw [ih _ _ (s' + x.size) (k' + 1)]

theorem numbered_p {edf : List ℝ} {xs : List (ℕ × ℕ × Item)} {p : ℕ} {l : Line} (h : l ∈ numbered edf p xs) :
    (∀ k, l.p = some k → p ≤ k ∧ ((xs.filter fun x => x.2.2.tested).map fun x => (x.2.2.idx, x.2.2.part))[k - p]? = some (l.idx, l.part)) ∧
    (l.p = none → ∃ x ∈ xs, x.2.2.tested = false ∧ x.2.2.idx = l.idx ∧ x.2.2.part = l.part) := by
  induction xs generalizing p with
  | nil => simp [numbered] at h
  | cons x xs ih =>
    simp only [numbered, List.mem_cons] at h
    rcases h with rfl | h
    · constructor
      · intro k hk
        cases hx : x.2.2.tested
        · simp [printed, hx] at hk
        · simp only [printed, hx, if_true, Option.some.injEq] at hk
          subst hk
          refine ⟨le_rfl, ?_⟩
          simp [printed, hx]
      · intro hn
        cases hx : x.2.2.tested
        · exact ⟨x, List.mem_cons_self, hx, rfl, rfl⟩
        · simp [printed, hx] at hn
    · obtain ⟨h1, h2⟩ := ih h
      constructor
      · intro k hk
        obtain ⟨h3, h4⟩ := h1 k hk
        cases hx : x.2.2.tested
        · rw [hx] at h3 h4
          simp only [Bool.false_eq_true, if_false] at h3 h4
          refine ⟨h3, ?_⟩
          rw [List.filter_cons_of_neg (by simp [hx])]
          exact h4
        · rw [hx] at h3 h4
          simp only [if_true] at h3 h4
          refine ⟨by omega, ?_⟩
          rw [List.filter_cons_of_pos (by simp [hx]), List.map_cons, show k - p = (k - (p + 1)) + 1 by omega, List.getElem?_cons_succ]
          exact h4
      · intro hn
        obtain ⟨y, hy, h5⟩ := h2 hn
        exact ⟨y, List.mem_cons_of_mem _ hy, h5⟩

/-- **C87.** For all formulas, the p-value printed on a line is the one `approx_smooth_p_values` returned for the same
function, and lines without p-value are those of random smooths and random terms. -/
theorem lines_p (F : Form) (edf edf' : List ℝ) (heven : ∀ t ∈ F.smooth, Even t) {l : Line} (h : l ∈ lines F edf) :
    (∀ k, l.p = some k → ∃ t, (tests F edf')[k]? = some t ∧ t.idx = l.idx ∧ t.part = l.part) ∧
    (l.p = none → (∃ t ∈ F.smooth, t.isFs = true ∧ t.idx = l.idx) ∨ ∃ t ∈ F.rand, t.idx = l.idx) := by
  rw [lines_eq F _ (unpenalized F)] at h
  obtain ⟨h1, h2⟩ := numbered_p h
  constructor
  · intro k hk
    obtain ⟨_, h4⟩ := h1 k hk
    have ht : (tests F edf').map (fun t => (t.idx, t.part))
        = ((placed (unpenalized F) 0 (smoothItems F ++ randItems F)).filter fun x => x.2.2.tested).map
            fun x => (x.2.2.idx, x.2.2.part) := by
      unfold tests
      rw [terms_fold _ _ _ heven]
      show ([] ++ _).map _ = _
      rw [List.nil_append, placed_append, List.filter_append,
        List.filter_eq_nil_iff.2 fun x (hx : x ∈ placed _ _ (randItems F)) => by rw [(rand_mem (placed_mem hx)).2]; simp,
        List.append_nil, List.map_map]
      rfl
    rw [← ht, Nat.sub_zero, List.getElem?_map, Option.map_eq_some_iff] at h4
    obtain ⟨t, h5, h6⟩ := h4
    exact ⟨t, h5, (Prod.mk.inj h6).1, (Prod.mk.inj h6).2⟩
  · intro hn
    obtain ⟨x, hx, hf, hi, _⟩ := h2 hn
    have hm := placed_mem hx
    rw [List.mem_append] at hm
    rcases hm with hm | hm
    · unfold smoothItems at hm
      rw [List.mem_flatMap] at hm
      obtain ⟨t, ht, hxt⟩ := hm
      refine Or.inl ⟨t, ht, ?_, (parts_mem hxt).1.symm.trans hi⟩
      have := (parts_mem hxt).2.2
      rw [hf] at this
      cases hfs : t.isFs
      · rw [hfs] at this; simp at this
      · rfl
    · unfold randItems at hm
      rw [List.mem_flatMap] at hm
      obtain ⟨t, ht, hxt⟩ := hm
      exact Or.inr ⟨t, ht, (parts_mem hxt).1.symm.trans hi⟩

/-! ### Where the claim fails -/

/-- First test: coefficients from `unpenalized` on, first entry of the list of degrees of freedom. -/
theorem tests_head (F : Form) (edf : List ℝ) {t : STerm} {rest : List STerm} (hs : F.smooth = t :: rest)
    (heven : ∀ u ∈ F.smooth, Even u) (hfs : t.isFs = false) :
    ∃ c, (tests F edf)[0]? = some ⟨t.idx, 0, unpenalized F, unpenalized F + c, edf[0]?⟩ := by
  have he := heven t (by rw [hs]; exact List.mem_cons_self)
  obtain ⟨c, ns, hns⟩ := List.exists_cons_of_ne_nil he.some_part
  refine ⟨c, ?_⟩
  unfold tests
  rw [terms_fold _ _ _ heven, hs, List.flatMap_cons]
  unfold STerm.items
  rw [hns, hfs]
  simp [parts, placed, made]

theorem placed_get (s k : ℕ) (a : List Item) (x : Item) (b : List Item) :
    (placed s k (a ++ x :: b))[a.length]? = some (s + (a.map (·.size)).sum, k + a.length, x) := by
  have hl : (placed s k a).length = a.length := by
    have := congrArg List.length (placed_range s k a)
    simpa using this
  rw [placed_append, List.getElem?_append_right (by rw [hl]), hl]
  simp [placed]

theorem items_cons {t : STerm} (h : Even t) : ∃ x xs, t.items = x :: xs ∧ x.idx = t.idx := by
  obtain ⟨n, ns, hns⟩ := List.exists_cons_of_ne_nil h.some_part
  refine ⟨⟨t.idx, 0, n, t.penalized, !t.isFs⟩, parts t.idx t.penalized (!t.isFs) 1 ns, ?_, rfl⟩
  unfold STerm.items
  rw [hns]
  rfl

/-- **C87, what fails (1).** If the formula has penalised impulse response terms, the first test, reported for the first
smooth term `t`, uses the coefficients and the degrees of freedom of the first impulse response term `u`. -/
theorem tests_irf_wrong (F : Form) (E : ℕ → ℝ) {t u : STerm} {rest irfs : List STerm} (hs : F.smooth = t :: rest)
    (hi : F.irf = u :: irfs) (hpi : ∀ v ∈ F.irf, v.penalized = true) (hps : ∀ v ∈ F.smooth, v.penalized = true)
    (heven : ∀ v ∈ F.smooth, Even v) (hu : Even u) (hfs : t.isFs = false) :
    ∃ stop x, (tests F (edfs F E))[0]? = some ⟨t.idx, 0, F.lin, stop, some (E 0)⟩ ∧
      (placed F.lin 0 (items F))[0]? = some (F.lin, 0, x) ∧ x.idx = u.idx := by
  obtain ⟨c, hc⟩ := tests_head F (edfs F E) hs heven hfs
  have hun : unpenalized F = F.lin := by
    unfold unpenalized
    rw [List.filter_eq_nil_iff.2 fun v hv => by
      rcases List.mem_append.1 hv with h | h
      · simp [hpi v h]
      · simp [hps v h]]
    simp
  have hall : ∀ x ∈ items F, x.pen = true := by
    intro x hx
    unfold items at hx
    simp only [List.mem_append] at hx
    rcases hx with (hx | hx) | hx
    · obtain ⟨v, hv, _, hp⟩ := smooth_mem hx
      rw [hp, hpi v hv]
    · obtain ⟨v, hv, _, hp⟩ := smooth_mem hx
      rw [hp, hps v hv]
    · exact (rand_mem hx).1
  obtain ⟨x, xs, hx, hxi⟩ := items_cons hu
  have hitems : ∃ ys, items F = x :: ys := by
    unfold items irfItems
    rw [hi, List.flatMap_cons, hx]
    exact ⟨_, rfl⟩
  obtain ⟨ys, hys⟩ := hitems
  refine ⟨F.lin + c, x, ?_, ?_, hxi⟩
  · rw [hc, hun, all_edf hall (by rw [hys]; simp)]
  · rw [hys]
    rfl

/-- **C87, what fails (2).** If the first smooth term `u` is not penalised, the first test, reported for `u`, uses the
coefficients and the degrees of freedom of the next term `t`. -/
theorem tests_unpenalized_wrong (F : Form) (E : ℕ → ℝ) {t u : STerm} {rest : List STerm} (hs : F.smooth = u :: t :: rest)
    (hi : F.irf = []) (hpu : u.penalized = false) (hpt : t.penalized = true) (hps : ∀ v ∈ rest, v.penalized = true)
    (heven : ∀ v ∈ F.smooth, Even v) (hfs : u.isFs = false) :
    ∃ start stop k x, (tests F (edfs F E))[0]? = some ⟨u.idx, 0, start, stop, some (E k)⟩ ∧
      (placed F.lin 0 (items F))[k]? = some (start, k, x) ∧ x.idx = t.idx := by
  obtain ⟨c, hc⟩ := tests_head F (edfs F E) hs heven hfs
  have hun : unpenalized F = F.lin + u.ncoef := by
    unfold unpenalized
    rw [hi, hs, List.nil_append, List.filter_cons_of_pos (by simp [hpu]), List.filter_cons_of_neg (by simp [hpt]),
      List.filter_eq_nil_iff.2 fun v hv => by simp [hps v hv]]
    simp
  obtain ⟨x, xs, hx, hxi⟩ := items_cons (heven t (by rw [hs]; simp))
  have hitems : ∃ ys, items F = u.items ++ x :: ys := by
    unfold items irfItems smoothItems
    rw [hi, hs, List.flatMap_cons, List.flatMap_cons, hx]
    exact ⟨xs ++ (rest.flatMap STerm.items) ++ randItems F, by simp⟩
  obtain ⟨ys, hys⟩ := hitems
  have hxp : x.pen = true := by
    rw [← hpt]
    exact (parts_mem (show x ∈ parts t.idx t.penalized (!t.isFs) 0 t.sizes by
      show x ∈ t.items
      rw [hx]
      exact List.mem_cons_self)).2.1
  have hedf : (edfs F E)[0]? = some (E u.items.length) := by
    unfold edfs
    rw [hys, placed_append, List.filter_append, List.filter_eq_nil_iff.2 fun y (hy : y ∈ placed _ _ u.items) => by
      rw [(parts_mem (placed_mem hy)).2.1, hpu]; simp]
    simp [placed, hxp]
  refine ⟨unpenalized F, unpenalized F + c, u.items.length, x, ?_, ?_, hxi⟩
  · rw [hc, hedf]
  · rw [hys, placed_get, hun, items_size, Nat.zero_add]

/-- A smooth of two levels of which the second has lost a coefficient. -/
def dropForm : Form := ⟨1, [], [⟨1, [3, 2], false, true⟩], []⟩

/-- **C87, what fails (3).** If coefficients were dropped for one level only, coefficients are divided up evenly: here the
first function has coefficients 1, 2, 3, but its test uses 1, 2 only and that of the second function 3, 4. -/
theorem tests_drop_wrong (E : ℕ → ℝ) :
    tests dropForm (edfs dropForm E) = [⟨1, 0, 1, 3, some (E 0)⟩, ⟨1, 1, 3, 5, some (E 1)⟩] ∧
    (placed dropForm.lin 0 (items dropForm)).map (fun x => (x.1, x.1 + x.2.2.size)) = [(1, 4), (4, 6)] := by
  constructor
  · simp [tests, dropForm, edfs, items, irfItems, smoothItems, randItems, STerm.items, parts, placed, testTerm, unpenalized,
      STerm.ncoef, testFun, List.range_succ]
  · simp [dropForm, items, irfItems, smoothItems, randItems, STerm.items, parts, placed]

/-! ### Degrees of freedom of one formula -/

/-- Penalties that start a new block: the start index is above all earlier ones. `term_edf` has one entry for each. -/
def heads : ℤ → List Pn → List Pn
  | _, [] => []
  | prev, q :: qs => if (q.start : ℤ) > prev then q :: heads q.start qs else heads prev qs

/-- Entries for the blocks of parameter `par`. -/
def pick (f : Pn → ℝ → ℝ) (all : List ℝ) (par : ℕ) : ℕ → List Pn → List (Option ℝ)
  | _, [] => []
  | i, q :: qs => if q.par = par then (all[i]?).map (f q) :: pick f all par (i + 1) qs else pick f all par (i + 1) qs

theorem pick_nil {f : Pn → ℝ → ℝ} {all : List ℝ} {par i : ℕ} {qs : List Pn} (h : ∀ q ∈ qs, par < q.par) : pick f all par i qs = [] := by
  induction qs generalizing i with
  | nil => rfl
  | cons q qs ih =>
    show (if q.par = par then _ else _) = _
    rw [if_neg (by have := h q List.mem_cons_self; omega)]
    exact ih fun r hr => h r (List.mem_cons_of_mem _ hr)

theorem heads_mem {prev : ℤ} {qs : List Pn} {q : Pn} (h : q ∈ heads prev qs) : q ∈ qs := by
  induction qs generalizing prev with
  | nil => simp [heads] at h
  | cons r rs ih =>
    unfold heads at h
    split at h
    · rcases List.mem_cons.1 h with rfl | h
      · exact List.mem_cons_self
      · exact List.mem_cons_of_mem _ (ih h)
    · exact List.mem_cons_of_mem _ (ih h)

theorem stop_print (all : List ℝ) (par : ℕ) (st : ESt) (qs : List Pn) (h : st.stop = true) :
    qs.foldl (edfStepPrint all par) st = st := by
  induction qs with
  | nil => rfl
  | cons q qs ih =>
    rw [List.foldl_cons]
    have : edfStepPrint all par st q = st := by unfold edfStepPrint; rw [if_pos h]
    rw [this, ih]

theorem stop_test (all : List ℝ) (par : ℕ) (st : ESt) (qs : List Pn) (h : st.stop = true) :
    qs.foldl (edfStepTest all par) st = st := by
  induction qs with
  | nil => rfl
  | cons q qs ih =>
    rw [List.foldl_cons]
    have : edfStepTest all par st q = st := by unfold edfStepTest; rw [if_pos h]
    rw [this, ih]

theorem print_fold (all : List ℝ) (par : ℕ) (st : ESt) (qs : List Pn) (hst : st.stop = false)
    (hs : qs.Pairwise fun a b => a.par ≤ b.par) :
    (qs.foldl (edfStepPrint all par) st).out = st.out ++ pick (fun _ e => e) all par st.idx (heads st.prev qs) := by
  induction qs generalizing st with
  | nil => simp [heads, pick]
  | cons q qs ih =>
    rw [List.pairwise_cons] at hs
    rw [List.foldl_cons]
    by_cases hp : q.par > par
    · have hstep : edfStepPrint all par st q = { st with stop := true } := by
        unfold edfStepPrint
        rw [if_neg (by rw [hst]; simp), if_pos hp]
      rw [hstep, stop_print _ _ _ _ rfl, pick_nil, List.append_nil]
      intro r hr
      rcases List.mem_cons.1 (heads_mem hr) with rfl | hr
      · exact hp
      · exact lt_of_lt_of_le hp (hs.1 r hr)
    · by_cases hq : (q.start : ℤ) > st.prev
      · have hstep : edfStepPrint all par st q
            = ⟨if q.par = par then st.out ++ [all[st.idx]?] else st.out, q.start, st.idx + 1, false⟩ := by
          unfold edfStepPrint
          rw [if_neg (by rw [hst]; simp), if_neg hp, if_pos hq]
        have hh : heads st.prev (q :: qs) = q :: heads q.start qs := by
          show (if _ then _ else _) = _
          rw [if_pos hq]
        rw [hstep, ih _ rfl hs.2, hh]
        show (if q.par = par then _ else _) ++ _ = st.out ++ if q.par = par then _ else _
        by_cases he : q.par = par
        · simp [he]
        · simp [he]
      · have hstep : edfStepPrint all par st q = st := by
          unfold edfStepPrint
          rw [if_neg (by rw [hst]; simp), if_neg hp, if_neg hq]
        have hh : heads st.prev (q :: qs) = heads st.prev qs := by
          show (if _ then _ else _) = _
          rw [if_neg hq]
        rw [hstep, ih _ hst hs.2, hh]

theorem test_fold (all : List ℝ) (par : ℕ) (st : ESt) (qs : List Pn) (hst : st.stop = false)
    (hs : qs.Pairwise fun a b => a.par ≤ b.par) :
    (qs.foldl (edfStepTest all par) st).out
      = st.out ++ pick (fun q e => min e (q.dim : ℝ)) all par st.idx (heads st.prev qs) := by
  induction qs generalizing st with
  | nil => simp [heads, pick]
  | cons q qs ih =>
    rw [List.pairwise_cons] at hs
    rw [List.foldl_cons]
    by_cases hq : (q.start : ℤ) > st.prev
    · have hh : heads st.prev (q :: qs) = q :: heads q.start qs := by
        show (if _ then _ else _) = _
        rw [if_pos hq]
      by_cases hp : q.par > par
      · have hstep : edfStepTest all par st q = { st with stop := true } := by
          unfold edfStepTest
          rw [if_neg (by rw [hst]; simp), if_pos hq, if_pos hp]
        rw [hstep, stop_test _ _ _ _ rfl, pick_nil, List.append_nil]
        intro r hr
        rcases List.mem_cons.1 (heads_mem hr) with rfl | hr
        · exact hp
        · exact lt_of_lt_of_le hp (hs.1 r hr)
      · have hstep : edfStepTest all par st q
            = ⟨if q.par = par then st.out ++ [(all[st.idx]?).map fun e => min e (q.dim : ℝ)] else st.out, q.start, st.idx + 1,
                false⟩ := by
          unfold edfStepTest
          rw [if_neg (by rw [hst]; simp), if_pos hq, if_neg hp]
        rw [hstep, ih _ rfl hs.2, hh]
        show (if q.par = par then _ else _) ++ _ = st.out ++ if q.par = par then _ else _
        by_cases he : q.par = par
        · simp [he]
        · simp [he]
    · have hstep : edfStepTest all par st q = st := by
        unfold edfStepTest
        rw [if_neg (by rw [hst]; simp), if_neg hq]
      have hh : heads st.prev (q :: qs) = heads st.prev qs := by
        show (if _ then _ else _) = _
        rw [if_neg hq]
      rw [hstep, ih _ hst hs.2, hh]

/-- **C87.** In models of several parameters, the degrees of freedom used for parameter `par` are the entries of the model's
list that belong to blocks of penalties of that parameter, in order, if penalties are ordered by parameter. For the tests they
are bounded by the number of coefficients. -/
theorem parEdf_eq (all : List ℝ) (par : ℕ) (pens : List Pn) (hs : pens.Pairwise fun a b => a.par ≤ b.par) :
    parEdfPrint all par pens = pick (fun _ e => e) all par 0 (heads (-1) pens) ∧
    parEdfTest all par pens = pick (fun q e => min e (q.dim : ℝ)) all par 0 (heads (-1) pens) :=
  ⟨by unfold parEdfPrint; rw [print_fold _ _ _ _ rfl hs]; rfl, by unfold parEdfTest; rw [test_fold _ _ _ _ rfl hs]; rfl⟩

/-! ### Cases meeting the hypotheses -/

/-- One linear term with 2 coefficients, a smooth with two levels, a random smooth, a smooth, a random term. -/
def demoForm : Form := ⟨2, [], [⟨1, [4, 4], false, true⟩, ⟨2, [30], true, true⟩, ⟨3, [9], false, true⟩], [⟨4, [5]⟩]⟩

theorem demo_even : ∀ t ∈ demoForm.smooth, Even t := by
  intro t ht
  simp only [demoForm, List.mem_cons, List.not_mem_nil, or_false] at ht
  rcases ht with rfl | rfl | rfl
  · exact ⟨by simp, ⟨4, by simp⟩, by simp⟩
  · exact ⟨by simp, ⟨30, by simp⟩, by simp⟩
  · exact ⟨by simp, ⟨9, by simp⟩, by simp⟩

example (E : ℕ → ℝ) : tests demoForm (edfs demoForm E)
    = [⟨1, 0, 2, 6, some (E 0)⟩, ⟨1, 1, 6, 10, some (E 1)⟩, ⟨3, 0, 40, 49, some (E 3)⟩] := by
  rw [tests_rows_partial demoForm E rfl (by simp [demoForm]) demo_even]
  rfl

example (E : ℕ → ℝ) : (lines demoForm (edfs demoForm E)).map (fun l => (l.idx, l.part, l.edf))
    = [(1, 0, some (E 0)), (1, 1, some (E 1)), (2, 0, some (E 2)), (3, 0, some (E 3)), (4, 0, some (E 4))] := by
  rw [lines_rows_partial demoForm E rfl (by simp [demoForm])]
  rfl

/-- A smooth behind an impulse response term. -/
example (E : ℕ → ℝ) : ∃ stop x, (tests ⟨1, [⟨1, [6], false, true⟩], [⟨2, [4], false, true⟩], []⟩
      (edfs ⟨1, [⟨1, [6], false, true⟩], [⟨2, [4], false, true⟩], []⟩ E))[0]? = some ⟨2, 0, 1, stop, some (E 0)⟩ ∧
    (placed 1 0 (items ⟨1, [⟨1, [6], false, true⟩], [⟨2, [4], false, true⟩], []⟩))[0]? = some (1, 0, x) ∧ x.idx = 1 :=
  tests_irf_wrong ⟨1, [⟨1, [6], false, true⟩], [⟨2, [4], false, true⟩], []⟩ E rfl rfl (by simp) (by simp)
    (by intro v hv; simp only [List.mem_cons, List.not_mem_nil, or_false] at hv; subst hv; exact ⟨by simp, ⟨4, by simp⟩, by simp⟩)
    ⟨by simp, ⟨6, by simp⟩, by simp⟩ rfl

/-- Two penalties on one block of parameter 0, one on a block of parameter 1. -/
example : parEdfPrint [3, 5] 1 [⟨1, 0, 4⟩, ⟨1, 0, 4⟩, ⟨6, 1, 8⟩] = [some 5] := by
  rw [(parEdf_eq [3, 5] 1 [⟨1, 0, 4⟩, ⟨1, 0, 4⟩, ⟨6, 1, 8⟩] (by simp)).1]
  simp [heads, pick]

end Verif.Summary
