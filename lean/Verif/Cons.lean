import Verif.ConsLemmas
import Mathlib.Analysis.Real.Sqrt

/-!
# Identifiability constraints (property C102)

A term is followed from the computation of its constraints (`absorbMem` for a data-frame, `absorbFiles` for files) to the columns it
contributes (`termMat`). `Unity` is what B-splines satisfy between the smallest and largest value of the covariate (C42).
-/

namespace Verif.Cons

open Verif.Pen Finset

/-! ### Files and data-frames -/

/-- C102: with QR constraints and without re-parameterisation the constraints computed file by file are those of the concatenated data, also the
failures of terms that need no constraint. -/
theorem files_same (qrQ : (ℕ → ℝ) → Arr) (basis : Basis) (t : Term) (files : List (List Row))
    (h : t.ident = true → t.rp = 0 ∧ isQr t.kind = true) : absorbFiles qrQ basis t files = absorbMem qrQ basis t files.flatten := by
  by_cases hi : t.ident = true
  · obtain ⟨h0, hk⟩ := h hi
    rw [absorbMem_ok qrQ basis t _ hi (Or.inl h0)]
    unfold absorbFiles
    rw [if_neg (by simp [hi]), if_neg (by omega), if_pos hk]
    have hkind : t.kind = .qr := by
      cases hk' : t.kind <;> simp_all [isQr]
    by_cases hte : t.te = true
    · simp only [hte, true_or, if_true]
      rw [total_te basis t files hte, hkind]
      rfl
    · have hte : t.te = false := by simpa using hte
      simp only [hte, Bool.false_eq_true, false_or, if_false]
      have e : ((List.range t.nv).map fun v => qrCon qrQ (total (files.map (fileC basis t)) v)) =
          (List.range t.nv).map fun v => makeCon qrQ (idNk t v) files.flatten.length t.kind (matV basis (idNk t v) files.flatten v) := by
        refine List.map_congr_left fun v hv => ?_
        rw [total_var basis t files hte v (List.mem_range.1 hv), hkind]
        rfl
      rw [← e]
      by_cases h1 : t.nv = 1
      · rw [if_pos h1, h1]; rfl
      · rw [if_neg h1]
  · unfold absorbFiles absorbMem
    rw [if_pos hi, if_pos hi]

/-- C102: all other constrained terms are refused when they are built from files. -/
theorem files_refused (qrQ : (ℕ → ℝ) → Arr) (basis : Basis) (t : Term) (files : List (List Row)) (hi : t.ident = true)
    (h : 0 < t.rp ∨ isQr t.kind = false) : ∃ e, absorbFiles qrQ basis t files = .error e := by
  unfold absorbFiles
  rw [if_neg (by simp [hi])]
  by_cases hr : t.rp > 0
  · exact ⟨_, by rw [if_pos hr]⟩
  · refine ⟨.notImpl, ?_⟩
    rw [if_neg hr, if_neg (by rcases h with h | h; · omega
                              · simp [h])]

/-- C102 fails for tensor smooths with default arguments: they are accepted for a data-frame and raise for files. -/
theorem files_default_wrong (qrQ : (ℕ → ℝ) → Arr) (basis : Basis) (nv : ℕ) (h : 2 ≤ nv) (te : Bool) (nk : ℕ → ℕ) (files : List (List Row)) :
    (∃ Z, absorbMem qrQ basis (default nv te nk) files.flatten = .ok Z) ∧
      absorbFiles qrQ basis (default nv te nk) files = .error .value := by
  have hn : nv ≠ 1 := by omega
  constructor
  · refine ⟨_, absorbMem_ok qrQ basis _ _ rfl (Or.inr ?_)⟩
    unfold repara default
    simp [hn, isQr]
    omega
  · unfold absorbFiles default
    simp [hn]

/-- C102: a term that is not identifiable gets no constraints, from a data-frame and from files; it is refused unless its re-parameterisation suits its number of variables. -/
theorem not_identifiable (qrQ : (ℕ → ℝ) → Arr) (basis : Basis) (t : Term) (rows : List Row) (files : List (List Row)) (hi : t.ident = false) (hnv : 1 ≤ t.nv) :
    absorbMem qrQ basis t rows = (if t.rp = 0 ∨ t.rp = 1 ∧ t.nv = 1 ∨ t.rp = 2 ∧ 2 ≤ t.nv then .ok [] else .error .value) ∧
    absorbFiles qrQ basis t files = absorbMem qrQ basis t rows := by
  have hok : ∀ (l : List ℕ), repara t = .ok () → l.foldlM (fun z _ => do repara t; pure z) ([] : List Con) = (.ok [] : Except Err (List Con)) := by
    intro l h
    induction l with
    | nil => rfl
    | cons a l ih => rw [h] at ih; rw [List.foldlM_cons, h]; exact ih
  have herr : ∀ (l : List ℕ), l ≠ [] → repara t = .error .value → l.foldlM (fun z _ => do repara t; pure z) ([] : List Con) = (.error .value : Except Err (List Con)) := by
    intro l hl h
    cases l with
    | nil => exact absurd rfl hl
    | cons a l => rw [List.foldlM_cons, h]; rfl
  have hne : List.range t.nv ≠ [] := by
    intro h
    have := congrArg List.length h
    simp at this
    omega
  have hp : plain t = (if t.rp = 0 ∨ t.rp = 1 ∧ t.nv = 1 ∨ t.rp = 2 ∧ 2 ≤ t.nv then .ok [] else .error .value) := by
    unfold plain
    by_cases h0 : t.rp = 0
    · rw [if_neg (by omega), if_pos (Or.inl h0)]
    · rw [if_pos (by omega)]
      by_cases hc : t.rp = 0 ∨ t.rp = 1 ∧ t.nv = 1 ∨ t.rp = 2 ∧ 2 ≤ t.nv
      · rw [if_pos hc]
        refine hok _ ?_
        unfold repara
        rcases hc with h | ⟨h, h'⟩ | ⟨h, h'⟩
        · exact absurd h h0
        · rw [if_pos h, if_neg (by omega)]
        · rw [if_neg (by omega), if_pos h, if_neg (by omega), if_neg (by simp [hi])]
      · rw [if_neg hc]
        refine herr _ hne ?_
        unfold repara
        by_cases h1 : t.rp = 1
        · rw [if_pos h1, if_pos (by omega)]
        · rw [if_neg h1]
          by_cases h2 : t.rp = 2
          · rw [if_pos h2, if_pos (by omega)]
          · rw [if_neg h2]
  unfold absorbMem absorbFiles
  have hn : ¬ t.ident = true := by simp [hi]
  rw [if_pos hn, if_pos hn]
  exact ⟨hp, rfl⟩

example (qrQ : (ℕ → ℝ) → Arr) (basis : Basis) (rows : List Row) : absorbMem qrQ basis ⟨2, false, 1, false, .qr, fun _ => 4⟩ rows = .error .value := by
  rw [(not_identifiable qrQ basis ⟨2, false, 1, false, .qr, fun _ => 4⟩ rows [] rfl (by norm_num)).1, if_neg (by norm_num)]

/-- C102 fails for interactions (several variables, not `te`) with default re-parameterisation and another than the QR constraint: `ValueError`. -/
theorem interaction_kind_wrong (qrQ : (ℕ → ℝ) → Arr) (basis : Basis) (t : Term) (rows : List Row) (hi : t.ident = true) (hte : t.te = false)
    (hnv : 2 ≤ t.nv) (hrp : t.rp = 2) (hk : isQr t.kind = false) : absorbMem qrQ basis t rows = .error .value := by
  have hr : repara t = .error .value := by
    unfold repara
    rw [if_neg (by omega), if_pos hrp, if_neg (by omega), if_pos ⟨hi, by simp [hte], by simp [hk]⟩]
  obtain ⟨n, hn⟩ : ∃ n, t.nv = n + 1 := ⟨t.nv - 1, by omega⟩
  unfold absorbMem
  rw [if_neg (by simp [hi]), hn, List.range_succ_eq_map, List.foldlM_cons]
  have : step qrQ basis t rows [] 0 = .error .value := by
    unfold step
    simp only [hrp, hr]
    rfl
  rw [this]
  rfl

/-! ### Column sums -/

/-- Basis without constraints: products of the functions of all variables. -/
def fullMat (basis : Basis) (t : Term) (rows : List Row) : Arr :=
  tpBasis (idNk t) (fun v => matV basis (idNk t v) rows v) (t.nv - 1)
def fullCols (t : Term) : ℕ := ∏ v ∈ range (t.nv - 1 + 1), idNk t v

/-- The constraint and the columns of a univariate or `te` term. -/
theorem single (qrQ : (ℕ → ℝ) → Arr) (basis : Basis) (t : Term) (hi : t.ident = true) (hrp : t.rp = 0) (h1 : t.te = true ∨ t.nv = 1)
    (rows : List Row) (Z : List Con) (hZ : absorbMem qrQ basis t rows = .ok Z) (new : List Row) :
    cols t = fullCols t - 1 ∧ termMat basis t Z new =
      absorbB (fullCols t) (makeCon qrQ (fullCols t) rows.length t.kind (fullMat basis t rows)) (fullMat basis t new) := by
  rw [absorbMem_ok qrQ basis t rows hi (Or.inl hrp)] at hZ
  have hZ := (Except.ok.inj hZ).symm
  by_cases hte : t.te = true
  · have e1 : idNk t = t.nk := by funext v; simp [idNk, hte]
    have e2 : fullCols t = teCols t := by unfold fullCols teCols; rw [e1]
    have e3 : ∀ rows, fullMat basis t rows = teBasis basis t rows := by intro rows; unfold fullMat teBasis; rw [e1]
    rw [if_pos hte] at hZ
    refine ⟨by unfold cols; rw [if_pos ⟨hi, hte⟩, e2], ?_⟩
    unfold termMat
    rw [if_pos ⟨hi, hte⟩, hZ, e2, e3, e3]
    simp only [List.getD_cons_zero]
    congr 1
    unfold teBasis
    congr 1
    funext v
    unfold marg bmNk
    simp [hte]
  · have hn : t.nv = 1 := h1.resolve_left hte
    have hte : t.te = false := by simpa using hte
    have e1 : fullCols t = t.nk 0 + 1 := by simp [fullCols, hn, idNk, hte]
    have e3 : ∀ rows, fullMat basis t rows = matV basis (t.nk 0 + 1) rows 0 := by
      intro rows; unfold fullMat; rw [hn]
      simp [tpBasis, idNk, hte]
    rw [if_neg (by simp [hte]), hn] at hZ
    refine ⟨by unfold cols; rw [if_neg (by simp [hte]), e1]; simp [teCols, hn], ?_⟩
    unfold termMat
    rw [if_neg (by simp [hte]), hn]
    show marg basis t Z new 0 = _
    unfold marg
    rw [if_pos ⟨hi, by simp [hte]⟩, hZ, e1, e3, e3]
    simp [bmNk, hi, hte, idNk]

/-- C102: with the QR constraint every column of a univariate or `te` smooth sums to zero over the data the constraint comes from. -/
theorem sums_to_zero_partial (qrQ : (ℕ → ℝ) → Arr) (basis : Basis) (t : Term) (hi : t.ident = true) (hrp : t.rp = 0)
    (h1 : t.te = true ∨ t.nv = 1) (hk : t.kind = .qr) (rows : List Row) (Z : List Con) (hZ : absorbMem qrQ basis t rows = .ok Z)
    (hQ : ∀ C : ℕ → ℝ, QrSpec (fullCols t) C (qrQ C)) (j : ℕ) (hj : j < cols t) : ∑ r ∈ range rows.length, termMat basis t Z rows r j = 0 := by
  obtain ⟨e1, e2⟩ := single qrQ basis t hi hrp h1 rows Z hZ rows
  rw [e2, hk]
  rw [e1] at hj
  simp only [makeCon, absorbB]
  generalize hC : (fun a => ∑ r ∈ range rows.length, fullMat basis t rows r a) = C
  obtain ⟨r, hr⟩ := (hQ C).fac
  rw [sum_comm]
  have : ∀ a ∈ range (fullCols t), ∑ x ∈ range rows.length, fullMat basis t rows x a * qrQ C a (j + 1) = r * (qrQ C a 0 * qrQ C a (j + 1)) := by
    intro a ha
    rw [← sum_mul, show ∑ x ∈ range rows.length, fullMat basis t rows x a = C a from congrFun hC a, hr a (mem_range.1 ha)]
    ring
  rw [sum_congr rfl this, ← mul_sum, (hQ C).cols 0 (by omega) (j + 1) (by omega), if_neg (by omega), mul_zero]

/-! ### The constant -/

/-- Functions of every variable sum to one at the values in the rows. -/
def Unity (basis : Basis) (t : Term) (rows : List Row) : Prop :=
  ∀ v < t.nv, ∀ row ∈ rows, ∑ a ∈ range (idNk t v), basis (idNk t v) v (row v) a = 1

theorem full_unity (basis : Basis) (t : Term) (hnv : 1 ≤ t.nv) (rows : List Row) (hu : Unity basis t rows) (r : ℕ) (hr : r < rows.length) :
    ∑ a ∈ range (fullCols t), fullMat basis t rows r a = 1 := by
  have h := tensor_separable (idNk t) (fun v => matV basis (idNk t v) rows v) (fun _ _ => 1) (t.nv - 1) r
  unfold fullCols fullMat
  rw [show (fun x => tpBasis (idNk t) (fun v => matV basis (idNk t v) rows v) (t.nv - 1) r x) =
    fun x => tpBasis (idNk t) (fun v => matV basis (idNk t v) rows v) (t.nv - 1) r x * sep (idNk t) (fun _ _ => 1) (t.nv - 1) x by
      funext x; simp [sep], h]
  refine prod_eq_one fun v hv => ?_
  have := mem_range.1 hv
  simp only [mul_one, matV]
  refine hu v (by omega) _ ?_
  rw [List.getD_eq_getElem _ _ hr]
  exact List.getElem_mem hr

theorem no_constant_on (qrQ : (ℕ → ℝ) → Arr) (basis : Basis) (t : Term) (hi : t.ident = true) (hrp : t.rp = 0)
    (h1 : t.te = true ∨ t.nv = 1) (hnv : 1 ≤ t.nv) (rows : List Row) (Z : List Con) (hZ : absorbMem qrQ basis t rows = .ok Z)
    (hQ : ∀ C : ℕ → ℝ, QrSpec (fullCols t) C (qrQ C)) (hpos : 0 < fullCols t) (hrows : rows ≠ []) (hu : Unity basis t rows) (new : List Row)
    (hu' : Unity basis t new) (P : ℕ → Prop) (hP : ∀ r, P r → r < new.length) (hind : Indep P (fullCols t) (fullMat basis t new)) (c : ℝ) (γ : ℕ → ℝ)
    (h : ∀ r, P r → ∑ j ∈ range (cols t), termMat basis t Z new r j * γ j = c) : c = 0 ∧ ∀ j < cols t, γ j = 0 := by
  obtain ⟨e1, e2⟩ := single qrQ basis t hi hrp h1 rows Z hZ new
  rw [e1] at h ⊢
  rw [e2] at h
  exact core qrQ _ _ hpos (List.length_pos_iff.2 hrows) t.kind _ (fun _ => hQ _) (fun r hr => full_unity basis t hnv rows hu r hr) P _
    (fun r hr => full_unity basis t hnv new hu' r (hP r hr)) hind c γ h

/-- C102: a univariate or `te` smooth, whatever the type of constraint, and the intercept are identifiable on all rows on which the columns of the
unconstrained basis are independent: no coefficients but zero make the smooth constant. -/
theorem no_constant (qrQ : (ℕ → ℝ) → Arr) (basis : Basis) (t : Term) (hi : t.ident = true) (hrp : t.rp = 0)
    (h1 : t.te = true ∨ t.nv = 1) (hnv : 1 ≤ t.nv) (rows : List Row) (Z : List Con) (hZ : absorbMem qrQ basis t rows = .ok Z)
    (hQ : ∀ C : ℕ → ℝ, QrSpec (fullCols t) C (qrQ C)) (hpos : 0 < fullCols t) (hrows : rows ≠ []) (hu : Unity basis t rows) (new : List Row)
    (hu' : Unity basis t new) (hind : Indep (· < new.length) (fullCols t) (fullMat basis t new)) (c : ℝ) (γ : ℕ → ℝ)
    (h : ∀ r < new.length, c + ∑ j ∈ range (cols t), termMat basis t Z new r j * γ j = 0) : c = 0 ∧ ∀ j < cols t, γ j = 0 := by
  have := no_constant_on qrQ basis t hi hrp h1 hnv rows Z hZ hQ hpos hrows hu new hu' (· < new.length) (fun _ h => h) hind (-c) γ
    fun r hr => by linarith [h r hr]
  exact ⟨by linarith [this.1], this.2⟩

/-- C102: a smooth with `by` and the means of all levels of the factor are identifiable if the columns of the unconstrained basis are independent on the
rows of every level. -/
theorem no_constant_by (qrQ : (ℕ → ℝ) → Arr) (basis : Basis) (t : Term) (hi : t.ident = true) (hrp : t.rp = 0)
    (h1 : t.te = true ∨ t.nv = 1) (hnv : 1 ≤ t.nv) (rows : List Row) (Z : List Con) (hZ : absorbMem qrQ basis t rows = .ok Z)
    (hQ : ∀ C : ℕ → ℝ, QrSpec (fullCols t) C (qrQ C)) (hpos : 0 < fullCols t) (hrows : rows ≠ []) (hu : Unity basis t rows)
    (level : ℕ → ℕ) (L : ℕ) (hind : ∀ l < L, Indep (fun r => r < rows.length ∧ level r = l) (fullCols t) (fullMat basis t rows))
    (μ γ : ℕ → ℝ) (h : ∀ r < rows.length, μ (level r) + ∑ c ∈ range (L * cols t), byMat basis t Z rows level r c * γ c = 0) :
    (∀ l < L, μ l = 0) ∧ ∀ c < L * cols t, γ c = 0 := by
  have key : ∀ l < L, -μ l = 0 ∧ ∀ j < cols t, γ (l * cols t + j) = 0 := by
    intro l hl
    refine no_constant_on qrQ basis t hi hrp h1 hnv rows Z hZ hQ hpos hrows hu rows hu _ (fun r hr => hr.1) (hind l hl) (-μ l)
      (fun j => γ (l * cols t + j)) fun r hr => ?_
    have e := h r hr.1
    rw [sum_range_mul, hr.2] at e
    have e2 : ∀ a ∈ range L, ∑ b ∈ range (cols t), byMat basis t Z rows level r (a * cols t + b) * γ (a * cols t + b) =
        if a = l then ∑ j ∈ range (cols t), termMat basis t Z rows r j * γ (l * cols t + j) else 0 := by
      intro a _
      by_cases ha : a = l
      · rw [if_pos ha, ha]
        refine sum_congr rfl fun b hb => ?_
        have := dm (cols t) l b (mem_range.1 hb)
        simp only [byMat]
        rw [this.1, this.2, if_pos hr.2]
      · rw [if_neg ha]
        refine sum_eq_zero fun b hb => ?_
        have := dm (cols t) a b (mem_range.1 hb)
        simp only [byMat]
        rw [this.1, if_neg (by rw [hr.2]; exact Ne.symm ha), zero_mul]
    rw [sum_congr rfl e2, sum_ite_eq', if_pos (mem_range.2 hl)] at e
    linarith
  refine ⟨fun l hl => by linarith [(key l hl).1], fun c hc => ?_⟩
  rcases Nat.eq_zero_or_pos (cols t) with h0 | h0
  · rw [h0] at hc; simp at hc
  · have := (key (c / cols t) (Nat.div_lt_of_lt_mul (by rw [mul_comm]; exact hc))).2 (c % cols t) (Nat.mod_lt _ h0)
    rwa [Nat.div_add_mod'] at this

/-- C102: a smooth multiplied by a continuous variable (`by_cont`) does not contain that variable, if the columns of the unconstrained basis are independent on
the rows on which the variable is not zero. -/
theorem no_constant_cont (qrQ : (ℕ → ℝ) → Arr) (basis : Basis) (t : Term) (hi : t.ident = true) (hrp : t.rp = 0)
    (h1 : t.te = true ∨ t.nv = 1) (hnv : 1 ≤ t.nv) (rows : List Row) (Z : List Con) (hZ : absorbMem qrQ basis t rows = .ok Z)
    (hQ : ∀ C : ℕ → ℝ, QrSpec (fullCols t) C (qrQ C)) (hpos : 0 < fullCols t) (hrows : rows ≠ []) (hu : Unity basis t rows)
    (w : ℕ → ℝ) (hind : Indep (fun r => r < rows.length ∧ w r ≠ 0) (fullCols t) (fullMat basis t rows))
    (c : ℝ) (γ : ℕ → ℝ) (h : ∀ r < rows.length, c * w r + ∑ j ∈ range (cols t), contMat basis t Z rows w r j * γ j = 0) :
    c = 0 ∧ ∀ j < cols t, γ j = 0 := by
  have := no_constant_on qrQ basis t hi hrp h1 hnv rows Z hZ hQ hpos hrows hu rows hu _ (fun r hr => hr.1) hind (-c) γ
    fun r hr => by
      have e := h r hr.1
      simp only [contMat] at e
      rw [show ∑ j ∈ range (cols t), termMat basis t Z rows r j * w r * γ j = (∑ j ∈ range (cols t), termMat basis t Z rows r j * γ j) * w r by
        rw [sum_mul]; exact sum_congr rfl fun j _ => by ring, ← add_mul] at e
      linarith [(mul_eq_zero.1 e).resolve_right hr.2]
  exact ⟨by linarith [this.1], this.2⟩

/-! ### Interactions -/

/-- The weights of the constraint of one basis. -/
def weight (n N : ℕ) (kind : Kind) (B : Arr) (a : ℕ) : ℝ :=
  match kind with
  | .qr => ∑ r ∈ range N, B r a
  | .drop => if a = n / 2 then 1 else 0
  | .diff => 1

theorem holds_weight (n N : ℕ) (hn : 0 < n) (kind : Kind) (B : Arr) (β : ℕ → ℝ) :
    Holds n N kind B β ↔ ∑ a ∈ range n, weight n N kind B a * β a = 0 := by
  cases kind with
  | qr =>
    simp only [Holds, weight, sum_mul]
    rw [sum_comm]
  | drop =>
    have hz : n / 2 < n := Nat.div_lt_self hn (by omega)
    simp only [Holds, weight, ite_mul, one_mul, zero_mul]
    rw [sum_ite_eq', if_pos (mem_range.2 hz)]
  | diff => simp [Holds, weight]

theorem weight_ne (n N : ℕ) (hn : 0 < n) (hN : 0 < N) (kind : Kind) (B : Arr) (hu : ∀ r < N, ∑ a ∈ range n, B r a = 1) :
    ∑ a ∈ range n, weight n N kind B a ≠ 0 := by
  intro h
  have := holds_const n N hn hN kind B hu (fun _ => 1) 1 (fun _ _ => rfl) ((holds_weight n N hn kind B _).2 (by simpa using h))
  norm_num at this

/-- Marginal constraint of an interaction: map from constrained to unconstrained coefficients with its properties. -/
theorem margin (qrQ : (ℕ → ℝ) → Arr) (n N : ℕ) (hn : 0 < n) (hN : 0 < N) (kind : Kind) (B : Arr)
    (hQ : QrSpec n (fun a => ∑ r ∈ range N, B r a) (qrQ fun a => ∑ r ∈ range N, B r a)) (hu : ∀ r < N, ∑ a ∈ range n, B r a = 1) :
    ∃ T L : Arr, (∀ (B' : Arr) (r j : ℕ), j < n - 1 → absorbB n (makeCon qrQ n N kind B) B' r j = ∑ a ∈ range n, B' r a * T a j) ∧
      (∀ j < n - 1, ∑ a ∈ range n, weight n N kind B a * T a j = 0) ∧
      ∀ i < n - 1, ∀ j < n - 1, ∑ a ∈ range n, L i a * T a j = if i = j then 1 else 0 := by
  obtain ⟨T, h1, -, -, h4, h5⟩ := constraint_absorbed qrQ n N hn kind B (fun _ => hQ) fun _ => unity_ne n N hN B hu
  have pick : ∀ (f : ℕ → ℝ) (j : ℕ), j < n - 1 → ∑ i ∈ range (n - 1), f i * (if i = j then 1 else 0) = f j := by
    intro f j hj
    simp only [mul_ite, mul_one, mul_zero]
    rw [sum_ite_eq', if_pos (mem_range.2 hj)]
  let M : (Fin (n - 1) → ℝ) →ₗ[ℝ] (Fin n → ℝ) := Matrix.mulVecLin (Matrix.of fun a j => T a j)
  have hM : LinearMap.ker M = ⊥ := by
    rw [LinearMap.ker_eq_bot']
    intro γ hγ
    funext j
    have := h5 (ext γ) 0 (fun a ha => by
      have e := congrFun hγ ⟨a, ha⟩
      simp only [M, Matrix.mulVecLin_apply, Matrix.mulVec, dotProduct, Matrix.of_apply, Pi.zero_apply] at e
      rw [Finset.sum_range]
      simp only [ext_apply, Pi.zero_apply, mul_zero, sum_const_zero]
      exact e) j j.2
    rw [ext_apply] at this
    exact this
  obtain ⟨G, hG⟩ := M.exists_leftInverse_of_injective hM
  refine ⟨T, fun i a => if h : i < n - 1 ∧ a < n then G (Pi.single ⟨a, h.2⟩ 1) ⟨i, h.1⟩ else 0, ?_, ?_, ?_⟩
  · intro B' r j hj
    have := h1 B' (fun i => if i = j then 1 else 0) r
    rw [pick _ j hj] at this
    rw [this]
    exact sum_congr rfl fun a _ => by rw [pick _ j hj]
  · intro j hj
    rw [← holds_weight n N hn]
    exact (h4 _).1 ⟨fun i => if i = j then 1 else 0, fun a _ => by rw [pick _ j hj]⟩
  · intro i hi j hj
    have e := congrFun (LinearMap.congr_fun hG (Pi.single ⟨j, hj⟩ 1)) ⟨i, hi⟩
    simp only [LinearMap.comp_apply, LinearMap.id_apply] at e
    rw [show M (Pi.single ⟨j, hj⟩ 1) = ∑ a : Fin n, T a j • (Pi.single a 1 : Fin n → ℝ) by
      funext a
      simp [M, Matrix.mulVec_single, Finset.sum_apply, Pi.single_apply], map_sum] at e
    rw [Finset.sum_range]
    simp only [map_smul, Finset.sum_apply, Pi.smul_apply, smul_eq_mul] at e
    rw [show (if i = j then (1 : ℝ) else 0) = (Pi.single (⟨j, hj⟩ : Fin (n - 1)) (1 : ℝ) : Fin (n - 1) → ℝ) ⟨i, hi⟩ by
      simp [Pi.single_apply, Fin.ext_iff], ← e]
    exact sum_congr rfl fun a _ => by simp only [hi, a.2, and_self, dif_pos]; rw [mul_comm]

theorem digit_flat (ks : ℕ → ℕ) (d : ℕ) (m : Multi ks d) (i : Fin (d + 1)) : digit ks d i ((eqv ks d).symm m) = m i := by
  have : toMulti ks d ((eqv ks d).symm m) = m := (eqv ks d).apply_symm_apply m
  exact congrArg Fin.val (congrFun this i)

/-- The columns of an interaction. -/
theorem inter (qrQ : (ℕ → ℝ) → Arr) (basis : Basis) (t : Term) (hi : t.ident = true) (hrp : t.rp = 0) (hte : t.te = false)
    (rows : List Row) (Z : List Con) (hZ : absorbMem qrQ basis t rows = .ok Z) (new : List Row) (v : ℕ) (hv : v < t.nv) :
    marg basis t Z new v = absorbB (idNk t v) (makeCon qrQ (idNk t v) rows.length t.kind (matV basis (idNk t v) rows v)) (matV basis (idNk t v) new v) := by
  rw [absorbMem_ok qrQ basis t rows hi (Or.inl hrp), if_neg (by simp [hte])] at hZ
  have hZ := (Except.ok.inj hZ).symm
  have e : bmNk t v = idNk t v := by simp [bmNk, idNk, hi, hte]
  unfold marg
  rw [if_pos ⟨hi, by simp [hte]⟩, e, hZ, List.getD_eq_getElem _ _ (by simpa using hv)]
  simp

/-- C102: interactions contain no main effects and no interactions of fewer variables. If a smooth of several variables (not `te`) equals a sum of functions of
the same products of basis functions each of which does not depend on one of the variables, all its coefficients are zero. -/
theorem no_lower_order (qrQ : (ℕ → ℝ) → Arr) (basis : Basis) (t : Term) (hi : t.ident = true) (hrp : t.rp = 0) (hte : t.te = false)
    (hnv : 1 ≤ t.nv) (rows : List Row) (Z : List Con) (hZ : absorbMem qrQ basis t rows = .ok Z)
    (hQ : ∀ v < t.nv, QrSpec (idNk t v) (fun a => ∑ r ∈ range rows.length, matV basis (idNk t v) rows v r a)
      (qrQ fun a => ∑ r ∈ range rows.length, matV basis (idNk t v) rows v r a))
    (hrows : rows ≠ []) (hu : Unity basis t rows) (new : List Row)
    (hind : Indep (· < new.length) (fullCols t) (fullMat basis t new)) (γ : ℕ → ℝ) (η : ℕ → ℕ → ℝ)
    (hη : ∀ v < t.nv, ∀ x < fullCols t, ∀ y < fullCols t, (∀ u < t.nv, u ≠ v → digit (idNk t) (t.nv - 1) u x = digit (idNk t) (t.nv - 1) u y) →
      η v x = η v y)
    (h : ∀ r < new.length, ∑ j ∈ range (cols t), termMat basis t Z new r j * γ j =
      ∑ v ∈ range t.nv, ∑ x ∈ range (fullCols t), fullMat basis t new r x * η v x) :
    (∀ j < cols t, γ j = 0) ∧ ∀ x < fullCols t, ∑ v ∈ range t.nv, η v x = 0 := by
  obtain ⟨d, hd⟩ : ∃ d, t.nv = d + 1 := ⟨t.nv - 1, by omega⟩
  have hd' : t.nv - 1 = d := by omega
  have hnk : ∀ v, idNk t v = t.nk v + 1 := fun v => by simp [idNk, hte]
  have hN : 0 < rows.length := List.length_pos_iff.2 hrows
  have hun : ∀ v < t.nv, ∀ r < rows.length, ∑ a ∈ range (idNk t v), matV basis (idNk t v) rows v r a = 1 := by
    intro v hv r hr
    refine hu v hv _ ?_
    rw [List.getD_eq_getElem _ _ hr]
    exact List.getElem_mem hr
  have hm : ∀ v : Fin (d + 1), ∃ T L : Arr, (∀ (B' : Arr) (r j : ℕ), j < idNk t v - 1 →
      absorbB (idNk t v) (makeCon qrQ (idNk t v) rows.length t.kind (matV basis (idNk t v) rows v)) B' r j = ∑ a ∈ range (idNk t v), B' r a * T a j) ∧
      (∀ j < idNk t v - 1, ∑ a ∈ range (idNk t v), weight (idNk t v) rows.length t.kind (matV basis (idNk t v) rows v) a * T a j = 0) ∧
      ∀ i < idNk t v - 1, ∀ j < idNk t v - 1, ∑ a ∈ range (idNk t v), L i a * T a j = if i = j then 1 else 0 := fun v =>
    margin qrQ (idNk t v) rows.length (by rw [hnk]; omega) hN t.kind _ (hQ v (by omega)) (hun v (by omega))
  choose T L hT hW hL using hm
  have hc : cols t = ∏ v ∈ range (d + 1), t.nk v := by
    unfold cols teCols; rw [if_neg (by simp [hte]), hd']
  have hf : fullCols t = ∏ v ∈ range (d + 1), idNk t v := by unfold fullCols; rw [hd']
  have dig : ∀ (x : ℕ), x < cols t → ∀ i : Fin (d + 1), digit t.nk d i x < idNk t i - 1 := by
    intro x hx i
    rw [hnk, Nat.add_sub_cancel]
    exact Nat.mod_lt _ (pos_of_lt t.nk d x (hc ▸ hx) i (by omega))
  -- coefficients of the products of unconstrained functions
  let β : Multi (idNk t) d → ℝ := fun m => ∑ x ∈ range (cols t), (∏ i, T i (m i) (digit t.nk d i x)) * γ x
  have hval : ∀ r, ∑ j ∈ range (cols t), termMat basis t Z new r j * γ j =
      ∑ m : Multi (idNk t) d, (∏ i : Fin (d + 1), matV basis (idNk t i) new i r (m i)) * β m := by
    intro r
    simp only [β, mul_sum]
    rw [sum_comm]
    refine sum_congr rfl fun x hx => ?_
    have hx := mem_range.1 hx
    unfold termMat
    rw [if_neg (by simp [hte]), hd', tensor_basis t.nk _ d r x (hc ▸ hx), Finset.prod_range]
    rw [show (∏ i : Fin (d + 1), marg basis t Z new i r (x / stride t.nk d i % t.nk i)) =
      ∏ i : Fin (d + 1), ∑ a : Fin (idNk t i), matV basis (idNk t i) new i r a * T i a (digit t.nk d i x) from prod_congr rfl fun i _ => by
        rw [inter qrQ basis t hi hrp hte rows Z hZ new i (by omega)]
        refine (hT i _ r _ (dig x hx i)).trans ?_
        rw [Finset.sum_range], Finset.prod_univ_sum, Fintype.piFinset_univ, sum_mul]
    refine sum_congr rfl fun m _ => ?_
    rw [prod_mul_distrib]
    ring
  have hfull : ∀ r (f : ℕ → ℝ), ∑ x ∈ range (fullCols t), fullMat basis t new r x * f x =
      ∑ m : Multi (idNk t) d, (∏ i : Fin (d + 1), matV basis (idNk t i) new i r (m i)) * f ((eqv (idNk t) d).symm m) := by
    intro r f
    rw [hf, sum_multi]
    refine sum_congr rfl fun m _ => ?_
    unfold fullMat
    rw [hd', tpBasis_multi]
  have hβη : ∀ m : Multi (idNk t) d, β m = ∑ v ∈ range t.nv, η v ((eqv (idNk t) d).symm m) := by
    intro m
    have := hind (fun x => (if hx : x < ∏ i ∈ range (d + 1), idNk t i then β (eqv (idNk t) d ⟨x, hx⟩) else 0) - ∑ v ∈ range t.nv, η v x)
      (fun r hr => by
        simp only [mul_sub, sum_sub_distrib]
        rw [hfull r fun x => (if hx : x < ∏ i ∈ range (d + 1), idNk t i then β (eqv (idNk t) d ⟨x, hx⟩) else 0)]
        simp only [Fin.is_lt, dite_true, Fin.eta, Equiv.apply_symm_apply]
        rw [← hval, h r hr, sub_eq_zero, sum_comm]
        exact sum_congr rfl fun x _ => by rw [mul_sum]) ((eqv (idNk t) d).symm m) (by rw [hf]; exact ((eqv (idNk t) d).symm m).2)
    simp only [Fin.is_lt, dite_true, Fin.eta, Equiv.apply_symm_apply] at this
    linarith
  have hβ0 : ∀ m, β m = 0 := by
    refine elim (fun i (a : Fin (idNk t i)) => weight (idNk t i) rows.length t.kind (matV basis (idNk t i) rows i) a) ?_ β ?_
      (fun v m => η v ((eqv (idNk t) d).symm m)) ?_ ?_
    · intro i
      have := weight_ne (idNk t i) rows.length (by rw [hnk]; omega) hN t.kind _ (hun i (by omega))
      rwa [Finset.sum_range] at this
    · intro i m
      simp only [β, mul_sum]
      rw [sum_comm]
      refine sum_eq_zero fun x hx => ?_
      have hx := mem_range.1 hx
      have e : ∀ a : Fin (idNk t i), ∏ u, T u (Function.update m i a u) (digit t.nk d u x) =
          T i a (digit t.nk d i x) * ∏ u ∈ univ.erase i, T u (m u) (digit t.nk d u x) := by
        intro a
        rw [← mul_prod_erase univ _ (mem_univ i), Function.update_self]
        congr 1
        exact prod_congr rfl fun u hu => by rw [Function.update_of_ne (ne_of_mem_erase hu)]
      have := hW i _ (dig x hx i)
      rw [Finset.sum_range] at this
      calc _ = (∑ a : Fin (idNk t i), weight (idNk t i) rows.length t.kind (matV basis (idNk t i) rows i) a * T i a (digit t.nk d i x)) *
            ((∏ u ∈ univ.erase i, T u (m u) (digit t.nk d u x)) * γ x) := by
            rw [sum_mul]
            exact sum_congr rfl fun a _ => by rw [e]; ring
        _ = 0 := by rw [this, zero_mul]
    · intro v m a
      refine hη v (by omega) _ (by rw [hf]; exact Fin.is_lt _) _ (by rw [hf]; exact Fin.is_lt _) fun u hu huv => ?_
      rw [hd']
      have e1 := digit_flat (idNk t) d (Function.update m v a) ⟨u, by omega⟩
      have e2 := digit_flat (idNk t) d m ⟨u, by omega⟩
      rw [Function.update_of_ne (by intro h; exact huv (congrArg Fin.val h))] at e1
      exact e1.trans e2.symm
    · intro m
      rw [hβη, hd, Finset.sum_range]
  constructor
  · intro y hy
    have e : ∑ m : Multi (idNk t) d, (∏ i, L i (digit t.nk d i y) (m i)) * β m = γ y := by
      simp only [β, mul_sum]
      rw [sum_comm]
      have e1 : ∀ x ∈ range (cols t), ∑ m : Multi (idNk t) d, (∏ i, L i (digit t.nk d i y) (m i)) * ((∏ i, T i (m i) (digit t.nk d i x)) * γ x) =
          if x = y then γ x else 0 := by
        intro x hx
        have hx := mem_range.1 hx
        have e2 : ∏ i : Fin (d + 1), ∑ a : Fin (idNk t i), L i (digit t.nk d i y) a * T i a (digit t.nk d i x) = if x = y then 1 else 0 := by
          have e3 : ∀ i : Fin (d + 1), ∑ a : Fin (idNk t i), L i (digit t.nk d i y) a * T i a (digit t.nk d i x) =
              if digit t.nk d i y = digit t.nk d i x then 1 else 0 := by
            intro i
            have := hL i _ (dig y hy i) _ (dig x hx i)
            rwa [Finset.sum_range] at this
          by_cases hxy : x = y
          · rw [if_pos hxy]
            exact prod_eq_one fun i _ => by rw [e3, if_pos (by rw [hxy])]
          · rw [if_neg hxy]
            obtain ⟨i, hi, hne⟩ : ∃ i ≤ d, digit t.nk d i x ≠ digit t.nk d i y := by
              by_contra hcon
              push Not at hcon
              exact hxy (digit_inj t.nk d x y (hc ▸ hx) (hc ▸ hy) hcon)
            exact prod_eq_zero (mem_univ (⟨i, by omega⟩ : Fin (d + 1))) (by rw [e3, if_neg (Ne.symm hne)])
        rw [Finset.prod_univ_sum, Fintype.piFinset_univ] at e2
        rw [show (if x = y then γ x else 0) = (if x = y then 1 else 0) * γ x by split_ifs <;> simp, ← e2, sum_mul]
        refine sum_congr rfl fun m _ => ?_
        rw [prod_mul_distrib]
        ring
      rw [sum_congr rfl e1, sum_ite_eq', if_pos (mem_range.2 hy)]
    rw [← e]
    exact sum_eq_zero fun m _ => by rw [hβ0, mul_zero]
  · intro x hx
    have := hβη (eqv (idNk t) d ⟨x, hf ▸ hx⟩)
    rw [hβ0, Equiv.symm_apply_apply] at this
    exact this.symm

/-- A univariate term in terms of unconstrained coefficients. -/
theorem uni (qrQ : (ℕ → ℝ) → Arr) (basis : Basis) (t : Term) (hi : t.ident = true) (hrp : t.rp = 0) (hte : t.te = false) (h1 : t.nv = 1)
    (rows : List Row) (Z : List Con) (hZ : absorbMem qrQ basis t rows = .ok Z)
    (hQ : QrSpec (t.nk 0 + 1) (fun a => ∑ r ∈ range rows.length, matV basis (t.nk 0 + 1) rows 0 r a)
      (qrQ fun a => ∑ r ∈ range rows.length, matV basis (t.nk 0 + 1) rows 0 r a))
    (hrows : rows ≠ []) (hu : ∀ r < rows.length, ∑ a ∈ range (t.nk 0 + 1), matV basis (t.nk 0 + 1) rows 0 r a = 1) (γ : ℕ → ℝ) :
    ∃ b : ℕ → ℝ, (∀ r, ∑ j ∈ range (cols t), termMat basis t Z rows r j * γ j = ∑ a ∈ range (t.nk 0 + 1), matV basis (t.nk 0 + 1) rows 0 r a * b a) ∧
      ((∃ c, ∀ a < t.nk 0 + 1, b a = c) → (∀ a < t.nk 0 + 1, b a = 0) ∧ ∀ j < cols t, γ j = 0) := by
  obtain ⟨e1, e2⟩ := single qrQ basis t hi hrp (Or.inr h1) rows Z hZ rows
  have e3 : fullCols t = t.nk 0 + 1 := by simp [fullCols, h1, idNk, hte]
  have e4 : fullMat basis t rows = matV basis (t.nk 0 + 1) rows 0 := by
    unfold fullMat; rw [h1]
    simp [tpBasis, idNk, hte]
  have hN : 0 < rows.length := List.length_pos_iff.2 hrows
  rw [e3] at e1
  rw [e3, e4] at e2
  obtain ⟨T, h1, -, -, h4, h5⟩ := constraint_absorbed qrQ (t.nk 0 + 1) rows.length (by omega) t.kind _ (fun _ => hQ) fun _ => unity_ne _ _ hN _ hu
  refine ⟨fun a => ∑ j ∈ range (t.nk 0 + 1 - 1), T a j * γ j, ?_, ?_⟩
  · intro r
    rw [e1, e2]
    exact h1 _ γ r
  · rintro ⟨c, hc⟩
    have hc0 := holds_const _ _ (by omega) hN t.kind _ hu _ c hc ((h4 _).1 ⟨γ, fun a _ => rfl⟩)
    subst hc0
    refine ⟨hc, fun j hj => ?_⟩
    rw [e1] at hj
    simpa using h5 γ 0 (fun a ha => (hc a ha).trans (by simp)) j hj

theorem pair (ks : ℕ → ℕ) (a b : ℕ) (ha : a < ks 0) (hb : b < ks 1) :
    ∃ x < ∏ v ∈ range (1 + 1), ks v, digit ks 1 0 x = a ∧ digit ks 1 1 x = b := by
  refine ⟨a * ks 1 + b, ?_, ?_, ?_⟩
  · rw [prod_range_succ, prod_range_one]
    nlinarith
  · simp only [digit, stride]
    rw [show Finset.Ico (0 + 1) (1 + 1) = {1} from rfl, prod_singleton, (dm (ks 1) a b hb).1, Nat.mod_eq_of_lt ha]
  · simp only [digit, stride]
    rw [show Finset.Ico (1 + 1) (1 + 1) = ∅ from rfl, prod_empty, Nat.div_one, (dm (ks 1) a b hb).2]

/-- Second variable of an interaction as the only variable of a term. -/
def rows1 (rows : List Row) : List Row := rows.map fun row _ => row 1
def basis1 (basis : Basis) : Basis := fun k _ => basis k 1

/-- C102: intercept, two main effects and their interaction are identifiable, whatever the types of constraint, if main effects and interaction use the same
marginal bases and the products of the unconstrained basis functions are independent on the data. The second variable has position 1 in the
interaction and is the only one of its main effect. -/
theorem interaction_identifiable (qrQ : (ℕ → ℝ) → Arr) (basis : Basis) (t tx tz : Term) (hi : t.ident = true) (hrp : t.rp = 0) (hte : t.te = false)
    (hnv : t.nv = 2) (hix : tx.ident = true) (hrpx : tx.rp = 0) (htex : tx.te = false) (hnvx : tx.nv = 1) (hnx : tx.nk 0 = t.nk 0)
    (hiz : tz.ident = true) (hrpz : tz.rp = 0) (htez : tz.te = false) (hnvz : tz.nv = 1) (hnz : tz.nk 0 = t.nk 1)
    (rows : List Row) (Z Zx Zz : List Con) (hZ : absorbMem qrQ basis t rows = .ok Z) (hZx : absorbMem qrQ basis tx rows = .ok Zx)
    (hZz : absorbMem qrQ (basis1 basis) tz (rows1 rows) = .ok Zz)
    (hQ : ∀ v < 2, QrSpec (t.nk v + 1) (fun a => ∑ r ∈ range rows.length, matV basis (t.nk v + 1) rows v r a)
      (qrQ fun a => ∑ r ∈ range rows.length, matV basis (t.nk v + 1) rows v r a))
    (hrows : rows ≠ []) (hu : Unity basis t rows) (hind : Indep (· < rows.length) (fullCols t) (fullMat basis t rows)) (c : ℝ) (γ γx γz : ℕ → ℝ)
    (h : ∀ r < rows.length, c + ∑ j ∈ range (cols tx), termMat basis tx Zx rows r j * γx j +
      ∑ j ∈ range (cols tz), termMat (basis1 basis) tz Zz (rows1 rows) r j * γz j +
      ∑ j ∈ range (cols t), termMat basis t Z rows r j * γ j = 0) :
    c = 0 ∧ (∀ j < cols tx, γx j = 0) ∧ (∀ j < cols tz, γz j = 0) ∧ ∀ j < cols t, γ j = 0 := by
  have hnk : ∀ v, idNk t v = t.nk v + 1 := fun v => by simp [idNk, hte]
  have hun : ∀ v < 2, ∀ r < rows.length, ∑ a ∈ range (t.nk v + 1), matV basis (t.nk v + 1) rows v r a = 1 := by
    intro v hv r hr
    have := hu v (by omega) (rows.getD r 0) (by rw [List.getD_eq_getElem _ _ hr]; exact List.getElem_mem hr)
    rwa [hnk] at this
  have hlen : (rows1 rows).length = rows.length := List.length_map _
  have hmz : ∀ k (r : ℕ), r < rows.length → matV (basis1 basis) k (rows1 rows) 0 r = matV basis k rows 1 r := by
    intro k r hr
    unfold matV rows1 basis1
    rw [List.getD_eq_getElem _ _ (by simpa using hr), List.getD_eq_getElem _ _ hr]
    simp
  have hsz : (fun a => ∑ r ∈ range (rows1 rows).length, matV (basis1 basis) (t.nk 1 + 1)
      (rows1 rows) 0 r a) = fun a => ∑ r ∈ range rows.length, matV basis (t.nk 1 + 1) rows 1 r a := by
    funext a
    rw [hlen]
    exact sum_congr rfl fun r hr => by rw [hmz _ r (mem_range.1 hr)]
  obtain ⟨bx, hx1, hx2⟩ := uni qrQ basis tx hix hrpx htex hnvx rows Zx hZx (by rw [hnx]; exact hQ 0 (by omega)) hrows
    (by rw [hnx]; exact hun 0 (by omega)) γx
  obtain ⟨bz, hz1, hz2⟩ := uni qrQ (basis1 basis) tz hiz hrpz htez hnvz (rows1 rows) Zz hZz (by rw [hnz, hsz]; exact hQ 1 (by omega)) (by rw [← List.length_pos_iff, hlen]; exact List.length_pos_iff.2 hrows)
    (by
      rw [hnz]
      intro r hr
      rw [hlen] at hr
      rw [hmz _ r hr]
      exact hun 1 (by omega) r hr) γz
  rw [hnx] at hx1 hx2
  rw [hnz] at hz1 hz2
  -- main effects as sums over products
  have hsep : ∀ (r : ℕ) (v : ℕ → ℕ → ℝ), ∑ x ∈ range (fullCols t), fullMat basis t rows r x * sep (idNk t) v 1 x =
      (∑ a ∈ range (t.nk 0 + 1), matV basis (t.nk 0 + 1) rows 0 r a * v 0 a) * ∑ a ∈ range (t.nk 1 + 1), matV basis (t.nk 1 + 1) rows 1 r a * v 1 a := by
    intro r v
    have := tensor_separable (idNk t) (fun v => matV basis (idNk t v) rows v) v 1 r
    unfold fullCols fullMat
    rw [hnv]
    rw [this, prod_range_succ, prod_range_one, hnk, hnk]
  have ex : ∀ r < rows.length, ∀ b : ℕ → ℝ, ∑ x ∈ range (fullCols t), fullMat basis t rows r x * b (digit (idNk t) 1 0 x) =
      ∑ a ∈ range (t.nk 0 + 1), matV basis (t.nk 0 + 1) rows 0 r a * b a := by
    intro r hr b
    have := hsep r fun v a => if v = 0 then b a else 1
    simp only [if_true, one_ne_zero, if_false, mul_one, hun 1 (by omega) r hr] at this
    rw [← this]
    refine sum_congr rfl fun x _ => ?_
    simp [sep, prod_range_succ, digit]
  have ez : ∀ r < rows.length, ∀ b : ℕ → ℝ, ∑ x ∈ range (fullCols t), fullMat basis t rows r x * b (digit (idNk t) 1 1 x) =
      ∑ a ∈ range (t.nk 1 + 1), matV basis (t.nk 1 + 1) rows 1 r a * b a := by
    intro r hr b
    have := hsep r fun v a => if v = 0 then 1 else b a
    simp only [if_true, one_ne_zero, if_false, mul_one, hun 0 (by omega) r hr, one_mul] at this
    rw [← this]
    refine sum_congr rfl fun x _ => ?_
    simp [sep, prod_range_succ, digit]
  have main := no_lower_order qrQ basis t hi hrp hte (by omega) rows Z hZ (fun v hv => by rw [hnk]; exact hQ v (by omega)) hrows hu rows hind γ
    (fun v x => if v = 0 then -bz (digit (idNk t) 1 1 x) else -(c + bx (digit (idNk t) 1 0 x))) (by
      intro v hv x _ y _ hxy
      rw [hnv] at hv hxy
      by_cases h0 : v = 0
      · simp only [h0, if_true]
        rw [hxy 1 (by omega) (by omega)]
      · simp only [h0, if_false]
        rw [hxy 0 (by omega) (by omega)]) (by
      intro r hr
      have e := h r hr
      rw [hx1, hz1, hmz _ r hr] at e
      rw [hnv, sum_range_succ, sum_range_one]
      simp only [if_true, one_ne_zero, if_false, mul_neg, mul_add, sum_neg_distrib, sum_add_distrib]
      rw [ex r hr bx, ez r hr bz, ← sum_mul, full_unity basis t (by omega) rows hu r hr]
      linarith)
  obtain ⟨m1, m2⟩ := main
  have hab : ∀ a < t.nk 0 + 1, ∀ b < t.nk 1 + 1, c + bx a + bz b = 0 := by
    intro a ha b hb
    obtain ⟨x, hlt, d0, d1⟩ := pair (idNk t) a b (by rw [hnk]; exact ha) (by rw [hnk]; exact hb)
    have e := m2 x (by unfold fullCols; rw [hnv]; exact hlt)
    rw [hnv, sum_range_succ, sum_range_one] at e
    simp only [if_true, one_ne_zero, if_false, d0, d1] at e
    linarith
  obtain ⟨x1, x2⟩ := hx2 ⟨-c - bz 0, fun a ha => by linarith [hab a ha 0 (by omega)]⟩
  obtain ⟨z1, z2⟩ := hz2 ⟨-c - bx 0, fun b hb => by linarith [hab 0 (by omega) b hb]⟩
  refine ⟨?_, x2, z2, m1⟩
  have := hab 0 (by omega) 0 (by omega)
  rw [x1 0 (by omega), z1 0 (by omega)] at this
  linarith

/-! ### What the documentation says about column sums -/

/-- Two functions of every variable, `1 - x` and `x`. -/
def hat : Basis := fun _ _ x a => if a = 0 then 1 - x else if a = 1 then x else 0

/-- C102 fails for column sums under `ConstType.DROP`: the remaining column is positive. -/
theorem sums_drop_wrong (qrQ : (ℕ → ℝ) → Arr) : ∃ (rows : List Row) (Z : List Con), absorbMem qrQ hat ⟨1, false, 0, true, .drop, fun _ => 1⟩ rows = .ok Z ∧
    ∑ r ∈ range rows.length, termMat hat ⟨1, false, 0, true, .drop, fun _ => 1⟩ Z rows r 0 ≠ 0 := by
  refine ⟨[fun _ => 1 / 2], _, absorbMem_ok qrQ hat _ _ rfl (Or.inl rfl), ?_⟩
  rw [(single qrQ hat ⟨1, false, 0, true, .drop, fun _ => 1⟩ rfl rfl (Or.inr rfl) [fun _ => 1 / 2] _ (absorbMem_ok qrQ hat _ _ rfl (Or.inl rfl)) _).2]
  norm_num [makeCon, absorbB, del, fullCols, fullMat, idNk, tpBasis, matV, hat]

/-- An interaction of two variables with two functions each, and rows `(0, 0)`, `(1, 1)`. -/
def tI : Term := ⟨2, false, 0, true, .qr, fun _ => 1⟩
def two : List Row := [fun _ => 0, fun _ => 1]

theorem matV_two (v r a : ℕ) (hr : r < 2) (ha : a < 2) : matV hat 2 two v r a = if r = a then 1 else 0 := by
  interval_cases r <;> interval_cases a <;> simp [matV, hat, two]

/-- C102 fails for column sums of interactions: with the QR constraint for both variables the squares of the entries of the only column
sum to one. -/
theorem sums_interaction_wrong (qrQ : (ℕ → ℝ) → Arr) (hQ : ∀ C, QrSpec 2 C (qrQ C)) : ∃ (rows : List Row) (Z : List Con),
    absorbMem qrQ hat tI rows = .ok Z ∧ ∑ r ∈ range rows.length, termMat hat tI Z rows r 0 ≠ 0 := by
  have hZ := absorbMem_ok qrQ hat tI two rfl (Or.inl rfl)
  refine ⟨two, _, hZ, ?_⟩
  have hm := inter qrQ hat tI rfl rfl rfl _ _ hZ two
  generalize (if tI.te = true then [makeCon qrQ (teCols tI) two.length tI.kind (teBasis hat tI two)] else
    (List.range tI.nv).map fun v => makeCon qrQ (idNk tI v) two.length tI.kind (matV hat (idNk tI v) two v)) = Z at hm
  have hV : ∀ v, matV hat 2 two v = matV hat 2 two 0 := by
    intro v; funext r a; unfold matV
    rcases r with _ | _ | r <;> simp [two, hat]
  have h := hQ fun a => ∑ r ∈ range 2, matV hat 2 two 0 r a
  generalize hq : qrQ (fun a => ∑ r ∈ range 2, matV hat 2 two 0 r a) = Q at h
  have e : ∀ v < 2, ∀ r < 2, marg hat tI Z two v r 0 = Q r 1 := by
    intro v hv r hr
    rw [hm v hv, show idNk tI v = 2 from rfl, hV v, show two.length = 2 from rfl]
    show ∑ a ∈ range 2, matV hat 2 two 0 r a * qrQ (fun a => ∑ r ∈ range 2, matV hat 2 two 0 r a) a (0 + 1) = _
    rw [hq, sum_range_succ, sum_range_one, matV_two 0 r 0 hr (by omega), matV_two 0 r 1 hr (by omega)]
    interval_cases r <;> simp
  have sq : Q 0 1 * Q 0 1 + Q 1 1 * Q 1 1 = 1 := by
    have := h.cols 1 (by omega) 1 (by omega)
    simpa [sum_range_succ] using this
  have key : ∀ r < 2, termMat hat tI Z two r 0 = Q r 1 * Q r 1 := by
    intro r hr
    have h0 := e 0 (by omega) r hr
    have h1 := e 1 (by omega) r hr
    show khatri 1 (marg hat tI Z two 0) (marg hat tI Z two 1) r 0 = _
    simp only [khatri]
    rw [h0, h1]
  rw [show two.length = 2 from rfl, sum_range_succ, sum_range_one, key 0 (by omega), key 1 (by omega), sq]
  norm_num

/-! ### The hypotheses can be met -/

/-- A QR decomposition of vectors with two entries. -/
noncomputable def q2 (C : ℕ → ℝ) : Arr := fun i j =>
  if C 0 = 0 ∧ C 1 = 0 then (if i = j then 1 else 0)
  else (if i = 0 then (if j = 0 then C 0 else -C 1) else (if j = 0 then C 1 else C 0)) / √(C 0 ^ 2 + C 1 ^ 2)

theorem q2_spec (C : ℕ → ℝ) : QrSpec 2 C (q2 C) := by
  by_cases h : C 0 = 0 ∧ C 1 = 0
  · refine ⟨?_, ?_, ⟨0, ?_⟩⟩
    · intro i hi j hj
      interval_cases i <;> interval_cases j <;> simp [q2, h, sum_range_succ]
    · intro i hi j hj
      interval_cases i <;> interval_cases j <;> simp [q2, h, sum_range_succ]
    · intro a ha
      interval_cases a <;> simp [h]
  · have hp : 0 < C 0 ^ 2 + C 1 ^ 2 := by
      rcases not_and_or.1 h with h | h
      · positivity
      · positivity
    have hs : 0 < √(C 0 ^ 2 + C 1 ^ 2) := Real.sqrt_pos.2 hp
    have h2 : √(C 0 ^ 2 + C 1 ^ 2) * √(C 0 ^ 2 + C 1 ^ 2) = C 0 ^ 2 + C 1 ^ 2 := Real.mul_self_sqrt hp.le
    have hq : ∀ i j, q2 C i j = (if i = 0 then (if j = 0 then C 0 else -C 1) else (if j = 0 then C 1 else C 0)) / √(C 0 ^ 2 + C 1 ^ 2) := by
      intro i j; simp only [q2]; rw [if_neg h]
    generalize √(C 0 ^ 2 + C 1 ^ 2) = s at hs h2 hq
    refine ⟨?_, ?_, ⟨s, ?_⟩⟩
    · intro i hi j hj
      simp only [hq, sum_range_succ, sum_range_zero]
      interval_cases i <;> interval_cases j <;> simp <;> field_simp <;> nlinarith
    · intro i hi j hj
      simp only [hq, sum_range_succ, sum_range_zero]
      interval_cases i <;> interval_cases j <;> simp <;> field_simp <;> nlinarith
    · intro a ha
      simp only [hq]
      interval_cases a <;> simp <;> field_simp

/-- A univariate smooth with two functions before the constraint. -/
def tU (kind : Kind) : Term := ⟨1, false, 0, true, kind, fun _ => 1⟩

/-- Four rows: all combinations of 0 and 1. -/
def grid : List Row := [fun _ => 0, fun v => if v = 0 then 0 else 1, fun v => if v = 0 then 1 else 0, fun _ => 1]

theorem hat_unity (t : Term) (rows : List Row) (h : ∀ v, idNk t v = 2) : Unity hat t rows := by
  intro v _ row _
  rw [h]
  simp [hat, sum_range_succ]

theorem grid_full (r x : ℕ) (hr : r < 4) (hx : x < 4) : fullMat hat tI grid r x = if r = x then 1 else 0 := by
  show khatri 2 (matV hat 2 grid 0) (matV hat 2 grid 1) r x = _
  interval_cases r <;> interval_cases x <;> simp [khatri, matV, hat, grid]

theorem indep_id (n : ℕ) (P : ℕ → Prop) (hP : ∀ a < n, P a) (B : Arr) (h : ∀ r < n, ∀ x < n, B r x = if r = x then 1 else 0) : Indep P n B := by
  intro β hβ a ha
  have := hβ a (hP a ha)
  rw [sum_congr rfl fun x hx => by rw [h a ha x (mem_range.1 hx)]] at this
  simpa [ha] using this

/-- Files with one row each. -/
example : absorbFiles q2 hat (tU .qr) [[fun _ => 0], [fun _ => 1]] = absorbMem q2 hat (tU .qr) two :=
  files_same q2 hat (tU .qr) [[fun _ => 0], [fun _ => 1]] fun _ => ⟨rfl, rfl⟩

example : ∃ e, absorbFiles q2 hat (tU .drop) [two] = .error e := files_refused q2 hat (tU .drop) [two] rfl (Or.inr rfl)

example : absorbMem q2 hat ⟨2, false, 2, true, .drop, fun _ => 4⟩ two = .error .value :=
  interaction_kind_wrong q2 hat _ _ rfl rfl le_rfl rfl rfl

theorem tU_full (kind : Kind) : fullCols (tU kind) = 2 ∧ fullMat hat (tU kind) two = matV hat 2 two 0 := ⟨rfl, rfl⟩

example (Z : List Con) (hZ : absorbMem q2 hat (tU .qr) two = .ok Z) : ∑ r ∈ range two.length, termMat hat (tU .qr) Z two r 0 = 0 :=
  sums_to_zero_partial q2 hat (tU .qr) rfl rfl (Or.inr rfl) rfl two Z hZ q2_spec 0 (by show 0 < 1; omega)

example (kind : Kind) (Z : List Con) (hZ : absorbMem q2 hat (tU kind) two = .ok Z) (c : ℝ) (γ : ℕ → ℝ)
    (h : ∀ r < two.length, c + ∑ j ∈ range (cols (tU kind)), termMat hat (tU kind) Z two r j * γ j = 0) :
    c = 0 ∧ ∀ j < cols (tU kind), γ j = 0 :=
  no_constant q2 hat (tU kind) rfl rfl (Or.inr rfl) le_rfl two Z hZ q2_spec (by show 0 < 2; omega) (by simp [two]) (hat_unity _ _ fun _ => rfl) two
    (hat_unity _ _ fun _ => rfl) (indep_id 2 _ (fun a ha => ha) _ fun r hr x hx => matV_two 0 r x hr hx) c γ h

/-- Two levels with the rows 0, 1 and 2, 3. -/
example (kind : Kind) (Z : List Con) (hZ : absorbMem q2 hat (tU kind) (two ++ two) = .ok Z) (μ γ : ℕ → ℝ)
    (h : ∀ r < (two ++ two).length, μ (r / 2) + ∑ c ∈ range (2 * cols (tU kind)), byMat hat (tU kind) Z (two ++ two) (· / 2) r c * γ c = 0) :
    (∀ l < 2, μ l = 0) ∧ ∀ c < 2 * cols (tU kind), γ c = 0 := by
  refine no_constant_by q2 hat (tU kind) rfl rfl (Or.inr rfl) le_rfl (two ++ two) Z hZ q2_spec (by show 0 < 2; omega) (by simp [two]) (hat_unity _ _ fun _ => rfl)
    (· / 2) 2 ?_ μ γ h
  intro l hl β hβ a ha
  have := hβ (2 * l + a) ⟨by show 2 * l + a < 4; have : a < 2 := ha; omega, by have : a < 2 := ha; show (2 * l + a) / 2 = l; omega⟩
  have ha : a < 2 := ha
  rw [show fullCols (tU kind) = 2 from rfl, sum_range_succ, sum_range_one] at this
  rw [show fullMat hat (tU kind) (two ++ two) = matV hat 2 (two ++ two) 0 from rfl] at this
  interval_cases l <;> interval_cases a <;> simpa [matV, hat, two] using this

/-- A weight that is not zero. -/
example (kind : Kind) (Z : List Con) (hZ : absorbMem q2 hat (tU kind) two = .ok Z) (c : ℝ) (γ : ℕ → ℝ)
    (h : ∀ r < two.length, c * ((r : ℝ) + 1) + ∑ j ∈ range (cols (tU kind)), contMat hat (tU kind) Z two (fun r => (r : ℝ) + 1) r j * γ j = 0) :
    c = 0 ∧ ∀ j < cols (tU kind), γ j = 0 :=
  no_constant_cont q2 hat (tU kind) rfl rfl (Or.inr rfl) le_rfl two Z hZ q2_spec (by show 0 < 2; omega) (by simp [two]) (hat_unity _ _ fun _ => rfl)
    (fun r => (r : ℝ) + 1) (indep_id 2 _ (fun a ha => ⟨ha, by positivity⟩) _ fun r hr x hx => matV_two 0 r x hr hx) c γ h

/-- Intercept, main effects and interaction on the grid, with three types of constraint. -/
example (Z Zx Zz : List Con) (hZ : absorbMem q2 hat tI grid = .ok Z) (hZx : absorbMem q2 hat (tU .drop) grid = .ok Zx)
    (hZz : absorbMem q2 (basis1 hat) (tU .diff) (rows1 grid) = .ok Zz) (c : ℝ) (γ γx γz : ℕ → ℝ)
    (h : ∀ r < grid.length, c + ∑ j ∈ range (cols (tU .drop)), termMat hat (tU .drop) Zx grid r j * γx j +
      ∑ j ∈ range (cols (tU .diff)), termMat (basis1 hat) (tU .diff) Zz (rows1 grid) r j * γz j +
      ∑ j ∈ range (cols tI), termMat hat tI Z grid r j * γ j = 0) :
    c = 0 ∧ (∀ j < cols (tU .drop), γx j = 0) ∧ (∀ j < cols (tU .diff), γz j = 0) ∧ ∀ j < cols tI, γ j = 0 :=
  interaction_identifiable q2 hat tI (tU .drop) (tU .diff) rfl rfl rfl rfl rfl rfl rfl rfl rfl rfl rfl rfl rfl rfl grid Z Zx Zz hZ hZx hZz
    (fun _ _ => q2_spec _) (by simp [grid]) (hat_unity _ _ fun _ => rfl) (indep_id 4 _ (fun a ha => ha) _ fun r hr x hx => grid_full r x hr hx) c γ γx γz h

end Verif.Cons
