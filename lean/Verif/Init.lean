import Verif.InitModel
import Mathlib.Tactic.Linarith
import Mathlib.Tactic.Positivity
import Mathlib.Tactic.FieldSimp
import Mathlib.Tactic.NormNum
import Mathlib.Data.List.Nodup
import Mathlib.Data.List.Sort
import Mathlib.Data.Finset.Card

/-!
# Property C116: fits start from admissible values
-/

namespace Verif.Init

open Verif Fl Fam

/-! ### Means -/

/-- Responses for which the starting mean is in the domain of the link. -/
def Adm : FamKind → LinkKind → ℝ → Prop
  | .binomial n, .logb _, _ => False ∧ n = n
  | .binomial n, _, y => 0 < n ∧ 0 ≤ y ∧ y ≤ 1
  | .poisson, .identity, y => 0 ≤ y
  | .poisson, .log, y => 0 ≤ y
  | .poisson, .logb b, y => 0 ≤ y ∧ 0 ≤ b
  | .poisson, .logit, _ => False
  | _, .logit, _ => False
  | .gaussian, .identity, _ => True
  | .gaussian, .log, y => 0 < y
  | .gaussian, .logb b, y => 0 < y + b
  | _, .logb b, y => 0 < y ∧ 0 < y + b
  | _, _, y => 0 < y

/-- The starting mean, as a number. -/
noncomputable def mu0 : FamKind → ℝ → ℝ
  | .binomial _, y => (y + 1 / 2) / 2
  | .poisson, y => max y 0 + 1 / 10
  | _, y => y

theorem initMu_fin (fam : FamKind) (y : ℝ) : initMu fam (fin y) = fin (mu0 fam y) := by
  cases fam with
  | poisson =>
    unfold initMu mu0
    dsimp only
    by_cases h : 0 < y
    · rw [if_pos h, max_eq_left h.le]; rfl
    · rw [if_neg h, max_eq_right (not_lt.1 h)]; rfl
  | binomial n =>
    show (fin y + fin (1 / 2)) / fin 2 = fin ((y + 1 / 2) / 2)
    rw [fin_add, fin_div two_ne_zero]
  | gaussian => rfl
  | gamma => rfl
  | invGauss => rfl

/-- **C116.** For a response in the domain of family and link the first pseudo-observation is a number and its weight a positive
number, whatever the offset. -/
theorem first_valid {fam : FamKind} {lk : LinkKind} {y : ℝ} (h : Adm fam lk y) (o : ℝ) :
    ∃ z w : ℝ, first fam lk (fin y) (fin o) = (fin z, fin w) ∧ 0 < w := by
  have hfin : ∀ m : ℝ, ∀ e d v : ℝ, initMu fam (fin y) = fin m → lk.f (fin m) = fin e → lk.dy1 (fin m) = fin d → fam.V (fin m) = fin v → d ≠ 0 → 0 < v →
      ∃ z w : ℝ, first fam lk (fin y) (fin o) = (fin z, fin w) ∧ 0 < w := by
    intro m e d v h1 h2 h3 h4 h5 h6
    have hw : 0 < d ^ 2 * v := mul_pos (by positivity) h6
    refine ⟨d * (y - m) + (e - o), 1 / (d ^ 2 * v), ?_, by positivity⟩
    unfold first fisherZW
    rw [h1, h2, h3, h4]
    simp [fin_div hw.ne']
  have hm := initMu_fin fam y
  have hlog : ∀ m : ℝ, 0 < m → LinkKind.log.f (fin m) = fin (Real.log m) ∧ LinkKind.log.dy1 (fin m) = fin (1 / m) :=
    fun m hm => ⟨log_fin hm, fin_div hm.ne'⟩
  have hlogb : ∀ b m : ℝ, 0 < m + b → (LinkKind.logb b).f (fin m) = fin (Real.log (m + b)) ∧ (LinkKind.logb b).dy1 (fin m) = fin (1 / (b + m)) := by
    intro b m hm
    refine ⟨?_, ?_⟩
    · show Fl.log (fin m + fin b) = _
      rw [fin_add, log_fin hm]
    · show fin 1 / (fin b + fin m) = _
      rw [fin_add, fin_div (by linarith)]
  cases fam with
  | binomial n =>
    have hy : 0 < n ∧ 0 ≤ y ∧ y ≤ 1 := by
      cases lk with
      | logb b => exact absurd h.1 not_false
      | _ => exact h
    obtain ⟨hn, h0, h1⟩ := hy
    have m0 : 0 < (y + 1 / 2) / 2 := by linarith
    have m1 : (y + 1 / 2) / 2 < 1 := by linarith
    have hn' : (0 : ℝ) < n := by exact_mod_cast hn
    have hV : (FamKind.binomial n).V (fin ((y + 1 / 2) / 2)) = fin ((y + 1 / 2) / 2 * (1 - (y + 1 / 2) / 2) / n) := by
      show fin _ * (fin 1 - fin _) / fin n = _
      rw [fin_sub, fin_mul, fin_div hn'.ne']
    have hV0 : 0 < (y + 1 / 2) / 2 * (1 - (y + 1 / 2) / 2) / n := div_pos (mul_pos m0 (by linarith)) hn'
    cases lk with
    | logit =>
      refine hfin _ (Real.log ((y + 1 / 2) / 2 / (1 - (y + 1 / 2) / 2))) (1 / ((1 - (y + 1 / 2) / 2) * ((y + 1 / 2) / 2))) _ hm ?_ ?_ hV ?_ hV0
      · show Fl.log (fin ((y + 1 / 2) / 2) / (fin 1 - fin ((y + 1 / 2) / 2))) = _
        rw [fin_sub, fin_div (sub_pos.2 m1).ne']
        exact log_fin (div_pos m0 (by linarith))
      · show fin 1 / ((fin 1 - fin _) * fin _) = _
        rw [fin_sub, fin_mul, fin_div]
        · rfl
        · exact (mul_pos (sub_pos.2 m1) m0).ne'
      · exact (one_div_pos.2 (mul_pos (by linarith) m0)).ne'
    | identity => exact hfin _ _ 1 _ hm rfl rfl hV one_ne_zero hV0
    | log => exact hfin _ _ _ _ hm (hlog _ m0).1 (hlog _ m0).2 hV (one_div_pos.2 m0).ne' hV0
    | logb b => exact absurd h.1 not_false
  | gaussian =>
    cases lk with
    | logit => exact absurd h not_false
    | identity => exact hfin _ _ 1 1 hm rfl rfl rfl one_ne_zero one_pos
    | log => exact hfin _ _ _ 1 hm (hlog _ h).1 (hlog _ h).2 rfl (one_div_pos.2 h).ne' one_pos
    | logb b =>
      have hb : 0 < y + b := h
      exact hfin _ _ _ 1 hm (hlogb b y hb).1 (hlogb b y hb).2 rfl (one_div_pos.2 (by linarith)).ne' one_pos
  | gamma =>
    have hV : ∀ m : ℝ, FamKind.gamma.V (fin m) = fin (m ^ 2) := fun m => pow_fin m 2
    cases lk with
    | logit => exact absurd h not_false
    | identity => exact hfin _ _ 1 _ hm rfl rfl (hV _) one_ne_zero (pow_pos h 2)
    | log => exact hfin _ _ _ _ hm (hlog _ h).1 (hlog _ h).2 (hV _) (one_div_pos.2 h).ne' (pow_pos h 2)
    | logb b =>
      obtain ⟨h1, hb⟩ := h
      exact hfin _ _ _ _ hm (hlogb b y hb).1 (hlogb b y hb).2 (hV _) (one_div_pos.2 (by linarith)).ne' (pow_pos h1 2)
  | invGauss =>
    have hV : ∀ m : ℝ, FamKind.invGauss.V (fin m) = fin (m ^ 3) := fun m => pow_fin m 3
    cases lk with
    | logit => exact absurd h not_false
    | identity => exact hfin _ _ 1 _ hm rfl rfl (hV _) one_ne_zero (pow_pos h 3)
    | log => exact hfin _ _ _ _ hm (hlog _ h).1 (hlog _ h).2 (hV _) (one_div_pos.2 h).ne' (pow_pos h 3)
    | logb b =>
      obtain ⟨h1, hb⟩ := h
      exact hfin _ _ _ _ hm (hlogb b y hb).1 (hlogb b y hb).2 (hV _) (one_div_pos.2 (by linarith)).ne' (pow_pos h1 3)
  | poisson =>
    have m0 : 0 < mu0 FamKind.poisson y := by
      have := le_max_right y 0
      show 0 < max y 0 + 1 / 10
      linarith
    cases lk with
    | logit => exact absurd h not_false
    | identity => exact hfin _ _ 1 _ hm rfl rfl rfl one_ne_zero m0
    | log => exact hfin _ _ _ _ hm (hlog _ m0).1 (hlog _ m0).2 rfl (one_div_pos.2 m0).ne' m0
    | logb b =>
      obtain ⟨h1, hb⟩ := h
      exact hfin _ _ _ _ hm (hlogb b _ (by linarith)).1 (hlogb b _ (by linarith)).2 rfl (one_div_pos.2 (by linarith)).ne' m0

/-- **C116.** So no observation is left out of the first step. -/
theorem first_keeps_all {N : ℕ} {fam : FamKind} {lk : LinkKind} {y : Fin N → ℝ} (h : ∀ i, Adm fam lk (y i)) (o : Fin N → ℝ) :
    validRows (fun i => first fam lk (fin (y i)) (fin (o i))) = List.finRange N := by
  unfold validRows
  rw [List.filter_eq_self]
  intro i _
  obtain ⟨z, w, e, _⟩ := first_valid (h i) (o i)
  have : ¬ invalid (first fam lk (fin (y i)) (fin (o i))) := by
    rw [e]
    unfold invalid
    simp [IsFin]
  simpa using this

example : Adm (.binomial 1) .logit 0 ∧ Adm (.binomial 1) .logit 1 ∧ Adm .poisson .log 0 ∧ Adm .gamma .log 2 ∧ Adm .gaussian .identity (-3) := by
  refine ⟨⟨one_pos, le_rfl, zero_le_one⟩, ⟨one_pos, zero_le_one, le_rfl⟩, le_refl (0 : ℝ), (by norm_num : (0 : ℝ) < 2), trivial⟩

/-- **C116.** The starting mean of a binomial proportion is between a quarter and three quarters, on the side of one half on which the
proportion is, and as documented for proportions 0 and 1. -/
theorem binomial_start (n : ℕ) {y : ℝ} (h0 : 0 ≤ y) (h1 : y ≤ 1) :
    ∃ m : ℝ, initMu (.binomial n) (fin y) = fin m ∧ 1 / 4 ≤ m ∧ m ≤ 3 / 4 ∧ (y = 0 → m = 1 / 4) ∧ (y = 1 → m = 3 / 4) ∧ (1 / 2 ≤ y ↔ 1 / 2 ≤ m) := by
  refine ⟨_, initMu_fin _ _, ?_, ?_, ?_, ?_, ?_⟩ <;> unfold mu0
  · linarith
  · linarith
  · rintro rfl; norm_num
  · rintro rfl; norm_num
  · constructor <;> intro h <;> linarith

/-- **C116.** The starting mean of a count is positive and exceeds it by 0.1. -/
theorem poisson_start {y : ℝ} (h : 0 ≤ y) : initMu .poisson (fin y) = fin (y + 1 / 10) := by
  rw [initMu_fin]
  show fin (max y 0 + 1 / 10) = _
  rw [max_eq_left h]

/-- **C116, what fails (1).** A normal response can be zero or negative, the log link is offered for it, but the fit starts from the
response as mean: such observations are left out of the first step. -/
theorem log_start_wrong {y : ℝ} (h : y ≤ 0) (o : ℝ) : invalid (first .gaussian .log (fin y) (fin o)) := by
  unfold invalid
  have e : first .gaussian .log (fin y) (fin o) = (LinkKind.log.dy1 (fin y) * (fin y - fin y) + (LinkKind.log.f (fin y) - fin o),
      fin 1 / (Fl.pow (LinkKind.log.dy1 (fin y)) 2 * FamKind.gaussian.V (fin y))) := rfl
  rw [e]
  intro hh
  rcases h.lt_or_eq with h | rfl
  · have : LinkKind.log.f (fin y) = nan := by
      show Fl.log (fin y) = nan
      simp [Fl.log, not_lt.2 h.le, h.ne]
    rw [this] at hh
    have h2 : ∀ x : Fl, x + (nan - fin o) = nan := by
      intro x
      cases x <;> rfl
    rw [h2] at hh
    exact hh.1
  · have h3 : LinkKind.log.dy1 (fin 0) = pinf := by
      show div (fin 1) (fin 0) = pinf
      simp [div, infSign]
    rw [h3] at hh
    have h4 : pinf * (fin 0 - fin 0) = nan := by
      rw [fin_sub, sub_zero]
      show infSign 0 = nan
      simp [infSign]
    rw [h4] at hh
    have h2 : ∀ x : Fl, nan + x = nan := by
      intro x
      cases x <;> rfl
    rw [h2] at hh
    exact hh.1

/-- **C116, what fails (1).** If no response is positive the fit cannot start: an exception is raised. -/
theorem log_start_raises_wrong {N : ℕ} {y : Fin N → ℝ} (h : ∀ i, y i ≤ 0) (o : Fin N → ℝ) :
    workingData (fun i => first .gaussian .log (fin (y i)) (fin (o i))) = Option.none := by
  unfold workingData
  rw [if_pos fun i => log_start_wrong (h i) (o i)]

/-! ### Coefficients -/

theorem cumul_split (c : List ℝ) : ∀ (ns : List ℕ) (a k : ℕ), a + ns.sum + k = c.length →
    (npSplit c a (cumul a ns)).map List.length = ns ++ [k] ∧ (npSplit c a (cumul a ns)).flatten = c.drop a := by
  intro ns
  induction ns with
  | nil =>
    intro a k h
    simp [cumul, npSplit] at h ⊢
    omega
  | cons n ns ih =>
    intro a k h
    rw [List.sum_cons] at h
    obtain ⟨h1, h2⟩ := ih (a + n) k (by omega)
    rw [cumul, npSplit]
    refine ⟨?_, ?_⟩
    · rw [List.map_cons, h1, List.cons_append]
      congr 1
      simp
      omega
    · rw [List.flatten_cons, h2]
      conv_rhs => rw [← List.take_append_drop n (c.drop a)]
      rw [List.drop_drop, List.drop_take]
      congr 2
      omega

theorem splitIdx_cumul {ns : List ℕ} (ex : Option ℕ) (hns : ns ≠ []) : splitIdx ns ex = cumul 0 (sizes ns ex).dropLast := by
  unfold splitIdx
  by_cases h : 1 < ns.length
  · rw [if_pos h]
  · rw [if_neg h]
    rcases ns with _ | ⟨n, _ | ⟨m, l⟩⟩
    · exact absurd rfl hns
    · cases ex <;> simp [sizes, cumul]
    · simp at h

/-- **C116.** A coefficient vector of the right length is split into the coefficients of the formulas, in order, followed by the extra
coefficients of the family, if there are any. -/
theorem split_spec {ns : List ℕ} (ex : Option ℕ) (hns : ns ≠ []) {c : List ℝ} (hc : c.length = (sizes ns ex).sum) :
    (npSplit c 0 (splitIdx ns ex)).map List.length = sizes ns ex ∧ (npSplit c 0 (splitIdx ns ex)).flatten = c := by
  rw [splitIdx_cumul ex hns]
  have hne : sizes ns ex ≠ [] := by
    unfold sizes
    simp [hns]
  have hd := List.dropLast_append_getLast hne
  have hs : (sizes ns ex).dropLast.sum + (sizes ns ex).getLast hne = c.length := by
    rw [hc]
    conv_rhs => rw [← hd]
    simp
  obtain ⟨h1, h2⟩ := cumul_split c (sizes ns ex).dropLast 0 ((sizes ns ex).getLast hne) (by omega)
  rw [hd] at h1
  exact ⟨h1, by rw [h2]; rfl⟩

example : npSplit [1, 2, 3, 4, 5, 6] 0 (splitIdx [2, 3] (some 1)) = [[1, 2], [3, 4, 5], [6]] := rfl

/-- Numbers of formulas that the families take. -/
def Takes : Kind → ℕ → Prop
  | .none, _ => True
  | .mean, k => k = 2
  | _, k => k = 1

/-- **C116.** Starting values that the family gives have one entry for every coefficient, if the fit of the first formula has. -/
theorem family_length {k : Kind} {ns : List ℕ} {fit c : List ℝ} (ht : Takes k ns.length) (hf : fit.length = ns.getD 0 0)
    (h : initCoef k ns fit = some c) : c.length = (sizes ns (extra k)).sum := by
  have h1 : ns.length = 1 → ∃ n, ns = [n] := List.length_eq_one_iff.1
  have h2 : ns.length = 2 → ∃ n m, ns = [n, m] := List.length_eq_two.1
  cases k with
  | none => exact absurd h (by simp [initCoef])
  | mean =>
    obtain ⟨n, m, rfl⟩ := h2 ht
    simp [initCoef] at h hf
    rw [← h]
    simp [sizes, extra, hf]
  | small =>
    obtain ⟨n, rfl⟩ := h1 ht
    simp [initCoef] at h
    rw [← h]
    simp [sizes, extra]
  | wrapped =>
    obtain ⟨n, rfl⟩ := h1 ht
    simp [initCoef] at h hf
    rw [← h]
    simp [sizes, extra, hf]
  | wrappedScale =>
    obtain ⟨n, rfl⟩ := h1 ht
    simp [initCoef] at h hf
    rw [← h]
    simp [sizes, extra, hf]
  | wrappedTheta t =>
    obtain ⟨n, rfl⟩ := h1 ht
    simp [initCoef] at h hf
    rw [← h]
    simp [sizes, extra, hf]

/-- **C116.** Without starting values from the caller every fit starts with coefficients that split into those of the formulas. -/
theorem start_splits {k : Kind} {ns : List ℕ} {fit : List ℝ} (hns : ns ≠ []) (ht : Takes k ns.length) (hf : fit.length = ns.getD 0 0)
    {rvs : ℕ → List ℝ} (hr : ∀ n, (rvs n).length = n) :
    (npSplit (startCoef Option.none (initCoef k ns fit) rvs ns (extra k)) 0 (splitIdx ns (extra k))).map List.length = sizes ns (extra k) := by
  refine (split_spec _ hns ?_).1
  unfold startCoef
  dsimp only
  rcases h : initCoef k ns fit with _ | c
  · exact hr _
  · exact family_length ht hf h

example : startCoef Option.none (initCoef .mean [2, 1] [5, 6]) (fun n => List.replicate n 0) [2, 1] Option.none = [5, 6, 1] := rfl

/-- **C116, what fails (2).** The length of starting values given by the caller is not checked: a vector that is too long is split so that the
last part has too many entries. -/
theorem length_unchecked_wrong : ∃ c : List ℝ, c.length ≠ (sizes [1, 1] Option.none).sum ∧
    (npSplit (startCoef (some c) Option.none (fun n => List.replicate n 0) [1, 1] Option.none) 0 (splitIdx [1, 1] Option.none)).map List.length = [1, 2] :=
  ⟨[0, 0, 0], by simp [sizes], rfl⟩

/-! ### Smoothing parameters -/

/-- **C116.** Smoothing parameters start from the values given, one for every penalty by position; otherwise they are all equal and positive. -/
theorem lam_start {user fam : Option (List ℝ)} {q : Bool} {m : ℕ} {l : List ℝ} (h : startLam user fam q m = some l) :
    l.length = m ∧
      (∀ u, user = some u → ∀ i < m, l[i]? = u[i]?) ∧
      (user = Option.none → ∀ f, fam = some f → ∀ i < m, l[i]? = f[i]?) ∧
      (user = Option.none → fam = Option.none → ∀ x ∈ l, x = if q then 1 else 10) := by
  unfold startLam at h
  have key : ∀ u : List ℝ, (if m ≤ u.length then some (u.take m) else Option.none) = some l → l.length = m ∧ ∀ i < m, l[i]? = u[i]? := by
    intro u hu
    by_cases hm : m ≤ u.length
    · rw [if_pos hm] at hu
      rw [← Option.some.inj hu]
      refine ⟨by simp [hm], fun i hi => by rw [List.getElem?_take_of_lt hi]⟩
    · rw [if_neg hm] at hu
      exact absurd hu (by simp)
  rcases user with _ | u
  · rcases fam with _ | f
    · simp only [Option.or] at h
      rw [← Option.some.inj h]
      refine ⟨by simp, by simp, by simp, fun _ _ x hx => List.eq_of_mem_replicate hx⟩
    · simp only [Option.or] at h
      obtain ⟨k1, k2⟩ := key f h
      refine ⟨k1, by simp, ?_, by simp⟩
      rintro _ f' hf i hi
      rw [k2 i hi, ← Option.some.inj hf]
  · simp only [Option.or] at h
    obtain ⟨k1, k2⟩ := key u h
    refine ⟨k1, ?_, by simp, by simp⟩
    rintro u' hu i hi
    rw [k2 i hi, ← Option.some.inj hu]

/-- **C116.** Too few starting values raise an exception, so that no penalty is left without one. -/
theorem lam_short {u : List ℝ} {fam : Option (List ℝ)} {q : Bool} {m : ℕ} : startLam (some u) fam q m = Option.none ↔ u.length < m := by
  unfold startLam
  simp only [Option.or]
  by_cases h : m ≤ u.length
  · rw [if_pos h]; simp; omega
  · rw [if_neg h]; simp; omega

/-! ### Columns for structured quasi-Newton fits -/

/-- The terms of a formula have different columns, all of them below the number of coefficients. -/
def Formula (f : List Term × ℕ) : Prop :=
  (f.1.flatMap fun t => t.cols).Nodup ∧ ∀ t ∈ f.1, ∀ j ∈ t.cols, j < f.2

/-- A draw without replacement. -/
def Draws (choice : List ℕ → ℕ → List ℕ) : Prop :=
  ∀ l k, k ≤ l.length → (choice l k).length = k ∧ (choice l k).Subperm l

theorem fixed_mem {fs : List (List Term × ℕ)} : ∀ (s j : ℕ), j ∈ fixedCols s fs ↔
    ∃ i, ∃ h : i < fs.length, ∃ t ∈ fs[i].1, t.random = false ∧ t.fs = false ∧ ∃ c ∈ t.cols, j = c + (s + ((fs.take i).map fun f => f.2).sum) := by
  induction fs with
  | nil => intro s j; simp [fixedCols]
  | cons f fs ih =>
    intro s j
    obtain ⟨ts, n⟩ := f
    rw [fixedCols, List.mem_append, ih]
    constructor
    · rintro (h | ⟨i, hi, t, ht, h1, h2, c, hc, hj⟩)
      · obtain ⟨t, ht, hj⟩ := List.mem_flatMap.1 h
        rw [List.mem_filter] at ht
        obtain ⟨c, hc, hcj⟩ := List.mem_map.1 hj
        simp at ht
        exact ⟨0, by simp, t, ht.1, ht.2.1, ht.2.2, c, hc, by simp; omega⟩
      · exact ⟨i + 1, by simpa using hi, t, ht, h1, h2, c, hc, by rw [hj, List.take_succ_cons, List.map_cons, List.sum_cons]; omega⟩
    · rintro ⟨i, hi, t, ht, h1, h2, c, hc, hj⟩
      cases i with
      | zero =>
        left
        refine List.mem_flatMap.2 ⟨t, ?_, ?_⟩
        · rw [List.mem_filter]; exact ⟨ht, by simp [h1, h2]⟩
        · exact List.mem_map.2 ⟨c, hc, by simp at hj; omega⟩
      | succ i =>
        right
        exact ⟨i, by simpa using hi, t, ht, h1, h2, c, hc, by rw [hj, List.take_succ_cons, List.map_cons, List.sum_cons]; dsimp only; omega⟩

theorem fixed_bounds {fs : List (List Term × ℕ)} (hF : ∀ f ∈ fs, Formula f) : ∀ s, (fixedCols s fs).Nodup ∧ ∀ j ∈ fixedCols s fs, s ≤ j ∧ j < s + total fs := by
  induction fs with
  | nil => intro s; simp [fixedCols]
  | cons f fs ih =>
    intro s
    obtain ⟨ts, n⟩ := f
    obtain ⟨i1, i2⟩ := ih (fun f hf => hF f (List.mem_cons_of_mem _ hf)) (s + n)
    obtain ⟨f1, f2⟩ := hF _ List.mem_cons_self
    dsimp only at f1 f2
    have htot : total ((ts, n) :: fs) = n + total fs := by simp [total]
    have hhead : ∀ j ∈ ((ts.filter fun t => !t.random && !t.fs).flatMap fun t => t.cols.map (· + s)), s ≤ j ∧ j < s + n := by
      intro j hj
      obtain ⟨t, ht, hjt⟩ := List.mem_flatMap.1 hj
      obtain ⟨c, hc, rfl⟩ := List.mem_map.1 hjt
      have := f2 t (List.mem_filter.1 ht).1 c hc
      omega
    rw [fixedCols]
    refine ⟨?_, ?_⟩
    · rw [List.nodup_append']
      refine ⟨?_, i1, ?_⟩
      · have : ((ts.filter fun t => !t.random && !t.fs).flatMap fun t => t.cols.map (· + s))
            = ((ts.filter fun t => !t.random && !t.fs).flatMap fun t => t.cols).map (· + s) := by
          rw [List.map_flatMap]
        rw [this]
        refine List.Nodup.map (fun a b h => by simpa using h) ?_
        exact f1.sublist (List.filter_sublist.flatMap _)
      · intro j h1 h2
        have := hhead j h1
        have := i2 j h2
        omega
    · intro j hj
      rw [htot]
      rcases List.mem_append.1 hj with h | h
      · have := hhead j h; omega
      · have := i2 j h; omega

theorem all_bounds {fs : List (List Term × ℕ)} (hF : ∀ f ∈ fs, Formula f) (ex : Option ℕ) :
    (allCols fs ex).Nodup ∧ ∀ j ∈ allCols fs ex, j < total fs + ex.getD 0 := by
  obtain ⟨h1, h2⟩ := fixed_bounds hF 0
  unfold allCols
  cases ex with
  | none =>
    simp only [List.append_nil]
    exact ⟨h1, fun j hj => by have := h2 j hj; simp; omega⟩
  | some e =>
    refine ⟨?_, ?_⟩
    · rw [List.nodup_append']
      refine ⟨h1, ?_, ?_⟩
      · exact List.Nodup.map (fun a b h => by simpa using h) List.nodup_range
      · intro j hj hk
        obtain ⟨c, hc, rfl⟩ := List.mem_map.1 hk
        have := h2 _ hj
        omega
    · intro j hj
      rcases List.mem_append.1 hj with h | h
      · have := h2 j h; simp; omega
      · obtain ⟨c, hc, rfl⟩ := List.mem_map.1 h
        have := List.mem_range.1 hc
        simp
        omega

/-- **C116.** The columns of the Hessian that are approximated by finite differences are different columns of fixed effects or extra
coefficients, no more than the budget allows, and never all columns. -/
theorem columns_spec {fs : List (List Term × ℕ)} (hF : ∀ f ∈ fs, Formula f) (ex : Option ℕ) {choice : List ℕ → ℕ → List ℕ} (hd : Draws choice)
    (b : Budget) {n : ℕ} (hn : n = total fs + ex.getD 0) (h0 : 0 < n) :
    (chosen choice (allCols fs ex) n b).Nodup ∧ (∀ j ∈ chosen choice (allCols fs ex) n b, j ∈ allCols fs ex ∧ j < n) ∧
      (chosen choice (allCols fs ex) n b).length ≤ budgetOf b (allCols fs ex).length ∧ (chosen choice (allCols fs ex) n b).length < n := by
  obtain ⟨a1, a2⟩ := all_bounds hF ex
  have hlen : (allCols fs ex).length ≤ n := by
    have hs : (allCols fs ex).toFinset ⊆ Finset.range n := by
      intro j hj
      rw [List.mem_toFinset] at hj
      rw [Finset.mem_range, hn]
      exact a2 j hj
    have := Finset.card_le_card hs
    rwa [List.toFinset_card_of_nodup a1, Finset.card_range] at this
  have key : ∀ k ≤ (allCols fs ex).length, k ≤ budgetOf b (allCols fs ex).length → k < n →
      (choice (allCols fs ex) k).Nodup ∧ (∀ j ∈ choice (allCols fs ex) k, j ∈ allCols fs ex ∧ j < n) ∧
        (choice (allCols fs ex) k).length ≤ budgetOf b (allCols fs ex).length ∧ (choice (allCols fs ex) k).length < n := by
    intro k hk hb hkn
    obtain ⟨d1, d2⟩ := hd _ k hk
    obtain ⟨l, hl, hs⟩ := d2
    refine ⟨hl.nodup_iff.1 (a1.sublist hs), fun j hj => ?_, by rw [d1]; exact hb, by rw [d1]; exact hkn⟩
    have hj' := hs.subset (hl.mem_iff.2 hj)
    exact ⟨hj', by rw [hn]; exact a2 j hj'⟩
  unfold chosen
  by_cases c1 : (allCols fs ex).length = n ∧ (allCols fs ex).length ≤ budgetOf b (allCols fs ex).length
  · rw [if_pos c1]
    exact key (n - 1) (by omega) (by omega) (by omega)
  rw [if_neg c1]
  by_cases c2 : budgetOf b (allCols fs ex).length < (allCols fs ex).length
  · rw [if_pos c2]
    exact key _ c2.le le_rfl (by omega)
  rw [if_neg c2]
  refine ⟨a1, fun j hj => ⟨hj, by rw [hn]; exact a2 j hj⟩, by omega, ?_⟩
  rcases lt_or_eq_of_le hlen with h | h
  · exact h
  · exact absurd ⟨h, by omega⟩ c1

/-- **C116.** A budget that is a number gives as many columns as possible below it: all but one if all columns are eligible. -/
theorem columns_number {fs : List (List Term × ℕ)} (hF : ∀ f ∈ fs, Formula f) (ex : Option ℕ) {choice : List ℕ → ℕ → List ℕ} (hd : Draws choice)
    (k : ℕ) {n : ℕ} (hn : n = total fs + ex.getD 0) (h0 : 0 < n) :
    (chosen choice (allCols fs ex) n (.number k)).length = min k (min (allCols fs ex).length (n - 1)) := by
  obtain ⟨_, _, _, h4⟩ := columns_spec hF ex hd (.number k) hn h0
  have hb : budgetOf (.number k) (allCols fs ex).length = k := rfl
  unfold chosen at h4 ⊢
  rw [hb] at h4 ⊢
  by_cases c1 : (allCols fs ex).length = n ∧ (allCols fs ex).length ≤ k
  · rw [if_pos c1]
    rw [(hd _ (n - 1) (by omega)).1]
    omega
  rw [if_neg c1] at h4 ⊢
  by_cases c2 : k < (allCols fs ex).length
  · rw [if_pos c2] at h4 ⊢
    rw [(hd _ _ c2.le).1] at h4 ⊢
    omega
  · rw [if_neg c2] at h4 ⊢
    omega

/-- **C116.** A budget that is a share gives at most that share of the eligible columns, or one. -/
theorem columns_share {fs : List (List Term × ℕ)} (hF : ∀ f ∈ fs, Formula f) (ex : Option ℕ) {choice : List ℕ → ℕ → List ℕ} (hd : Draws choice)
    {q : ℝ} (hq : 0 ≤ q) {n : ℕ} (hn : n = total fs + ex.getD 0) (h0 : 0 < n) :
    ((chosen choice (allCols fs ex) n (.share q)).length : ℝ) ≤ max 1 (q * (allCols fs ex).length) := by
  obtain ⟨_, _, h3, _⟩ := columns_spec hF ex hd (.share q) hn h0
  have h : ((budgetOf (.share q) (allCols fs ex).length : ℕ) : ℝ) ≤ max 1 (q * (allCols fs ex).length) := by
    show ((max 1 ⌊q * (allCols fs ex).length⌋₊ : ℕ) : ℝ) ≤ _
    rw [Nat.cast_max, Nat.cast_one]
    exact max_le_max le_rfl (Nat.floor_le (mul_nonneg hq (Nat.cast_nonneg _)))
  exact le_trans (by exact_mod_cast h3) h

/-- **C116.** What the columns are: those of terms that are neither random nor factor smooths, shifted by the numbers of coefficients of earlier
formulas, and those of the extra coefficients. -/
theorem columns_mem (fs : List (List Term × ℕ)) (ex : Option ℕ) (j : ℕ) : j ∈ allCols fs ex ↔
    (∃ i, ∃ h : i < fs.length, ∃ t ∈ fs[i].1, t.random = false ∧ t.fs = false ∧ ∃ c ∈ t.cols, j = c + ((fs.take i).map fun f => f.2).sum) ∨
      (∃ e, ex = some e ∧ total fs ≤ j ∧ j < total fs + e) := by
  unfold allCols
  rw [List.mem_append, fixed_mem]
  simp only [Nat.zero_add]
  refine or_congr Iff.rfl ?_
  cases ex with
  | none => simp
  | some e =>
    simp only [List.mem_map, List.mem_range, Option.some.injEq]
    constructor
    · rintro ⟨c, hc, rfl⟩
      exact ⟨e, rfl, by omega, by omega⟩
    · rintro ⟨_, rfl, h1, h2⟩
      exact ⟨j - total fs, by omega, by omega⟩

/-- **C116.** `np.unique` changes nothing but the order. -/
theorem unique_perm {l : List ℕ} (h : l.Nodup) : (unique l).Perm l := by
  unfold unique
  rw [List.Nodup.dedup h]
  exact List.mergeSort_perm l _

example : chosen (fun l k => l.take k) (allCols [([⟨false, false, [0]⟩, ⟨false, false, [1, 2]⟩], 3)] Option.none) 3 (.share 1) = [0, 1] := by
  simp [chosen, allCols, fixedCols, budgetOf]

end Verif.Init
