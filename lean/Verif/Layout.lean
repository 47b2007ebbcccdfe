import Verif.LayoutTerms
import Mathlib.LinearAlgebra.Matrix.PosDef
import Mathlib.Algebra.Order.Star.Real
import Mathlib.Tactic.IntervalCases

/-!
# Placement of penalties in a formula (property C74)
-/

namespace Verif.Layout

open Verif.Pen Verif.Sp Finset

/-! ## Formulas -/

/-- An expected penalty: term, first column and number of columns of the term, whether it is a null-space penalty, its
quadratic form. -/
structure Expect where
  term : ℕ
  c : ℕ
  w : ℕ
  null : Bool
  val : (ℕ → ℝ) → ℝ

/-- The penalty belongs to the term, is zero outside of the term's columns, and has the quadratic form. -/
structure Placed (N : ℕ) (p : Pn) (e : Expect) : Prop where
  term : p.term = e.term
  null : p.null = e.null
  inside : e.c + e.w ≤ N
  outside : ∀ i j, ¬ ((e.c ≤ i ∧ i < e.c + e.w) ∧ e.c ≤ j ∧ j < e.c + e.w) → p.S i j = 0
  val : ∀ β, quad N p.S β = e.val β

/-- Expected penalties of impulse response terms whose columns start at `c`. -/
noncomputable def irExp : ℕ → List (ℕ × Ir) → List Expect
  | _, [] => []
  | c, t :: L => ((irVals t.2 c).map fun v => ⟨t.1, c, irCoef t.2, v.1, v.2⟩) ++ irExp (c + irCoef t.2) L

/-- Expected penalties of smooth terms whose columns start at `c`; unpenalised ones have none. -/
noncomputable def smExp (nul : Arr → ℕ → Trip) (src : ℕ → Sm → ℕ → List Trip → List (Arr × ℕ)) :
    ℕ → List (ℕ × Sm) → List Expect
  | _, [] => []
  | c, t :: L => ((if t.2.penalized then smVals nul t.2 c (src t.1 t.2 c) else []).map
      fun v => ⟨t.1, c, nCoef t.2, v.1, v.2⟩) ++ smExp nul src (c + nCoef t.2) L

/-- Expected penalties of random terms whose columns start at `c`. -/
noncomputable def rdExp : ℕ → List (ℕ × Rd) → List Expect
  | _, [] => []
  | c, t :: L => ((rdVals t.2 c).map fun v => ⟨t.1, c, t.2.k * t.2.n, v.1, v.2⟩) ++ rdExp (c + t.2.k * t.2.n) L

/-- Expected penalties of a formula. The columns are those of linear, impulse response, smooth and random terms. -/
noncomputable def formExp (nul : Arr → ℕ → Trip) (src : ℕ → Sm → ℕ → List Trip → List (Arr × ℕ)) (F : Form) : List Expect :=
  irExp F.lin F.irs ++ smExp nul src (F.lin + (F.irs.map fun t => irCoef t.2).sum) F.sms
    ++ rdExp (F.lin + (F.irs.map fun t => irCoef t.2).sum + (F.sms.map fun t => nCoef t.2).sum) F.rds

/-- Formulas whose unpenalised smooths come before penalised ones and not together with impulse response terms, and
whose impulse response terms are penalised. -/
structure FormOK (F : Form) : Prop where
  irs : ∀ t ∈ F.irs, IrOK t.2
  split : ∃ un pe, F.sms = un ++ pe ∧ (∀ t ∈ un, t.2.penalized = false) ∧ (∀ t ∈ pe, SmOK t.2 ∧ NullOK t.2) ∧
    (un = [] ∨ F.irs = [])

theorem placed_of {N ti c w : ℕ} (hN : c + w ≤ N) {p : Pn} {v : Bool × ((ℕ → ℝ) → ℝ)} (h : IsKind ti c w p v) :
    Placed N p ⟨ti, c, w, v.1, v.2⟩ :=
  ⟨h.1, h.2.1, hN, fun i j hij => h.2.2.outside i j (by dsimp only at hij; omega), fun β => h.2.2.quad N hN β⟩

theorem placed_all {N ti c w : ℕ} (hN : c + w ≤ N) {new : List Pn} {vs : List (Bool × ((ℕ → ℝ) → ℝ))}
    (h : List.Forall₂ (IsKind ti c w) new vs) :
    List.Forall₂ (Placed N) new (vs.map fun v => ⟨ti, c, w, v.1, v.2⟩) := by
  induction h with
  | nil => exact List.Forall₂.nil
  | cons h1 _ ih => exact List.Forall₂.cons (placed_of hN h1) ih

theorem irs_fold (N : ℕ) (L : List (ℕ × Ir)) (hL : ∀ t ∈ L, IrOK t.2) (c st : ℕ)
    (hN : c + (L.map fun t => irCoef t.2).sum ≤ N) (ps : List Pn) :
    ∃ new, L.foldl irStep (some (ps, c, c, st)) = some (ps ++ new, c + (L.map fun t => irCoef t.2).sum,
        c + (L.map fun t => irCoef t.2).sum, st) ∧ List.Forall₂ (Placed N) new (irExp c L) := by
  induction L generalizing c ps with
  | nil => exact ⟨[], by simp, by simp [irExp]⟩
  | cons t L ih =>
    rw [List.map_cons, List.sum_cons] at hN
    obtain ⟨n1, h1, h2⟩ := ir_spec (hL t (by simp)) t.1 c st ps
    obtain ⟨n2, h3, h4⟩ := ih (fun u hu => hL u (by simp [hu])) (c + irCoef t.2) (by omega) (ps ++ n1)
    refine ⟨n1 ++ n2, ?_, ?_⟩
    · rw [List.foldl_cons, h1, h3, List.map_cons, List.sum_cons, List.append_assoc, Nat.add_assoc]
    · exact List.rel_append (placed_all (by omega) h2) h4

theorem sms_fold (nul : Arr → ℕ → Trip) (hnul : ∀ A w, InRange w (nul A w)) (N : ℕ) (L : List (ℕ × Sm))
    (hL : ∀ t ∈ L, SmOK t.2 ∧ NullOK t.2) (c : ℕ) (hN : c + (L.map fun t => nCoef t.2).sum ≤ N) (ps : List Pn) :
    ∃ new, L.foldl (smoothStep nul) (some (ps, c, c)) = some (ps ++ new, c + (L.map fun t => nCoef t.2).sum,
        c + (L.map fun t => nCoef t.2).sum) ∧
      List.Forall₂ (Placed N) new (smExp nul (fun ti s c => srcOf ti s c) c L) := by
  induction L generalizing c ps with
  | nil => exact ⟨[], by simp, by simp [smExp]⟩
  | cons t L ih =>
    rw [List.map_cons, List.sum_cons] at hN
    obtain ⟨n1, h1, h2⟩ := smooth_spec' (hL t (by simp)).1 (hL t (by simp)).2 nul hnul t.1 c ps
    obtain ⟨n2, h3, h4⟩ := ih (fun u hu => hL u (by simp [hu])) (c + nCoef t.2) (by omega) (ps ++ n1)
    refine ⟨n1 ++ n2, ?_, ?_⟩
    · rw [List.foldl_cons, h1, h3, List.map_cons, List.sum_cons, List.append_assoc, Nat.add_assoc]
    · unfold smExp
      rw [if_pos (hL t (by simp)).1.pen]
      exact List.rel_append (placed_all (by omega) h2) h4

theorem rds_fold (N : ℕ) (L : List (ℕ × Rd)) (c : ℕ) (hN : c + (L.map fun t => t.2.k * t.2.n).sum ≤ N) (ps : List Pn) :
    ∃ new, L.foldl randStep (ps, c) = (ps ++ new, c + (L.map fun t => t.2.k * t.2.n).sum) ∧
      List.Forall₂ (Placed N) new (rdExp c L) := by
  induction L generalizing c ps with
  | nil => exact ⟨[], by simp, by simp [rdExp]⟩
  | cons t L ih =>
    rw [List.map_cons, List.sum_cons] at hN
    obtain ⟨n1, h1, h2⟩ := rd_spec t.2 t.1 c ps
    obtain ⟨n2, h3, h4⟩ := ih (c + t.2.k * t.2.n) (by omega) (ps ++ n1)
    refine ⟨n1 ++ n2, ?_, ?_⟩
    · rw [List.foldl_cons, h1, h3, List.map_cons, List.sum_cons, List.append_assoc, Nat.add_assoc]
    · exact List.rel_append (placed_all (by omega) h2) h4

theorem un_fold (nul : Arr → ℕ → Trip) (un : List (ℕ × Sm)) (hun : ∀ t ∈ un, t.2.penalized = false) (c : ℕ) :
    un.foldl (smoothStep nul) (some ([], c, c)) = some ([], c, c) := by
  induction un with
  | nil => rfl
  | cons t L ih =>
    rw [List.foldl_cons]
    have : smoothStep nul (some ([], c, c)) t = some ([], c, c) := by
      unfold smoothStep
      simp [hun t (by simp)]
    rw [this, ih fun u hu => hun u (by simp [hu])]

theorem smExp_un (nul : Arr → ℕ → Trip) (src : ℕ → Sm → ℕ → List Trip → List (Arr × ℕ)) (un pe : List (ℕ × Sm))
    (hun : ∀ t ∈ un, t.2.penalized = false) (c : ℕ) :
    smExp nul src c (un ++ pe) = smExp nul src (c + (un.map fun t => nCoef t.2).sum) pe := by
  induction un generalizing c with
  | nil => simp
  | cons t L ih =>
    rw [List.cons_append]
    conv_lhs => unfold smExp
    rw [hun t (by simp), ih (fun u hu => hun u (by simp [hu]))]
    simp [Nat.add_assoc]

/-- **Placement.** `build_penalties` returns exactly the expected penalties: each one belongs to its term, is zero
outside of the columns of that term, and its quadratic form is that of the term's penalty applied to the term's
coefficients, with dropped coefficients replaced by zero. -/
theorem penalties_placed_partial (F : Form) (hF : FormOK F) (nul : Arr → ℕ → Trip) (hnul : ∀ A w, InRange w (nul A w)) :
    ∃ src : ℕ → Sm → ℕ → List Trip → List (Arr × ℕ), (∀ ti s c, SmOK s → SrcOK s (src ti s c)) ∧
      ∃ ps, buildPenalties nul F = some ps ∧ List.Forall₂ (Placed F.nCoef) ps (formExp nul src F) := by
  refine ⟨fun ti s c => srcOf ti s c, fun ti s c h => srcOf_ok h ti c, ?_⟩
  obtain ⟨un, pe, hsm, hun, hpe, hor⟩ := hF.split
  have hirz : (F.irs.map fun t => if t.2.penalized then 0 else irCoef t.2).sum = 0 := by
    refine List.sum_eq_zero fun x hx => ?_
    obtain ⟨t, ht, rfl⟩ := List.mem_map.1 hx
    rw [if_pos (hF.irs t ht).pen]
  have hunz : (F.sms.map fun t => if t.2.penalized then 0 else nCoef t.2).sum = (un.map fun t => nCoef t.2).sum := by
    rw [hsm, List.map_append, List.sum_append]
    have h1 : (pe.map fun t => if t.2.penalized then 0 else nCoef t.2).sum = 0 := by
      refine List.sum_eq_zero fun x hx => ?_
      obtain ⟨t, ht, rfl⟩ := List.mem_map.1 hx
      rw [if_pos (hpe t ht).1.pen]
    rw [h1, Nat.add_zero]
    congr 1
    refine List.map_congr_left fun t ht => ?_
    rw [if_neg (by simp [hun t ht])]
  have hnc : F.nCoef = F.lin + (F.irs.map fun t => irCoef t.2).sum + (un.map fun t => nCoef t.2).sum
      + (pe.map fun t => nCoef t.2).sum + (F.rds.map fun t => t.2.k * t.2.n).sum := by
    unfold Form.nCoef
    rw [hsm, List.map_append, List.sum_append, ← Nat.add_assoc]
  have hsum : (F.sms.map fun t => nCoef t.2).sum = (un.map fun t => nCoef t.2).sum + (pe.map fun t => nCoef t.2).sum := by
    rw [hsm, List.map_append, List.sum_append]
  have hst : F.unpen = F.lin + (un.map fun t => nCoef t.2).sum := by
    unfold Form.unpen
    rw [hirz, hunz, Nat.add_zero]
  obtain ⟨n1, a1, a2⟩ := irs_fold F.nCoef F.irs hF.irs F.unpen F.unpen (by rw [hst, hnc]; omega) []
  -- start of the smooth terms
  have hs0 : (F.irs.map fun t => irCoef t.2).sum + F.unpen
      = F.lin + (F.irs.map fun t => irCoef t.2).sum + (un.map fun t => nCoef t.2).sum := by rw [hst]; omega
  have hn1 : un = [] ∨ n1 = [] := by
    rcases hor with h | h
    · exact Or.inl h
    · right
      rw [h] at a2
      cases a2
      rfl
  have hunf : un.foldl (smoothStep nul) (some (n1, F.unpen + (F.irs.map fun t => irCoef t.2).sum,
      F.unpen + (F.irs.map fun t => irCoef t.2).sum)) = some (n1, F.unpen + (F.irs.map fun t => irCoef t.2).sum,
      F.unpen + (F.irs.map fun t => irCoef t.2).sum) := by
    rcases hn1 with h | h
    · rw [h]; rfl
    · rw [h]; exact un_fold nul un hun _
  obtain ⟨n2, b1, b2⟩ := sms_fold nul hnul F.nCoef pe hpe (F.unpen + (F.irs.map fun t => irCoef t.2).sum)
    (by rw [hst, hnc]; omega) n1
  obtain ⟨n3, c1, c2⟩ := rds_fold F.nCoef F.rds (F.unpen + (F.irs.map fun t => irCoef t.2).sum + (pe.map fun t => nCoef t.2).sum)
    (by rw [hst, hnc]; omega) (n1 ++ n2)
  refine ⟨n1 ++ n2 ++ n3, ?_, ?_⟩
  · unfold buildPenalties
    dsimp only
    rw [a1, Option.bind_some, List.nil_append]
    dsimp only
    rw [hsm, List.foldl_append, hunf, b1, Option.bind_some]
    dsimp only
    rw [c1]
    dsimp only
    rw [if_neg (by rw [hst, hnc]; omega)]
  · unfold formExp
    refine List.rel_append (List.rel_append ?_ ?_) ?_
    · rcases hor with h | h
      · rw [show F.lin = F.unpen by rw [hst, h]; simp]
        exact a2
      · rw [h] at a2 ⊢
        cases a2
        exact List.Forall₂.nil
    · rw [hsm, smExp_un nul _ un pe hun, show F.lin + (F.irs.map fun t => irCoef t.2).sum + (un.map fun t => nCoef t.2).sum
        = F.unpen + (F.irs.map fun t => irCoef t.2).sum by omega]
      exact b2
    · rw [hsum, show F.lin + (F.irs.map fun t => irCoef t.2).sum + ((un.map fun t => nCoef t.2).sum
        + (pe.map fun t => nCoef t.2).sum) = F.unpen + (F.irs.map fun t => irCoef t.2).sum + (pe.map fun t => nCoef t.2).sum by omega]
      exact c2

/-! ### A formula for which all of this holds -/

/-- Second differences of three coefficients. -/
def exT : Trip := [(0, 0, 1), (0, 1, -2), (0, 2, 1), (1, 0, -2), (1, 1, 4), (1, 2, -2), (2, 0, 1), (2, 1, -2), (2, 2, 1)]

/-- A smooth for each of two levels, from which two coefficients were dropped. -/
def exSm : Sm := ⟨3, [exT], some 2, false, some [1, 5], 1, false, none, true⟩

/-- A smooth for two levels with common smoothing parameter and null-space penalty. -/
def exSm2 : Sm := ⟨3, [exT], some 2, true, none, 1, true, none, true⟩

theorem exT_range : InRange 3 exT := by
  intro t ht
  simp only [exT, List.mem_cons, List.not_mem_nil, or_false] at ht
  rcases ht with rfl | rfl | rfl | rfl | rfl | rfl | rfl | rfl | rfl <;> simp

theorem exSm_ok : SmOK exSm where
  pen := rfl
  ne := by simp [exSm]
  rng T hT := by
    simp only [exSm, List.mem_singleton] at hT
    subst hT
    exact exT_range
  lev n hn := by
    simp only [exSm, Option.some.injEq] at hn
    omega
  nodup := by simp [exSm, dropped]
  lt d hd := by
    simp only [exSm, dropped, nLev, Option.getD_some, List.mem_cons, List.not_mem_nil, or_false] at hd ⊢
    omega
  stored T hT d hd := by
    simp only [exSm, dropped, Option.getD_some, List.mem_cons, List.not_mem_nil, or_false] at hT hd ⊢
    subst hT
    rcases hd with rfl | rfl
    · exact ⟨(1, 1, 4), by simp [exT], rfl⟩
    · exact ⟨(2, 2, 1), by simp [exT], rfl⟩

theorem exSm2_ok : SmOK exSm2 where
  pen := rfl
  ne := by simp [exSm2]
  rng T hT := by
    simp only [exSm2, List.mem_singleton] at hT
    subst hT
    exact exT_range
  lev n hn := by
    simp only [exSm2, Option.some.injEq] at hn
    omega
  nodup := by simp [exSm2, dropped]
  lt d hd := by simp [exSm2, dropped] at hd
  stored T hT d hd := by simp [exSm2, dropped] at hd

/-- Intercept and slope, an impulse response term, both smooths, a random intercept with four levels. -/
def exForm : Form := ⟨2, [(1, ⟨3, [exT], some 2, false, true⟩)], [(2, exSm), (3, exSm2)], [(4, ⟨4, 1⟩)]⟩

theorem exForm_ok : FormOK exForm where
  irs t ht := by
    simp only [exForm, List.mem_singleton] at ht
    subst ht
    refine ⟨rfl, by simp, ?_, ?_⟩
    · intro T hT
      simp only [List.mem_singleton] at hT
      subst hT
      exact exT_range
    · intro n hn
      simp only [Option.some.injEq] at hn
      omega
  split := by
    refine ⟨[], exForm.sms, rfl, by simp, ?_, Or.inl rfl⟩
    intro t ht
    simp only [exForm, List.mem_cons, List.not_mem_nil, or_false] at ht
    rcases ht with rfl | rfl
    · exact ⟨exSm_ok, ⟨by simp [exSm], by simp [exSm]⟩⟩
    · exact ⟨exSm2_ok, ⟨by simp [exSm2, perLevel], by simp [exSm2]⟩⟩

/-- There are seven penalties, the second of the smooth with dropped coefficients on columns 10 and 11. -/
example (nul : Arr → ℕ → Trip) (hnul : ∀ A w, InRange w (nul A w)) :
    ∃ ps, buildPenalties nul exForm = some ps ∧ ps.length = 7 ∧
      ∃ p, ps[3]? = some p ∧ p.term = 2 ∧ ∀ β : ℕ → ℝ, quad 22 p.S β = (β 10 - 2 * β 11) ^ 2 := by
  obtain ⟨src, hsrc, ps, h1, h2⟩ := penalties_placed_partial exForm exForm_ok nul hnul
  have hl : ps.length = 7 := by
    rw [h2.length_eq]
    have h3 := (hsrc 3 exSm2 12 exSm2_ok [exT] (by simp) (by simp [exSm2])).length_eq
    have h4 : (srcSpec exSm2).length = 1 := rfl
    rw [h4] at h3
    obtain ⟨a, ha⟩ := List.length_eq_one_iff.1 h3
    have c1 : 2 + irCoef ⟨3, [exT], some 2, false, true⟩ + nCoef exSm = 12 := rfl
    simp only [formExp, exForm, smExp, irExp, rdExp, irVals, rdVals, smVals, List.map_cons, List.map_nil, List.sum_cons,
      List.sum_nil, Nat.add_zero, c1]
    simp [exSm, exSm2, penVals, nullVals, nullPens, perLevel, kindK]
    rw [show (⟨3, [exT], some 2, true, none, 1, true, none, true⟩ : Sm) = exSm2 from rfl, ha]
    rfl
  refine ⟨ps, h1, hl, ?_⟩
  · have h3 := (List.forall₂_iff_get.1 h2).2 3 (by omega) (by rw [← h2.length_eq]; omega)
    refine ⟨ps[3], by simp [hl], h3.term, fun β => ?_⟩
    refine (h3.val β).trans ?_
    show penVal exSm 8 exT 1 β = _
    have hf : ∀ i, full exSm 8 β (1 * exSm.k + i) = if i = 0 then β 10 else if i = 1 then β 11 else if i = 2 then 0 else
        full exSm 8 β (1 * exSm.k + i) := by
      intro i
      have e0 : newPos [1, 5] 0 3 = 2 := by decide
      have e1 : newPos [1, 5] 0 4 = 3 := by decide
      by_cases h0 : i = 0
      · subst h0
        simp [full, exSm, dropped, e0]
      · by_cases h1 : i = 1
        · subst h1
          simp [full, exSm, dropped, e1]
        · by_cases h2 : i = 2
          · subst h2
            simp [full, exSm, dropped]
          · rw [if_neg h0, if_neg h1, if_neg h2]
    unfold penVal
    rw [quad_coo _ _ (show InRange exSm.k exT from exT_range)]
    simp only [qT, exT, List.map_cons, List.map_nil, List.sum_cons, List.sum_nil]
    rw [hf 0, hf 1, hf 2]
    norm_num
    ring

/-! ### Where it fails -/

/-- **An unpenalised impulse response term** has its coefficients counted twice (2119-2122 on top of
`unpenalized_coef`), and `build_penalties` raises. -/
theorem irf_unpenalised (ti : ℕ) (s : Ir) (hs : s.penalized = false) (hk : 0 < irCoef s) (lin : ℕ) (sms : List (ℕ × Sm))
    (hsm : ∀ t ∈ sms, SmOK t.2 ∧ NullOK t.2) (rds : List (ℕ × Rd)) (nul : Arr → ℕ → Trip)
    (hnul : ∀ A w, InRange w (nul A w)) : buildPenalties nul ⟨lin, [(ti, s)], sms, rds⟩ = none := by
  have hz : (sms.map fun t => if t.2.penalized then 0 else nCoef t.2).sum = 0 := by
    refine List.sum_eq_zero fun x hx => ?_
    obtain ⟨t, ht, rfl⟩ := List.mem_map.1 hx
    rw [if_pos (hsm t ht).1.pen]
  have hu : Form.unpen ⟨lin, [(ti, s)], sms, rds⟩ = lin + irCoef s := by
    unfold Form.unpen
    dsimp only
    rw [hz]
    simp [hs]
  obtain ⟨n2, b1, _⟩ := sms_fold nul hnul _ sms hsm (lin + irCoef s + irCoef s) le_rfl []
  obtain ⟨n3, c1, _⟩ := rds_fold _ rds (lin + irCoef s + irCoef s + (sms.map fun t => nCoef t.2).sum) le_rfl ([] ++ n2)
  have hi : List.foldl irStep (some ([], lin + irCoef s, lin + irCoef s, lin + irCoef s)) [(ti, s)]
      = some ([], lin + irCoef s + irCoef s, lin + irCoef s + irCoef s, lin + irCoef s + irCoef s) := by
    simp [irStep, hs]
  unfold buildPenalties
  dsimp only
  rw [hu, hi, Option.bind_some]
  dsimp only
  rw [b1, Option.bind_some]
  dsimp only
  rw [c1]
  dsimp only
  rw [if_pos]
  unfold Form.nCoef
  dsimp only
  simp only [List.map_cons, List.map_nil, List.sum_cons, List.sum_nil]
  omega

example : ∃ s : Ir, s.penalized = false ∧ 0 < irCoef s := ⟨⟨3, [], none, false, false⟩, rfl, by decide⟩

/-- Second differences for two levels, the first coefficient dropped from the first, the last one from the second
level. -/
def badSm : Sm := ⟨3, [exT], some 2, false, some [0, 5], 1, true, none, true⟩

/-- Kernel of the penalty of the second level: coefficients proportional to (2, 1). -/
noncomputable def badNul : Trip := [(0, 0, 4 / 5), (0, 1, 2 / 5), (1, 0, 2 / 5), (1, 1, 1 / 5)]

/-- **Null-space penalty after dropping.** For a smooth of one variable with a penalty for each level, the null-space
penalty of all levels is that of the last level (2296): the function of the first level with coefficients (-2, 1) is in
the range of the penalty, orthogonal to its kernel, and has a null-space penalty all the same. -/
theorem null_last_level (nul : Arr → ℕ → Trip)
    (h : ∀ A, A 0 0 = 1 → A 0 1 = -2 → A 1 0 = -2 → A 1 1 = 4 → nul A 2 = badNul) :
    ∃ ps, buildPenalties nul ⟨0, [], [(0, badSm)], []⟩ = some ps ∧ ∃ p q, ps[0]? = some p ∧ ps[2]? = some q ∧
      p.null = false ∧ q.null = true ∧ (∀ β : ℕ → ℝ, quad 4 p.S β = (β 1 - 2 * β 0) ^ 2) ∧
      ∀ β : ℕ → ℝ, quad 4 q.S β = (2 * β 0 + β 1) ^ 2 / 5 := by
  set L0 : Trip := [(0, 0, 4), (0, 1, -2), (1, 0, -2), (1, 1, 1)]
  set L1 : Trip := [(0, 0, 1), (0, 1, -2), (1, 0, -2), (1, 1, 4)]
  have hb : buildPen 0 badSm exT 0 = ([⟨0, false, 0, (embedS L0 none 2 0).1, embedSj L0 none, 2, 1⟩,
      ⟨0, false, 2, (embedS L1 none 2 2).1, embedSj L1 none, 2, 1⟩], 4) := rfl
  have hN : nul (embedSj L1 none) 2 = badNul := by
    apply h <;> simp [embedSj, coo, L1]
  have hs : buildPenalties nul ⟨0, [], [(0, badSm)], []⟩ = some (([⟨0, false, 0, (embedS L0 none 2 0).1, embedSj L0 none, 2, 1⟩,
      ⟨0, false, 2, (embedS L1 none 2 2).1, embedSj L1 none, 2, 1⟩] : List Pn) ++
      [⟨0, true, 0, (embedS (nul (embedSj L1 none) 2) none 2 0).1, embedSj (nul (embedSj L1 none) 2) none, 2, 1⟩,
       ⟨0, true, 2, (embedS (nul (embedSj L1 none) 2) none 2 2).1, embedSj (nul (embedSj L1 none) 2) none, 2, 1⟩]) := rfl
  rw [hN] at hs
  refine ⟨_, hs, _, _, rfl, rfl, rfl, rfl, fun β => ?_, fun β => ?_⟩
  · rw [(reads_embed (w := 2) (T := L0) ?_ 0 2).quad 4 (by omega)]
    · simp [qT, L0]
      ring
    · intro t ht
      simp only [L0, List.mem_cons, List.not_mem_nil, or_false] at ht
      rcases ht with rfl | rfl | rfl | rfl <;> simp
  · rw [(reads_embed (w := 2) (T := badNul) ?_ 0 2).quad 4 (by omega)]
    · simp [qT, badNul]
      ring
    · intro t ht
      simp only [badNul, List.mem_cons, List.not_mem_nil, or_false] at ht
      rcases ht with rfl | rfl | rfl | rfl <;> simp

/-- The hypothesis on `nul` can be met. -/
example : ∃ nul : Arr → ℕ → Trip, ∀ A, A 0 0 = 1 → A 0 1 = -2 → A 1 0 = -2 → A 1 1 = 4 → nul A 2 = badNul :=
  ⟨fun _ _ => badNul, fun _ _ _ _ _ => rfl⟩

/-- A smooth of two variables with two penalties for each of them and a null-space penalty. -/
def badTensor : Sm := ⟨4, [eyeT 4, eyeT 4, eyeT 4, eyeT 4], none, false, none, 2, true, none, true⟩

/-- **Several penalties per variable.** The number of null-space penalties is the number of penalties divided by the
number of variables (2292), here two for a smooth without `by`: the second one lies outside and an exception is raised. -/
theorem tensor_two_each (nul : Arr → ℕ → Trip) : buildPenalties nul ⟨1, [], [(0, badTensor)], []⟩ = none := by
  have h : ∃ ps, smoothStep nul (some ([], 1, 1)) (0, badTensor) = some (ps, 9, 9) := by
    simp [smoothStep, badTensor, penStep, buildPen, levelPen, addNull, nullPens, nullStep, lastPens, perLevel, addAcc, embedS,
      List.range_succ]
  obtain ⟨ps, h⟩ := h
  unfold buildPenalties
  dsimp only
  rw [List.foldl_nil, Option.bind_some]
  dsimp only
  rw [show Form.unpen ⟨1, [], [(0, badTensor)], []⟩ = 1 from rfl, List.foldl_cons, h, List.foldl_nil, Option.bind_some]
  rfl

/-- **Unpenalised after penalised.** Raises the documented `KeyError`. -/
theorem unpenalised_after (nul : Arr → ℕ → Trip) (hnul : ∀ A w, InRange w (nul A w)) (ti tj : ℕ) (s u : Sm) (hs : SmOK s) (hn : NullOK s)
    (hu : u.penalized = false) (rest : List (ℕ × Sm)) (lin : ℕ) (rds : List (ℕ × Rd)) :
    buildPenalties nul ⟨lin, [], (ti, s) :: (tj, u) :: rest, rds⟩ = none := by
  obtain ⟨new, h1, h2⟩ := smooth_spec' hs hn nul hnul ti (Form.unpen ⟨lin, [], (ti, s) :: (tj, u) :: rest, rds⟩) []
  have hne : new ≠ [] := by
    intro he
    rw [he] at h2
    have hv : penVals s (Form.unpen ⟨lin, [], (ti, s) :: (tj, u) :: rest, rds⟩) (s.T.head hs.ne) ≠ [] := by
      unfold penVals
      by_cases hc : s.levels = none ∨ s.hasId = true
      · rw [if_pos hc]; simp
      · rw [if_neg hc]
        have := hs.lev_pos
        simp
        omega
    have hfl : (s.T.flatMap fun T => (penVals s (Form.unpen ⟨lin, [], (ti, s) :: (tj, u) :: rest, rds⟩) T).map fun v => (false, v)) ≠ [] := by
      intro h0
      rw [List.flatMap_eq_nil_iff] at h0
      exact hv (List.map_eq_nil_iff.1 (h0 _ (List.head_mem hs.ne)))
    generalize hq : smVals nul s (Form.unpen ⟨lin, [], (ti, s) :: (tj, u) :: rest, rds⟩)
      (srcOf ti s (Form.unpen ⟨lin, [], (ti, s) :: (tj, u) :: rest, rds⟩)) = q at h2
    cases h2
    unfold smVals at hq
    by_cases hnull : s.null = false
    · rw [if_pos hnull] at hq
      exact hfl hq
    · rw [if_neg hnull] at hq
      by_cases hvv : s.nVars > 1
      · rw [if_pos hvv] at hq
        exact hfl (List.append_eq_nil_iff.1 hq).1
      · rw [if_neg hvv, List.flatMap_eq_nil_iff] at hq
        exact hv (List.map_eq_nil_iff.1 (List.append_eq_nil_iff.1 (hq _ (List.head_mem hs.ne))).1)
  unfold buildPenalties
  dsimp only
  rw [List.foldl_nil, Option.bind_some]
  dsimp only
  rw [List.foldl_cons, h1, List.foldl_cons]
  have h3 : smoothStep nul (some ([] ++ new, Form.unpen ⟨lin, [], (ti, s) :: (tj, u) :: rest, rds⟩ + nCoef s,
      Form.unpen ⟨lin, [], (ti, s) :: (tj, u) :: rest, rds⟩ + nCoef s)) (tj, u) = none := by
    unfold smoothStep
    simp [hu, hne]
  rw [h3]
  have h4 : ∀ L : List (ℕ × Sm), L.foldl (smoothStep nul) none = none := by
    intro L
    induction L with
    | nil => rfl
    | cons t L ih => rw [List.foldl_cons]; exact ih
  rw [h4]
  rfl

example : ∃ s u : Sm, SmOK s ∧ NullOK s ∧ u.penalized = false :=
  ⟨exSm, ⟨3, [], none, false, none, 1, false, none, false⟩, exSm_ok, ⟨by simp [exSm], by simp [exSm]⟩, rfl⟩

/-! ### Null-space penalties -/

/-- 2329-2334: `U`, `s` are eigenvectors and eigenvalues of the penalty. -/
noncomputable def nullMat {n : ℕ} (U : Matrix (Fin n) (Fin n) ℝ) (s : Fin n → ℝ) : Matrix (Fin n) (Fin n) ℝ :=
  fun i k => ∑ j ∈ univ.filter fun j => s j ≤ 1 / 10 ^ 7, U i j * U k j

theorem nullMat_eq {n : ℕ} (U : Matrix (Fin n) (Fin n) ℝ) (s : Fin n → ℝ) :
    nullMat U s = U * Matrix.diagonal (fun j => if s j ≤ 1 / 10 ^ 7 then 1 else 0) * U.transpose := by
  ext i k
  unfold nullMat
  rw [Matrix.mul_apply, Finset.sum_filter]
  refine Finset.sum_congr rfl fun j _ => ?_
  rw [Matrix.mul_diagonal, Matrix.transpose_apply]
  by_cases h : s j ≤ 1 / 10 ^ 7
  · rw [if_pos h, if_pos h, mul_one]
  · rw [if_neg h, if_neg h, mul_zero, zero_mul]

/-- **Null-space penalty.** If the eigenvalues of the penalty are zero or above the threshold, the null-space penalty is
the projection on the functions without penalty, and both penalties together are positive definite. -/
theorem null_projection {n : ℕ} (S U : Matrix (Fin n) (Fin n) ℝ) (s : Fin n → ℝ) (hU : U.transpose * U = 1)
    (hS : S = U * Matrix.diagonal s * U.transpose) (hs : ∀ j, s j = 0 ∨ 1 / 10 ^ 7 < s j) :
    S * nullMat U s = 0 ∧ nullMat U s * nullMat U s = nullMat U s ∧ (nullMat U s).transpose = nullMat U s ∧
    (∀ v, S.mulVec v = 0 ↔ (nullMat U s).mulVec v = v) ∧ ∀ a b : ℝ, 0 < a → 0 < b → (a • S + b • nullMat U s).PosDef := by
  have hU' : U * U.transpose = 1 := mul_eq_one_comm.1 hU
  set d : Fin n → ℝ := fun j => if s j ≤ 1 / 10 ^ 7 then 1 else 0 with hd
  have hN : nullMat U s = U * Matrix.diagonal d * U.transpose := nullMat_eq U s
  have mulD : ∀ a b : Fin n → ℝ, (U * Matrix.diagonal a * U.transpose) * (U * Matrix.diagonal b * U.transpose)
      = U * Matrix.diagonal (fun j => a j * b j) * U.transpose := by
    intro a b
    rw [show (U * Matrix.diagonal a * U.transpose) * (U * Matrix.diagonal b * U.transpose)
      = U * Matrix.diagonal a * (U.transpose * U) * Matrix.diagonal b * U.transpose by simp only [Matrix.mul_assoc],
      hU, Matrix.mul_one, Matrix.mul_assoc U, Matrix.diagonal_mul_diagonal]
  have hsd : ∀ j, s j * d j = 0 := by
    intro j
    rcases hs j with h | h
    · rw [h, zero_mul]
    · simp only [hd]
      rw [if_neg (not_le.2 h), mul_zero]
  have hdd : ∀ j, d j * d j = d j := by
    intro j
    simp only [hd]
    by_cases h : s j ≤ 1 / 10 ^ 7
    · rw [if_pos h, mul_one]
    · rw [if_neg h, mul_zero]
  have hmv : ∀ (a : Fin n → ℝ) v, (U * Matrix.diagonal a * U.transpose).mulVec v
      = U.mulVec fun j => a j * U.transpose.mulVec v j := by
    intro a v
    rw [← Matrix.mulVec_mulVec, ← Matrix.mulVec_mulVec]
    congr 1
    funext j
    rw [Matrix.mulVec_diagonal]
  have inj : ∀ x y : Fin n → ℝ, U.mulVec x = U.mulVec y → x = y := by
    intro x y hxy
    have := congrArg U.transpose.mulVec hxy
    rwa [Matrix.mulVec_mulVec, Matrix.mulVec_mulVec, hU, Matrix.one_mulVec, Matrix.one_mulVec] at this
  refine ⟨?_, ?_, ?_, ?_, ?_⟩
  · rw [hN, hS, mulD, show (fun j => s j * d j) = 0 from funext hsd]
    simp
  · rw [hN, mulD, show (fun j => d j * d j) = d from funext hdd]
  · rw [hN]
    simp [Matrix.transpose_mul, Matrix.mul_assoc]
  · intro v
    rw [hS, hN, hmv, hmv]
    have hv : v = U.mulVec (U.transpose.mulVec v) := by rw [Matrix.mulVec_mulVec, hU', Matrix.one_mulVec]
    constructor
    · intro h0
      have h1 : (fun j => s j * U.transpose.mulVec v j) = 0 := inj _ _ (by rw [h0, Matrix.mulVec_zero])
      conv_rhs => rw [hv]
      congr 1
      funext j
      have hj : s j * U.transpose.mulVec v j = 0 := congrFun h1 j
      rcases mul_eq_zero.1 hj with h2 | h2
      · simp only [hd]
        rw [if_pos (by rw [h2]; positivity), one_mul]
      · rw [h2, mul_zero]
    · intro h0
      have h1 : (fun j => d j * U.transpose.mulVec v j) = U.transpose.mulVec v := inj _ _ (by rw [h0, ← hv])
      have h2 : (fun j => s j * U.transpose.mulVec v j) = 0 := by
        funext j
        have := congrFun h1 j
        rw [← this, ← mul_assoc, hsd, zero_mul]
        rfl
      rw [h2, Matrix.mulVec_zero]
  · intro a b ha hb
    have hab : a • S + b • nullMat U s = U * Matrix.diagonal (fun j => a * s j + b * d j) * U.transpose := by
      have hdg : Matrix.diagonal (fun j => a * s j + b * d j) = a • Matrix.diagonal s + b • Matrix.diagonal d := by
        ext i k
        by_cases hik : i = k
        · subst hik; simp
        · simp [hik]
      rw [hS, hN, hdg, Matrix.mul_add, Matrix.add_mul, Matrix.mul_smul, Matrix.mul_smul, Matrix.smul_mul, Matrix.smul_mul]
    have hpos : ∀ j, 0 < a * s j + b * d j := by
      intro j
      simp only [hd]
      rcases hs j with h | h
      · rw [if_pos (by rw [h]; positivity), h]
        simpa using hb
      · rw [if_neg (not_le.2 h)]
        have : 0 < s j := lt_trans (by positivity) h
        have := mul_pos ha this
        simpa using this
    rw [hab]
    have hD : (Matrix.diagonal (fun j => a * s j + b * d j)).PosDef := Matrix.PosDef.diagonal hpos
    have := hD.mul_mul_conjTranspose_same (B := U) (by
      intro x y hxy
      have := congrArg (fun z => Matrix.vecMul z U.transpose) hxy
      simpa [Matrix.vecMul_vecMul, hU'] using this)
    rwa [Matrix.conjTranspose_eq_transpose_of_trivial] at this

/-- First differences of two coefficients. -/
example : ∃ (S U : Matrix (Fin 2) (Fin 2) ℝ) (s : Fin 2 → ℝ), S ≠ 0 ∧ (∃ j, s j = 0) ∧ U.transpose * U = 1 ∧
    S = U * Matrix.diagonal s * U.transpose ∧ ∀ j, s j = 0 ∨ 1 / 10 ^ 7 < s j := by
  refine ⟨!![16 / 25, 12 / 25; 12 / 25, 9 / 25], !![4 / 5, 3 / 5; 3 / 5, -4 / 5], ![1, 0], ?_, ⟨1, rfl⟩, ?_, ?_, ?_⟩
  · intro h
    have := congrFun (congrFun h 0) 0
    norm_num at this
  · ext i j
    fin_cases i <;> fin_cases j <;> norm_num [Matrix.mul_apply, Fin.sum_univ_two]
  · ext i j
    rw [Matrix.mul_apply, Fin.sum_univ_two, Matrix.mul_diagonal, Matrix.mul_diagonal]
    fin_cases i <;> fin_cases j <;> norm_num
  · intro j
    fin_cases j
    · right; norm_num
    · left; rfl

/-- Eigenvalues between zero and the threshold count as null space: such a direction is penalised twice. -/
theorem null_threshold {n : ℕ} (S U : Matrix (Fin n) (Fin n) ℝ) (s : Fin n → ℝ) (hU : U.transpose * U = 1)
    (hS : S = U * Matrix.diagonal s * U.transpose) (j : Fin n) (h0 : 0 < s j) (h1 : s j ≤ 1 / 10 ^ 7) :
    S * nullMat U s ≠ 0 := by
  intro h
  rw [nullMat_eq, hS] at h
  have h2 : U.transpose * ((U * Matrix.diagonal s * U.transpose) * (U * Matrix.diagonal (fun j => if s j ≤ 1 / 10 ^ 7 then 1 else 0) * U.transpose)) * U
      = Matrix.diagonal fun j => s j * if s j ≤ 1 / 10 ^ 7 then 1 else 0 := by
    rw [show U.transpose * ((U * Matrix.diagonal s * U.transpose) * (U * Matrix.diagonal (fun j => if s j ≤ 1 / 10 ^ 7 then 1 else 0) * U.transpose)) * U
      = (U.transpose * U) * Matrix.diagonal s * (U.transpose * U) * Matrix.diagonal (fun j => if s j ≤ 1 / 10 ^ 7 then 1 else 0) * (U.transpose * U) by
      simp only [Matrix.mul_assoc], hU]
    simp [Matrix.diagonal_mul_diagonal]
  rw [h] at h2
  have h3 := congrFun (congrFun h2 j) j
  rw [Matrix.mul_zero, Matrix.zero_mul, Matrix.diagonal_apply_eq, if_pos h1, mul_one] at h3
  exact h0.ne h3

end Verif.Layout
