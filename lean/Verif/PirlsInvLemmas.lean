import Verif.PirlsSpec

/-!
# Lemmas on re-weighted least squares for data in another form (property C129)
-/

namespace Verif.PInv
open Verif Matrix Fl Fam Pirls

/-! ### Sums of floating point numbers -/

theorem fl_add_comm (a b : Fl) : a + b = b + a := by
  show Fl.add a b = Fl.add b a
  cases a <;> cases b <;> simp [Fl.add, add_comm]

theorem fl_add_assoc (a b c : Fl) : a + b + c = a + (b + c) := by
  show Fl.add (Fl.add a b) c = Fl.add a (Fl.add b c)
  cases a <;> cases b <;> cases c <;> simp [Fl.add, add_assoc]

theorem fl_zero_add (a : Fl) : fin 0 + a = a := by
  show Fl.add (fin 0) a = a
  cases a <;> simp [Fl.add]

theorem fl_add_zero (a : Fl) : a + fin 0 = a := (fl_add_comm _ _).trans (fl_zero_add a)

/-- Addition of floating point numbers (without rounding). -/
@[reducible] noncomputable def flMonoid : AddCommMonoid Fl where
  add_assoc := fl_add_assoc
  zero := fin 0
  zero_add := fl_zero_add
  add_zero := fl_add_zero
  add_comm := fl_add_comm
  nsmul := @nsmulRec Fl ⟨fin 0⟩ _
  nsmul_zero := fun _ => rfl
  nsmul_succ := fun _ _ => rfl

attribute [local instance] flMonoid in
theorem fl_sum_perm {n : ℕ} (σ : Equiv.Perm (Fin n)) (g : Fin n → Fl) : Fl.sum (fun i => g (σ i)) = Fl.sum g := by
  have fl_sum : ∀ {n : ℕ} (g : Fin n → Fl), Fl.sum g = ∑ i, g i := by
    intro n
    induction n with
    | zero => intro g; rfl
    | succ n ih => intro g; rw [Fin.sum_univ_castSucc, ← ih]; rfl
  rw [fl_sum, fl_sum]
  exact Equiv.sum_comp σ g

theorem gt_add (a b : Fl) (K : ℝ) : Step.Gt (a + fin K) (b + fin K) ↔ Step.Gt a b := by
  show Step.Gt (Fl.add a (fin K)) (Fl.add b (fin K)) ↔ _
  cases a <;> cases b <;> simp [Fl.add, Step.Gt]

theorem fin_add_iff (a : Fl) (K : ℝ) : (a + fin K).IsFin ↔ a.IsFin := by
  show (Fl.add a (fin K)).IsFin ↔ _
  cases a <;> simp [Fl.add, IsFin]

/-! ### Fits that correspond -/

/-- Coefficients `c` of the one fit play the part of `f c` of the other; penalised deviances differ by `K`. -/
structure Sim {N N' p p' : ℕ} (x : In N p) (x' : In N' p') (f : (Fin p' → ℝ) → Fin p → ℝ) (K : ℝ) : Prop where
  mid : ∀ c d, f (Step.mid c d) = Step.mid (f c) (f d)
  pen : ∀ c, (Step.evalAt (prob x') c).pen = (Step.evalAt (prob x) (f c)).pen + fin K
  next : ∀ c, f (next x' c) = next x (f c)

variable {N N' p p' : ℕ} {x : In N p} {x' : In N' p'} {f : (Fin p' → ℝ) → Fin p → ℝ} {K : ℝ}

theorem loop_sim (h : Sim x x' f K) (c : Fin p' → ℝ) (prev : Fl) : ∀ (fuel cor : ℕ) (n : Fin p' → ℝ),
    (Step.coefLoop (prob x') c (prev + fin K) fuel cor (Step.evalAt (prob x') n)).map (fun r => (f r.n, r.pen)) =
      (Step.coefLoop (prob x) (f c) prev fuel cor (Step.evalAt (prob x) (f n))).map (fun r => (r.n, r.pen + fin K)) := by
  intro fuel
  induction fuel with
  | zero => intro cor n; rfl
  | succ fuel ih =>
    intro cor n
    unfold Step.coefLoop
    rw [h.pen n]
    have hiff : (Step.Gt ((Step.evalAt (prob x) (f n)).pen + fin K) (prev + fin K) ∨ ¬ ((Step.evalAt (prob x) (f n)).pen + fin K).IsFin) ↔
        (Step.Gt (Step.evalAt (prob x) (f n)).pen prev ∨ ¬ (Step.evalAt (prob x) (f n)).pen.IsFin) := by
      rw [gt_add, fin_add_iff]
    by_cases hc : Step.Gt (Step.evalAt (prob x) (f n)).pen prev ∨ ¬ (Step.evalAt (prob x) (f n)).pen.IsFin
    · rw [if_pos (hiff.2 hc), if_pos hc]
      have e : f (if cor > 30 then c else (Step.evalAt (prob x') n).n) = if cor > 30 then f c else (Step.evalAt (prob x) (f n)).n := by
        split_ifs <;> rfl
      dsimp only
      by_cases h31 : cor > 31
      · rw [if_pos h31, if_pos h31]
        simp only [Option.map_some]
        rw [e]
      · rw [if_neg h31, if_neg h31, ih, h.mid, e]
    · rw [if_neg (fun hx => hc (hiff.1 hx)), if_neg hc]
      simp only [Option.map_some]
      rw [h.pen n]; rfl

theorem accept_sim (h : Sim x x' f K) (c : Fin p' → ℝ) (prev : Fl) (n : Fin p' → ℝ) :
    (accept x' c (prev + fin K) n).map (fun r => (f r.n, r.pen)) = (accept x (f c) prev (f n)).map (fun r => (r.n, r.pen + fin K)) :=
  loop_sim h c prev 34 0 n

/-- Single passes correspond. -/
theorem pass_sim (h : Sim x x' f K) (c : Fin p' → ℝ) : f (pass x' c) = pass x (f c) := by
  have ha := accept_sim h c (Step.evalAt (prob x) (f c)).pen (Pirls.next x' c)
  rw [← h.pen, h.next] at ha
  unfold pass
  cases h1 : accept x' c (Step.evalAt (prob x') c).pen (Pirls.next x' c) with
  | none =>
    rw [h1] at ha
    cases h2 : accept x (f c) (Step.evalAt (prob x) (f c)).pen (Pirls.next x (f c)) with
    | none => rfl
    | some r => rw [h2] at ha; cases ha
  | some r' =>
    rw [h1] at ha
    cases h2 : accept x (f c) (Step.evalAt (prob x) (f c)).pen (Pirls.next x (f c)) with
    | none => rw [h2] at ha; cases ha
    | some r =>
      rw [h2] at ha
      simp only [Option.map_some, Option.some.injEq, Prod.mk.injEq] at ha
      exact ha.1

theorem path_sim (h : Sim x x' f K) (k : ℕ) (c : Fin p' → ℝ) : f ((pass x')^[k] c) = (pass x)^[k] (f c) := by
  induction k generalizing c with
  | zero => rfl
  | succ k ih => rw [Function.iterate_succ_apply, Function.iterate_succ_apply, ih, pass_sim h]

theorem outer_sim (h : Sim x x' f 0) (m : ℕ) : ∀ (left i : ℕ) (b n : Fin p' → ℝ) (c : Fl),
    (loop x' m left i b n c).map f = loop x m left i (f b) (f n) c := by
  intro left
  induction left with
  | zero => intro i b n c; rfl
  | succ left ih =>
    intro i b n c
    unfold loop
    have ha := accept_sim h b c n
    simp only [fl_add_zero] at ha
    cases h1 : accept x' b c n with
    | none =>
      rw [h1] at ha
      cases h2 : accept x (f b) c (f n) with
      | none => rfl
      | some r => rw [h2] at ha; cases ha
    | some r' =>
      rw [h1] at ha
      cases h2 : accept x (f b) c (f n) with
      | none => rw [h2] at ha; cases ha
      | some r =>
        rw [h2] at ha
        simp only [Option.map_some, Option.some.injEq, Prod.mk.injEq] at ha
        obtain ⟨e1, e2⟩ := ha
        dsimp only
        rw [e2]
        split_ifs with hs
        · rw [Option.map_some, e1]
        · rw [ih, h.next, e1]

theorem inner_sim (h : Sim x x' f 0) (m : ℕ) (c : Fin p' → ℝ) : (Pirls.inner x' m c).map f = Pirls.inner x m (f c) := by
  have e : (prob x').devF ((prob x').muF ((prob x').etaF c)) + fin (c ⬝ᵥ (x'.S *ᵥ c)) =
      (prob x).devF ((prob x).muF ((prob x).etaF (f c))) + fin (f c ⬝ᵥ (x.S *ᵥ f c)) := (h.pen c).trans (fl_add_zero _)
  unfold Pirls.inner
  rw [outer_sim h, h.next, e]

/-! ### Sums over the rows kept -/

theorem filter_sum {ι : Type} (l : List ι) (P : ι → Prop) [DecidablePred P] (g : ι → ℝ) :
    ((l.filter fun i => decide (P i)).map g).sum = (l.map fun i => if P i then g i else 0).sum := by
  induction l with
  | nil => rfl
  | cons a l ih =>
    by_cases ha : P a
    · rw [List.filter_cons_of_pos (by simpa using ha), List.map_cons, List.map_cons, List.sum_cons, List.sum_cons, ih, if_pos ha]
    · rw [List.filter_cons_of_neg (by simpa using ha), List.map_cons, List.sum_cons, ih, if_neg ha, zero_add]

open Classical in
theorem rows_sum (zw : Fin N → Fl × Fl) (g : Fin N → ℝ) :
    ((validRows zw).map g).sum = ∑ i, if invalid (zw i) then 0 else g i := by
  unfold validRows
  rw [filter_sum (List.finRange N) (fun i => ¬ invalid (zw i)) g, ← List.ofFn_eq_map, List.sum_ofFn]
  exact Finset.sum_congr rfl fun i _ => by simp only [ite_not]

open Classical in
theorem gram_rows (x : In N p) (b : Fin p → ℝ) (a c : Fin p) : Pirls.gram x b a c =
    (∑ i, if invalid (zw x b i) then 0 else Real.sqrt (zw x b i).2.val * x.X i a * (Real.sqrt (zw x b i).2.val * x.X i c)) + x.S a c := by
  unfold Pirls.gram pirlsX
  rw [Matrix.of_apply, List.map_map, rows_sum]
  rfl

open Classical in
theorem rhs_rows (x : In N p) (b : Fin p → ℝ) (a : Fin p) : rhs x b a =
    ∑ i, if invalid (zw x b i) then 0 else Real.sqrt (zw x b i).2.val * x.X i a * (Real.sqrt (zw x b i).2.val * (zw x b i).1.val) := by
  unfold rhs pirlsX pirlsY
  rw [List.zipWith_map, List.zipWith_self, rows_sum]

end Verif.PInv
