import Verif.DCholModel
import Mathlib.Tactic.Ring
import Mathlib.Tactic.FieldSimp
import Mathlib.Tactic.Linarith

namespace Verif.DChol
open Finset

theorem setAt_self (a : ℕ → ℕ → ℝ) (i j : ℕ) (x : ℝ) : setAt a i j x i j = x := by simp [setAt]
theorem setAt_ne (a : ℕ → ℕ → ℝ) (i j i' j' : ℕ) (x : ℝ) (h : ¬ (i' = i ∧ j' = j)) : setAt a i j x i' j' = a i' j' := by
  simp [setAt, h]

theorem bij_congr (R A d d' : ℕ → ℕ → ℝ) (i j : ℕ) (h : ∀ k < i, ∀ b, d k b = d' k b) : bij R A d i j = bij R A d' i j := by
  unfold bij
  congr 1
  apply sum_congr rfl
  intro k hk
  rw [h k (mem_range.1 hk) i, h k (mem_range.1 hk) j]

/-- The row equation: what `dC` must satisfy at `(a, b)`. -/
def RowEq (R A dC : ℕ → ℕ → ℝ) (a b : ℕ) : Prop :=
  ∑ k ∈ range (a + 1), (dC k a * R k b + R k a * dC k b) = A a b

theorem rowEq_congr (R A d d' : ℕ → ℕ → ℝ) (a b : ℕ) (h : ∀ k ≤ a, d k a = d' k a ∧ d k b = d' k b) :
    RowEq R A d a b ↔ RowEq R A d' a b := by
  unfold RowEq
  rw [sum_congr rfl]
  intro k hk
  rw [mem_range] at hk
  rw [(h k (by omega)).1, (h k (by omega)).2]

/-- Invariant of the inner loop after columns `i, …, i+s-1`. -/
structure Inner (R A : ℕ → ℕ → ℝ) (i s : ℕ) (d0 : ℕ → ℕ → ℝ) (st : St) : Prop where
  keep : ∀ a, a ≠ i → ∀ b, st.dC a b = d0 a b
  out : ∀ b, b < i ∨ i + s ≤ b → st.dC i b = d0 i b
  Rii : 0 < s → st.Rii = R i i
  dRii : 0 < s → st.dRii = st.dC i i
  eqn : ∀ b, i ≤ b → b < i + s → RowEq R A st.dC i b

theorem inner_step (R A : ℕ → ℕ → ℝ) (i s : ℕ) (d0 : ℕ → ℕ → ℝ) (st : St) (hR : R i i ≠ 0) (h : Inner R A i s d0 st) :
    Inner R A i (s + 1) d0 (inner R A i st (i + s)) := by
  unfold inner
  rcases Nat.eq_zero_or_pos s with rfl | hs
  · rw [if_pos (by omega)]
    have hb : ∀ x, bij R A (setAt st.dC i (i + 0) x) i i = bij R A st.dC i i := fun x =>
      bij_congr _ _ _ _ _ _ fun k hk b => setAt_ne _ _ _ _ _ _ (by omega)
    refine ⟨?_, ?_, fun _ => rfl, fun _ => (setAt_self _ _ _ _).symm, ?_⟩
    · intro a ha b
      dsimp only; rw [setAt_ne _ _ _ _ _ _ (by tauto)]; exact h.keep a ha b
    · intro b hb'
      dsimp only; rw [setAt_ne _ _ _ _ _ _ (by omega)]; exact h.out b (by omega)
    · intro b h1 h2
      have : b = i := by omega
      subst this
      set x := 1 / 2 * bij R A st.dC b (b + 0) / R b b with hx
      unfold RowEq
      dsimp only
      have hself : setAt st.dC b (b + 0) x b b = x := setAt_self _ _ _ _
      rw [sum_range_succ, hself]
      have := hb x
      unfold bij at this
      have e : ∑ k ∈ range b, (setAt st.dC b (b + 0) x k b * R k b + R k b * setAt st.dC b (b + 0) x k b) =
          A b b - bij R A st.dC b b := by unfold bij; linarith
      rw [e, hx, show b + 0 = b from rfl]
      field_simp
      ring
  · rw [if_neg (by omega), if_pos (by omega)]
    set x := (bij R A st.dC i (i + s) - R i (i + s) * st.dRii) / st.Rii with hx
    refine ⟨?_, ?_, fun _ => h.Rii hs, ?_, ?_⟩
    · intro a ha b
      dsimp only; rw [setAt_ne _ _ _ _ _ _ (by tauto)]; exact h.keep a ha b
    · intro b hb'
      dsimp only; rw [setAt_ne _ _ _ _ _ _ (by omega)]; exact h.out b (by omega)
    · intro _
      dsimp only; rw [setAt_ne _ _ _ _ _ _ (by omega)]; exact h.dRii hs
    · intro b h1 h2
      rcases Nat.lt_or_ge b (i + s) with h3 | h3
      · rw [rowEq_congr R A _ st.dC]
        · exact h.eqn b h1 h3
        · intro k hk
          exact ⟨setAt_ne _ _ _ _ _ _ (by omega), setAt_ne _ _ _ _ _ _ (by omega)⟩
      · have : b = i + s := by omega
        subst this
        unfold RowEq
        dsimp only
        rw [sum_range_succ, setAt_self, setAt_ne _ _ _ _ _ _ (by omega)]
        have e : ∑ k ∈ range i, (setAt st.dC i (i + s) x k i * R k (i + s) + R k i * setAt st.dC i (i + s) x k (i + s)) =
            A i (i + s) - bij R A st.dC i (i + s) := by
          unfold bij
          rw [sub_sub_cancel]
          apply sum_congr rfl
          intro k hk
          rw [mem_range] at hk
          rw [setAt_ne _ _ _ _ _ _ (by omega), setAt_ne _ _ _ _ _ _ (by omega)]
        rw [e, hx, h.dRii hs, h.Rii hs]
        field_simp
        ring

theorem inner_loop (R A : ℕ → ℕ → ℝ) (i : ℕ) (d0 : ℕ → ℕ → ℝ) (hR : R i i ≠ 0) (m s : ℕ) (st : St) (h : Inner R A i s d0 st) :
    Inner R A i (s + m) d0 ((List.range' (i + s) m).foldl (inner R A i) st) := by
  induction m generalizing s st with
  | zero => exact h
  | succ m ih =>
    rw [List.range'_succ, List.foldl_cons]
    have := ih (s + 1) _ (inner_step R A i s d0 st hR h)
    rw [show s + (m + 1) = s + 1 + m by omega]
    exact this

/-- Invariant of the outer loop after rows `0, …, i-1`. -/
structure Outer (n : ℕ) (R A : ℕ → ℕ → ℝ) (i : ℕ) (d : ℕ → ℕ → ℝ) : Prop where
  zero : ∀ a b, i ≤ a ∨ b < a → d a b = 0
  eqn : ∀ a b, a < i → a ≤ b → b < n → RowEq R A d a b

theorem outer_step (n : ℕ) (R A : ℕ → ℕ → ℝ) (i : ℕ) (hi : i < n) (hR : R i i ≠ 0) (d : ℕ → ℕ → ℝ) (h : Outer n R A i d) :
    Outer n R A (i + 1) (row R A n d i) := by
  have key := inner_loop R A i d hR (n - i) 0 ⟨d, 0, 0⟩
    ⟨fun _ _ _ => rfl, fun _ _ => rfl, fun h => absurd h (lt_irrefl _), fun h => absurd h (lt_irrefl _), fun b h1 h2 => by omega⟩
  rw [Nat.add_zero, Nat.zero_add] at key
  change Inner R A i (n - i) d ⟨row R A n d i, _, _⟩ at key
  have keep : ∀ a, a ≠ i → ∀ b, row R A n d i a b = d a b := key.keep
  refine ⟨?_, ?_⟩
  · intro a b hab
    by_cases ha : a = i
    · subst ha
      have := key.out b (by omega)
      simp only at this
      rw [this]
      exact h.zero _ _ (by omega)
    · rw [keep a ha b]; exact h.zero _ _ (by omega)
  · intro a b h1 h2 h3
    by_cases ha : a = i
    · subst ha
      exact key.eqn b h2 (by omega)
    · rw [rowEq_congr R A _ d]
      · exact h.eqn a b (by omega) h2 h3
      · intro k hk
        exact ⟨keep k (by omega) a, keep k (by omega) b⟩

theorem dCholArr_outer (n : ℕ) (R A : ℕ → ℕ → ℝ) (hR : ∀ i < n, R i i ≠ 0) : Outer n R A n (dCholArr n R A) := by
  have : ∀ m ≤ n, Outer n R A m ((List.range m).foldl (row R A n) (fun _ _ => 0)) := by
    intro m hm
    induction m with
    | zero => exact ⟨fun _ _ _ => rfl, fun a b h => by omega⟩
    | succ m ih =>
      rw [List.range_succ, List.foldl_append]
      exact outer_step n R A m (by omega) (hR m (by omega)) _ (ih (by omega))
  exact this n le_rfl

theorem toArr_coe {n : ℕ} (M : Matrix (Fin n) (Fin n) ℝ) (i j : Fin n) : toArr M i j = M i j := by
  simp [toArr]

/-- Sum over `Fin n` as a sum over a range when the tail vanishes. -/
theorem sum_fin_le {n : ℕ} (f : ℕ → ℝ) (a : Fin n) (h : ∀ k, (a : ℕ) < k → k < n → f k = 0) :
    ∑ k : Fin n, f k = ∑ k ∈ range ((a : ℕ) + 1), f k := by
  rw [Fin.sum_univ_eq_sum_range f n]
  symm
  apply sum_subset
  · intro k; simp only [mem_range]; omega
  · intro k hk hk'
    rw [mem_range] at hk hk'
    exact h k (by omega) hk

end Verif.DChol
