import Verif.MulExist
import Verif.LmlEx

/-!
# C150: examples

Three classes, an intercept per class.
-/

namespace Verif.MEx
open Verif Matrix Finset Cls Lml

theorem single (w : ℕ → ℕ) (hw : w = fun _ => 1) (v : Fin (∑ l ∈ Finset.range 2, w l) → ℝ) (h : ∀ k : Fin 2, ∀ a, blk (K := 2) w v ⟨k, a⟩ = 0) : v = 0 := by
  funext i
  obtain ⟨q, rfl⟩ := (at_bij (w := w) (K := 2)).2 i
  exact h q.1 q.2

/-- Design of intercepts only. -/
def ones {n : ℕ} (_ : ℕ) (_ : Fin n) (_ : ℕ) : ℝ := 1

theorem chg_ones {n : ℕ} (v : Fin (∑ l ∈ Finset.range 2, (fun _ => 1) l) → ℝ) (o : Fin n) (k : Fin 2) :
    chg 2 (fun _ => 1) ones v o k.succ = blk (K := 2) (fun _ => 1) v ⟨k, 0⟩ := by
  show ∑ a : Fin 1, ones (k : ℕ) o (a : ℕ) * blk (K := 2) (fun _ => 1) v ⟨k, a⟩ = _
  simp [ones]

theorem ones_ident {n : ℕ} (o : Fin n) (S : Matrix (Fin (∑ l ∈ Finset.range 2, (fun _ => 1) l)) (Fin (∑ l ∈ Finset.range 2, (fun _ => 1) l)) ℝ) :
    Ident (K := 2) (n := n) (fun _ => 1) ones S := by
  intro v _ h
  refine single _ rfl v fun k a => ?_
  have := h o k
  simp [ones] at this
  rw [Subsingleton.elim a 0]
  exact this

/-- Each class was observed: not separated. -/
theorem seen (S : Matrix (Fin (∑ l ∈ Finset.range 2, (fun _ => 1) l)) (Fin (∑ l ∈ Finset.range 2, (fun _ => 1) l)) ℝ) :
    ¬∃ v, Separated (K := 2) (n := 3) (fun _ => 1) ones ![0, 1, 2] S v := by
  rintro ⟨v, hv, -, h⟩
  refine hv (single _ rfl v fun k a => ?_)
  rw [Subsingleton.elim a 0]
  have h0 := h 0 k.succ
  have h1 := h k.succ 0
  have e0 : ∀ o : Fin 3, chg 2 (fun _ => 1) ones v o 0 = 0 := fun o => rfl
  rw [show (![0, 1, 2] : Fin 3 → Fin 3) 0 = 0 from rfl, e0, chg_ones] at h0
  have e1 : (![0, 1, 2] : Fin 3 → Fin 3) k.succ = k.succ := by fin_cases k <;> rfl
  rw [e1, e0, chg_ones] at h1
  exact le_antisymm h0 h1

noncomputable def three : In (∑ l ∈ Finset.range 2, (fun _ => 1) l) :=
  lssIn (EtaBeta.mnFam 2) (fun _ => 1) (ones (n := 3)) (num (K := 2) ![0, 1, 2]) (fullPat fun _ => 1) 0 Ridge.cholC fun _ _ => 0

example : ∃! c, step three c = c :=
  estimate_exists (K := 2) (fullPat_holds (EtaBeta.mnFam 2) (fun _ => 1) _ _) Ridge.cholC_spec PosSemidef.zero (ones_ident (n := 3) 0 0) (seen 0)

example {c d : Fin (∑ l ∈ Finset.range 2, (fun _ => 1) l) → ℝ} (hf : step three c = c) (hd : d ≠ c) :
    EtaBeta.llk (EtaBeta.mnFam 2) (fun _ => 1) (ones (n := 3)) (num (K := 2) ![0, 1, 2]) (blk (fun _ => 1) d) <
      EtaBeta.llk (EtaBeta.mnFam 2) (fun _ => 1) (ones (n := 3)) (num (K := 2) ![0, 1, 2]) (blk (fun _ => 1) c) := by
  have := estimate_is_max (K := 2) (fullPat_holds (EtaBeta.mnFam 2) (fun _ => 1) _ _) Ridge.cholC_spec PosSemidef.zero (ones_ident (n := 3) 0 0) hf hd
  simpa using this

/-- Class 2 was never observed: its intercept falls for ever. -/
theorem unseen : ∃ v, Separated (K := 2) (n := 2) (fun _ => 1) ones ![0, 1] 0 v := by
  let v : Fin (∑ l ∈ Finset.range 2, (fun _ => 1) l) → ℝ := fun i => if i = at' (K := 2) (fun _ => 1) ⟨1, 0⟩ then -1 else 0
  have hb : ∀ q : Σ _ : Fin 2, Fin 1, blk (K := 2) (fun _ => 1) v q = if q = ⟨1, 0⟩ then -1 else 0 := fun q => by
    show (if at' (K := 2) (fun _ => 1) q = _ then (-1 : ℝ) else 0) = _
    simp only [(at_bij (w := fun _ => 1) (K := 2)).1.eq_iff]
  have hk : ∀ o (k : Fin 2), chg 2 (fun _ => 1) (ones (n := 2)) v o k.succ = if k = 1 then -1 else 0 := fun o k => by
    rw [chg_ones, hb]
    fin_cases k <;> simp
  refine ⟨v, fun h => ?_, by simp, fun o k => ?_⟩
  · have := hb ⟨1, 0⟩
    rw [h] at this
    simp [blk] at this
  · have h1 : ∀ o, chg 2 (fun _ => 1) (ones (n := 2)) v o 1 = 0 := fun o => by
      have := hk o 0
      simpa using this
    have h2 : ∀ o, chg 2 (fun _ => 1) (ones (n := 2)) v o 2 = -1 := fun o => by
      have := hk o 1
      simpa using this
    have h0 : ∀ o, chg 2 (fun _ => 1) (ones (n := 2)) v o 0 = 0 := fun o => rfl
    fin_cases o <;> fin_cases k <;> simp [h0, h1, h2]

noncomputable def two : In (∑ l ∈ Finset.range 2, (fun _ => 1) l) :=
  lssIn (EtaBeta.mnFam 2) (fun _ => 1) (ones (n := 2)) (num (K := 2) ![0, 1]) (fullPat fun _ => 1) 0 Ridge.cholC fun _ _ => 0

example (c : Fin (∑ l ∈ Finset.range 2, (fun _ => 1) l) → ℝ) : step two c ≠ c := by
  obtain ⟨v, hv⟩ := unseen
  exact separated_no_estimate (K := 2) (fullPat_holds (EtaBeta.mnFam 2) (fun _ => 1) _ _) Ridge.cholC_spec PosSemidef.zero (ones_ident (n := 2) 0 0) hv c

example (c : Fin (∑ l ∈ Finset.range 2, (fun _ => 1) l) → ℝ) : ∃ v : Fin (∑ l ∈ Finset.range 2, (fun _ => 1) l) → ℝ, StrictMono fun t : ℝ =>
    EtaBeta.llk (EtaBeta.mnFam 2) (fun _ => 1) (ones (n := 2)) (num (K := 2) ![0, 1]) (blk (fun _ => 1) (c + t • v)) := by
  obtain ⟨v, hv⟩ := unseen
  exact ⟨v, by simpa using separated_increases PosSemidef.zero (ones_ident (n := 2) 0 0) hv c⟩

/-- A penalty on all coefficients restores the estimate. -/
example : ∃! c, step (lssIn (EtaBeta.mnFam 2) (fun _ => 1) (ones (n := 2)) (num (K := 2) ![0, 1]) (fullPat fun _ => 1) 1 Ridge.cholC fun _ _ => 0) c = c :=
  estimate_exists (K := 2) (fullPat_holds (EtaBeta.mnFam 2) (fun _ => 1) _ _) Ridge.cholC_spec PosSemidef.one (ones_ident (n := 2) 0 1) fun ⟨v, hv, h, _⟩ => hv (by simpa using h)

/-- Both sides of the equivalence are attained. -/
example : (∃ c, step three c = c) ∧ ¬∃ c, step two c = c :=
  ⟨(exists_iff (K := 2) (fullPat_holds (EtaBeta.mnFam 2) (fun _ => 1) _ _) Ridge.cholC_spec PosSemidef.zero (ones_ident (n := 3) 0 0)).2 (seen 0),
    fun h => (exists_iff (K := 2) (fullPat_holds (EtaBeta.mnFam 2) (fun _ => 1) _ _) Ridge.cholC_spec PosSemidef.zero (ones_ident (n := 2) 0 0)).1 h unseen⟩

end Verif.MEx
