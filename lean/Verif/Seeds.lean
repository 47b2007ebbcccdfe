import Verif.SeedsModel
import Mathlib.Data.Fintype.CardEmbedding
import Mathlib.Data.Fintype.Card
import Mathlib.Data.Fintype.Pigeonhole
import Mathlib.Tactic.Linarith
import Mathlib.Tactic.NormNum
import Mathlib.Tactic.Ring

/-!
# Seeds of the sampler (property C112)
-/

namespace Verif.Seeds

theorem pass_spec (gen : ℕ → ℝ) (c pos : ℕ) : pass gen c pos = ((List.range c).map fun i => seedOf (gen (pos + i)), pos + c) := by
  unfold pass
  induction c with
  | zero => rfl
  | succ c ih =>
    rw [List.range_succ, List.foldl_append, ih]
    simp [Nat.add_assoc]

theorem passes_spec (gen : ℕ → ℝ) (c blocks : ℕ) :
    passes gen c blocks = ((List.range blocks).map fun b => (pass gen c (c + b * c)).1, c + blocks * c) := by
  unfold passes
  induction blocks with
  | zero => simp [pass_spec]
  | succ n ih =>
    rw [List.range_succ, List.foldl_append, ih]
    simp only [List.foldl_cons, List.foldl_nil, List.map_append, List.map_cons, List.map_nil]
    rw [pass_spec]
    simp only [Prod.mk.injEq]
    exact ⟨trivial, by ring⟩

/-- **C112.** Every chain in every block takes its seed from a number of the generator of its own, in the order of blocks and chains,
after those for the initial step sizes; seeds are below 10000. -/
theorem seed_spec (gen : ℕ → ℝ) (hg : ∀ i, 0 ≤ gen i ∧ gen i < 1) (c blocks b ch : ℕ) (hb : b < blocks) (hc : ch < c) :
    ∃ s, seed gen c blocks b ch = some s ∧ s < 10000 ∧ (s : ℝ) ≤ 10000 * gen (c + b * c + ch) ∧ 10000 * gen (c + b * c + ch) < s + 1 := by
  refine ⟨seedOf (gen (c + b * c + ch)), ?_, ?_, ?_, ?_⟩
  · unfold seed
    rw [passes_spec]
    simp [hb, pass_spec, hc]
  · obtain ⟨h0, h1⟩ := hg (c + b * c + ch)
    have : 0 ≤ gen (c + b * c + ch) * 10000 := by linarith
    exact (Nat.floor_lt this).2 (by push_cast; linarith)
  · obtain ⟨h0, h1⟩ := hg (c + b * c + ch)
    have : 0 ≤ gen (c + b * c + ch) * 10000 := by linarith
    exact (Nat.floor_le this).trans (le_of_eq (mul_comm _ _))
  · exact lt_of_eq_of_lt (mul_comm _ _) (Nat.lt_floor_add_one _)

/-- Positions of different blocks and chains differ. -/
theorem position_inj (c b b' ch ch' : ℕ) (hc : ch < c) (hc' : ch' < c) (h : c + b * c + ch = c + b' * c + ch') : b = b' ∧ ch = ch' := by
  have h1 : b * c + ch = b' * c + ch' := by omega
  have hb : b = b' := by
    have := congrArg (· / c) h1
    simp only [Nat.mul_comm _ c] at this
    rwa [Nat.mul_add_div (by omega), Nat.mul_add_div (by omega), Nat.div_eq_of_lt hc, Nat.div_eq_of_lt hc', Nat.add_zero, Nat.add_zero] at this
  subst hb
  exact ⟨rfl, by omega⟩

/-- **C112 is violated.** With more than 10000 blocks in all chains together, two blocks get the same seed, and so the same random
numbers, whatever the generator returns. -/
theorem seeds_wrong (gen : ℕ → ℝ) (hg : ∀ i, 0 ≤ gen i ∧ gen i < 1) (c blocks : ℕ) (h : 10000 < blocks * c) :
    ∃ b ch b' ch', b < blocks ∧ b' < blocks ∧ ch < c ∧ ch' < c ∧ (b, ch) ≠ (b', ch') ∧
      (seed gen c blocks b ch).isSome ∧ seed gen c blocks b ch = seed gen c blocks b' ch' := by
  have hx : ∀ q : Fin blocks × Fin c, ∃ s : Fin 10000, seed gen c blocks q.1 q.2 = some (s : ℕ) := by
    intro q
    obtain ⟨s, h1, h2, -⟩ := seed_spec gen hg c blocks q.1 q.2 q.1.2 q.2.2
    exact ⟨⟨s, h2⟩, h1⟩
  choose f hf using hx
  obtain ⟨x, y, hne, hxy⟩ := Fintype.exists_ne_map_eq_of_card_lt f (by simpa using h)
  refine ⟨x.1, x.2, y.1, y.2, x.1.2, y.1.2, x.2.2, y.2.2, ?_, ?_, ?_⟩
  · intro he
    simp only [Prod.mk.injEq] at he
    exact hne (Prod.ext (Fin.ext he.1) (Fin.ext he.2))
  · rw [hf]; rfl
  · rw [hf, hf, hxy]

/-- **C112 is violated with default arguments.** Two chains, 500 + 10000 iterations in blocks of 100, need 210 seeds. Fewer than one in
eight of the possible sequences of 210 seeds have no repetition. -/
theorem seeds_default_wrong : 8 * Fintype.card (Fin (2 * (500 / 100 + 10000 / 100)) ↪ Fin 10000)
    < Fintype.card (Fin (2 * (500 / 100 + 10000 / 100)) → Fin 10000) := by
  rw [Fintype.card_embedding_eq, Fintype.card_fun, Fintype.card_fin, Fintype.card_fin]
  decide +kernel

/-- Different numbers of the generator may give the same seed. -/
example : seedOf (1 / 10) = seedOf (100001 / 1000000) ∧ (1 / 10 : ℝ) ≠ 100001 / 1000000 := by
  have h : ∀ u : ℝ, 1000 ≤ u * 10000 → u * 10000 < 1001 → seedOf u = 1000 := by
    intro u h1 h2
    refine (Nat.floor_eq_iff (by linarith)).2 ⟨by exact_mod_cast h1, by push_cast; linarith⟩
  rw [h (1 / 10) (by norm_num) (by norm_num), h _ (by norm_num) (by norm_num)]
  exact ⟨rfl, by norm_num⟩

/-- A run with two chains and 50000 blocks meets the hypotheses. -/
example : ∃ gen : ℕ → ℝ, (∀ i, 0 ≤ gen i ∧ gen i < 1) ∧ 10000 < 50000 * 2 := ⟨fun _ => 1 / 2, fun _ => by norm_num, by norm_num⟩

end Verif.Seeds
