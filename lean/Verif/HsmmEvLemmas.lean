import Verif.HsmmEvModel
import Verif.HsmmFam

/-! Helper lemmas for event models. -/

namespace Verif.HEv

open Hsmm HFam Finset

/-! ### Several copies of a coefficient -/

theorem eBump_zero (e : EventArgs) (t m k j : ℕ) : eBump { e with mu := fun _ _ _ => 0 } t m k j = 0 := by
  unfold eBump lag
  cases e.rho <;> simp

theorem eFlat_zero (e : EventArgs) (t m k j : ℕ) : eFlat { e with mu := fun _ _ _ => 0 } t m k j = 0 := by
  unfold eFlat lag
  cases e.rho <;> simp

theorem eBump_add (e : EventArgs) (f g : ℕ → ℕ → ℕ → ℝ) (t m k j : ℕ) :
    eBump { e with mu := fun t m j => f t m j + g t m j } t m k j =
      eBump { e with mu := f } t m k j + eBump { e with mu := g } t m k j := by
  unfold eBump lag
  cases e.rho with
  | none => simp only; ring
  | some r => simp only; split_ifs <;> ring

theorem eFlat_add (e : EventArgs) (f g : ℕ → ℕ → ℕ → ℝ) (t m k j : ℕ) :
    eFlat { e with mu := fun t m j => f t m j + g t m j } t m k j =
      eFlat { e with mu := f } t m k j + eFlat { e with mu := g } t m k j := by
  unfold eFlat lag
  cases e.rho with
  | none => simp
  | some r => simp only; split_ifs <;> ring

theorem eventDbs_zero (e : EventArgs) (mu : ℕ → ℕ → ℕ → ℝ) (t k j : ℕ) :
    eventDbs e mu (fun _ _ _ => 0) t k j = 0 := by
  unfold eventDbs
  simp [eBump_zero, eFlat_zero]

theorem eventDbs_add (e : EventArgs) (mu f g : ℕ → ℕ → ℕ → ℝ) (t k j : ℕ) :
    eventDbs e mu (fun t m j => f t m j + g t m j) t k j = eventDbs e mu f t k j + eventDbs e mu g t k j := by
  unfold eventDbs
  simp only [eBump_add, eFlat_add]
  rw [← mul_add, ← sum_add_distrib]
  congr 1
  refine sum_congr rfl fun m _ => ?_
  split_ifs <;> ring

/-- Movement of the means when a coefficient moves that belongs to the signals and states of a list. -/
def manyMu (L : List (ℕ × ℕ)) (x : ℕ → ℝ) (t m j : ℕ) : ℝ := (L.map fun b => oneMu b.1 b.2 x t m j).sum

theorem eventDbs_many (e : EventArgs) (mu : ℕ → ℕ → ℕ → ℝ) (x : ℕ → ℝ) (t k j : ℕ) (L : List (ℕ × ℕ)) :
    eventDbs e mu (manyMu L x) t k j = (L.map fun b => eventDbs e mu (oneMu b.1 b.2 x) t k j).sum := by
  induction L with
  | nil => exact eventDbs_zero e mu t k j
  | cons b L ih =>
    rw [List.map_cons, List.sum_cons, ← ih, ← eventDbs_add]
    rfl

/-- Direction of the tables. -/
noncomputable def manyDir (m : Tables ℝ) (e : EventArgs) (mu : ℕ → ℕ → ℕ → ℝ) (L : List (ℕ × ℕ)) (x : ℕ → ℝ) :
    Tables ℝ :=
  { m with
    hmp := true
    event_width := e.event_width
    bs2 := fun _ _ => 0
    bs3 := eventDbs e mu (manyMu L x)
    ds2 := fun _ _ => 0
    ds3 := fun _ _ _ => 0
    T2 := fun _ _ => 0
    T3 := fun _ _ _ => 0
    pi := fun _ => 0 }

theorem manyDir_sum (m : Tables ℝ) (e : EventArgs) (mu : ℕ → ℕ → ℕ → ℝ) (L : List (ℕ × ℕ)) (x : ℕ → ℝ) :
    IsSum (univ : Finset (Fin L.length)) (eventTables m e mu) (manyDir m e mu L x)
      (fun i => emissionDir m e mu (L[(i : ℕ)]).1 (L[(i : ℕ)]).2 x) := by
  refine ⟨⟨rfl, rfl, rfl⟩, fun _ _ => ⟨rfl, rfl, rfl⟩, ?_, ?_, ?_, ?_, ?_⟩
  · intro h; exact absurd h (by simp [eventTables])
  · intro _ t k j _
    rw [Fin.sum_univ_fun_getElem L fun b => (emissionDir m e mu b.1 b.2 x).bs3 t k j]
    exact eventDbs_many e mu x t k j L
  · intro d j t _ _
    have h1 : (manyDir m e mu L x).ds d j t = 0 := by cases h : m.tvdtpi <;> simp [Tables.ds, manyDir, h]
    rw [h1, sum_eq_zero]
    intro i _
    cases h : m.tvdtpi <;> simp [Tables.ds, emissionDir, h]
  · intro i j t _ _ _
    have h1 : (manyDir m e mu L x).T i j t = 0 := by cases h : m.tvdtpi <;> simp [Tables.T, manyDir, h]
    rw [h1, sum_eq_zero]
    intro i _
    cases h : m.tvdtpi <;> simp [Tables.T, emissionDir, h]
  · intro j _
    simp [manyDir, emissionDir]

/-- The entries of the copies of a coefficient add up to its derivative. -/
theorem llkFTPgrad_event_copies (m : Tables ℝ) (e : EventArgs) (mu : ℝ → ℕ → ℕ → ℕ → ℝ) (θ0 : ℝ) (L : List (ℕ × ℕ))
    (x : ℕ → ℝ) (hmu : ∀ t s j, HasDerivAt (fun θ => mu θ t s j) (manyMu L x t s j) θ0)
    (hJ : ∀ b ∈ L, b.1 % 2 = 1) (hm : ∀ b ∈ L, b.2 < e.M) (hs : 0 < e.scale) (hc : e.hmp_code = 1 ∨ e.hmp_code = 2)
    (hr : ∀ r, e.rho = some r → r ^ 2 < 1) (hT : 0 < m.n_T) (hS : 0 < m.n_S) (hD : 0 < m.D - 1)
    (hL : ∀ t < m.n_T, Lam (eventTables m e (mu θ0)) t ≠ 0) :
    HasDerivAt (fun θ => llk (eventTables m e (mu θ)))
      (L.map fun b => llkFTPgrad (eventTables m e (mu θ0)) (callEmission e (mu θ0) b.1 b.2 x)).sum θ0 := by
  let f : Curve :=
    { base := eventTables m e (mu θ0)
      bs2 := fun _ => m.bs2
      bs3 := fun θ => eventBs { e with mu := mu θ }
      ds2 := fun _ => m.ds2
      ds3 := fun _ => m.ds3
      T2 := fun _ => m.T2
      T3 := fun _ => m.T3
      pi := fun _ => m.pi }
  have hf : ∀ θ, f.at θ = eventTables m e (mu θ) := fun _ => rfl
  have hd : HasTabDeriv f (manyDir m e (mu θ0) L x) θ0 := by
    refine ⟨⟨rfl, rfl, rfl⟩, ?_, ?_, ?_, ?_, ?_⟩
    · intro h; exact absurd h (by simp [f, eventTables])
    · intro _ t k j _
      exact eventBs_deriv e mu (manyMu L x) θ0 hmu hs t k j
    · intro d j t _ _
      have : (manyDir m e (mu θ0) L x).ds d j t = 0 := by
        cases h : m.tvdtpi <;> simp [Tables.ds, manyDir, h]
      rw [this]
      exact hasDerivAt_const θ0 (m.ds d j t)
    · intro i j t _ _ _
      have : (manyDir m e (mu θ0) L x).T i j t = 0 := by
        cases h : m.tvdtpi <;> simp [Tables.T, manyDir, h]
      rw [this]
      exact hasDerivAt_const θ0 (m.T i j t)
    · intro j _
      exact hasDerivAt_const θ0 (m.pi j)
  have h1 := llk_hasDerivAt_dir hd hT (by intro s hs'; rw [hf]; exact hL s hs')
  simp only [hf] at h1
  refine h1.congr_deriv ?_
  rw [gradDir_sum (manyDir_sum m e (mu θ0) L x), Fin.sum_univ_fun_getElem L fun b =>
    gradDir (eventTables m e (mu θ0)) (emissionDir m e (mu θ0) b.1 b.2 x)]
  congr 1
  refine List.map_congr_left fun b hb => ?_
  exact (llkFTPgrad_eq_gradDir _ _ _ (emissionDir_ok m e (mu θ0) b.1 b.2 x (hm b hb) (hJ b hb) hc hr) hT hS hD hL).symm

/-! ### The coefficients of an event model -/

variable (v : Ev) (β : Coef) (k : Key) (c : ℕ)

theorem tabs_eq : tabs v β = eventTables (base v β) (args v β) (mus v β) := rfl

/-- Copies of a coefficient: signals and states. -/
noncomputable def copies : Key → List (ℕ × ℕ)
  | .sh par0 m0 => ((emBlocks v.fm).filter fun b => b.2.2 < v.fm.n_shared ∧ shKey v.fm b.2.2 b.2.1 = .sh par0 m0).map
      fun b => (b.1, b.2.1)
  | .em j m _ => [(j, m)]
  | _ => []

theorem mem_em (b : ℕ × ℕ × ℕ) : b ∈ emBlocks v.fm ↔ b.1 < v.n_S ∧ b.2.1 < v.M ∧ b.2.2 = 0 ∧ b.1 % 2 = 1 := by
  rw [mem_emBlocks]
  change b.1 < v.n_S ∧ b.2.1 < v.M ∧ b.2.2 < (if b.1 % 2 = 1 then 1 else 0) ↔ _
  by_cases h : b.1 % 2 = 1
  · rw [if_pos h]
    constructor
    · rintro ⟨h1, h2, h3⟩; exact ⟨h1, h2, by omega, h⟩
    · rintro ⟨h1, h2, h3, _⟩; exact ⟨h1, h2, by omega⟩
  · rw [if_neg h]
    constructor
    · rintro ⟨_, _, h3⟩; omega
    · rintro ⟨_, _, _, h4⟩; exact absurd h4 h

/-- Sums over the blocks that single out one state and signal. -/
theorem sum_em_one (P : ℕ → Prop) [DecidablePred P] (x : ℝ) (m j : ℕ) :
    ((emBlocks v.fm).map fun b => if P b.2.1 then (if m = b.2.1 ∧ j = b.1 then x else 0) else 0).sum =
      if j < v.n_S ∧ m < v.M ∧ j % 2 = 1 then (if P m then x else 0) else 0 := by
  rw [sum_emBlocks]
  have hin : ∀ j' m', (∑ par ∈ range (v.fm.obs j' m').n_par,
      if P (j', m', par).2.1 then (if m = (j', m', par).2.1 ∧ j = (j', m', par).1 then x else 0) else 0) =
      (if j' % 2 = 1 then 1 else 0) * (if P m' then (if m = m' ∧ j = j' then x else 0) else 0) := by
    intro j' m'
    by_cases ho : j' % 2 = 1
    · have hn : (v.fm.obs j' m').n_par = 1 := if_pos ho
      rw [hn, sum_range_one, if_pos ho, one_mul]
    · have hn : (v.fm.obs j' m').n_par = 0 := if_neg ho
      rw [hn, sum_range_zero, if_neg ho, zero_mul]
  simp only [hin]
  change ∑ j' ∈ range v.n_S, ∑ m' ∈ range v.M, _ = _
  by_cases hj : j < v.n_S
  · rw [sum_eq_single j]
    · by_cases hm : m < v.M
      · rw [sum_eq_single m]
        · by_cases ho : j % 2 = 1
          · simp [hj, hm, ho]
          · simp [ho]
        · intro m' _ hne
          rw [if_neg (fun hc : m = m' ∧ j = j => hne hc.1.symm)]
          simp
        · intro hn
          exact absurd (mem_range.2 hm) hn
      · rw [if_neg (fun hc : j < v.n_S ∧ m < v.M ∧ j % 2 = 1 => hm hc.2.1)]
        refine sum_eq_zero fun m' hm' => ?_
        have := mem_range.1 hm'
        rw [if_neg (fun hc : m = m' ∧ j = j => by omega)]
        simp
    · intro j' _ hne
      refine sum_eq_zero fun m' _ => ?_
      rw [if_neg (fun hc : m = m' ∧ j = j' => hne hc.2.symm)]
      simp
    · intro hn
      exact absurd (mem_range.2 hj) hn
  · rw [if_neg (fun hc : j < v.n_S ∧ m < v.M ∧ j % 2 = 1 => hj hc.1)]
    refine sum_eq_zero fun j' hj' => sum_eq_zero fun m' _ => ?_
    have := mem_range.1 hj'
    rw [if_neg (fun hc : m = m' ∧ j = j' => by omega)]
    simp

/-- The means move along the copies of a coefficient. -/
theorem mus_deriv (hk : k ∈ allKeys v.fm) (hc : c < v.p k) (t m j : ℕ) :
    HasDerivAt (fun θ => mus v (upd β k c θ) t m j) (manyMu (copies v k) (fun t => v.X k t c) t m j) (β k c) := by
  have hval : manyMu (copies v k) (fun t => v.X k t c) t m j =
      if j < v.n_S ∧ m < v.M ∧ j % 2 = 1 then dEm v.fm k c j m 0 t else 0 := by
    cases k with
    | sh par0 m0 =>
      unfold manyMu copies dEm
      rw [List.map_map, sum_map_filter]
      have hP : ∀ b ∈ emBlocks v.fm, (if (decide (b.2.2 < v.fm.n_shared ∧ shKey v.fm b.2.2 b.2.1 = Key.sh par0 m0)) = true
            then ((fun b : ℕ × ℕ => oneMu b.1 b.2 (fun t => v.X (Key.sh par0 m0) t c) t m j) ∘
              fun b : ℕ × ℕ × ℕ => (b.1, b.2.1)) b else 0) =
          if (0 < v.fm.n_shared ∧ shKey v.fm 0 b.2.1 = Key.sh par0 m0) then
            (if m = b.2.1 ∧ j = b.1 then v.X (Key.sh par0 m0) t c else 0) else 0 := by
        intro b hb
        have h0 := ((mem_em v b).1 hb).2.2.1
        rw [h0]
        simp only [decide_eq_true_eq, Function.comp, oneMu]
      rw [List.map_congr_left hP,
        sum_em_one v (fun m => 0 < v.fm.n_shared ∧ shKey v.fm 0 m = Key.sh par0 m0) (v.X (Key.sh par0 m0) t c) m j]
      simp only [reduceCtorEq, if_false, zero_add]
      rfl
    | em j0 m0 par0 =>
      have hb : (j0, m0, par0) ∈ emBlocks v.fm := by
        simp only [allKeys, List.mem_append, List.mem_map] at hk
        rcases hk with (((hk | ⟨b, hb, e⟩) | ⟨b, hb, e⟩) | ⟨b, hb, e⟩) | ⟨b, hb, e⟩
        · simp only [sharedKeys, List.mem_flatMap, List.mem_map] at hk
          obtain ⟨a, _, b, _, e⟩ := hk
          cases e
        · cases e; exact hb
        · cases e
        · cases e
        · cases e
      obtain ⟨h1, h2, h3, h4⟩ := (mem_em v _).1 hb
      dsimp only at h1 h2 h3 h4
      subst h3
      simp only [manyMu, copies, List.map_cons, List.map_nil, List.sum_cons, List.sum_nil, add_zero, oneMu, dEm, shKey,
        reduceCtorEq, and_false, if_false, Key.em.injEq, and_true]
      by_cases hjm : m = m0 ∧ j = j0
      · obtain ⟨rfl, rfl⟩ := hjm
        rw [if_pos ⟨rfl, rfl⟩, if_pos ⟨h1, h2, h4⟩, if_pos ⟨rfl, rfl⟩]
        rfl
      · rw [if_neg hjm]
        have : ¬ (j = j0 ∧ m = m0) := fun hc => hjm ⟨hc.2, hc.1⟩
        simp [this]
    | du j0 par0 => simp [manyMu, copies, dEm, shKey]
    | tr j0 par0 => simp [manyMu, copies, dEm, shKey]
    | ini par0 => simp [manyMu, copies, dEm, shKey]
  rw [hval]
  unfold mus
  by_cases hj : j < v.n_S ∧ m < v.M ∧ j % 2 = 1
  · simp only [hj, and_self, if_true]
    exact emEta_deriv v.fm β k c hc j m t 0 (by change 0 < (if j % 2 = 1 then 1 else 0); rw [if_pos hj.2.2]; exact one_pos)
  · simp only [hj, if_false]
    exact hasDerivAt_const _ _

/-- The keys of an event model. -/
theorem key_cases (hk : k ∈ allKeys v.fm) :
    (∃ a b, k = .sh a b) ∨ (∃ a b d, k = .em a b d) ∨ ∃ j par, k = .du j par ∧ par < (v.fm.dur j).n_par ∧ j < v.n_S := by
  obtain ⟨_, _, h3, h4⟩ := mem_allKeys v.fm k hk
  cases k with
  | sh a b => exact Or.inl ⟨a, b, rfl⟩
  | em a b d => exact Or.inr (Or.inl ⟨a, b, d, rfl⟩)
  | du j par =>
    refine Or.inr (Or.inr ⟨j, par, rfl, ?_⟩)
    have hb : (j, par) ∈ duBlocks v.fm := by
      simp only [allKeys, List.mem_append, List.mem_map] at hk
      rcases hk with (((hk | ⟨b, hb, e⟩) | ⟨b, hb, e⟩) | ⟨b, hb, e⟩) | ⟨b, hb, e⟩
      · simp only [sharedKeys, List.mem_flatMap, List.mem_map] at hk
        obtain ⟨a, _, b, _, e⟩ := hk
        cases e
      · cases e
      · cases e; exact hb
      · cases e
      · cases e
    have := (mem_duBlocks v.fm (j, par)).1 hb
    refine ⟨this.2, ?_⟩
    have h1 := this.1
    change j < v.n_S * 1 at h1
    omega
  | tr a b =>
    have := (h3 a b rfl).1
    cases this
  | ini a =>
    have := (h4 a rfl).1
    cases this

end Verif.HEv
