import Verif.HsmmRelLemmas
import Verif.Viterbi

/-!
# Segmentations with renamed states (property C128)
-/

namespace Verif.Relab
open Verif.Hsmm Finset

variable {s : Equiv.Perm ℕ}

/-- A segment with its state renamed. -/
def rename (s : Equiv.Perm ℕ) (g : Seg) : Seg := ⟨g.start, g.dur, s g.state⟩

variable {R : Type} {q : Tables R}

theorem chained_rename : ∀ l : List Seg, Chained (l.map (rename s)) ↔ Chained l
  | [] => Iff.rfl
  | [_] => Iff.rfl
  | a :: b :: r => by
    have ih := chained_rename (b :: r)
    rw [List.map_cons, List.map_cons]
    show (a.start = b.start + b.dur + 1 ∧ s a.state ≠ s b.state ∧ Chained ((b :: r).map (rename s))) ↔
      (a.start = b.start + b.dur + 1 ∧ a.state ≠ b.state ∧ Chained (b :: r))
    rw [ih, s.injective.ne_iff]

theorem segOk_rename (h : Ok s q) (g : Seg) : SegOk (relab s q) (rename s g) ↔ SegOk q g := by
  show (s g.state < q.n_S ∧ g.dur < q.D - 1 ∧ (q.hmp = true → s g.state % 2 = 1 → g.dur < q.event_width)) ↔
    (g.state < q.n_S ∧ g.dur < q.D - 1 ∧ (q.hmp = true → g.state % 2 = 1 → g.dur < q.event_width))
  rw [h.bij]
  constructor
  · rintro ⟨a, b, c⟩
    exact ⟨a, b, fun x y => c x (by rw [h.par x _]; exact y)⟩
  · rintro ⟨a, b, c⟩
    exact ⟨a, b, fun x y => c x (by rw [h.par x _] at y; exact y)⟩

theorem admissible_rename (h : Ok s q) (l : List Seg) : Admissible (relab s q) (l.map (rename s)) ↔ Admissible q l := by
  unfold Admissible
  rw [chained_rename]
  refine and_congr_right fun _ => and_congr ?_ ?_
  · constructor
    · intro hl g hg
      exact (segOk_rename h g).1 (hl _ (List.mem_map_of_mem hg))
    · intro hl g hg
      obtain ⟨g', h1, rfl⟩ := List.mem_map.1 hg
      exact (segOk_rename h g').2 (hl g' h1)
  · cases l with
    | nil => simp
    | cons a r =>
      constructor
      · rintro ⟨x, y, e, h1, h2, h3, h4⟩
        rw [List.map_cons, List.cons.injEq] at e
        obtain ⟨rfl, -⟩ := e
        exact ⟨a, r, rfl, h1, h2, h3, fun he => (last_iff h he _).1 (h4 he)⟩
      · rintro ⟨x, y, e, h1, h2, h3, h4⟩
        rw [List.cons.injEq] at e
        obtain ⟨rfl, rfl⟩ := e
        exact ⟨_, _, rfl, h1, h2, h3, fun he => (last_iff h he _).2 (h4 he)⟩

theorem obs_rename (h : Ok s q) (g : Seg) (hg : g.state < q.n_S) (t : ℕ) : obs (relab s q) (rename s g) t = obs q g t := by
  have e4 : (relab s q).event_width = q.event_width := rfl
  have e6 : (relab s q).hmp = q.hmp := rfl
  unfold obs
  rw [e4, e6]
  show (if q.hmp = true then
    if t = g.start then
      if g.start = 0 then (relab s q).bs3 t 0 (s g.state)
      else if s g.state % 2 = 0 then (relab s q).bs3 t 1 (s g.state) else (relab s q).bs3 t 0 (s g.state)
    else if s g.state % 2 = 1 then (relab s q).bs3 t (q.event_width - 1 - (g.start + g.dur - t)) (s g.state)
    else (relab s q).bs3 t 0 (s g.state)
  else (relab s q).bs2 t (s g.state)) = _
  simp only [bs3_relab, bs2_relab]
  cases hh : q.hmp
  · simp
  · rw [h.par hh _]

theorem logWeight_rename {q : Tables (WithBot ℝ)} (h : Ok s q) (tmax : ℕ) : ∀ l : List Seg, (∀ g ∈ l, g.state < q.n_S) →
    logWeightUpTo (relab s q) tmax (l.map (rename s)) = logWeightUpTo q tmax l
  | [], _ => rfl
  | [a], hl => by
    have ha := hl a (by simp)
    show (relab s q).pi (s a.state) + (relab s q).ds a.dur (s a.state) 0 + obsSum (relab s q) tmax (rename s a) = _
    rw [pi_relab, ds_relab h _ _ ha]
    congr 1
    exact sum_congr rfl fun t _ => obs_rename h a ha t
  | a :: b :: r, hl => by
    have ha := hl a (by simp)
    have ih := logWeight_rename h tmax (b :: r) (fun g hg => hl g (by simp [hg]))
    rw [List.map_cons] at ih
    rw [List.map_cons, List.map_cons]
    show (relab s q).T (s b.state) (s a.state) (a.start - 1) + (relab s q).ds a.dur ((relab s q).dcol (s a.state)) a.start +
      obsSum (relab s q) tmax (rename s a) + logWeightUpTo (relab s q) tmax (rename s b :: r.map (rename s)) = _
    rw [T_relab, dcol_relab h _ _ ha, ih]
    have : obsSum (relab s q) tmax (rename s a) = obsSum q tmax a := sum_congr rfl fun t _ => obs_rename h a ha t
    rw [this]; rfl

theorem rename_inv (l : List Seg) : (l.map (rename s.symm)).map (rename s) = l := by
  rw [List.map_map]
  conv_rhs => rw [← List.map_id l]
  refine List.map_congr_left fun g _ => ?_
  simp [rename, Function.comp]

theorem labels_unique {l : List Seg} {n : ℕ} {a b : List ℕ} (hc : Chained l) (ha : Labels l n a) (hb : Labels l n b) : a = b := by
  have key : ∀ (l : List Seg), Chained l → ∀ g ∈ l, ∀ g' ∈ l, ∀ t, g.start ≤ t → t ≤ g.start + g.dur → g'.start ≤ t →
      t ≤ g'.start + g'.dur → g = g' := by
    intro l
    induction l with
    | nil => intro _ g hg; simp at hg
    | cons x r ih =>
      cases r with
      | nil =>
        intro _ g hg g' hg'
        simp at hg hg'
        intros; rw [hg, hg']
      | cons y r =>
        intro hc
        obtain ⟨h1, -, h3⟩ := hc
        have hbelow : ∀ (l : List Seg) (y : Seg), Chained (y :: l) → ∀ g ∈ y :: l, g.start + g.dur ≤ y.start + y.dur := by
          intro l
          induction l with
          | nil => intro y _ g hg; simp at hg; rw [hg]
          | cons z l ih2 =>
            intro y hc g hg
            obtain ⟨k1, -, k3⟩ := hc
            rcases List.mem_cons.1 hg with rfl | hg
            · exact le_rfl
            · have := ih2 z k3 g hg
              omega
        intro g hg g' hg' t a1 a2 a3 a4
        rcases List.mem_cons.1 hg with rfl | hg
        · rcases List.mem_cons.1 hg' with rfl | hg'
          · rfl
          · have := hbelow r y h3 g' hg'; omega
        · rcases List.mem_cons.1 hg' with e | hg'
          · have := hbelow r y h3 g hg
            subst e; omega
          · exact ih h3 g hg g' hg' t a1 a2 a3 a4
  apply List.ext_getElem?
  intro t
  by_cases ht : t < n
  · obtain ⟨g, h1, h2, h3, h4⟩ := ha.2 t ht
    obtain ⟨g', k1, k2, k3, k4⟩ := hb.2 t ht
    rw [h4, k4, key l hc g h1 g' k1 t h2 h3 k2 k3]
  · rw [List.getElem?_eq_none (by rw [ha.1]; omega), List.getElem?_eq_none (by rw [hb.1]; omega)]

theorem labels_rename {l : List Seg} {n : ℕ} {a : List ℕ} (h : Labels l n a) : Labels (l.map (rename s)) n (a.map s) := by
  refine ⟨by rw [List.length_map]; exact h.1, fun t ht => ?_⟩
  obtain ⟨g, h1, h2, h3, h4⟩ := h.2 t ht
  exact ⟨rename s g, List.mem_map_of_mem h1, h2, h3, by rw [List.getElem?_map, h4]; rfl⟩

end Verif.Relab
