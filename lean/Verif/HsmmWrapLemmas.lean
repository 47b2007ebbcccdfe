import Verif.HsmmWrapModel

/-! Lemmas for `Verif.HsmmWrap`. -/

namespace Verif.HWrap

open Verif.Hsmm

theorem collect_eq {γ : Type} (f : ℕ → Option γ) (n : ℕ) : ∀ i (l : List γ), l.length = n → (∀ k, (h : k < l.length) → f (i + k) = some l[k]) →
    collect f n i = some l := by
  induction n with
  | zero => intro i l hl _; rw [List.length_eq_zero_iff.1 hl]; rfl
  | succ n ih =>
    intro i l hl h
    cases l with
    | nil => simp at hl
    | cons a l =>
      have h0 := h 0 (by simp)
      rw [collect, show f i = some a from by simpa using h0, ih (i + 1) l (by simpa using hl)]
      intro k hk
      have := h (k + 1) (by simpa using hk)
      rw [show i + 1 + k = i + (k + 1) by omega, this]
      simp

theorem collect_congr {γ : Type} (f g : ℕ → Option γ) (n : ℕ) : ∀ i, (∀ k, i ≤ k → k < i + n → f k = g k) → collect f n i = collect g n i := by
  induction n with
  | zero => intro i _; rfl
  | succ n ih =>
    intro i h
    rw [collect, collect, h i (le_refl _) (by omega), ih (i + 1) fun k h1 h2 => h k (by omega) (by omega)]

/-! ## Residuals of durations -/

/-- What the code stores, run after run; `k` runs came before `s`. -/
def codeLists (F : DurFam) : (ℕ → Option (List ℝ)) → ℕ → Seg → List Seg → Option (ℕ → Option (List ℝ))
  | lists, _, s, [] =>
    store F lists s.state (if F.starts_with_first = true then s.state else s.state + F.n_S) (s.dur + 1) (s.start + s.dur)
  | lists, k, s, p :: r =>
    match store F lists s.state (if k = 0 ∨ F.starts_with_first = true then s.state else s.state + F.n_S) (s.dur + 1)
      (s.start + s.dur + 1) with
    | none => none
    | some lists => codeLists F lists (k + 1) p r

theorem durLoop_replicate (F : DurFam) (rest : List ℕ) (k : ℕ) : ∀ x : DurSt,
    durLoop F x (List.replicate k x.j ++ rest) = durLoop F { x with d := x.d + k, t := x.t + k } rest := by
  induction k with
  | zero => intro x; rfl
  | succ k ih =>
    intro x
    rw [List.replicate_succ, List.cons_append, durLoop, durStep, if_pos rfl]
    have := ih { x with d := x.d + 1, t := x.t + 1 }
    rw [show x.d + (k + 1) = x.d + 1 + k by omega, show x.t + (k + 1) = x.t + 1 + k by omega]
    exact this

theorem durLoop_runs (F : DurFam) (r : List Seg) : ∀ (s : Seg) (lists : ℕ → Option (List ℝ)) (k : ℕ), Runs s.start (s :: r) →
    (match durLoop F ⟨lists, s.dur + 1, s.state, k, s.start + s.dur + 1⟩ (unroll r) with
     | none => none
     | some x => store F x.lists x.j (if F.starts_with_first = true then x.j else x.j + F.n_S) x.d (x.t - 1)) =
    codeLists F lists k s r := by
  induction r with
  | nil => intro s lists k _; rfl
  | cons p r ih =>
    intro s lists k h
    obtain ⟨_, hne, hr⟩ := h
    have hp : p.start = s.start + s.dur + 1 := by
      cases r with
      | nil => exact hr
      | cons q r => exact hr.1
    rw [codeLists, show unroll (p :: r) = p.state :: (List.replicate p.dur p.state ++ unroll r) from rfl, durLoop, durStep,
      if_neg (Ne.symm hne)]
    simp only
    cases hst : store F lists s.state (if k = 0 ∨ F.starts_with_first = true then s.state else s.state + F.n_S) (s.dur + 1)
      (s.start + s.dur + 1) with
    | none => rfl
    | some lists' =>
      simp only
      rw [show List.replicate p.dur p.state = List.replicate p.dur (DurSt.mk lists' 1 p.state (k + 1) (s.start + s.dur + 1 + 1)).j from rfl,
        durLoop_replicate, ← ih p lists' (k + 1) (by rw [hp]; exact hr)]
      simp only
      rw [hp, show 1 + p.dur = p.dur + 1 by omega,
        show s.start + s.dur + 1 + 1 + p.dur = s.start + s.dur + 1 + p.dur + 1 by omega]

theorem durRes_runs (F : DurFam) (s : Seg) (r : List Seg) (h : Runs 0 (s :: r)) :
    durRes F (unroll (s :: r)) = codeLists F (fun _ => some []) 0 s r := by
  have hs : s.start = 0 := by
    cases r with
    | nil => exact h
    | cons q r => exact h.1
  have hu : unroll (s :: r) = s.state :: (List.replicate s.dur s.state ++ unroll r) := rfl
  rw [← durLoop_runs F r s _ 0 (by rw [hs]; exact h), hu, durRes]
  rw [show s.state :: (List.replicate s.dur s.state ++ unroll r) =
    List.replicate (s.dur + 1) (DurSt.mk (fun _ => some []) 0 s.state 0 0).j ++ unroll r from rfl, durLoop_replicate, hs]
  simp only [Nat.zero_add]
  cases durLoop F ⟨fun _ => some [], s.dur + 1, s.state, 0, s.dur + 1⟩ (unroll r) <;> rfl

/-- `wanted` with `k` runs before. -/
def wantedFrom (F : DurFam) (row : Seg → ℕ) (k : ℕ) (l : List Seg) (j : ℕ) : List ℝ :=
  ((l.zipIdx k).filter fun p => p.1.state = j).map fun p =>
    F.res (if p.2 = 0 ∨ F.starts_with_first = true then p.1.state else p.1.state + F.n_S) (p.1.dur + 1)
      (if F.tvdtpi then row p.1 else 0)

theorem wantedFrom_cons (F : DurFam) (row : Seg → ℕ) (k : ℕ) (s : Seg) (l : List Seg) (j : ℕ) :
    wantedFrom F row k (s :: l) j =
      (if s.state = j then [F.res (if k = 0 ∨ F.starts_with_first = true then s.state else s.state + F.n_S) (s.dur + 1)
        (if F.tvdtpi then row s else 0)] else []) ++ wantedFrom F row (k + 1) l j := by
  unfold wantedFrom
  rw [List.zipIdx_cons, List.filter_cons]
  by_cases h : s.state = j
  · rw [if_pos (by simpa using h), if_pos h]; rfl
  · rw [if_neg (by simpa using h), if_neg h]; rfl

open Classical in
/-- Lists after the runs `l` have been stored into `lists`. -/
noncomputable def after (F : DurFam) (row : Seg → ℕ) (k : ℕ) (l : List Seg) (lists : ℕ → Option (List ℝ)) (j : ℕ) : Option (List ℝ) :=
  if F.has j = true then (lists j).map (· ++ wantedFrom F row k l j)
  else if ∃ s ∈ l, s.state = j then none else lists j

theorem store_one (F : DurFam) (hF : F.starts_with_first = true ∨ ∀ c, F.has c = true) (row : Seg → ℕ) (lists : ℕ → Option (List ℝ)) (s : Seg) (k dj t : ℕ)
    (hdj : dj = if k = 0 ∨ F.starts_with_first = true then s.state else s.state + F.n_S) (ht : row s = t)
    (hl : F.has s.state = true → lists s.state ≠ none) :
    store F lists s.state dj (s.dur + 1) t = some (after F row k [s] lists) := by
  have hhas : F.has dj = F.has s.state := by
    rcases hF with h | h
    · rw [hdj, if_pos (Or.inr h)]
    · rw [h, h]
  unfold store
  by_cases hb : F.has s.state = true
  · rw [if_neg (by rw [hhas, hb]; decide)]
    cases hls : lists s.state with
    | none => exact absurd hls (hl hb)
    | some l =>
      simp only
      congr 1
      funext j
      unfold after
      rw [wantedFrom_cons]
      by_cases hj : s.state = j
      · subst hj
        rw [Function.update_self, if_pos hb, hls, if_pos rfl, ← hdj, ht]
        rfl
      · rw [Function.update_of_ne (Ne.symm hj)]
        by_cases hbj : F.has j = true
        · rw [if_pos hbj, if_neg hj]
          cases lists j <;> simp [wantedFrom]
        · rw [if_neg hbj, if_neg]
          rintro ⟨q, hq, he⟩
          obtain rfl : q = s := by simpa using hq
          exact hj he
  · rw [if_pos (by rw [hhas]; simpa using hb)]
    congr 1
    funext j
    unfold after
    by_cases hj : s.state = j
    · subst hj
      rw [Function.update_self, if_neg hb, if_pos ⟨s, by simp, rfl⟩]
    · rw [Function.update_of_ne (Ne.symm hj)]
      by_cases hbj : F.has j = true
      · rw [if_pos hbj, wantedFrom_cons, if_neg hj]
        cases lists j <;> simp [wantedFrom]
      · rw [if_neg hbj, if_neg]
        rintro ⟨q, hq, he⟩
        obtain rfl : q = s := by simpa using hq
        exact hj he

theorem after_cons (F : DurFam) (row : Seg → ℕ) (k : ℕ) (s : Seg) (l : List Seg) (lists : ℕ → Option (List ℝ)) :
    after F row (k + 1) l (after F row k [s] lists) = after F row k (s :: l) lists := by
  funext j
  unfold after
  by_cases hb : F.has j = true
  · rw [if_pos hb, if_pos hb, if_pos hb, wantedFrom_cons, wantedFrom_cons]
    cases lists j with
    | none => rfl
    | some a => simp [wantedFrom]
  · rw [if_neg hb, if_neg hb, if_neg hb]
    by_cases h1 : ∃ q ∈ l, q.state = j
    · rw [if_pos h1, if_pos]
      obtain ⟨q, hq, he⟩ := h1
      exact ⟨q, List.mem_cons_of_mem _ hq, he⟩
    · rw [if_neg h1]
      by_cases h2 : s.state = j
      · rw [if_pos ⟨s, by simp, h2⟩, if_pos ⟨s, by simp, h2⟩]
      · rw [if_neg, if_neg]
        · rintro ⟨q, hq, he⟩
          rcases List.mem_cons.1 hq with rfl | hq
          · exact h2 he
          · exact h1 ⟨q, hq, he⟩
        · rintro ⟨q, hq, he⟩
          obtain rfl : q = s := by simpa using hq
          exact h2 he

theorem codeLists_eq (F : DurFam) (hF : F.starts_with_first = true ∨ ∀ c, F.has c = true) (row : Seg → ℕ) (r : List Seg) :
    ∀ (s : Seg) (lists : ℕ → Option (List ℝ)) (k : ℕ), Runs s.start (s :: r) →
    (F.starts_with_first = true ∨ k ≠ 0 ∨ r ≠ []) →
    (∀ q ∈ s :: r, q.start + q.dur + 1 < s.start + (unroll (s :: r)).length → row q = q.start + q.dur + 1) →
    (∀ q ∈ s :: r, q.start + q.dur + 1 = s.start + (unroll (s :: r)).length → row q = q.start + q.dur) →
    (∀ j, F.has j = true → lists j ≠ none) → codeLists F lists k s r = some (after F row k (s :: r) lists) := by
  induction r with
  | nil =>
    intro s lists k _ hk _ hrow hl
    rw [codeLists]
    apply store_one F hF row lists s k _ _ ?_ (hrow s (by simp) (by simp [unroll]; omega)) (hl _)
    rcases hk with h | h | h
    · rw [if_pos h, if_pos (Or.inr h)]
    · by_cases hs : F.starts_with_first = true
      · rw [if_pos hs, if_pos (Or.inr hs)]
      · rw [if_neg hs, if_neg (by tauto)]
    · exact absurd rfl h
  | cons p r ih =>
    intro s lists k h hk hr1 hr2 hl
    obtain ⟨_, hne, hr⟩ := h
    have hp : p.start = s.start + s.dur + 1 := by
      cases r with
      | nil => exact hr
      | cons q r => exact hr.1
    have hlen : (unroll (s :: p :: r)).length = s.dur + 1 + (unroll (p :: r)).length := by simp [unroll]
    have hpos : 0 < (unroll (p :: r)).length := by simp [unroll]
    rw [codeLists, store_one F hF row lists s k _ _ rfl (hr1 s (by simp) (by omega)) (hl _)]
    simp only
    rw [ih p _ (k + 1) (by rw [hp]; exact hr) (Or.inr (Or.inl (by omega)))
      (fun q hq hlt => hr1 q (List.mem_cons_of_mem _ hq) (by omega))
      (fun q hq he => hr2 q (List.mem_cons_of_mem _ hq) (by omega)), after_cons]
    intro j hj
    unfold after
    rw [if_pos hj]
    cases hlj : lists j with
    | none => exact absurd hlj (hl j hj)
    | some a => simp

end Verif.HWrap
