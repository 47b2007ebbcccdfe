import Verif.HsmmEv

/-! Property theorems: data of event models (C145). -/

namespace Verif.HEv

open Hsmm HFam Finset

/-- Every formula has the response of its signal on the left-hand side: `sig m` is the response of signal `m`; a formula
shared by all signals has the response of the first signal. -/
structure Named (v : Ev) (sig : ℕ → ℕ → ℝ) : Prop where
  own : ∀ j m par, v.resp (.em j m par) = sig m
  perSignal : v.shared_m = false → ∀ m, v.resp (.sh 0 m) = sig m
  allSignals : v.shared_m = true → v.resp (.sh 0 0) = sig 0

theorem emBlocks_first (v : Ev) (hS : 2 ≤ v.n_S) :
    ∃ r, emBlocks v.fm = (List.range v.M).map (fun m => (1, m, 0)) ++ r := by
  obtain ⟨n, hn⟩ : ∃ n, v.n_S = n + 2 := ⟨v.n_S - 2, by omega⟩
  unfold emBlocks
  change ∃ r, ((List.range v.n_S).flatMap fun j => (List.range v.M).flatMap fun m =>
    (List.range (if j % 2 = 1 then 1 else 0)).map fun par => (j, m, par)) = _
  have hr : List.range (n + 2) = 0 :: (0 + 1) :: List.range' (0 + 1 + 1) n := by
    rw [List.range_eq_range', List.range'_succ, List.range'_succ]
  rw [hn, hr, List.flatMap_cons, List.flatMap_cons]
  have h0 : ((List.range v.M).flatMap fun m => (List.range (if 0 % 2 = 1 then 1 else 0)).map fun par => (0, m, par)) =
      ([] : List (ℕ × ℕ × ℕ)) := by simp
  have h1 : ((List.range v.M).flatMap fun m => (List.range (if (0 + 1) % 2 = 1 then 1 else 0)).map fun par => (0 + 1, m, par)) =
      (List.range v.M).map (fun m => (1, m, 0)) := by
    rw [← List.flatMap_pure_eq_map]
    rfl
  rw [h0, h1, List.nil_append]
  exact ⟨_, rfl⟩

/-- The formulas in front. -/
theorem allKeys_first (v : Ev) (hS : 2 ≤ v.n_S) :
    ∃ r, allKeys v.fm = (if v.shared then (List.range (if v.shared_m then 1 else v.M)).map (Key.sh 0) else []) ++
      ((List.range v.M).map (fun m => Key.em 1 m 0) ++ r) := by
  obtain ⟨r, hr⟩ := emBlocks_first v hS
  unfold allKeys
  rw [hr, List.map_append, List.map_map]
  have hs : sharedKeys v.fm =
      if v.shared then (List.range (if v.shared_m then 1 else v.M)).map (Key.sh 0) else [] := by
    unfold sharedKeys
    change ((List.range (if v.shared = true then 1 else 0)).flatMap fun par =>
      (List.range (if v.shared_m = true then 1 else v.M)).map fun m => Key.sh par m) = _
    cases v.shared with
    | false => rfl
    | true =>
      simp only [if_true]
      change ([0].flatMap _) = _
      rw [List.flatMap_singleton]
  rw [hs]
  refine ⟨r.map (fun b => Key.em b.1 b.2.1 b.2.2) ++ (duBlocks v.fm).map (fun b => Key.du b.1 b.2) ++
    (trBlocks v.fm).map (fun b => Key.tr b.1 b.2) ++ (piBlocks v.fm).map Key.ini, ?_⟩
  simp only [List.append_assoc]
  rfl

theorem getD_map_append {α : Type} (f : ℕ → α) (r : List α) (n m : ℕ) (d : α) (h : m < n) :
    ((List.range n).map f ++ r).getD m d = f m := by
  rw [List.getD_eq_getElem?_getD, List.getElem?_append_left (by simpa using h), List.getElem?_map, List.getElem?_range h]
  rfl

/-- Which data are used. Unless there is a formula shared by all signals, signal `m` is evaluated at its own response. -/
theorem ymat_own (v : Ev) (sig : ℕ → ℕ → ℝ) (hn : Named v sig) (hS : 2 ≤ v.n_S)
    (hs : v.shared = false ∨ v.shared_m = false ∨ v.M ≤ 1) (t m : ℕ) (hm : m < v.M) : ymat v t m = sig m t := by
  obtain ⟨r, hr⟩ := allKeys_first v hS
  unfold ymat
  rw [if_pos hm, hr]
  cases hsh : v.shared with
  | false =>
    simp only [Bool.false_eq_true, if_false, List.nil_append]
    rw [List.map_append, List.map_map, getD_map_append _ _ _ _ _ hm]
    exact congrFun (hn.own 1 m 0) t
  | true =>
    simp only [if_true]
    cases hsm : v.shared_m with
    | false =>
      simp only [Bool.false_eq_true, if_false]
      rw [List.map_append, List.map_map, getD_map_append _ _ _ _ _ hm]
      exact congrFun (hn.perSignal hsm m) t
    | true =>
      have hM : v.M ≤ 1 := by
        rcases hs with h | h | h
        · rw [hsh] at h; cases h
        · rw [hsm] at h; cases h
        · exact h
      have h0 : m = 0 := by omega
      subst h0
      simp only [if_true]
      rw [List.map_append, List.map_map, getD_map_append _ _ _ _ _ one_pos]
      exact congrFun (hn.allSignals hsm) t

/-- With a formula shared by all signals the responses are those of the previous signal. -/
theorem ymat_shifted (v : Ev) (sig : ℕ → ℕ → ℝ) (hn : Named v sig) (hS : 2 ≤ v.n_S) (hs : v.shared = true)
    (hsm : v.shared_m = true) (t m : ℕ) (hm : m < v.M) : ymat v t m = sig (m - 1) t := by
  obtain ⟨r, hr⟩ := allKeys_first v hS
  unfold ymat
  rw [if_pos hm, hr, hs, hsm]
  simp only [if_true]
  change ((List.map v.resp (Key.sh 0 0 :: ((List.range v.M).map (fun m => Key.em 1 m 0) ++ r))).getD m fun _ => 0) t = _
  cases m with
  | zero => exact congrFun (hn.allSignals hsm) t
  | succ m =>
    rw [List.map_cons, List.map_append, List.map_map, List.getD_cons_succ, getD_map_append _ _ _ _ _ (by omega)]
    exact congrFun (hn.own 1 m 0) t

/-- Emission tables read the data of the signals `0, ..., M - 1` only. -/
theorem eventBs_y (e e' : EventArgs) (he : e' = { e with y := e'.y }) (hy : ∀ t, ∀ m < e.M, e'.y t m = e.y t m) :
    eventBs e' = eventBs e := by
  funext t k j
  rw [he]
  unfold eventBs
  have h1 : ∀ f : ℕ → ℝ, (∑ m ∈ range e.M, ldWrapper e.hmp_code (e'.y t m) (f m) e.scale) =
      ∑ m ∈ range e.M, ldWrapper e.hmp_code (e.y t m) (f m) e.scale := fun f =>
    sum_congr rfl fun m hm => by rw [hy t m (mem_range.1 hm)]
  have e1 : ∀ m, eBump { e with y := e'.y } t m k j = eBump e t m k j := fun _ => rfl
  have e2 : ∀ m, eFlat { e with y := e'.y } t m k j = eFlat e t m k j := fun _ => rfl
  simp only [e1, e2]
  rw [h1 fun m => eBump e t m k j, h1 fun m => eFlat e t m k j]

/-- The log-likelihood of the event model for the data `sig`: signal `m` is compared with its expected values. -/
noncomputable def llkFor (v : Ev) (β : Coef) (sig : ℕ → ℕ → ℝ) : ℝ :=
  llk { base v β with bs3 := eventBs { args v β with y := fun t m => sig m t } }

/-- C145, part. Without a formula shared by all signals (or with a single signal) the log-likelihood of an event model is
that of its signals. Missing: several signals and a formula shared by all of them, for which the claim is false. -/
theorem own_signals_partial (v : Ev) (β : Coef) (sig : ℕ → ℕ → ℝ) (hn : Named v sig) (hS : 2 ≤ v.n_S)
    (hs : v.shared = false ∨ v.shared_m = false ∨ v.M ≤ 1) : seriesLlk v β = llkFor v β sig := by
  unfold seriesLlk llkFor tabs
  rw [eventBs_y { args v β with y := fun t m => sig m t } (args v β) rfl
    (fun t m hm => ymat_own v sig hn hS hs t m hm)]

/-- C145, negation. With a formula shared by all signals the log-likelihood is that of other data: the first signal twice
and then every signal in the place of the next one. -/
theorem shifted_signals_wrong (v : Ev) (β : Coef) (sig : ℕ → ℕ → ℝ) (hn : Named v sig) (hS : 2 ≤ v.n_S)
    (hs : v.shared = true) (hsm : v.shared_m = true) : seriesLlk v β = llkFor v β fun m => sig (m - 1) := by
  unfold seriesLlk llkFor tabs
  rw [eventBs_y { args v β with y := fun t m => sig (m - 1) t } (args v β) rfl
    (fun t m hm => ymat_shifted v sig hn hS hs hsm t m hm)]

/-- C145, negation. Then the data of the last signal have no effect on the log-likelihood: whatever they are replaced by,
the log-likelihood of all series is the same function of the coefficients. -/
theorem last_signal_unused_wrong (v : Ev) (β : Coef) (sig : ℕ → ℕ → ℝ) (hn : Named v sig) (hS : 2 ≤ v.n_S)
    (hs : v.shared = true) (hsm : v.shared_m = true) (hM : 2 ≤ v.M) (resp' : Key → ℕ → ℝ)
    (sig' : ℕ → ℕ → ℝ) (hn' : Named { v with resp := resp' } sig') (hsame : ∀ m, m + 1 < v.M → sig' m = sig m) :
    seriesLlk { v with resp := resp' } β = seriesLlk v β := by
  rw [shifted_signals_wrong v β sig hn hS hs hsm,
    shifted_signals_wrong { v with resp := resp' } β sig' hn' hS hs hsm]
  unfold llkFor
  have : eventBs { args { v with resp := resp' } β with y := fun t m => sig' (m - 1) t } =
      eventBs { args v β with y := fun t m => sig (m - 1) t } := by
    refine eventBs_y { args v β with y := fun t m => sig (m - 1) t }
      { args { v with resp := resp' } β with y := fun t m => sig' (m - 1) t } rfl fun t m hm => ?_
    have hm' : m < v.M := hm
    change sig' (m - 1) t = sig (m - 1) t
    rw [hsame (m - 1) (by omega)]
  rw [this]
  rfl

end Verif.HEv
