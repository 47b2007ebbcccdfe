import Verif.StopModel
import Verif.Chk
import Verif.Sched

/-! Helper lemmas for `Stop.lean`. -/

namespace Verif.Stop

open Verif.Sched

variable {c : ℕ}

/-- Arguments of the call of the callback in a loop state. -/
def callOf (o : Opt) (cfg : Cfg) (s : St Draw c) : ℕ × Result := (s.iter - cfg.Madapt, pack o s.samples 0 (s.iter - cfg.Madapt))

/-- Blocks after warm-up: the states reached. -/
noncomputable def post (cfg : Cfg) (adv : Adv Draw c) (l : List (St Draw c)) : List (St Draw c) :=
  (l.map (body cfg adv)).filter fun s => decide (cfg.Madapt < s.iter)

theorem post_cons (cfg : Cfg) (adv : Adv Draw c) (s : St Draw c) (l : List (St Draw c)) :
    post cfg adv (s :: l) = (if cfg.Madapt < (body cfg adv s).iter then [body cfg adv s] else []) ++ post cfg adv l := by
  unfold post
  rw [List.map_cons, List.filter_cons]
  by_cases h : cfg.Madapt < (body cfg adv s).iter
  · rw [if_pos h, if_pos (by simpa using h)]; rfl
  · rw [if_neg h, if_neg (by simpa using h)]; rfl

theorem run_runs (o : Opt) (cfg : Cfg) (adv : Adv Draw c) (ess rhat : Chk.Diag) (fuel : ℕ) (st : St Draw c) (calls : List (ℕ × Result))
    (ret : Ret) (h : run o cfg adv ess rhat fuel st calls = some ret) :
    ∃ l st', Runs cfg adv st l st' ∧ ret.st = st'.iter ∧
      ((cfg.nIter + cfg.Madapt ≤ st'.iter ∧ ret.res = pack o st'.samples 0 cfg.nIter ∧
          ret.calls = calls ++ (post cfg adv l).map (callOf o cfg)) ∨
       (cfg.Madapt < st'.iter ∧ stop o ess rhat st'.samples (st'.iter - cfg.Madapt) = some true ∧ 2 * cfg.minIter ≤ st'.iter - cfg.Madapt ∧
          ret.res = pack o st'.samples ((st'.iter - cfg.Madapt) / 2) (st'.iter - cfg.Madapt) ∧
          post cfg adv l ≠ [] ∧ ret.calls = calls ++ (post cfg adv l).dropLast.map (callOf o cfg))) := by
  induction fuel generalizing st calls with
  | zero => simp [run] at h
  | succ fuel ih =>
    unfold run at h
    by_cases hlt : st.iter < cfg.nIter + cfg.Madapt
    · rw [if_pos hlt] at h
      dsimp only at h
      by_cases hM : cfg.Madapt < (body cfg adv st).iter
      · rw [if_pos hM] at h
        cases hs : stop o ess rhat (body cfg adv st).samples ((body cfg adv st).iter - cfg.Madapt) with
        | none => rw [hs] at h; exact absurd h (by simp)
        | some b =>
          rw [hs] at h
          dsimp only at h
          by_cases hb : b = true ∧ 2 * cfg.minIter ≤ (body cfg adv st).iter - cfg.Madapt
          · rw [if_pos hb] at h
            obtain rfl := Option.some.inj h
            have hp : post cfg adv [st] = [body cfg adv st] := by
              rw [post_cons, if_pos hM]; rfl
            refine ⟨[st], body cfg adv st, .cons hlt (.nil _), rfl, .inr ⟨hM, hb.1 ▸ hs, hb.2, rfl, ?_, ?_⟩⟩
            · rw [hp]; simp
            · rw [hp]; simp
          · rw [if_neg hb] at h
            obtain ⟨l, st', hr, e, hd⟩ := ih _ _ h
            refine ⟨st :: l, st', .cons hlt hr, e, ?_⟩
            rw [post_cons, if_pos hM]
            rcases hd with ⟨a, b, d⟩ | ⟨a, b, d, e, f, g⟩
            · exact .inl ⟨a, b, by rw [d]; simp [callOf]⟩
            · refine .inr ⟨a, b, d, e, by simp, ?_⟩
              rw [g, List.dropLast_append_of_ne_nil f]
              simp [callOf]
      · rw [if_neg hM] at h
        obtain ⟨l, st', hr, e, hd⟩ := ih _ _ h
        refine ⟨st :: l, st', .cons hlt hr, e, ?_⟩
        rw [post_cons, if_neg hM]
        exact hd
    · rw [if_neg hlt] at h
      obtain rfl := Option.some.inj h
      exact ⟨[], st, .nil _, rfl, .inl ⟨by omega, rfl, by simp [post]⟩⟩

theorem report_zero (o : Opt) (h0 : o.convType = 0) (f : Chk.Diag) (q : Result) :
    report o f q = some (Chk.own f (some q.coefs) ++ Chk.own f q.lscales ++ Chk.own f q.thetas ++ Chk.own f q.rhos ++ Chk.own f (some q.lps)) := by
  unfold report
  rw [h0, Chk.check_all]

theorem stop_some (o : Opt) (h0 : o.convType = 0) (ess rhat : Chk.Diag) (s : Fin c → ℕ → Draw) (k : ℕ) :
    ∃ b, stop o ess rhat s k = some b := by
  unfold stop
  rw [report_zero o h0, report_zero o h0]
  by_cases h : 2 * c < k / 4 ∧ o.hasArviz = true
  · rw [if_pos h]; exact ⟨_, rfl⟩
  · rw [if_neg h]; exact ⟨_, rfl⟩

theorem run_total' (o : Opt) (h0 : o.convType = 0) (cfg : Cfg) (hn : 0 < cfg.nSteps) (adv : Adv Draw c) (ess rhat : Chk.Diag) (fuel : ℕ)
    (st : St Draw c) (calls : List (ℕ × Result)) (hf : cfg.nIter + cfg.Madapt < fuel + st.iter) :
    ∃ ret, run o cfg adv ess rhat (fuel + 1) st calls = some ret := by
  induction fuel generalizing st calls with
  | zero =>
    unfold run
    rw [if_neg (by omega)]
    exact ⟨_, rfl⟩
  | succ fuel ih =>
    unfold run
    by_cases hlt : st.iter < cfg.nIter + cfg.Madapt
    · have hp := block_pure cfg st.iter hn hlt
      have hit : (body cfg adv st).iter = st.iter + steps cfg st.iter := rfl
      rw [if_pos hlt]
      dsimp only
      by_cases hM : cfg.Madapt < (body cfg adv st).iter
      · rw [if_pos hM]
        obtain ⟨b, hb⟩ := stop_some o h0 ess rhat (body cfg adv st).samples ((body cfg adv st).iter - cfg.Madapt)
        rw [hb]
        dsimp only
        by_cases hb : b = true ∧ 2 * cfg.minIter ≤ (body cfg adv st).iter - cfg.Madapt
        · rw [if_pos hb]; exact ⟨_, rfl⟩
        · rw [if_neg hb]; exact ih _ _ (by rw [hit]; omega)
      · rw [if_neg hM]; exact ih _ _ (by rw [hit]; omega)
    · rw [if_neg hlt]; exact ⟨_, rfl⟩

theorem runs_iter {cfg : Cfg} (hn : 0 < cfg.nSteps) {adv : Adv Draw c} {st st' : St Draw c} {l : List (St Draw c)} (h : Runs cfg adv st l st')
    (hst : st.iter ≤ cfg.nIter + cfg.Madapt) : st'.iter ≤ cfg.nIter + cfg.Madapt := by
  induction h with
  | nil => exact hst
  | @cons st st'' l hlt _ ih => exact ih (by have := block_pure cfg st.iter hn hlt; show st.iter + steps cfg st.iter ≤ _; omega)

theorem runs_keep {cfg : Cfg} (hn : 0 < cfg.nSteps) {adv : Adv Draw c} (hadv : Exact adv) {st st' : St Draw c} {l : List (St Draw c)}
    (h : Runs cfg adv st l st') (hst : st.iter ≤ cfg.nIter + cfg.Madapt) :
    ∀ s ∈ l, (body cfg adv s).iter ≤ st'.iter ∧ ∀ ch i, i < (body cfg adv s).iter - cfg.Madapt → st'.samples ch i = (body cfg adv s).samples ch i := by
  induction h with
  | nil => intro s hs; simp at hs
  | @cons st st'' l hlt hr ih =>
    have hle : (body cfg adv st).iter ≤ cfg.nIter + cfg.Madapt := by
      have := block_pure cfg st.iter hn hlt; show st.iter + steps cfg st.iter ≤ _; omega
    intro s hs
    rcases List.mem_cons.1 hs with rfl | hs
    · refine ⟨?_, fun ch i hi => ?_⟩
      · by_cases hc : Nonempty (Fin c)
        · obtain ⟨ch⟩ := hc
          exact (runs_stored cfg hn adv hadv _ _ _ hr ch hle).2.2.1
        · clear ih hlt hs
          generalize body cfg adv s = t at hr hle
          induction hr with
          | nil => exact le_rfl
          | @cons st st'' l hlt _ ih =>
            have := block_pure cfg st.iter hn hlt
            have h2 : (body cfg adv st).iter = st.iter + steps cfg st.iter := rfl
            exact le_trans (by rw [h2]; omega) (ih (by rw [h2]; omega))
      · exact (runs_stored cfg hn adv hadv _ _ _ hr ch hle).2.2.2.2 i (.inl hi)
    · exact ih hle s hs

theorem stop_true (o : Opt) (ess rhat : Chk.Diag) (s : Fin c → ℕ → Draw) (k : ℕ) (h : stop o ess rhat s k = some true) :
    2 * c < k / 4 ∧ o.hasArviz = true ∧ o.autoConverge = true ∧ ∃ e r, report o ess (checked o s k) = some e ∧
      report o rhat (checked o s k) = some r ∧ (∀ x ∈ e, o.minEss * c < x) ∧ ∀ x ∈ r, x < o.maxRhat := by
  unfold stop at h
  by_cases hk : 2 * c < k / 4 ∧ o.hasArviz = true
  · rw [if_pos hk] at h
    cases he : report o ess (checked o s k) with
    | none => rw [he] at h; exact absurd h (by simp)
    | some e =>
      cases hr : report o rhat (checked o s k) with
      | none => rw [he, hr] at h; exact absurd h (by simp)
      | some r =>
        rw [he, hr] at h
        have := of_decide_eq_true (Option.some.inj h)
        exact ⟨hk.1, hk.2, this.2.2, e, r, rfl, rfl, this.1, this.2.1⟩
  · rw [if_neg hk] at h
    exact absurd h (by simp)

end Verif.Stop
