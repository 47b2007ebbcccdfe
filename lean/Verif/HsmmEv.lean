import Verif.HsmmEvLemmas

/-! Property theorems: gradient (C144) and data (C145) of event models. -/

namespace Verif.HEv

open Hsmm HFam Finset

/-- The duration families are given with the derivatives of their log density. -/
def DurOk (v : Ev) : Prop := ∀ j < v.n_S, ∀ f, v.dur j = some f → f.Ok

/-- The model can be evaluated: positive scale, autocorrelation below one in absolute value, non-negative tables under
which some segmentation of the series is possible. -/
structure Usable (v : Ev) (β : Coef) : Prop where
  scale : 0 < v.scale
  rho : ∀ r, v.rho = some r → r ^ 2 < 1
  nonneg : NonNeg (tabs v β)
  seg : ∃ l, Admissible (tabs v β) l ∧ 0 < weight (tabs v β) l

/-- Entries of the columns of a coefficient added up. -/
noncomputable def D (v : Ev) (β : Coef) (k : Key) (c : ℕ) : ℝ :=
  match k with
  | .du j par => duEntry v β j par c
  | k => ((copies v k).map fun b => emEntry v β (b.1, b.2, 0) k c).sum

theorem seriesGrad_eq (v : Ev) (β : Coef) :
    seriesGrad v β = (allKeys v.fm).flatMap fun k => (List.range (v.p k)).map (D v β k) := by
  have hraw : rawGrad v β = (emBlocks v.fm).flatMap (fun b => ownVals v.fm (emEntry v β) b ++ shVals v.fm (emEntry v β) b) ++
      ((duBlocks v.fm).flatMap fun b => (List.range (v.p (.du b.1 b.2))).map (duEntry v β b.1 b.2)) := by
    unfold rawGrad
    congr 1
    refine List.flatMap_congr fun b hb => ?_
    have h0 := ((mem_em v b).1 hb).2.2.1
    unfold ownVals shVals
    congr 1
    rw [h0]
    by_cases hs : v.shared = true
    · have hn : 0 < v.fm.n_shared := by
        change 0 < (if v.shared = true then 1 else 0)
        rw [if_pos hs]; exact one_pos
      rw [if_pos hs, if_pos hn]
      rfl
    · have hn : ¬ 0 < v.fm.n_shared := by
        change ¬ 0 < (if v.shared = true then 1 else 0)
        rw [if_neg hs]; exact lt_irrefl 0
      rw [if_neg hs, if_neg hn]
  have htr : trBlocks v.fm = [] := if_neg (fun hc => by cases hc.1)
  have hpi : piBlocks v.fm = [] := if_neg (fun hc => by cases hc)
  unfold seriesGrad
  rw [hraw, collect_eq]
  unfold allKeys
  rw [htr, hpi, List.map_nil, List.map_nil, List.append_nil, List.append_nil, List.flatMap_append, List.flatMap_append,
    List.append_assoc]
  congr 1
  · refine List.flatMap_congr fun k hk => List.map_congr_left fun c _ => ?_
    have hsh : ∃ a b, k = .sh a b := by
      unfold sharedKeys at hk
      simp only [List.mem_flatMap, List.mem_map] at hk
      obtain ⟨a, _, b, _, rfl⟩ := hk
      exact ⟨a, b, rfl⟩
    obtain ⟨a, b, rfl⟩ := hsh
    simp only [D, copies, List.map_map]
    congr 1
  · congr 1
    · rw [List.flatMap_map]
      refine List.flatMap_congr fun b _ => List.map_congr_left fun c _ => ?_
      simp [D, copies, emEntry]
    · rw [List.flatMap_map]
      rfl

theorem evDs_deriv (v : Ev) (β : Coef) (k : Key) (c : ℕ) (hok : DurOk v) (hD : 2 ≤ v.D) (hc : c < v.p k) (d j : ℕ)
    (hj : j < v.n_S) : HasDerivAt (fun θ => evDs v (upd β k c θ) d j)
      (if (v.dur j).isSome then dDs v.fm β k c j 0 d else 0) (β k c) := by
  unfold evDs
  simp only [hj, if_true]
  cases h : v.dur j with
  | none => simpa using hasDerivAt_const _ _
  | some f =>
    simp only [Option.isSome_some, if_true]
    refine ds_deriv v.fm β k c (show 0 < v.D - 1 by omega) hc j ?_ 0 d
    change ((v.dur j).getD (slots 0)).Ok
    rw [h]
    exact hok j hj f h

theorem D_derivative (v : Ev) (β : Coef) (hok : DurOk v) (hT : 0 < v.n_T) (hS : 0 < v.n_S) (hD : 2 ≤ v.D)
    (hu : Usable v β) (k : Key) (hk : k ∈ allKeys v.fm) (c : ℕ) (hc : c < v.p k) :
    HasDerivAt (fun θ => seriesLlk v (upd β k c θ)) (D v β k c) (β k c) := by
  obtain ⟨l, hl, hw⟩ := hu.seg
  have hcode : (args v β).hmp_code = 1 ∨ (args v β).hmp_code = 2 := by
    change (if v.gaussian = true then 2 else 1) = 1 ∨ (if v.gaussian = true then 2 else 1) = 2
    cases v.gaussian <;> simp
  have hL : ∀ t < v.n_T, Lam (tabs v β) t ≠ 0 := Lam_ne_zero_of_segmentation _ hu.nonneg hT l hl hw
  have hemit : (∀ j par, k ≠ .du j par) →
      HasDerivAt (fun θ => seriesLlk v (upd β k c θ))
        ((copies v k).map fun b => emEntry v β (b.1, b.2, 0) k c).sum (β k c) := by
    intro hnd
    have hds : ∀ θ, evDs v (upd β k c θ) = evDs v β := by
      intro θ
      funext d j
      unfold evDs
      split_ifs
      swap
      · rfl
      cases v.dur j with
      | none => rfl
      | some f =>
        have hr : ∀ d, rds v.fm (upd β k c θ) j 0 d = rds v.fm β j 0 d := by
          intro d
          unfold rds duEta
          simp only [eta_const v.fm β k c _ (fun e => hnd _ _ e.symm)]
        simp only [dsAt, hr]
    have hmem : ∀ b ∈ copies v k, b.1 % 2 = 1 ∧ b.2 < v.M := by
      intro b hb
      cases k with
      | sh par0 m0 =>
        simp only [copies, List.mem_map, List.mem_filter] at hb
        obtain ⟨x, ⟨hx, _⟩, rfl⟩ := hb
        have := (mem_em v x).1 hx
        exact ⟨this.2.2.2, this.2.1⟩
      | em j0 m0 par0 =>
        simp only [copies, List.mem_singleton] at hb
        subst hb
        have hb : (j0, m0, par0) ∈ emBlocks v.fm := by
          simp only [allKeys, List.mem_append, List.mem_map] at hk
          rcases hk with (((hk | ⟨b, hb, e⟩) | ⟨b, hb, e⟩) | ⟨b, hb, e⟩) | ⟨b, hb, e⟩
          · simp only [sharedKeys, List.mem_flatMap, List.mem_map] at hk
            obtain ⟨a, _, b, _, e⟩ := hk
            cases e
          · cases e; exact hb
          · cases e
          · cases e
          · cases e
        have := (mem_em v _).1 hb
        exact ⟨this.2.2.2, this.2.1⟩
      | du j par => exact absurd rfl (hnd j par)
      | tr j par => cases hb
      | ini par => cases hb
    have h1 := llkFTPgrad_event_copies (base v β) (args v β) (fun θ => mus v (upd β k c θ)) (β k c) (copies v k)
      (fun t => v.X k t c) (fun t m j => mus_deriv v β k c hk hc t m j) (fun b hb => (hmem b hb).1)
      (fun b hb => (hmem b hb).2) hu.scale hcode hu.rho hT hS (show 0 < v.D - 1 by omega)
      (by simp only [upd_self]; exact hL)
    simp only [upd_self] at h1
    have e1 : (fun θ => seriesLlk v (upd β k c θ)) =
        fun θ => llk (eventTables (base v β) (args v β) (mus v (upd β k c θ))) := by
      funext θ
      unfold seriesLlk tabs base
      rw [hds]
      rfl
    rw [e1]
    exact h1
  rcases key_cases v k hk with ⟨a, b, rfl⟩ | ⟨a, b, d, rfl⟩ | ⟨j, par, rfl, hp, hj⟩
  · exact hemit (fun _ _ h => by cases h)
  · exact hemit (fun _ _ h => by cases h)
  · change HasDerivAt _ (duEntry v β j par c) _
    have hsome : (v.dur j).isSome = true := by
      cases h : v.dur j with
      | none =>
        change par < ((v.dur j).getD (slots 0)).n_par at hp
        rw [h] at hp
        exact absurd hp (Nat.not_lt_zero _)
      | some f => rfl
    have hmu : ∀ θ, mus v (upd β (.du j par) c θ) = mus v β := by
      intro θ
      funext t m j'
      unfold mus emEta
      rw [eta_const v.fm β _ c _ (by simp), eta_const v.fm β _ c _ (by simp [shKey])]
    have h2 : ∀ d j', HasDerivAt (fun θ => evDs v (upd β (.du j par) c θ) d j')
        (if j = j' then durGrad v.fm β j par c 0 d else 0) (β (.du j par) c) := by
      intro d j'
      by_cases hj' : j' < v.n_S
      · refine (evDs_deriv v β (.du j par) c hok hD hc d j' hj').congr_deriv ?_
        by_cases he : j = j'
        · subst he
          rw [if_pos hsome, if_pos rfl, dDs_du v.fm β c j par 0 d hp]
        · rw [if_neg he, dDs_zero v.fm β _ c j' 0 d (fun q => by
            unfold dDu
            rw [if_neg]
            intro e
            cases e
            exact he rfl)]
          split_ifs <;> rfl
      · rw [if_neg (fun e => hj' (by omega))]
        simp only [evDs, hj', if_false]
        exact hasDerivAt_const _ _
    have htab : ∀ θ, tabs v (upd β (.du j par) c θ) = eventTables
        { base v β with ds2 := evDs v (upd β (.du j par) c θ), ds3 := fun _ _ _ => 0 } (args v β) (mus v β) := by
      intro θ
      unfold tabs args
      rw [hmu]
      rfl
    have h0 : eventTables { base v β with ds2 := evDs v (upd β (.du j par) c (β (.du j par) c)), ds3 := fun _ _ _ => 0 }
        (args v β) (mus v β) = tabs v β := by rw [← htab, upd_self]
    have h1 := llkFTPgrad_event_duration (base v β) (args v β) (mus v β) (fun θ => evDs v (upd β (.du j par) c θ))
      (fun _ _ _ _ => 0) (β (.du j par) c) j (durGrad v.fm β j par c 0) (fun _ _ => 0) (fun _ => h2)
      (fun h => by cases h) hcode hT hS (show 0 < v.D - 1 by omega) (by rw [h0]; exact hu.nonneg) l
      (by rw [h0]; exact hl) (by rw [h0]; exact hw)
    rw [h0] at h1
    have e1 : (fun θ => seriesLlk v (upd β (.du j par) c θ)) = fun θ => llk (eventTables
        { base v β with ds2 := evDs v (upd β (.du j par) c θ), ds3 := fun _ _ _ => 0 } (args v β) (mus v β)) := by
      funext θ
      unfold seriesLlk
      rw [htab]
    rw [e1]
    exact h1

/-! ### C144 -/

/-- C144. The gradient of one series of an event model has one entry per coefficient, and entry `n` is the derivative of
the log-likelihood of the series in coefficient `n`: coefficients of the means of the events, with or without parts
shared by states and signals, coefficients of the durations, with or without autocorrelation. -/
theorem series_gradient (v : Ev) (coef : ℕ → ℝ) (hok : DurOk v) (hT : 0 < v.n_T) (hS : 0 < v.n_S) (hD : 2 ≤ v.D)
    (hu : Usable v (split v.fm coef)) :
    (seriesGrad v (split v.fm coef)).length = nCoef v.fm ∧
      ∀ n < nCoef v.fm, HasDerivAt (fun θ => seriesLlk v (split v.fm (Function.update coef n θ)))
        ((seriesGrad v (split v.fm coef)).getD n 0) (coef n) := by
  rw [seriesGrad_eq]
  refine ⟨flat_length _ _ _, fun n hn => ?_⟩
  obtain ⟨k, hk, c, hc, hnk, hv⟩ := flat_at v.p (D v (split v.fm coef)) (allKeys v.fm) (allKeys_nodup v.fm) n hn
  rw [hv]
  have hnk' : n = offset v.fm k + c := hnk
  have e0 : coef n = split v.fm coef k c := by
    unfold split splitBy
    rw [if_pos ⟨hk, hc⟩, hnk']
    rfl
  have e1 : (fun θ => seriesLlk v (split v.fm (Function.update coef n θ))) =
      fun θ => seriesLlk v (upd (split v.fm coef) k c θ) := by
    funext θ
    rw [hnk', split_update v.fm coef k hk c hc θ]
  rw [e1, e0]
  exact D_derivative v _ hok hT hS hD hu k hk c hc

theorem famGrad_some (n : ℕ) (vs : List Ev) (β : Coef) (hlen : ∀ v ∈ vs, (seriesGrad v β).length = n) (hne : vs ≠ []) :
    ∃ g, famGrad vs β = some g ∧ g.length = n ∧
      ∀ i < n, g.getD i 0 = (vs.map fun v => (seriesGrad v β).getD i 0).sum := by
  have main : ∀ (vs : List Ev) (a : List ℝ), (∀ v ∈ vs, (seriesGrad v β).length = n) → a.length = n →
      ∃ g, vs.foldl (fun a v => addGrad a (seriesGrad v β)) (some a) = some g ∧ g.length = n ∧
        ∀ i < n, g.getD i 0 = a.getD i 0 + (vs.map fun v => (seriesGrad v β).getD i 0).sum := by
    intro vs
    induction vs with
    | nil => intro a _ ha; exact ⟨a, rfl, ha, fun i _ => by simp⟩
    | cons v vs ih =>
      intro a hl ha
      have hlh := hl v List.mem_cons_self
      obtain ⟨g, hg, hgl, hgv⟩ := ih (List.zipWith (· + ·) a (seriesGrad v β))
        (fun v' hh => hl v' (List.mem_cons_of_mem _ hh)) (by rw [List.length_zipWith, ha, hlh, Nat.min_self])
      refine ⟨g, hg, hgl, fun i hi => ?_⟩
      rw [hgv i hi, List.map_cons, List.sum_cons, ← add_assoc]
      congr 1
      simp only [List.getD_eq_getElem?_getD]
      rw [List.getElem?_zipWith, List.getElem?_eq_getElem (by rw [ha]; exact hi),
        List.getElem?_eq_getElem (by rw [hlh]; exact hi)]
      rfl
  cases vs with
  | nil => exact absurd rfl hne
  | cons v vs =>
    obtain ⟨g, hg, hgl, hgv⟩ := main vs (seriesGrad v β) (fun v' hh => hlen v' (List.mem_cons_of_mem _ hh))
      (hlen v List.mem_cons_self)
    exact ⟨g, hg, hgl, fun i hi => by rw [hgv i hi]; simp⟩

/-- C144. `HSMMFamily.gradient` of event models is the gradient of the log-likelihood of all series: series of the same
family have the same formulas and hence the same blocks of coefficients. -/
theorem gradient (p : Key → ℕ) (K : List Key) (vs : List Ev) (hne : vs ≠ [])
    (hsame : ∀ v ∈ vs, v.p = p ∧ allKeys v.fm = K) (coef : ℕ → ℝ) (hok : ∀ v ∈ vs, DurOk v)
    (hT : ∀ v ∈ vs, 0 < v.n_T) (hS : ∀ v ∈ vs, 0 < v.n_S) (hD : ∀ v ∈ vs, 2 ≤ v.D)
    (hu : ∀ v ∈ vs, Usable v (splitBy K p coef)) :
    ∃ g, famGrad vs (splitBy K p coef) = some g ∧ g.length = (K.map p).sum ∧
      ∀ n < (K.map p).sum,
        HasDerivAt (fun θ => famLlk vs (splitBy K p (Function.update coef n θ))) (g.getD n 0) (coef n) := by
  have hsp : ∀ v ∈ vs, split v.fm = splitBy K p := fun v hv => by
    funext coef
    unfold split
    rw [(hsame v hv).2]
    change splitBy K v.p coef = _
    rw [(hsame v hv).1]
  have hn : ∀ v ∈ vs, nCoef v.fm = (K.map p).sum := fun v hv => by
    unfold nCoef
    rw [(hsame v hv).2]
    change (K.map v.p).sum = _
    rw [(hsame v hv).1]
  have hser := fun v hv => series_gradient v coef (hok v hv) (hT v hv) (hS v hv) (hD v hv)
    (by rw [hsp v hv]; exact hu v hv)
  obtain ⟨g, hg, hgl, hgv⟩ := famGrad_some (K.map p).sum vs (splitBy K p coef)
    (fun v hv => by
      have := (hser v hv).1
      rw [hsp v hv, hn v hv] at this
      exact this) hne
  refine ⟨g, hg, hgl, fun n hlt => ?_⟩
  rw [hgv n hlt]
  have hd : ∀ v ∈ vs, HasDerivAt (fun θ => seriesLlk v (splitBy K p (Function.update coef n θ)))
      ((seriesGrad v (splitBy K p coef)).getD n 0) (coef n) := fun v hv => by
    have h1 := (hser v hv).2 n (by rw [hn v hv]; exact hlt)
    rw [hsp v hv] at h1
    exact h1
  unfold famLlk
  clear hgv hg hgl hne hser hn hsp hu hD hS hT hok hsame
  induction vs with
  | nil => simpa using hasDerivAt_const _ _
  | cons v vs ih =>
    simp only [List.map_cons, List.sum_cons]
    exact (hd v List.mem_cons_self).add (ih fun v' hv => hd v' (List.mem_cons_of_mem _ hv))

end Verif.HEv
