import Verif.SchedModel
import Verif.Nuts
import Mathlib.Tactic.FinCases

/-! Properties C14 and C58: the sampling schedule. -/

namespace Verif.Sched

variable {σ : Type} {c : ℕ}

/-- `adv` returns as many draws as asked for. -/
def Exact (adv : Adv σ c) : Prop := ∀ ch it M k j v, (adv ch it M k j v).2.length = k

theorem write_lt (a : ℕ → σ) (s : ℕ) (d : List σ) (i : ℕ) (h : i < s) : write a s d i = a i := by
  unfold write; rw [if_neg (by omega)]

theorem write_get (a : ℕ → σ) (s : ℕ) (d : List σ) (i : ℕ) (h : i < d.length) : write a s d (s + i) = d[i] := by
  unfold write
  rw [if_pos (by omega), show s + i - s = i by omega, List.getElem?_eq_getElem h, Option.getD_some]

theorem write_ge (a : ℕ → σ) (s : ℕ) (d : List σ) (i : ℕ) (h : s + d.length ≤ i) : write a s d i = a i := by
  unfold write
  rw [if_pos (by omega), List.getElem?_eq_none (by omega), Option.getD_none]

/-- No block mixes warm-up and sampling iterations, blocks do not pass the end, and every block makes progress. -/
theorem block_pure (cfg : Cfg) (iter : ℕ) (hn : 0 < cfg.nSteps) (h : iter < cfg.nIter + cfg.Madapt) :
    0 < steps cfg iter ∧ steps cfg iter ≤ cfg.nSteps ∧ iter + steps cfg iter ≤ cfg.nIter + cfg.Madapt ∧
      (iter < cfg.Madapt → iter + steps cfg iter ≤ cfg.Madapt) := by
  unfold steps
  split_ifs <;> omega

example : steps ⟨10, 5, 4, 8, 8, 1⟩ 4 = 1 ∧ steps ⟨10, 5, 4, 8, 8, 1⟩ 13 = 2 := by decide

/-- The draws made after warm-up, block after block, for one chain, given the sequence of loop states. -/
def drawsOf (cfg : Cfg) (adv : Adv σ c) (ch : Fin c) (st : St σ c) : List σ :=
  if cfg.Madapt ≤ st.iter then
    (adv ch st.iter cfg.Madapt (steps cfg st.iter) (if st.iter < cfg.Madapt then cfg.maxJAdapt else cfg.maxJ) (st.chains ch)).2
  else []

/-- Consecutive loop states. -/
inductive Runs (cfg : Cfg) (adv : Adv σ c) : St σ c → List (St σ c) → St σ c → Prop where
  | nil (st) : Runs cfg adv st [] st
  | cons {st st'' l} : st.iter < cfg.nIter + cfg.Madapt → Runs cfg adv (body cfg adv st) l st'' → Runs cfg adv st (st :: l) st''

/-- What has been stored after a number of blocks is exactly the concatenation of the post-warm-up draws, in order. -/
theorem runs_stored (cfg : Cfg) (hn : 0 < cfg.nSteps) (adv : Adv σ c) (hadv : Exact adv) (st : St σ c) (l : List (St σ c)) (st' : St σ c)
    (h : Runs cfg adv st l st') (ch : Fin c) (hst : st.iter ≤ cfg.nIter + cfg.Madapt) :
    let ds := l.flatMap (drawsOf cfg adv ch)
    st'.iter ≤ cfg.nIter + cfg.Madapt ∧ ds.length = st'.iter - cfg.Madapt - (st.iter - cfg.Madapt) ∧ st.iter ≤ st'.iter ∧
    (∀ i (hi : i < ds.length), st'.samples ch (st.iter - cfg.Madapt + i) = ds[i]) ∧
    (∀ i, i < st.iter - cfg.Madapt ∨ st'.iter - cfg.Madapt ≤ i → st'.samples ch i = st.samples ch i) := by
  induction h with
  | nil st =>
    refine ⟨hst, by simp, le_rfl, ?_, fun i _ => rfl⟩
    intro i hi; simp at hi
  | @cons st st'' l hlt hr ih =>
    have hp := block_pure cfg st.iter hn hlt
    have hit : (body cfg adv st).iter = st.iter + steps cfg st.iter := rfl
    obtain ⟨i1, i2, i3, i4, i5⟩ := ih (by rw [hit]; omega)
    rw [hit] at i2 i3 i4 i5
    have hbs : (body cfg adv st).samples ch = if cfg.Madapt ≤ st.iter then write (st.samples ch) (st.iter - cfg.Madapt) (drawsOf cfg adv ch st) else st.samples ch := by
      show (if _ then _ else _) = _
      by_cases hM : cfg.Madapt ≤ st.iter
      · rw [if_pos hM, if_pos hM]; unfold drawsOf; rw [if_pos hM]
      · rw [if_neg hM, if_neg hM]
    set ds := l.flatMap (drawsOf cfg adv ch) with hds
    have hcons : (st :: l).flatMap (drawsOf cfg adv ch) = drawsOf cfg adv ch st ++ ds := by simp [hds]
    simp only [hcons]
    by_cases hM : cfg.Madapt ≤ st.iter
    · rw [if_pos hM] at hbs
      have hl : (drawsOf cfg adv ch st).length = steps cfg st.iter := by
        unfold drawsOf; rw [if_pos hM]; exact hadv _ _ _ _ _ _
      refine ⟨i1, by rw [List.length_append, i2, hl]; omega, by omega, ?_, ?_⟩
      · intro i hi
        by_cases hi1 : i < steps cfg st.iter
        · rw [List.getElem_append_left (by omega), i5 _ (.inl (by omega)), hbs, write_get _ _ _ _ (by omega)]
        · rw [List.getElem_append_right (by omega)]
          have := i4 (i - steps cfg st.iter) (by rw [List.length_append, hl] at hi; omega)
          rw [show st.iter - cfg.Madapt + i = st.iter + steps cfg st.iter - cfg.Madapt + (i - steps cfg st.iter) by omega, this]
          congr 1
          rw [hl]
      · intro i hi
        rw [i5 i (by omega), hbs]
        rcases hi with hi | hi
        · exact write_lt _ _ _ _ hi
        · exact write_ge _ _ _ _ (by rw [hl]; omega)
    · rw [if_neg hM] at hbs
      have hl : drawsOf cfg adv ch st = [] := by unfold drawsOf; rw [if_neg hM]
      simp only [hl, List.nil_append]
      have := hp.2.2.2 (by omega)
      refine ⟨i1, by rw [i2]; omega, by omega, ?_, ?_⟩
      · intro i hi
        have := i4 i hi
        rw [show st.iter - cfg.Madapt + i = st.iter + steps cfg st.iter - cfg.Madapt + i by omega]
        exact this
      · intro i hi
        rw [i5 i (by omega), hbs]

theorem loop_runs (cfg : Cfg) (adv : Adv σ c) (conv : St σ c → Bool) (fuel : ℕ) (st : St σ c) (r : Res σ c)
    (h : loop cfg adv conv fuel st = some r) :
    ∃ l, Runs cfg adv st l r.st ∧
      ((r.from_ = 0 ∧ r.upto = cfg.nIter ∧ cfg.nIter + cfg.Madapt ≤ r.st.iter) ∨
       (r.from_ = (r.st.iter - cfg.Madapt) / 2 ∧ r.upto = r.st.iter - cfg.Madapt ∧ conv r.st = true ∧ 2 * cfg.minIter ≤ r.upto ∧ cfg.Madapt < r.st.iter)) := by
  induction fuel generalizing st with
  | zero => simp [loop] at h
  | succ fuel ih =>
    unfold loop at h
    by_cases hlt : st.iter < cfg.nIter + cfg.Madapt
    · rw [if_pos hlt] at h
      by_cases hc : cfg.Madapt < (body cfg adv st).iter ∧ conv (body cfg adv st) = true ∧ 2 * cfg.minIter ≤ (body cfg adv st).iter - cfg.Madapt
      · simp only [if_pos hc] at h
        cases h
        exact ⟨[st], .cons hlt (.nil _), .inr ⟨rfl, rfl, hc.2.1, hc.2.2, hc.1⟩⟩
      · simp only [if_neg hc] at h
        obtain ⟨l, h1, h2⟩ := ih _ h
        exact ⟨st :: l, .cons hlt h1, h2⟩
    · rw [if_neg hlt] at h
      cases h
      exact ⟨[], .nil _, .inl ⟨rfl, rfl, not_lt.1 hlt⟩⟩

/-- The loop stops. -/
theorem loop_terminates (cfg : Cfg) (hn : 0 < cfg.nSteps) (adv : Adv σ c) (conv : St σ c → Bool) (st : St σ c) (fuel : ℕ)
    (hs : st.iter ≤ cfg.nIter + cfg.Madapt) (hf : cfg.nIter + cfg.Madapt < fuel + st.iter) : ∃ r, loop cfg adv conv fuel st = some r := by
  induction fuel generalizing st with
  | zero => omega
  | succ fuel ih =>
    unfold loop
    by_cases hlt : st.iter < cfg.nIter + cfg.Madapt
    · rw [if_pos hlt]
      have hp := block_pure cfg st.iter hn hlt
      by_cases hc : cfg.Madapt < (body cfg adv st).iter ∧ conv (body cfg adv st) = true ∧ 2 * cfg.minIter ≤ (body cfg adv st).iter - cfg.Madapt
      · simp only [if_pos hc]; exact ⟨_, rfl⟩
      · simp only [if_neg hc]
        have : (body cfg adv st).iter = st.iter + steps cfg st.iter := rfl
        exact ih _ (by omega) (by omega)
    · rw [if_neg hlt]; exact ⟨_, rfl⟩

/-- C14. Starting fresh, the call stops and returns for every chain: either all `n_iter` rows, filled in order with the draws of the
post-warm-up blocks (nothing else is ever written), or, if the convergence check stopped the run, the second half of the rows filled so
far, which are at least `min_iter` many. The warm-up blocks end exactly at `M_adapt`. -/
theorem schedule_complete (cfg : Cfg) (hn : 0 < cfg.nSteps) (adv : Adv σ c) (hadv : Exact adv) (conv : St σ c → Bool) (st : St σ c)
    (h0 : st.iter = 0) :
    ∃ r, loop cfg adv conv (cfg.nIter + cfg.Madapt + 1) st = some r ∧ ∃ l, Runs cfg adv st l r.st ∧
      (∀ s ∈ l, s.iter < cfg.Madapt → s.iter + steps cfg s.iter ≤ cfg.Madapt) ∧
      (∀ ch, (l.flatMap (drawsOf cfg adv ch)).length = r.st.iter - cfg.Madapt ∧
        (∀ i (hi : i < (l.flatMap (drawsOf cfg adv ch)).length), r.st.samples ch i = (l.flatMap (drawsOf cfg adv ch))[i]) ∧
        ∀ i, r.st.iter - cfg.Madapt ≤ i → r.st.samples ch i = st.samples ch i) ∧
      ((r.from_ = 0 ∧ r.upto = cfg.nIter ∧ r.st.iter = cfg.nIter + cfg.Madapt) ∨
       (cfg.Madapt < r.st.iter ∧ conv r.st = true ∧ r.upto = r.st.iter - cfg.Madapt ∧ r.upto ≤ cfg.nIter ∧ r.from_ = r.upto / 2 ∧ cfg.minIter ≤ r.upto - r.from_)) := by
  obtain ⟨r, hr⟩ := loop_terminates cfg hn adv conv st (cfg.nIter + cfg.Madapt + 1) (by omega) (by omega)
  refine ⟨r, hr, ?_⟩
  obtain ⟨l, hl, hres⟩ := loop_runs cfg adv conv _ st r hr
  have hall : ∀ s ∈ l, s.iter < cfg.nIter + cfg.Madapt := by
    clear hres hr
    generalize r.st = st' at hl
    clear h0
    induction hl with
    | nil => intro s hs; simp at hs
    | cons hlt _ ih =>
      intro s hs
      rcases List.mem_cons.1 hs with rfl | hs
      · exact hlt
      · exact ih s hs
  have hiter : r.st.iter ≤ cfg.nIter + cfg.Madapt := by
    clear hres hr hall
    generalize r.st = st' at hl
    have : st.iter ≤ cfg.nIter + cfg.Madapt := by omega
    clear h0
    induction hl with
    | nil => exact this
    | @cons st st'' l hlt _ ih => exact ih (by have := block_pure cfg st.iter hn hlt; show st.iter + steps cfg st.iter ≤ _; omega)
  refine ⟨l, hl, fun s hs => (block_pure cfg s.iter hn (hall s hs)).2.2.2, ?_, ?_⟩
  · intro ch
    obtain ⟨q1, q2, q3, q4, q5⟩ := runs_stored cfg hn adv hadv st l r.st hl ch (by omega)
    refine ⟨by rw [q2, h0]; omega, ?_, fun i hi => q5 i (.inr hi)⟩
    intro i hi
    have := q4 i hi
    rw [h0, Nat.zero_sub, Nat.zero_add] at this
    exact this
  · rcases hres with ⟨a, b, d⟩ | ⟨a, b, d, e, f⟩
    · exact .inl ⟨a, b, by omega⟩
    · exact .inr ⟨f, d, b, by omega, by omega, by omega⟩

/-! ### C58: the step size after warm-up -/

open Verif.Nuts

variable {p : ℕ}

/-- Like `Draws`, with one step size for all draws. -/
def DrawsEps (T : Target p) (maxJ : ℕ) (eps : ℝ) : (Fin p → ℝ) → List ((Fin p → ℝ) × ℝ) → List (ℝ × (Fin p → ℝ)) → Prop
  | _, [], [] => True
  | prev, (r0, e) :: ds, (L, s) :: new => L = T.llk s ∧ Follows T maxJ eps r0 e prev s ∧ DrawsEps T maxJ eps s ds new
  | _, _, _ => False

theorem DrawsEps.append {T : Target p} {maxJ : ℕ} {eps : ℝ} {a : Fin p → ℝ} {d1 d2 : List ((Fin p → ℝ) × ℝ)} {n1 n2 : List (ℝ × (Fin p → ℝ))}
    (L : ℝ) (h1 : DrawsEps T maxJ eps a d1 n1) (h2 : DrawsEps T maxJ eps (((L, a) :: n1).getLast (by simp)).2 d2 n2) :
    DrawsEps T maxJ eps a (d1 ++ d2) (n1 ++ n2) := by
  induction d1 generalizing a n1 L with
  | nil => cases n1 with
    | nil => simpa using h2
    | cons _ _ => exact h1.elim
  | cons d ds ih => cases n1 with
    | nil => exact h1.elim
    | cons n ns =>
      refine ⟨h1.1, h1.2.1, ih n.1 h1.2.2 ?_⟩
      rw [List.getLast_cons (by simp)] at h2
      exact h2

/-- Once the iteration number has reached the end of warm-up and the two step sizes agree, they never change. -/
theorem advanceChain_frozen (T : Target p) (maxJ : ℕ) (cf : AdaptCfg) (junk : ℝ) (ds : List ((Fin p → ℝ) × ℝ)) (hds : ∀ d ∈ ds, 0 ≤ d.2)
    (ch : Chain p) (hch : ch.cL = T.llk ch.cstate) (hm : cf.Madapt ≤ ch.m + 1) (heq : ch.ad.eps = ch.ad.epsbar) (ch' : Chain p)
    (ho : (advanceChain T maxJ cf junk ds ch).Out ch') :
    ∃ new, ch'.stored = ch.stored ++ new ∧ DrawsEps T maxJ ch.ad.eps ch.cstate ds new ∧ ch'.ad = ch.ad ∧ ch'.cL = T.llk ch'.cstate ∧
      ((ch.cL, ch.cstate) :: new).getLast (by simp) = (ch'.cL, ch'.cstate) := by
  induction ds generalizing ch with
  | nil =>
    rw [Rand.out_ret ho]
    exact ⟨[], by simp, trivial, rfl, hch, rfl⟩
  | cons d ds ih =>
    obtain ⟨r0, e⟩ := d
    obtain ⟨ch1, h1, h2⟩ := Rand.out_bind ho
    obtain ⟨l, hl, hl2⟩ := Rand.out_bind h1
    rw [hch] at hl
    have hok := iteration_ok T maxJ ch.cstate ch.ad.eps r0 e (hds (r0, e) (by simp)) l hl
    have hch1 := Rand.out_ret hl2
    have hap : ∀ al, adapt cf (ch.m + 1) al ch.ad = ch.ad := by
      intro al
      unfold adapt
      rw [if_neg (by omega)]
      calc (⟨ch.ad.epsbar, ch.ad.epsbar, ch.ad.Hbar⟩ : Adapt) = ⟨ch.ad.eps, ch.ad.epsbar, ch.ad.Hbar⟩ := by rw [heq]
        _ = ch.ad := rfl
    have b1 : ch1.cL = l.cL := by rw [hch1]
    have b2 : ch1.cstate = l.cstate := by rw [hch1]
    have b3 : ch1.stored = ch.stored ++ [(l.cL, l.cstate)] := by rw [hch1]
    have b4 : ch1.m = ch.m + 1 := by rw [hch1]
    have b5 : ch1.ad = ch.ad := by rw [hch1]; exact hap _
    obtain ⟨new, n1, n2, n3, n4, n5⟩ := ih (fun d hd => hds d (by simp [hd])) ch1 (by rw [b1, b2, hok.1]) (by omega) (by rw [b5, heq]) h2
    refine ⟨(l.cL, l.cstate) :: new, by rw [n1, b3]; simp, ⟨hok.1, hok.2.1, ?_⟩, n3.trans b5, n4, ?_⟩
    · rw [← b2, ← b5]; exact n2
    · rw [List.getLast_cons (by simp), ← n5]
      congr 2
      rw [b1, b2]

/-- The call of `advance_chain` (mcmc.py 1157-1191, 330-352): `inp ch it k` are the momentum and exponential draws of the block, `U ch it`
its uniform numbers, `acf ch` the constants (with the chain's `mu`). -/
noncomputable def advNuts (T : Target p) (acf : Fin c → AdaptCfg) (junk : ℝ) (inp : Fin c → ℕ → ℕ → List ((Fin p → ℝ) × ℝ))
    (U : Fin c → ℕ → ℕ → ℝ) : Adv (ℝ × (Fin p → ℝ)) c := fun ch it M k j v =>
  let r := ((advanceChain T j { acf ch with Madapt := M } junk (inp ch it k)
    ⟨it, v.cur.2, v.cur.1, ⟨v.eps, v.epsbar, v.Hbar⟩, []⟩).run (U ch it) 0).1
  (⟨(r.cL, r.cstate), r.ad.eps, r.ad.epsbar, r.ad.Hbar⟩, r.stored)

theorem frozen_runs (T : Target p) (acf : Fin c → AdaptCfg) (junk : ℝ) (inp : Fin c → ℕ → ℕ → List ((Fin p → ℝ) × ℝ))
    (U : Fin c → ℕ → ℕ → ℝ) (hU : ∀ ch it i, 0 ≤ U ch it i ∧ U ch it i < 1) (hinp : ∀ ch it k, ∀ d ∈ inp ch it k, 0 ≤ d.2) (cfg : Cfg)
    (hn : 0 < cfg.nSteps) (eps0 : ℝ) (st : St (ℝ × (Fin p → ℝ)) c) (l : List (St (ℝ × (Fin p → ℝ)) c)) (st' : St (ℝ × (Fin p → ℝ)) c)
    (h : Runs cfg (advNuts T acf junk inp U) st l st') (hM : cfg.Madapt ≤ st.iter) (hne : ∀ ch, (st.chains ch).eps = eps0 ∧ (st.chains ch).epsbar = eps0)
    (hc : ∀ ch, (st.chains ch).cur.1 = T.llk (st.chains ch).cur.2) (ch : Fin c) :
    ∃ ds, DrawsEps T cfg.maxJ eps0 (st.chains ch).cur.2 ds (l.flatMap (drawsOf cfg (advNuts T acf junk inp U) ch)) := by
  induction h with
  | nil => exact ⟨[], trivial⟩
  | @cons st st'' l hlt hr ih =>
    set adv := advNuts T acf junk inp U with hadvdef
    have hp := block_pure cfg st.iter hn hlt
    have hstep : ∀ ch', ∃ new, (adv ch' st.iter cfg.Madapt (steps cfg st.iter) cfg.maxJ (st.chains ch')).2 = new ∧
        DrawsEps T cfg.maxJ eps0 (st.chains ch').cur.2 (inp ch' st.iter (steps cfg st.iter)) new ∧
        (adv ch' st.iter cfg.Madapt (steps cfg st.iter) cfg.maxJ (st.chains ch')).1.eps = eps0 ∧
        (adv ch' st.iter cfg.Madapt (steps cfg st.iter) cfg.maxJ (st.chains ch')).1.epsbar = eps0 ∧
        (adv ch' st.iter cfg.Madapt (steps cfg st.iter) cfg.maxJ (st.chains ch')).1.cur.1 =
          T.llk (adv ch' st.iter cfg.Madapt (steps cfg st.iter) cfg.maxJ (st.chains ch')).1.cur.2 ∧
        ((st.chains ch').cur :: new).getLast (by simp) = (adv ch' st.iter cfg.Madapt (steps cfg st.iter) cfg.maxJ (st.chains ch')).1.cur := by
      intro ch'
      obtain ⟨new, a1, a2, a3, a4, a5⟩ := advanceChain_frozen T cfg.maxJ { acf ch' with Madapt := cfg.Madapt } junk (inp ch' st.iter (steps cfg st.iter))
        (hinp _ _ _) ⟨st.iter, (st.chains ch').cur.2, (st.chains ch').cur.1, ⟨(st.chains ch').eps, (st.chains ch').epsbar, (st.chains ch').Hbar⟩, []⟩
        (hc ch') (by show cfg.Madapt ≤ st.iter + 1; omega) ((hne ch').1.trans (hne ch').2.symm) _
        (Rand.run_out (U ch' st.iter) (hU ch' st.iter) _ 0)
      refine ⟨new, by rw [List.nil_append] at a1; exact a1, ?_, ?_, ?_, a4, a5⟩
      · have := a2
        simp only [(hne ch').1] at this
        exact this
      · exact (congrArg Adapt.eps a3).trans (hne ch').1
      · exact (congrArg Adapt.epsbar a3).trans (hne ch').2
    have hdep : (if st.iter < cfg.Madapt then cfg.maxJAdapt else cfg.maxJ) = cfg.maxJ := if_neg (by omega)
    have hbody : ∀ ch', (body cfg adv st).chains ch' = (adv ch' st.iter cfg.Madapt (steps cfg st.iter) cfg.maxJ (st.chains ch')).1 := by
      intro ch'
      show (if _ then _ else _ : Fin c → Ch (ℝ × (Fin p → ℝ))) ch' = _
      rw [if_neg (by omega), hdep]
    have hit : (body cfg adv st).iter = st.iter + steps cfg st.iter := rfl
    obtain ⟨ds, hds⟩ := ih (by omega) (fun ch' => by
        obtain ⟨_, _, _, h3, h4, _⟩ := hstep ch'
        rw [hbody]; exact ⟨h3, h4⟩)
      (fun ch' => by
        obtain ⟨_, _, _, _, _, h5, _⟩ := hstep ch'
        rw [hbody]; exact h5)
    obtain ⟨new, e1, e2, _, _, _, e6⟩ := hstep ch
    refine ⟨inp ch st.iter (steps cfg st.iter) ++ ds, ?_⟩
    rw [List.flatMap_cons]
    have hd : drawsOf cfg adv ch st = new := by
      unfold drawsOf
      rw [if_pos hM, hdep, e1]
    rw [hd]
    refine DrawsEps.append (st.chains ch).cur.1 e2 ?_
    rw [show (((st.chains ch).cur.1, (st.chains ch).cur.2) :: new).getLast (by simp) = _ from e6, ← hbody]
    exact hds

/-- A fresh run that gets past warm-up passes through the state where warm-up has just ended and the step sizes have been averaged. -/
theorem warmup_split (T : Target p) (acf : Fin c → AdaptCfg) (junk : ℝ) (inp : Fin c → ℕ → ℕ → List ((Fin p → ℝ) × ℝ))
    (U : Fin c → ℕ → ℕ → ℝ) (hU : ∀ ch it i, 0 ≤ U ch it i ∧ U ch it i < 1) (hinp : ∀ ch it k, ∀ d ∈ inp ch it k, 0 ≤ d.2) (cfg : Cfg)
    (hn : 0 < cfg.nSteps) (st : St (ℝ × (Fin p → ℝ)) c) (l : List (St (ℝ × (Fin p → ℝ)) c)) (st' : St (ℝ × (Fin p → ℝ)) c)
    (h : Runs cfg (advNuts T acf junk inp U) st l st') (hM : st.iter < cfg.Madapt) (hM' : cfg.Madapt ≤ st'.iter)
    (hpos : ∀ ch, 0 < (st.chains ch).eps ∧ 0 < (st.chains ch).epsbar)
    (hc : ∀ ch, (st.chains ch).cur.1 = T.llk (st.chains ch).cur.2) :
    ∃ l1 l2 mid, l = l1 ++ l2 ∧ Runs cfg (advNuts T acf junk inp U) mid l2 st' ∧ mid.iter = cfg.Madapt ∧
      (∀ ch, l1.flatMap (drawsOf cfg (advNuts T acf junk inp U) ch) = []) ∧
      (∃ eps0, (0 < c → 0 < eps0) ∧ ∀ ch, (mid.chains ch).eps = eps0 ∧ (mid.chains ch).epsbar = eps0) ∧
      ∀ ch, (mid.chains ch).cur.1 = T.llk (mid.chains ch).cur.2 := by
  induction h with
  | nil => omega
  | @cons st st'' l hlt hr ih =>
    set adv := advNuts T acf junk inp U with hadvdef
    have hp := block_pure cfg st.iter hn hlt
    have hit : (body cfg adv st).iter = st.iter + steps cfg st.iter := rfl
    have hd : ∀ ch, drawsOf cfg adv ch st = [] := fun ch => by unfold drawsOf; rw [if_neg (by omega)]
    set out := fun ch => adv ch st.iter cfg.Madapt (steps cfg st.iter) (if st.iter < cfg.Madapt then cfg.maxJAdapt else cfg.maxJ) (st.chains ch) with hout
    have hstep : ∀ ch, 0 < (out ch).1.eps ∧ 0 < (out ch).1.epsbar ∧ (out ch).1.cur.1 = T.llk (out ch).1.cur.2 := by
      intro ch
      obtain ⟨new, a1, a2, a3, a4, a5, a6, a7⟩ := advanceChain_ok T (if st.iter < cfg.Madapt then cfg.maxJAdapt else cfg.maxJ)
        { acf ch with Madapt := cfg.Madapt } junk (inp ch st.iter (steps cfg st.iter))
        (hinp _ _ _) ⟨st.iter, (st.chains ch).cur.2, (st.chains ch).cur.1, ⟨(st.chains ch).eps, (st.chains ch).epsbar, (st.chains ch).Hbar⟩, []⟩
        (hc ch) (hpos ch).1 (hpos ch).2 _ (Rand.run_out (U ch st.iter) (hU ch st.iter) _ 0)
      exact ⟨a6, a7, a3⟩
    by_cases hend : st.iter + steps cfg st.iter = cfg.Madapt
    · set m := (∑ ch, (out ch).1.epsbar) / (c : ℝ) with hm
      have hch : ∀ ch, (body cfg adv st).chains ch = { (out ch).1 with eps := m, epsbar := m } := by
        intro ch
        show (if _ then _ else _ : Fin c → Ch (ℝ × (Fin p → ℝ))) ch = _
        rw [if_pos hend]
      refine ⟨[st], l, body cfg adv st, rfl, hr, hend, fun ch => by simp [hd], ⟨m, ?_, fun ch => by rw [hch]; exact ⟨rfl, rfl⟩⟩,
        fun ch => by rw [hch]; exact (hstep ch).2.2⟩
      intro hc0
      have : Nonempty (Fin c) := ⟨⟨0, hc0⟩⟩
      exact div_pos (Finset.sum_pos (fun ch _ => (hstep ch).2.1) Finset.univ_nonempty) (by exact_mod_cast hc0)
    · have hch : ∀ ch, (body cfg adv st).chains ch = (out ch).1 := by
        intro ch
        show (if _ then _ else _ : Fin c → Ch (ℝ × (Fin p → ℝ))) ch = _
        rw [if_neg hend]
      obtain ⟨l1, l2, mid, e1, e2, e3, e4, e5, e6⟩ := ih (by have := hp.2.2.2 hM; omega) hM'
        (fun ch => by rw [hch]; exact ⟨(hstep ch).1, (hstep ch).2.1⟩) (fun ch => by rw [hch]; exact (hstep ch).2.2)
      exact ⟨st :: l1, l2, mid, by rw [e1]; rfl, e2, e3, fun ch => by rw [List.flatMap_cons, hd, e4]; rfl, e5, e6⟩

theorem advNuts_exact (T : Target p) (acf : Fin c → AdaptCfg) (junk : ℝ) (inp : Fin c → ℕ → ℕ → List ((Fin p → ℝ) × ℝ))
    (U : Fin c → ℕ → ℕ → ℝ) (hk : ∀ ch it k, (inp ch it k).length = k) : Exact (advNuts T acf junk inp U) := by
  have key : ∀ (j : ℕ) (cf : AdaptCfg) (ds : List ((Fin p → ℝ) × ℝ)) (chn : Chain p) (V : ℕ → ℝ) (pos : ℕ),
      ((advanceChain T j cf junk ds chn).run V pos).1.stored.length = chn.stored.length + ds.length := by
    intro j cf ds
    induction ds with
    | nil => intro chn V pos; rfl
    | cons d ds ih =>
      intro chn V pos
      have hb : ∀ {α β : Type} (x : Rand α) (f : α → Rand β) (pos : ℕ), (x.bind f).run V pos = (f (x.run V pos).1).run V (x.run V pos).2 := by
        intro α β x f
        induction x with
        | ret a => intro pos; rfl
        | coin q k ihx => intro pos; exact ihx _ _
      show (((chainStep T j cf junk d.1 d.2 chn).bind fun ch' => advanceChain T j cf junk ds ch').run V pos).1.stored.length = _
      rw [hb, ih]
      unfold chainStep
      rw [hb]
      simp only [Rand.run, List.length_append, List.length_cons, List.length_nil]
      omega
  intro ch it M k j v
  show (List.length _) = k
  have := key j { acf ch with Madapt := M } (inp ch it k) ⟨it, v.cur.2, v.cur.1, ⟨v.eps, v.epsbar, v.Hbar⟩, []⟩ (U ch it) 0
  rw [hk] at this
  exact this.trans (Nat.zero_add k)

/-- C58. With a warm-up phase (`0 < M_adapt`), all draws returned, on all chains, were made with one and the same positive step size. The
rows stored for a chain are a sequence in which each draw follows its predecessor with that step size, starting from the chain's state at
the end of warm-up. -/
theorem one_step_size_partial (T : Target p) (acf : Fin c → AdaptCfg) (junk : ℝ) (inp : Fin c → ℕ → ℕ → List ((Fin p → ℝ) × ℝ))
    (U : Fin c → ℕ → ℕ → ℝ) (hU : ∀ ch it i, 0 ≤ U ch it i ∧ U ch it i < 1) (hinp : ∀ ch it k, ∀ d ∈ inp ch it k, 0 ≤ d.2)
    (hk : ∀ ch it k, (inp ch it k).length = k) (cfg : Cfg) (hn : 0 < cfg.nSteps) (hM : 0 < cfg.Madapt) (hc0 : 0 < c)
    (conv : St (ℝ × (Fin p → ℝ)) c → Bool) (st : St (ℝ × (Fin p → ℝ)) c) (h0 : st.iter = 0)
    (hpos : ∀ ch, 0 < (st.chains ch).eps ∧ 0 < (st.chains ch).epsbar) (hc : ∀ ch, (st.chains ch).cur.1 = T.llk (st.chains ch).cur.2) :
    ∃ (r : Res (ℝ × (Fin p → ℝ)) c) (eps0 : ℝ) (w : Fin c → Fin p → ℝ), loop cfg (advNuts T acf junk inp U) conv (cfg.nIter + cfg.Madapt + 1) st = some r ∧ 0 < eps0 ∧ ∀ ch, ∃ ds,
      DrawsEps T cfg.maxJ eps0 (w ch) ds ((List.range (r.st.iter - cfg.Madapt)).map (r.st.samples ch)) := by
  obtain ⟨r, hr, l, hl, _, hs, hend⟩ := schedule_complete cfg hn _ (advNuts_exact T acf junk inp U hk) conv st h0
  have hM' : cfg.Madapt ≤ r.st.iter := by
    rcases hend with ⟨_, _, h⟩ | ⟨h, _⟩
    · omega
    · exact h.le
  obtain ⟨l1, l2, mid, e1, e2, e3, e4, ⟨eps0, e5, e6⟩, e7⟩ := warmup_split T acf junk inp U hU hinp cfg hn st l r.st hl (by omega) hM' hpos hc
  refine ⟨r, eps0, fun ch => (mid.chains ch).cur.2, hr, e5 hc0, fun ch => ?_⟩
  obtain ⟨ds, hds⟩ := frozen_runs T acf junk inp U hU hinp cfg hn eps0 mid l2 r.st e2 e3.ge e6 e7 ch
  refine ⟨ds, ?_⟩
  obtain ⟨s1, s2, _⟩ := hs ch
  have : (List.range (r.st.iter - cfg.Madapt)).map (r.st.samples ch) = l2.flatMap (drawsOf cfg (advNuts T acf junk inp U) ch) := by
    have hll : l.flatMap (drawsOf cfg (advNuts T acf junk inp U) ch) = l2.flatMap (drawsOf cfg (advNuts T acf junk inp U) ch) := by
      rw [e1, List.flatMap_append, e4, List.nil_append]
    apply List.ext_getElem
    · rw [List.length_map, List.length_range, ← hll, s1]
    · intro i hi1 hi2
      rw [List.getElem_map, List.getElem_range]
      have := s2 i (by rw [hll]; exact hi2)
      rw [this]
      congr 1
  rw [this]
  exact hds

/-- Without warm-up the claim fails: whatever step size a chain starts with, after its first draw it uses the initial value of the averaged
step size (which `sample_mssm` sets to 1, mcmc.py 1116). -/
theorem no_warmup_step_size (T : Target p) (maxJ : ℕ) (cf : AdaptCfg) (hcf : cf.Madapt = 0) (junk : ℝ) (d : (Fin p → ℝ) × ℝ) (ch ch' : Chain p)
    (ho : (advanceChain T maxJ cf junk [d] ch).Out ch') : ch'.ad.eps = ch.ad.epsbar := by
  obtain ⟨ch1, h1, h2⟩ := Rand.out_bind ho
  obtain ⟨l, hl, hl2⟩ := Rand.out_bind h1
  rw [Rand.out_ret h2, Rand.out_ret hl2]
  show (adapt cf (ch.m + 1) _ ch.ad).eps = _
  unfold adapt
  rw [if_neg (by omega)]

/-- Inputs meeting the hypotheses: one chain, three warm-up iterations, blocks of two. -/
example : ∃ (inp : Fin 1 → ℕ → ℕ → List ((Fin 1 → ℝ) × ℝ)) (U : Fin 1 → ℕ → ℕ → ℝ) (st : St (ℝ × (Fin 1 → ℝ)) 1),
    (∀ ch it i, 0 ≤ U ch it i ∧ U ch it i < 1) ∧ (∀ ch it k, ∀ d ∈ inp ch it k, 0 ≤ d.2) ∧ (∀ ch it k, (inp ch it k).length = k) ∧
    st.iter = 0 ∧ (∀ ch, 0 < (st.chains ch).eps ∧ 0 < (st.chains ch).epsbar) ∧ (∀ ch, (st.chains ch).cur.1 = exT.llk (st.chains ch).cur.2) := by
  refine ⟨fun _ _ k => List.replicate k (fun _ => 1, 1), fun _ _ _ => 1 / 2,
    ⟨0, fun _ => ⟨(exT.llk fun _ => 1, fun _ => 1), 1 / 2, 1, 0⟩, fun _ _ => (0, fun _ => 0)⟩, fun _ _ _ => by norm_num, ?_,
    fun _ _ k => List.length_replicate, rfl, fun _ => by norm_num, fun _ => rfl⟩
  intro _ _ k d hd
  rw [List.eq_of_mem_replicate hd]
  norm_num

end Verif.Sched
