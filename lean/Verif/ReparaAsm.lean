import Verif.ReparaAsmModel
import Mathlib.Tactic.Ring
import Mathlib.Tactic.Linarith
import Mathlib.Tactic.IntervalCases
import Mathlib.Algebra.BigOperators.Ring.Finset
import Mathlib.Data.List.GetD

/-!
# Assembling the transformation of a whole model (property C41)
-/

namespace Verif.ReparaAsm

/-- Blocks along the diagonal. -/
inductive Piece where
  | unpen (s : ℕ)
  | pen (t : Term)

def Piece.sz : Piece → ℕ
  | .unpen s => s
  | .pen t => t.size

def Piece.q : Piece → Arr
  | .unpen _ => ident
  | .pen t => t.Q

def Piece.s : Piece → Arr
  | .unpen _ => zero
  | .pen t => t.S

def Piece.r : Piece → Arr
  | .unpen _ => zero
  | .pen t => t.R

def seq (f : Piece → Arr) : List Piece → ℕ → Arr
  | [], _ => zero
  | x :: L, c => fun i j => blk c x.sz (f x) i j + seq f L (c + x.sz) i j

theorem seq_cons (f : Piece → Arr) (x : Piece) (L : List Piece) (c i j : ℕ) :
    seq f (x :: L) c i j = blk c x.sz (f x) i j + seq f L (c + x.sz) i j := rfl

def len (L : List Piece) : ℕ := (L.map Piece.sz).sum

theorem seq_append (f : Piece → Arr) (L L' : List Piece) (c i j : ℕ) :
    seq f (L ++ L') c i j = seq f L c i j + seq f L' (c + len L) i j := by
  induction L generalizing c with
  | nil => simp [seq, len, zero]
  | cons x L ih =>
    rw [List.cons_append, seq_cons, seq_cons, ih]
    have : c + x.sz + len L = c + len (x :: L) := by simp [len]; omega
    rw [this]
    ring

theorem len_append (L L' : List Piece) : len (L ++ L') = len L + len L' := by simp [len]

theorem blk_out (c s : ℕ) (M : Arr) (i j : ℕ) (h : i < c ∨ c + s ≤ i ∨ j < c ∨ c + s ≤ j) :
    blk c s M i j = 0 := by
  unfold blk
  rw [if_neg]; omega

theorem seq_out (f : Piece → Arr) (L : List Piece) (c i j : ℕ)
    (h : i < c ∨ c + len L ≤ i ∨ j < c ∨ c + len L ≤ j) : seq f L c i j = 0 := by
  induction L generalizing c with
  | nil => rfl
  | cons x L ih =>
    have hl : len (x :: L) = x.sz + len L := by simp [len]
    rw [hl] at h
    rw [seq_cons, blk_out _ _ _ _ _ (by omega), ih _ (by omega), add_zero]

theorem sum_shift (F : ℕ → ℝ) (c s n : ℕ) (hn : c + s ≤ n) (h : ∀ k, k < c ∨ c + s ≤ k → F k = 0) :
    ∑ k ∈ Finset.range n, F k = ∑ k ∈ Finset.range s, F (c + k) := by
  have h1 : ∑ k ∈ Finset.range n, F k = ∑ k ∈ Finset.Ico c (c + s), F k := by
    symm
    refine Finset.sum_subset (fun k hk => ?_) fun k _ hk => ?_
    · rw [Finset.mem_Ico] at hk; rw [Finset.mem_range]; omega
    · rw [Finset.mem_Ico] at hk
      exact h k (by omega)
  rw [h1, Finset.sum_Ico_eq_sum_range]
  congr 2
  omega

theorem blk_mul (n c s : ℕ) (A B : Arr) (hn : c + s ≤ n) (i j : ℕ) :
    mul n (blk c s A) (blk c s B) i j = blk c s (mul s A B) i j := by
  unfold mul
  rw [sum_shift _ c s n hn (fun k hk => by rw [blk_out c s A i k (by omega), zero_mul])]
  by_cases hc : c ≤ i ∧ i < c + s ∧ c ≤ j ∧ j < c + s
  · unfold blk
    rw [if_pos hc]
    refine Finset.sum_congr rfl fun k hk => ?_
    rw [Finset.mem_range] at hk
    rw [if_pos (by omega), if_pos (by omega), Nat.add_sub_cancel_left]
  · rw [show blk c s (fun i j => ∑ k ∈ Finset.range s, A i k * B k j) i j = 0 from if_neg hc]
    refine Finset.sum_eq_zero fun k _ => ?_
    unfold blk
    by_cases hi : c ≤ i ∧ i < c + s
    · rw [if_neg (c := c ≤ c + k ∧ _) (by omega), mul_zero]
    · rw [if_neg (by omega), zero_mul]

/-- Block diagonal matrices multiply block by block. -/
theorem seq_mul (f g : Piece → Arr) (L : List Piece) (c n : ℕ) (hn : c + len L ≤ n) (i j : ℕ) :
    mul n (seq f L c) (seq g L c) i j = seq (fun x => mul x.sz (f x) (g x)) L c i j := by
  induction L generalizing c with
  | nil => simp [seq, mul, zero]
  | cons x L ih =>
    have hl : len (x :: L) = x.sz + len L := by simp [len]
    rw [hl] at hn
    show ∑ k ∈ Finset.range n, (blk c x.sz (f x) i k + seq f L (c + x.sz) i k) *
      (blk c x.sz (g x) k j + seq g L (c + x.sz) k j) = _
    have hk : ∀ k, (blk c x.sz (f x) i k + seq f L (c + x.sz) i k) *
        (blk c x.sz (g x) k j + seq g L (c + x.sz) k j)
        = blk c x.sz (f x) i k * blk c x.sz (g x) k j + seq f L (c + x.sz) i k * seq g L (c + x.sz) k j := by
      intro k
      by_cases hkc : k < c + x.sz
      · rw [seq_out f L _ i k (by omega), seq_out g L _ k j (by omega)]; ring
      · rw [blk_out c x.sz (f x) i k (by omega), blk_out c x.sz (g x) k j (by omega)]; ring
    rw [Finset.sum_congr rfl fun k _ => hk k, Finset.sum_add_distrib]
    have h1 := blk_mul n c x.sz (f x) (g x) (by omega) i j
    have h2 := ih (c + x.sz) (by omega)
    unfold mul at h1 h2
    rw [h1, h2]
    rfl

theorem seq_tr (f : Piece → Arr) (L : List Piece) (c : ℕ) :
    tr (seq f L c) = seq (fun x => tr (f x)) L c := by
  induction L generalizing c with
  | nil => rfl
  | cons x L ih =>
    funext i j
    have h := congrFun (congrFun (ih (c + x.sz)) i) j
    show blk c x.sz (f x) j i + seq f L (c + x.sz) j i = blk c x.sz (tr (f x)) i j + _
    rw [← h]
    unfold blk tr
    congr 1
    by_cases hc : c ≤ i ∧ i < c + x.sz ∧ c ≤ j ∧ j < c + x.sz
    · rw [if_pos hc, if_pos (by omega)]
    · rw [if_neg hc, if_neg (by omega)]

/-- Only the entries inside the blocks matter. -/
theorem seq_congr (f g : Piece → Arr) (L : List Piece) (c : ℕ)
    (h : ∀ x ∈ L, ∀ i j, i < x.sz → j < x.sz → f x i j = g x i j) : seq f L c = seq g L c := by
  induction L generalizing c with
  | nil => rfl
  | cons x L ih =>
    funext i j
    show _ + seq f L (c + x.sz) i j = _ + seq g L (c + x.sz) i j
    rw [ih (c + x.sz) fun y hy => h y (List.mem_cons_of_mem _ hy)]
    congr 1
    unfold blk
    by_cases hc : c ≤ i ∧ i < c + x.sz ∧ c ≤ j ∧ j < c + x.sz
    · rw [if_pos hc, if_pos hc]
      exact h x List.mem_cons_self _ _ (by omega) (by omega)
    · rw [if_neg hc, if_neg hc]

theorem seq_ident (L : List Piece) (c i j : ℕ) :
    seq (fun _ => ident) L c i j = if i = j ∧ c ≤ i ∧ i < c + len L then 1 else 0 := by
  induction L generalizing c with
  | nil =>
    show (0 : ℝ) = _
    have : len [] = 0 := rfl
    rw [if_neg]; omega
  | cons x L ih =>
    have hl : len (x :: L) = x.sz + len L := by simp [len]
    rw [seq_cons, ih, hl]
    unfold blk ident
    by_cases hij : i = j
    · subst hij
      by_cases h1 : c ≤ i ∧ i < c + x.sz
      · rw [if_pos (by omega), if_pos rfl, if_neg (by omega), if_pos (by omega), add_zero]
      · rw [if_neg (by omega), zero_add]
        by_cases h2 : c + x.sz ≤ i ∧ i < c + x.sz + len L
        · rw [if_pos (by omega), if_pos (by omega)]
        · rw [if_neg (by omega), if_neg (by omega)]
    · have h3 : ¬ i - c = j - c ∨ ¬ (c ≤ i ∧ i < c + x.sz ∧ c ≤ j ∧ j < c + x.sz) := by omega
      rw [if_neg (c := i = j ∧ c + x.sz ≤ i ∧ i < c + x.sz + len L) (by omega),
        if_neg (c := i = j ∧ c ≤ i ∧ i < c + (x.sz + len L)) (by omega), add_zero]
      rcases h3 with h3 | h3
      · by_cases h4 : c ≤ i ∧ i < c + x.sz ∧ c ≤ j ∧ j < c + x.sz
        · rw [if_pos h4, if_neg h3]
        · rw [if_neg h4]
      · rw [if_neg h3]

/-- Blocks of a term, a formula, a model. -/
def tPieces (t : Term) : List Piece := List.replicate t.reps (.pen t)

def tsPieces (ts : List Term) : List Piece := ts.flatMap tPieces

def fPieces (f : Form) : List Piece := .unpen f.up :: tsPieces f.terms

def mPieces (fs : List Form) : List Piece := fs.flatMap fPieces

theorem len_tPieces (t : Term) : len (tPieces t) = t.len := by
  simp [len, tPieces, Piece.sz, Term.len]

theorem len_tsPieces (ts : List Term) : len (tsPieces ts) = (ts.map Term.len).sum := by
  induction ts with
  | nil => rfl
  | cons t ts ih =>
    rw [show tsPieces (t :: ts) = tPieces t ++ tsPieces ts from rfl, len_append, len_tPieces, ih]
    simp

theorem len_fPieces (f : Form) : len (fPieces f) = f.nCoef := by
  rw [show fPieces f = [.unpen f.up] ++ tsPieces f.terms from rfl, len_append, len_tsPieces]
  simp [len, Piece.sz, Form.nCoef]

theorem len_mPieces (fs : List Form) : len (mPieces fs) = (fs.map Form.nCoef).sum := by
  induction fs with
  | nil => rfl
  | cons f fs ih =>
    rw [show mPieces (f :: fs) = fPieces f ++ mPieces fs from rfl, len_append, len_fPieces, ih]
    simp

/-! ## The walk over the groups -/

theorem seq_one (f : Piece → Arr) (x : Piece) (c : ℕ) : seq f [x] c = blk c x.sz (f x) := by
  funext i j
  show blk c x.sz (f x) i j + 0 = _
  rw [add_zero]

theorem adv_le (up : ℕ → ℕ) (p : ℕ) (w : W) (h : p ≤ w.d) : adv up p w = w := by
  unfold adv
  rw [Nat.sub_eq_zero_of_le h]; rfl

theorem iter_d (up : ℕ → ℕ) (m : ℕ) (w : W) : ((next up)^[m] w).d = w.d + m := by
  induction m generalizing w with
  | zero => rfl
  | succ m ih =>
    rw [Function.iterate_succ_apply, ih]
    show w.d + 1 + m = _
    omega

theorem adv_d (up : ℕ → ℕ) (p : ℕ) (w : W) (h : w.d ≤ p) : (adv up p w).d = p := by
  unfold adv
  rw [iter_d]; omega

theorem adv_adv (up : ℕ → ℕ) (p q : ℕ) (w : W) (h1 : w.d ≤ p) (h2 : p ≤ q) :
    adv up q (adv up p w) = adv up q w := by
  have hd := adv_d up p w h1
  rw [show adv up q (adv up p w) = (next up)^[q - (adv up p w).d] (adv up p w) from rfl, hd]
  unfold adv
  rw [← Function.iterate_add_apply]
  congr 1
  omega

theorem adv_succ (up : ℕ → ℕ) (w : W) : adv up (w.d + 1) w = next up w := by
  unfold adv
  rw [Nat.add_sub_cancel_left]; rfl

theorem once_iter (t : Term) (m : ℕ) (w : W) :
    ((once t)^[m] w).d = w.d ∧ ((once t)^[m] w).c = w.c + len (List.replicate m (.pen t)) ∧
    ((once t)^[m] w).cd = w.cd + len (List.replicate m (.pen t)) ∧
    ((once t)^[m] w).Qs = w.Qs ∧
    (∀ i j, ((once t)^[m] w).Q i j = w.Q i j + seq Piece.q (List.replicate m (.pen t)) w.c i j) ∧
    (∀ i j, ((once t)^[m] w).Qd i j = w.Qd i j + seq Piece.q (List.replicate m (.pen t)) w.cd i j) := by
  induction m generalizing w with
  | zero => simp [len, seq, zero]
  | succ m ih =>
    obtain ⟨h1, h2, h3, h4, h5, h6⟩ := ih (once t w)
    rw [Function.iterate_succ_apply, List.replicate_succ]
    have hl : len (Piece.pen t :: List.replicate m (.pen t)) = t.size + len (List.replicate m (.pen t)) := by
      simp [len, Piece.sz]
    refine ⟨h1, ?_, ?_, h4, fun i j => ?_, fun i j => ?_⟩
    · rw [h2, hl]; show w.c + t.size + _ = _; omega
    · rw [h3, hl]; show w.cd + t.size + _ = _; omega
    · rw [h5]
      show w.Q i j + blk w.c t.size t.Q i j + seq Piece.q _ (w.c + t.size) i j = w.Q i j + (blk w.c t.size t.Q i j + _)
      rw [add_assoc]; rfl
    · rw [h6]
      show w.Qd i j + blk w.cd t.size t.Q i j + seq Piece.q _ (w.cd + t.size) i j = w.Qd i j + (blk w.cd t.size t.Q i j + _)
      rw [add_assoc]; rfl

theorem walk_append (up : ℕ → ℕ) (a b : List Grp) (w : W) : walk up (a ++ b) w = walk up b (walk up a w) :=
  List.foldl_append

theorem grp_d (up : ℕ → ℕ) (w : W) (g : Grp) : (grp up w g).d = max w.d g.param := by
  unfold grp
  rw [(once_iter g.t g.t.reps _).1]
  by_cases h : w.d ≤ g.param
  · rw [adv_d up _ w h, max_eq_right h]
  · rw [adv_le up _ w (by omega), max_eq_left (by omega)]

theorem walk_d_le (up : ℕ → ℕ) (gs : List Grp) (w : W) (m : ℕ) (hw : w.d ≤ m) (h : ∀ g ∈ gs, g.param ≤ m) :
    (walk up gs w).d ≤ m := by
  induction gs generalizing w with
  | nil => exact hw
  | cons g gs ih =>
    refine ih _ ?_ fun x hx => h x (List.mem_cons_of_mem _ hx)
    rw [grp_d]
    exact max_le hw (h g List.mem_cons_self)

theorem le_walk_d (up : ℕ → ℕ) (gs : List Grp) (w : W) :
    w.d ≤ (walk up gs w).d ∧ ∀ g ∈ gs, g.param ≤ (walk up gs w).d := by
  induction gs generalizing w with
  | nil => exact ⟨le_refl _, fun _ h => absurd h List.not_mem_nil⟩
  | cons g gs ih =>
    obtain ⟨h1, h2⟩ := ih (grp up w g)
    rw [grp_d] at h1
    refine ⟨le_trans (le_max_left _ _) h1, fun x hx => ?_⟩
    rcases List.mem_cons.1 hx with rfl | hx
    · exact le_trans (le_max_right _ _) h1
    · exact h2 x hx

/-- Moving on to a later formula before the groups of that formula makes no difference. -/
theorem walk_adv (up : ℕ → ℕ) (gs : List Grp) (w : W) (m last : ℕ) (hw : w.d ≤ m) (hm : m ≤ last)
    (h : ∀ g ∈ gs, m ≤ g.param) :
    adv up last (walk up gs (adv up m w)) = adv up last (walk up gs w) := by
  cases gs with
  | nil => exact adv_adv up m last w hw hm
  | cons g gs =>
    show adv up last (walk up gs (grp up (adv up m w) g)) = adv up last (walk up gs (grp up w g))
    unfold grp
    rw [adv_adv up m g.param w hw (h g List.mem_cons_self)]

/-- Groups of the formula being assembled. -/
theorem walk_place (up : ℕ → ℕ) (ts : List Term) (pos : ℕ) (w : W) :
    (walk up (place w.d pos ts) w).d = w.d ∧
    (walk up (place w.d pos ts) w).c = w.c + len (tsPieces ts) ∧
    (walk up (place w.d pos ts) w).Qs = w.Qs ∧
    (∀ i j, (walk up (place w.d pos ts) w).Q i j = w.Q i j + seq Piece.q (tsPieces ts) w.c i j) ∧
    (∀ i j, (walk up (place w.d pos ts) w).Qd i j = w.Qd i j + seq Piece.q (tsPieces ts) w.cd i j) := by
  induction ts generalizing pos w with
  | nil => simp [walk, place, tsPieces, len, seq, zero]
  | cons t ts ih =>
    have hg : grp up w ⟨w.d, pos, t⟩ = (once t)^[t.reps] w := by
      unfold grp
      rw [adv_le up _ w (le_refl _)]
    obtain ⟨a1, a2, a3, a4, a5, a6⟩ := once_iter t t.reps w
    have hw : walk up (place w.d pos (t :: ts)) w
        = walk up (place ((once t)^[t.reps] w).d (pos + t.len) ts) ((once t)^[t.reps] w) := by
      rw [a1, ← hg]; rfl
    rw [hw]
    obtain ⟨b1, b2, b3, b4, b5⟩ := ih (pos + t.len) ((once t)^[t.reps] w)
    have hp : tsPieces (t :: ts) = List.replicate t.reps (.pen t) ++ tsPieces ts := rfl
    refine ⟨b1.trans a1, ?_, b3.trans a4, fun i j => ?_, fun i j => ?_⟩
    · rw [b2, a2, hp, len_append]; omega
    · rw [b4, a5, a2, hp, seq_append]; ring
    · rw [b5, a6, a3, hp, seq_append]; ring

theorem groups_param (k off : ℕ) (fs : List Form) :
    ∀ g ∈ groupsOf k off fs, k ≤ g.param ∧ g.param < k + fs.length := by
  have hplace : ∀ (ts : List Term) (k pos : ℕ), ∀ g ∈ place k pos ts, g.param = k := by
    intro ts
    induction ts with
    | nil => intro k pos g hg; exact absurd hg List.not_mem_nil
    | cons t ts ih =>
      intro k pos g hg
      rcases List.mem_cons.1 hg with rfl | hg
      · rfl
      · exact ih _ _ g hg
  induction fs generalizing k off with
  | nil => intro g hg; exact absurd hg List.not_mem_nil
  | cons f fs ih =>
    intro g hg
    rw [List.length_cons]
    rcases List.mem_append.1 hg with hg | hg
    · have := hplace _ _ _ g hg
      omega
    · have := ih _ _ g hg
      omega

/-- A formula with penalised terms appears among the groups. -/
theorem groups_mem (k off : ℕ) (fs : List Form) (i : ℕ) (hi : i < fs.length) (hne : fs[i].terms ≠ []) :
    ∃ g ∈ groupsOf k off fs, g.param = k + i := by
  induction fs generalizing k off i with
  | nil => exact absurd hi (by simp)
  | cons f fs ih =>
    cases i with
    | zero =>
      rw [List.getElem_cons_zero] at hne
      obtain ⟨t, ts, hts⟩ := List.exists_cons_of_ne_nil hne
      refine ⟨⟨k, off + f.up, t⟩, ?_, rfl⟩
      show _ ∈ place k (off + f.up) f.terms ++ _
      rw [hts]
      exact List.mem_append_left _ List.mem_cons_self
    | succ i =>
      rw [List.getElem_cons_succ] at hne
      obtain ⟨g, hg, hp⟩ := ih (k + 1) (off + f.nCoef) i (by simpa using hi) hne
      exact ⟨g, List.mem_append_right _ hg, by omega⟩

/-- Result of the walk, completed with the formulas without penalties at the end. -/
theorem walk_groups (up : ℕ → ℕ) (f : Form) (fs : List Form) (off : ℕ) (w : W)
    (hup : ∀ i (h : i < fs.length), up (w.d + 1 + i) = fs[i].up) :
    (adv up (w.d + fs.length) (walk up (groupsOf w.d off (f :: fs)) w)).c
      = w.c + len (tsPieces f.terms ++ mPieces fs) ∧
    (∀ i j, (adv up (w.d + fs.length) (walk up (groupsOf w.d off (f :: fs)) w)).Q i j
      = w.Q i j + seq Piece.q (tsPieces f.terms ++ mPieces fs) w.c i j) ∧
    ∃ q0, (∀ i j, q0 i j = w.Qd i j + seq Piece.q (tsPieces f.terms) w.cd i j) ∧
      qs (adv up (w.d + fs.length) (walk up (groupsOf w.d off (f :: fs)) w))
        = w.Qs ++ q0 :: fs.map (fun g => seq Piece.q (fPieces g) 0) := by
  induction fs generalizing f off w with
  | nil =>
    have hg : groupsOf w.d off [f] = place w.d (off + f.up) f.terms := by
      show _ ++ [] = _
      rw [List.append_nil]
    rw [hg]
    obtain ⟨a1, a2, a3, a4, a5⟩ := walk_place up f.terms (off + f.up) w
    rw [adv_le up _ _ (by rw [a1]; simp)]
    simp only [mPieces, List.flatMap_nil, List.append_nil, List.map_nil]
    refine ⟨a2, a4, _, a5, ?_⟩
    unfold qs
    rw [a3]
  | cons g fs ih =>
    obtain ⟨a1, a2, a3, a4, a5⟩ := walk_place up f.terms (off + f.up) w
    set v := walk up (place w.d (off + f.up) f.terms) w with hv
    have hsplit : walk up (groupsOf w.d off (f :: g :: fs)) w
        = walk up (groupsOf (w.d + 1) (off + f.nCoef) (g :: fs)) v := by
      rw [hv, ← walk_append]; rfl
    have hnd : (next up v).d = w.d + 1 := by show v.d + 1 = _; rw [a1]
    have hadv : adv up (w.d + (g :: fs).length) (walk up (groupsOf w.d off (f :: g :: fs)) w)
        = adv up ((next up v).d + fs.length)
          (walk up (groupsOf (next up v).d (off + f.nCoef) (g :: fs)) (next up v)) := by
      rw [hsplit, hnd, ← adv_succ up v, a1, List.length_cons,
        ← walk_adv up _ v (w.d + 1) (w.d + (fs.length + 1)) (by omega) (by omega)
          (fun x hx => (groups_param _ _ _ x hx).1)]
      congr 1
      omega
    rw [hadv]
    have hup0 : up (v.d + 1) = g.up := by
      have := hup 0 (by simp)
      rw [a1]
      simpa using this
    obtain ⟨b1, b2, q0, b3, b4⟩ := ih g (off + f.nCoef) (next up v) (by
      intro i h
      have := hup (i + 1) (by simpa using h)
      rw [hnd, show w.d + 1 + 1 + i = w.d + 1 + (i + 1) by omega, this]
      rfl)
    have hm : mPieces (g :: fs) = [.unpen g.up] ++ (tsPieces g.terms ++ mPieces fs) := rfl
    have hl1 : len [Piece.unpen g.up] = g.up := by simp [len, Piece.sz]
    have hc : (next up v).c = w.c + len (tsPieces f.terms) + g.up := by
      show v.c + up (v.d + 1) = _
      rw [a2, hup0]
    refine ⟨?_, fun i j => ?_, v.Qd, a5, ?_⟩
    · rw [b1, hc, hm, len_append (tsPieces f.terms), len_append [_], hl1]
      omega
    · rw [b2, hc, hm, seq_append _ (tsPieces f.terms), seq_append _ [_], hl1, seq_one]
      have : (next up v).Q i j = w.Q i j + seq Piece.q (tsPieces f.terms) w.c i j
          + blk (w.c + len (tsPieces f.terms)) g.up ident i j := by
        show v.Q i j + blk v.c (up (v.d + 1)) ident i j = _
        rw [a4, a2, hup0]
      rw [this]
      show _ = _ + (_ + (blk _ g.up ident i j + _))
      ring
    · rw [b4]
      have hq0 : q0 = seq Piece.q (fPieces g) 0 := by
        funext i j
        rw [b3]
        show zero i j + blk 0 (up (v.d + 1)) ident i j + seq Piece.q _ (up (v.d + 1)) i j
          = blk 0 g.up ident i j + seq Piece.q _ (0 + g.up) i j
        rw [hup0, zero_add]
        unfold zero
        rw [zero_add]
      rw [hq0]
      show v.Qs ++ [v.Qd] ++ _ = _
      rw [a3, List.append_assoc]
      rfl

/-! ## Formulas at the end without penalties -/

theorem adv_c (up : ℕ → ℕ) (m : ℕ) (w : W) :
    w.c ≤ ((next up)^[m] w).c ∧
    (∀ i j, ((next up)^[m] w).Q i j = w.Q i j + blk w.c (((next up)^[m] w).c - w.c) ident i j) ∧
    qs ((next up)^[m] w) = qs w ++ (List.range m).map (fun k => put 0 (up (w.d + 1 + k)) ident zero) := by
  induction m with
  | zero =>
    refine ⟨le_refl _, fun i j => ?_, by simp⟩
    show w.Q i j = _
    rw [blk_out _ _ _ _ _ (by show _ ∨ w.c + (w.c - w.c) ≤ i ∨ _; omega), add_zero]
  | succ m ih =>
    obtain ⟨h1, h2, h3⟩ := ih
    have hd := iter_d up m w
    rw [Function.iterate_succ_apply']
    set v := (next up)^[m] w with hv
    refine ⟨?_, fun i j => ?_, ?_⟩
    · show w.c ≤ v.c + up (v.d + 1); omega
    · show v.Q i j + blk v.c (up (v.d + 1)) ident i j = w.Q i j + blk w.c (v.c + up (v.d + 1) - w.c) ident i j
      rw [h2, add_assoc]
      congr 1
      have e1 := seq_ident [.unpen (v.c - w.c), .unpen (up (v.d + 1))] w.c i j
      have e2 := seq_ident [.unpen (v.c + up (v.d + 1) - w.c)] w.c i j
      have hl : len [Piece.unpen (v.c - w.c), .unpen (up (v.d + 1))] = len [Piece.unpen (v.c + up (v.d + 1) - w.c)] := by
        simp [len, Piece.sz]; omega
      rw [hl, ← e2, seq_one] at e1
      rw [show [Piece.unpen (v.c - w.c), .unpen (up (v.d + 1))] = [.unpen (v.c - w.c)] ++ [.unpen (up (v.d + 1))] from rfl,
        seq_append, seq_one, seq_one] at e1
      have hl1 : len [Piece.unpen (v.c - w.c)] = v.c - w.c := by simp [len, Piece.sz]
      rw [hl1, show w.c + (v.c - w.c) = v.c by omega] at e1
      exact e1
    · show qs v ++ [put 0 (up (v.d + 1)) ident zero] = _
      rw [h3, List.range_succ, List.map_append, hd, List.append_assoc, List.map_singleton]
      congr 3
      rw [show w.d + m + 1 = w.d + 1 + m by omega]

/-- Number of unpenalised coefficients of formula `k`. -/
def upOf (fs : List Form) (k : ℕ) : ℕ := (fs.map Form.up).getD k 0

/-- The transformation returned for a whole model. -/
def bigQ (fs : List Form) : Arr :=
  fill (fs.map Form.nCoef).sum (walk (upOf fs) (groupsOf 0 0 fs) (start (upOf fs)))

/-- The transformations returned per formula. -/
def smallQ (fs : List Form) : List Arr := qs (walk (upOf fs) (groupsOf 0 0 fs) (start (upOf fs)))

theorem walk_model (fs : List Form) (hne : fs ≠ []) :
    (adv (upOf fs) (fs.length - 1) (walk (upOf fs) (groupsOf 0 0 fs) (start (upOf fs)))).c
      = (fs.map Form.nCoef).sum ∧
    (∀ i j, (adv (upOf fs) (fs.length - 1) (walk (upOf fs) (groupsOf 0 0 fs) (start (upOf fs)))).Q i j
      = seq Piece.q (mPieces fs) 0 i j) ∧
    qs (adv (upOf fs) (fs.length - 1) (walk (upOf fs) (groupsOf 0 0 fs) (start (upOf fs))))
        = fs.map (fun g => seq Piece.q (fPieces g) 0) := by
  obtain ⟨f, fs', rfl⟩ := List.exists_cons_of_ne_nil hne
  have hup0 : upOf (f :: fs') 0 = f.up := rfl
  obtain ⟨h1, h2, q0, h3, h4⟩ := walk_groups (upOf (f :: fs')) f fs' 0 (start (upOf (f :: fs'))) (by
    intro i h
    show upOf (f :: fs') (0 + 1 + i) = _
    unfold upOf
    rw [show 0 + 1 + i = i + 1 by omega, List.map_cons, List.getD_cons_succ, List.getD_eq_getElem _ _ (by simpa using h)]
    simp)
  have hd : (start (upOf (f :: fs'))).d = 0 := rfl
  have hc : (start (upOf (f :: fs'))).c = f.up := hup0
  rw [hd, zero_add] at h1 h2 h4
  have hlen : (f :: fs').length - 1 = fs'.length := by simp
  rw [hlen]
  have hm : mPieces (f :: fs') = [.unpen f.up] ++ (tsPieces f.terms ++ mPieces fs') := rfl
  have hl1 : len [Piece.unpen f.up] = f.up := by simp [len, Piece.sz]
  refine ⟨?_, fun i j => ?_, ?_⟩
  · rw [h1, ← len_mPieces, hm, len_append [_], hl1, hc]
  · rw [h2, hm, seq_append _ [_], hl1, seq_one, hc, zero_add]
    congr 1
    show zero i j + blk 0 (upOf (f :: fs') 0) ident i j = _
    rw [hup0]
    unfold zero
    rw [zero_add]
    rfl
  · rw [h4, List.map_cons]
    show [] ++ _ = _
    rw [List.nil_append]
    congr 1
    funext i j
    rw [h3]
    show zero i j + blk 0 (upOf (f :: fs') 0) ident i j + seq Piece.q _ (upOf (f :: fs') 0) i j
      = blk 0 f.up ident i j + seq Piece.q _ (0 + f.up) i j
    rw [hup0, zero_add]
    unfold zero
    rw [zero_add]

/-- The transformation of the model is block diagonal in the order of the coefficients. -/
theorem bigQ_eq (fs : List Form) (hne : fs ≠ []) : bigQ fs = seq Piece.q (mPieces fs) 0 := by
  obtain ⟨h1, h2, -⟩ := walk_model fs hne
  set w := walk (upOf fs) (groupsOf 0 0 fs) (start (upOf fs)) with hw
  obtain ⟨a1, a2, -⟩ := adv_c (upOf fs) (fs.length - 1 - w.d) w
  funext i j
  rw [← h2 i j]
  unfold adv at h1 ⊢
  rw [a2, h1]
  unfold bigQ fill
  rw [← hw]
  by_cases hc : w.c = (fs.map Form.nCoef).sum
  · rw [if_neg (fun h => h hc), hc, Nat.sub_self, blk_out _ _ _ _ _ (by omega), add_zero]
  · rw [if_pos hc]
    rfl

/-- Transformation applied to formula `k` (909-920): the matrices of formulas beyond the list stay. -/
def effQ (fs : List Form) (k : ℕ) : Arr := (smallQ fs).getD k ident

/-- The matrix of formula `k` is its own diagonal block. -/
theorem effQ_eq (fs : List Form) (k : ℕ) (hk : k < fs.length) (i j : ℕ) (hi : i < (fs[k]).nCoef)
    (hj : j < (fs[k]).nCoef) : effQ fs k i j = seq Piece.q (fPieces fs[k]) 0 i j := by
  have hne : fs ≠ [] := by rintro rfl; simp at hk
  obtain ⟨-, -, h3⟩ := walk_model fs hne
  set w := walk (upOf fs) (groupsOf 0 0 fs) (start (upOf fs)) with hw
  obtain ⟨-, -, a3⟩ := adv_c (upOf fs) (fs.length - 1 - w.d) w
  unfold adv at h3
  rw [h3] at a3
  have hsm : smallQ fs = qs w := rfl
  unfold effQ
  rw [hsm]
  by_cases hlt : k < (qs w).length
  · rw [List.getD_eq_getElem _ _ hlt]
    have h5 : (fs.map (fun g => seq Piece.q (fPieces g) 0))[k]'(by simpa using hk) = (qs w)[k] := by
      simp only [a3]
      rw [List.getElem_append_left hlt]
    rw [← h5]
    simp
  · rw [List.getD_eq_default _ _ (by omega)]
    have hlenw : (qs w).length = w.d + 1 := by
      -- the list grows with every new formula
      have hinv : ∀ (gs : List Grp) (v : W), v.Qs.length = v.d → (walk (upOf fs) gs v).Qs.length = (walk (upOf fs) gs v).d := by
        intro gs
        induction gs with
        | nil => intro v hv; exact hv
        | cons g gs ih =>
          intro v hv
          refine ih _ ?_
          unfold grp
          obtain ⟨b1, -, -, b4, -⟩ := once_iter g.t g.t.reps (adv (upOf fs) g.param v)
          rw [b1, b4]
          unfold adv
          clear b1 b4
          generalize g.param - v.d = m
          induction m generalizing v with
          | zero => exact hv
          | succ m ih2 =>
            rw [Function.iterate_succ_apply]
            refine ih2 (next (upOf fs) v) ?_
            show (v.Qs ++ [v.Qd]).length = v.d + 1
            simp [hv]
      have := hinv (groupsOf 0 0 fs) (start (upOf fs)) rfl
      unfold qs
      rw [List.length_append, List.length_singleton]
      rw [← hw] at this
      omega
    have hterms : fs[k].terms = [] := by
      by_contra hh
      obtain ⟨g, hg, hp⟩ := groups_mem 0 0 fs k hk hh
      have := (le_walk_d (upOf fs) (groupsOf 0 0 fs) (start (upOf fs))).2 g hg
      rw [← hw] at this
      omega
    have hfp : fPieces fs[k] = [.unpen fs[k].up] := by
      unfold fPieces
      rw [hterms]; rfl
    have hn : (fs[k]).nCoef = fs[k].up := by
      unfold Form.nCoef
      rw [hterms]; simp
    rw [hfp, seq_one]
    show ident i j = blk 0 fs[k].up ident i j
    unfold blk
    rw [if_pos (by omega), Nat.sub_zero, Nat.sub_zero]

/-! ## Penalties -/

theorem embed_eq (M : Term → Arr) (g : Grp) (A : Arr) (i j : ℕ) :
    embed M A g i j = A i j + seq (fun x => match x with | .unpen _ => zero | .pen t => M t) (tPieces g.t) g.start i j := by
  unfold embed tPieces
  generalize g.t.reps = m
  induction m with
  | zero => simp [seq, zero]
  | succ m ih =>
    rw [List.range_succ, List.foldl_append, List.foldl_cons, List.foldl_nil, List.replicate_succ', seq_append]
    show (List.foldl _ A (List.range m)) i j + _ = _
    rw [ih, seq_one]
    have hl : len (List.replicate m (.pen g.t)) = m * g.t.size := by simp [len, Piece.sz]
    rw [hl, add_assoc]
    rfl

def lift (M : Term → Arr) : Piece → Arr
  | .unpen _ => zero
  | .pen t => M t

theorem seq_unpen (M : Term → Arr) (s c i j : ℕ) : seq (lift M) [.unpen s] c i j = 0 := by
  rw [seq_one]
  unfold blk
  by_cases h : c ≤ i ∧ i < c + (Piece.unpen s).sz ∧ c ≤ j ∧ j < c + (Piece.unpen s).sz
  · rw [if_pos h]; rfl
  · rw [if_neg h]

theorem total_place (M : Term → Arr) (k : ℕ) (ts : List Term) (pos : ℕ) (A : Arr) (i j : ℕ) :
    (place k pos ts).foldl (embed M) A i j = A i j + seq (lift M) (tsPieces ts) pos i j := by
  induction ts generalizing pos A with
  | nil => simp [place, tsPieces, seq, zero]
  | cons t ts ih =>
    show (place k (pos + t.len) ts).foldl (embed M) (embed M A ⟨k, pos, t⟩) i j = _
    rw [ih, embed_eq, show tsPieces (t :: ts) = tPieces t ++ tsPieces ts from rfl, seq_append, len_tPieces, add_assoc]
    rfl

theorem total_groups (M : Term → Arr) (k off : ℕ) (fs : List Form) (A : Arr) (i j : ℕ) :
    (groupsOf k off fs).foldl (embed M) A i j = A i j + seq (lift M) (mPieces fs) off i j := by
  induction fs generalizing k off A with
  | nil => simp [groupsOf, mPieces, seq, zero]
  | cons f fs ih =>
    show (place k (off + f.up) f.terms ++ groupsOf (k + 1) (off + f.nCoef) fs).foldl (embed M) A i j = _
    rw [List.foldl_append, ih, total_place,
      show mPieces (f :: fs) = ([.unpen f.up] ++ tsPieces f.terms) ++ mPieces fs from rfl, seq_append, seq_append,
      seq_unpen]
    have h1 : len [Piece.unpen f.up] = f.up := by simp [len, Piece.sz]
    have h2 : len ([Piece.unpen f.up] ++ tsPieces f.terms) = f.nCoef := len_fPieces f
    rw [h1, h2]
    ring

theorem total_eq (M : Term → Arr) (fs : List Form) : total M (groupsOf 0 0 fs) = seq (lift M) (mPieces fs) 0 := by
  funext i j
  unfold total
  rw [total_groups]
  unfold zero
  rw [zero_add]

/-! ## Property theorems -/

/-- A term is transformed faithfully (shown for the groups of penalties in `Verif.Repara`). -/
structure TermOK (t : Term) : Prop where
  orth : ∀ i j, i < t.size → j < t.size → mul t.size (tr t.Q) t.Q i j = ident i j
  orth' : ∀ i j, i < t.size → j < t.size → mul t.size t.Q (tr t.Q) i j = ident i j
  pen : ∀ i j, i < t.size → j < t.size → mul t.size (mul t.size (tr t.Q) t.S) t.Q i j = t.R i j

def AllOK (fs : List Form) : Prop := ∀ f ∈ fs, ∀ t ∈ f.terms, TermOK t

theorem mem_pieces (fs : List Form) (t : Term) (h : Piece.pen t ∈ mPieces fs) : ∃ f ∈ fs, t ∈ f.terms := by
  unfold mPieces at h
  rw [List.mem_flatMap] at h
  obtain ⟨f, hf, h⟩ := h
  refine ⟨f, hf, ?_⟩
  unfold fPieces at h
  rcases List.mem_cons.1 h with h | h
  · cases h
  · unfold tsPieces at h
    rw [List.mem_flatMap] at h
    obtain ⟨t', ht', h⟩ := h
    have := List.eq_of_mem_replicate h
    cases this
    exact ht'

theorem mul_ident (s : ℕ) (i j : ℕ) (hi : i < s) : mul s ident ident i j = ident i j := by
  unfold mul
  rw [Finset.sum_eq_single i]
  · unfold ident; rw [if_pos rfl, one_mul]
  · intro k _ hk; unfold ident; rw [if_neg (fun h => hk h.symm), zero_mul]
  · intro h; exact absurd (Finset.mem_range.2 hi) h

theorem tr_ident : tr ident = ident := by
  funext i j
  unfold tr ident
  by_cases h : i = j
  · rw [if_pos h, if_pos h.symm]
  · rw [if_neg h, if_neg (fun hh => h hh.symm)]

theorem seq_orth (L : List Piece) (h : ∀ t, Piece.pen t ∈ L → TermOK t) (n c : ℕ) (hn : c + len L ≤ n) (i j : ℕ) :
    mul n (tr (seq Piece.q L c)) (seq Piece.q L c) i j = seq (fun _ => ident) L c i j ∧
    mul n (seq Piece.q L c) (tr (seq Piece.q L c)) i j = seq (fun _ => ident) L c i j := by
  rw [seq_tr, seq_mul _ _ _ _ _ hn, seq_mul _ _ _ _ _ hn]
  constructor
  · rw [seq_congr _ (fun _ => ident) L c]
    intro x hx a b ha hb
    cases x with
    | unpen s => exact (by show mul s (tr ident) ident a b = _; rw [tr_ident]; exact mul_ident s a b ha)
    | pen t => exact (h t hx).orth a b ha hb
  · rw [seq_congr _ (fun _ => ident) L c]
    intro x hx a b ha hb
    cases x with
    | unpen s => exact (by show mul s ident (tr ident) a b = _; rw [tr_ident]; exact mul_ident s a b ha)
    | pen t => exact (h t hx).orth' a b ha hb

/-- **C41.** The transformation of the model is orthogonal and takes the total penalty to the total
penalty in the new parameterisation, however many formulas there are, with or without penalties, and
however often penalties are repeated. -/
theorem model_penalty (fs : List Form) (hne : fs ≠ []) (hok : AllOK fs) (i j : ℕ)
    (hi : i < (fs.map Form.nCoef).sum) :
    mul (fs.map Form.nCoef).sum (tr (bigQ fs)) (bigQ fs) i j = (if i = j then 1 else 0) ∧
    mul (fs.map Form.nCoef).sum (mul (fs.map Form.nCoef).sum (tr (bigQ fs)) (total Term.S (groupsOf 0 0 fs)))
      (bigQ fs) i j = total Term.R (groupsOf 0 0 fs) i j := by
  have hlen := len_mPieces fs
  have hmem : ∀ t, Piece.pen t ∈ mPieces fs → TermOK t := fun t ht => by
    obtain ⟨f, hf, h⟩ := mem_pieces fs t ht
    exact hok f hf t h
  rw [bigQ_eq fs hne, total_eq, total_eq]
  refine ⟨?_, ?_⟩
  · rw [(seq_orth _ hmem _ 0 (by omega) i j).1, seq_ident, zero_add, hlen]
    by_cases h : i = j
    · rw [if_pos ⟨h, by omega, hi⟩, if_pos h]
    · rw [if_neg (fun hh => h hh.1), if_neg h]
  · rw [seq_tr]
    have h1 : mul (fs.map Form.nCoef).sum (seq (fun x => tr (Piece.q x)) (mPieces fs) 0) (seq (lift Term.S) (mPieces fs) 0)
        = seq (fun x => mul x.sz (tr x.q) (lift Term.S x)) (mPieces fs) 0 := by
      funext a b
      exact seq_mul _ _ _ _ _ (by omega) a b
    rw [h1, seq_mul _ _ _ _ _ (by omega), seq_congr _ (lift Term.R)]
    intro x hx a b ha hb
    cases x with
    | unpen s =>
      show mul s (mul s (tr ident) zero) ident a b = 0
      unfold mul zero
      simp
    | pen t => exact (hmem t hx).pen a b ha hb

theorem mulv_mulv (n m : ℕ) (A B : Arr) (v : ℕ → ℝ) (i : ℕ) :
    mulv n A (mulv m B v) i = mulv m (mul n A B) v i := by
  unfold mulv mul
  simp only [Finset.mul_sum, Finset.sum_mul]
  rw [Finset.sum_comm]
  refine Finset.sum_congr rfl fun k _ => Finset.sum_congr rfl fun l _ => ?_
  ring

theorem mulv_congr (n : ℕ) (A B : Arr) (u v : ℕ → ℝ) (i : ℕ) (h : ∀ k < n, A i k = B i k) (h' : ∀ k < n, u k = v k) :
    mulv n A u i = mulv n B v i :=
  Finset.sum_congr rfl fun k hk => by rw [h k (Finset.mem_range.1 hk), h' k (Finset.mem_range.1 hk)]

/-- **C41.** Every linear predictor is the same in both parameterisations, and transforming the
coefficients back (gamm_solvers.py 6194-6201) returns the original ones. -/
theorem model_predictors (fs : List Form) (hok : AllOK fs) (k : ℕ) (hk : k < fs.length) (X : Arr)
    (coef : ℕ → ℝ) (i : ℕ) :
    mulv (fs[k]).nCoef (mul (fs[k]).nCoef X (effQ fs k)) (mulv (fs[k]).nCoef (tr (effQ fs k)) coef) i
      = mulv (fs[k]).nCoef X coef i ∧
    (i < (fs[k]).nCoef →
      mulv (fs[k]).nCoef (effQ fs k) (mulv (fs[k]).nCoef (tr (effQ fs k)) coef) i = coef i) := by
  have hback : ∀ i, i < (fs[k]).nCoef →
      mulv (fs[k]).nCoef (effQ fs k) (mulv (fs[k]).nCoef (tr (effQ fs k)) coef) i = coef i := by
    intro i hi
    rw [mulv_mulv]
    have hmem : ∀ t, Piece.pen t ∈ fPieces fs[k] → TermOK t := fun t ht => by
      obtain ⟨f, hf, h⟩ := mem_pieces [fs[k]] t (by simpa [mPieces] using ht)
      rw [List.mem_singleton] at hf
      exact hok fs[k] (List.getElem_mem hk) t (by rw [← hf]; exact h)
    have h1 : ∀ l < (fs[k]).nCoef, mul (fs[k]).nCoef (effQ fs k) (tr (effQ fs k)) i l = ident i l := by
      intro l hl
      have h2 := (seq_orth (fPieces fs[k]) hmem (fs[k]).nCoef 0 (by rw [len_fPieces]; omega) i l).2
      rw [seq_ident, len_fPieces, zero_add] at h2
      have h3 : mul (fs[k]).nCoef (effQ fs k) (tr (effQ fs k)) i l
          = mul (fs[k]).nCoef (seq Piece.q (fPieces fs[k]) 0) (tr (seq Piece.q (fPieces fs[k]) 0)) i l := by
        unfold mul tr
        refine Finset.sum_congr rfl fun a ha => ?_
        rw [Finset.mem_range] at ha
        rw [effQ_eq fs k hk i a hi ha, effQ_eq fs k hk l a hl ha]
      rw [h3, h2]
      unfold ident
      by_cases h : i = l
      · rw [if_pos ⟨h, by omega, hi⟩, if_pos h]
      · rw [if_neg (fun hh => h hh.1), if_neg h]
    rw [mulv_congr _ _ ident _ coef i h1 (fun _ _ => rfl)]
    unfold mulv
    rw [Finset.sum_eq_single i]
    · unfold ident; rw [if_pos rfl, one_mul]
    · intro l _ hl; unfold ident; rw [if_neg (fun h => hl h.symm), zero_mul]
    · intro h; exact absurd (Finset.mem_range.2 hi) h
  refine ⟨?_, hback i⟩
  rw [← mulv_mulv]
  exact mulv_congr _ _ _ _ _ i (fun _ _ => rfl) hback

/-- Three formulas, the first and last without penalties; a penalty repeated twice and rotated. -/
noncomputable def exTerm : Term where
  size := 2
  reps := 2
  Q := fun i j => if i = j then 3 / 5 else if i = 0 then -4 / 5 else 4 / 5
  S := fun i j => if i = 0 ∧ j = 0 then 25 else 0
  R := fun i j => if i = j then (if i = 0 then 9 else 16) else -12

theorem exTerm_ok : TermOK exTerm := by
  have hr2 : ∀ F : ℕ → ℝ, ∑ k ∈ Finset.range 2, F k = F 0 + F 1 := fun F => by
    rw [Finset.sum_range_succ, Finset.sum_range_one]
  refine ⟨?_, ?_, ?_⟩ <;> intro i j hi hj <;> change i < 2 at hi <;> change j < 2 at hj <;>
    interval_cases i <;> interval_cases j <;> norm_num [mul, tr, ident, exTerm, hr2]

noncomputable def exForms : List Form := [⟨2, []⟩, ⟨1, [exTerm]⟩, ⟨3, []⟩]

theorem exForms_ok : AllOK exForms := by
  intro f hf t ht
  simp only [exForms, List.mem_cons, List.not_mem_nil, or_false] at hf
  rcases hf with rfl | rfl | rfl
  · exact absurd ht List.not_mem_nil
  · rw [List.mem_singleton] at ht; subst ht; exact exTerm_ok
  · exact absurd ht List.not_mem_nil

example := model_penalty exForms (by simp [exForms]) exForms_ok 3 4 (by simp [exForms, Form.nCoef, exTerm, Term.len])

example (X : Arr) (coef : ℕ → ℝ) := model_predictors exForms exForms_ok 1 (by simp [exForms]) X coef 2

end Verif.ReparaAsm
