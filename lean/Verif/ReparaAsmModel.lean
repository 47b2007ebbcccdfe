import Mathlib.Data.Real.Basic
import Mathlib.Algebra.BigOperators.Intervals

/-!
# Assembling the transformation of a whole model (property C41)

Model of `reparam_model` (src/mssm/src/python/repara.py 717-927) and of the embedding of the transformed
penalties in `reparam` (606-696).  Matrices are functions of two indices; the shape is kept separately.
-/

namespace Verif.ReparaAsm

abbrev Arr := ℕ → ℕ → ℝ

/-- A penalised term: coefficients per block (`S_coef`), number of repetitions (`rep_sj`), transformation
(`Q_rep`), total penalty in the original (`S`) and in the new parameterisation (`S_rep`, `R`). -/
structure Term where
  size : ℕ
  reps : ℕ
  Q : Arr
  S : Arr
  R : Arr

/-- A formula: unpenalised coefficients (`dist_up_coef`), then its penalised terms. -/
structure Form where
  up : ℕ
  terms : List Term

def Term.len (t : Term) : ℕ := t.reps * t.size

/-- `dist_coef`. -/
def Form.nCoef (f : Form) : ℕ := f.up + (f.terms.map Term.len).sum

/-- A group of penalties with its formula (`dist_param`) and its `start_index`. -/
structure Grp where
  param : ℕ
  start : ℕ
  t : Term

/-- Groups of the terms of one formula: `start_index` runs through the terms (formula.py 2093-2155 for
penalised terms behind the unpenalised coefficients). -/
def place (k : ℕ) : ℕ → List Term → List Grp
  | _, [] => []
  | pos, t :: ts => ⟨k, pos, t⟩ :: place k (pos + t.len) ts

/-- Groups of all formulas: later formulas are shifted by the number of coefficients of the earlier ones
(penalties.py 375-378). -/
def groupsOf : ℕ → ℕ → List Form → List Grp
  | _, _, [] => []
  | k, off, f :: fs => place k (off + f.up) f.terms ++ groupsOf (k + 1) (off + f.nCoef) fs

/-- `M` of shape `s × s` at row and column `c`. -/
def blk (c s : ℕ) (M : Arr) : Arr := fun i j =>
  if c ≤ i ∧ i < c + s ∧ c ≤ j ∧ j < c + s then M (i - c) (j - c) else 0

/-- `embed_in_S_sparse`: add the block to what is there. -/
def put (c s : ℕ) (M A : Arr) : Arr := fun i j => A i j + blk c s M i j

def ident : Arr := fun i j => if i = j then 1 else 0

def zero : Arr := fun _ _ => 0

/-- Loop variables of `reparam_model`. -/
structure W where
  d : ℕ
  c : ℕ
  cd : ℕ
  Q : Arr
  Qd : Arr
  Qs : List Arr

/-- Before the loop (816-834). -/
def start (up : ℕ → ℕ) : W :=
  ⟨0, up 0, up 0, put 0 (up 0) ident zero, put 0 (up 0) ident zero, []⟩

/-- One round of the `while` loop (841-863). -/
def next (up : ℕ → ℕ) (w : W) : W :=
  ⟨w.d + 1, w.c + up (w.d + 1), up (w.d + 1), put w.c (up (w.d + 1)) ident w.Q,
    put 0 (up (w.d + 1)) ident zero, w.Qs ++ [w.Qd]⟩

/-- The `while` loop (840-863). -/
def adv (up : ℕ → ℕ) (p : ℕ) (w : W) : W := (next up)^[p - w.d] w

/-- One repetition of a group (867-881). -/
def once (t : Term) (w : W) : W :=
  ⟨w.d, w.c + t.size, w.cd + t.size, put w.c t.size t.Q w.Q, put w.cd t.size t.Q w.Qd, w.Qs⟩

/-- One group (836-881). -/
def grp (up : ℕ → ℕ) (w : W) (g : Grp) : W := (once g.t)^[g.t.reps] (adv up g.param w)

def walk (up : ℕ → ℕ) (gs : List Grp) (w : W) : W := gs.foldl (grp up) w

/-- `Q_emb` (883-892). -/
def fill (n : ℕ) (w : W) : Arr := if w.c ≠ n then put w.c (n - w.c) ident w.Q else w.Q

/-- `Qs` (895). -/
def qs (w : W) : List Arr := w.Qs ++ [w.Qd]

/-- One group in the total penalty (674-696): from its `start_index` on, repeated. -/
def embed (M : Term → Arr) (A : Arr) (g : Grp) : Arr :=
  (List.range g.t.reps).foldl (fun A k => put (g.start + k * g.t.size) g.t.size (M g.t) A) A

/-- Total penalty (`S_emb_rp` for `M = Term.R`, `S_emb` for `M = Term.S`). -/
def total (M : Term → Arr) (gs : List Grp) : Arr := gs.foldl (embed M) zero

/-- Product of matrices with inner dimension `n`. -/
def mul (n : ℕ) (A B : Arr) : Arr := fun i j => ∑ k ∈ Finset.range n, A i k * B k j

def tr (A : Arr) : Arr := fun i j => A j i

/-- Matrix times vector. -/
def mulv (n : ℕ) (A : Arr) (v : ℕ → ℝ) : ℕ → ℝ := fun i => ∑ k ∈ Finset.range n, A i k * v k

end Verif.ReparaAsm
