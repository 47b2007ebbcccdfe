import Verif.DropModel
import Mathlib.Data.List.Sort
import Mathlib.Data.List.Dedup

/-!
# Encoding of data (property C45)

Model of `Formula.__encode_var`, src/mssm/src/python/formula.py (666-771), for factors held in memory, and of
`Formula.encode_data` (876-1054).  A missing value is `none`.  `np.unique` of a factor is the sorted list of its values,
`np.unique(..., return_index=True)` gives first positions.
-/

namespace Verif.Encode

variable {α : Type} [LinearOrder α]

/-- `np.unique(dat_var[~pd.isnull(dat_var)])` (723-729); with `by_subgroup` only rows of the sub-group are passed. -/
def levels (dat : List (Option α)) : List α := (dat.filterMap id).dedup.insertionSort (· ≤ ·)

/-- Rows of a sub-group (726-728). -/
def subgroup {β : Type} [DecidableEq β] (dat : List (Option α)) (grp : List β) (g : β) : List (Option α) :=
  ((dat.zip grp).filter fun p => decide (p.2 = g)).map Prod.fst

/-- Dictionaries built by the loop (757-767), as lists of pairs in order of insertion: `factor_codings` and `coding_factors`.
`none` when the codebook lacks a level (`KeyError`). -/
def codings (codebook : Option (α → Option ℕ)) : ℕ → List α → Option (List (α × ℕ))
  | _, [] => some []
  | ci, c :: cs =>
    match (match codebook with | none => some ci | some cb => cb c), codings codebook (ci + 1) cs with
    | some k, some rest => some ((c, k) :: rest)
    | _, _ => none

/-- Look up in a dictionary filled by the loop: the last value inserted counts. -/
def lookup {κ ν : Type} [DecidableEq κ] (d : List (κ × ν)) (k : κ) : Option ν :=
  ((d.filter fun p => decide (p.1 = k)).getLast?).map Prod.snd

/-- `factor_codings[var][c]`. -/
def code (d : List (α × ℕ)) (c : α) : Option ℕ := lookup d c

/-- `coding_factors[var][k]`. -/
def decode (d : List (α × ℕ)) (k : ℕ) : Option α := lookup (d.map fun p => (p.2, p.1)) k

/-- Encoded value of a row (1036-1042): unknown values become `nan` (`none`); a missing value is no key. -/
def encode (d : List (α × ℕ)) (v : Option α) : Option ℕ := v.bind (code d)

/-- The same for sub-group variables: unknown values become -1. -/
def encodeSub (d : List (α × ℕ)) (v : Option α) : Int := match v.bind (code d) with | some k => k | none => -1

/-- `sid` (986-987): first positions of the series identifiers in increasing order. -/
def sid {ι : Type} [DecidableEq ι] (ids : List ι) : List ℕ :=
  (List.range ids.length).filter fun i => match ids[i]? with | none => false | some a => decide (a ∉ ids.take i)

/-- `np.split(rows, sid[1:])` (1001, 1004, 1052). -/
def series {ι ρ : Type} [DecidableEq ι] (ids : List ι) (rows : List ρ) : List (List ρ) :=
  Verif.Drop.npSplit rows 0 (sid ids).tail

end Verif.Encode
