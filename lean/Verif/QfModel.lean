import Mathlib.Analysis.SpecialFunctions.Log.Deriv
import Mathlib.Analysis.SpecialFunctions.Trigonometric.Arctan
import Mathlib.Analysis.SpecialFunctions.Pow.Real
import Mathlib.Algebra.Order.Floor.Ring

/-!
# Distribution function of a weighted sum of chi-square variables (property C115)

Model of src/mssm/src/cpp/davies.cpp 24-421, the method of Davies (1980) behind the tests of smooth terms. Arithmetic is exact:
`pi` (21) is read as π. The non-centrality parameters are left out, every caller passes zeros (utils.py 1394, 1475); terms
multiplied by them are zero. `count` and `lim` (33-41) are kept as the number of calls that are left: a function that calls
`counter` with none left throws 4, `none` here. Memory (317, 320) is available. Of `trace` only the entry 5 and part of the entry 2 are kept.
-/

namespace Verif.Qf

open Real

/-- A weight `lb[j]` and its degrees of freedom `n[j]`. -/
abbrev Comps := List (ℝ × ℤ)

/-- `exp1` (24-31). -/
noncomputable def exp1 (x : ℝ) : ℝ := if x < -50 then 0 else exp x

/-- Value of `log1` (43-62). For `|x| ≤ 0.1` the function adds the terms of a series until the sum no longer changes, see
`log1Sum`; here the sum of the series is used. -/
noncomputable def log1 (x : ℝ) (first : Bool) : ℝ := if first then log (1 + x) else log (1 + x) - x

/-- `s` in `log1` for `|x| ≤ 0.1`, after `m` rounds of the loop (53-59). -/
noncomputable def log1Sum (x : ℝ) (first : Bool) (m : ℕ) : ℝ :=
  let y := x / (2 + x)
  (if first then 2 else -x) * y + ((List.range m).map fun i : ℕ => 2 * y ^ 3 * (y ^ 2) ^ i / (3 + 2 * (i : ℝ))).sum

/-- One round of `order` (71-88), for `j` equal to the length of `th`: the inner loop is left after its first round (83), either
with `th[j] = th[j - 1]` and then `k = -1` (75-78, 85-88), or with `k = j - 1` (79-83). -/
noncomputable def orderStep (lb : List ℝ) (th : List ℕ) : List ℕ :=
  match th.getLast? with
  | none => [0]
  | some t =>
    if |lb.getD t 0| < |lb.getD th.length 0| then (th ++ [t]).set 0 th.length else th ++ [th.length]

/-- `order` (64-91). -/
noncomputable def order (lb : List ℝ) : List ℕ := (orderStep lb)^[lb.length] []

/-- The bound on a tail probability in `errbd` (100-109). -/
noncomputable def errbd (cs : Comps) (sigsq u : ℝ) : ℝ :=
  exp1 (-(1 / 2) * (u * (u * sigsq) + (cs.map fun p : ℝ × ℤ => (p.2 : ℝ) * ((2 * u * p.1) ^ 2 / (1 - 2 * u * p.1) + log1 (-(2 * u * p.1)) false)).sum))

/-- The cutoff `*cx` in `errbd` (100-109). -/
noncomputable def cutoff (cs : Comps) (sigsq u : ℝ) : ℝ :=
  u * sigsq + (cs.map fun p : ℝ × ℤ => p.1 * (p.2 : ℝ) / (1 - 2 * u * p.1)).sum

/-- First loop of `ctff` (121-125), returning `u1`, `c1`, `u2`, `c2`. -/
noncomputable def ctff1 (cs : Comps) (sigsq accx rb : ℝ) : ℕ → ℝ → ℝ → ℝ → Option ((ℝ × ℝ × ℝ × ℝ) × ℕ)
  | 0, _, _, _ => none
  | b + 1, u1, c1, u2 =>
    let u := u2 / (1 + u2 * rb)
    if accx < errbd cs sigsq u then ctff1 cs sigsq accx rb b u2 (cutoff cs sigsq u) (2 * u2)
    else some ((u1, c1, u2, cutoff cs sigsq u), b)

/-- Second loop of `ctff` (126-134), returning `u2`, `c2`. -/
noncomputable def ctff2 (cs : Comps) (sigsq accx rb mean : ℝ) : ℕ → ℝ → ℝ → ℝ → ℝ → Option ((ℝ × ℝ) × ℕ)
  | 0, _, c1, u2, c2 => if (c1 - mean) / (c2 - mean) < 9 / 10 then none else some ((u2, c2), 0)
  | b + 1, u1, c1, u2, c2 =>
    if (c1 - mean) / (c2 - mean) < 9 / 10 then
      let u := (u1 + u2) / 2
      if accx < errbd cs sigsq (u / (1 + u * rb)) then
        ctff2 cs sigsq accx rb mean b u (cutoff cs sigsq (u / (1 + u * rb))) u2 c2
      else ctff2 cs sigsq accx rb mean b u1 c1 u (cutoff cs sigsq (u / (1 + u * rb)))
    else some ((u2, c2), b + 1)

/-- `ctff` (112-136), returning `*upn` and the cutoff. -/
noncomputable def ctff (cs : Comps) (sigsq accx lmin lmax mean : ℝ) (b : ℕ) (upn : ℝ) : Option ((ℝ × ℝ) × ℕ) :=
  let rb := 2 * (if 0 < upn then lmax else lmin)
  match ctff1 cs sigsq accx rb b 0 mean upn with
  | none => none
  | some ((u1, c1, u2, c2), b') => ctff2 cs sigsq accx rb mean b' u1 c1 u2 c2

/-- `x` in `truncation` (153). -/
noncomputable def xsq (u l : ℝ) : ℝ := (2 * u * l) ^ 2

/-- `truncation` (138-173). -/
noncomputable def truncation (cs : Comps) (u tausq sigsq : ℝ) : ℝ :=
  let sum2 := (sigsq + tausq) * u ^ 2
  let big := cs.filter fun p => decide (1 < xsq u p.1)
  let small := cs.filter fun p => decide (¬ 1 < xsq u p.1)
  let prod1 := 2 * sum2 + (small.map fun p : ℝ × ℤ => (p.2 : ℝ) * log1 (xsq u p.1) true).sum
  let prod2 := prod1 + (big.map fun p : ℝ × ℤ => (p.2 : ℝ) * log (xsq u p.1)).sum
  let prod3 := prod1 + (big.map fun p : ℝ × ℤ => (p.2 : ℝ) * log1 (xsq u p.1) true).sum
  let s := (big.map fun p : ℝ × ℤ => p.2).sum
  let x := exp1 (-(1 / 4) * prod2) / π
  let y := exp1 (-(1 / 4) * prod3) / π
  let err1 := if s = 0 then 1 else x * 2 / (s : ℝ)
  let err2 := if 1 < prod3 then 5 / 2 * y else 1
  let err1 := if err2 < err1 then err2 else err1
  let x := 1 / 2 * sum2
  let err2 := if x ≤ y then 1 else y / x
  if err1 < err2 then err1 else err2

/-- The loop that enlarges `ut` in `findu` (184). -/
noncomputable def enlarge (cs : Comps) (sigsq accx : ℝ) : ℕ → ℝ → Option (ℝ × ℕ)
  | 0, _ => none
  | b + 1, ut => if accx < truncation cs ut 0 sigsq then enlarge cs sigsq accx b (ut * 4) else some (ut, b)

/-- The loop that reduces `ut` in `findu` (188-190). -/
noncomputable def reduce (cs : Comps) (sigsq accx : ℝ) : ℕ → ℝ → Option (ℝ × ℕ)
  | 0, _ => none
  | b + 1, ut => if truncation cs (ut / 4) 0 sigsq ≤ accx then reduce cs sigsq accx b (ut / 4) else some (ut, b)

/-- The last loop of `findu` (192-193), over the remaining values of `divis`. -/
noncomputable def refine (cs : Comps) (sigsq accx : ℝ) : List ℝ → ℕ → ℝ → Option (ℝ × ℕ)
  | [], b, ut => some (ut, b)
  | _ :: _, 0, _ => none
  | d :: ds, b + 1, ut => refine cs sigsq accx ds b (if truncation cs (ut / d) 0 sigsq ≤ accx then ut / d else ut)

/-- `findu` (175-195). -/
noncomputable def findu (cs : Comps) (sigsq accx : ℝ) (b : ℕ) (utx : ℝ) : Option (ℝ × ℕ) :=
  match b with
  | 0 => none
  | b + 1 =>
    match (if accx < truncation cs (utx / 4) 0 sigsq then enlarge cs sigsq accx b utx else reduce cs sigsq accx b (utx / 4)) with
    | none => none
    | some (ut, b') => refine cs sigsq accx [2, 7 / 5, 6 / 5, 11 / 10] b' ut

/-- `sum3` in `integrate` (210-219). -/
noncomputable def sum3 (cs : Comps) (sigsq u : ℝ) : ℝ :=
  -(1 / 2) * sigsq * u ^ 2 - (cs.map fun p : ℝ × ℤ => 1 / 4 * (p.2 : ℝ) * log1 ((2 * p.1 * u) ^ 2) true).sum

/-- `sum1` in `integrate` before the sine (209-219). -/
noncomputable def sum1 (cs : Comps) (c u : ℝ) : ℝ := -2 * u * c + (cs.map fun p : ℝ × ℤ => (p.2 : ℝ) * arctan (2 * p.1 * u)).sum

/-- `sum2` in `integrate` (209-219). -/
noncomputable def sum2 (cs : Comps) (c u : ℝ) : ℝ := |-2 * u * c| + (cs.map fun p : ℝ × ℤ => |(p.2 : ℝ) * arctan (2 * p.1 * u)|).sum

/-- The factor of a term in `integrate` (205, 208, 220-222); `tausq` is `none` in the main integration. -/
noncomputable def factor (cs : Comps) (sigsq interv : ℝ) (tausq : Option ℝ) (k : ℕ) : ℝ :=
  let u := ((k : ℝ) + 1 / 2) * interv
  let x := interv / π * exp1 (sum3 cs sigsq u) / u
  match tausq with
  | none => x
  | some t => x * (1 - exp1 (-(1 / 2) * t * u ^ 2))

/-- What `integrate` (197-226) adds to `intl` and `ersm`. -/
noncomputable def integrate (cs : Comps) (sigsq c : ℝ) (nterm : ℕ) (interv : ℝ) (tausq : Option ℝ) : ℝ × ℝ :=
  (((List.range (nterm + 1)).map fun k : ℕ =>
      sin (1 / 2 * sum1 cs c (((k : ℝ) + 1 / 2) * interv)) * factor cs sigsq interv tausq k).sum,
    ((List.range (nterm + 1)).map fun k : ℕ =>
      1 / 2 * sum2 cs c (((k : ℝ) + 1 / 2) * interv) * factor cs sigsq interv tausq k).sum)

/-- The loop in `cfe` (237-252) over the positions of `th` from the last to the first, returning `axl` and `sum1`. The list holds
these positions reversed, with weights and degrees of freedom looked up. -/
noncomputable def cfeLoop (sxl : ℝ) : List (ℝ × ℤ) → ℝ → ℝ × ℝ
  | [], axl => (axl, 0)
  | p :: ps, axl =>
    if 0 < p.1 * sxl then
      let axl1 := axl - |p.1| * (p.2 : ℝ)
      let axl2 := |p.1| / (866 / 10000)
      if axl2 < axl1 then cfeLoop sxl ps axl1
      else
        let axl' := if axl2 < axl then axl2 else axl
        (axl', (axl' - axl1) / |p.1| + (ps.map fun q : ℝ × ℤ => (q.2 : ℝ)).sum)
    else cfeLoop sxl ps axl

/-- `cfe` (228-256) for the indices `th`; `none` if it fails (253-254). -/
noncomputable def cfe (cs : Comps) (th : List ℕ) (x : ℝ) : Option ℝ :=
  let r := cfeLoop (if 0 < x then 1 else -1) (th.reverse.map fun t => cs.getD t (0, 0)) |x|
  if 100 < r.2 then none else some ((2 : ℝ) ^ (r.2 / 4) / (π * r.1 ^ 2))

/-- Indices used by `cfe`: those of `order`, computed once (235). -/
noncomputable def theta (cs : Comps) : List ℕ := order (cs.map fun p => p.1)

/-- What `qf` returns: the value, `*ifault`, `trace[5]` squared, and the number of auxiliary integrations, which is `trace[2]`
without the main integration. -/
structure Res where
  val : ℝ
  fault : ℕ
  tausq : ℝ
  aux : ℕ

/-- Main integration and the test for round-off error (398-409). -/
noncomputable def finish (cs : Comps) (c acc tau : ℝ) (sigsq xnt xlim intv intl ersm : ℝ) (k : ℕ) : Res :=
  if xlim < xnt then ⟨-1, 1, tau, k⟩
  else
    let I := integrate cs sigsq c ⌊xnt + 1 / 2⌋₊ intv none
    let up := ersm + I.2
    let x := up + acc / 10
    ⟨1 / 2 - (intl + I.1), if ∃ q ∈ [(1 : ℝ), 2, 4, 8], q * x = q * up then 2 else 0, tau, k⟩

/-- The loop that finds the range of the distribution and carries out auxiliary integrations (359-396), followed by `finish`.
Every round calls `counter`, so that the first argument, the number of rounds, is not used up if it exceeds `b`. -/
noncomputable def range (cs : Comps) (c acc tau lmin lmax mean : ℝ) : ℕ → ℕ → (up un utx acc1 xlim sigsq intl ersm : ℝ) → ℕ → Res
  | 0, _, _, _, _, _, _, _, _, _, k => ⟨-1, 4, tau, k⟩
  | f + 1, b, up, un, utx, acc1, xlim, sigsq, intl, ersm, k =>
    match ctff cs sigsq acc1 lmin lmax mean b up with
    | none => ⟨-1, 4, tau, k⟩
    | some ((up, c1), b) =>
      if c1 - c < 0 then ⟨1, 0, tau, k⟩
      else
        match ctff cs sigsq acc1 lmin lmax mean b un with
        | none => ⟨-1, 4, tau, k⟩
        | some ((un, c2), b) =>
          if c - c2 < 0 then ⟨0, 0, tau, k⟩
          else
            let intv := 2 * π / max (c1 - c) (c - c2)
            let xnt := utx / intv
            let xntm := 3 / sqrt acc1
            if xntm * (3 / 2) < xnt then
              if xlim < xntm then ⟨-1, 1, tau, k⟩
              else
                let ntm := ⌊xntm + 1 / 2⌋₊
                let intv1 := utx / (ntm : ℝ)
                let x := 2 * π / intv1
                if |c| < x then
                  match b with
                  | 0 => ⟨-1, 4, tau, k⟩
                  | 1 => ⟨-1, 4, tau, k⟩
                  | b + 2 =>
                    match cfe cs (theta cs) (c - x), cfe cs (theta cs) (c + x) with
                    | some e1, some e2 =>
                      let tausq := 33 / 100 * acc1 / (11 / 10 * (e1 + e2))
                      let acc1 := 67 / 100 * acc1
                      let I := integrate cs sigsq c ntm intv1 (some tausq)
                      match findu cs (sigsq + tausq) (1 / 4 * acc1) b utx with
                      | none => ⟨-1, 4, tau, k + 1⟩
                      | some (utx, b) =>
                        range cs c acc tau lmin lmax mean f b up un utx (3 / 4 * acc1) (xlim - xntm) (sigsq + tausq) (intl + I.1)
                          (ersm + I.2) (k + 1)
                    | _, _ => finish cs c acc tau sigsq xnt xlim intv intl ersm k
                else finish cs c acc tau sigsq xnt xlim intv intl ersm k
            else finish cs c acc tau sigsq xnt xlim intv intl ersm k

/-- `lmax` and `lmin` (324-332). -/
noncomputable def extremes (cs : Comps) : ℝ × ℝ :=
  cs.foldl (fun a p => if a.1 < p.1 then (p.1, a.2) else if p.1 < a.2 then (a.1, p.1) else a) (0, 0)

/-- `mean` (330). -/
noncomputable def mean (cs : Comps) : ℝ := (cs.map fun p : ℝ × ℤ => p.1 * (p.2 : ℝ)).sum

/-- `sd` before the square root (323-329). -/
noncomputable def var (cs : Comps) (sigma : ℝ) : ℝ := sigma ^ 2 + (cs.map fun p : ℝ × ℤ => p.1 ^ 2 * (2 * (p.2 : ℝ))).sum

/-- The convergence factor (344-355): `tausq`, `sigsq` and `utx`, and the calls left. -/
noncomputable def factorStep (cs : Comps) (c acc1 sigsq almx sd : ℝ) (b : ℕ) (utx : ℝ) : Option ((ℝ × ℝ × ℝ) × ℕ) :=
  if c ≠ 0 ∧ 7 / 100 * sd < almx then
    match b with
    | 0 => none
    | b + 1 =>
      match cfe cs (theta cs) c with
      | none => some ((0, sigsq, utx), b)
      | some e =>
        match b with
        | 0 => none
        | b + 1 =>
          let tausq := 1 / 4 * acc1 / e
          if truncation cs utx tausq sigsq < 1 / 5 * acc1 then
            match findu cs (sigsq + tausq) (1 / 4 * acc1) b utx with
            | none => none
            | some (utx, b) => some ((tausq, sigsq + tausq, utx), b)
          else some ((0, sigsq, utx), b)
  else some ((0, sigsq, utx), b)

/-- `qf` (258-421), `daviesQF` (423-449) without the conversion of its arguments. -/
noncomputable def qf (cs : Comps) (c sigma acc : ℝ) (lim : ℤ) : Res :=
  if ∃ p ∈ cs, p.2 < 0 then ⟨-1, 3, 0, 0⟩
  else if var cs sigma = 0 then ⟨if 0 < c then 1 else 0, 0, 0, 0⟩
  else
    let lmax := (extremes cs).1
    let lmin := (extremes cs).2
    if lmin = 0 ∧ lmax = 0 ∧ sigma = 0 then ⟨-1, 3, 0, 0⟩
    else
      let sd := sqrt (var cs sigma)
      let almx := if lmax < -lmin then -lmin else lmax
      match findu cs (sigma ^ 2) (1 / 2 * acc) lim.toNat (16 / sd) with
      | none => ⟨-1, 4, 0, 0⟩
      | some (utx, b) =>
        match factorStep cs c acc (sigma ^ 2) almx sd b utx with
        | none => ⟨-1, 4, 0, 0⟩
        | some ((tau, sigsq, utx), b) =>
          range cs c acc tau lmin lmax (mean cs) (lim.toNat + 1) b (9 / 2 / sd) (-(9 / 2 / sd)) utx (1 / 2 * acc) (lim : ℝ) sigsq 0 0 0

end Verif.Qf
