import Verif.Model.Float
import Verif.Model.NatText
import Mathlib.Data.List.DropRight

/-!
# Text of `Float`: src/bigint/decimal.rs and src/bigint/float_fmt.rs

Strings are lists of characters.  A digit of a `Decimal` is its value (`'7'` is 7): the characters of `mant` are those of a
decimal numeral or computed from a digit below 10, so that the conversions between characters and bytes neither overflow
nor lose anything.  Counters (`usize`) are naturals.
-/

namespace RMath

/-- decimal.rs:12-16: the digits (the first is the most significant) and the exponent.  The value is
`0.d₀d₁d₂… · 10^exp`. -/
structure Dec where
  mant : List Nat
  exp : Int
deriving DecidableEq, Repr

/-- decimal.rs:130-144 `trim` -/
def decTrim (d : Dec) : Dec :=
  let m := d.mant.rdropWhile (· == 0)
  ⟨m, if m = [] then 0 else d.exp⟩

/-- decimal.rs:79-84: the loop over all the digits; `n` and `r` change only as long as `n >> s` is zero. -/
def decLead (s : Nat) : Nat → Nat → List Nat → Nat × Nat
  | n, r, [] => (n, r)
  | n, r, c :: cs => if n >>> s = 0 then decLead s (n * 10 + c) (r + 1) cs else decLead s n r cs

/-- decimal.rs:91-94: append zeros until the first digit of the quotient is not zero. -/
def decGrow (s : Nat) : Nat → Nat → Nat → Res (Nat × Nat)
  | 0, _, _ => .error .hang
  | fuel + 1, n, r => if n >>> s = 0 then decGrow s fuel (n * 10) (r + 1) else .ok (n, r)

/-- decimal.rs:99-107: the loop over the remaining digits; the digits written and the remainder.  `mant[w]` is written
after `mant[r]` is read, and `w < r`. -/
def decQuo (s : Nat) : Nat → List Nat → List Nat × Nat
  | n, [] => ([], n)
  | n, c :: cs =>
    let p := decQuo s ((n &&& (1 <<< s - 1)) * 10 + c) cs
    ((n >>> s) :: p.1, p.2)

/-- decimal.rs:109-123: the two loops that end the division.  The first overwrites digits, the second appends them; the
digits behind the last one written are dropped. -/
def decTail (s : Nat) : Nat → Nat → Res (List Nat)
  | 0, _ => .error .hang
  | fuel + 1, n =>
    if n > 0 then do
      let l ← decTail s fuel ((n &&& (1 <<< s - 1)) * 10)
      .ok ((n >>> s) :: l)
    else .ok []

/-- decimal.rs:72-126 `shr_inner`, for `s ≤ 28`: `n` stays below `10 · 2^s`.  The fuel of `decTail`: every round removes a
factor 2 from the remainder's denominator. -/
def decShr (d : Dec) (s : Nat) : Res Dec :=
  let p := decLead s 0 0 d.mant
  if p.1 = 0 then .ok { d with mant := [] }
  else do
    let g ← decGrow s (s + 1) p.1 p.2
    let q := decQuo s g.1 (d.mant.drop g.2)
    let t ← decTail s (s + 2) q.2
    .ok (decTrim ⟨q.1 ++ t, d.exp + 1 - g.2⟩)

/-- decimal.rs:60-66: the loop with `shift < 0` and the step behind it; `k` is `-shift`. -/
def decShrs : Nat → Nat → Dec → Res Dec
  | 0, _, _ => .error .hang
  | fuel + 1, k, d =>
    if k > 28 then do
      let d ← decShr d 28
      decShrs fuel (k - 28) d
    else decShr d k

/-- decimal.rs:54-59: the digits kept: as many as there are characters other than `'0'`. -/
def decDigits (s : List Char) : List Nat := (s.take (s.countP (· ≠ '0'))).map fun c => c.toNat - 48

/-- decimal.rs:21-69 `new`: the decimal form of `m · 2^shift` -/
def decNew (m : Words) (shift : Int) : Res Dec :=
  if isNan m || eqv m [0#32] then .ok ⟨[], 0⟩
  else
    let m := deepClone m
    let s := if shift < 0 then min (-shift).toNat (traillingZeros m) else 0
    let m := if shift < 0 then assignPrim shrInner m s else m
    let shift := shift + s
    let m := if shift > 0 then assignPrim shlInner m shift.toNat else m
    do
      let t ← natDisplay m
      let z : Dec := ⟨decDigits t, t.length⟩
      if shift < 0 then decShrs ((-shift).toNat + 1) (-shift).toNat z else .ok z

/-- decimal.rs:149-155 `is_should_round_up` -/
def decShouldRoundUp (d : Dec) (n : Nat) : Bool :=
  let c := d.mant.getD n 0
  if c = 5 ∧ n + 1 = d.mant.length then decide (n > 0) && d.mant.getD (n - 1) 0 % 2 != 0 else decide (c ≥ 5)

/-- decimal.rs:170-192 `round_up`: nines at the end of the first `n` digits are dropped, and the digit before them is
incremented. -/
def decRoundUp (d : Dec) (n : Nat) : Dec :=
  let kept := (d.mant.take n).rdropWhile (· ≥ 9)
  if kept = [] then ⟨[1], d.exp + 1⟩
  else { d with mant := kept.dropLast ++ [kept.getLastD 0 + 1] }

/-- decimal.rs:194-199 `round_down` -/
def decRoundDown (d : Dec) (n : Nat) : Dec := decTrim { d with mant := d.mant.take n }

/-- decimal.rs:160-168 `round` -/
def decRound (d : Dec) (n : Nat) : Dec :=
  if n < d.mant.length then (if decShouldRoundUp d n then decRoundUp d n else decRoundDown d n) else d

/-- the digit as a character -/
def digChr (d : Nat) : Char := Char.ofNat (d + 48)

/-- the standard decimal formatter for `usize` -/
def usizeDec (n : Nat) : List Char := Nat.toDigits 10 n

/-- float_fmt.rs:62-92 `fmt_for_exp`; `first().unwrap()` panics if there is no digit. -/
def fmtForExp (d : Dec) (prec : Nat) (e : Char) : Res (List Char) :=
  match d.mant with
  | [] => .error .panic
  | d0 :: ds =>
    let frac : List Char :=
      if prec > 0 then
        let m := min d.mant.length (prec + 1)
        '.' :: ((ds.take (m - 1)).map digChr ++ List.replicate (prec + 1 - m) '0')
      else []
    let sign : List Char := if d.exp < 1 then ['-'] else []
    let exp := if d.exp < 1 then (1 - d.exp).toNat else (d.exp - 1).toNat
    .ok (digChr d0 :: frac ++ e :: sign ++ (if exp < 10 then ['0'] else []) ++ usizeDec exp)

/-- float_fmt.rs:104: the digit `d[(d.exp as usize) + i]`; the sum overflows if `exp` is negative and `i ≥ -exp`: a panic
with overflow checks, the intended index without them. -/
def decAt (checks : Bool) (d : Dec) (i : Nat) : Res Char :=
  if d.exp < 0 then
    if (i : Int) < -d.exp then .ok '0'
    else if checks then .error .panic
    else .ok (digChr (d.mant.getD (d.exp + i).toNat 0))
  else .ok (digChr (d.mant.getD (d.exp.toNat + i) 0))

/-- float_fmt.rs:94-106 `fmt_for_display` -/
def fmtForDisplay (checks : Bool) (d : Dec) (prec : Nat) : Res (List Char) := do
  let int : List Char :=
    if d.exp > 0 then
      let m := min d.mant.length d.exp.toNat
      (d.mant.take m).map digChr ++ List.replicate (d.exp.toNat - m) '0'
    else ['0']
  if prec > 0 then
    let frac ← (List.range prec).mapM (decAt checks d)
    .ok (int ++ '.' :: frac)
  else .ok int

/-- float_fmt.rs:11-60 `fmt_inner`; `fmt` is what follows the conversion to decimal: the branches of the last `match`. -/
def fmtInner (x : FloatV) (prec : Nat) (fmt : Dec → Res (List Char)) : Res (List Char) :=
  if x.form = .nan then .ok "NaN".toList
  else if x.form = .zero then .ok ['0']
  else
    let sign : List Char := if x.neg then ['-'] else []
    if x.form = .inf then .ok ((if x.neg then ['-'] else ['+']) ++ "Inf".toList)
    else if eqv x.mant [0#32] then .ok (sign ++ ['0'])
    else do
      let d ← decNew x.mant (x.exp - bitsLen x.mant)
      let t ← fmt (decRound d (1 + prec))
      .ok (sign ++ t)

/-- float_fmt.rs:109-129 `LowerExp` (`e` is `'e'`) and `UpperExp` (`'E'`); `precision` is that of the format, if given -/
def fFmtExp (e : Char) (precision : Option Nat) (x : FloatV) : Res (List Char) :=
  let prec := precision.getD 7
  fmtInner x prec fun d => fmtForExp (decRound d (1 + prec)) prec e

/-- float_fmt.rs:131-151 `Display` and `Debug`: the precision of the number, in bits, is the number of digits behind the
point. -/
def fDisplay (checks : Bool) (x : FloatV) : Res (List Char) :=
  fmtInner x x.prec fun d =>
    let n := d.exp + x.prec
    fmtForDisplay checks (if n ≥ 0 then decRound d n.toNat else d) x.prec

/-! ## Parsing -/

/-- `str::len` -/
def strLen (s : List Char) : Nat := (s.map Char.utf8Size).sum

/-- float_fmt.rs:184-212: the text before the exponent and the exponent, for the text split at the exponent character.
`none` is an error. -/
def fParseExp (s : List Char) (split : Option (List Char × List Char)) : Res (Option (List Char × Int)) :=
  match split with
  | none => .ok (some (s, 0))
  | some (l, es) =>
    if es = [] then .ok (some (s, 0))
    else do
      let e ← bParse es
      match e with
      | none => .ok none
      | some e =>
        -- min_exp and max_exp as `BigInt`s
        if bCmp e ⟨[0x80000000#32], true⟩ = some .lt then .ok none
        else if bCmp e ⟨[0x7fffffff#32], false⟩ = some .gt then .ok none
        else
          -- `tmp <<= 32; tmp |= x` over the words from the top; within the bounds there is one word
          let tmp : Int := e.nat.foldr (fun x acc => acc * 2 ^ 32 + x.toNat) 0
          .ok (some (l, if e.neg then -tmp else tmp))

/-- float_fmt.rs:153-254 `from_str`.  The first `.` is found in the whole text; if it is behind the exponent character, the
exponent is not a number, and the text is rejected before the slices that would be out of range. -/
def fParse (s : List Char) : Res (Option FloatV) :=
  let s := strTrim s
  if s = [] then .ok none
  else if 'e' ∈ s ∧ 'E' ∈ s then .ok none
  else
    let split := if 'e' ∈ s then splitAtChar 'e' s else splitAtChar 'E' s
    if '.' ∉ s ∧ split = none then do
      let n ← bParse s
      match n with
      | none => .ok none
      | some n => do
        let z ← fFromBigInt n
        .ok (some z)
    else do
      let r ← fParseExp s split
      match r with
      | none => .ok none
      | some (t, exp) =>
        let (nu, exp) : List Char × Int :=
          match splitAtChar '.' t with
          | some (a, b) => (a ++ b, exp - strLen b)
          | none => (t, exp)
        let de : List Char := if exp < 0 then '1' :: List.replicate (-exp).toNat '0' else []
        let nu := if exp < 0 then nu else nu ++ List.replicate exp.toNat '0'
        let n ← bParse nu
        let d ← bParse de
        match n, d with
        | some n, some d => do
          let r ← rFromFracBig n d
          match r with
          | none => .ok none
          | some r => do
            let z ← fFromRat r
            .ok (some z)
        | _, _ => .ok none

end RMath
