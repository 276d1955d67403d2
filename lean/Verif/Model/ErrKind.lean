import Verif.Model.FloatText

/-!
# The kinds of errors of the parsers

The parsers of `Verif/Model/NatText.lean`, `BigInt.lean`, `Rat.lean` and `FloatText.lean` only say that there is an error; the
functions here return the kind that `kind()` of the error reports as well.  The messages are in `Verif/Model/ErrMsg.lean`.
-/

namespace RMath

/-- parse_err.rs:3-8 -/
inductive ParseErrKind
  | beginWithIllegalChar
  | illegalCharEncounter
  | invalidParameters
deriving DecidableEq, Repr

/-- rat_err.rs:4-9 -/
inductive RatErrKind
  | denominatorIsZero
  | numeratorIsZero
  | parseStringWrong
deriving DecidableEq, Repr

/-- float_err.rs: the kinds that `from_str` uses -/
inductive FloatErrKind
  | parseStringWrong
  | exponentOverflow
  | exponentUnderflow
deriving DecidableEq, Repr

/-- the error of a parser that has errors of one kind only -/
def withKind {κ α : Type} (k : κ) : Option α → Except κ α
  | none => .error k
  | some a => .ok a

/-- nat.rs:2097-2113 `from_str`: the errors of `check_base` (nat.rs:277, 286, 294, 296) and those of the loops over the digits
(nat.rs:311, 332, 366, 385) -/
def natParseE (s : List Char) : Res (Except ParseErrKind Words) :=
  let s := strTrim s
  match checkBase 0 s with
  | none => .ok (.error .beginWithIllegalChar)
  | some (i, base) =>
    let s := s.drop i
    if base = 2 then (fromBinStr s).map (withKind .illegalCharEncounter)
    else if base = 8 then (fromOctStr s).map (withKind .illegalCharEncounter)
    else if base = 10 then .ok (withKind .illegalCharEncounter (fromDecStr s))
    else if base = 16 then (fromHexStr s).map (withKind .illegalCharEncounter)
    else .error .panic

/-- bigint.rs:951-979 `from_str` -/
def bParseE (s : List Char) : Res (Except ParseErrKind BInt) :=
  let s := strTrim s
  match s with
  | [] => .ok (.error .beginWithIllegalChar)
  | c :: cs =>
    match natParseE (if c = '-' then cs else s) with
    | .error e => .error e
    | .ok (.error k) => .ok (.error k)
    | .ok (.ok nat) => .ok (.ok ⟨nat, if eqv nat [0#32] then false else c == '-'⟩)

/-- rat.rs:677-730 `from_str`.  The errors of `BigInt::from_str` become `ParseStringWrong`. -/
def rParseE (stdF64 : List Char → Option D) (s : List Char) : Res (Except RatErrKind RatV) :=
  let s := strTrim s
  if s = [] then .ok (.error .parseStringWrong)
  else if '.' ∈ s then
    match stdF64 s with
    | none => .ok (.error .parseStringWrong)
    | some f =>
      if ((f >>> 52) &&& 2047#64) = 2047#64 ∧ f <<< 12 ≠ 0#64 then .ok (.error .parseStringWrong)
      else do
        let z ← rFromF64 f
        .ok (.ok z)
  else do
    let ab ← (match splitAtChar '/' s with
      | some (l, r) => do
        let a ← bParse l
        let b ← bParse r
        .ok (a, b)
      | none => do
        let a ← bParse s
        .ok (a, some ⟨[1#32], false⟩) : Res (Option BInt × Option BInt))
    match ab with
    | (some a, some b) =>
      if bIsNan a || bIsNan b then .ok (.error .parseStringWrong)
      else if eqv b.nat [0#32] then .ok (.error .denominatorIsZero)
      else .ok (.ok ⟨⟨a.nat, a.neg != b.neg⟩, ⟨b.nat, false⟩⟩)
    | _ => .ok (.error .parseStringWrong)

/-- float_fmt.rs:184-212 -/
def fParseExpE (s : List Char) (split : Option (List Char × List Char)) : Res (Except FloatErrKind (List Char × Int)) :=
  match split with
  | none => .ok (.ok (s, 0))
  | some (l, es) =>
    if es = [] then .ok (.ok (s, 0))
    else do
      let e ← bParse es
      match e with
      | none => .ok (.error .parseStringWrong)
      | some e =>
        if bCmp e ⟨[0x80000000#32], true⟩ = some .lt then .ok (.error .exponentUnderflow)
        else if bCmp e ⟨[0x7fffffff#32], false⟩ = some .gt then .ok (.error .exponentOverflow)
        else
          let tmp : Int := e.nat.foldr (fun x acc => acc * 2 ^ 32 + x.toNat) 0
          .ok (.ok (l, if e.neg then -tmp else tmp))

/-- float_fmt.rs:153-254 `from_str` -/
def fParseE (s : List Char) : Res (Except FloatErrKind FloatV) :=
  let s := strTrim s
  if s = [] then .ok (.error .parseStringWrong)
  else if 'e' ∈ s ∧ 'E' ∈ s then .ok (.error .parseStringWrong)
  else
    let split := if 'e' ∈ s then splitAtChar 'e' s else splitAtChar 'E' s
    if '.' ∉ s ∧ split = none then do
      let n ← bParse s
      match n with
      | none => .ok (.error .parseStringWrong)
      | some n => do
        let z ← fFromBigInt n
        .ok (.ok z)
    else do
      let r ← fParseExpE s split
      match r with
      | .error k => .ok (.error k)
      | .ok (t, exp) =>
        let (nu, exp) : List Char × Int :=
          match splitAtChar '.' t with
          | some (a, b) => (a ++ b, exp - strLen b)
          | none => (t, exp)
        let de : List Char := if exp < 0 then '1' :: List.replicate (-exp).toNat '0' else []
        let nu := if exp < 0 then nu else nu ++ List.replicate exp.toNat '0'
        let n ← bParse nu
        let d ← bParse de
        match n, d with
        | some n, some d => do
          let r ← rFromFracBig n d
          match r with
          | none => .ok (.error .parseStringWrong)
          | some r => do
            let z ← fFromRat r
            .ok (.ok z)
        | _, _ => .ok (.error .parseStringWrong)

end RMath
