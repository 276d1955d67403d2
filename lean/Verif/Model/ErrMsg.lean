import Verif.Model.ErrKind

/-!
# The messages of the errors of `from_str`

The functions of `Verif/Model/NatText.lean` once more, with the text of the error: `Display` of a `NatError` prints it
(nat_err.rs:22-29, the error is always `Some` since `new` is the only constructor).
-/

namespace RMath

/-- `format!("illegal char {}", c)` -/
def illegalChar (c : Char) : List Char := "illegal char ".toList ++ [c]

/-- nat.rs:261-298 `check_base`; `whole` is the argument, the recursion goes over what is left of it -/
def checkBaseM (whole : List Char) : Nat → List Char → Except (List Char) (Nat × Nat)
  | i, c :: cs =>
    if c = '+' ∨ c = ' ' then checkBaseM whole (i + 1) cs
    else if '0' ≤ c ∧ c ≤ '9' then
      match cs with
      | x :: _ =>
        if c = '0' then
          if x = 'o' then .ok (i + 2, 8)
          else if x = 'b' ∨ x = 'B' then .ok (i + 2, 2)
          else if x = 'x' ∨ x = 'X' then .ok (i + 2, 16)
          else .error ("begin with illegal char ".toList ++ [c, x])
        else .ok (i, 10)
      | [] => .ok (i, 10)
    else .error ("begin with illegal char ".toList ++ [c])
  | _, [] => .error (if 0 < whole.length then "all char is +".toList else "empty string".toList)

/-- nat.rs:309-314 -/
def decCharsM : List Char → Except (List Char) (List W)
  | [] => .ok []
  | c :: cs =>
    if '0' ≤ c ∧ c ≤ '9' then (decCharsM cs).map (BitVec.ofNat 32 (c.toNat - 48) :: ·) else .error (illegalChar c)

/-- nat.rs:300-325 `from_dec_str` -/
def fromDecStrM (s : List Char) : Except (List Char) Words :=
  if s = [] then .ok NaN
  else
    let s := s.dropWhile (· == '0')
    if s = [] then .ok [0#32]
    else (decCharsM s).map (decLoop [0#32])

/-- nat.rs:330-341, 381-393: as `packChars` -/
def packCharsM (dig : Char → Option W) (bits per : Nat) : Nat → W → List Char → Res (Except (List Char) (Words × W))
  | _, tmp, [] => .ok (.ok ([], tmp))
  | j, tmp, c :: cs =>
    match dig c with
    | none => .ok (.error (illegalChar c))
    | some n =>
      if 2 ^ 32 ≤ tmp.toNat + (n <<< (j * bits) : W).toNat then .error .panic
      else
        let tmp := tmp + n <<< (j * bits)
        if j + 1 = per then
          match packCharsM dig bits per 0 0#32 cs with
          | .ok (.ok r) => .ok (.ok (tmp :: r.1, r.2))
          | e => e
        else packCharsM dig bits per (j + 1) tmp cs

/-- nat.rs:352-368: as `octLoop` -/
def octLoopM : Nat → W → List Char → Res (Except (List Char) (Words × W))
  | _, tmp, [] => .ok (.ok ([], tmp))
  | i, tmp, c :: cs =>
    if '0' ≤ c ∧ c ≤ '7' then
      let n : W := BitVec.ofNat 32 (c.toNat - 48)
      if i + 3 ≥ 32 then
        let a : W := (((1#32 <<< (32 - i)) - 1#32) &&& n) <<< i
        if 2 ^ 32 ≤ tmp.toNat + a.toNat then .error .panic
        else
          match octLoopM (i + 3 - 32) (n >>> (32 - i)) cs with
          | .ok (.ok r) => .ok (.ok ((tmp + a) :: r.1, r.2))
          | e => e
      else if 2 ^ 32 ≤ tmp.toNat + (n <<< i : W).toNat then .error .panic
      else octLoopM (i + 3) (tmp + n <<< i) cs
    else .ok (.error (illegalChar c))

/-- the result of a loop over digits with the message of its error, as `packFinish` -/
def finishM (s : List Char) (r : Res (Except (List Char) (Words × W))) : Res (Except (List Char) Words) :=
  match r with
  | .error e => .error e
  | .ok (.error m) => .ok (.error m)
  | .ok (.ok (v, tmp)) =>
    .ok (.ok (trim (if tmp > 0#32 then v ++ [tmp] else if s ≠ [] then v ++ [tmp] else v)))

/-- an error with its kind -/
def withMsg {α : Type} (k : ParseErrKind) : Except (List Char) α → Except (ParseErrKind × List Char) α
  | .error m => .error (k, m)
  | .ok a => .ok a

/-- nat.rs:2097-2113 `from_str` -/
def natParseM (s : List Char) : Res (Except (ParseErrKind × List Char) Words) :=
  let s := strTrim s
  match checkBaseM s 0 s with
  | .error m => .ok (.error (.beginWithIllegalChar, m))
  | .ok (i, base) =>
    let s := s.drop i
    if base = 2 then (finishM s (packCharsM binDigit 1 32 0 0#32 s.reverse)).map (withMsg .illegalCharEncounter)
    else if base = 8 then (finishM s (octLoopM 0 0#32 s.reverse)).map (withMsg .illegalCharEncounter)
    else if base = 10 then .ok (withMsg .illegalCharEncounter (fromDecStrM s))
    else if base = 16 then (finishM s (packCharsM hexDigit 4 8 0 0#32 s.reverse)).map (withMsg .illegalCharEncounter)
    else .error .panic

/-- bigint.rs:951-979 `from_str` -/
def bParseM (s : List Char) : Res (Except (ParseErrKind × List Char) BInt) :=
  let s := strTrim s
  match s with
  | [] => .ok (.error (.beginWithIllegalChar, "empty string".toList))
  | c :: cs =>
    match natParseM (if c = '-' then cs else s) with
    | .error e => .error e
    | .ok (.error k) => .ok (.error k)
    | .ok (.ok nat) => .ok (.ok ⟨nat, if eqv nat [0#32] then false else c == '-'⟩)

/-- rat.rs:677-730 `from_str`.  `stdF64` is `f64::from_str`, with the message of its error. -/
def rParseM (stdF64 : List Char → Except (List Char) D) (s : List Char) : Res (Except (RatErrKind × List Char) RatV) :=
  let s := strTrim s
  if s = [] then .ok (.error (.parseStringWrong, "empty string".toList))
  else if '.' ∈ s then
    match stdF64 s with
    | .error m => .ok (.error (.parseStringWrong, m))
    | .ok f =>
      if ((f >>> 52) &&& 2047#64) = 2047#64 ∧ f <<< 12 ≠ 0#64 then
        .ok (.error (.parseStringWrong, s ++ " is not a number".toList))
      else do
        let z ← rFromF64 f
        .ok (.ok z)
  else do
    let ab ← (match splitAtChar '/' s with
      | some (l, r) => do
        let a ← bParseM l
        let b ← bParseM r
        .ok (a, b)
      | none => do
        let a ← bParseM s
        .ok (a, .ok ⟨[1#32], false⟩) : Res (Except (ParseErrKind × List Char) BInt × Except (ParseErrKind × List Char) BInt))
    match ab with
    | (.error e, _) => .ok (.error (.parseStringWrong, e.2))
    | (.ok _, .error e) => .ok (.error (.parseStringWrong, e.2))
    | (.ok a, .ok b) =>
      if bIsNan a || bIsNan b then .ok (.error (.parseStringWrong, "`".toList ++ s ++ "` is not a number".toList))
      else if eqv b.nat [0#32] then .ok (.error (.denominatorIsZero, []))
      else .ok (.ok ⟨⟨a.nat, a.neg != b.neg⟩, ⟨b.nat, false⟩⟩)

/-- float_fmt.rs:184-212 -/
def fParseExpM (s : List Char) (split : Option (List Char × List Char)) :
    Res (Except (FloatErrKind × List Char) (List Char × Int)) :=
  match split with
  | none => .ok (.ok (s, 0))
  | some (l, es) =>
    if es = [] then .ok (.ok (s, 0))
    else do
      let e ← bParseM es
      match e with
      | .error e => .ok (.error (.parseStringWrong, e.2))
      | .ok e =>
        if bCmp e ⟨[0x80000000#32], true⟩ = some .lt then do
          let t ← bDisplay e
          .ok (.error (.exponentUnderflow, "exp: ".toList ++ t))
        else if bCmp e ⟨[0x7fffffff#32], false⟩ = some .gt then do
          let t ← bDisplay e
          .ok (.error (.exponentOverflow, "exp: ".toList ++ t))
        else
          let tmp : Int := e.nat.foldr (fun x acc => acc * 2 ^ 32 + x.toNat) 0
          .ok (.ok (l, if e.neg then -tmp else tmp))

/-- float_fmt.rs:153-254 `from_str`; the only error of `from_frac_bigint` has an empty message (rat.rs:60) -/
def fParseM (s : List Char) : Res (Except (FloatErrKind × List Char) FloatV) :=
  let s := strTrim s
  if s = [] then .ok (.error (.parseStringWrong, "empty string".toList))
  else if 'e' ∈ s ∧ 'E' ∈ s then .ok (.error (.parseStringWrong, "invalid string".toList))
  else
    let split := if 'e' ∈ s then splitAtChar 'e' s else splitAtChar 'E' s
    if '.' ∉ s ∧ split = none then do
      let n ← bParseM s
      match n with
      | .error e => .ok (.error (.parseStringWrong, e.2))
      | .ok n => do
        let z ← fFromBigInt n
        .ok (.ok z)
    else do
      let r ← fParseExpM s split
      match r with
      | .error k => .ok (.error k)
      | .ok (t, exp) =>
        let (nu, exp) : List Char × Int :=
          match splitAtChar '.' t with
          | some (a, b) => (a ++ b, exp - strLen b)
          | none => (t, exp)
        let de : List Char := if exp < 0 then '1' :: List.replicate (-exp).toNat '0' else []
        let nu := if exp < 0 then nu else nu ++ List.replicate exp.toNat '0'
        let n ← bParseM nu
        match n with
        | .error e => .ok (.error (.parseStringWrong, e.2))
        | .ok n =>
          let d ← bParseM de
          match d with
          | .error e => .ok (.error (.parseStringWrong, e.2))
          | .ok d =>
            let r ← rFromFracBig n d
            match r with
            | none => .ok (.error (.parseStringWrong, []))
            | some r => do
              let z ← fFromRat r
              .ok (.ok z)

end RMath
