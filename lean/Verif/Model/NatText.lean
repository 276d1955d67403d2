import Verif.Model.NatFun

/-!
# Parsing and printing of `Nat` (`nat.rs`, `nat_macro.rs`)

Strings are lists of characters.  The result type of a parser is `Res (Option α)`: `.ok none` is the error value
`Err(NatError)`, `.error .panic` a panic (for instance an arithmetic overflow).
-/

namespace RMath

/-! ## Parsing -/

/-- `char::is_whitespace` (the Unicode property White_Space), used by `str::trim` -/
def isWhite (c : Char) : Bool :=
  let n := c.toNat
  (9 ≤ n && n ≤ 13) || n == 32 || n == 0x85 || n == 0xa0 || n == 0x1680 || (0x2000 ≤ n && n ≤ 0x200a) ||
  n == 0x2028 || n == 0x2029 || n == 0x202f || n == 0x205f || n == 0x3000

/-- `str::trim` -/
def strTrim (s : List Char) : List Char := ((s.dropWhile isWhite).reverse.dropWhile isWhite).reverse

/-- nat.rs:261-298 `check_base`: number of leading characters to skip, and the base.  (The code counts
characters and slices by bytes; the characters skipped are all one byte long.) -/
def checkBase : Nat → List Char → Option (Nat × Nat)
  | i, c :: cs =>
    if c = '+' ∨ c = ' ' then checkBase (i + 1) cs
    else if '0' ≤ c ∧ c ≤ '9' then
      match cs with
      | x :: _ =>
        if c = '0' then
          if x = 'o' then some (i + 2, 8)
          else if x = 'b' ∨ x = 'B' then some (i + 2, 2)
          else if x = 'x' ∨ x = 'X' then some (i + 2, 16)
          else none
        else some (i, 10)
      | [] => some (i, 10)
    else none
  | _, [] => none

/-- nat.rs:308-313: the characters of a decimal numeral as words -/
def decChars : List Char → Option (List W)
  | [] => some []
  | c :: cs =>
    if '0' ≤ c ∧ c ≤ '9' then (decChars cs).map (BitVec.ofNat 32 (c.toNat - 48) :: ·) else none

/-- nat.rs:316-321: `tmp = nat << 1; nat <<= 3; nat += tmp; nat += digit` for every digit -/
def decLoop : Words → List W → Words
  | nat, [] => nat
  | nat, d :: ds =>
    decLoop (assignNat addInner (assignNat addInner (assignPrim shlInner nat 3) (natShl nat 1)) [d]) ds

/-- nat.rs:300-325 `from_dec_str` -/
def fromDecStr (s : List Char) : Option Words :=
  if s = [] then some NaN
  else
    let s := s.dropWhile (· == '0')
    if s = [] then some [0#32]
    else (decChars s).map (decLoop [0#32])

/-- nat.rs:330-341 and 381-393: the loops of `from_bin_str` and `from_hex_str` over the reversed characters, which
differ in the digit table and in the constants `bits` per digit (1, 4) and `per` digits per word (32, 8).  `j` is
`i & (per - 1)`.  `tmp += …` panics on overflow. -/
def packChars (dig : Char → Option W) (bits per : Nat) : Nat → W → List Char → Res (Option (Words × W))
  | _, tmp, [] => .ok (some ([], tmp))
  | j, tmp, c :: cs =>
    match dig c with
    | none => .ok none
    | some n =>
      if 2 ^ 32 ≤ tmp.toNat + (n <<< (j * bits) : W).toNat then .error .panic
      else
        let tmp := tmp + n <<< (j * bits)
        if j + 1 = per then
          match packChars dig bits per 0 0#32 cs with
          | .ok (some r) => .ok (some (tmp :: r.1, r.2))
          | e => e
        else packChars dig bits per (j + 1) tmp cs

/-- nat.rs:343-345, 370-371, 395-396: the last word is pushed, and `Nat::from` trims. -/
def packFinish (s : List Char) (r : Res (Option (Words × W))) : Res (Option Words) :=
  match r with
  | .error e => .error e
  | .ok none => .ok none
  | .ok (some (v, tmp)) =>
    .ok (some (trim (if tmp > 0#32 then v ++ [tmp] else if s ≠ [] then v ++ [tmp] else v)))

/-- nat.rs:331-333 -/
def binDigit (c : Char) : Option W := if c = '0' then some 0#32 else if c = '1' then some 1#32 else none

/-- nat.rs:327-345 `from_bin_str` -/
def fromBinStr (s : List Char) : Res (Option Words) := packFinish s (packChars binDigit 1 32 0 0#32 s.reverse)

/-- nat.rs:382-385 -/
def hexDigit (c : Char) : Option W :=
  if '0' ≤ c ∧ c ≤ '9' then some (BitVec.ofNat 32 (c.toNat - 48))
  else if 'a' ≤ c ∧ c ≤ 'f' then some (BitVec.ofNat 32 (c.toNat - 97) + 10#32)
  else if 'A' ≤ c ∧ c ≤ 'F' then some (BitVec.ofNat 32 (c.toNat - 65) + 10#32)
  else none

/-- nat.rs:374-397 `from_hex_str` -/
def fromHexStr (s : List Char) : Res (Option Words) := packFinish s (packChars hexDigit 4 8 0 0#32 s.reverse)

/-- nat.rs:352-368: the loop of `from_oct_str`; `i` is the bit position in the current word. -/
def octLoop : Nat → W → List Char → Res (Option (Words × W))
  | _, tmp, [] => .ok (some ([], tmp))
  | i, tmp, c :: cs =>
    if '0' ≤ c ∧ c ≤ '7' then
      let n : W := BitVec.ofNat 32 (c.toNat - 48)
      if i + 3 ≥ 32 then
        let a : W := (((1#32 <<< (32 - i)) - 1#32) &&& n) <<< i
        if 2 ^ 32 ≤ tmp.toNat + a.toNat then .error .panic
        else
          match octLoop (i + 3 - 32) (n >>> (32 - i)) cs with
          | .ok (some r) => .ok (some ((tmp + a) :: r.1, r.2))
          | e => e
      else if 2 ^ 32 ≤ tmp.toNat + (n <<< i : W).toNat then .error .panic
      else octLoop (i + 3) (tmp + n <<< i) cs
    else .ok none

/-- nat.rs:347-372 `from_oct_str` -/
def fromOctStr (s : List Char) : Res (Option Words) := packFinish s (octLoop 0 0#32 s.reverse)

/-- nat.rs:2097-2113 `FromStr` -/
def natParse (s : List Char) : Res (Option Words) :=
  let s := strTrim s
  match checkBase 0 s with
  | none => .ok none
  | some (i, base) =>
    let s := s.drop i
    if base = 2 then fromBinStr s
    else if base = 8 then fromOctStr s
    else if base = 10 then .ok (fromDecStr s)
    else if base = 16 then fromHexStr s
    else .error .panic

/-! ## Printing -/

/-- the digit character of the standard formatter -/
def fmtChar (upper : Bool) (d : Nat) : Char := if upper then (Nat.digitChar d).toUpper else Nat.digitChar d

/-- The standard formatter for a zero-padded fixed-width word (`{:032b}`, `{:08x}`, `{:08X}`): most significant
digit first.  The width is enough for every `u32`. -/
def fmtPad (upper : Bool) (base width : Nat) (w : W) : List Char :=
  (List.range width).reverse.map fun i => fmtChar upper (w.toNat / base ^ i % base)

/-- nat_macro.rs:26-50 (`nat_fmt!`), nat.rs:2115: `Binary`, `LowerHex`, `Debug`, `UpperHex` -/
def natFmt (upper : Bool) (base width : Nat) (pre : List Char) (alternate : Bool) (x : Words) : List Char :=
  if isNan x then "NaN".toList
  else
    let nat := x.reverse.map (fmtPad upper base width)
    let nat :=
      match nat with
      | f :: t =>
        let y := f.dropWhile (· == '0')
        (if y = [] ∧ x.length = 1 then ['0'] else y) :: t
      | [] => []
    (if alternate then pre else []) ++ nat.flatten

/-- `{:b}`, and `{:#b}` with `alternate` -/
def natBinary (alternate : Bool) := natFmt false 2 32 ['0', 'b'] alternate
/-- `{:x}` and `{:?}` -/
def natLowerHex (alternate : Bool) := natFmt false 16 8 ['0', 'x'] alternate
/-- `{:X}` -/
def natUpperHex (alternate : Bool) := natFmt true 16 8 ['0', 'x'] alternate

/-- nat.rs:2144-2147: ten octal digits of a word, least significant first -/
def octTen (w : W) : List Char :=
  (List.range 10).map fun idx => Char.ofNat (((w >>> (idx * 3)) &&& 7#32).toNat + 48)

/-- nat.rs:2125-2148: the loop of `Octal::fmt`; `i` is the word index modulo 3. Characters are pushed least
significant first.  Returns them and the final `pre`. -/
def octPush : Nat → W → Words → List Char × W
  | _, pre, [] => ([], pre)
  | 0, _, e :: es =>
    let r := octPush 1 (e >>> 30) es
    (octTen e ++ r.1, r.2)
  | 1, pre, e :: es =>
    let r := octPush 2 (e >>> 31) es
    (Char.ofNat ((((e &&& 1#32) <<< 2) ||| pre).toNat + 48) :: octTen (e >>> 1) ++ r.1, r.2)
  | _ + 2, pre, e :: es =>
    let r := octPush 0 0#32 es
    (Char.ofNat ((((e &&& 3#32) <<< 1) ||| pre).toNat + 48) :: octTen (e >>> 2) ++ r.1, r.2)

/-- nat.rs:2117-2160 `Octal` -/
def natOctal (alternate : Bool) (x : Words) : List Char :=
  if isNan x then "NaN".toList
  else
    let r := octPush 0 0#32 x
    let s := if r.2 > 0#32 then r.1 ++ [Char.ofNat (r.2.toNat + 48)] else r.1
    let nat := s.reverse.dropWhile (· == '0')
    (if alternate then ['0', 'o'] else []) ++ (if nat = [] ∧ x.length > 0 then ['0'] else nat)

/-- the standard decimal formatter for `u32` -/
def u32Dec (w : W) : List Char := Nat.toDigits 10 w.toNat

/-- nat.rs:2171-2176: the loop of `Display::fmt`; the pieces pushed, least significant first. -/
def displayLoop : Nat → Words → Res (List (List Char))
  | 0, _ => .error .hang
  | fuel + 1, nat =>
    if eqv nat [0#32] then .ok []
    else do
      let rem ← natRem nat [10#32]
      let nat ← assignNatR divInner nat [10#32]
      match rem with
      | [] => .error .panic
      | w :: _ =>
        let r ← displayLoop fuel nat
        .ok (u32Dec w :: r)

/-- nat.rs:2162-2184 `Display`.  The loop divides by 10 each time; the value of the number bounds the number of
iterations. -/
def natDisplay (x : Words) : Res (List Char) :=
  if isNan x then .ok "NaN".toList
  else do
    let ds ← displayLoop (val x + 1) (deepClone x)
    if ds = [] then .ok ['0'] else .ok ds.reverse.flatten

end RMath
