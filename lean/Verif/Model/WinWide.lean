import Verif.Model.RandText

/-!
# What the Windows generator hands to the system (`src/os/windows/bcrypt.rs`)

The strings that `BCryptOpenAlgorithmProvider` gets are pointers to the elements of vectors.  A call is modelled by the contents of these vectors.
-/

namespace RMath

/-- the UTF-16 units of a character, as the standard library documents `OsStrExt::encode_wide` -/
def utf16 (c : Char) : List (BitVec 16) :=
  if c.toNat < 0x10000 then [BitVec.ofNat 16 c.toNat]
  else [BitVec.ofNat 16 (0xD800 + (c.toNat - 0x10000) / 0x400), BitVec.ofNat 16 (0xDC00 + (c.toNat - 0x10000) % 0x400)]

/-- `p.encode_wide().collect()` -/
def encodeWide (s : List Char) : List (BitVec 16) := s.flatMap utf16

/-- bcrypt.rs:77-81: the arguments of `BCryptOpenAlgorithmProvider`: the vectors that `pszAlgId` and `pszImplementation` (or null) point into, and the
flags -/
structure OpenCall where
  algId : List (BitVec 16)
  implementation : Option (List (BitVec 16))
  flag : BitVec 32
deriving DecidableEq

/-- bcrypt.rs:16-18, 35-41: the name of `BCRYPT_RNG_ALGORITHM`, the only algorithm -/
def cngName : List Char := "RNG".toList

/-- bcrypt.rs:91-98 `ms_primitive_provider` -/
def msPrimitiveProvider (flag : BitVec 32) : OpenCall :=
  ⟨encodeWide cngName ++ [0#16], some (encodeWide "Microsoft Primitive Provider".toList ++ [0#16]), flag⟩

/-- bcrypt.rs:101-107 `ms_platform_crypto_provider` -/
def msPlatformCryptoProvider (flag : BitVec 32) : OpenCall :=
  ⟨encodeWide cngName ++ [0#16], some (encodeWide "Microsoft Platform Crypto Provider".toList), flag⟩

/-- bcrypt.rs:109-113 `auto_select_provider` -/
def autoSelectProvider (flag : BitVec 32) : OpenCall := ⟨encodeWide cngName ++ [0#16], none, flag⟩

/-- crypto_rand.rs:18-20 `CryptoRand::new`, with the default flags (bcrypt.rs:46-50) -/
def cryptoNewCall : OpenCall := msPrimitiveProvider 0#32

/-- bcrypt.rs:128-132: the number of bytes that `BCryptGenRandom` is asked for, `buf.len() as ULONG` -/
def bytesAsked (buf : List Byte) : BitVec 32 := BitVec.ofNat 32 buf.length

/-- bcrypt.rs:128-138 `gen_random`: whether it is `Ok`, and the buffer afterwards; the system answers with `status` and writes `sys i` to the byte `i`,
for as many bytes as it was asked for.  *Simplified:* a call that fails leaves the buffer as it was. -/
def winGenRandom (buf : List Byte) (status : BitVec 32) (sys : Nat → Byte) : Bool × List Byte :=
  if status = 0#32 then (true, (List.range (bytesAsked buf).toNat).map sys ++ buf.drop (bytesAsked buf).toNat) else (false, buf)

end RMath
