import Verif.Aez.PropsSpec

/-!
# The AES round (for C70)

The round without key addition as FIPS 197 describes it: SubBytes, ShiftRows, MixColumns on 16 bytes, column after column. `_mm_aesenc_si128` is trusted to
compute it; C70 holds for every function in its place and in particular for this one.
-/

namespace Verif.AesSpec

open Verif

/-- Multiplication by x in GF(2^8), x^8 + x^4 + x^3 + x + 1. -/
def xtime (a : Nat) : Nat := if a < 128 then 2 * a else (2 * a - 256) ^^^ 0x1b

/-- The product of two bytes, by the bits of the second. -/
def mul (a : Nat) : Nat → Nat → Nat
  | 0, _ => 0
  | n + 1, b => (if b % 2 = 1 then a else 0) ^^^ mul (xtime a) n (b / 2)

def gmul (a b : Nat) : Nat := mul a 8 b

/-- The inverse, with 0 for 0: the power 254. -/
def inv (a : Nat) : Nat := (List.range 253).foldl (fun x _ => gmul x a) a

/-- Rotation of a byte to the left. -/
def rotl (a k : Nat) : Nat := (a * 2 ^ k) % 256 + a / 2 ^ (8 - k)

def sboxOf (a : Nat) : Nat :=
  let b := inv a
  b ^^^ rotl b 1 ^^^ rotl b 2 ^^^ rotl b 3 ^^^ rotl b 4 ^^^ 0x63

/-- Row `i`, column `j` of the state. -/
def state (b : Aez.Block) (i j : Nat) : Nat := (b (Fin.ofNat 16 (i + 4 * j))).toNat

/-- SubBytes and ShiftRows. -/
def shifted (b : Aez.Block) (i j : Nat) : Nat := sboxOf (state b i ((j + i) % 4))

/-- MixColumns. -/
def mixed (b : Aez.Block) (i j : Nat) : Nat :=
  gmul (shifted b i j) 2 ^^^ gmul (shifted b ((i + 1) % 4) j) 3 ^^^ shifted b ((i + 2) % 4) j ^^^ shifted b ((i + 3) % 4) j

def round (b : Aez.Block) : Aez.Block := fun k => UInt8.ofNat (mixed b (k.1 % 4) (k.1 / 4))

def ofBytes (l : Bytes) : Aez.Block := fun i => l.getD i.1 0

/-- The first round of the example in FIPS 197, appendix B. -/
example : List.ofFn (round (ofBytes [0x19, 0x3d, 0xe3, 0xbe, 0xa0, 0xf4, 0xe2, 0x2b, 0x9a, 0xc6, 0x8d, 0x2a, 0xe9, 0xf8, 0x48, 0x08])) =
    [0x04, 0x66, 0x81, 0xe5, 0xe0, 0xcb, 0x19, 0x9a, 0x48, 0xf8, 0xd3, 0x7a, 0x28, 0x06, 0x26, 0x4c] := by decide +kernel

example : sboxOf 0 = 0x63 ∧ sboxOf 1 = 0x7c ∧ sboxOf 0x53 = 0xed ∧ sboxOf 0xff = 0x16 := by decide +kernel

end Verif.AesSpec

namespace Verif.Aez

open Verif

/-- C70 with the AES round itself: for every 48-byte key and every string, the two functions are AEZ over AES. -/
theorem c70_aes {key : Bytes} (hk : key.length = 48) (junk : Nat → UInt8) (s : Bytes) (h : s.length ≤ 4294967295) :
    ∃ c, mkPrp true (some key) = .ok c ∧
      prpString AesSpec.round true (some c) junk false s = .ok (AezSpec.encipher (roundNat AesSpec.round) (AezSpec.key key) s) ∧
      prpString AesSpec.round true (some c) junk true s = .ok (AezSpec.decipher (roundNat AesSpec.round) (AezSpec.key key) s) :=
  c70_string (roundNat_eq _) hk junk s h

example : ∃ c, mkPrp true (some exKey48) = .ok c ∧
      prpString AesSpec.round true (some c) (fun _ => 0) false [1, 2, 3] = .ok (AezSpec.encipher (roundNat AesSpec.round) (AezSpec.key exKey48) [1, 2, 3]) ∧
      prpString AesSpec.round true (some c) (fun _ => 0) true [1, 2, 3] = .ok (AezSpec.decipher (roundNat AesSpec.round) (AezSpec.key exKey48) [1, 2, 3]) :=
  c70_aes (by decide) _ _ (by decide)

end Verif.Aez
