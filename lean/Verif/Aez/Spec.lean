import Verif.Basic

/-!
# AEZ on integers: the specification of C70

A description of AEZ v4 (Hoang, Krovetz, Rogaway) for a 48-byte key and one empty string of associated data: `encipher` for the parameters used by `Prp` (a nonce
of 16 zero bytes, no authentication bytes) and `encrypt` for nonces and numbers of authentication bytes up to 16. Blocks are integers below 2^128 (most significant byte first), messages are lists of bytes. Nothing here refers to the model of the
code: no memory, no groups of blocks, no order of evaluation. `r` is one AES round without key addition.
-/

namespace Verif.AezSpec

open Verif

/-- Doubling in GF(2^128), x^128 + x^7 + x^2 + x + 1. -/
def double (v : Nat) : Nat := if v < 2 ^ 127 then 2 * v else (2 * v - 2 ^ 128) ^^^ 0x87

/-- `2^e · v`. -/
def shift : Nat → Nat → Nat
  | 0, v => v
  | e + 1, v => double (shift e v)

/-- `n · v` for a number `n` of three bits. -/
def times (n v : Nat) : Nat :=
  (if n % 2 = 1 then v else 0) ^^^ (if n / 2 % 2 = 1 then double v else 0) ^^^ (if n / 4 % 2 = 1 then double (double v) else 0)

/-- The three blocks of the key. -/
structure Key where
  I : Nat
  J : Nat
  L : Nat

def key (k : Bytes) : Key := ⟨beNat (k.take 16), beNat ((k.drop 16).take 16), beNat ((k.drop 32).take 16)⟩

section
variable (r : Nat → Nat) (k : Key)

/-- AES rounds with the given round keys. -/
def aesRounds (x : Nat) (keys : List Nat) : Nat := keys.foldl (fun x k => r x ^^^ k) x

/-- The tweakable block cipher: `E (j, i)`. -/
def Em1 (i x : Nat) : Nat := aesRounds r (x ^^^ times i k.J) [k.I, k.J, k.L, k.I, k.J, k.L, k.I, k.J, k.L, k.I]
def E0 (i x : Nat) : Nat := aesRounds r (x ^^^ times i k.I) [k.J, k.I, k.L, 0]
/-- The offset for `j` = 1, 2. -/
def off (v i : Nat) : Nat := shift (3 + (i - 1) / 8) v ^^^ times ((i - 1) % 8) v
def E1 (i x : Nat) : Nat := aesRounds r (x ^^^ off k.I i) [k.J, k.I, k.L, 0]
def E2 (i x : Nat) : Nat := aesRounds r (x ^^^ off k.I i) [k.L, k.I, k.J, k.L]
/-- For `j` ≥ 3. -/
def offH (j i : Nat) : Nat := shift (j - 3) k.L ^^^ (if i = 0 then 0 else off k.J i)
def EH (j i x : Nat) : Nat := aesRounds r (x ^^^ offH k j i) [k.J, k.I, k.L, offH k j i]

/-- Up to 15 bytes followed by 10…0. -/
def pad10 (u : Bytes) : Nat := beNat (u ++ 0x80 :: List.replicate (15 - u.length) 0)

/-- AEZ-hash of (the number of authentication bits = 0, the nonce = 0, the empty string). -/
def delta : Nat := EH r k 3 1 0 ^^^ EH r k 4 1 0 ^^^ EH r k 5 0 (2 ^ 127)

/-- AEZ-hash of (the number of authentication bits, the nonce, the empty string): a nonce of 16 bytes is a whole block, a shorter one is padded. -/
def deltaN (abytes : Nat) (nonce : Bytes) : Nat :=
  EH r k 3 1 (8 * abytes) ^^^ (if nonce.length = 16 then EH r k 4 1 (beNat nonce) else EH r k 4 0 (pad10 nonce)) ^^^ EH r k 5 0 (2 ^ 127)

/-! In what follows `D` is the hash. -/

variable (D : Nat)

/-! ## AEZ-core, 32 bytes and more -/

/-- The block at byte `o`. -/
def block (M : Bytes) (o : Nat) : Nat := beNat ((M.drop o).take 16)

/-- `⊕ f i` for 1 ≤ `i` ≤ `m`. -/
def xorSum (f : Nat → Nat) : Nat → Nat
  | 0 => 0
  | m + 1 => xorSum f m ^^^ f (m + 1)

/-- The number of pairs of blocks before the last three parts, and the partial parts. -/
def pairs (M : Bytes) : Nat := M.length / 32 - 1
def uPart (M : Bytes) : Bytes := (M.drop (32 * pairs M)).take (min 16 (M.length % 32))
def vPart (M : Bytes) : Bytes := (M.drop (32 * pairs M + 16)).take (M.length % 32 - 16)

/-- The sum of the partial parts. -/
def uvSum (n : Nat) (u v : Bytes) : Nat :=
  if n % 32 = 0 then 0
  else if n % 32 < 16 then E0 r k 4 (pad10 u)
  else E0 r k 4 (beNat u) ^^^ E0 r k 5 (pad10 v)

/-- W and X of pair `i` ≥ 1. -/
def wOf (M : Bytes) (i : Nat) : Nat := block M (32 * (i - 1)) ^^^ E1 r k i (block M (32 * (i - 1) + 16))
def xOf (M : Bytes) (i : Nat) : Nat := block M (32 * (i - 1) + 16) ^^^ E0 r k 0 (wOf r k M i)

/-- The two parts of `S`; `a` = 1 for encryption, 2 for decryption. -/
def sxOf (a : Nat) (M : Bytes) : Nat :=
  block M (M.length - 32) ^^^ D ^^^ (xorSum (xOf r k M) (pairs M) ^^^ uvSum r k M.length (uPart M) (vPart M)) ^^^
    E0 r k a (block M (M.length - 16))
def syOf (a : Nat) (M : Bytes) : Nat := block M (M.length - 16) ^^^ Em1 r k a (sxOf r k D a M)
def sOf (a : Nat) (M : Bytes) : Nat := sxOf r k D a M ^^^ syOf r k D a M

/-- Y, Z and the output blocks of pair `i`. -/
def yOf (a : Nat) (M : Bytes) (i : Nat) : Nat := wOf r k M i ^^^ E2 r k i (sOf r k D a M)
def zOf (a : Nat) (M : Bytes) (i : Nat) : Nat := xOf r k M i ^^^ E2 r k i (sOf r k D a M)
def c1Of (a : Nat) (M : Bytes) (i : Nat) : Nat := yOf r k D a M i ^^^ E0 r k 0 (zOf r k D a M i)
def c0Of (a : Nat) (M : Bytes) (i : Nat) : Nat := zOf r k D a M i ^^^ E1 r k i (c1Of r k D a M i)

/-- The partial parts of the output. -/
def xorBytes (u v : Bytes) : Bytes := List.zipWith (· ^^^ ·) u v
def cuOf (a : Nat) (M : Bytes) : Bytes := xorBytes (uPart M) (beBytes 16 (Em1 r k 4 (sOf r k D a M)))
def cvOf (a : Nat) (M : Bytes) : Bytes := xorBytes (vPart M) (beBytes 16 (Em1 r k 5 (sOf r k D a M)))

/-- The last two blocks; `b` = 3 - `a`. -/
def cyOf (a b : Nat) (M : Bytes) : Nat := sxOf r k D a M ^^^ Em1 r k b (syOf r k D a M)
def cxOf (a b : Nat) (M : Bytes) : Nat :=
  syOf r k D a M ^^^ D ^^^ (xorSum (yOf r k D a M) (pairs M) ^^^ uvSum r k M.length (cuOf r k D a M) (cvOf r k D a M)) ^^^
    E0 r k b (cyOf r k D a b M)

def core (a b : Nat) (M : Bytes) : Bytes :=
  (List.range (pairs M)).flatMap (fun i => beBytes 16 (c0Of r k D a M (i + 1)) ++ beBytes 16 (c1Of r k D a M (i + 1))) ++
    cuOf r k D a M ++ cvOf r k D a M ++ beBytes 16 (cxOf r k D a b M) ++ beBytes 16 (cyOf r k D a b M)

/-! ## AEZ-tiny, 1 to 31 bytes, on the integer of the message -/

/-- The number of Feistel rounds for `n` bytes. -/
def tinyRounds (n : Nat) : Nat := if n = 1 then 24 else if n = 2 then 16 else if n < 16 then 10 else 8

/-- A half (of `4n` bits) followed by 10…0. -/
def padHalf (n x : Nat) : Nat := x * 2 ^ (128 - 4 * n) + 2 ^ (127 - 4 * n)

/-- One round: the new right half is the left one plus the first `4n` bits of the cipher. -/
def tinyRound (n : Nat) (lr : Nat × Nat) (j : Nat) : Nat × Nat :=
  (lr.2, lr.1 ^^^ (E0 r k (if n < 16 then 7 else 6) (D ^^^ padHalf n lr.2 ^^^ j)) / 2 ^ (128 - 4 * n))

/-- The bit added to the first bit of messages shorter than 16 bytes. -/
def tinyBit (n x : Nat) : Nat := if n < 16 then (E0 r k 3 (D ^^^ (x * 2 ^ (128 - 8 * n) ||| 2 ^ 127))) / 2 ^ 127 * 2 ^ (8 * n - 1) else 0

def halvesOf (n x : Nat) : Nat × Nat := (x / 2 ^ (4 * n), x % 2 ^ (4 * n))
def joined (n : Nat) (lr : Nat × Nat) : Nat := lr.2 * 2 ^ (4 * n) + lr.1

def tinyEnc (n x : Nat) : Nat :=
  let y := joined n ((List.range (tinyRounds n)).foldl (tinyRound r k D n) (halvesOf n x))
  y ^^^ tinyBit r k D n y

def tinyDec (n y : Nat) : Nat :=
  let x := y ^^^ tinyBit r k D n y
  joined n ((List.range (tinyRounds n)).reverse.foldl (tinyRound r k D n) (halvesOf n x))

/-! ## The functions -/

def encipherD (M : Bytes) : Bytes :=
  if M.length = 0 then [] else if M.length < 32 then beBytes M.length (tinyEnc r k D M.length (beNat M)) else core r k D 1 2 M

def decipherD (C : Bytes) : Bytes :=
  if C.length = 0 then [] else if C.length < 32 then beBytes C.length (tinyDec r k D C.length (beNat C)) else core r k D 2 1 C

end

section
variable (r : Nat → Nat) (k : Key)

def encipher (M : Bytes) : Bytes := encipherD r k (delta r k) M
def decipher (C : Bytes) : Bytes := decipherD r k (delta r k) C

/-- The authentication tag of the empty message. -/
def prf (abytes : Nat) (nonce : Bytes) : Bytes := (beBytes 16 (Em1 r k 3 (deltaN r k abytes nonce))).take abytes

/-- Encryption: the message followed by zeros is enciphered. -/
def encrypt (abytes : Nat) (nonce M : Bytes) : Bytes :=
  if M = [] then prf r k abytes nonce else encipherD r k (deltaN r k abytes nonce) (M ++ List.replicate abytes 0)

/-- Decryption: nothing for a string that is not an encryption. -/
def decrypt (abytes : Nat) (nonce C : Bytes) : Option Bytes :=
  if C.length < abytes then none
  else if C.length = abytes then if C = prf r k abytes nonce then some [] else none
  else
    let X := decipherD r k (deltaN r k abytes nonce) C
    if X.drop (C.length - abytes) = List.replicate abytes 0 then some (X.take (C.length - abytes)) else none

end

end Verif.AezSpec
