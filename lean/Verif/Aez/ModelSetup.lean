import Verif.Aez.ModelArm

/-!
# `aez_setup` for keys of any length (`src/aez/aez.c` 271-295), on both processors

`B` stands for `crypto_generichash_blake2b` with an output of 48 bytes and no key (libsodium, not part of the repository); nothing is assumed about it but
that it writes 48 bytes. The context is the structure of aez.h 31-36; the hash is written over its first 48 bytes, which are `I[0]`, `I[1]`, `I[2]`.
-/

namespace Verif.Aez

open Verif

/-- The first half of `aez_setup`, aez.c 274-287, with `c` for what the context contains before. -/
def setupLoad (B : Bytes → Nat → UInt8) (key : Buf) (keylen : Nat) (c : Ctx) : Res Ctx :=
  if keylen = 48 then do
    let i0 ← ld key 0
    let j0 ← ld key 16
    let l ← ld key 32
    pure { c with I0 := i0, J0 := j0, L := l }
  else if keylen ≤ key.size then
    let h := B ((List.range keylen).map key.data)
    let c := { c with I0 := blk h 0, I1 := blk h 16, I2 := blk h 32 }
    let c := { c with J0 := c.I1 }
    .ok { c with L := c.I2 }
  else .ub

/-- The second half, aez.c 288-294. -/
def setupFill (c : Ctx) : Ctx :=
  let tmp := dbl (bswap c.I0)
  let c := { c with I1 := bswap tmp }
  let tmp := dbl tmp
  let c := { c with I2 := bswap tmp }
  let tmp := dbl (bswap c.J0)
  let c := { c with J1 := bswap tmp }
  let tmp := dbl tmp
  { c with J2 := bswap tmp }

/-- `aez_setup`, aez.c 271-295. -/
def setupAny (B : Bytes → Nat → UInt8) (key : Buf) (keylen : Nat) (c : Ctx) : Res Ctx := setupFill <$> setupLoad B key keylen c

/-- The second half with the helpers for ARMv8. -/
def Arm.setupFill (c : Ctx) : Ctx :=
  let tmp := Arm.dbl (Arm.bswap c.I0)
  let c := { c with I1 := Arm.bswap tmp }
  let tmp := Arm.dbl tmp
  let c := { c with I2 := Arm.bswap tmp }
  let tmp := Arm.dbl (Arm.bswap c.J0)
  let c := { c with J1 := Arm.bswap tmp }
  let tmp := Arm.dbl tmp
  { c with J2 := Arm.bswap tmp }

/-- `aez_setup` with the helpers for ARMv8; the first half uses none of them but `loadu`. -/
def Arm.setupAny (B : Bytes → Nat → UInt8) (key : Buf) (keylen : Nat) (c : Ctx) : Res Ctx := Arm.setupFill <$> setupLoad B key keylen c

end Verif.Aez
