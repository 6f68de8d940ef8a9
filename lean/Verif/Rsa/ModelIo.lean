import Verif.Rsa.ModelTdp
import Verif.Io.Pk

/-!
# Import and export of keys, from the text to the limbs: model of `src/mbedtls/pkparse.c`, `rsa_io.c` and the RSA parts of `asn1parse.c` and `asn1write.c`

`Verif.Io` describes the same functions on the values of the integers.  Here the parser fills the integers of an RSA context and calls the functions of
`rsa.c` on it, and the writer asks `bignum.c` for the bytes of these integers.  A negative return code is `.exc .runtimeError`.
-/

namespace Verif.Rsa

open Verif Verif.Bignum Verif.Io

/-! ## Parsing -/

/-- `mbedtls_asn1_get_mpi`, asn1parse.c 171-186, into an empty integer. -/
def getMpiL (r : Bytes) : Res (Mpi × Bytes) := do
  let a ← getTag r 0x02
  let b ← takeN a.2 a.1
  let x ← toRes .runtimeError (readBinary .null b)
  pure (x, a.2.drop a.1)

/-- `pk_parse_key_pkcs1_der`, pkparse.c 186-262. -/
def parsePkcs1L (key : Bytes) : Res Ctx := do
  let a ← getTag key 0x30
  let v ← getInt (a.2.take a.1)
  if v.1 ≠ 0 then err
  else do
    let n ← getMpiL v.2
    let e ← getMpiL n.2
    let d ← getMpiL e.2
    let p ← getMpiL d.2
    let q ← getMpiL p.2
    let dp ← getMpiL q.2
    let dq ← getMpiL dp.2
    let qp ← getMpiL dq.2
    let c : Ctx := { Ctx.init with len := size n.1, N := n.1, E := e.1, D := d.1, P := p.1, Q := q.1, DP := dp.1, DQ := dq.1, QP := qp.1 }
    if qp.2 ≠ [] then err
    else do
      toRes .runtimeError (checkPriv c)
      pure c

/-- `pk_parse_key_pkcs8_unencrypted_der`, pkparse.c 268-346. -/
def parsePkcs8L (key : Bytes) : Res Ctx := do
  let a ← getTag key 0x30
  let v ← getInt (a.2.take a.1)
  if v.1 ≠ 0 then err
  else do
    let p ← getPkAlg v.2
    let o ← getTag p 0x04
    if o.1 < 1 then err
    else do
      let der ← takeN o.2 o.1
      parsePkcs1L der

/-- The DER formats, pkparse.c 439-457. -/
def parseDerL (key : Bytes) : Res Ctx :=
  match parsePkcs8L key with
  | .ok k => .ok k
  | .ub => .ub
  | .exc _ => match parsePkcs1L key with
    | .ok k => .ok k
    | .ub => .ub
    | .exc _ => err

/-- `mbedtls_pk_parse_key`, pkparse.c 351-458. -/
def parseKeyL (key : Bytes) : Res Ctx := do
  let r ← readPem privHeader privFooter key
  match r with
  | .ok buf _ => parsePkcs1L buf
  | .noHeader => do
    let r ← readPem pkcs8Header pkcs8Footer key
    match r with
    | .ok buf _ => parsePkcs8L buf
    | .noHeader => parseDerL key
    | _ => err
  | _ => err

/-- `pk_get_rsapubkey`, pkparse.c 55-83; `len` is set after the check. -/
def getRsaPubkeyL (r : Bytes) : Res Ctx := do
  let a ← getTag r 0x30
  if a.1 ≠ a.2.length then err
  else do
    let n ← getMpiL a.2
    let e ← getMpiL n.2
    if e.2 ≠ [] then err
    else do
      let c : Ctx := { Ctx.init with N := n.1, E := e.1 }
      toRes .runtimeError (checkPub c)
      pure { c with len := size n.1 }

/-- `mbedtls_pk_parse_subpubkey`, pkparse.c 132-180. -/
def parseSubpubkeyL (r : Bytes) : Res Ctx := do
  let a ← getTag r 0x30
  let p ← getPkAlg (a.2.take a.1)
  let b ← getBits p
  if b.1 ≠ b.2.length then err else getRsaPubkeyL b.2

/-- `mbedtls_pk_parse_public_key`, pkparse.c 463-511. -/
def parsePublicKeyL (key : Bytes) : Res Ctx := do
  let r ← readPem pubHeader pubFooter key
  match r with
  | .ok buf _ => parseSubpubkeyL buf
  | .noHeader => parseSubpubkeyL key
  | _ => err

/-- `TdpImpl_mbedTLS(const std::string& pk)`, tdp_impl_mbedtls.cpp 71-90, with `mbedtls_rsa_parse_public_key`, rsa_io.c 37-61. -/
def importPublicL (pk : Bytes) : Res Ctx := do
  let c ← parsePublicKeyL (pk ++ [0])
  let d ← toRes .runtimeError (freshCopy c)
  toRes .runtimeError (checkPub d)
  pure d

/-- `TdpInverseImpl_mbedTLS(const std::string& sk)`, tdp_impl_mbedtls.cpp 397-443, with `mbedtls_rsa_parse_key`, rsa_io.c 66-91. -/
def importPrivateL (sk : Bytes) : Res Inv := do
  let c ← parseKeyL (sk ++ [0])
  let d ← toRes .runtimeError (freshCopy c)
  mkInv d

/-! ## Writing -/

/-- `mbedtls_asn1_write_mpi`, asn1write.c 132-166. -/
def writeMpiL (w : Wr) (X : Mpi) : Res (Wr × Nat) :=
  let len := size X
  if w.avail < len then err
  else do
    let b ← toRes .runtimeError (writeBinary X len)
    let w ← pushBlock w b
    let a ← writeSign (!X.neg) (w, len)
    writeHeader a 0x02

/-- `pk_write_rsa_pubkey`, rsa_io.c 100-114. -/
def writeRsaPubkeyL (w : Wr) (c : Ctx) : Res (Wr × Nat) := do
  let a ← chkAdd (w, 0) fun w => writeMpiL w c.E
  let a ← chkAdd a fun w => writeMpiL w c.N
  writeHeader a 0x30

/-- `mbedtls_rsa_write_pubkey_der`, rsa_io.c 116-160 (with `mbedtls_rsa_write_pubkey`, 196-205). -/
def writePubkeyDerL (c : Ctx) (size : Nat) : Res (Wr × Nat) := do
  let a ← chkAdd (⟨size, []⟩, 0) fun w => chkAdd (w, 0) fun w => writeRsaPubkeyL w c
  let a ← writeUnused a
  let a ← writeHeader a 0x03
  let a ← chkAdd a fun w => writeAlg w rsaOid
  writeHeader a 0x30

/-- `mbedtls_rsa_write_key_der`, rsa_io.c 207-230. -/
def writeKeyDerL (c : Ctx) (size : Nat) : Res (Wr × Nat) := do
  let a ← chkAdd (⟨size, []⟩, 0) fun w => writeMpiL w c.QP
  let a ← chkAdd a fun w => writeMpiL w c.DQ
  let a ← chkAdd a fun w => writeMpiL w c.DP
  let a ← chkAdd a fun w => writeMpiL w c.Q
  let a ← chkAdd a fun w => writeMpiL w c.P
  let a ← chkAdd a fun w => writeMpiL w c.D
  let a ← chkAdd a fun w => writeMpiL w c.E
  let a ← chkAdd a fun w => writeMpiL w c.N
  let a ← chkAdd a fun w => writeInt w 0
  writeHeader a 0x30

/-- `mbedtls_rsa_write_pubkey_pem`, rsa_io.c 174-194, and `TdpImpl_mbedTLS::public_key`, tdp_impl_mbedtls.cpp 128-147. -/
def publicKeyL (c : Ctx) : Res Bytes := do
  let a ← writePubkeyDerL c pubDerMax
  let der ← lastBytes a.1 a.2
  let r ← pemWrite (pubHeader ++ [0x0a]) (pubFooter ++ [0x0a]) der 5000
  let buf ← Tdp.orThrow .runtimeError r
  cString buf

/-- `mbedtls_rsa_write_key_pem`, rsa_io.c 232-253, and `TdpInverseImpl_mbedTLS::private_key`, tdp_impl_mbedtls.cpp 450-467. -/
def privateKeyL (c : Ctx) : Res Bytes := do
  let a ← writeKeyDerL c prvDerMax
  let der ← lastBytes a.1 a.2
  let r ← pemWrite (privHeader ++ [0x0a]) (privFooter ++ [0x0a]) der 5000
  let buf ← Tdp.orThrow .runtimeError r
  cString buf

end Verif.Rsa
