/-
The functions of `src/mbedtls/rsa.c` and of the key import as programs on the storage of big integers.

An `mbedtls_rsa_context` (`src/mbedtls/rsa.h` 65-98) at `k` is the 13 integers
`N = k`, `E = k + 1`, `D = k + 2`, `P = k + 3`, `Q = k + 4`, `DP = k + 5`, `DQ = k + 6`, `QP = k + 7`,
`RN = k + 8`, `RP = k + 9`, `RQ = k + 10`, `Vi = k + 11`, `Vf = k + 12`.
-/
import Verif.Heap.Bignum

namespace Verif.Heap

/-- The integers of a context. -/
def ctx (k : Nat) : List Nat :=
  [k, k + 1, k + 2, k + 3, k + 4, k + 5, k + 6, k + 7, k + 8, k + 9, k + 10, k + 11, k + 12]

/-- `mbedtls_rsa_init`, `src/mbedtls/rsa.c` 63-74. -/
def rsaInit (k : Nat) : Cmd := initAll (ctx k)

/-- `mbedtls_rsa_free`, `src/mbedtls/rsa.c` 599-610. -/
def rsaFree (k : Nat) : Cmd :=
  freeAll [k + 11, k + 12, k + 10, k + 9, k + 8, k + 7, k + 6, k + 5, k + 4, k + 3, k + 2, k + 1, k]

/-- `mbedtls_rsa_gen_key`, `src/mbedtls/rsa.c` 91-163.  Locals `P1, Q1, H, G`. -/
def genKey (giveUp : Bool) (k : Nat) : Cmd :=
  mayFail ;; mayFail ;; .locals 4 fun s => initAll [s, s + 1, s + 2, s + 3] ;;
    .onEnd
      (cleanup
        (lset (k + 1) ;;
         loop1 (genPrime giveUp (k + 3) ;; genPrime giveUp (k + 4) ;; cmp (some (k + 3)) (some (k + 4)) ;;
           .alt .skip (mulMpi k (some (k + 3)) (some (k + 4)) ;; look k ;;
             .alt .skip (cmp (some (k + 3)) (some (k + 4)) ;; opt (swap (k + 3) (k + 4)) ;;
               subInt s (k + 3) ;; subInt (s + 1) (k + 4) ;; mulMpi (s + 2) (some s) (some (s + 1)) ;;
               gcd (s + 3) (k + 1) (s + 2))) ;;
           cmp (some (s + 3)) none) ;;
         invMod (k + 2) (k + 1) (s + 2) ;; modMpi (k + 5) (k + 2) s ;; modMpi (k + 6) (k + 2) (s + 1) ;;
         invMod (k + 7) (k + 4) (k + 3) ;; look k)
        (freeAll [s, s + 1, s + 2, s + 3]))
      .skip (rsaFree k)

/-- `mbedtls_rsa_check_pubkey`, `src/mbedtls/rsa.c` 170-188. -/
def checkPubkey (k : Nat) : Cmd :=
  .ifNull k .fail (.ifNull (k + 1) .fail (get k ;; get (k + 1) ;; mayFail ;; look k ;; mayFail ;;
    look (k + 1) ;; cmp (some (k + 1)) (some k) ;; mayFail))

/-- `mbedtls_rsa_check_privkey`, `src/mbedtls/rsa.c` 193-250.
Locals `PQ, DE, P1, Q1, H, I, G, G2, L1, L2, DP, DQ, QP`. -/
def checkPrivkey (k : Nat) : Cmd :=
  checkPubkey k ;; .ifNull (k + 3) .fail (.ifNull (k + 4) .fail (.ifNull (k + 2) .fail
    (.locals 13 fun s => initAll (ctx s) ;;
      cleanup
        (mulMpi s (some (k + 3)) (some (k + 4)) ;; mulMpi (s + 1) (some (k + 2)) (some (k + 1)) ;;
         subInt (s + 2) (k + 3) ;; subInt (s + 3) (k + 4) ;; mulMpi (s + 4) (some (s + 2)) (some (s + 3)) ;;
         gcd (s + 6) (k + 1) (s + 4) ;; gcd (s + 7) (s + 2) (s + 3) ;;
         divMpi (some (s + 8)) (some (s + 9)) (s + 4) (some (s + 7)) ;; modMpi (s + 5) (s + 1) (s + 8) ;;
         modMpi (s + 10) (k + 2) (s + 2) ;; modMpi (s + 11) (k + 2) (s + 3) ;; invMod (s + 12) (k + 4) (k + 3) ;;
         cmp (some s) (some k) ;; cmp (some (s + 10)) (some (k + 5)) ;; cmp (some (s + 11)) (some (k + 6)) ;;
         cmp (some (s + 12)) (some (k + 7)) ;; cmp (some (s + 9)) none ;; cmp (some (s + 5)) none ;;
         cmp (some (s + 6)) none ;; mayFail)
        (freeAll (ctx s)))))

/-- `mbedtls_rsa_check_pub_priv`, `src/mbedtls/rsa.c` 255-270. -/
def checkPubPriv (pub prv : Nat) : Cmd :=
  checkPubkey pub ;; checkPrivkey prv ;; cmp (some pub) (some prv) ;; cmp (some (pub + 1)) (some (prv + 1)) ;; mayFail

/-- `mbedtls_rsa_public`, `src/mbedtls/rsa.c` 275-314.  Local `T`. -/
def rsaPublic (k : Nat) : Cmd :=
  .locals 1 fun t => initAll [t] ;;
    cleanup
      (readBinary t ;; cmp (some t) (some k) ;; mayFail ;; expMod t t (k + 1) k (some (k + 8)) ;; writeBinary t)
      (freeAll [t])

/-- `rsa_prepare_blinding`, `src/mbedtls/rsa.c` 322-354. -/
def prepareBlinding (k : Nat) : Cmd :=
  .ifNull (k + 12)
    (loop1 (mayFail ;; fillRandom (k + 12) ;; gcd (k + 11) (k + 12) k ;; cmp (some (k + 11)) none) ;;
     invMod (k + 11) (k + 12) k ;; expMod (k + 11) (k + 11) (k + 1) k (some (k + 8)))
    (mulMpi (k + 11) (some (k + 11)) (some (k + 11)) ;; modMpi (k + 11) (k + 11) k ;;
     mulMpi (k + 12) (some (k + 12)) (some (k + 12)) ;; modMpi (k + 12) (k + 12) k)

/-- `mbedtls_rsa_private`, `src/mbedtls/rsa.c` 388-517: up to the label `cleanup`.
`T = s`, `T1 = s + 1`, `T2 = s + 2`, `P1 = s + 3`, `Q1 = s + 4`, `R = s + 5`, `DP_blind = s + 6`, `DQ_blind = s + 7`;
`rng`: whether `f_rng` is given. -/
def rsaPrivateMain (rng : Bool) (k s : Nat) : Cmd :=
  readBinary s ;; cmp (some s) (some k) ;; mayFail ;;
  (if rng then
    prepareBlinding k ;; mulMpi s (some s) (some (k + 11)) ;; modMpi s s k ;;
    subInt (s + 3) (k + 3) ;; subInt (s + 4) (k + 4) ;;
    fillRandom (s + 5) ;; mulMpi (s + 6) (some (s + 3)) (some (s + 5)) ;; addMpi (s + 6) (some (s + 6)) (some (k + 5)) ;;
    fillRandom (s + 5) ;; mulMpi (s + 7) (some (s + 4)) (some (s + 5)) ;; addMpi (s + 7) (some (s + 7)) (some (k + 6))
   else .skip) ;;
  expMod (s + 1) s (if rng then s + 6 else k + 5) (k + 3) (some (k + 9)) ;;
  expMod (s + 2) s (if rng then s + 7 else k + 6) (k + 4) (some (k + 10)) ;;
  subMpi s (some (s + 1)) (some (s + 2)) ;; mulMpi (s + 1) (some s) (some (k + 7)) ;; modMpi s (s + 1) (k + 3) ;;
  mulMpi (s + 1) (some s) (some (k + 4)) ;; addMpi s (some (s + 2)) (some (s + 1)) ;;
  (if rng then mulMpi s (some s) (some (k + 12)) ;; modMpi s s k else .skip) ;;
  writeBinary s

/-- `mbedtls_rsa_private`, `src/mbedtls/rsa.c` 380-557.  Lines 542-543 erase `DP_blind` twice and `DQ_blind` not. -/
def rsaPrivate (rng : Bool) (k : Nat) : Cmd :=
  .ifNull (k + 3) .fail (.ifNull (k + 4) .fail (.ifNull (k + 2) .fail
    (if rng then
      .locals 8 fun s => initAll [s, s + 1, s + 2, s + 3, s + 4, s + 5, s + 6, s + 7] ;;
        cleanup (rsaPrivateMain true k s)
          (.ign (lset s) ;; .ign (lset (s + 1)) ;; .ign (lset (s + 2)) ;; .ign (lset (s + 3)) ;; .ign (lset (s + 4)) ;;
           .ign (lset (s + 5)) ;; freeAll [s, s + 1, s + 2, s + 3, s + 4, s + 5] ;;
           .ign (lset (s + 6)) ;; .ign (lset (s + 6)) ;; freeAll [s + 6, s + 7])
     else
      .locals 6 fun s => initAll [s, s + 1, s + 2, s + 3, s + 4, s + 5] ;;
        cleanup (rsaPrivateMain false k s)
          (.ign (lset s) ;; .ign (lset (s + 1)) ;; .ign (lset (s + 2)) ;; .ign (lset (s + 3)) ;; .ign (lset (s + 4)) ;;
           .ign (lset (s + 5)) ;; freeAll [s, s + 1, s + 2, s + 3, s + 4, s + 5]))))

/-- `mbedtls_rsa_copy`, `src/mbedtls/rsa.c` 562-594. -/
def rsaCopy (d k : Nat) : Cmd :=
  .onEnd
    (copy d k ;; copy (d + 1) (k + 1) ;; copy (d + 2) (k + 2) ;; copy (d + 3) (k + 3) ;; copy (d + 4) (k + 4) ;;
     copy (d + 5) (k + 5) ;; copy (d + 6) (k + 6) ;; copy (d + 7) (k + 7) ;; copy (d + 8) (k + 8) ;;
     copy (d + 9) (k + 9) ;; copy (d + 10) (k + 10) ;; copy (d + 11) (k + 11) ;; copy (d + 12) (k + 12))
    .skip (rsaFree d)

/-! ### Import of keys

`mbedtls_pk_context`: the 13 integers of the context that `rsa_alloc_wrap` allocates are at `k`; the block of the
context itself is held by the variable `h` (`ctx->pk_ctx`; `ctx->pk_info` is `NULL` exactly when `pk_ctx` is).  The
integers are `NULL` as long as there is no block (they are initialised at the beginning of the scope, nothing is done
with them before `mbedtls_pk_setup`, and `mbedtls_rsa_free` leaves them `NULL`), so `mbedtls_pk_free` may be written
without the test of `pk_info`.  The block is released after `mbedtls_rsa_free` has made all its integers `NULL`, so
nothing is left in it: its release is written `free`.  A buffer of length 0 is no buffer. -/

/-- `mbedtls_pk_setup`, `src/mbedtls/pk.c` 99-109, and `rsa_alloc_wrap`, `src/mbedtls/pk_wrap.c` 62-70. -/
def pkSetup (h : Nat) : Cmd := .ifNull h (grow h) .fail

/-- `mbedtls_pk_free`, `src/mbedtls/pk.c` 64-72, and `rsa_free_wrap`, `src/mbedtls/pk_wrap.c` 72-76. -/
def pkFree (h k : Nat) : Cmd := rsaFree k ;; free h

/-- `mbedtls_asn1_get_mpi`, `src/mbedtls/asn1parse.c` 171-186. -/
def getMpi (x : Nat) : Cmd := mayFail ;; readBinary x

/-- `pk_get_rsapubkey`, `src/mbedtls/pkparse.c` 55-84. -/
def getRsapubkey (k : Nat) : Cmd :=
  mayFail ;; mayFail ;; getMpi k ;; getMpi (k + 1) ;; mayFail ;; checkPubkey k ;; look k

/-- `mbedtls_pk_parse_subpubkey`, `src/mbedtls/pkparse.c` 133-181. -/
def parseSubpubkey (h k : Nat) : Cmd :=
  mayFail ;; mayFail ;; mayFail ;; mayFail ;; pkSetup h ;; .onEnd (getRsapubkey k ;; mayFail) .skip (pkFree h k)

/-- `pk_parse_key_pkcs1_der`, `src/mbedtls/pkparse.c` 187-267. -/
def pkcs1Der (k : Nat) : Cmd :=
  mayFail ;; mayFail ;; mayFail ;;
  .onEnd
    (getMpi k ;; getMpi (k + 1) ;; getMpi (k + 2) ;; getMpi (k + 3) ;; getMpi (k + 4) ;; getMpi (k + 5) ;;
     getMpi (k + 6) ;; getMpi (k + 7) ;; look k ;; mayFail ;; checkPrivkey k)
    .skip (rsaFree k)

/-- `pk_parse_key_pkcs8_unencrypted_der`, `src/mbedtls/pkparse.c` 273-348. -/
def pkcs8Der (h k : Nat) : Cmd :=
  mayFail ;; mayFail ;; mayFail ;; mayFail ;; mayFail ;; mayFail ;; pkSetup h ;; .onEnd (pkcs1Der k) .skip (pkFree h k)

/-- `mbedtls_pem_read_buffer`, `src/mbedtls/pem.c` 58-122: the result is in the buffer `b`.  When the second
`mbedtls_base64_decode` fails the buffer is released by `free` (115). -/
def pemRead (b : Nat) : Cmd := mayFail ;; grow b ;; setW b ;; .alt .skip (rawFree b ;; .fail)

/-- `mbedtls_pem_free`, `src/mbedtls/pem.c` 124-130 (`info` is always `NULL`). -/
def pemFree (b : Nat) : Cmd := rawFree b

/-- `mbedtls_pk_parse_key`, `src/mbedtls/pkparse.c` 353-454.  The local `pem` is the buffer `b`.  Each call of
`mbedtls_pem_read_buffer` either is not made or fails without a result (then the next format is tried or the function
ends), or it succeeds and the function ends in that branch.  `mbedtls_pk_free` after `pk_parse_key_pkcs8_unencrypted_der`
leaves `pk_ctx == NULL` exactly when that function failed.  Lines 443-447: when `mbedtls_pk_setup` fails the function
returns 0. -/
def parseKey (h k : Nat) : Cmd :=
  .locals 1 fun b => initAll [b] ;;
    cleanup
      (.alt .skip (.ign (pemRead b)) ;;
       .ifNull b
        (mayFail ;; .alt .skip (.ign (pemRead b)) ;;
         .ifNull b
          (mayFail ;; .ign (.onEnd (pkcs8Der h k) .skip (pkFree h k)) ;;
           .ifNull h (.ign (pkSetup h) ;; .ifNull h .skip (.onEnd (pkcs1Der k) .skip (pkFree h k))) .skip)
          (.onEnd (pkcs8Der h k) .skip (pkFree h k)))
        (.onEnd (pkSetup h ;; pkcs1Der k) .skip (pkFree h k)))
      (pemFree b)

/-- `mbedtls_pk_parse_public_key`, `src/mbedtls/pkparse.c` 459-509. -/
def parsePublicKey (h k : Nat) : Cmd :=
  .locals 1 fun b => initAll [b] ;;
    cleanup (.alt .skip (.ign (pemRead b) ;; .ifNull b mayFail .skip) ;; parseSubpubkey h k) (pemFree b)

/-- `mbedtls_rsa_parse_public_key`, `src/mbedtls/rsa_io.c` 37-61; the result of `mbedtls_rsa_copy` is ignored. -/
def rsaParsePublicKey (d : Nat) : Cmd :=
  .locals 14 fun s => initAll (ctx s ++ [s + 13]) ;;
    cleanup (parsePublicKey (s + 13) s ;; .ifNull (s + 13) .fail (.ign (rsaCopy d s))) (pkFree (s + 13) s)

/-- `mbedtls_rsa_parse_key`, `src/mbedtls/rsa_io.c` 66-92; the result of `mbedtls_rsa_copy` is ignored. -/
def rsaParseKey (d : Nat) : Cmd :=
  .locals 14 fun s => initAll (ctx s ++ [s + 13]) ;;
    cleanup (parseKey (s + 13) s ;; .ifNull (s + 13) .fail (.ign (rsaCopy d s))) (pkFree (s + 13) s)

/-- `mbedtls_asn1_write_mpi`, `src/mbedtls/asn1write.c` 131-166. -/
def writeMpi (x : Nat) : Cmd := look x ;; mayFail ;; writeBinary x ;; mayFail

/-- `mbedtls_pem_write_buffer`, `src/mbedtls/pem.c` 134-183: `encode_buf` is released by `free` (181). -/
def pemWrite : Cmd :=
  .locals 1 fun b => initAll [b] ;; cleanup (mayFail ;; grow b ;; setW b ;; mayFail) (rawFree b)

/-- `mbedtls_rsa_write_pubkey_pem`, `src/mbedtls/rsa_io.c` 96-187. -/
def writePubkeyPem (k : Nat) : Cmd := writeMpi (k + 1) ;; writeMpi k ;; mayFail ;; pemWrite

/-- `mbedtls_rsa_write_key_pem`, `src/mbedtls/rsa_io.c` 201-253. -/
def writeKeyPem (k : Nat) : Cmd :=
  writeMpi (k + 7) ;; writeMpi (k + 6) ;; writeMpi (k + 5) ;; writeMpi (k + 4) ;; writeMpi (k + 3) ;;
  writeMpi (k + 2) ;; writeMpi (k + 1) ;; writeMpi k ;; mayFail ;; pemWrite

end Verif.Heap
