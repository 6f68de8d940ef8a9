import Verif.Basic
import Verif.Mac.Model
import Mathlib.Algebra.Module.Basic
import Mathlib.Data.Nat.Digits.Defs

/-!
# Model of the puncturable encryption: `src/puncturable_enc.cpp`, `src/include/sse/crypto/puncturable_enc.hpp`,
`src/ppke/GMPpke.cpp`, `src/ppke/GMPpke.hpp`, `src/ppke/util.hpp`, `src/ppke/relic_wrapper/relic_api.{h,cpp}`

The library RELIC is not modelled: the three groups, the pairing, the encodings, SHA-256 and `bn_gcd_ext` are parameters (`Grp`), whose laws
are in `Grp.Ok` (Spec.lean).  All three groups are written additively.  Scalars (`ZR`) are integers, as `bn_t`; the reductions of the
wrapper are modelled operation by operation.  The PRF is a function of the label (see C17); random scalars are arguments.

`asserts` says whether the code is built with assertions (without `NDEBUG`); a failed assertion is `.ub`.
-/

namespace Verif.Ppke

open Verif

/-- The external primitives. -/
structure Grp (G1 G2 GT : Type) where
  /-- the order of the groups -/
  r : Nat
  /-- `g1_get_gen` -/
  g1 : G1
  /-- `g2_get_gen` -/
  g2 : G2
  /-- `gt_get_gen` -/
  gT : GT
  /-- `pp_map_oatep_k12` -/
  pair : G1 → G2 → GT
  /-- `bn_gcd_ext(s, c, nullptr, a, order)`: the cofactor `c` -/
  cofactor : Int → Int
  /-- `md_map_sh256` -/
  sha : Bytes → Bytes
  /-- `g1_write_bin` (compressed, `g1_size_bin` bytes) and `g1_read_bin` -/
  enc1 : G1 → Bytes
  dec1 : Bytes → Res G1
  /-- `g2_write_bin` (compressed, `g2_size_bin` bytes) and `g2_read_bin` -/
  enc2 : G2 → Bytes
  dec2 : Bytes → Res G2
  /-- `gt_write_bin` (uncompressed) -/
  encT : GT → Bytes
  /-- the hash function under `HMac<Hash, 16>` -/
  H : Bytes → Bytes
  /-- uninitialised memory -/
  junk : Nat → UInt8

variable {G1 G2 GT : Type} [AddCommGroup G1] [AddCommGroup G2] [AddCommGroup GT]

section Scalars

variable (G : Grp G1 G2 GT)

/-! ## Scalars: relic_api.cpp -/

/-- `operator+`, relic_api.cpp 92-98. -/
def zadd (x y : Int) : Int := (x + y) % G.r

/-- `operator-`, relic_api.cpp 100-111. -/
def zsub (x y : Int) : Int := if x - y < 0 then x - y + G.r else (x - y) % G.r

/-- Unary `operator-`, relic_api.cpp 113-121. -/
def zneg (x : Int) : Int := if -x < 0 then -x + G.r else -x

/-- `operator*`, relic_api.cpp 124-135. -/
def zmul (x y : Int) : Int := if x * y < 0 then x * y + G.r else x * y % G.r

/-- `invertZR`, relic_api.cpp 28-39. -/
def zinv (a : Int) : Int := if G.cofactor a < 0 then G.cofactor a + G.r else G.cofactor a

/-- `operator/`, relic_api.cpp 137-145: RelicDividByZero is a `std::logic_error`. -/
def zdiv (x y : Int) : Res Int := if y = 0 then .exc .logicError else .ok (zmul G x (zinv G y))

/-- `hashToZR`, relic_api.cpp 162-182. -/
def hashToZR (b : Bytes) : Int :=
  let z : Int := beNat (G.sha (0x01 :: b))
  if z > G.r then z % G.r else z

/-- `PairingGroup::randomZR`, relic_api.cpp 702-709: `x` is what `bn_rand` returns. -/
def randomZR (x : Nat) : Int := (x : Int) % G.r

/-- `PairingGroup::pseudoRandomZR`, relic_api.cpp 711-721. -/
def pseudoRandomZR (prf : Bytes → Bytes) (seed : Bytes) : Int := (beNat (prf seed) : Int) % G.r

/-- `power(const GT&, const ZR&)`, relic_api.cpp 546-560. -/
def powGT (g : GT) (z : Int) : GT := if z = -1 then -g else z • g

/-! ## Lagrange interpolation: util.hpp -/

/-- One step of the loop of `LagrangeBasisCoefficients`, util.hpp 20-37. -/
def lagrangeStep (j : Nat) (x : Int) (xs : List Int) (m : Nat) (prod : Int) : Res Int :=
  if j ≠ m then
    match xs[m]?, xs[j]? with
    | some xm, some xj => do
      let i ← zdiv G (zsub G x xm) (zsub G xj xm)
      pure (zmul G prod i)
    | _, _ => .exc .outOfRange
  else .ok prod

/-- `LagrangeBasisCoefficients<2>`, util.hpp 12-39. -/
def lagrange (j : Nat) (x : Int) (xs : List Int) : Res Int := do
  let p ← lagrangeStep G j x xs 0 1
  lagrangeStep G j x xs 1 p

/-- `LagrangeInterpInExponent<type, 2>`, util.hpp 47-63. -/
def interpExp {A : Type} [AddCommGroup A] (x : Int) (xs : List Int) (y0 y1 : A) : Res A := do
  let c0 ← lagrange G 0 x xs
  let c1 ← lagrange G 1 x xs
  pure (0 + c0 • y0 + c1 • y1)

/-! ## Labels of the PRF -/

/-- `std::to_string(size_t)`. -/
def decimal (d : Nat) : Bytes := if d = 0 then [0x30] else ((Nat.digits 10 d).map fun k => UInt8.ofNat (0x30 + k)).reverse

/-- `"param_alpha"`, GMPpke.cpp 92, 116. -/
def lblAlpha : Bytes := "param_alpha".toUTF8.toList
/-- `"param_beta"`, GMPpke.cpp 97, 117. -/
def lblBeta : Bytes := "param_beta".toUTF8.toList
/-- `"param_ry"`, GMPpke.cpp 118. -/
def lblRy : Bytes := "param_ry".toUTF8.toList
/-- `"param_r"`, GMPpke.cpp 225. -/
def lblR : Bytes := "param_r".toUTF8.toList
/-- `"param_rho_" + d`, GMPpke.cpp 253, 262. -/
def lblRho (d : Nat) : Bytes := "param_rho_".toUTF8.toList ++ decimal d
/-- `"param_l_" + d`, GMPpke.cpp 267, 296, 299. -/
def lblL (d : Nat) : Bytes := "param_l_".toUTF8.toList ++ decimal d
/-- `"param_r1_" + d`, GMPpke.cpp 294. -/
def lblR1 (d : Nat) : Bytes := "param_r1_".toUTF8.toList ++ decimal d

/-! ## Keys: GMPpke.cpp -/

/-- `Gmppke::NULLTAG`, GMPpke.cpp 22-36 (the last element is zero-initialised). -/
def nullTag : Bytes := [0x00, 0x01, 0x02, 0x03, 0x04, 0x05, 0x06, 0x07, 0x08, 0x10, 0x11, 0x12, 0x13, 0x14, 0x15, 0x00]

/-- `GmppkeSecretParameters`, GMPpke.hpp 183-203. -/
structure Params where
  alpha : Int
  beta : Int
  ry : Int

/-- `Gmppke::paramgen`, GMPpke.cpp 113-119. -/
def paramgen (prf : Bytes → Bytes) : Params :=
  { alpha := pseudoRandomZR G prf lblAlpha
    beta := pseudoRandomZR G prf lblBeta
    ry := pseudoRandomZR G prf lblRy }

end Scalars

/-- `GmppkePrivateKeyShare`, GMPpke.hpp 101-148. -/
structure Share (G2 : Type) where
  sk1 : G2
  sk2 : G2
  sk3 : G2
  sk4 : Bytes

/-- `GmppkePublicKey`, GMPpke.hpp 56-99. -/
structure Public (G1 G2 : Type) where
  gG1 : G1
  gG2 : G2
  g2G1 : G1
  g2G2 : G2
  ppkeg1 : G2
  qG1 : G1 × G1
  qG2 : G2 × G2

variable (G : Grp G1 G2 GT)

/-- `Gmppke::skgen(sp)` for the random scalar `rr` (also `skgen(prf, sp)`, where it is pseudo-random), GMPpke.cpp 199-237. -/
def skgen (sp : Params) (rr : Int) : Share G2 :=
  let sk1 := zmul G sp.beta (zadd G rr sp.alpha) • G.g2
  let h := hashToZR G nullTag
  let sk3 := rr • G.g2
  let sk2 := zadd G sp.beta (zmul G h sp.ry) • sk3
  ⟨sk1, sk2, sk3, nullTag⟩

/-- The public key of `keygen` and `keygenPartial`, GMPpke.cpp 53-162. -/
def publicKey (sp : Params) : Public G1 G2 :=
  let g2G1 := sp.beta • G.g1
  let g2G2 := sp.beta • G.g2
  { gG1 := G.g1, gG2 := G.g2, g2G1 := g2G1, g2G2 := g2G2, ppkeg1 := sp.alpha • G.g2
    qG1 := (g2G1, sp.ry • G.g1 + g2G1), qG2 := (g2G2, sp.ry • G.g2 + g2G2) }

/-- `Gmppke::keygen` from random scalars, GMPpke.cpp 53-74: public key and shares. -/
def keygen (alpha beta ry rr : Nat) : Public G1 G2 × List (Share G2) × Params :=
  let sp : Params := ⟨randomZR G alpha, randomZR G beta, randomZR G ry⟩
  (publicKey G sp, [skgen G sp (randomZR G rr)], sp)

/-- `Gmppke::keygen` from a PRF, GMPpke.cpp 85-111. -/
def keygenPrf (prf : Bytes → Bytes) : Public G1 G2 × List (Share G2) × Params :=
  let sp := paramgen G prf
  (publicKey G sp, [skgen G sp (pseudoRandomZR G prf lblR)], sp)

/-- `Gmppke::sk0Gen`, GMPpke.cpp 239-278. -/
def sk0Gen (prf : Bytes → Bytes) (sp : Params) (d : Nat) : Share G2 :=
  let h := hashToZR G nullTag
  if d = 0 then
    let rr := pseudoRandomZR G prf "param_rho_0".toUTF8.toList
    let sk3 := rr • G.g2
    ⟨zmul G sp.beta (zadd G rr sp.alpha) • G.g2, zadd G sp.beta (zmul G h sp.ry) • sk3, sk3, nullTag⟩
  else
    let rho := pseudoRandomZR G prf (lblRho d)
    let l := pseudoRandomZR G prf (lblL d)
    let sk3 := rho • G.g2
    ⟨zmul G sp.beta (zsub G rho l) • G.g2, zadd G sp.beta (zmul G h sp.ry) • sk3, sk3, nullTag⟩

/-- `l_{d-1}` in `skShareGen`, GMPpke.cpp 297-300. -/
def prevL (prf : Bytes → Bytes) (sp : Params) (d : Nat) : Int :=
  if d > 1 then pseudoRandomZR G prf (lblL (d - 1)) else zneg G sp.alpha

/-- `Gmppke::skShareGen`, GMPpke.cpp 280-308. -/
def skShareGen (asserts : Bool) (prf : Bytes → Bytes) (sp : Params) (d : Nat) (tag : Bytes) : Res (Share G2) :=
  if asserts && (d == 0 || tag == nullTag) then .ub
  else
    let h := hashToZR G tag
    let r1 := pseudoRandomZR G prf (lblR1 d)
    let l := pseudoRandomZR G prf (lblL d)
    let sk3 := r1 • G.g2
    .ok ⟨zmul G sp.beta (zadd G (zsub G l (prevL G prf sp d)) r1) • G.g2, zadd G sp.beta (zmul G h sp.ry) • sk3, sk3, tag⟩

/-- `Gmppke::vx`, GMPpke.hpp 433-441. -/
def vx {A : Type} [AddCommGroup A] (q : A × A) (tag : Bytes) : Res A := interpExp G (hashToZR G tag) [0, 1] q.1 q.2

/-- `Gmppke::puncture`, GMPpke.cpp 311-345, with the three random scalars. -/
def puncture (asserts : Bool) (pk : Public G1 G2) (sk : List (Share G2)) (tag : Bytes) (x0 x1 xl : Nat) : Res (List (Share G2)) :=
  if tag = nullTag then .exc .invalidArgument
  else match sk with
    | [] => .exc .outOfRange
    | e0 :: rest =>
      let r0 := randomZR G x0
      let r1 := randomZR G x1
      let lambda := randomZR G xl
      if asserts && e0.sk4 != nullTag then .ub
      else do
        let v0 ← vx G pk.qG2 nullTag
        let v1 ← vx G pk.qG2 tag
        pure (⟨e0.sk1 + zsub G r0 lambda • pk.g2G2, e0.sk2 + r0 • v0, e0.sk3 + r0 • pk.gG2, e0.sk4⟩ :: rest ++
          [⟨zadd G r1 lambda • pk.g2G2, r1 • v1, r1 • pk.gG2, tag⟩])

/-! ## Encryption -/

/-- `GmmppkeCT<uint64_t>`, GMPpke.hpp 205-291. -/
structure Ct (G1 : Type) where
  ct1 : Nat
  ct2 : G1
  ct3 : G1
  tag : Bytes

/-- `Gmppke::blind(pk, s, tag)`, GMPpke.cpp 347-363. -/
def blindPk (pk : Public G1 G2) (s : Int) (tag : Bytes) : Res (G1 × G1) :=
  if tag = nullTag then .exc .invalidArgument
  else do
    let v ← vx G pk.qG1 tag
    pure (s • pk.gG1, s • v)

/-- `Gmppke::blind(sp, s, tag)`, GMPpke.cpp 365-384. -/
def blindSp (sp : Params) (s : Int) (tag : Bytes) : Res (G1 × G1) :=
  if tag = nullTag then .exc .invalidArgument
  else
    let ct2 := s • G.g1
    .ok (ct2, zadd G sp.beta (zmul G (hashToZR G tag) sp.ry) • ct2)

/-- `12 * RLC_FP_BYTES`. -/
def gtSize : Nat := 12 * 32

/-- `GT::getBytes(false, 12 * RLC_FP_BYTES, out)`, relic_api.cpp 604-617, for encodings of at most this size. -/
def gtArray (x : GT) : Bytes := G.encT x ++ List.replicate (gtSize - (G.encT x).length) 0

/-- The mask, GMPpke.hpp 341-350, 364-376, 411-419: HMAC with the tag as key, 8 bytes, as a little-endian number. -/
def mask (tag gt : Bytes) : Res Nat := leNat <$> Mac.hmac G.H G.junk 16 (some tag) (some gt) false 8

/-- `Gmppke::encrypt(sp, M, tag)`, GMPpke.hpp 355-380; `x` is the random number. -/
def encryptSp (sp : Params) (x : Nat) (m : Nat) (tag : Bytes) : Res (Ct G1) := do
  let s := randomZR G x
  let b ← blindSp G sp s tag
  let k ← mask G tag (gtArray G (powGT G.gT (zmul G (zmul G sp.alpha sp.beta) s)))
  pure ⟨k ^^^ m, b.1, b.2, tag⟩

/-- `Gmppke::encrypt(pk, M, tag)`, GMPpke.hpp 327-353. -/
def encryptPk (pk : Public G1 G2) (x : Nat) (m : Nat) (tag : Bytes) : Res (Ct G1) := do
  let s := randomZR G x
  let b ← blindPk G pk s tag
  let k ← mask G tag (gtArray G (powGT (G.pair pk.g2G1 pk.ppkeg1) s))
  pure ⟨k ^^^ m, b.1, b.2, tag⟩

/-! ## Decryption -/

/-- The factor of one share, GMPpke.cpp 402-420. -/
def shareFactor (sh : Share G2) (ct : Ct G1) : Res GT := do
  let c := hashToZR G ct.tag
  let cur := hashToZR G sh.sk4
  let w0 ← lagrange G 0 0 [c, cur]
  let ws ← lagrange G 1 0 [c, cur]
  let ct3prod := (0 : G1) + w0 • ct.ct3
  pure (G.pair ct.ct2 sh.sk1 - (G.pair ct3prod sh.sk3 + G.pair (ws • ct.ct2) sh.sk2))

/-- The factors of all shares, GMPpke.cpp 401-421. -/
def factors : List (Share G2) → Ct G1 → Res (List GT)
  | [], _ => .ok []
  | s :: r, ct => do
    let z ← shareFactor G s ct
    let zs ← factors r ct
    pure (z :: zs)

/-- `Gmppke::recoverBlind`, GMPpke.cpp 387-429. -/
def recoverBlind (sk : List (Share G2)) (ct : Ct G1) : Res GT := do
  let zs ← factors G sk ct
  pure (zs.foldl (· + ·) 0)

/-- `Gmppke::decrypt_unchecked`, GMPpke.hpp 404-422. -/
def decryptUnchecked (sk : List (Share G2)) (ct : Ct G1) : Res Nat := do
  let z ← recoverBlind G sk ct
  let k ← mask G ct.tag (G.encT z)
  pure (k ^^^ ct.ct1)

/-- `GmppkePrivateKey::isPuncturedOnTag`, GMPpke.cpp 44-51. -/
def isPunctured (sk : List (Share G2)) (tag : Bytes) : Bool := sk.any (·.sk4 == tag)

/-- `Gmppke::decrypt(sk, ct, m)`, GMPpke.hpp 392-401: the result and the value of `m` afterwards. -/
def decryptBool (sk : List (Share G2)) (ct : Ct G1) (m : Nat) : Res (Bool × Nat) :=
  if isPunctured sk ct.tag then .ok (false, m)
  else do
    let m' ← decryptUnchecked G sk ct
    pure (true, m')

/-- `Gmppke::decrypt(sk, ct)`, GMPpke.hpp 382-391: PuncturedCiphertext is a `std::invalid_argument`. -/
def decryptThrow (sk : List (Share G2)) (ct : Ct G1) : Res Nat :=
  if isPunctured sk ct.tag then .exc .invalidArgument else decryptUnchecked G sk ct

/-! ## Bytes -/

/-- `G1::writeBytes(bytes, true)`, relic_api.cpp 369-376, with assertions: exactly 33 bytes. -/
def write1 (x : G1) : Res Bytes := if (G.enc1 x).length = 33 then .ok (G.enc1 x) else .ub

/-- `G2::writeBytes(bytes, true)`, relic_api.cpp 482-489, with assertions: exactly 65 bytes. -/
def write2 (x : G2) : Res Bytes := if (G.enc2 x).length = 65 then .ok (G.enc2 x) else .ub

/-- `GmppkePrivateKeyShare::writeBytes`, GMPpke.hpp 131-138. -/
def shareBytes (s : Share G2) : Res Bytes := do
  let a ← write2 G s.sk1
  let b ← write2 G s.sk2
  let c ← write2 G s.sk3
  pure (a ++ (b ++ (c ++ s.sk4)))

/-- `GmppkePrivateKeyShare(const uint8_t*)`, GMPpke.hpp 109-116, on an array of 211 bytes. -/
def shareOfBytes (b : Bytes) : Res (Share G2) := do
  let sk1 ← G.dec2 (b.take 65)
  let sk2 ← G.dec2 ((b.drop 65).take 65)
  let sk3 ← G.dec2 ((b.drop (2 * 65)).take 65)
  pure ⟨sk1, sk2, sk3, (b.drop (3 * 65)).take 16⟩

/-- `GmmppkeCT<uint64_t>::writeBytes`, GMPpke.hpp 235-241, 268-272. -/
def ctBytes (c : Ct G1) : Res Bytes := do
  let a ← write1 G c.ct2
  let b ← write1 G c.ct3
  pure (leBytes 8 c.ct1 ++ (a ++ (b ++ c.tag)))

/-- `GmmppkeCT<uint64_t>(const uint8_t*)`, GMPpke.hpp 216-221, 259-263, on an array of 90 bytes. -/
def ctOfBytes (b : Bytes) : Res (Ct G1) := do
  let p := b.drop 8
  let ct2 ← G.dec1 (p.take 33)
  let ct3 ← G.dec1 ((p.drop 33).take 33)
  pure ⟨leNat (b.take 8), ct2, ct3, (p.drop (2 * 33)).take 16⟩

/-! ## The public classes: puncturable_enc.cpp -/

/-- `PuncturableEncryption::encrypt`, puncturable_enc.cpp 66-76, 111-116. -/
def encrypt (prf : Bytes → Bytes) (x m : Nat) (tag : Bytes) : Res Bytes := do
  let c ← encryptSp G (paramgen G prf) x m tag
  ctBytes G c

/-- `PuncturableEncryption::initial_keyshare`, puncturable_enc.cpp 90-98, 118-121. -/
def initialKeyshare (prf : Bytes → Bytes) (d : Nat) : Res Bytes := shareBytes G (sk0Gen G prf (paramgen G prf) d)

/-- `PuncturableEncryption::inc_puncture`, puncturable_enc.cpp 79-88, 123-128. -/
def incPuncture (asserts : Bool) (prf : Bytes → Bytes) (d : Nat) (tag : Bytes) : Res Bytes := do
  let s ← skShareGen G asserts prf (paramgen G prf) d tag
  shareBytes G s

/-- `PuncturableDecryption::PDecImpl::PDecImpl`, puncturable_enc.cpp 144-153. -/
def readKey : List Bytes → Res (List (Share G2))
  | [] => .ok []
  | b :: r => do
    let s ← shareOfBytes G b
    let ss ← readKey r
    pure (s :: ss)

/-- `PuncturableDecryption(key)` and `decrypt`, puncturable_enc.cpp 155-180. -/
def decrypt (key : List Bytes) (ct : Bytes) (m : Nat) : Res (Bool × Nat) := do
  let sk ← readKey G key
  let c ← ctOfBytes G ct
  decryptBool G sk c m

/-- `punct::extract_tag`, puncturable_enc.hpp 79-95: the last 16 bytes. -/
def extractTag (b : Bytes) : Bytes := b.drop (b.length - 16)

end Verif.Ppke
