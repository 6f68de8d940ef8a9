/-
Programs that use the big integers, the RSA contexts and the objects.
-/
import Verif.Heap.Tdp

namespace Verif.Heap

/-- `Call g p r w c`: the function call `c` has the integers `r` as `const` arguments and the integers `w` as other
arguments.  `g`: the random numbers can be such that `mpi_miller_rabin` gives up; `p`: the functions that handle PEM
buffers may be called. -/
inductive Call (g p : Bool) : List Nat → List Nat → Cmd → Prop
  -- `src/mbedtls/bignum.c`
  | mpiFree : Call g p [] [x] (free x)
  | grow : Call g p [] [x] (grow x)
  | shrink : Call g p [] [x] (shrink x)
  | copy : Call g p [y] [x] (copy x y)
  | swap : Call g p [] [x, y] (swap x y)
  | condAssign : Call g p [y] [x] (condAssign x y)
  | condSwap : Call g p [] [x, y] (condSwap x y)
  | lset : Call g p [] [x] (lset x)
  | look : Call g p [x] [] (look x)
  | setBit : Call g p [] [x] (setBit x)
  | readBinary : Call g p [] [x] (readBinary x)
  | writeBinary : Call g p [x] [] (writeBinary x)
  | readString : Call g p [] [x] (readString x)
  | writeString : Call g p [x] [] (writeString x)
  | shiftL : Call g p [] [x] (shiftL x)
  | shiftR : Call g p [] [x] (shiftR x)
  | cmp : Call g p [a, b] [] (cmp (some a) (some b))
  | cmpInt : Call g p [a] [] (cmp (some a) none)
  | addAbs : Call g p [a, b] [x] (addAbs x (some a) (some b))
  | subAbs : Call g p [a, b] [x] (subAbs x (some a) (some b))
  | addMpi : Call g p [a, b] [x] (addMpi x (some a) (some b))
  | subMpi : Call g p [a, b] [x] (subMpi x (some a) (some b))
  | addInt : Call g p [a] [x] (addInt x a)
  | subInt : Call g p [a] [x] (subInt x a)
  | mulMpi : Call g p [a, b] [x] (mulMpi x (some a) (some b))
  | mulInt : Call g p [a] [x] (mulInt x a)
  | divMpi : Call g p [a, b] (q.toList ++ r.toList) (divMpi q r a (some b))
  | divInt : Call g p [a] (q.toList ++ r.toList) (divInt q r a)
  | modMpi : Call g p [a, b] [x] (modMpi x a b)
  | modInt : Call g p [a] [] (modInt a)
  | expMod : Call g p [a, e, n] [x] (expMod x a e n none)
  /-- with a cache `_RR`, which must be different from the other integers -/
  | expModCache (h : r ∉ [x, a, e, n]) : Call g p [a, e, n] [x, r] (expMod x a e n (some r))
  | gcd : Call g p [a, b] [x] (gcd x a b)
  | fillRandom : Call g p [] [x] (fillRandom x)
  | invMod : Call g p [a, n] [x] (invMod x a n)
  | isPrime : Call g p [x] [] (isPrime g x)
  | genPrime : Call g p [] [x] (genPrime g x)
  -- `src/mbedtls/rsa.c`
  | rsaFree : Call g p [] (ctx k) (rsaFree k)
  | genKey : Call g p [] (ctx k) (genKey g k)
  | checkPubkey : Call g p (ctx k) [] (checkPubkey k)
  | checkPrivkey : Call g p (ctx k) [] (checkPrivkey k)
  | checkPubPriv : Call g p (ctx k ++ ctx d) [] (checkPubPriv k d)
  | rsaPublic : Call g p [] (ctx k) (rsaPublic k)
  | rsaPrivate : Call g p [] (ctx k) (rsaPrivate rng k)
  | rsaCopy : Call g p (ctx k) (ctx d) (rsaCopy d k)
  -- `src/mbedtls/rsa_io.c`
  | rsaParsePublicKey (h : p = true) : Call g p [] (ctx k) (rsaParsePublicKey k)
  | rsaParseKey (h : p = true) : Call g p [] (ctx k) (rsaParseKey k)
  | writePubkeyPem (h : p = true) : Call g p (ctx k) [] (writePubkeyPem k)
  | writeKeyPem (h : p = true) : Call g p (ctx k) [] (writeKeyPem k)

/-- `Prog g p vs c`: a program in C that uses the integers `vs`; every function initialises its own integers at the
beginning and releases them at the label `cleanup`. -/
inductive Prog (g p : Bool) : List Nat → Cmd → Prop
  | call {r w vs c} (h : Call g p r w c) (hv : ∀ x ∈ r ++ w, x ∈ vs) : Prog g p vs c
  | skip : Prog g p vs .skip
  | fail : Prog g p vs .fail
  | seq (h : Prog g p vs c) (h' : Prog g p vs d) : Prog g p vs (.seq c d)
  | alt (h : Prog g p vs c) (h' : Prog g p vs d) : Prog g p vs (.alt c d)
  | loop (h : Prog g p vs c) : Prog g p vs (.loop c)
  /-- the return code is not looked at -/
  | ign (h : Prog g p vs c) : Prog g p vs (.ign c)
  /-- what is done next depends on whether a call fails -/
  | onEnd (h : Prog g p vs c) (h' : Prog g p vs d) (h'' : Prog g p vs e) : Prog g p vs (.onEnd c d e)
  | scope {k : Nat} {use : Nat → Cmd} (h : ∀ s, Prog g p (vs ++ List.range' s k) (use s)) :
      Prog g p vs (.locals k fun s => initAll (List.range' s k) ;; cleanup (use s) (freeAll (List.range' s k)))

/-- The objects in scope, with the number of the first variable. -/
inductive Obj
  | tdp (k : Nat)
  | inv (k : Nat)
  | pool (k n : Nat)

/-- The number of the first variable: the context `rsa_key_`. -/
def Obj.key : Obj → Nat
  | .tdp k => k
  | .inv k => k
  | .pool k _ => k

/-- The number of integers of an object. -/
def Obj.size : Obj → Nat
  | .tdp _ => 13
  | .inv _ => 16
  | .pool _ n => 14 + 13 * n

def Obj.vars (o : Obj) : List Nat := List.range' o.key o.size

/-- Member functions of the objects in scope.  `p`: those that handle PEM buffers may be called. -/
inductive Op (p : Bool) (os : List Obj) : Cmd → Prop
  | publicKey (hp : p = true) (h : o ∈ os) : Op p os (writePubkeyPem o.key)
  | eval (h : o ∈ os) : Op p os (tdpEval o.key)
  | sample (h : o ∈ os) : Op p os (tdpSample o.key)
  | generate (h : o ∈ os) : Op p os (tdpGenerate o.key)
  | assign (h : .tdp d ∈ os) (h' : o ∈ os) : Op p os (tdpAssign d o.key)
  | reset (h : .tdp d ∈ os) (h' : o ∈ os) : Op p os (tdpReset d o.key)
  | privateKey (hp : p = true) (h : .inv k ∈ os) : Op p os (writeKeyPem k)
  | invert (h : .inv k ∈ os) : Op p os (tdpInvert k)
  | invertMult (h : .inv k ∈ os) : Op p os (tdpInvertMult k)
  | evalPool1 (h : .pool k n ∈ os) : Op p os (evalPool k)
  | evalPool (h : .pool k n ∈ os) (hi : i < n) : Op p os (evalPool (keyAt k i))
  | poolAssign (h : .pool d n ∈ os) (h' : .pool k n ∈ os) : Op p os (poolAssign n d k)

/-- `Client g t p os c`: a program in C++ that uses the objects `os`.  `t`: exceptions may be caught; `g`, `p`: as before. -/
inductive Client (g t p : Bool) : List Obj → Cmd → Prop
  | op (h : Op p os c) : Client g t p os c
  | skip : Client g t p os .skip
  | throw : Client g t p os .fail
  | seq (h : Client g t p os c) (h' : Client g t p os d) : Client g t p os (.seq c d)
  | alt (h : Client g t p os c) (h' : Client g t p os d) : Client g t p os (.alt c d)
  | loop (h : Client g t p os c) : Client g t p os (.loop c)
  /-- `try { c } catch (...) { }` -/
  | catch (ht : t = true) (h : Client g t p os c) : Client g t p os (.ign c)
  | tdpParse (hp : p = true) (h : ∀ k, Client g t p (.tdp k :: os) (use k)) : Client g t p os (tdpScope tdpParse use)
  | tdpCopy (ho : o ∈ os) (h : ∀ k, Client g t p (.tdp k :: os) (use k)) : Client g t p os (tdpScope (tdpCopy o.key) use)
  | invGen (h : ∀ k, Client g t p (.inv k :: os) (use k)) : Client g t p os (invScope (invGen g) use)
  | invParse (hp : p = true) (h : ∀ k, Client g t p (.inv k :: os) (use k)) : Client g t p os (invScope invParse use)
  | poolParse (hp : p = true) (hn : 1 ≤ n) (h : ∀ k, Client g t p (.pool k n :: os) (use k)) :
      Client g t p os (poolScope n tdpParse (poolBody n) use)
  | poolCopy (ho : .pool s n ∈ os) (h : ∀ k, Client g t p (.pool k n :: os) (use k)) :
      Client g t p os (poolScope n (tdpCopy s) (poolCopy n s) use)

end Verif.Heap
