import Verif.Ppke.Lemmas
import Verif.Tosses

/-!
# C95: an attack that gets the key shares after a tag was punctured

The game is played with the functions of the library (`run`); everything below it is about groups and scalars only.
-/

namespace Verif.Ppke.Game

open Verif Verif.Avg Verif.Oracle

/-- `punct::tag_type`: an array of 16 bytes. -/
abbrev Tag := {t : Bytes // t.length = 16}

/-- An attack: what it does next may depend on all answers before. -/
inductive Adv where
  /-- ends with a guess -/
  | done (b : Bool)
  /-- gets the share of the next puncture, for a tag of its choice -/
  | puncture (t : Tag) (c : Res Bytes → Adv)
  /-- gets the initial share for the punctures so far -/
  | initial (c : Res Bytes → Adv)
  /-- gets an encryption of a message of its choice under a tag of its choice -/
  | encrypt (m : UInt64) (t : Tag) (c : Res Bytes → Adv)
  /-- gets an encryption of one of two messages of its choice under the tag it attacks -/
  | challenge (m0 m1 : UInt64) (c : Res Bytes → Adv)

/-- At most `p` punctures, `q` challenges and `n` other encryptions. -/
inductive Within : Nat → Nat → Nat → Adv → Prop
  | done {p q n : Nat} (b : Bool) : Within p q n (.done b)
  | puncture {p q n : Nat} {t : Tag} {c : Res Bytes → Adv} : (∀ y, Within p q n (c y)) → Within (p + 1) q n (.puncture t c)
  | initial {p q n : Nat} {c : Res Bytes → Adv} : (∀ y, Within p q n (c y)) → Within p q n (.initial c)
  | encrypt {p q n : Nat} {m : UInt64} {t : Tag} {c : Res Bytes → Adv} : (∀ y, Within p q n (c y)) → Within p q (n + 1) (.encrypt m t c)
  | challenge {p q n : Nat} {m0 m1 : UInt64} {c : Res Bytes → Adv} : (∀ y, Within p q n (c y)) → Within p (q + 1) n (.challenge m0 m1 c)

variable {G1 G2 GT : Type} [AddCommGroup G1] [AddCommGroup G2] [AddCommGroup GT]

section
variable (G : Grp G1 G2 GT) (asserts : Bool) (Q : Nat) (ts : Tag) (b : Bool)

/-- The probability that the attack on the tag `ts` guesses `true`, when challenges are encryptions of the second message if `b`, and of the first one
otherwise.  `d` is the number of punctures so far, `p` says whether `ts` was among them; as long as it was not, the initial share is refused.  `Q` is the
number of values of the random number of an encryption. -/
def run (prf : Bytes → Bytes) : Nat → Bool → Adv → ℚ
  | _, _, .done g => if g then 1 else 0
  | d, p, .puncture t c => run prf (d + 1) (p || t.1 == ts.1) (c (incPuncture G asserts prf (d + 1) t.1))
  | d, p, .initial c => if p then run prf d p (c (initialKeyshare G prf d)) else run prf d p (c (.exc .runtimeError))
  | d, p, .encrypt m t c => E fun x : Fin Q => run prf d p (c (Ppke.encrypt G prf x m.toNat t.1))
  | d, p, .challenge m0 m1 c => E fun x : Fin Q => run prf d p (c (Ppke.encrypt G prf x (if b then m1 else m0).toNat ts.1))

end

/-! ## Shares and ciphertexts, for known scalars -/

/-- The multiple of a group element by a scalar modulo `n`. -/
def ex {A : Type} [AddCommGroup A] {n : Nat} (z : ZMod n) (g : A) : A := z.val • g

section
variable (G : Grp G1 G2 GT)

/-- The bytes of a share: three elements of 65 bytes and the tag. -/
def shareStr (a b c : G2) (t : Bytes) : Res Bytes :=
  if (G.enc2 a).length = 65 ∧ (G.enc2 b).length = 65 ∧ (G.enc2 c).length = 65 then .ok (G.enc2 a ++ (G.enc2 b ++ (G.enc2 c ++ t))) else .ub

/-- The bytes of a ciphertext: the masked message, two elements of 33 bytes and the tag. -/
def ctStr (k : Nat) (a b : G1) (t : Bytes) : Res Bytes :=
  if (G.enc1 a).length = 33 ∧ (G.enc1 b).length = 33 then .ok (leBytes 8 k ++ (G.enc1 a ++ (G.enc1 b ++ t))) else .ub

/-- The mask of a message: the first 8 bytes of HMAC under the tag. -/
def pad (t : Bytes) (z : GT) : Nat := leNat ((Mac.HMAC G.H t (G.encT z)).take 8)

/-- The line through `beta` with slope `ry`, at the hash of a tag. -/
def line (beta ry : ZMod G.r) (t : Bytes) : ZMod G.r := beta + tagVal G t * ry

/-- A share with content `x` and scalar `s`. -/
def shareS (beta ry x s : ZMod G.r) (t : Bytes) : Res Bytes :=
  shareStr G (ex (beta * (x + s)) G.g2) (ex (line G beta ry t * s) G.g2) (ex s G.g2) t

/-- A ciphertext with the scalar `x` and the mask `k`. -/
def ctS (beta ry : ZMod G.r) (x : Nat) (k m : Nat) (t : Bytes) : Res Bytes :=
  ctStr G (k ^^^ m) (x • G.g1) (ex (line G beta ry t * (x : ZMod G.r)) G.g1) t

/-- The answer to a puncture. -/
def onPuncture (asserts : Bool) (beta ry x s : ZMod G.r) (t : Bytes) : Res Bytes :=
  if asserts && t == nullTag then .ub else shareS G beta ry x s t

/-- The answer to an encryption. -/
def onEncrypt (alpha beta ry : ZMod G.r) (x m : Nat) (t : Bytes) : Res Bytes :=
  if t = nullTag then .exc .invalidArgument else ctS G beta ry x (pad G t (ex (alpha * beta * (x : ZMod G.r)) G.gT)) m t

end

/-! ## The attack on the PRF -/

section
variable (G : Grp G1 G2 GT) (asserts : Bool) (Q : Nat) (ts : Tag) (b : Bool)

/-- The attack on the PRF once it has the parameters; `l` and `rho` are the scalars of the last puncture. -/
def onPrf (alpha beta ry : ZMod G.r) : Nat → Bool → ZMod G.r → ZMod G.r → Adv → Rand Bytes Int (Fin Q)
  | _, _, _, _, .done g => .done g
  | d, p, l, _, .puncture t c =>
    .ask (lblL (d + 1)) fun l' => .ask (lblRho (d + 1)) fun rho' => .ask (lblR1 (d + 1)) fun s =>
      onPrf alpha beta ry (d + 1) (p || t.1 == ts.1) l' rho' (c (onPuncture G asserts beta ry (l' - l) s t.1))
  | d, p, l, rho, .initial c =>
    if p then onPrf alpha beta ry d p l rho (c (shareS G beta ry (-l) rho nullTag)) else onPrf alpha beta ry d p l rho (c (.exc .runtimeError))
  | d, p, l, rho, .encrypt m t c => .toss fun x => onPrf alpha beta ry d p l rho (c (onEncrypt G alpha beta ry x m.toNat t.1))
  | d, p, l, rho, .challenge m0 m1 c =>
    .toss fun x => onPrf alpha beta ry d p l rho (c (onEncrypt G alpha beta ry x (if b then m1 else m0).toNat ts.1))

/-- The attack on the PRF: it fetches the parameters and goes on. -/
def prfAttack (A : Adv) : Rand Bytes Int (Fin Q) :=
  .ask lblAlpha fun alpha => .ask lblBeta fun beta => .ask lblRy fun ry => onPrf G asserts Q ts b alpha beta ry 0 false (-alpha) 0 A

/-- How well the attack tells the PRF from random strings of `n` bytes, on average over its coins (at most `N`). -/
def advScalars {m : Nat} (F : Bytes → Bytes → Bytes) (n N : Nat) (R : Rand Bytes Int (Fin Q)) : ℚ :=
  E fun ω : Fin N → Fin Q => advPrf (m := m) F n (through (fun s => (beNat s : Int) % G.r) (det (List.ofFn ω) R))

end

/-! ## The assumption on the pairing -/

/-- What the assumption on the pairing is about: `b g1`, `s g1`, `a g2`, `b g2` and either `a b s gT` or a random element. -/
structure Inst (G1 G2 GT : Type) where
  b1 : G1
  s1 : G1
  a2 : G2
  b2 : G2
  t : GT

section
variable (G : Grp G1 G2 GT) [NeZero G.r] (Q : Nat)

/-- How well `B` tells `a b s gT` from a uniform multiple of `gT`, given `b g1`, `s g1`, `a g2`, `b g2`, where `a` and `b` are uniform and `s` is drawn as
in encryptions. -/
def advBdh (B : Inst G1 G2 GT → ℚ) : ℚ :=
  |E (fun a : ZMod G.r => E fun b : ZMod G.r => E fun s : Fin Q =>
      B ⟨ex b G.g1, s.val • G.g1, ex a G.g2, ex b G.g2, ex (a * b * (s.val : ZMod G.r)) G.gT⟩) -
    E (fun a : ZMod G.r => E fun b : ZMod G.r => E fun s : Fin Q => E fun t : ZMod G.r =>
      B ⟨ex b G.g1, s.val • G.g1, ex a G.g2, ex b G.g2, ex t G.gT⟩)|

end

/-! ## The attack on the pairing -/

section
variable (G : Grp G1 G2 GT) [NeZero G.r] (asserts : Bool) (Q : Nat) (ts : Tag) (b : Bool) (I : Inst G1 G2 GT) (theta : ZMod G.r)

/-- The value at `t` of the line through `b` at 0 and `theta` at the tag that is attacked, in the first group. -/
def line1 (t : Bytes) : G1 :=
  ex (1 - tagVal G t * (tagVal G ts.1)⁻¹) I.b1 + ex (tagVal G t * (tagVal G ts.1)⁻¹ * theta) G.g1

/-- The same in the second group. -/
def line2 (t : Bytes) : G2 :=
  ex (1 - tagVal G t * (tagVal G ts.1)⁻¹) I.b2 + ex (tagVal G t * (tagVal G ts.1)⁻¹ * theta) G.g2

/-- The attack on the pairing.  The first argument says at which challenge from now on the instance is used (challenges before have random masks, the ones
after are real); `l` is the scalar of the last puncture plus `a` before the tag is punctured, and the scalar of the last puncture afterwards. -/
def sim : Option Nat → Bool → ZMod G.r → ZMod G.r → Adv → ℚ
  | _, _, _, _, .done g => if g then 1 else 0
  | j, p, l, _, .puncture t c => E fun l' : ZMod G.r => E fun rho' : ZMod G.r => E fun s : ZMod G.r =>
    sim j (p || t.1 == ts.1) l' rho' (c (if asserts && t.1 == nullTag then .ub else
      if !p && t.1 == ts.1 then shareStr G (ex (l' - l + s) I.b2) (ex theta (ex s G.g2 - I.a2)) (ex s G.g2 - I.a2) t.1
      else shareStr G (ex (l' - l + s) I.b2) (ex s (line2 G ts I theta t.1)) (ex s G.g2) t.1))
  | j, p, l, rho, .initial c =>
    if p then sim j p l rho (c (shareStr G (ex (rho - l) I.b2) (ex rho (line2 G ts I theta nullTag)) (ex rho G.g2) nullTag))
    else sim j p l rho (c (.exc .runtimeError))
  | j, p, l, rho, .encrypt m t c => E fun x : Fin Q => sim j p l rho (c (
      if t.1 = nullTag then .exc .invalidArgument
      else ctStr G (pad G t.1 (x.val • G.pair I.b1 I.a2) ^^^ m.toNat) (x.val • G.g1) (x.val • line1 G ts I theta t.1) t.1))
  | none, p, l, rho, .challenge m0 m1 c => E fun x : Fin Q => sim none p l rho (c (
      ctStr G (pad G ts.1 (x.val • G.pair I.b1 I.a2) ^^^ (if b then m1 else m0).toNat) (x.val • G.g1) (x.val • ex theta G.g1) ts.1))
  | some 0, p, l, rho, .challenge m0 m1 c => sim none p l rho (c (
      ctStr G (pad G ts.1 I.t ^^^ (if b then m1 else m0).toNat) I.s1 (ex theta I.s1) ts.1))
  | some (j + 1), p, l, rho, .challenge m0 m1 c => E fun x : Fin Q => E fun t : ZMod G.r => sim (some j) p l rho (c (
      ctStr G (pad G ts.1 (ex t G.gT) ^^^ (if b then m1 else m0).toNat) (x.val • G.g1) (x.val • ex theta G.g1) ts.1))

/-- The attack on the pairing that uses the instance at challenge `j`. -/
def solver (j : Nat) (A : Adv) (I : Inst G1 G2 GT) : ℚ := E fun theta : ZMod G.r => sim G asserts Q ts b I theta (some j) false 0 0 A

end

/-- The mask of a uniform element of the third group is `δ`-close to uniform. -/
def Mixes (G : Grp G1 G2 GT) [NeZero G.r] (t : Bytes) (δ : ℚ) : Prop :=
  ∀ f : Nat → ℚ, Test f → |E (fun z : ZMod G.r => f (pad G t (ex z G.gT))) - E (fun k : Fin (2 ^ 64) => f k)| ≤ δ

end Verif.Ppke.Game
