import Verif.Tdp.Lemmas
import Mathlib.NumberTheory.LucasPrimality
import Mathlib.Data.List.Prime
import Mathlib.Tactic.FinCases
import Mathlib.Tactic.NormNum.Prime

/-!
# A concrete 2048-bit RSA key, used in the examples
-/

namespace Verif.Tdp

open Verif

/-- Square-and-multiply with a bound on the number of bits of the exponent. -/
def powMod (m : Nat) : Nat → Nat → Nat → Nat → Nat
  | 0, acc, _, _ => acc % m
  | f + 1, acc, b, e => powMod m f (bif e % 2 == 1 then acc * b % m else acc) (b * b % m) (e / 2)

theorem powMod_eq (m : Nat) (f acc b e : Nat) (he : e < 2 ^ f) : powMod m f acc b e = acc * b ^ e % m := by
  induction f generalizing acc b e with
  | zero =>
    have : e = 0 := by simpa using he
    subst this
    simp [powMod]
  | succ f ih =>
    rw [powMod, ih _ _ _ (by rw [pow_succ] at he; omega)]
    by_cases ho : e % 2 = 1
    · have e1 : (e % 2 == 1) = true := by simpa using ho
      rw [e1, cond_true]
      have e2 : acc * b ^ e = (acc * b) * (b * b) ^ (e / 2) := by
        have : e = 1 + 2 * (e / 2) := by omega
        conv_lhs => rw [this]
        rw [pow_add, pow_mul]
        ring
      rw [e2]
      exact (Nat.mod_modEq _ _).mul ((Nat.mod_modEq _ _).pow _)
    · have e1 : (e % 2 == 1) = false := by simpa using ho
      rw [e1, cond_false]
      have e2 : acc * b ^ e = acc * (b * b) ^ (e / 2) := by
        have : e = 2 * (e / 2) := by omega
        conv_lhs => rw [this]
        rw [pow_mul]
        ring
      rw [e2]
      exact ((Nat.mod_modEq _ _).pow _).mul_left _

/-- Lucas' primality criterion for numbers k 2^n + 1, checked by square-and-multiply. -/
theorem prime_of_cert (p a f : Nat) (k n : Nat) (L : List Nat) (hp : p = k * 2 ^ n + 1) (hf : p < 2 ^ f)
    (hk : k = L.prod) (hL : ∀ q ∈ L, q.Prime)
    (h1 : powMod p f 1 a (p - 1) = 1 % p)
    (h2 : ∀ q ∈ 2 :: L, powMod p f 1 a ((p - 1) / q) ≠ 1 % p) : p.Prime := by
  have conv : ∀ e, e < 2 ^ f → ((a : ZMod p) ^ e = 1 ↔ powMod p f 1 a e = 1 % p) := by
    intro e he
    rw [powMod_eq _ _ _ _ _ he, one_mul]
    have := ZMod.natCast_eq_natCast_iff (a ^ e) 1 p
    push_cast at this
    exact this
  refine lucas_primality p (a : ZMod p) ?_ ?_
  · rw [conv _ (by omega)]; exact h1
  · intro q hq hd
    rw [Ne, conv _ (lt_of_le_of_lt (Nat.div_le_self _ _) (by omega))]
    apply h2
    have hd' : q ∣ k * 2 ^ n := by rwa [show p - 1 = k * 2 ^ n by omega] at hd
    rcases (Nat.Prime.dvd_mul hq).1 hd' with h | h
    · rw [hk, (Nat.Prime.prime hq).dvd_prod_iff] at h
      obtain ⟨b, hb, hqb⟩ := h
      rw [(Nat.prime_dvd_prime_iff_eq hq (hL b hb)).1 hqb]
      exact List.mem_cons_of_mem _ hb
    · have := (Nat.prime_dvd_prime_iff_eq hq Nat.prime_two).1 (hq.dvd_of_dvd_pow h)
      subst this
      exact List.mem_cons_self

/-- The primes of the example key. -/
def exP : Nat := 32501 * 2 ^ 1009 + 1
def exQ : Nat := 32429 * 2 ^ 1009 + 1

theorem exP_prime : exP.Prime :=
  prime_of_cert exP 6 1024 32501 1009 [7, 4643] rfl (by decide +kernel) rfl (by intro q hq; fin_cases hq <;> norm_num) (by decide +kernel) (by decide +kernel)

theorem exQ_prime : exQ.Prime :=
  prime_of_cert exQ 3 1024 32429 1009 [32429] rfl (by decide +kernel) rfl (by intro q hq; fin_cases hq; norm_num) (by decide +kernel) (by decide +kernel)

/-- The private part of the example key. -/
def exPriv : Priv :=
  { D := 31394864507456601382670620311955073063696687293199105329473825676404146922452580534223263658471895947892205219959395381905943793858982651659873682197403097765516642260380400729134240601198447631603190910650951100419093529327995717908501656117564316705103544306647060241011942144370232774692532348572071166278654117132536365925878954835731779654001487337647797672795645921739355601106593101493141345597555944382032374025299057299717401855501593565149834732827573247510558016426355740899862989088651634039719796286874215755920629766908297866780702758617567929493539355960305541609756141991688971908640409229414509772801
    P := exP, Q := exQ
    DP := 177637954327360409028545269271502490414160277808963404233982160494346652488817892941713802757388049691303762041381174035241220507265304816023214568217344425521219654969998519172542244862714196742380336162322946790276608692037227395026947293971858243844142525823247954632059184708265526208361497846629164580865
    DQ := 85679542686240599319809265829102488629173308445465654074764783163843871975762255001331127681759536544757883475267761698172231429357979027869372141692110499959081427748697394166396681967325798621339302945683271903275110836280868666411660075988296654814232819399449262887125232791126945742612894245641577758721
    QP := 146110646989332734413549581415142969732146975952302316000443061402528852710690231901293154850378448641087453397696732065632642640134177281786923737525770129084145534917149706980786136167884766893854918709868185923719412648638378050289677662461835283096193628064399133244279226080383820562482952986008494743094 }

/-- The example key. -/
def exKey : Rsa := { len := 256, N := exP * exQ, E := 65537, priv := some exPriv, blind := none }

theorem exKey_rsa : RsaKey exKey.N exKey.E exPriv where
  primeP := exP_prime
  primeQ := exQ_prime
  oddP := by decide +kernel
  oddQ := by decide +kernel
  ne := by decide +kernel
  mod := by decide +kernel
  expP := by decide +kernel
  expQ := by decide +kernel
  dp := by decide +kernel
  dq := by decide +kernel
  qpLt := by decide +kernel
  qp := by decide +kernel

end Verif.Tdp
