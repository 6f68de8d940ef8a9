import Verif.Tdp.PropsPool
import Verif.Io.PkSafe
import Verif.Aez.PropsSpec
import Verif.Ppke.Props
import Verif.Bignum.PropsPrime
import Verif.Bignum.PropsWord
import Verif.Bignum.PropsKernel

/-!
# Concrete cases that meet the hypotheses of theorems of other files
-/

/-! ## Trapdoor permutation and keys -/

namespace Verif.Tdp.Examples

open Verif Verif.Tdp

example : ∃ c, evalString exKey exMsg = .ok c ∧ evalArray exKey exMsg = .ok c ∧ IsMsg exKey c ∧ beNat c = beNat exMsg ^ exKey.E % exKey.N :=
  c37_eval exKey_tdp exMsg_msg.1

example : ∃ p, mkPool exKey 100 = .ok p ∧ evalPool p exMsg 77 = .ok (beBytes 256 (beNat exMsg ^ (exKey.E * 65537 ^ (77 - 1)) % exKey.N)) ∧
    evalPoolString p [1, 2, 3] 5 = .exc .invalidArgument := by
  obtain ⟨p, hp⟩ := (c39_sizes exKey_check (by decide +kernel) (by decide +kernel) rfl (size := 100) (by omega)).1 (by omega) (by omega)
  exact ⟨p, hp, c39_exponent rfl exKey_tdp.size exKey_rsa.Nodd (by omega) hp exMsg (by omega) (by omega),
    (c41_pool_partial rfl exKey_tdp.size exKey_rsa.Nodd (by omega) hp [1, 2, 3] (n := 5) (by omega)).2 (by decide)⟩

example := Io.c42_public exKey_check

example : ∃ k, genKey exPrimes 2048 65537 1 = some (some k) ∧ checkPriv k = true ∧ ∃ text, Io.privateKey k = .ok text ∧ Io.importPrivate text = .ok k := by
  have h : (genKey exPrimes 2048 65537 1).isSome ∧ ((genKey exPrimes 2048 65537 1).getD none).isSome := by decide +kernel
  rcases hk : genKey exPrimes 2048 65537 1 with _ | (_ | k)
  · simp [hk] at h
  · simp [hk] at h
  · refine ⟨k, rfl, Io.c42_generated (fun i => ?_) (fun i => ?_) hk⟩
    · unfold exPrimes; split
      · exact exP_prime
      · exact exQ_prime
    · unfold exPrimes; split <;> decide +kernel

example := Io.c42_import_private_safe (List.replicate 1000 65) (by rw [List.length_replicate]; decide)
example := Io.c42_import_public_safe (List.replicate 1000 65) (by rw [List.length_replicate]; decide)
example := Io.c42_inverse_safe (List.replicate 1000 65) (by rw [List.length_replicate]; decide) _ le_rfl

end Verif.Tdp.Examples

/-! ## AEZ -/

namespace Verif.Aez.Examples

open Verif Verif.Aez

example := c30_permutation toyR toyCtx true 1000 (by decide)
example := c30_from_key toyR exKey48 (fun _ => 0) (fun _ => 9) false [1, 2, 3] (by decide)
example : prpString toyR false (some toyCtx) (fun _ => 0) false [1, 2, 3] = .exc .runtimeError := (c30_refusals toyR (some toyCtx) (fun _ => 0) false [1, 2, 3]).1
example : ∃ x, x < 256 ^ 8 ∧ prpInt toyR true (some toyCtx) (fun _ => 0) false 8 5 = .ok x := by
  obtain ⟨x, hx, h⟩ := (c31_bijection toyR toyCtx (fun _ => 0) true 8 (Or.inr rfl)).2 5 (by decide)
  obtain ⟨y, h1, -, h2⟩ := c31_roundtrip toyR toyCtx (fun _ => 0) (fun _ => 0) true 8 x (Or.inr rfl) hx
  rw [h] at h1
  injection h1 with h1
  exact ⟨x, hx, h1 ▸ h2⟩
example := c62_pair_offset toyCtx 320 9 (by decide) (by decide)
example := c62_pair_value (fun i => UInt8.ofNat (7 * i + 3)) 320 9 (by decide) (by decide)

end Verif.Aez.Examples

/-! ## Puncturable encryption -/

namespace Verif.Ppke.Examples

open Verif Verif.Ppke

example : ∃ b0 b1 c sk, initialKeyshare toy exPrf 2 = .ok b0 ∧ incPuncture toy true exPrf 1 tagA = .ok b1 ∧
    encryptSp toy (paramgen toy exPrf) 12345 42 tagC = .ok c ∧ readKey toy [b0, b1] = .ok sk ∧ ∃ e : Int, recoverBlind toy sk c = .ok (e • toy.gT) := by
  obtain ⟨b0, h0⟩ := ex_b0
  obtain ⟨b1, h1⟩ := ex_b1
  obtain ⟨c, hc, -⟩ := encryptSp_eq toy_ok (paramgen toy exPrf) 12345 42 (tag := tagC) rfl (by decide)
    (e := 12345 * (paramgen toy exPrf).beta * (paramgen toy exPrf).alpha) (by push_cast; rfl)
  obtain ⟨e, he⟩ := ZMod.intCast_surjective (n := toy.r) ((12345 : Nat) * prfVal toy exPrf lblBeta *
    (prfVal toy exPrf lblAlpha + lVal toy exPrf (paramgen toy exPrf) 1 - lVal toy exPrf (paramgen toy exPrf) 2))
  obtain ⟨sk, hsk, hr⟩ := c49_blind toy_ok (ts := [tagA]) (by decide) h0 (.cons h1 (.nil _)) rfl hc
    (fun u hu => ex_distinct u (by
      rcases List.mem_cons.1 hu with rfl | hu
      · exact List.mem_cons_self
      · rw [List.mem_singleton.1 hu]; exact List.mem_cons_of_mem _ List.mem_cons_self)) he
  exact ⟨b0, b1, c, sk, h0, h1, hc, hsk, e, hr⟩

example : encrypt toy exPrf 12345 42 nullTag = .exc .invalidArgument := (c51_reserved_partial true exPrf ⟨1, 2, 3⟩ (publicKey toy ⟨1, 2, 3⟩) [] 12345 42 0 0 0).1

end Verif.Ppke.Examples

/-! ## Numbers -/

namespace Verif.Bignum.Examples

open Verif Verif.Bignum

example : ∃ j, isPrime (constRng 2) p1009 0 = (.ok (), j) ∧
    ∃ bases : List Nat, HacRounds 1009 bases.length ∧ ∀ a ∈ bases, 1 < a ∧ a < 1008 ∧ Strong 1009 a := by
  obtain ⟨j, h⟩ := c64_prime_accepted_partial (constRng_ok 2) p1009_WF (by rw [p1009_val]; norm_num) (by decide)
    (by rw [p1009_val]; exact constRng_good (by decide) (by decide) (by decide)) 0
  refine ⟨j, h, ?_⟩
  have := c64_accepted (constRng_ok 2) p1009_WF h
  rw [p1009_val] at this
  rcases this with h | ⟨-, -, bases, h1, h2⟩
  · exact absurd h.2 (by decide)
  · exact ⟨bases, h1, fun a ha => ⟨(h2 a ha).1, (h2 a ha).2.1, (h2 a ha).2.2.1⟩⟩

example := c64_outcomes (constRng_ok 2) p1009_WF 0

example : intDivWide 5 7 9 = ((5 * W64 + 7) / 9, (5 * W64 + 7) % 9) := c81_wide (by decide) (by decide) (by decide)

end Verif.Bignum.Examples

namespace Verif.Bignum.Kernel.Examples

open Verif.Bignum Verif.Bignum.Kernel

/-- Two words at 64 and three at 128. -/
def exMem : Mem := fun a => if a = 64 then some 7 else if a = 72 then some (W64 - 1) else if a = 128 then some 1 else if a = 136 then some 2 else if a = 144 then some 0 else none

theorem exMem_wf : WF exMem := by
  intro a v h
  unfold exMem at h
  split_ifs at h <;> (injection h with h; subst h; decide)

example : ∃ k', asmBlock (fun _ => 99) (W64 - 1) 1 ⟨5, 64, 136, exMem⟩ = some k' ∧ k'.s = 72 := by
  obtain ⟨k', h, -, -, h2, -⟩ := c80_core (fun _ => 99) (b := W64 - 1) (by decide) (k := ⟨5, 64, 136, exMem⟩) exMem_wf (by decide) (v := 7) (y := 2) rfl rfl
  exact ⟨k', h, h2⟩

example : ∃ m' R, mulHlp (asmBlock fun _ => 99) 3 2 64 128 (W64 - 1) exMem = some m' ∧ Arr m' 128 R := by
  obtain ⟨R, hR⟩ : ∃ R, Bignum.mulHlp [7, W64 - 1] [1, 2, 0] (W64 - 1) = some R := Option.isSome_iff_exists.1 (by decide +kernel)
  have hs : Arr exMem 64 [7, W64 - 1] := by
    intro i hi
    match i, hi with
    | 0, _ => rfl
    | 1, _ => rfl
  have hd : Arr exMem 128 [1, 2, 0] := by
    intro i hi
    match i, hi with
    | 0, _ => rfl
    | 1, _ => rfl
    | 2, _ => rfl
  obtain ⟨m', h1, h2, -⟩ := c80_model (block := asmBlock fun _ => 99) (b := W64 - 1) (by decide) (fun _ => 99) (Or.inl rfl) (fuel := 3) exMem_wf hs hd
    (by unfold Apart; intro i j hi hj; simp only [List.length_cons, List.length_nil] at hi hj; omega) (by decide) (by decide) (by decide) hR
  exact ⟨m', R, h1, h2⟩

end Verif.Bignum.Kernel.Examples
