import Verif.Ppke.LemmasGameB

/-!
# C95: messages under a punctured tag stay secret from the holder of the key shares
-/

namespace Verif.Ppke.Game

open Verif Verif.Avg Verif.Oracle

variable {G1 G2 GT : Type} [AddCommGroup G1] [AddCommGroup G2] [AddCommGroup GT]

/-- **C95.** An attack fixes a tag and then, in any order and each step depending on all answers before, gets the shares of at most `np` punctures for tags of
its choice, the initial share as soon as its tag was punctured, at most `nn` encryptions of messages and tags of its choice, and at most `nq` encryptions under
its tag of one of two messages of its choice.  Which of the two messages it was, it tells by at most its advantages against the PRF and against the pairing,
plus the distance of the masks from uniform.  `Q` is the number of values of the random number of an encryption. -/
theorem c95_secrecy (G : Grp G1 G2 GT) [NeZero G.r] (hG : G.Ok) (h2 : G.r < 2 ^ 256) (asserts : Bool) (Q : Nat) [NeZero Q] (ts : Tag) (hn : ts.1 ≠ nullTag)
    (h0 : tagVal G ts.1 ≠ 0) {δ : ℚ} (hδ : 0 ≤ δ) (hM : Mixes G ts.1 δ) {m : Nat} (F : Bytes → Bytes → Bytes) {np nq nn : Nat} {A : Adv} (hA : Within np nq nn A) :
    |E (fun k : Block m => run G asserts Q ts false (F (toBytes k)) 0 false A) - E (fun k : Block m => run G asserts Q ts true (F (toBytes k)) 0 false A)| ≤
      advScalars G Q (m := m) F prfSize (nn + nq) (prfAttack G asserts Q ts false A) + advScalars G Q (m := m) F prfSize (nn + nq) (prfAttack G asserts Q ts true A) +
      (∑ j ∈ Finset.range nq, advBdh G Q (solver G asserts Q ts false j A) + ∑ j ∈ Finset.range nq, advBdh G Q (solver G asserts Q ts true j A)) +
      (6 * np + 6) / 2 ^ 34 + 2 * nq * δ := by
  have a0 := run_hyb asserts Q ts false hG h2 (m := m) F hA
  have a1 := run_hyb asserts Q ts true hG h2 (m := m) F hA
  have b0 := hyb_steps asserts Q ts false hG h0 hn A nq
  have b1 := hyb_steps asserts Q ts true hG h0 hn A nq
  have c : |hybAll (G := G) asserts Q ts false nq A - hybAll (G := G) asserts Q ts true nq A| ≤ 2 * nq * δ :=
    abs_E_sub_le _ _ fun alpha => abs_E_sub_le _ _ fun beta => abs_E_sub_le _ _ fun ry => hyb_hides asserts Q ts hδ hM alpha beta ry hA false (-alpha) 0
  rw [← hybAll] at a0 a1
  rw [abs_le] at *
  constructor <;> linarith [a0.1, a0.2, a1.1, a1.2, b0.1, b0.2, b1.1, b1.2, c.1, c.2]

/-- **C95**, what the caller must not do: when the number of a puncture is used for two tags, the initial share and the share for one of them decrypt the
messages under the other one, although it was punctured. -/
theorem c95_reuse_false {G : Grp G1 G2 GT} (hG : G.Ok) {asserts : Bool} {prf : Bytes → Bytes} {t u b0 bt bu : Bytes} (ht : t.length = 16) (hu : u.length = 16)
    (h0 : initialKeyshare G prf 1 = .ok b0) (_ : incPuncture G asserts prf 1 t = .ok bt) (h1 : incPuncture G asserts prf 1 u = .ok bu) {x m m0 : Nat} {ct : Bytes}
    (hm : m < 2 ^ 64) (hc : Ppke.encrypt G prf x m t = .ok ct) (hd : Distinct G t nullTag) (hd' : Distinct G t u) :
    decrypt G [b0, bu] ct m0 = .ok (true, m) :=
  c49_decrypt hG (ts := [u]) (by simpa using hu) h0 (.cons h1 (.nil _)) hm ht hc (by
    intro w hw
    simp only [List.mem_cons, List.not_mem_nil, or_false] at hw
    rcases hw with rfl | rfl
    · exact hd
    · exact hd')

/-! Examples -/

instance : NeZero toy.r := ⟨by decide⟩

def tA : Tag := ⟨tagA, rfl⟩
def tB : Tag := ⟨tagB, rfl⟩

/-- Tests are in the unit interval, so masks are always within 1 of uniform. -/
theorem mixes_one (t : Bytes) : Mixes toy t 1 := by
  intro f hf
  have h1 : 0 ≤ E (fun z : ZMod toy.r => f (pad toy t (ex z toy.gT))) := E_nonneg fun z => (hf _).1
  have h2 : E (fun z : ZMod toy.r => f (pad toy t (ex z toy.gT))) ≤ 1 := E_le_one fun z => (hf _).2
  have h3 : 0 ≤ E (fun k : Fin (2 ^ 64) => f k) := E_nonneg fun z => (hf _).1
  have h4 : E (fun k : Fin (2 ^ 64) => f k) ≤ 1 := E_le_one fun z => (hf _).2
  rw [abs_le]
  constructor <;> linarith

/-- Another tag is punctured, then the one that is attacked; with the initial share the ciphertext is decrypted and compared to the second message. -/
def exAttack : Adv :=
  .puncture tB fun s1 => .puncture tA fun s2 => .initial fun s0 => .encrypt 5 tB fun _ => .challenge 3 4 fun c =>
    .done (match s0, s1, s2, c with
      | .ok b0, .ok b1, .ok b2, .ok ct => match decrypt toy [b0, b1, b2] ct 0 with | .ok (_, m) => m == 4 | _ => false
      | _, _, _, _ => false)

theorem exAttack_within : Within 2 1 1 exAttack :=
  .puncture fun _ => .puncture fun _ => .initial fun _ => .encrypt fun _ => .challenge fun _ => .done _

example (F : Bytes → Bytes → Bytes) := c95_secrecy toy toy_ok (by decide) true (2 ^ 8) tA (by decide) (by unfold tagVal; decide +kernel) (by norm_num)
  (mixes_one tagA) (m := 32) F exAttack_within

/-- What the attack gets when it asks too early. -/
example (prf : Bytes → Bytes) (c : Res Bytes → Adv) : run toy true 1 tA false prf 1 false (.initial c) = run toy true 1 tA false prf 1 false (c (.exc .runtimeError)) := rfl

example : ∃ b0 b1 b2 ct, initialKeyshare toy exPrf 1 = .ok b0 ∧ incPuncture toy true exPrf 1 tagA = .ok b1 ∧ incPuncture toy true exPrf 1 tagB = .ok b2 ∧
    Ppke.encrypt toy exPrf 12345 42 tagA = .ok ct ∧ decrypt toy [b0, b2] ct 7 = .ok (true, 42) := by
  obtain ⟨b0, h0⟩ : ∃ b, initialKeyshare toy exPrf 1 = .ok b := Res.good_iff.1 (by decide +kernel)
  obtain ⟨b1, h1⟩ := ex_b1
  obtain ⟨b2, h2⟩ : ∃ b, incPuncture toy true exPrf 1 tagB = .ok b := Res.good_iff.1 (by decide +kernel)
  obtain ⟨ct, hc⟩ := ex_ctA
  exact ⟨b0, b1, b2, ct, h0, h1, h2, hc, c95_reuse_false toy_ok rfl rfl h0 h1 h2 (by decide) hc (by unfold Distinct tagVal; decide +kernel)
    (by unfold Distinct tagVal; decide +kernel)⟩

end Verif.Ppke.Game
