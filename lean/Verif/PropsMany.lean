import Verif.SpecMany
import Verif.Aez.PropsWhole
import Mathlib.Data.Set.Finite.List

/-!
# C115: many objects are attacked at most as well as, one after the other, one of them
-/

namespace Verif.Many

open Verif Verif.Avg Verif.Oracle

variable {n : Nat}

/-! ## `Prp` -/

section
variable {R : Aez.Block → Aez.Block} {r : Nat → Nat} (hr : ∀ b, Aez.Spec.val (R b) = r (Aez.Spec.val b))

include hr in
/-- C115 for `Prp`: an attack on `n` objects, with at most `q i` calls of object `i`, tells them from permutations, independent for each object, at most as
well as the sum of what the attacks on single objects that it contains tell (C114). -/
theorem c115_prp (junk : Nat → UInt8) {m ℓ : Nat} (hm : 1 ≤ m) (hm' : m ≤ 4) (hℓ : 32 * ℓ + 63 ≤ 4294967295) {q : Fin n → Nat}
    {A : Att (Fin n × AezWhole.Call) (Bytes ⊕ Nat)} (hA : ∀ i, AtMostFor i (q i) A) (hs : Asks (fun p => AezWhole.Fine m ℓ p.2) A) :
    |E (fun k : Fin n → Block 48 => play (several (prp R junk) k) A) -
        E (fun π : Fin n → ∀ n : AezAll.Len m ℓ, Equiv.Perm (Block n.1.1) => play (several (perms m ℓ) π) A)| ≤
      ∑ i, (E (fun k : Fin n → Block 48 => E (fun π : Fin n → ∀ n : AezAll.Len m ℓ, Equiv.Perm (Block n.1.1) =>
          AezAll.adv ℓ r (AezAll.toFunctions (AezWhole.toStrings (only i (mixed (prp R junk) (perms m ℓ) i k π) A))))) +
        (((q i : ℚ) * (q i - 1) / 16 ^ m + (q i : ℚ) * (q i - 1) / (2 * 256 ^ m)) +
          (((q i : ℚ) * ℓ * (2 * (q i * ℓ) - 1) + ℓ * q i ^ 2 + 2 * (q i * (q i - 1))) / 2 ^ 128 + (q i : ℚ) * (q i - 1) / (2 * 256 ^ 32)))) := by
  refine le_trans (hybrid (prp R junk) (perms m ℓ) A) (Finset.sum_le_sum fun i _ => ?_)
  have h : ∀ (k : Fin n → Block 48) (π : Fin n → ∀ n : AezAll.Len m ℓ, Equiv.Perm (Block n.1.1)), _ := fun k π =>
    AezWhole.c114_object hr junk hm hm' hℓ (atMost_only (mixed (prp R junk) (perms m ℓ) i k π) (hA i)) (asks_only i (mixed (prp R junk) (perms m ℓ) i k π) hs)
  refine le_trans (E_mono fun k => E_mono fun π => h k π) (le_of_eq ?_)
  simp only [E_add, E_const, add_assoc]

end

/-! ## `Prg` -/

/-- C115 for `Prg`: an attack on `n` objects tells them from independent uniform streams at most as well as the sum of what the attacks on the block
function that it contains tell (C101). -/
theorem c115_prg (B : Bytes → Nat → Nat → UInt8) (D : Nat) {A : Att (Fin n × Prg.Game.Call) (Res (List Bytes))} (hA : Asks (fun p => Prg.Game.Sized p.2) A) :
    |E (fun k : Fin n → Block 32 => play (several (prg B) k) A) - E (fun S : Fin n → Fin (64 * D) → UInt8 => play (several (stream D) S) A)| ≤
      ∑ i, E (fun k : Fin n → Block 32 => E (fun S : Fin n → Fin (64 * D) → UInt8 =>
        Prg.Game.advBlock B D (Prg.Game.toBlocks (only i (mixed (prg B) (stream D) i k S) A)))) := by
  refine le_trans (hybrid (prg B) (stream D) A) (le_of_eq (Finset.sum_congr rfl fun i _ => ?_))
  refine congrArg E (funext fun k => congrArg E (funext fun S => ?_))
  exact Prg.Game.c101_generator B D (asks_only i _ hA)

/-! ## `Prf` -/

section
variable {nb L : Nat}

noncomputable instance : Fintype { s : Bytes // s.length ≤ L } := @Fintype.ofFinite _ (List.finite_length_le UInt8 L)

/-- Tables that are drawn beforehand are values drawn when they are asked for. -/
theorem table_fresh {A : Att (Fin n × Bytes) (Option (Res Bytes))} (hs : Asks (fun p => p.2.length ≤ L) A) :
    E (fun T : Fin n → { s : Bytes // s.length ≤ L } → Block nb => play (several (table nb L) T) A) = fresh (fun b : Block nb => some (.ok (toBytes b))) [] A := by
  have : Finite { p : Fin n × Bytes // p.2.length ≤ L } := by
    refine Finite.of_injective (β := Fin n × { s : Bytes // s.length ≤ L }) (fun p => (p.1.1, ⟨p.1.2, p.2⟩)) fun a b h => ?_
    have h1 := congrArg Prod.fst h
    have h2 := congrArg (fun x => x.2.1) h
    exact Subtype.ext (Prod.ext h1 h2)
  have := Fintype.ofFinite { p : Fin n × Bytes // p.2.length ≤ L }
  let e : ({ p : Fin n × Bytes // p.2.length ≤ L } → Block nb) ≃ (Fin n → { s : Bytes // s.length ≤ L } → Block nb) :=
    { toFun := fun R i s => R ⟨(i, s.1), s.2⟩
      invFun := fun T p => T p.1.1 ⟨p.1.2, p.2⟩
      left_inv := fun _ => rfl
      right_inv := fun _ => rfl }
  rw [← E_equiv e, ← row_fresh (γ := Option (Res Bytes)) (fun b : Block nb => some (.ok (toBytes b))) (fun _ => 0) hs []]
  refine congrArg E (funext fun R => ?_)
  have hp : several (table nb L) (e R) = overRow [] fun p => some (.ok (toBytes (row (fun _ => 0) R p))) := by
    funext p
    show some (Res.ok (toBytes (row (fun _ => 0) (e R p.1) p.2))) = some (Res.ok (toBytes (row (fun _ => 0) R p)))
    unfold row
    by_cases h : p.2.length ≤ L
    · rw [dif_pos h, dif_pos h]
      rfl
    · rw [dif_neg h, dif_neg h]
  rw [hp]

theorem table_one {i : Fin n} {A : Att Bytes (Option (Res Bytes))} (hs : Asks (fun s => s.length ≤ L) A) :
    E (fun T : { s : Bytes // s.length ≤ L } → Block nb => play (table nb L i T) A) = fresh (fun b : Block nb => some (.ok (toBytes b))) [] A :=
  row_fresh (γ := Option (Res Bytes)) (fun b : Block nb => some (.ok (toBytes b))) (fun _ => 0) hs []

variable {H : Bytes → Bytes} (hH : ∀ m, (H m).length = 64)

include hH in
/-- C115 for `Prf<nb>`: an attack on `n` objects, with at most `q i` strings of at most `L` bytes for object `i`, tells them from values drawn independently
for each object and string at most as well as the sum of what the attacks on HMAC that it contains tell, each of which asks at most `q i * calls nb` times. -/
theorem c115_prf (junk : Nat → UInt8) {fuel : Nat} (hf : 1024 ≤ fuel) (hnb : nb ≤ 16384) {q : Fin n → Nat} {A : Att (Fin n × Bytes) (Option (Res Bytes))}
    (hA : ∀ i, AtMostFor i (q i) A) (hs : Asks (fun p => p.2.length ≤ L) A) :
    (∀ i k T, AtMost (q i * Mac.Game.calls nb) (Mac.Game.hmacAttack nb (only i (mixed (prf H junk nb fuel) (table nb L) i k T) A))) ∧
      |E (fun k : Fin n → Block 32 => play (several (prf H junk nb fuel) k) A) - fresh (fun b : Block nb => some (.ok (toBytes b))) [] A| ≤
        ∑ i, E (fun k : Fin n → Block 32 => E (fun T : Fin n → { s : Bytes // s.length ≤ L } → Block nb =>
          advPrf (m := 32) (Mac.HMAC H) 64 (Mac.Game.hmacAttack nb (only i (mixed (prf H junk nb fuel) (table nb L) i k T) A)))) := by
  have h := fun (i : Fin n) k T => Mac.Game.c93_prf_partial hH junk hf hnb (atMost_only (mixed (prf H junk nb fuel) (table nb L) i k T) (hA i))
  refine ⟨fun i k T => (h i k T).1, ?_⟩
  rw [← table_fresh hs]
  refine le_trans (hybrid (prf H junk nb fuel) (table nb L) A) (le_of_eq (Finset.sum_congr rfl fun i _ => ?_))
  refine congrArg E (funext fun k => congrArg E (funext fun T => ?_))
  rw [← (h i k T).2, ← table_one (L := L) (i := i) (asks_only i _ hs)]
  rfl

end

/-! ## Keys derived from one key -/

theorem play_guess {ι γ : Type} (F : ι → γ) : ∀ A : Att ι γ, play F A = if guess F A then 1 else 0
  | .done _ => rfl
  | .ask s c => play_guess F (c (F s))

theorem guess_congr {ι γ : Type} {F F' : ι → γ} (h : ∀ s, F s = F' s) (A : Att ι γ) : guess F A = guess F' A := by rw [show F = F' from funext h]

theorem play_gather (F : Nat → Res Bytes) (g : (Nat → Bytes) → Bool) : ∀ (l : List Nat) (T : Nat → Bytes),
    play F (gather l T g) = if g (fun i => if i ∈ l then bytes (F i) else T i) then 1 else 0
  | [], T => by
    unfold gather
    rw [play]
    simp
  | i :: l, T => by
    unfold gather
    rw [play, play_gather F g l]
    congr 3
    funext j
    by_cases h1 : j ∈ l
    · rw [if_pos h1, if_pos (List.mem_cons_of_mem _ h1)]
    · rw [if_neg h1]
      by_cases h2 : j = i
      · subst h2
        rw [if_pos List.mem_cons_self, Function.update_self]
      · rw [Function.update_of_ne h2, if_neg (by rw [List.mem_cons]; tauto)]

theorem asks_gather {P : Nat → Prop} (g : (Nat → Bytes) → Bool) : ∀ {l : List Nat} (_ : ∀ i ∈ l, P i) (T : Nat → Bytes), Asks P (gather l T g)
  | [], _, _ => .done _
  | i :: _, h, _ => .ask (h i List.mem_cons_self) fun _ => asks_gather g (fun j hj => h j (List.mem_cons_of_mem _ hj)) _

theorem play_onKeys {ι γ : Type} (F : Bytes → ι → γ) (G : Nat → Res Bytes) (A : Att (Fin n × ι) γ) {key : Fin n → Bytes} (hk : ∀ i : Fin n, G i = .ok (key i)) :
    play G (onKeys F A) = play (fun p : Fin n × ι => F (key p.1) p.2) A := by
  unfold onKeys
  rw [play_gather, play_guess]
  congr 2
  refine guess_congr (fun p => ?_) A
  dsimp only
  rw [if_pos (List.mem_range.2 p.1.2), hk]
  rfl

section
variable {nb L : Nat} {H : Bytes → Bytes} (hH : ∀ m, (H m).length = 64)

/-- The attack on objects with derived keys differs from that on objects with independent keys by exactly what an attack on the block function tells. -/
theorem derived_close (B : Bytes → Nat → Nat → UInt8) (junk : Nat → UInt8) (fuel D : Nat) (hn : n * 33 ≤ W64) (hD : n * 32 ≤ 64 * D)
    (A : Att (Fin n × Bytes) (Option (Res Bytes))) :
    |E (fun k : Block 32 => play (derivedPrf B H junk nb fuel (toBytes k)) A) - E (fun k : Fin n → Block 32 => play (several (prf H junk nb fuel) k) A)| =
      Prg.Game.advBlock B D (Prg.Game.toBlocks (Prg.Game.askKeys 32 (onKeys (fun k => Mac.prfString H junk (some k) nb fuel) A))) := by
  have ha : Asks (· < n) (onKeys (fun k => Mac.prfString H junk (some k) nb fuel) A) := asks_gather _ (fun i hi => List.mem_range.1 hi) _
  rw [← Prg.Game.c101_derived_keys B 32 n D (by norm_num) hn hD ha]
  refine congrArg abs (congrArg₂ (fun x y : ℚ => x - y) ?_ ?_)
  · refine congrArg E (funext fun k => ?_)
    have hk : ∀ i : Fin n, Prg.deriveKey B 32 (some (toBytes k)) i = .ok (Prg.window B (toBytes k) (i * 32) 32) := by
      intro i
      have := i.2
      exact (Prg.c14_derived_keys B 32 (toBytes k) i 1 (by omega) (by omega) (by omega) (by decide)).1
    refine Eq.trans ?_ (play_onKeys _ _ A hk).symm
    congr 1
    funext p
    unfold derivedPrf
    rw [hk]
  · refine congrArg E (funext fun k => ?_)
    exact (play_onKeys (fun k => Mac.prfString H junk (some k) nb fuel) _ A (key := fun i => toBytes (k i)) fun i => by rw [entry_lt _ _ i.2]).symm

include hH in
/-- C115 for keys derived from one: `n` objects of `Prf<nb>` whose keys are `derive_key(0)`, ..., `derive_key(n - 1)` of a `Prg` with a uniform key are told
from values drawn independently for each object and string at most as well as the block function of `Prg` and the HMAC of each object are told. -/
theorem c115_derived (B : Bytes → Nat → Nat → UInt8) (junk : Nat → UInt8) {fuel D : Nat} (hf : 1024 ≤ fuel) (hnb : nb ≤ 16384) (hn : n * 33 ≤ W64) (hD : n * 32 ≤ 64 * D)
    {q : Fin n → Nat} {A : Att (Fin n × Bytes) (Option (Res Bytes))} (hA : ∀ i, AtMostFor i (q i) A) (hs : Asks (fun p => p.2.length ≤ L) A) :
    |E (fun k : Block 32 => play (derivedPrf B H junk nb fuel (toBytes k)) A) - fresh (fun b : Block nb => some (.ok (toBytes b))) [] A| ≤
      Prg.Game.advBlock B D (Prg.Game.toBlocks (Prg.Game.askKeys 32 (onKeys (fun k => Mac.prfString H junk (some k) nb fuel) A))) +
        ∑ i, E (fun k : Fin n → Block 32 => E (fun T : Fin n → { s : Bytes // s.length ≤ L } → Block nb =>
          advPrf (m := 32) (Mac.HMAC H) 64 (Mac.Game.hmacAttack nb (only i (mixed (prf H junk nb fuel) (table nb L) i k T) A)))) := by
  refine le_trans (abs_sub_le _ (E (fun k : Fin n → Block 32 => play (several (prf H junk nb fuel) k) A)) _) (add_le_add (le_of_eq ?_) ?_)
  · exact derived_close B junk fuel D hn hD A
  · exact (c115_prf hH junk hf hnb hA hs).2

end

/-! ## Examples -/

/-- An attack on two objects: it asks the second for what the first answered. -/
def exPrf : Att (Fin 2 × Bytes) (Option (Res Bytes)) :=
  .ask (0, [1]) fun y => .ask (1, match y with | some (.ok (b :: _)) => [b] | _ => []) fun z => .done (decide (y = z))

theorem exPrf_one (i : Fin 2) : AtMostFor i 1 exPrf := by
  fin_cases i
  · exact .here fun _ => .there (by decide) fun _ => .done _
  · exact .there (by decide) fun _ => .here fun _ => .done _

theorem exPrf_asks : Asks (fun p : Fin 2 × Bytes => p.2.length ≤ 1) exPrf :=
  .ask (by decide) fun y => .ask (by show List.length _ ≤ 1; split <;> simp) fun _ => .done _

example (H : Bytes → Bytes) (hH : ∀ m, (H m).length = 64) :
    |E (fun k : Fin 2 → Block 32 => play (several (prf H (fun _ => 7) 100 1024) k) exPrf) - fresh (fun b : Block 100 => some (.ok (toBytes b))) [] exPrf| ≤
      ∑ i, E (fun k : Fin 2 → Block 32 => E (fun T : Fin 2 → { s : Bytes // s.length ≤ 1 } → Block 100 =>
        advPrf (m := 32) (Mac.HMAC H) 64 (Mac.Game.hmacAttack 100 (only i (mixed (prf H (fun _ => 7) 100 1024) (table 100 1) i k T) exPrf)))) :=
  (c115_prf hH (fun _ => 7) (le_refl _) (by decide) (q := fun _ => 1) exPrf_one exPrf_asks).2

example (B : Bytes → Nat → Nat → UInt8) (H : Bytes → Bytes) (hH : ∀ m, (H m).length = 64) :
    |E (fun k : Block 32 => play (derivedPrf B H (fun _ => 7) 100 1024 (toBytes k)) exPrf) - fresh (fun b : Block 100 => some (.ok (toBytes b))) [] exPrf| ≤
      Prg.Game.advBlock B 1 (Prg.Game.toBlocks (Prg.Game.askKeys 32 (onKeys (fun k => Mac.prfString H (fun _ => 7) (some k) 100 1024) exPrf))) +
        ∑ i, E (fun k : Fin 2 → Block 32 => E (fun T : Fin 2 → { s : Bytes // s.length ≤ 1 } → Block 100 =>
          advPrf (m := 32) (Mac.HMAC H) 64 (Mac.Game.hmacAttack 100 (only i (mixed (prf H (fun _ => 7) 100 1024) (table 100 1) i k T) exPrf)))) :=
  c115_derived hH B (fun _ => 7) (le_refl _) (by decide) (by decide) (by decide) (q := fun _ => 1) exPrf_one exPrf_asks

/-- An attack on three `Prp` objects that leaves the last one alone. -/
def exPrp : Att (Fin 3 × AezWhole.Call) (Bytes ⊕ Nat) :=
  .ask (0, .num false false 5) fun y => .ask (1, .num false false 5) fun z => .ask (0, .str true (List.replicate 70 1)) fun v => .done (decide (y = z) || decide (z = v))

theorem exPrp_count (i : Fin 3) : AtMostFor i (if i = 0 then 2 else if i = 1 then 1 else 0) exPrp := by
  fin_cases i
  · exact .here fun _ => .there (by decide) fun _ => .here fun _ => .done _
  · exact .there (by decide) fun _ => .here fun _ => .there (by decide) fun _ => .done _
  · exact .there (by decide) fun _ => .there (by decide) fun _ => .there (by decide) fun _ => .done _

theorem exPrp_asks : Asks (fun p : Fin 3 × AezWhole.Call => AezWhole.Fine 3 1 p.2) exPrp :=
  .ask (show 5 < 256 ^ 4 by norm_num) fun _ => .ask (show 5 < 256 ^ 4 by norm_num) fun _ =>
    .ask ⟨by rw [List.length_replicate]; omega, by rw [List.length_replicate]; omega⟩ fun _ => .done _

example := c115_prp (Aez.roundNat_eq Aez.toyR) (fun _ => 9) (show 1 ≤ 3 by decide) (by decide) (by decide) exPrp_count exPrp_asks

/-- An attack on two `Prg` objects. -/
def exPrg : Att (Fin 2 × Prg.Game.Call) (Res (List Bytes)) :=
  .ask (1, .key 16 3) fun y => .ask (0, .derive 48 16) fun z => .done (decide (y = z))

example (B : Bytes → Nat → Nat → UInt8) :
    |E (fun k : Fin 2 → Block 32 => play (several (prg B) k) exPrg) - E (fun S : Fin 2 → Fin (64 * 1) → UInt8 => play (several (stream 1) S) exPrg)| ≤
      ∑ i, E (fun k : Fin 2 → Block 32 => E (fun S : Fin 2 → Fin (64 * 1) → UInt8 =>
        Prg.Game.advBlock B 1 (Prg.Game.toBlocks (only i (mixed (prg B) (stream 1) i k S) exPrg)))) :=
  c115_prg B 1 (.ask (show 16 ≤ 2 ^ 63 by norm_num) fun _ => .ask ⟨by decide, by norm_num⟩ fun _ => .done _)

end Verif.Many
