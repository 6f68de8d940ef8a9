import Verif.Mac.Props
import Verif.Expand

/-!
# C93: `Prf` is as random as HMAC

An attack asks `Prf<nb>` of a uniform key at strings of its choice.  What it does on the code, compared with independent uniform strings of `nb` bytes, is
exactly what an attack does on HMAC, compared with independent uniform strings of 64 bytes.
-/

namespace Verif.Mac.Game

open Verif Verif.Mac Verif.Avg Verif.Oracle

/-- The strings at which HMAC is asked. -/
def inputs (nb : Nat) (m : Bytes) : List Bytes :=
  if nb ≤ 64 then [m] else (List.range ((nb + 63) / 64)).map fun i => m ++ [UInt8.ofNat i]

/-- Their number. -/
def calls (nb : Nat) : Nat := if nb ≤ 64 then 1 else (nb + 63) / 64

theorem inputs_length (nb : Nat) (m : Bytes) : (inputs nb m).length = calls nb := by
  unfold inputs calls
  split <;> simp

theorem inputs_nodup {nb : Nat} (h : nb ≤ 16384) (m : Bytes) : (inputs nb m).Nodup := by
  unfold inputs
  split
  · simp
  · rw [List.Nodup, List.pairwise_map]
    refine List.Pairwise.imp_of_mem ?_ List.nodup_range
    intro x y hx hy hne hxy
    apply hne
    rw [List.mem_range] at hx hy
    have h1 := List.append_cancel_left hxy
    simp only [List.cons.injEq, and_true] at h1
    have h2 := congrArg UInt8.toNat h1
    simp only [UInt8.toNat_ofNat'] at h2
    omega

theorem inputs_disjoint (nb : Nat) (m m' s : Bytes) (h : s ∈ inputs nb m) (h' : s ∈ inputs nb m') : m = m' := by
  unfold inputs at h h'
  split at h
  · rename_i hn
    rw [if_pos hn] at h'
    rw [List.mem_singleton] at h h'
    rw [← h, ← h']
  · rename_i hn
    rw [if_neg hn] at h'
    rw [List.mem_map] at h h'
    obtain ⟨i, _, hi⟩ := h
    obtain ⟨j, _, hj⟩ := h'
    rw [← hj] at hi
    exact (List.append_inj' hi rfl).1

theorem calls_enough (nb : Nat) : nb ≤ 64 * calls nb := by
  unfold calls
  split <;> omega

theorem prfSpec_inputs (H : Bytes → Bytes) (k m : Bytes) (nb : Nat) : prfSpec H k m nb = ((inputs nb m).flatMap (HMAC H k)).take nb := by
  unfold prfSpec inputs
  split
  · simp
  · rw [List.flatMap_map]
    rfl

/-- **C93**: the advantage against the expansion is that of an attack on HMAC with `calls nb` questions for each. -/
theorem c93_advantage (H : Bytes → Bytes) {m nb : Nat} (hnb : nb ≤ 16384) (B : Att Bytes Bytes) :
    advPrf (m := m) (fun k s => prfSpec H k s nb) nb B = advPrf (m := m) (HMAC H) 64 (expand (inputs nb) nb B) := by
  simp only [prfSpec_inputs]
  exact adv_expand (inputs_length nb) (inputs_nodup hnb) (inputs_disjoint nb) (calls_enough nb) _ B

/-- The attack on HMAC: a value of `Prf<nb>` is put together from HMAC at `inputs nb`. -/
def hmacAttack (nb : Nat) (A : Att Bytes (Option (Res Bytes))) : Att Bytes Bytes := expand (inputs nb) nb (through (fun y => some (.ok y)) A)

/-- **C93**: what an attack does on `Prf<nb>` of a uniform key and on independent uniform strings differs by exactly the advantage of an attack on HMAC, which
asks `calls nb` times as often.  Partial: for outputs of up to 16384 bytes (`c93_long_false`). -/
theorem c93_prf_partial {H : Bytes → Bytes} (hH : ∀ m, (H m).length = 64) (junk : Nat → UInt8) {fuel : Nat} (hf : 1024 ≤ fuel) {nb : Nat} (hnb : nb ≤ 16384)
    {q : Nat} {A : Att Bytes (Option (Res Bytes))} (hA : AtMost q A) :
    AtMost (q * calls nb) (hmacAttack nb A) ∧
      |E (fun k : Block 32 => play (prfString H junk (some (toBytes k)) nb fuel) A) - fresh (fun b : Block nb => some (.ok (toBytes b))) [] A|
        = advPrf (m := 32) (HMAC H) 64 (hmacAttack nb A) := by
  have ht : AtMost q (through (fun y : Bytes => (some (.ok y) : Option (Res Bytes))) A) := by
    clear hnb
    induction hA with
    | done b => exact .done b
    | ask _ ih => exact .ask fun y => ih _
  refine ⟨atMost_expand (inputs_length nb) nb ht, ?_⟩
  unfold hmacAttack
  rw [← c93_advantage H hnb]
  unfold advPrf
  have h1 : fresh (fun b : Block nb => toBytes b) [] (through (fun y : Bytes => (some (.ok y) : Option (Res Bytes))) A) =
      fresh (fun b : Block nb => some (.ok (toBytes b))) [] A := fresh_through _ _ A []
  have h2 : (fun k : Block 32 => play (prfString H junk (some (toBytes k)) nb fuel) A) =
      fun k : Block 32 => play (fun s => prfSpec H (toBytes k) s nb) (through (fun y : Bytes => (some (.ok y) : Option (Res Bytes))) A) := by
    funext k
    rw [play_through]
    congr 1
    funext s
    exact c17_prf hH junk (toBytes k) s (toBytes_length k) nb (by omega) fuel hf
  rw [h1, h2]

/-- Ask once, and guess that the value is `Prf`'s if its bytes 0 and 16384 are equal. -/
def periodic : Att Bytes (Option (Res Bytes)) := .ask [] fun y =>
  match y with
  | some (.ok out) => .done (out[16384]? == out[0]?)
  | _ => .done false

theorem periodic_once : AtMost 1 periodic := .ask fun y => by
  split <;> exact .done _

theorem E_eq {ι : Type} [Fintype ι] [DecidableEq ι] {i j : ι} (h : i ≠ j) :
    E (fun b : ι → UInt8 => if b i = b j then (1 : ℚ) else 0) = 1 / 256 := by
  rw [E_update i]
  have : ∀ R : ι → UInt8, E (fun K : UInt8 => if Function.update R i K i = Function.update R i K j then (1 : ℚ) else 0) = 1 / 256 := by
    intro R
    have e : (fun K : UInt8 => if Function.update R i K i = Function.update R i K j then (1 : ℚ) else 0) = fun K => if K = R j then (1 : ℚ) else 0 := by
      funext K
      rw [Function.update_self, Function.update_of_ne h.symm]
    rw [e]
    unfold E
    rw [Finset.sum_ite_eq' Finset.univ (R j), if_pos (Finset.mem_univ _)]
    have hc := card_block 1
    rw [Fintype.card_fun, Fintype.card_fin] at hc
    rw [show Fintype.card UInt8 = 256 by simpa using hc]
    norm_num
  rw [show (fun R : ι → UInt8 => E (fun K : UInt8 => if Function.update R i K i = Function.update R i K j then (1 : ℚ) else 0)) = fun _ => (1 / 256 : ℚ) from
    funext this, E_const]

/-- **C93**, false: outputs of more than 16384 bytes are told from uniform strings by one question, with advantage 255/256, for every hash function. -/
theorem c93_long_false {H : Bytes → Bytes} (hH : ∀ m, (H m).length = 64) (junk : Nat → UInt8) {fuel : Nat} (hf : 1024 ≤ fuel) {nb : Nat} (h : 16384 < nb)
    (hnb : nb ≤ 65472) : ∃ A : Att Bytes (Option (Res Bytes)), AtMost 1 A ∧
      E (fun k : Block 32 => play (prfString H junk (some (toBytes k)) nb fuel) A) = 1 ∧
      fresh (fun b : Block nb => some (.ok (toBytes b))) [] A = 1 / 256 := by
  refine ⟨periodic, periodic_once, ?_, ?_⟩
  · have : (fun k : Block 32 => play (prfString H junk (some (toBytes k)) nb fuel) periodic) = fun _ => 1 := by
      funext k
      obtain ⟨out, h1, h2⟩ := c18_repeat_false hH junk (toBytes k) [] (toBytes_length k) nb hnb fuel hf
      have h3 := h2 0 (by omega)
      rw [Nat.zero_add] at h3
      unfold periodic
      simp only [play]
      rw [show prfString H junk (some (toBytes k)) nb fuel [] = _ from h1]
      simp only [h3]
      simp [play]
    rw [this, E_const]
  · unfold periodic
    simp only [fresh, List.lookup_nil]
    have hne : (⟨16384, h⟩ : Fin nb) ≠ ⟨0, by omega⟩ := fun e => by
      have := congrArg Fin.val e
      simp at this
    rw [← E_eq hne]
    refine congrArg E (funext fun b => ?_)
    have e : ∀ i (hi : i < nb), (toBytes b)[i]? = some (b ⟨i, hi⟩) := by
      intro i hi
      rw [List.getElem?_eq_getElem (by rw [toBytes_length]; exact hi)]
      simp [toBytes]
    rw [e 16384 h, e 0 (by omega)]
    by_cases hb : b ⟨16384, h⟩ = b ⟨0, by omega⟩
    · rw [hb]; simp
    · simp [hb]

/-- **C93**, false for one key and two output lengths: the value of a short PRF at `m ‖ 0` is the beginning of the value of a long one at `m`, and a
short value is the beginning of the longer ones up to 64 bytes. -/
theorem c93_sizes_false {H : Bytes → Bytes} (hH : ∀ m, (H m).length = 64) (junk : Nat → UInt8) {fuel : Nat} (hf : 1024 ≤ fuel) (k : Bytes) (hk : k.length = 32)
    (m : Bytes) {n1 n2 : Nat} (h1 : n1 ≤ 64) (h2 : n1 ≤ n2) (h3 : n2 ≤ 65472) :
    ∃ x y, prfString H junk (some k) n1 fuel (if n2 ≤ 64 then m else m ++ [0]) = some (.ok x) ∧ prfString H junk (some k) n2 fuel m = some (.ok y) ∧
      x.length = n1 ∧ x = y.take n1 := by
  refine ⟨_, _, c17_prf hH junk k _ hk n1 (by omega) fuel hf, c17_prf hH junk k m hk n2 h3 fuel hf, c17_length hH k _ n1, ?_⟩
  unfold prfSpec
  rw [if_pos h1]
  by_cases h : n2 ≤ 64
  · rw [if_pos h, if_pos h, List.take_take, Nat.min_eq_left h2]
  · rw [if_neg h, if_neg h, List.take_take, Nat.min_eq_left h2]
    obtain ⟨c, hc⟩ : ∃ c, (n2 + 63) / 64 = c + 1 := ⟨(n2 + 63) / 64 - 1, by omega⟩
    have hl : (HMAC H k (m ++ [0])).length = 64 := hH _
    unfold prfBlocks
    rw [hc, List.range_succ_eq_map, List.flatMap_cons, show prfBlock H k m 0 = HMAC H k (m ++ [0]) from rfl,
      List.take_append_of_le_length (by omega)]

/-! Examples. -/

def compare : Att Bytes (Option (Res Bytes)) := .ask [1] fun x => .ask [2] fun y => .done (x == y)

theorem compare_two : AtMost 2 compare := .ask fun _ => .ask fun _ => .done _

example : AtMost 10 (hmacAttack 264 compare) := (c93_prf_partial toyH_length (fun _ => 3) (le_refl 1024) (nb := 264) (by decide) compare_two).1
example := c93_prf_partial toyH_length (fun _ => 3) (le_refl 1024) (nb := 264) (by decide) compare_two
example := c93_long_false toyH_length (fun _ => 3) (le_refl 1024) (nb := 20000) (by decide) (by decide)
example := c93_sizes_false toyH_length (fun _ => 3) (le_refl 1024) toyKey32 (by decide) [7] (n1 := 32) (n2 := 100) (by decide) (by decide) (by decide)

end Verif.Mac.Game
