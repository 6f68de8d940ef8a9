import Verif.Mac.LemmasRom

/-!
# C102: HMAC and `Prf` with a random hash function are random functions

`c93_prf_partial` leaves the advantage of an attack on HMAC.  Here the hash function is random, and the advantage is bounded: by the chance to guess the key
and the chance of a collision of inner hash values.
-/

namespace Verif.Mac.Rom

open Verif Verif.Mac Verif.Mac.Game Verif.Avg Verif.Oracle

/-! ## The points of the hash function that belong to the key -/

theorem pad_length (k : Block 32) (c : UInt8) : (pad (toBytes k) c).length = 128 := by
  unfold pad
  rw [List.length_map, List.length_append, toBytes_length, List.length_replicate]

theorem xor_cancel {x c d : UInt8} (h : x ^^^ c = x ^^^ d) : c = d := by
  have := congrArg (x ^^^ ·) h
  simpa [← UInt8.xor_assoc] using this

theorem pad_ne (k : Block 32) : pad (toBytes k) 0x36 ≠ pad (toBytes k) 0x5c := by
  intro h
  unfold pad at h
  cases hl : toBytes k ++ List.replicate (128 - (toBytes k).length) (0 : UInt8) with
  | nil =>
    have := congrArg List.length hl
    rw [List.length_append, toBytes_length, List.length_nil] at this
    omega
  | cons x l =>
    rw [hl, List.map_cons, List.map_cons, List.cons.injEq] at h
    exact absurd (xor_cancel h.1) (by decide)

/-- The strings that start with the inner or the outer padded key. -/
def secret (k : Block 32) (s : Bytes) : Bool := s.take 128 == pad (toBytes k) 0x36 || s.take 128 == pad (toBytes k) 0x5c

theorem pad_key {k : Block 32} {c : UInt8} {t : Bytes} (h : t = pad (toBytes k) c) (i : Fin 32) : k i = t.getD i 0 ^^^ c := by
  have : t.getD i 0 = k i ^^^ c := by
    subst h
    unfold pad
    have h1 : (toBytes k ++ List.replicate (128 - (toBytes k).length) (0 : UInt8))[i.val]? = some (k i) := by
      rw [List.getElem?_append_left (by rw [toBytes_length]; exact i.isLt)]
      unfold toBytes
      rw [List.getElem?_ofFn, dif_pos i.isLt]
    rw [List.getD_eq_getElem?_getD, List.getElem?_map, h1]
    rfl
  rw [this, UInt8.xor_assoc, UInt8.xor_self, UInt8.xor_zero]

/-- A string belongs to at most two keys. -/
theorem E_secret (s : Bytes) : E (fun k : Block 32 => if secret k s then (1 : ℚ) else 0) ≤ 2 / 256 ^ 32 := by
  let U : List (Block 32) := [fun i => (s.take 128).getD i 0 ^^^ 0x36, fun i => (s.take 128).getD i 0 ^^^ 0x5c]
  have hm : ∀ k : Block 32, (if secret k s then (1 : ℚ) else 0) ≤ if U.contains k then (1 : ℚ) else 0 := by
    intro k
    by_cases h : secret k s = true
    · rw [if_pos h]
      have : k ∈ U := by
        unfold secret at h
        rw [Bool.or_eq_true, beq_iff_eq, beq_iff_eq] at h
        rcases h with h | h
        · exact List.mem_cons.2 (.inl (funext fun i => pad_key h i))
        · exact List.mem_cons.2 (.inr (List.mem_singleton.2 (funext fun i => pad_key h i)))
      rw [if_pos (List.contains_iff_mem.2 this)]
    · rw [if_neg h]
      split <;> norm_num
  refine le_trans (E_mono hm) (le_trans (E_mem_le U) ?_)
  rw [card_block, show U.length = 2 from rfl, Nat.cast_pow]
  exact le_refl _

/-- The points at which HMAC under the key `k` asks for hash values: those of the messages, and those of the inner values. -/
def point {N n : Nat} (h1 : 192 ≤ N) (h2 : n + 128 ≤ N) (k : Block 32) : Str n ⊕ Block 64 → Str N
  | .inl m => ⟨pad (toBytes k) 0x36 ++ m.val, by have := m.property; rw [List.length_append, pad_length]; omega⟩
  | .inr x => ⟨pad (toBytes k) 0x5c ++ toBytes x, by rw [List.length_append, pad_length, toBytes_length]; omega⟩

theorem point_inj {N n : Nat} (h1 : 192 ≤ N) (h2 : n + 128 ≤ N) (k : Block 32) : Function.Injective (point h1 h2 k) := by
  have hl : (pad (toBytes k) 0x36).length = (pad (toBytes k) 0x5c).length := by rw [pad_length, pad_length]
  intro a b h
  have h' := congrArg Subtype.val h
  cases a with
  | inl m =>
    cases b with
    | inl m' => exact congrArg Sum.inl (Subtype.ext (List.append_cancel_left h'))
    | inr x => exact absurd (List.append_inj_left h' hl) (pad_ne k)
  | inr x =>
    cases b with
    | inl m' => exact absurd (List.append_inj_left h' hl.symm).symm (pad_ne k)
    | inr x' => exact congrArg Sum.inr (List.ofFn_injective (List.append_cancel_left h'))

theorem secret_point {N n : Nat} (h1 : 192 ≤ N) (h2 : n + 128 ≤ N) (k : Block 32) (p : Str n ⊕ Block 64) : secret k (point h1 h2 k p).val = true := by
  unfold secret
  rw [Bool.or_eq_true, beq_iff_eq, beq_iff_eq]
  cases p with
  | inl m => exact .inl (List.take_left' (pad_length k _))
  | inr x => exact .inr (List.take_left' (pad_length k _))

/-- HMAC with the hash function that is put together: the inner function of the message, and the outer function of that. -/
def nest {n : Nat} (U : Str n ⊕ Block 64 → Block 64) (m : Bytes) : Bytes := toBytes (U (.inr (get (fun _ => 0) (fun s => U (.inl s)) m)))

theorem hmac_nest {N n : Nat} (h1 : 192 ≤ N) (h2 : n + 128 ≤ N) (k : Block 32) (S R : Str N → Block 64) {m : Bytes} (hm : m.length ≤ n) :
    HMAC (hashOf (merge (fun s => secret k s.val) S R)) (toBytes k) m = nest (S ∘ point h1 h2 k) m := by
  have hp : ∀ p, merge (fun s : Str N => secret k s.val) S R (point h1 h2 k p) = S (point h1 h2 k p) := by
    intro p
    unfold merge
    rw [if_pos (secret_point h1 h2 k p)]
  have hv : ∀ p : Str N, hashOf (merge (fun s : Str N => secret k s.val) S R) p.val = toBytes (merge (fun s : Str N => secret k s.val) S R p) := by
    intro p
    unfold hashOf
    rw [dif_pos p.property]
  have hin : hashOf (merge (fun s : Str N => secret k s.val) S R) (pad (toBytes k) 0x36 ++ m) = toBytes (S (point h1 h2 k (.inl ⟨m, hm⟩))) := by
    rw [← hp]
    exact hv (point h1 h2 k (.inl ⟨m, hm⟩))
  unfold HMAC nest get
  rw [hin, dif_pos hm]
  simp only [Function.comp]
  rw [← hp (.inr _)]
  exact hv (point h1 h2 k (.inr (S (point h1 h2 k (.inl ⟨m, hm⟩)))))

/-! ## The bound -/

/-- What the attack does on HMAC under a uniform key, with a uniform hash function. -/
noncomputable def real (N : Nat) (A : Att Ask Bytes) : ℚ :=
  E fun k : Block 32 => E fun T : Str N → Block 64 => play (answers (hashOf T) (HMAC (hashOf T) (toBytes k))) A

theorem hmem64 (U : List (Block 64)) : E (fun x : Block 64 => if U.contains x then (1 : ℚ) else 0) ≤ U.length * (1 / 256 ^ 64) := by
  have := E_mem_le U
  rw [card_block, Nat.cast_pow] at this
  rw [mul_one_div]
  exact this

theorem answers_congr {n : Nat} {H F F' : Bytes → Bytes} (h : ∀ m : Bytes, m.length ≤ n → F m = F' m) {A : Att Ask Bytes} (hA : Asks (Short n) A) :
    play (answers H F) A = play (answers H F') A :=
  play_congr (fun s hs => by cases s with | hash s => rfl | mac m => exact h m hs) hA

/-- The middle game: hash values have nothing to do with the key. -/
noncomputable def middle (N n : Nat) (A : Att Ask Bytes) : ℚ :=
  E fun U : Str n ⊕ Block 64 → Block 64 => E fun R : Str N → Block 64 => play (answers (hashOf R) (nest U)) A

theorem real_middle {N n : Nat} (h1 : 192 ≤ N) (h2 : n + 128 ≤ N) {qh qm : Nat} {A : Att Ask Bytes} (hA : Counts qh qm A) (hs : Asks (Short n) A) :
    |real N A - middle N n A| ≤ qh * (2 / 256 ^ 32) := by
  have hr : real N A = E fun k : Block 32 => E fun S : Str N → Block 64 => E fun R : Str N → Block 64 =>
      play (answers (hashOf (merge (fun s => secret k s.val) S R)) (nest (S ∘ point h1 h2 k))) A := by
    unfold real
    refine congrArg E (funext fun k => ?_)
    rw [E_merge fun s : Str N => secret k s.val]
    exact congrArg E (funext fun S => congrArg E (funext fun R => answers_congr (fun m hm => hmac_nest h1 h2 k S R hm) hs))
  have hmid : middle N n A = E fun k : Block 32 => E fun S : Str N → Block 64 => E fun R : Str N → Block 64 =>
      play (answers (hashOf R) (nest (S ∘ point h1 h2 k))) A := by
    have : ∀ k : Block 32, E (fun S : Str N → Block 64 => E fun R : Str N → Block 64 => play (answers (hashOf R) (nest (S ∘ point h1 h2 k))) A) = middle N n A :=
      fun k => Prg.Game.E_inj (point h1 h2 k) (point_inj h1 h2 k) fun U => E fun R : Str N → Block 64 => play (answers (hashOf R) (nest U)) A
    simp only [this, E_const]
  have hh : (E fun k : Block 32 => E fun S : Str N → Block 64 => E fun R : Str N → Block 64 => hits (secret k) (hashOf R) (nest (S ∘ point h1 h2 k)) A)
      ≤ qh * (2 / 256 ^ 32) := by
    have : ∀ k : Block 32, E (fun S : Str N → Block 64 => E fun R : Str N → Block 64 => hits (secret k) (hashOf R) (nest (S ∘ point h1 h2 k)) A) =
        E fun U : Str n ⊕ Block 64 → Block 64 => E fun R : Str N → Block 64 => hits (secret k) (hashOf R) (nest U) A :=
      fun k => Prg.Game.E_inj (point h1 h2 k) (point_inj h1 h2 k) fun U => E fun R : Str N → Block 64 => hits (secret k) (hashOf R) (nest U) A
    simp only [this]
    rw [E_comm]
    have hU : ∀ U : Str n ⊕ Block 64 → Block 64, (E fun k : Block 32 => E fun R : Str N → Block 64 => hits (secret k) (hashOf R) (nest U) A) ≤ qh * (2 / 256 ^ 32) := by
      intro U
      rw [E_comm]
      have := E_mono fun R : Str N → Block 64 => E_hits secret (by positivity) E_secret (hashOf R) (nest U) hA
      rwa [E_const] at this
    have := E_mono hU
    rwa [E_const] at this
  rw [hr, hmid]
  refine le_trans (abs_E_sub_le_E _ _ _ fun k => abs_E_sub_le_E _ _ _ fun S => abs_E_sub_le_E _ _ _ fun R => ?_) hh
  refine play_hits _ (fun s hb => ?_) A
  unfold hashOf
  by_cases hl : s.length ≤ N
  · rw [dif_pos hl, dif_pos hl]
    exact congrArg toBytes (if_neg (by simp [hb]))
  · rw [dif_neg hl, dif_neg hl]

theorem middle_ideal {N n : Nat} {qh qm : Nat} {A : Att Ask Bytes} (hA : Counts qh qm A) (hs : Asks (Short n) A) :
    |middle N n A - ideal N 64 A| ≤ qm * (qm - 1) / 2 * (1 / 256 ^ 64) := by
  have hm : middle N n A = E fun R : Str N → Block 64 => E fun I : Str n → Block 64 => E fun O : Block 64 → Block 64 =>
      play (fun m => toBytes (overO [] O (overI (fun _ => 0) [] I m))) (overHash (hashOf R) A) := by
    unfold middle
    rw [E_comm]
    refine congrArg E (funext fun R => ?_)
    rw [← E_equiv (Equiv.sumArrowEquivProdArrow (Str n) (Block 64) (Block 64)).symm, E_prod]
    refine congrArg E (funext fun I => congrArg E (funext fun O => ?_))
    rw [play_overHash]
    rfl
  rw [hm]
  unfold ideal
  refine abs_E_sub_le _ _ fun R => ?_
  have := comp_fresh (fun b : Block 64 => toBytes b) (fun _ => 0) (by positivity) hmem64 (atMost_overHash (hashOf R) hA) (asks_overHash (hashOf R) hs) []
    (by simp)
  rw [List.length_nil, Nat.cast_zero, mul_zero, zero_add] at this
  exact this

/-- **C102**: an attack that asks for `qh` hash values and for HMAC at `qm` messages of at most `n` bytes tells HMAC under a uniform key from independent
uniform strings with probability at most `2 qh / 256³² + qm (qm - 1) / 2 / 256⁶⁴`, when the hash function is random. -/
theorem c102_hmac {N n : Nat} (h1 : 192 ≤ N) (h2 : n + 128 ≤ N) {qh qm : Nat} {A : Att Ask Bytes} (hA : Counts qh qm A) (hs : Asks (Short n) A) :
    |real N A - ideal N 64 A| ≤ qh * (2 / 256 ^ 32) + qm * (qm - 1) / 2 * (1 / 256 ^ 64) :=
  le_trans (abs_sub_le _ (middle N n A) _) (add_le_add (real_middle h1 h2 hA hs) (middle_ideal hA hs))

/-! ## The code -/

theorem hashOf_length {N : Nat} (T : Str N → Block 64) (s : Bytes) : (hashOf T s).length = 64 := by
  unfold hashOf
  split
  · exact toBytes_length _
  · exact List.length_replicate

theorem hashString_eq {H : Bytes → Bytes} (hH : ∀ m, (H m).length = 64) (s : Bytes) : hashString H s = .ok (H s) := by
  unfold hashString hashBuf
  simp only [Bool.false_eq_true, if_false, Res.map_ok]
  rw [List.take_of_length_le (Nat.le_of_eq (hH s))]

theorem counts_through {γ δ : Type} (f : γ → δ) {qh qm : Nat} {A : Att Ask δ} (hA : Counts qh qm A) : Counts qh qm (through f A) := by
  induction hA with
  | done b => exact .done b
  | hash _ ih => exact .hash fun y => ih _
  | mac _ ih => exact .mac fun y => ih _

theorem asks_through {ι γ δ : Type} (f : γ → δ) {P : ι → Prop} {A : Att ι δ} (hA : Asks P A) : Asks P (through f A) := by
  induction hA with
  | done b => exact .done b
  | ask hs _ ih => exact .ask hs fun y => ih _

/-- **C102**, the code: `Hash::hash` and `HMac<Hash, 32>::hmac`, where memory that is not initialised may hold anything, the key and the hash function included. -/
theorem c102_hmac_code {N n : Nat} (h1 : 192 ≤ N) (h2 : n + 128 ≤ N) (junk : Block 32 → (Str N → Block 64) → Bytes → Nat → UInt8) {qh qm : Nat}
    {A : Att Ask (Res Bytes)} (hA : Counts qh qm A) (hs : Asks (Short n) A) :
    |E (fun k : Block 32 => E fun T : Str N → Block 64 =>
        play (answers (hashString (hashOf T)) fun m => hmacString (hashOf T) (junk k T m) 32 (some (toBytes k)) m) A) - ideal N 64 (through .ok A)|
      ≤ qh * (2 / 256 ^ 32) + qm * (qm - 1) / 2 * (1 / 256 ^ 64) := by
  have e : E (fun k : Block 32 => E fun T : Str N → Block 64 =>
      play (answers (hashString (hashOf T)) fun m => hmacString (hashOf T) (junk k T m) 32 (some (toBytes k)) m) A) = real N (through .ok A) := by
    unfold real
    refine congrArg E (funext fun k => congrArg E (funext fun T => ?_))
    rw [play_through]
    congr 1
    funext s
    cases s with
    | hash s => exact hashString_eq (hashOf_length T) s
    | mac m =>
      have := (c16_overloads (hashOf_length T) (junk k T m) (junk k T m) (toBytes k) m (by rw [toBytes_length]; decide)).1
      rw [toBytes_length] at this
      exact this
  rw [e]
  exact c102_hmac h1 h2 (counts_through _ hA) (asks_through _ hs)

/-! ## `Prf` -/

/-- Ask for the values of all the messages, and go on with them one after the other. -/
def askMacs : List Bytes → Bytes → (Bytes → Att Ask Bytes) → Att Ask Bytes
  | [], acc, k => k acc
  | m :: l, acc, k => .ask (.mac m) fun y => askMacs l (acc ++ y) k

/-- The attack on HMAC that an attack on the expansion to `nb` bytes makes. -/
def expandMac (nb : Nat) : Att Ask Bytes → Att Ask Bytes
  | .done b => .done b
  | .ask (.hash s) c => .ask (.hash s) fun y => expandMac nb (c y)
  | .ask (.mac m) c => askMacs (inputs nb m) [] fun y => expandMac nb (c (y.take nb))

theorem overHash_askMacs (H : Bytes → Bytes) (k : Bytes → Att Ask Bytes) : ∀ (l : List Bytes) (acc : Bytes),
    overHash H (askMacs l acc k) = askAll l acc fun y => overHash H (k y)
  | [], _ => rfl
  | m :: l, acc => by
    simp only [askMacs, overHash, askAll]
    exact congrArg _ (funext fun y => overHash_askMacs H k l _)

theorem overHash_expand (H : Bytes → Bytes) (nb : Nat) (A : Att Ask Bytes) : overHash H (expandMac nb A) = expand (inputs nb) nb (overHash H A) := by
  induction A with
  | done b => rfl
  | ask s c ih =>
    cases s with
    | hash s => exact ih _
    | mac m =>
      simp only [expandMac, overHash, expand]
      rw [overHash_askMacs]
      exact congrArg _ (funext fun y => ih _)

theorem counts_askMacs {qh qm : Nat} {k : Bytes → Att Ask Bytes} (hk : ∀ y, Counts qh qm (k y)) : ∀ (l : List Bytes) (acc : Bytes),
    Counts qh (qm + l.length) (askMacs l acc k)
  | [], acc => hk acc
  | _ :: l, _ => .mac fun _ => counts_askMacs hk l _

theorem counts_expand (nb : Nat) {qh qm : Nat} {A : Att Ask Bytes} (hA : Counts qh qm A) : Counts qh (qm * calls nb) (expandMac nb A) := by
  induction hA with
  | done b => exact .done b
  | hash _ ih => exact .hash fun y => ih _
  | @mac qh qm m c _ ih =>
    have := counts_askMacs (qh := qh) (qm := qm * calls nb) (k := fun y => expandMac nb (c (y.take nb))) (fun y => ih _) (inputs nb m) []
    rw [inputs_length] at this
    rw [Nat.succ_mul]
    exact this

theorem asks_askMacs {n : Nat} {k : Bytes → Att Ask Bytes} (hk : ∀ y, Asks (Short n) (k y)) : ∀ (l : List Bytes) (acc : Bytes), (∀ m ∈ l, m.length ≤ n) →
    Asks (Short n) (askMacs l acc k)
  | [], acc, _ => hk acc
  | m :: l, _, h => .ask (h m List.mem_cons_self) fun _ => asks_askMacs hk l _ fun m' hm' => h m' (List.mem_cons_of_mem _ hm')

theorem inputs_short {nb n : Nat} {m : Bytes} (hm : m.length ≤ n) : ∀ s ∈ inputs nb m, s.length ≤ n + 1 := by
  intro s hs
  unfold inputs at hs
  split at hs
  · rw [List.mem_singleton] at hs
    subst hs
    omega
  · rw [List.mem_map] at hs
    obtain ⟨i, _, rfl⟩ := hs
    rw [List.length_append, List.length_singleton]
    omega

theorem asks_expand (nb : Nat) {n : Nat} {A : Att Ask Bytes} (hA : Asks (Short n) A) : Asks (Short (n + 1)) (expandMac nb A) := by
  induction hA with
  | done b => exact .done b
  | @ask s c hs _ ih =>
    cases s with
    | hash s => exact .ask trivial fun y => ih _
    | mac m => exact asks_askMacs (fun y => ih _) _ _ (inputs_short hs)

/-- **C102**: an attack that asks for `qh` hash values and for `Prf<nb>` at `qm` messages of at most `n` bytes tells it from independent uniform strings of
`nb` bytes with probability at most `2 qh / 256³² + Q (Q - 1) / 2 / 256⁶⁴`, where `Q` is `qm` times the number of blocks. -/
theorem c102_prf {N n nb : Nat} (h1 : 192 ≤ N) (h2 : n + 129 ≤ N) (hnb : nb ≤ 16384) (junk : Block 32 → (Str N → Block 64) → Bytes → Nat → UInt8) {fuel : Nat}
    (hf : 1024 ≤ fuel) {qh qm : Nat} {A : Att Ask (Option (Res Bytes))} (hA : Counts qh qm A) (hs : Asks (Short n) A) :
    |E (fun k : Block 32 => E fun T : Str N → Block 64 =>
        play (answers (fun s => some (hashString (hashOf T) s)) fun m => prfString (hashOf T) (junk k T m) (some (toBytes k)) nb fuel m) A)
        - ideal N nb (through (fun y => some (.ok y)) A)|
      ≤ qh * (2 / 256 ^ 32) + (qm * calls nb : ℕ) * ((qm * calls nb : ℕ) - 1) / 2 * (1 / 256 ^ 64) := by
  have hA' := counts_through (fun y : Bytes => (some (.ok y) : Option (Res Bytes))) hA
  have hs' := asks_through (fun y : Bytes => (some (.ok y) : Option (Res Bytes))) hs
  have e : E (fun k : Block 32 => E fun T : Str N → Block 64 =>
      play (answers (fun s => some (hashString (hashOf T) s)) fun m => prfString (hashOf T) (junk k T m) (some (toBytes k)) nb fuel m) A) =
      real N (expandMac nb (through (fun y => some (.ok y)) A)) := by
    unfold real
    refine congrArg E (funext fun k => congrArg E (funext fun T => ?_))
    rw [play_overHash (hashOf T) (HMAC (hashOf T) (toBytes k)), overHash_expand, play_expand, ← play_overHash, play_through]
    congr 1
    funext s
    cases s with
    | hash s => exact congrArg some (hashString_eq (hashOf_length T) s)
    | mac m =>
      simp only [answers]
      rw [← prfSpec_inputs]
      exact c17_prf (hashOf_length T) (junk k T m) (toBytes k) m (toBytes_length k) nb (by omega) fuel hf
  have e' : ideal N nb (through (fun y => some (.ok y)) A) = ideal N 64 (expandMac nb (through (fun y => some (.ok y)) A)) := by
    unfold ideal
    refine congrArg E (funext fun T => ?_)
    rw [overHash_expand, fresh_expand (inputs_length nb) (inputs_nodup hnb) (inputs_disjoint nb) (calls_enough nb) _ [] [] fun m => by simp]
  rw [e, e']
  exact c102_hmac h1 (by omega) (counts_expand nb hA') (asks_expand nb hs')

/-! ## Forgeries -/

/-- The attack that runs the forger and asks for the value it has to guess. -/
def forge (t : Nat) : List Bytes → Forger → Att Ask Bytes
  | asked, .out m tag => if m ∈ asked then .done false else .ask (.mac m) fun y => .done (y.take t == tag)
  | asked, .hash s c => .ask (.hash s) fun y => forge t asked (c y)
  | asked, .mac m c => .ask (.mac m) fun y => forge t (m :: asked) (c (y.take t))

theorem play_forge (H F : Bytes → Bytes) (t : Nat) (A : Forger) : ∀ asked, play (answers H F) (forge t asked A) = wins H (fun m => (F m).take t) asked A := by
  induction A with
  | out m tag =>
    intro asked
    unfold forge wins
    by_cases h : m ∈ asked
    · rw [if_pos h, if_neg (fun c => c.1 h)]
      rfl
    · rw [if_neg h]
      simp only [play, answers, beq_iff_eq]
      by_cases c : (F m).take t = tag
      · rw [if_pos c, if_pos ⟨h, c⟩]
      · rw [if_neg c, if_neg fun c' => c c'.2]
  | hash s c ih => exact fun asked => ih _ asked
  | mac m c ih => exact fun asked => ih _ _

theorem fresh_forge (H : Bytes → Bytes) {t : Nat} (ht : t ≤ 64) (A : Forger) : ∀ (asked : List Bytes) (L : List (Bytes × Bytes)),
    (∀ m, m ∉ asked → L.lookup m = none) → fresh (fun b : Block 64 => toBytes b) L (overHash H (forge t asked A)) ≤ 1 / 256 ^ t := by
  induction A with
  | out m tag =>
    intro asked L hL
    unfold forge
    by_cases h : m ∈ asked
    · rw [if_pos h]
      simp only [overHash, fresh, Bool.false_eq_true, if_false]
      positivity
    · rw [if_neg h]
      simp only [overHash, fresh, hL m h]
      rw [E_take ht fun y => if (y == tag) = true then (1 : ℚ) else 0]
      let U : List (Block t) := [fun i => tag.getD i 0]
      refine le_trans (E_mono (g := fun b => if U.contains b then (1 : ℚ) else 0) fun b => ?_) (le_trans (E_mem_le U) ?_)
      · by_cases c : (toBytes b == tag) = true
        · rw [if_pos c]
          rw [beq_iff_eq] at c
          have : b = fun i : Fin t => tag.getD i 0 := by
            funext i
            rw [← c]
            unfold toBytes
            rw [List.getD_eq_getElem?_getD, List.getElem?_ofFn, dif_pos i.isLt]
            rfl
          rw [if_pos (List.contains_iff_mem.2 (List.mem_singleton.2 this))]
        · rw [if_neg c]
          split <;> norm_num
      · rw [card_block, show U.length = 1 from rfl, Nat.cast_pow, Nat.cast_one]
        exact le_refl _
  | hash s c ih => exact fun asked L hL => ih _ asked L hL
  | mac m c ih =>
    intro asked L hL
    simp only [forge, overHash, fresh]
    have hL' : ∀ y m', m' ∉ m :: asked → ((m, y) :: L).lookup m' = none := by
      intro y m' h
      rw [List.mem_cons, not_or] at h
      rw [List.lookup_cons, show (m' == m) = false by simpa using h.1]
      exact hL m' h.2
    cases hl : L.lookup m with
    | some y => exact ih _ _ L fun m' h => hL m' fun c => h (List.mem_cons_of_mem _ c)
    | none =>
      have := E_mono fun b : Block 64 => ih ((toBytes b).take t) (m :: asked) ((m, toBytes b) :: L) (hL' _)
      rw [E_const] at this
      exact this

theorem counts_forge (t : Nat) {qh qm : Nat} {A : Forger} (hA : Forger.Counts qh qm A) : ∀ asked, Rom.Counts qh (qm + 1) (forge t asked A) := by
  induction hA with
  | out m tag =>
    intro asked
    unfold forge
    split
    · exact .done _
    · exact .mac fun y => .done _
  | hash _ ih => exact fun asked => .hash fun y => ih _ asked
  | mac _ ih => exact fun asked => .mac fun y => ih _ _

theorem asks_forge (t : Nat) {n : Nat} {A : Forger} (hA : Forger.Short n A) : ∀ asked, Asks (Rom.Short n) (forge t asked A) := by
  induction hA with
  | out hm =>
    intro asked
    unfold forge
    split
    · exact .done _
    · exact .ask hm fun y => .done _
  | hash _ ih => exact fun asked => .ask trivial fun y => ih _ asked
  | mac hm _ ih => exact fun asked => .ask hm fun y => ih _ _

/-- The tag that the code stores for a message, empty if it does not store one. -/
def tagOf (r : Res Bytes) : Bytes :=
  match r with
  | .ok t => t
  | _ => []

/-- **C102**: whoever sees `qm` tags of `t` bytes of messages of their choice and `qh` hash values finds the tag of another message with probability at most
`1 / 256ᵗ + 2 qh / 256³² + qm (qm + 1) / 2 / 256⁶⁴`. -/
theorem c102_forgery {N n t : Nat} (h1 : 192 ≤ N) (h2 : n + 128 ≤ N) (ht : t ≤ 64) (junk : Block 32 → (Str N → Block 64) → Bytes → Nat → UInt8) {qh qm : Nat}
    {A : Forger} (hA : A.Counts qh qm) (hs : A.Short n) :
    E (fun k : Block 32 => E fun T : Str N → Block 64 =>
        wins (hashOf T) (fun m => tagOf (hmac (hashOf T) (junk k T m) 32 (some (toBytes k)) (some m) false t)) [] A)
      ≤ 1 / 256 ^ t + (qh * (2 / 256 ^ 32) + (qm + 1) * qm / 2 * (1 / 256 ^ 64)) := by
  have e : E (fun k : Block 32 => E fun T : Str N → Block 64 =>
      wins (hashOf T) (fun m => tagOf (hmac (hashOf T) (junk k T m) 32 (some (toBytes k)) (some m) false t)) [] A) = real N (forge t [] A) := by
    unfold real
    refine congrArg E (funext fun k => congrArg E (funext fun T => ?_))
    rw [play_forge]
    congr 1
    funext m
    have := c16_hmac_partial (hashOf_length T) (junk k T m) (toBytes k) m (by rw [toBytes_length]; decide) t ht
    rw [toBytes_length] at this
    rw [this]
    rfl
  have h := c102_hmac h1 h2 (counts_forge t hA []) (asks_forge t hs [])
  have hi : ideal N 64 (forge t [] A) ≤ 1 / 256 ^ t := by
    unfold ideal
    have := E_mono fun T : Str N → Block 64 => fresh_forge (hashOf T) ht A [] [] fun m _ => rfl
    rwa [E_const] at this
  rw [e]
  push_cast at h
  rw [add_sub_cancel_right] at h
  have := (abs_le.1 h).2
  linarith

/-- **C102**: the term `1 / 256ᵗ` cannot be improved: a uniform guess of the tag of any message is right with exactly this probability, whatever the hash function. -/
theorem c102_guess {H : Bytes → Bytes} (hH : ∀ m, (H m).length = 64) (junk : Nat → UInt8) (k : Block 32) (m : Bytes) {t : Nat} (ht : t ≤ 64) :
    E (fun g : Block t => wins H (fun m => tagOf (hmac H junk 32 (some (toBytes k)) (some m) false t)) [] (.out m (toBytes g))) = 1 / 256 ^ t := by
  have h := c16_hmac_partial hH junk (toBytes k) m (by rw [toBytes_length]; decide) t ht
  rw [toBytes_length] at h
  simp only [wins, h, tagOf, List.not_mem_nil, not_false_eq_true, true_and]
  have hl : ((HMAC H (toBytes k) m).take t).length = t := by
    rw [List.length_take, show (HMAC H (toBytes k) m).length = 64 from hH _]
    omega
  generalize (HMAC H (toBytes k) m).take t = tag at hl
  subst hl
  have e : (fun g : Block tag.length => if tag = toBytes g then (1 : ℚ) else 0) = fun g => if g = (fun i => tag[i.val]) then (1 : ℚ) else 0 := by
    funext g
    have : tag = toBytes g ↔ g = fun i => tag[i.val] := by
      constructor
      · intro h
        apply List.ofFn_injective
        rw [List.ofFn_getElem]
        exact h.symm
      · intro h
        rw [h]
        exact List.ofFn_getElem.symm
    simp only [this]
  rw [e]
  unfold E
  rw [Finset.sum_ite_eq', if_pos (Finset.mem_univ _), card_block, Nat.cast_pow]
  rfl

/-! ## Examples -/

/-- Two tags, a hash value that depends on them, and the tag of a third message. -/
def someForger : Forger := .mac [1] fun y => .mac [2] fun z => .hash (y ++ z) fun x => .out [3] (x.take 32)

example : E (fun k : Block 32 => E fun T : Str 256 → Block 64 =>
    wins (hashOf T) (fun m => tagOf (hmac (hashOf T) (fun i => UInt8.ofNat i) 32 (some (toBytes k)) (some m) false 32)) [] someForger)
      ≤ 1 / 256 ^ 32 + ((1 : ℕ) * (2 / 256 ^ 32) + ((2 : ℕ) + 1) * (2 : ℕ) / 2 * (1 / 256 ^ 64)) :=
  c102_forgery (n := 128) (by decide) (by decide) (by decide) (fun _ _ _ i => UInt8.ofNat i) (.mac fun _ => .mac fun _ => .hash fun _ => .out _ _)
    (.mac (by decide) fun _ => .mac (by decide) fun _ => .hash fun _ => .out (by decide))

/-- Is the value of the message the hash value of a guess? -/
def someAttack : Att Ask Bytes := .ask (.mac [7]) fun y => .ask (.hash (List.replicate 128 0x36 ++ [7])) fun z =>
  .ask (.hash (List.replicate 128 0x5c ++ z)) fun w => .done (y == w)

example : |real 256 someAttack - ideal 256 64 someAttack| ≤ (2 : ℕ) * (2 / 256 ^ 32) + (1 : ℕ) * ((1 : ℕ) - 1) / 2 * (1 / 256 ^ 64) :=
  c102_hmac (n := 1) (by decide) (by decide) (.mac fun _ => .hash fun _ => .hash fun _ => .done _)
    (.ask (show ([7] : Bytes).length ≤ 1 by decide) fun _ => .ask trivial fun _ => .ask trivial fun _ => .done _)

/-- Are two values equal? -/
def twoValues : Att Ask (Option (Res Bytes)) := .ask (.mac [1]) fun y => .ask (.mac [2]) fun z => .done (decide (y = z))

example : |E (fun k : Block 32 => E fun T : Str 256 → Block 64 =>
        play (answers (fun s => some (hashString (hashOf T) s)) fun m => prfString (hashOf T) ((fun _ _ _ _ => 0) k T m) (some (toBytes k)) 100 1024 m) twoValues)
        - ideal 256 100 (through (fun y => some (.ok y)) twoValues)|
      ≤ (0 : ℕ) * (2 / 256 ^ 32) + (2 * calls 100 : ℕ) * ((2 * calls 100 : ℕ) - 1) / 2 * (1 / 256 ^ 64) :=
  c102_prf (n := 1) (by decide) (by decide) (by decide) (fun _ _ _ _ => 0) (Nat.le_refl 1024) (.mac fun _ => .mac fun _ => .done _)
    (.ask (show ([1] : Bytes).length ≤ 1 by decide) fun _ => .ask (show ([2] : Bytes).length ≤ 1 by decide) fun _ => .done _)

end Verif.Mac.Rom
