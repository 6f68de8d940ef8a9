import Verif.Tdp.SpecTokens
import Verif.Tdp.PropsHard
import Verif.Mac.PropsRom

/-!
# Tokens with seeds from a key (C106)
-/

namespace Verif.Tdp.Tokens

open Verif Verif.Tdp Verif.Tdp.Hard Verif.Avg Verif.Oracle Verif.Mac Verif.Mac.Rom

/-! ## Asking for many values first -/

section gather

variable {ι : Type}

/-- Ask for the values at `s 0`, `s 1`, ..., and go on. -/
def gather {γ : Type} : (n : Nat) → (Fin n → ι) → ((Fin n → γ) → Att ι γ) → Att ι γ
  | 0, _, c => c Fin.elim0
  | n + 1, s, c => .ask (s 0) fun y => gather n (fun i => s i.succ) fun f => c (Fin.cons y f)

theorem cons_eta {γ : Type} {n : Nat} (f : Fin (n + 1) → γ) : Fin.cons (f 0) (fun i => f i.succ) = f := Fin.cons_self_tail f

theorem play_gather {γ : Type} (F : ι → γ) : ∀ (n : Nat) (s : Fin n → ι) (c : (Fin n → γ) → Att ι γ), play F (gather n s c) = play F (c fun i => F (s i))
  | 0, s, c => by rw [gather]; exact congrArg (fun f => play F (c f)) (funext fun i => i.elim0)
  | n + 1, s, c => by
    rw [gather, play, play_gather F n]
    exact congrArg (fun f => play F (c f)) (cons_eta fun i => F (s i))

theorem through_gather {γ δ : Type} (g : γ → δ) : ∀ (n : Nat) (s : Fin n → ι) (c : (Fin n → δ) → Att ι δ),
    through g (gather n s c) = gather n s fun f => through g (c fun i => g (f i))
  | 0, s, c => by rw [gather, gather]; exact congrArg (fun f => through g (c f)) (funext fun i => i.elim0)
  | n + 1, s, c => by
    rw [gather, through, gather]
    congr 1
    funext y
    rw [through_gather g n]
    congr 1
    funext f
    refine congrArg (fun f => through g (c f)) (funext fun i => ?_)
    refine Fin.cases rfl (fun j => rfl) i

theorem atMost_gather {γ : Type} {q : Nat} : ∀ (n : Nat) (s : Fin n → ι) (c : (Fin n → γ) → Att ι γ), (∀ f, AtMost q (c f)) → AtMost (q + n) (gather n s c)
  | 0, _, c, h => h _
  | n + 1, _, _, h => .ask fun _ => atMost_gather n _ _ fun _ => h _

theorem E_cons {α : Type} [Fintype α] {n : Nat} (f : (Fin (n + 1) → α) → ℚ) : E f = E fun a => E fun t : Fin n → α => f (Fin.cons a t) := by
  rw [← E_equiv (Fin.consEquiv fun _ : Fin (n + 1) => α), E_prod]
  rfl

theorem fresh_gather {α γ : Type} [BEq ι] [LawfulBEq ι] [Fintype α] [Nonempty α] (u : α → γ) : ∀ (n : Nat) (s : Fin n → ι) (_ : Function.Injective s)
    (c : (Fin n → γ) → Bool) (L : List (ι × γ)) (_ : ∀ i, L.lookup (s i) = none),
    fresh u L (gather n s fun f => .done (c f)) = E fun a : Fin n → α => if c (fun i => u (a i)) = true then 1 else 0
  | 0, s, _, c, L, _ => by
    have : (fun a : Fin 0 → α => if c (fun i => u (a i)) = true then (1 : ℚ) else 0) = fun _ => if c Fin.elim0 = true then 1 else 0 := by
      funext a
      rw [show (fun i => u (a i)) = Fin.elim0 from funext fun i => i.elim0]
    rw [this, E_const]
    rfl
  | n + 1, s, hs, c, L, hL => by
    rw [gather, fresh, hL 0, E_cons]
    refine congrArg E (funext fun a => ?_)
    rw [fresh_gather u n (fun i => s i.succ) (fun i j h => Fin.succ_injective _ (hs h)) (fun f => c (Fin.cons (u a) f))]
    · refine congrArg E (funext fun t => ?_)
      have : (Fin.cons (u a) fun i => u (t i) : Fin (n + 1) → γ) = fun i => u ((Fin.cons a t : Fin (n + 1) → α) i) := by
        funext i
        refine Fin.cases rfl (fun j => rfl) i
      rw [this]
    · intro i
      rw [List.lookup_cons, hL]
      have : (s i.succ == s 0) = false := by
        rw [beq_eq_false_iff_ne]
        intro h
        exact Fin.succ_ne_zero i (hs h)
      rw [this]

end gather

/-! ## Seeds -/

/-- The message of 264 bytes of the PRF. -/
def seedOf (k : Rsa) (rnd : Bytes) : Bytes := beBytes 256 (beNat rnd % k.N)

theorem generate_found {k : Rsa} {s : Priv} (h : TdpKey k s) (H : Bytes → Bytes) (junk : Nat → UInt8) (fuel : Nat) (key : Bytes) (name : Bytes) {rnd : Bytes}
    (hr : prfString H junk (some key) 264 fuel name = some (.ok rnd)) : found (generate H junk fuel (some key) k name) = seedOf k rnd := by
  have hlt := Nat.mod_lt (beNat rnd) h.key.Npos
  unfold generate
  rw [hr]
  simp only [Option.map_some, Res.bind_ok]
  rw [mpiMod_nat h.key.Npos]
  simp only [orThrow, Res.bind_ok, writeZeroed]
  unfold msgSize
  rw [mpiWrite_some (lt_trans hlt h.size)]
  rfl

/-- Uniform strings of 264 bytes as seeds. -/
theorem uniform_seeds {k : Rsa} {s : Priv} (h : TdpKey k s) {n T : Nat} (A : Player n T) :
    E (fun b : Fin n → Block 264 => prob (Hard.wins (fun j t => token k (seedOf k (toBytes (b j))) t) (fun _ => 0) A = true))
      ≤ (∑ j : Fin n, ∑ u : Fin T, E fun y : Fin k.N => E fun v : Fin n → Fin k.N =>
          prob (Inverts k (solve (evalOf k) j u (beBytes 256 y) (fun i => beBytes 256 (v i)) A) (beBytes 256 y))) + n / 2 ^ 66 := by
  have hne : Nonempty (Fin k.N) := ⟨⟨0, h.key.Npos⟩⟩
  have hy := hybrid (u := fun b : Block 264 => (.ok (Rsa.msg (beNat (toBytes b) % k.N)) : Res Bytes))
    (v := fun x : Fin k.N => (.ok (Rsa.msg x) : Res Bytes)) (Rsa.bytes_close h.key.Npos h.size) n
    (fun f => prob (Hard.wins (fun j t => token k (bytesOf (f j)) t) (fun _ => 0) A = true)) fun f => prob_test
  rw [mul_one_div] at hy
  have h2 := c104_chain h A
  have h3 := (abs_le.1 hy).2
  have h4 : (fun x : Fin n → Fin k.N => prob (Hard.wins (fun j (t : Fin T) => token k (bytesOf (.ok (Rsa.msg (x j)))) t) (fun _ => 0) A = true)) =
      fun seeds => prob (Hard.wins (fun j (t : Fin T) => token k (beBytes 256 (seeds j)) t) (fun _ => 0) A = true) := rfl
  have h5 : (fun b : Fin n → Block 264 => prob (Hard.wins (fun j (t : Fin T) => token k (bytesOf (.ok (Rsa.msg (beNat (toBytes (b j)) % k.N)))) t) (fun _ => 0) A = true)) =
      fun b => prob (Hard.wins (fun j (t : Fin T) => token k (seedOf k (toBytes (b j))) t) (fun _ => 0) A = true) := rfl
  rw [h4, h5] at h3
  linarith

/-! ## The player as an attack on the PRF -/

/-- Run the player with the tokens `tok`, asking for hash values only. -/
def run {n T : Nat} (tok : Fin n → Fin T → Bytes) : (Fin n → Nat) → HPlayer n T → Att Ask (Option (Res Bytes))
  | seen, .guess j t x => .done (decide (seen j ≤ t.val) && decide (x = tok j t))
  | seen, .ask j t next => run tok (Function.update seen j (max (seen j) (t.val + 1))) (next (tok j t))
  | seen, .hash s next => .ask (.hash s) fun y => run tok seen (next (found y))

/-- Ask for the seeds of all chains, then run the player. -/
def attack (k : Rsa) {n T : Nat} (names : Fin n → Bytes) (A : HPlayer n T) : Att Ask (Option (Res Bytes)) :=
  gather n (fun j => .mac (names j)) fun f => run (fun j t => token k (seedOf k (found (f j))) t) (fun _ => 0) A

theorem play_run {n T : Nat} (tok : Fin n → Fin T → Bytes) {H : Bytes → Bytes} (F : Bytes → Option (Res Bytes)) : ∀ (seen : Fin n → Nat) (A : HPlayer n T),
    play (answers (fun s => some (.ok (H s))) F) (run tok seen A) = prob (Hard.wins tok seen (under H A) = true)
  | _, .guess _ _ _ => rfl
  | seen, .ask j t next => by
    have h := play_run tok (H := H) F (Function.update seen j (max (seen j) (t.val + 1))) (next (tok j t))
    exact h
  | seen, .hash s next => by
    have h := play_run tok (H := H) F seen (next (H s))
    exact h

theorem run_over {n T : Nat} (tok : Fin n → Fin T → Bytes) (H : Bytes → Bytes) : ∀ (seen : Fin n → Nat) (A : HPlayer n T),
    overHash H (through (fun y => some (.ok y)) (run tok seen A)) = .done (Hard.wins tok seen (under H A))
  | _, .guess _ _ _ => rfl
  | seen, .ask j t next => by
    have h := run_over tok H (Function.update seen j (max (seen j) (t.val + 1))) (next (tok j t))
    exact h
  | seen, .hash s next => by
    have h := run_over tok H seen (next (H s))
    exact h

theorem run_counts {n T q : Nat} (tok : Fin n → Fin T → Bytes) {A : HPlayer n T} (hA : Hashes q A) : ∀ seen, Counts q 0 (run tok seen A) := by
  induction hA with
  | guess j t x => intro seen; exact .done _
  | ask _ ih => intro seen; exact ih _ _
  | hash _ ih => intro seen; exact .hash fun y => ih _ _

theorem run_short {n T m : Nat} (tok : Fin n → Fin T → Bytes) : ∀ (A : HPlayer n T) (seen : Fin n → Nat), Asks (Short m) (run tok seen A)
  | .guess _ _ _, _ => .done _
  | .ask j t next, _ => by
    have h := run_short (m := m) tok (next (tok j t))
    exact h _
  | .hash s next, seen => .ask trivial fun y => run_short tok (next (found y)) seen

theorem counts_gather {γ : Type} {qh : Nat} : ∀ (n : Nat) (s : Fin n → Bytes) (c : (Fin n → γ) → Att Ask γ), (∀ f, Counts qh 0 (c f)) →
    Counts qh n (gather n (fun j => .mac (s j)) c)
  | 0, _, c, h => h _
  | n + 1, s, _, h => .mac fun _ => counts_gather n (fun i => s i.succ) _ fun _ => h _

theorem short_gather {γ : Type} {m : Nat} : ∀ (n : Nat) (s : Fin n → Bytes) (_ : ∀ i, (s i).length ≤ m) (c : (Fin n → γ) → Att Ask γ), (∀ f, Asks (Short m) (c f)) →
    Asks (Short m) (gather n (fun j => .mac (s j)) c)
  | 0, _, _, c, h => h _
  | n + 1, s, hs, _, h => .ask (hs 0) fun _ => short_gather n (fun i => s i.succ) (fun i => hs i.succ) _ fun _ => h _

theorem over_gather {γ : Type} (H : Bytes → γ) : ∀ (n : Nat) (s : Fin n → Bytes) (c : (Fin n → γ) → Att Ask γ),
    overHash H (gather n (fun j => .mac (s j)) c) = gather n s fun f => overHash H (c f)
  | 0, _, _ => rfl
  | n + 1, s, c => by
    rw [gather, gather, overHash]
    congr 1
    funext y
    exact over_gather H n (fun i => s i.succ) _

theorem calls_264 : Mac.Game.calls 264 = 5 := by decide

/-- **C106**: let the hash function be a uniform table, the key of the PRF be uniform, and the seed of each chain be `generate(prf, name)`.  A player that
computes `qh` hash values, sees tokens of its choice, adaptively, and names a token above all that it saw of a chain wins at most with the sum of the probabilities
with which `n * T` algorithms that use the public key (and the table) invert a uniform message, plus `2 qh / 256^32 + 5n (5n - 1) / 2 / 256^64 + n / 2^66`. -/
theorem c106_random_hash {k : Rsa} {s : Priv} (h : TdpKey k s) {N m : Nat} (h1 : 192 ≤ N) (h2 : m + 129 ≤ N) (junk : Block 32 → (Str N → Block 64) → Bytes → Nat → UInt8)
    {fuel : Nat} (hf : 1024 ≤ fuel) {n T : Nat} {names : Fin n → Bytes} (hn : Function.Injective names) (hm : ∀ j, (names j).length ≤ m) {qh : Nat}
    {A : HPlayer n T} (hA : Hashes qh A) :
    E (fun key : Block 32 => E fun R : Str N → Block 64 =>
        prob (Hard.wins (clientToken (hashOf R) (junk key R) fuel (toBytes key) k names) (fun _ => 0) (under (hashOf R) A) = true))
      ≤ E (fun R : Str N → Block 64 => ∑ j : Fin n, ∑ u : Fin T, E fun y : Fin k.N => E fun v : Fin n → Fin k.N =>
          prob (Inverts k (solve (evalOf k) j u (beBytes 256 y) (fun i => beBytes 256 (v i)) (under (hashOf R) A)) (beBytes 256 y)))
        + (qh * (2 / 256 ^ 32) + (5 * n : ℕ) * ((5 * n : ℕ) - 1) / 2 * (1 / 256 ^ 64) + n / 2 ^ 66) := by
  have hc := c102_prf (nb := 264) h1 h2 (by decide) junk hf (A := attack k names A) (counts_gather n names _ fun f => run_counts _ hA _)
    (short_gather n names hm _ fun f => run_short _ A _)
  rw [calls_264, mul_comm n 5] at hc
  have e1 : (fun key : Block 32 => E fun R : Str N → Block 64 =>
      play (answers (fun s => some (hashString (hashOf R) s)) fun m => prfString (hashOf R) (junk key R m) (some (toBytes key)) 264 fuel m) (attack k names A)) =
      fun key => E fun R => prob (Hard.wins (clientToken (hashOf R) (junk key R) fuel (toBytes key) k names) (fun _ => 0) (under (hashOf R) A) = true) := by
    funext key
    refine congrArg E (funext fun R => ?_)
    have eh : (fun s => some (hashString (hashOf R) s)) = fun s => (some (.ok (hashOf R s)) : Option (Res Bytes)) := by
      funext s
      rw [hashString_eq (hashOf_length R)]
    rw [eh, attack, play_gather, play_run]
    refine congrArg (fun tok => prob (Hard.wins tok (fun _ => 0) (under (hashOf R) A) = true)) (funext fun j => funext fun t => ?_)
    have hp : prfString (hashOf R) (junk key R (names j)) (some (toBytes key)) 264 fuel (names j) = some (.ok (prfSpec (hashOf R) (toBytes key) (names j) 264)) :=
      c17_prf (hashOf_length R) _ (toBytes key) (names j) (toBytes_length key) 264 (by decide) fuel hf
    unfold clientToken
    rw [generate_found h _ _ _ _ _ hp]
    simp only [answers]
    rw [hp]
    rfl
  have e2 : ideal N 264 (through (fun y => some (.ok y)) (attack k names A)) = E fun R : Str N → Block 64 => E fun b : Fin n → Block 264 =>
      prob (Hard.wins (fun j (t : Fin T) => token k (seedOf k (toBytes (b j))) t) (fun _ => 0) (under (hashOf R) A) = true) := by
    unfold ideal attack
    refine congrArg E (funext fun R => ?_)
    rw [through_gather, over_gather]
    simp only [run_over]
    exact fresh_gather (fun b : Block 264 => toBytes b) n names hn
      (fun f => Hard.wins (fun j (t : Fin T) => token k (seedOf k (f j)) t) (fun _ => 0) (under (hashOf R) A)) [] fun i => rfl
  rw [e1, e2] at hc
  have h3 := (abs_le.1 hc).2
  have h4 := E_mono fun R : Str N → Block 64 => uniform_seeds h (under (hashOf R) A)
  have hne : Nonempty (Str N → Block 64) := ⟨fun _ _ => 0⟩
  rw [E_add, E_const] at h4
  linarith

/-- **C106**: for any hash function, with the advantage of an attack on the PRF in the place of the terms for a random one: the attack asks for the seeds of the
chains and runs the player. -/
theorem c106_prf {k : Rsa} {s : Priv} (h : TdpKey k s) {H : Bytes → Bytes} (hH : ∀ m, (H m).length = 64) (junk : Bytes → Nat → UInt8)
    {fuel : Nat} (hf : 1024 ≤ fuel) {n T : Nat} {names : Fin n → Bytes} (hn : Function.Injective names) (A : Player n T) :
    E (fun key : Block 32 => prob (Hard.wins (clientToken H junk fuel (toBytes key) k names) (fun _ => 0) A = true))
      ≤ (∑ j : Fin n, ∑ u : Fin T, E fun y : Fin k.N => E fun v : Fin n → Fin k.N =>
          prob (Inverts k (solve (evalOf k) j u (beBytes 256 y) (fun i => beBytes 256 (v i)) A) (beBytes 256 y)))
        + (advPrf (m := 32) (fun key s => prfSpec H key s 264) 264
            (gather n names fun f => .done (Hard.wins (fun j t => token k (seedOf k (f j)) t) (fun _ => 0) A)) + n / 2 ^ 66) := by
  have e1 : (fun key : Block 32 => prob (Hard.wins (clientToken H junk fuel (toBytes key) k names) (fun _ => 0) A = true)) =
      fun key => play (fun s => prfSpec H (toBytes key) s 264) (gather n names fun f => .done (Hard.wins (fun j t => token k (seedOf k (f j)) t) (fun _ => 0) A)) := by
    funext key
    rw [play_gather]
    refine congrArg (fun tok => prob (Hard.wins tok (fun _ => 0) A = true)) (funext fun j => funext fun t => ?_)
    have hp : prfString H (junk (names j)) (some (toBytes key)) 264 fuel (names j) = some (.ok (prfSpec H (toBytes key) (names j) 264)) :=
      c17_prf hH _ (toBytes key) (names j) (toBytes_length key) 264 (by decide) fuel hf
    unfold clientToken
    rw [generate_found h _ _ _ _ _ hp]
  rw [e1]
  have h3 := uniform_seeds h A
  have e2 := fresh_gather (fun b : Block 264 => toBytes b) n names hn (fun f => Hard.wins (fun j (t : Fin T) => token k (seedOf k (f j)) t) (fun _ => 0) A) []
    fun i => rfl
  have h4 : (fun b : Fin n → Block 264 => prob (Hard.wins (fun j (t : Fin T) => token k (seedOf k (toBytes (b j))) t) (fun _ => 0) A = true)) =
      fun b => if Hard.wins (fun j (t : Fin T) => token k (seedOf k (toBytes (b j))) t) (fun _ => 0) A = true then 1 else 0 := rfl
  rw [h4, ← e2] at h3
  unfold advPrf
  have h5 := le_abs_self ((E fun key : Block 32 => play (fun s => prfSpec H (toBytes key) s 264)
    (gather n names fun f => .done (Hard.wins (fun j (t : Fin T) => token k (seedOf k (f j)) t) (fun _ => 0) A))) -
    fresh (fun b : Block 264 => toBytes b) [] (gather n names fun f => .done (Hard.wins (fun j (t : Fin T) => token k (seedOf k (f j)) t) (fun _ => 0) A)))
  linarith

/-- **C106**, false: the names must differ.  Two chains of one name have the same tokens, so that a token of one gives that of the other. -/
theorem c106_names_false {k : Rsa} {H : Bytes → Bytes} (junk : Bytes → Nat → UInt8) {fuel : Nat} {names : Fin 2 → Bytes} (hn : names 0 = names 1) :
    E (fun key : Block 32 => prob (Hard.wins (clientToken H junk fuel (toBytes key) k names) (fun _ => 0)
      (.ask 0 0 fun x => .guess 1 0 x : Player 2 1) = true)) = 1 := by
  have : (fun key : Block 32 => prob (Hard.wins (clientToken H junk fuel (toBytes key) k names) (fun _ => 0)
      (.ask 0 0 fun x => .guess 1 0 x : Player 2 1) = true)) = fun _ => 1 := by
    funext key
    have e : clientToken (T := 1) H junk fuel (toBytes key) k names 0 0 = clientToken (T := 1) H junk fuel (toBytes key) k names 1 0 := by
      unfold clientToken
      rw [hn]
    refine if_pos ?_
    simp only [Hard.wins]
    rw [e]
    simp
  rw [this, E_const]

/-! ## Examples -/

/-- A player that sees the first token of the first chain, hashes it, and takes the hash value for the next one. -/
def hasher : HPlayer 2 3 := .ask 0 0 fun x => .hash x fun y => .guess 0 1 y

/-- It meets the hypotheses, with the example key and names of one byte. -/
example : Hashes 1 hasher ∧ Function.Injective (fun j : Fin 2 => ([UInt8.ofNat j] : Bytes)) ∧ (∀ j : Fin 2, ([UInt8.ofNat j] : Bytes).length ≤ 1) ∧ 1 + 129 ≤ 192 ∧
    TdpKey exKey exPriv :=
  ⟨.ask fun _ => .hash fun _ => .guess _ _ _, by decide, by decide, by decide, exKey_tdp⟩

/-- The terms besides the inversion of the permutation are small: `2 ^ 40` hash values and `2 ^ 20` chains. -/
example : ((2 ^ 40 : ℚ) * (2 / 256 ^ 32) + (5 * 2 ^ 20) * (5 * 2 ^ 20 - 1) / 2 * (1 / 256 ^ 64) + 2 ^ 20 / 2 ^ 66) ≤ 1 / 2 ^ 45 := by norm_num

end Verif.Tdp.Tokens
