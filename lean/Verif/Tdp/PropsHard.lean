import Verif.Tdp.SpecHard
import Verif.Tdp.Props
import Verif.Rsa.PropsDist

/-!
# C104: how hard it is to invert the trapdoor permutation
-/

namespace Verif.Tdp.Hard

open Verif Verif.Tdp Verif.Avg

/-! ## Chains over any permutation -/

/-- The player wins with chain `j`, having seen the levels below `u` of it only. -/
def winsAt {n T : Nat} (tok : Fin n → Fin T → Bytes) (j : Fin n) (u : Nat) : (Fin n → Nat) → Player n T → Bool
  | seen, .guess i t x => decide (i = j) && decide (seen j = u) && decide (u ≤ t.val) && decide (x = tok j t)
  | seen, .ask i t next => winsAt tok j u (Function.update seen i (max (seen i) (t.val + 1))) (next (tok i t))

theorem wins_sum {n T : Nat} (tok : Fin n → Fin T → Bytes) : ∀ (seen : Fin n → Nat) (A : Player n T),
    (if wins tok seen A = true then (1 : ℚ) else 0) = ∑ j : Fin n, ∑ u : Fin T, if winsAt tok j u seen A = true then (1 : ℚ) else 0
  | seen, .guess i t x => by
    have h1 : ∀ j : Fin n, j ≠ i → (∑ u : Fin T, if winsAt tok j u seen (.guess i t x) = true then (1 : ℚ) else 0) = 0 := by
      intro j hj
      refine Finset.sum_eq_zero fun u _ => if_neg ?_
      simp [winsAt, Ne.symm hj]
    rw [Finset.sum_eq_single i (fun j _ hj => h1 j hj) (fun h => absurd (Finset.mem_univ i) h)]
    by_cases hs : seen i ≤ t.val
    · rw [Finset.sum_eq_single ⟨seen i, by have := t.2; omega⟩]
      · simp [wins, winsAt, hs]
      · intro u _ hu
        refine if_neg ?_
        have : seen i ≠ u.val := fun h => hu (Fin.ext h.symm)
        simp [winsAt, this]
      · exact fun h => absurd (Finset.mem_univ _) h
    · rw [Finset.sum_eq_zero]
      · simp [wins, hs]
      · intro u _
        refine if_neg ?_
        simp only [winsAt, Bool.and_eq_true, decide_eq_true_eq, not_and]
        omega
  | seen, .ask i t next => by
    have h := wins_sum tok (Function.update seen i (max (seen i) (t.val + 1))) (next (tok i t))
    exact h

/-- If the player wins with chain `j` above level `u`, the algorithm finds an inverse of `y`. -/
theorem solve_ok {n T : Nat} {ev : Bytes → Bytes} {tok : Fin n → Fin T → Bytes} {j : Fin n} {u : Nat} {y : Bytes} {top : Fin n → Bytes}
    (hlow : ∀ t : Fin T, t.val < u → tok j t = ev^[u - 1 - t.val] y) (hup : ∀ t : Fin T, u ≤ t.val → ev^[t.val - u + 1] (tok j t) = y)
    (hoth : ∀ i, i ≠ j → ∀ t : Fin T, tok i t = ev^[T - 1 - t.val] (top i)) :
    ∀ (seen : Fin n → Nat) (A : Player n T), winsAt tok j u seen A = true → ∃ x, solve ev j u y top A = some x ∧ ev x = y ∧ seen j ≤ u
  | seen, .guess i t x, h => by
    simp only [winsAt, Bool.and_eq_true, decide_eq_true_eq] at h
    obtain ⟨⟨⟨rfl, h1⟩, h2⟩, h3⟩ := h
    refine ⟨_, if_pos ⟨rfl, h2⟩, ?_, h1.le⟩
    rw [h3, ← Function.iterate_succ_apply' ev]
    exact hup t h2
  | seen, .ask i t next, h => by
    obtain ⟨x, h1, h2, h3⟩ := solve_ok hlow hup hoth _ (next (tok i t)) (show winsAt tok j u _ (next (tok i t)) = true from h)
    by_cases hi : i = j
    · subst hi
      rw [Function.update_self] at h3
      have ht : t.val < u := by omega
      refine ⟨x, ?_, h2, by omega⟩
      rw [solve, if_pos rfl, if_pos ht, ← hlow t ht]
      exact h1
    · rw [Function.update_of_ne (Ne.symm hi)] at h3
      refine ⟨x, ?_, h2, h3⟩
      rw [solve, if_neg hi, ← hoth i hi t]
      exact h1

/-- The last token of the chain `j` is not used. -/
theorem solve_update {n T : Nat} (ev : Bytes → Bytes) (j : Fin n) (u : Nat) (y : Bytes) (top : Fin n → Bytes) (z : Bytes) :
    ∀ A : Player n T, solve ev j u y (Function.update top j z) A = solve ev j u y top A
  | .guess i t x => rfl
  | .ask i t next => by
    rw [solve, solve]
    by_cases hi : i = j
    · rw [if_pos hi, if_pos hi, solve_update ev j u y top z]
    · rw [if_neg hi, if_neg hi, Function.update_of_ne hi, solve_update ev j u y top z]

section chain
variable {α : Type} [Fintype α] [Nonempty α]

theorem iter_symm (e : Equiv.Perm α) {a b : Nat} (h : a ≤ b) (x : α) : e^[a] (e.symm^[b] x) = e.symm^[b - a] x := by
  obtain ⟨c, rfl⟩ := Nat.exists_eq_add_of_le h
  rw [Nat.add_sub_cancel_left, Function.iterate_add_apply]
  exact (e.right_inv.iterate a) _

theorem iter_symm' (e : Equiv.Perm α) {a b : Nat} (h : a ≤ b) (x : α) : e^[b] (e.symm^[a] x) = e^[b - a] x := by
  obtain ⟨c, rfl⟩ := Nat.exists_eq_add_of_le h
  rw [Nat.add_sub_cancel_left, Nat.add_comm, Function.iterate_add_apply]
  congr 1
  exact (e.right_inv.iterate a) _

/-- Chains over a permutation `e` of the codes `enc` of a finite type, `ev` being `e` on codes. -/
theorem chain {n T : Nat} {enc : α → Bytes} {e : Equiv.Perm α} {ev : Bytes → Bytes} (hev : ∀ a, ev (enc a) = enc (e a)) (A : Player n T)
    (Won : Option Bytes → Bytes → Prop) [∀ x y, Decidable (Won x y)] (hw : ∀ x a, ev x = enc a → Won (some x) (enc a)) :
    E (fun s : Fin n → α => if wins (fun j t => enc (e.symm^[t.val] (s j))) (fun _ => 0) A = true then (1 : ℚ) else 0)
      ≤ ∑ j : Fin n, ∑ u : Fin T, E fun y : α => E fun v : Fin n → α => prob (Won (solve ev j u (enc y) (fun i => enc (v i)) A) (enc y)) := by
  have hsum : ∀ {β γ : Type} [Fintype β] [Fintype γ] (f : β → γ → ℚ), E (fun a : β => ∑ j : γ, f a j) = ∑ j, E fun a => f a j := by
    intro β γ _ _ f
    unfold E
    rw [Finset.sum_comm, Finset.sum_div]
  have hit : ∀ (m : Nat) (a : α), ev^[m] (enc a) = enc (e^[m] a) := by
    intro m
    induction m with
    | zero => intro a; rfl
    | succ m ih => intro a; rw [Function.iterate_succ_apply, hev, ih, Function.iterate_succ_apply]
  simp only [wins_sum]
  rw [hsum]
  refine Finset.sum_le_sum fun j _ => ?_
  rw [hsum]
  refine Finset.sum_le_sum fun u _ => ?_
  -- the uniform vector of one `y` and last tokens
  have hv : E (fun y : α => E fun v : Fin n → α => prob (Won (solve ev j u (enc y) (fun i => enc (v i)) A) (enc y)))
      = E fun v : Fin n → α => prob (Won (solve ev j u (enc (v j)) (fun i => enc (v i)) A) (enc (v j))) := by
    rw [E_comm]
    symm
    rw [E_update j]
    symm
    refine congrArg E (funext fun R => congrArg E (funext fun K => ?_))
    have h1 : (fun i => enc (Function.update R j K i)) = Function.update (fun i => enc (R i)) j (enc K) := by
      funext i
      by_cases hi : i = j
      · subst hi; simp
      · simp [hi]
    rw [h1, solve_update, Function.update_self]
  rw [hv]
  let pw : Nat → Equiv.Perm α := fun m => ⟨e.symm^[m], e^[m], e.right_inv.iterate m, e.left_inv.iterate m⟩
  let σ : (Fin n → α) ≃ (Fin n → α) := Equiv.piCongrRight fun i => if i = j then (pw u).trans e else pw (T - 1)
  refine le_trans ?_ (le_of_eq (E_equiv σ _))
  refine E_mono fun s => ?_
  have hσj : σ s j = e (e.symm^[u.val] (s j)) := by
    show (if j = j then (pw u).trans e else pw (T - 1)) (s j) = _
    rw [if_pos rfl]
    rfl
  have hσi : ∀ i, i ≠ j → σ s i = e.symm^[T - 1] (s i) := by
    intro i hi
    show (if i = j then (pw u).trans e else pw (T - 1)) (s i) = _
    rw [if_neg hi]
    rfl
  split
  · rename_i h
    have hlow : ∀ t : Fin T, t.val < u.val → enc (e.symm^[t.val] (s j)) = ev^[u.val - 1 - t.val] (enc (σ s j)) := by
      intro t ht
      rw [hit, hσj, ← Function.iterate_succ_apply e, show (u.val - 1 - t.val).succ = u.val - t.val by omega, iter_symm e (by omega),
        show u.val - (u.val - t.val) = t.val by omega]
    have hup : ∀ t : Fin T, u.val ≤ t.val → ev^[t.val - u.val + 1] (enc (e.symm^[t.val] (s j))) = enc (σ s j) := by
      intro t ht
      rw [hit, hσj, Function.iterate_succ_apply', iter_symm e (by omega), show t.val - (t.val - u.val) = u.val by omega]
    have hoth : ∀ i, i ≠ j → ∀ t : Fin T, enc (e.symm^[t.val] (s i)) = ev^[T - 1 - t.val] (enc (σ s i)) := by
      intro i hi t
      rw [hit, hσi i hi, iter_symm e (by omega), show T - 1 - (T - 1 - t.val) = t.val by have := t.2; omega]
    obtain ⟨x, h1, h2, -⟩ := solve_ok (top := fun i => enc (σ s i)) hlow hup hoth _ A h
    rw [h1]
    unfold prob
    rw [if_pos (hw x _ h2)]
  · unfold prob
    split <;> norm_num

end chain

/-! ## The permutation of the code -/

/-- The evaluation on numbers below the modulus. -/
noncomputable def perm {k : Rsa} {s : Priv} (h : TdpKey k s) : Equiv.Perm (Fin k.N) :=
  Equiv.ofBijective (fun x => ⟨x.val ^ k.E % k.N, Nat.mod_lt _ h.key.Npos⟩) <| by
    refine Finite.injective_iff_bijective.1 fun a b hab => ?_
    have h1 : a.val ^ k.E % k.N = b.val ^ k.E % k.N := congrArg Fin.val hab
    have h2 := h.key.inj h1
    unfold Nat.ModEq at h2
    rw [Nat.mod_eq_of_lt a.2, Nat.mod_eq_of_lt b.2] at h2
    exact Fin.ext h2

theorem perm_val {k : Rsa} {s : Priv} (h : TdpKey k s) (x : Fin k.N) : (perm h x).val = x.val ^ k.E % k.N := rfl

theorem evalString_msg {k : Rsa} {s : Priv} (h : TdpKey k s) (x : Fin k.N) : evalString k (beBytes 256 x) = .ok (beBytes 256 (perm h x)) := by
  rw [evalString_eq h.len h.size h.key.Nodd (beBytes_length _ _), beNat_beBytes_of_lt (lt_trans x.2 h.size), perm_val]

theorem evalOf_msg {k : Rsa} {s : Priv} (h : TdpKey k s) (x : Fin k.N) : evalOf k (beBytes 256 x) = beBytes 256 (perm h x) := by
  rw [evalOf, evalString_msg h]

theorem enc_inj {k : Rsa} {s : Priv} (h : TdpKey k s) {a b : Fin k.N} (hab : beBytes 256 a.val = beBytes 256 b.val) : a = b := by
  have := congrArg beNat hab
  rw [beNat_beBytes_of_lt (lt_trans a.2 h.size), beNat_beBytes_of_lt (lt_trans b.2 h.size)] at this
  exact Fin.ext this

theorem evalN_msg {k : Rsa} {s : Priv} (h : TdpKey k s) : ∀ (t : Nat) (x : Fin k.N), evalN k t (beBytes 256 x) = .ok (beBytes 256 ((perm h)^[t] x))
  | 0, _ => rfl
  | t + 1, x => by rw [evalN, evalString_msg h, Res.bind_ok, evalN_msg h t, Function.iterate_succ_apply]

theorem token_msg {k : Rsa} {s : Priv} (h : TdpKey k s) (x : Fin k.N) (t : Nat) : token k (beBytes 256 x) t = beBytes 256 ((perm h).symm^[t] x) := by
  obtain ⟨z, -, h1, h2, h3⟩ := c38_eval_back h (isMsg_beBytes h.size x.2) t
  have hz : z = beBytes 256 (⟨beNat z, h2.2⟩ : Fin k.N) := (beBytes_beNat' h2.1).symm
  rw [hz, evalN_msg h] at h3
  have h4 := enc_inj h (Res.ok.inj h3)
  rw [token, h1]
  show z = _
  rw [hz, ← h4]
  congr 2
  exact ((perm h).left_inv.iterate t _).symm

theorem inverts_of {k : Rsa} {x : Bytes} {y : Nat} (hx : evalOf k x = beBytes 256 y) : Inverts k (some x) (beBytes 256 y) := by
  refine ⟨x, rfl, ?_⟩
  have hl : (evalOf k x).length = 256 := by rw [hx, beBytes_length]
  unfold evalOf at hx hl
  split at hx
  · rename_i c hc
    rw [hc, hx]
  · rename_i hc
    split at hl
    · rename_i c hc2
      exact absurd hc2 (hc c)
    · simp at hl

/-- **C104**: let the seeds of `n` chains of tokens be uniform messages.  A player that sees tokens of its choice, adaptively, below level `T`, and names a token
above all that it saw of some chain, gives `n * T` algorithms that use the public key only; the probability that the player wins is at most the sum of the
probabilities with which these invert a uniform message. -/
theorem c104_chain {k : Rsa} {s : Priv} (h : TdpKey k s) {n T : Nat} (A : Player n T) :
    E (fun seeds : Fin n → Fin k.N => prob (wins (fun j t => token k (beBytes 256 (seeds j)) t) (fun _ => 0) A = true))
      ≤ ∑ j : Fin n, ∑ u : Fin T, E fun y : Fin k.N => E fun v : Fin n → Fin k.N =>
          prob (Inverts k (solve (evalOf k) j u (beBytes 256 y) (fun i => beBytes 256 (v i)) A) (beBytes 256 y)) := by
  have hne : Nonempty (Fin k.N) := ⟨⟨0, h.key.Npos⟩⟩
  have := chain (enc := fun x : Fin k.N => beBytes 256 x) (e := perm h) (ev := evalOf k) (evalOf_msg h) A (Inverts k) fun x a hx => inverts_of hx
  simp only [token_msg h]
  exact this

/-- **C104**: the same as a bound. -/
theorem c104_bound {k : Rsa} {s : Priv} (h : TdpKey k s) {n T : Nat} (A : Player n T) {ε : ℚ}
    (hε : ∀ j (u : Fin T), (E fun y : Fin k.N => E fun v : Fin n → Fin k.N =>
      prob (Inverts k (solve (evalOf k) j u (beBytes 256 y) (fun i => beBytes 256 (v i)) A) (beBytes 256 y))) ≤ ε) :
    E (fun seeds : Fin n → Fin k.N => prob (wins (fun j t => token k (beBytes 256 (seeds j)) t) (fun _ => 0) A = true)) ≤ n * T * ε := by
  refine le_trans (c104_chain h A) (le_trans (Finset.sum_le_sum fun j _ => Finset.sum_le_sum fun u _ => hε j u) ?_)
  simp [mul_assoc]

theorem prob_test {p : Prop} [Decidable p] : 0 ≤ prob p ∧ prob p ≤ 1 := by
  unfold prob
  split <;> norm_num

/-- A random source whose calls for 264 bytes give the strings `b`. -/
def source (rng : Nat → Nat → Nat) {n : Nat} (b : Fin n → Block 264) : Nat → Nat → Nat := fun i m =>
  if h : i < n ∧ m = 264 then beNat (toBytes (b ⟨i, h.1⟩)) else rng i m

/-- The bytes of a result. -/
def bytesOf : Res Bytes → Bytes
  | .ok b => b
  | _ => []

/-- **C104**: with seeds from `sample`, whose random bytes are uniform, the player wins with at most `n / 2 ^ 66` more. -/
theorem c104_sampled {k : Rsa} {s : Priv} (h : TdpKey k s) (rng : Nat → Nat → Nat) {n T : Nat} (A : Player n T) :
    E (fun b : Fin n → Block 264 => prob (wins (fun j t => token k (bytesOf (sample (source rng b) k j)) t) (fun _ => 0) A = true))
      ≤ (∑ j : Fin n, ∑ u : Fin T, E fun y : Fin k.N => E fun v : Fin n → Fin k.N =>
          prob (Inverts k (solve (evalOf k) j u (beBytes 256 y) (fun i => beBytes 256 (v i)) A) (beBytes 256 y))) + n / 2 ^ 66 := by
  have hne : Nonempty (Fin k.N) := ⟨⟨0, h.key.Npos⟩⟩
  have hy := hybrid (u := fun b : Block 264 => (.ok (Rsa.msg (beNat (toBytes b) % k.N)) : Res Bytes))
    (v := fun x : Fin k.N => (.ok (Rsa.msg x) : Res Bytes)) (Rsa.bytes_close h.key.Npos h.size) n
    (fun f => prob (wins (fun j t => token k (bytesOf (f j)) t) (fun _ => 0) A = true)) fun f => prob_test
  rw [mul_one_div] at hy
  have e : (fun b : Fin n → Block 264 => prob (wins (fun j (t : Fin T) => token k (bytesOf (sample (source rng b) k j)) t) (fun _ => 0) A = true)) =
      fun b => prob (wins (fun j (t : Fin T) => token k (bytesOf (.ok (Rsa.msg (beNat (toBytes (b j)) % k.N)))) t) (fun _ => 0) A = true) := by
    funext b
    congr 3
    funext j t
    congr 2
    have hlt := Nat.mod_lt (beNat (toBytes (b j))) h.key.Npos
    unfold sample source
    rw [dif_pos ⟨j.2, rfl⟩, mpiMod_nat h.key.Npos]
    simp only [orThrow, Res.bind_ok, writeZeroed]
    unfold msgSize
    rw [mpiWrite_some (lt_trans hlt h.size)]
    rfl
  rw [e]
  have h2 := c104_chain h A
  have h3 := (abs_le.1 hy).2
  have h4 : (fun x : Fin n → Fin k.N => prob (wins (fun j (t : Fin T) => token k (bytesOf (.ok (Rsa.msg (x j)))) t) (fun _ => 0) A = true)) =
      fun seeds => prob (wins (fun j (t : Fin T) => token k (beBytes 256 (seeds j)) t) (fun _ => 0) A = true) := rfl
  rw [h4] at h3
  linarith

/-! ## One message is as hard as another -/

theorem card_units {P Q : Nat} (hP : P.Prime) (hQ : Q.Prime) (hne : P ≠ Q) :
    (E fun r : Fin (P * Q) => prob (Nat.gcd r.val (P * Q) ≠ 1)) = (P + Q - 1 : ℚ) / (P * Q : Nat) := by
  have hN : 0 < P * Q := Nat.mul_pos hP.pos hQ.pos
  unfold E
  rw [Fintype.card_fin]
  congr 1
  have h1 : ∑ r : Fin (P * Q), prob (Nat.gcd r.val (P * Q) ≠ 1) = ∑ r ∈ Finset.range (P * Q), prob (Nat.gcd r (P * Q) ≠ 1) :=
    Fin.sum_univ_eq_sum_range (fun r => prob (Nat.gcd r (P * Q) ≠ 1)) (P * Q)
  have h2 : ∀ r, prob (Nat.gcd r (P * Q) ≠ 1) = 1 - if (P * Q).Coprime r then (1 : ℚ) else 0 := by
    intro r
    by_cases h : Nat.gcd r (P * Q) = 1
    · rw [if_pos (show (P * Q).Coprime r from (Nat.gcd_comm _ _).trans h), prob, if_neg (not_not.2 h)]
      norm_num
    · rw [if_neg (show ¬ (P * Q).Coprime r from fun h2 => h ((Nat.gcd_comm _ _).trans h2)), prob, if_pos h]
      norm_num
  rw [h1, Finset.sum_congr rfl fun r _ => h2 r, Finset.sum_sub_distrib, Finset.sum_boole]
  have h3 : (Finset.filter (fun x => (P * Q).Coprime x) (Finset.range (P * Q))).card = (P - 1) * (Q - 1) := by
    rw [← Nat.totient_prime hP, ← Nat.totient_prime hQ, ← Nat.totient_mul ((Nat.coprime_primes hP hQ).2 hne)]
    rfl
  rw [h3]
  have := hP.one_le
  have := hQ.one_le
  simp only [Finset.sum_const, Finset.card_range, nsmul_eq_mul, mul_one]
  push_cast [Nat.cast_sub hP.one_le, Nat.cast_sub hQ.one_le]
  ring

/-- **C104**: an algorithm that inverts a uniform message with some probability inverts - with the public key, one random number, one multiplication by its evaluation
and one division - every message that is prime to the modulus with this probability, up to `(P + Q - 1) / N`. -/
theorem c104_everywhere {k : Rsa} {s : Priv} (h : TdpKey k s) (A : Bytes → Option Bytes) {y : Bytes} (hy : IsMsg k y) (hc : Nat.gcd (beNat y) k.N = 1) :
    (E fun z : Fin k.N => prob (Inverts k (A (beBytes 256 z)) (beBytes 256 z)))
      ≤ (E fun r : Fin k.N => prob (Inverts k (shifted k A y r) y)) + (s.P + s.Q - 1 : ℚ) / k.N := by
  have hN := h.key.Npos
  have h1N := h.one_lt
  -- the messages that are asked for
  have hinj : Function.Injective fun r : Fin k.N => (⟨beNat y * (r.val ^ k.E % k.N) % k.N, Nat.mod_lt _ hN⟩ : Fin k.N) := by
    intro a b hab
    have h1 : beNat y * (a.val ^ k.E % k.N) ≡ beNat y * (b.val ^ k.E % k.N) [MOD k.N] := congrArg Fin.val hab
    have h2 : a.val ^ k.E % k.N ≡ b.val ^ k.E % k.N [MOD k.N] := Nat.ModEq.cancel_left_of_coprime (by rw [Nat.gcd_comm]; exact hc) h1
    have h3 := h.key.inj (((Nat.mod_modEq _ _).symm.trans h2).trans (Nat.mod_modEq _ _))
    unfold Nat.ModEq at h3
    rw [Nat.mod_eq_of_lt a.2, Nat.mod_eq_of_lt b.2] at h3
    exact Fin.ext h3
  let ρ : Fin k.N ≃ Fin k.N := Equiv.ofBijective _ (Finite.injective_iff_bijective.1 hinj)
  have hρ : ∀ r, (ρ r).val = beNat y * (r.val ^ k.E % k.N) % k.N := fun r => rfl
  have hu : (E fun r : Fin k.N => prob (Nat.gcd r.val k.N ≠ 1)) = (s.P + s.Q - 1 : ℚ) / k.N := by
    have := card_units h.key.primeP h.key.primeQ h.key.ne
    rw [← h.key.mod] at this
    exact this
  rw [← hu, ← E_add, ← E_equiv ρ]
  refine E_mono fun r => ?_
  by_cases hr : Nat.gcd r.val k.N = 1
  · by_cases hz : Inverts k (A (beBytes 256 (ρ r))) (beBytes 256 (ρ r))
    · have : Inverts k (shifted k A y r) y := by
        obtain ⟨x, hx, hxe⟩ := hz
        obtain ⟨i, hi, hil, him⟩ := mpiInv_spec h1N hr
        have hval : beNat y * beNat (evalOf k (beBytes 256 r)) % k.N = (ρ r).val := by
          rw [evalOf_msg h, beNat_beBytes_of_lt (lt_trans (perm h r).2 h.size), perm_val, hρ]
        have hsh : shifted k A y r = some (beBytes 256 (beNat x * i % k.N)) := by
          unfold shifted
          rw [hval, hx]
          simp only [hi]
        have hxl : x.length = 256 := by
          by_contra hne
          unfold evalString at hxe
          rw [if_pos (by rw [h.len]; exact hne)] at hxe
          cases hxe
        rw [evalString_eq h.len h.size h.key.Nodd hxl] at hxe
        have hxp : beNat x ^ k.E ≡ (ρ r).val [MOD k.N] := by
          have := congrArg beNat (Res.ok.inj hxe)
          rw [beNat_beBytes_of_lt (lt_trans (Nat.mod_lt _ hN) h.size), beNat_beBytes_of_lt (lt_trans (ρ r).2 h.size)] at this
          unfold Nat.ModEq
          rw [this, Nat.mod_eq_of_lt (ρ r).2]
        have hri : r.val * i ≡ 1 [MOD k.N] := by
          unfold Nat.ModEq
          rw [him, Nat.mod_eq_of_lt h1N]
        refine ⟨_, hsh, ?_⟩
        rw [evalString_eq h.len h.size h.key.Nodd (beBytes_length _ _), beNat_beBytes_of_lt (lt_trans (Nat.mod_lt _ hN) h.size)]
        have hfin : (beNat x * i % k.N) ^ k.E ≡ beNat y [MOD k.N] := by
          refine ((Nat.mod_modEq _ _).pow _).trans ?_
          rw [mul_pow]
          refine (hxp.mul_right _).trans ?_
          rw [hρ]
          refine ((Nat.mod_modEq _ _).mul_right _).trans ?_
          refine (((Nat.mod_modEq _ _).mul_left _).mul_right _).trans ?_
          rw [mul_assoc, ← mul_pow]
          simpa using (hri.pow k.E).mul_left (beNat y)
        rw [hfin, Nat.mod_eq_of_lt hy.2, beBytes_beNat' hy.1]
      have h0 := (prob_test (p := Nat.gcd r.val k.N ≠ 1)).1
      have h1 : prob (Inverts k (shifted k A y r) y) = 1 := if_pos this
      have h2 := (prob_test (p := Inverts k (A (beBytes 256 (ρ r))) (beBytes 256 (ρ r)))).2
      show prob (Inverts k (A (beBytes 256 (ρ r))) (beBytes 256 (ρ r))) ≤ _
      rw [h1]
      linarith
    · have h0 := (prob_test (p := Nat.gcd r.val k.N ≠ 1)).1
      have h1 := (prob_test (p := Inverts k (shifted k A y r) y)).1
      have h2 : prob (Inverts k (A (beBytes 256 (ρ r))) (beBytes 256 (ρ r))) = 0 := if_neg hz
      show prob (Inverts k (A (beBytes 256 (ρ r))) (beBytes 256 (ρ r))) ≤ _
      rw [h2]
      linarith
  · have h0 : prob (Nat.gcd r.val k.N ≠ 1) = 1 := if_pos hr
    have h1 := (prob_test (p := Inverts k (shifted k A y r) y)).1
    have h2 := (prob_test (p := Inverts k (A (beBytes 256 (ρ r))) (beBytes 256 (ρ r)))).2
    show prob (Inverts k (A (beBytes 256 (ρ r))) (beBytes 256 (ρ r))) ≤ _
    rw [h0]
    linarith

/-- **C104**: the other messages, except zero, give the key away. -/
theorem c104_factor {k : Rsa} {s : Priv} (h : TdpKey k s) {y : Bytes} (hy : IsMsg k y) (h0 : beNat y ≠ 0) (hc : Nat.gcd (beNat y) k.N ≠ 1) :
    Nat.gcd (beNat y) k.N = s.P ∨ Nat.gcd (beNat y) k.N = s.Q := by
  have hd : Nat.gcd (beNat y) k.N ∣ s.P * s.Q := by rw [← h.key.mod]; exact Nat.gcd_dvd_right _ _
  have hlt : Nat.gcd (beNat y) k.N < s.P * s.Q := by
    rw [← h.key.mod]
    exact lt_of_le_of_lt (Nat.le_of_dvd (Nat.pos_of_ne_zero h0) (Nat.gcd_dvd_left _ _)) hy.2
  obtain ⟨a, b, ha, hb, hab⟩ := (Nat.dvd_mul).1 hd
  rcases (Nat.dvd_prime h.key.primeP).1 ha with rfl | rfl <;> rcases (Nat.dvd_prime h.key.primeQ).1 hb with rfl | rfl
  · exact absurd hab.symm hc
  · exact Or.inr (by rw [← hab, one_mul])
  · exact Or.inl (by rw [← hab, mul_one])
  · omega

/-- **C104**, false: inverses are not independent: those of two messages give that of their product, so that no client should invert messages that others choose. -/
theorem c104_product_false {k : Rsa} {s : Priv} (h : TdpKey k s) {y z : Bytes} (hy : IsMsg k y) (hz : IsMsg k z) :
    beNat (token k (beBytes 256 (beNat y * beNat z % k.N)) 1) = beNat (token k y 1) * beNat (token k z 1) % k.N := by
  have hN := h.key.Npos
  have hv : ∀ (x : Fin k.N), beNat (token k (beBytes 256 x) 1) = ((perm h).symm x).val := fun x => by
    rw [token_msg h, beNat_beBytes_of_lt (lt_trans (Fin.is_lt _) h.size)]
    rfl
  have hw : ∀ {m : Bytes} (hm : IsMsg k m), beNat (token k m 1) = ((perm h).symm ⟨beNat m, hm.2⟩).val := fun {m} hm => by
    rw [← hv]
    show _ = beNat (token k (beBytes 256 (beNat m)) 1)
    rw [beBytes_beNat' hm.1]
  have hp : ∀ x : Fin k.N, ((perm h).symm x).val ^ k.E % k.N = x.val := fun x => by
    rw [← perm_val h, Equiv.apply_symm_apply]
  rw [hw hy, hw hz]
  have h1 := hv ⟨beNat y * beNat z % k.N, Nat.mod_lt _ hN⟩
  rw [h1]
  have h2 : (perm h).symm ⟨beNat y * beNat z % k.N, Nat.mod_lt _ hN⟩ =
      ⟨((perm h).symm ⟨beNat y, hy.2⟩).val * ((perm h).symm ⟨beNat z, hz.2⟩).val % k.N, Nat.mod_lt _ hN⟩ := by
    rw [Equiv.symm_apply_eq]
    apply Fin.ext
    rw [perm_val]
    show _ = (_ % k.N) ^ k.E % k.N
    rw [← Nat.pow_mod, mul_pow, Nat.mul_mod (_ ^ _), hp, hp]
  rw [h2]

/-- A player that knows the private key: it sees the seed and names the token after it. -/
def owner : Player 1 2 := .ask 0 0 fun x => .guess 0 1 (token exKey x 1)

theorem owner_wins (tok : Fin 1 → Fin 2 → Bytes) (h : token exKey (tok 0 0) 1 = tok 0 1) : wins tok (fun _ => 0) owner = true := by
  unfold owner
  simp only [wins]
  rw [h]
  simp

/-- It wins always, and so the algorithms made of it invert: the bound is met. -/
example : (1 : ℚ) ≤ ∑ j : Fin 1, ∑ u : Fin 2, E fun y : Fin exKey.N => E fun v : Fin 1 → Fin exKey.N =>
    prob (Inverts exKey (solve (evalOf exKey) j u (beBytes 256 y) (fun i => beBytes 256 (v i)) owner) (beBytes 256 y)) := by
  have hne : Nonempty (Fin exKey.N) := ⟨⟨0, exKey_tdp.key.Npos⟩⟩
  refine le_trans (le_of_eq ?_) (c104_chain exKey_tdp owner)
  have : (fun seeds : Fin 1 → Fin exKey.N => prob (wins (fun j (t : Fin 2) => token exKey (beBytes 256 (seeds j)) t) (fun _ => 0) owner = true)) = fun _ => 1 := by
    funext x
    refine if_pos (owner_wins _ ?_)
    have h : token exKey (beBytes 256 (x 0)) 0 = beBytes 256 (x 0) := token_msg exKey_tdp _ 0
    exact congrArg (fun b => token exKey b 1) h
  rw [this, E_const]

/-- A message that is prime to the modulus, and one that is not. -/
example : (IsMsg exKey (beBytes 256 2) ∧ Nat.gcd (beNat (beBytes 256 2)) exKey.N = 1) ∧
    (IsMsg exKey (beBytes 256 exP) ∧ beNat (beBytes 256 exP) ≠ 0 ∧ Nat.gcd (beNat (beBytes 256 exP)) exKey.N ≠ 1) := by
  unfold IsMsg
  decide +kernel

/-- The loss of the reduction is small. -/
example : ((exP : ℚ) + exQ - 1) / (exP * exQ : Nat) ≤ 1 / 2 ^ 1022 := by
  rw [div_le_div_iff₀ (by have : 0 < exP * exQ := by decide +kernel
                          exact_mod_cast this) (by positivity)]
  have : (exP + exQ) * 2 ^ 1022 ≤ exP * exQ := by decide +kernel
  have h2 : (((exP + exQ) * 2 ^ 1022 : Nat) : ℚ) ≤ ((exP * exQ : Nat) : ℚ) := by exact_mod_cast this
  generalize exP = p at *
  generalize exQ = q at *
  push_cast at h2 ⊢
  have h3 : (0 : ℚ) < 2 ^ 1022 := by positivity
  generalize (2 : ℚ) ^ 1022 = w at *
  linarith

end Verif.Tdp.Hard
