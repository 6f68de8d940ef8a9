import Verif.Scrub.Lemmas
import Verif.Mac.Props

/-!
# What the message authentication code and the pseudo-random function leave in memory
-/

namespace Verif.Scrub

open Verif Verif.Mac

/-! ## Specification -/

/-- All bytes are 0. -/
def Erased (b : Bytes) : Prop := ∀ x ∈ b, x = 0

/-- The buffer still holds what its memory held when it was allocated. -/
def Untouched (junk : Nat → UInt8) (b : Bytes) : Prop := ∀ i < b.length, b[i]? = some (junk i)

/-- After a call that returns, all memory given up is erased; after one that throws, it is erased or was never written. -/
def Tidy {α : Type} (junk : Nat → UInt8) (o : Out α) : Prop :=
  match o.res with
  | .ok _ => ∀ b ∈ o.left, Erased b
  | .exc _ => ∀ b ∈ o.left, Erased b ∨ Untouched junk b
  | .ub => True

theorem erased_replicate (n : Nat) : Erased (List.replicate n 0) := fun _ hx => List.eq_of_mem_replicate hx

theorem untouched_raw (junk : Nat → UInt8) (n : Nat) : Untouched junk (rawBuf junk n) := by
  intro i hi
  rw [rawBuf_length] at hi
  simp [rawBuf, hi]

/-! ## HMAC -/

section

variable (H : Bytes → Bytes) (junk : Nat → UInt8)

theorem hmac_ok_or_ub (N : Nat) (k m : Bytes) (n : Nat) (hn : n ≤ 64) :
    Mac.hmac H junk N (some k) (some m) false n = .ub ∨ ∃ d, Mac.hmac H junk N (some k) (some m) false n = .ok d := by
  unfold Mac.hmac
  rw [if_neg (by unfold digestSize; omega)]
  simp only [Bool.false_eq_true, if_false]
  generalize (if blockSize + m.length > digestSize then blockSize + m.length else digestSize) = bl
  generalize blockSize = bs
  rcases putAt_cases (rawBuf junk bl) 0 k with h | ⟨b1, h, _⟩ <;> simp only [h, Res.bind_ok, Res.bind_ub, true_or]
  rcases zeroTail_cases N b1 with h | ⟨b2, h, _⟩ <;> simp only [h, Res.bind_ok, Res.bind_ub, true_or]
  rcases xorFirst_cases bs 0x36 b2 with h | ⟨b3, h, _⟩ <;> simp only [h, Res.bind_ok, Res.bind_ub, true_or]
  rcases putAt_cases b3 bs m with h | ⟨b4, h, _⟩ <;> simp only [h, Res.bind_ok, Res.bind_ub, true_or]
  rcases putAt_cases b4 0 (H (b4.take (bs + m.length))) with h | ⟨b5, h, _⟩ <;> simp only [h, Res.bind_ok, Res.bind_ub, true_or]
  rcases putAt_cases (rawBuf junk (bs + digestSize)) 0 k with h | ⟨t1, h, _⟩ <;> simp only [h, Res.bind_ok, Res.bind_ub, true_or]
  rcases zeroTail_cases N t1 with h | ⟨t2, h, _⟩ <;> simp only [h, Res.bind_ok, Res.bind_ub, true_or]
  rcases xorFirst_cases bs 0x5c t2 with h | ⟨t3, h, _⟩ <;> simp only [h, Res.bind_ok, Res.bind_ub, true_or]
  rcases putAt_cases t3 bs (b5.take digestSize) with h | ⟨t4, h, _⟩ <;> simp only [h, Res.bind_ok, Res.bind_ub, true_or]
  rcases putAt_cases b5 0 (H (t4.take (bs + digestSize))) with h | ⟨b6, h, _⟩ <;> simp only [h, Res.bind_ok, Res.bind_ub, true_or]
  exact .inr ⟨_, rfl⟩

/-- The length of the heap block of HMAC. -/
def hmacLen (m : Bytes) : Nat := if blockSize + m.length > digestSize then blockSize + m.length else digestSize

theorem hmac_exact (N : Nat) (k m : Bytes) (n : Nat) (hn : n ≤ 64) :
    (hmac H junk N (some k) (some m) false n).res = Mac.hmac H junk N (some k) (some m) false n ∧
    ∀ d, Mac.hmac H junk N (some k) (some m) false n = .ok d →
      (hmac H junk N (some k) (some m) false n).left = [List.replicate (hmacLen m) 0, List.replicate (blockSize + digestSize) 0] := by
  unfold Mac.hmac hmac
  rw [if_neg (by unfold digestSize; omega), if_neg (by unfold digestSize; omega)]
  simp only [Bool.false_eq_true, if_false, Z.run, unlockGet, Z.lift_bind, onBuffer, onTmp]
  rw [show (if blockSize + m.length > digestSize then blockSize + m.length else digestSize) = hmacLen m from rfl]
  generalize hmacLen m = bl
  generalize blockSize = bs
  have hr1 := rawBuf_length junk bl
  have hr2 := rawBuf_length junk (bs + digestSize)
  rcases putAt_cases (rawBuf junk bl) 0 k with h | ⟨b1, h, l1⟩ <;> simp only [h, Z.upd_bind, Res.bind_ok, Res.bind_ub, Res.map_ok, Res.map_ub, Z.get_bind]
  · exact ⟨trivial, nofun⟩
  rcases zeroTail_cases N b1 with h | ⟨b2, h, l2⟩ <;> simp only [h, Res.bind_ok, Res.bind_ub, Res.map_ok, Res.map_ub]
  · exact ⟨trivial, nofun⟩
  rcases xorFirst_cases bs 0x36 b2 with h | ⟨b3, h, l3⟩ <;> simp only [h, Res.bind_ok, Res.bind_ub, Res.map_ok, Res.map_ub]
  · exact ⟨trivial, nofun⟩
  rcases putAt_cases b3 bs m with h | ⟨b4, h, l4⟩ <;> simp only [h, Res.bind_ok, Res.bind_ub, Res.map_ok, Res.map_ub]
  · exact ⟨trivial, nofun⟩
  rcases putAt_cases b4 0 (H (b4.take (bs + m.length))) with h | ⟨b5, h, l5⟩ <;> simp only [h, Res.bind_ok, Res.bind_ub, Res.map_ok, Res.map_ub]
  · exact ⟨trivial, nofun⟩
  rcases putAt_cases (rawBuf junk (bs + digestSize)) 0 k with h | ⟨t1, h, m1⟩ <;> simp only [h, Res.bind_ok, Res.bind_ub, Res.map_ok, Res.map_ub]
  · exact ⟨trivial, nofun⟩
  rcases zeroTail_cases N t1 with h | ⟨t2, h, m2⟩ <;> simp only [h, Res.bind_ok, Res.bind_ub, Res.map_ok, Res.map_ub]
  · exact ⟨trivial, nofun⟩
  rcases xorFirst_cases bs 0x5c t2 with h | ⟨t3, h, m3⟩ <;> simp only [h, Res.bind_ok, Res.bind_ub, Res.map_ok, Res.map_ub]
  · exact ⟨trivial, nofun⟩
  rcases putAt_cases t3 bs (b5.take digestSize) with h | ⟨t4, h, m4⟩ <;> simp only [h, Res.bind_ok, Res.bind_ub, Res.map_ok, Res.map_ub]
  · exact ⟨trivial, nofun⟩
  rcases putAt_cases b5 0 (H (t4.take (bs + digestSize))) with h | ⟨b6, h, l6⟩ <;> simp only [h, Res.bind_ok, Res.bind_ub, Res.map_ok, Res.map_ub]
  · exact ⟨trivial, nofun⟩
  have e1 : memzero bl b6 = .ok (List.replicate bl 0) := memzero_eq (by omega)
  have e2 : memzero (bs + digestSize) t4 = .ok (List.replicate (bs + digestSize) 0) := memzero_eq (by omega)
  simp only [e1, e2, Res.map_ok, Z.pure_run, List.nil_append]
  exact ⟨trivial, fun _ _ => trivial⟩

/-- An empty key: the exception comes before anything is stored. -/
theorem hmac_empty (N : Nat) (m : Bytes) (n : Nat) (hn : n ≤ 64) :
    hmac H junk N none (some m) false n = ⟨[rawBuf junk (hmacLen m), rawBuf junk (blockSize + digestSize)], .exc .runtimeError⟩ := by
  unfold hmac
  rw [if_neg (by unfold digestSize; omega)]
  rfl

end

/-- `HMac::hmac`: whatever the key, the message and the lengths, the result is the one of the model of C16, and both buffers are erased
when it returns; when it throws they were not written. -/
theorem c109_hmac (H : Bytes → Bytes) (junk : Nat → UInt8) (N : Nat) (key inp : Option Bytes) (outNull : Bool) (n : Nat) :
    (hmac H junk N key inp outNull n).res = Mac.hmac H junk N key inp outNull n ∧ Tidy junk (hmac H junk N key inp outNull n) := by
  by_cases hn : n ≤ 64
  swap
  · have hn' : n > digestSize := by unfold digestSize; omega
    unfold hmac Mac.hmac
    rw [if_pos hn', if_pos hn']
    exact ⟨rfl, nofun⟩
  have hn' : ¬ n > digestSize := by unfold digestSize; omega
  rcases inp with _ | m
  · unfold hmac Mac.hmac
    rw [if_neg hn', if_neg hn']
    exact ⟨rfl, nofun⟩
  cases outNull
  swap
  · unfold hmac Mac.hmac
    rw [if_neg hn', if_neg hn']
    exact ⟨rfl, nofun⟩
  rcases key with _ | k
  · rw [hmac_empty H junk N m n hn]
    refine ⟨?_, ?_⟩
    · unfold Mac.hmac
      rw [if_neg hn']
      rfl
    · intro b hb
      simp only [List.mem_cons, List.not_mem_nil, or_false] at hb
      rcases hb with rfl | rfl <;> exact .inr (untouched_raw _ _)
  · obtain ⟨h1, h2⟩ := hmac_exact H junk N k m n hn
    refine ⟨h1, ?_⟩
    unfold Tidy
    rw [h1]
    rcases hmac_ok_or_ub H junk N k m n hn with h | ⟨d, h⟩
    · rw [h]; trivial
    · have := h2 d h
      rw [h]
      intro b hb
      rw [this] at hb
      simp only [List.mem_cons, List.not_mem_nil, or_false] at hb
      rcases hb with rfl | rfl <;> exact erased_replicate _

example : (∃ d, (hmac toyH (fun _ => 7) 4 (some [1, 2, 3, 4]) (some [5, 6]) false 8).res = .ok d) ∧
    (hmac toyH (fun _ => 7) 4 (some [1, 2, 3, 4]) (some [5, 6]) false 8).left = [List.replicate 130 0, List.replicate 192 0] := by
  obtain ⟨d, h⟩ : ∃ d, Mac.hmac toyH (fun _ => 7) 4 (some [1, 2, 3, 4]) (some [5, 6]) false 8 = .ok d :=
    ⟨_, hmac_eq toyH_length _ 4 [1, 2, 3, 4] [5, 6] rfl (by decide) 8 (by decide)⟩
  exact ⟨⟨d, by rw [(hmac_exact _ _ _ _ _ _ (by decide)).1, h]⟩, (hmac_exact _ _ _ _ _ _ (by decide)).2 d h⟩

/-! ## The pseudo-random function -/

section

variable (H : Bytes → Bytes) (junk : Nat → UInt8)

theorem prfLoop_exact (k m : Bytes) (nb : Nat) : ∀ (fuel pos i : Nat) (s : PrfBufs) (r : Res Bytes), s.tmp.length = m.length + 1 →
    s.tmp.take m.length = m → Mac.prfLoop H junk (some k) m nb fuel pos i s.result = some r →
    (r = .ub ∧ (prfLoop H junk (some k) m.length nb fuel pos i s).res = .ub) ∨
    (∃ d, r = .ok d ∧ (prfLoop H junk (some k) m.length nb fuel pos i s).res = .ok () ∧
      (prfLoop H junk (some k) m.length nb fuel pos i s).st.result = d ∧
      (prfLoop H junk (some k) m.length nb fuel pos i s).st.tmp.length = m.length + 1 ∧
      ∀ b ∈ (prfLoop H junk (some k) m.length nb fuel pos i s).left, Erased b)
  | 0, _, _, _, _, _, _, h => by simp [Mac.prfLoop] at h
  | fuel + 1, pos, i, s, r, hl, ht, h => by
    unfold Mac.prfLoop at h
    unfold prfLoop
    by_cases hp : pos < nb
    swap
    · rw [if_neg hp] at h ⊢
      obtain rfl := Option.some.inj h
      exact .inr ⟨_, rfl, rfl, rfl, hl, nofun⟩
    rw [if_pos hp] at h ⊢
    simp only [] at h
    have e1 : putAt s.tmp m.length [UInt8.ofNat i] = .ok (m ++ [UInt8.ofNat i]) := by
      rw [putAt_le (by simp; omega), ht, List.drop_eq_nil_of_le (by simp; omega), List.append_nil]
    have hw : (if nb - pos ≥ digestSize then digestSize else nb - pos) ≤ 64 := by unfold digestSize; split <;> omega
    obtain ⟨h1, h2⟩ := hmac_exact H junk 32 k (m ++ [UInt8.ofNat i]) _ hw
    simp only [Z.upd_bind, e1, Res.map_ok, Z.get_bind, Z.call_bind, h1]
    rcases hmac_ok_or_ub H junk 32 k (m ++ [UInt8.ofNat i]) _ hw with hh | ⟨d, hh⟩
    · rw [hh] at h ⊢
      exact .inl ⟨(Option.some.inj h).symm, rfl⟩
    · have h3 := h2 d hh
      rw [hh] at h ⊢
      simp only [Res.bind_ok] at h ⊢
      rcases putAt_cases s.result pos d with hq | ⟨res', hq, _⟩
      · rw [hq] at h ⊢
        exact .inl ⟨(Option.some.inj h).symm, rfl⟩
      · rw [hq] at h ⊢
        simp only [Res.map_ok] at h ⊢
        have := prfLoop_exact k m nb fuel ((pos + digestSize) % 65536) ((i + 1) % 256) ⟨m ++ [UInt8.ofNat i], res'⟩ r (by simp)
          (by simp) h
        rcases this with ⟨hr, hx⟩ | ⟨dd, hr, hx, hy, hz, hw⟩
        · exact .inl ⟨hr, hx⟩
        · refine .inr ⟨dd, hr, hx, hy, hz, ?_⟩
          intro b hb
          rw [h3, List.mem_append] at hb
          rcases hb with hb | hb
          · simp only [List.mem_cons, List.not_mem_nil, or_false] at hb
            rcases hb with rfl | rfl <;> exact erased_replicate _
          · exact hw b hb

theorem Tidy.of_ok {α : Type} {junk : Nat → UInt8} {o : Out α} {a : α} (h : o.res = .ok a) (hl : ∀ b ∈ o.left, Erased b) : Tidy junk o := by
  unfold Tidy; rw [h]; exact hl

theorem Tidy.of_ub {α : Type} {junk : Nat → UInt8} {o : Out α} (h : o.res = .ub) : Tidy junk o := by
  unfold Tidy; rw [h]; trivial

theorem Tidy.of_exc {α : Type} {junk : Nat → UInt8} {o : Out α} {e : Exc} (h : o.res = .exc e)
    (hl : ∀ b ∈ o.left, Erased b ∨ Untouched junk b) : Tidy junk o := by
  unfold Tidy; rw [h]; exact hl

end

/-- `Prf::prf`: the result is the one of the model of C17, and with a key all memory given up is erased, of the function and of the calls of
HMAC; with an empty key this holds for outputs of one block. -/
theorem c109_prf (H : Bytes → Bytes) (junk : Nat → UInt8) (key inp : Option Bytes) (nb fuel : Nat) (r : Res Bytes)
    (h : Mac.prf H junk key nb fuel inp = some r) :
    (prf H junk key nb fuel inp).res = r ∧ (key.isSome ∨ nb ≤ 64 → Tidy junk (prf H junk key nb fuel inp)) := by
  rcases inp with _ | m
  · obtain rfl := Option.some.inj h
    exact ⟨rfl, fun _ => nofun⟩
  unfold Mac.prf at h
  simp only [] at h
  by_cases hn : nb > digestSize
  swap
  · rw [if_neg hn] at h
    obtain rfl := Option.some.inj h
    have hn' : nb ≤ 64 := by unfold digestSize at hn; omega
    obtain ⟨h1, h2⟩ := c109_hmac H junk 32 key (some m) false nb
    have e : prf H junk key nb fuel (some m) = ⟨(hmac H junk 32 key (some m) false nb).left ++
        (match (hmac H junk 32 key (some m) false nb).res with | .ok _ => [] | _ => [rawBuf junk nb]),
        (hmac H junk 32 key (some m) false nb).res⟩ := by
      unfold prf
      simp only []
      rw [if_neg hn]
      rfl
    rw [e]
    refine ⟨h1, fun _ => ?_⟩
    unfold Tidy at h2 ⊢
    simp only []
    cases hr : (hmac H junk 32 key (some m) false nb).res with
    | ok d => simpa [hr] using h2
    | exc e =>
      rw [hr] at h2
      intro b hb
      simp only [List.mem_append, List.mem_cons, List.not_mem_nil, or_false] at hb
      rcases hb with hb | rfl
      · exact h2 b hb
      · exact .inr (untouched_raw _ _)
    | ub => trivial
  · rw [if_pos hn] at h
    have e0 : putAt (rawBuf junk (m.length + 1)) 0 m = .ok (m ++ (rawBuf junk (m.length + 1)).drop m.length) := by
      rw [putAt_le (by rw [rawBuf_length]; omega)]
      simp
    have hl : (m ++ (rawBuf junk (m.length + 1)).drop m.length).length = m.length + 1 := by
      rw [List.length_append, List.length_drop, rawBuf_length]; omega
    unfold prf
    simp only []
    rw [if_pos hn]
    simp only [Z.run, Z.upd_bind, e0, Res.map_ok]
    rcases key with _ | k
    · -- the first call of HMAC throws
      refine ⟨?_, fun hc => absurd hc (by unfold digestSize at hn; simp; omega)⟩
      cases fuel with
      | zero => simp [Mac.prfLoop] at h
      | succ fuel =>
        have hp : 0 < nb := by omega
        have hw : (if nb - 0 ≥ digestSize then digestSize else nb - 0) ≤ 64 := by unfold digestSize; split <;> omega
        have hh : Mac.hmac H junk 32 none (some (m ++ [UInt8.ofNat 0])) false (if nb - 0 ≥ digestSize then digestSize else nb - 0) =
            .exc .runtimeError := by
          unfold Mac.hmac
          rw [if_neg (by unfold digestSize at hw ⊢; omega)]
          rfl
        unfold Mac.prfLoop at h
        rw [if_pos hp] at h
        simp only [] at h
        rw [hh] at h
        obtain rfl := Option.some.inj h
        have e1 : putAt (m ++ (rawBuf junk (m.length + 1)).drop m.length) m.length [UInt8.ofNat 0] = .ok (m ++ [UInt8.ofNat 0]) := by
          rw [putAt_le (by rw [hl]; simp), List.take_left, List.drop_eq_nil_of_le (by rw [hl]; simp), List.append_nil]
        have e2 : (prfLoop H junk none m.length nb (fuel + 1) 0 0 ⟨m ++ (rawBuf junk (m.length + 1)).drop m.length, rawBuf junk nb⟩).res =
            .exc .runtimeError := by
          unfold prfLoop
          rw [if_pos hp]
          simp only [Z.upd_bind, e1, Res.map_ok, Z.get_bind, Z.call_bind]
          rw [hmac_empty H junk 32 _ _ hw]
        show (Z.bind _ _ _).res = _
        unfold Z.bind
        rw [e2]
        rfl
    · have := prfLoop_exact H junk k m nb fuel 0 0 ⟨m ++ (rawBuf junk (m.length + 1)).drop m.length, rawBuf junk nb⟩ r hl (by simp) h
      rcases this with ⟨rfl, hx⟩ | ⟨d, rfl, hx, hy, hz, hw⟩
      · have e : ∀ g : Unit → Z PrfBufs Bytes, ((prfLoop H junk (some k) m.length nb fuel 0 0 >>= g)
            ⟨m ++ (rawBuf junk (m.length + 1)).drop m.length, rawBuf junk nb⟩).res = .ub := by
          intro g
          show (Z.bind _ _ _).res = _
          unfold Z.bind
          rw [hx]
        exact ⟨e _, fun _ => Tidy.of_ub (e _)⟩
      · have e : ∀ g : Unit → Z PrfBufs Bytes, ((prfLoop H junk (some k) m.length nb fuel 0 0 >>= g)
            ⟨m ++ (rawBuf junk (m.length + 1)).drop m.length, rawBuf junk nb⟩) =
            ⟨(prfLoop H junk (some k) m.length nb fuel 0 0 ⟨m ++ (rawBuf junk (m.length + 1)).drop m.length, rawBuf junk nb⟩).left ++
              (g () (prfLoop H junk (some k) m.length nb fuel 0 0 ⟨m ++ (rawBuf junk (m.length + 1)).drop m.length, rawBuf junk nb⟩).st).left,
              (g () (prfLoop H junk (some k) m.length nb fuel 0 0 ⟨m ++ (rawBuf junk (m.length + 1)).drop m.length, rawBuf junk nb⟩).st).st,
              (g () (prfLoop H junk (some k) m.length nb fuel 0 0 ⟨m ++ (rawBuf junk (m.length + 1)).drop m.length, rawBuf junk nb⟩).st).res⟩ := by
          intro g
          show Z.bind _ _ _ = _
          unfold Z.bind
          rw [hx]
        simp only [e, Z.upd_bind, memzero_eq hz, Res.map_ok, Z.get_bind, Z.pure_run, hy, List.append_nil]
        refine ⟨trivial, fun _ => Tidy.of_ok rfl ?_⟩
        intro b hb
        simp only [List.mem_append, List.mem_cons, List.not_mem_nil, or_false] at hb
        rcases hb with hb | rfl
        · exact hw b hb
        · exact erased_replicate _

/-- The exception: an object without a key, with an output of more than one block.  The heap block with the message is never erased. -/
theorem c109_prf_empty_false (H : Bytes → Bytes) (junk : Nat → UInt8) (m : Bytes) (nb fuel : Nat) (hn : 64 < nb) :
    ∃ l, (prf H junk none nb (fuel + 1) (some m)).res = .exc .runtimeError ∧ (prf H junk none nb (fuel + 1) (some m)).left = l ∧ m ++ [0] ∈ l := by
  refine ⟨_, ?_, rfl, ?_⟩ <;> unfold prf <;> simp only [] <;> rw [if_pos (by unfold digestSize; omega)]
  all_goals
    have e0 : putAt (rawBuf junk (m.length + 1)) 0 m = .ok (m ++ (rawBuf junk (m.length + 1)).drop m.length) := by
      rw [putAt_le (by rw [rawBuf_length]; omega)]
      simp
    have hl : (m ++ (rawBuf junk (m.length + 1)).drop m.length).length = m.length + 1 := by
      rw [List.length_append, List.length_drop, rawBuf_length]; omega
    have e1 : putAt (m ++ (rawBuf junk (m.length + 1)).drop m.length) m.length [UInt8.ofNat 0] = .ok (m ++ [UInt8.ofNat 0]) := by
      rw [putAt_le (by rw [hl]; simp), List.take_left, List.drop_eq_nil_of_le (by rw [hl]; simp), List.append_nil]
    have hp : 0 < nb := by omega
    have hw : (if nb - 0 ≥ digestSize then digestSize else nb - 0) ≤ 64 := by unfold digestSize; split <;> omega
    have e2 : prfLoop H junk none m.length nb (fuel + 1) 0 0 ⟨m ++ (rawBuf junk (m.length + 1)).drop m.length, rawBuf junk nb⟩ =
        ⟨[rawBuf junk (hmacLen (m ++ [UInt8.ofNat 0])), rawBuf junk (blockSize + digestSize)], ⟨m ++ [UInt8.ofNat 0], rawBuf junk nb⟩,
          .exc .runtimeError⟩ := by
      unfold prfLoop
      rw [if_pos hp]
      simp only [Z.upd_bind, e1, Res.map_ok, Z.get_bind, Z.call_bind]
      rw [hmac_empty H junk 32 _ _ hw]
    have e3 : ∀ g : Unit → Z PrfBufs Bytes, (prfLoop H junk none m.length nb (fuel + 1) 0 0 >>= g)
        ⟨m ++ (rawBuf junk (m.length + 1)).drop m.length, rawBuf junk nb⟩ =
        ⟨[rawBuf junk (hmacLen (m ++ [UInt8.ofNat 0])), rawBuf junk (blockSize + digestSize)], ⟨m ++ [UInt8.ofNat 0], rawBuf junk nb⟩,
          .exc .runtimeError⟩ := by
      intro g
      show Z.bind _ _ _ = _
      unfold Z.bind
      rw [e2]
    simp only [Z.run, Z.upd_bind, e0, Res.map_ok, e3]
  · simp

/-- `Prf::derive_key`: the temporary array is erased by the constructor of `Key`. -/
theorem c109_derive_key (H : Bytes → Bytes) (junk : Nat → UInt8) (key inp : Option Bytes) (nb fuel : Nat) (d : Bytes) (hd : d.length = nb)
    (h : Mac.prf H junk key nb fuel inp = some (.ok d)) (hk : key.isSome ∨ nb ≤ 64) :
    (deriveKey H junk key nb fuel inp).res = .ok d ∧ ∀ b ∈ (deriveKey H junk key nb fuel inp).left, Erased b := by
  obtain ⟨h1, h2⟩ := c109_prf H junk key inp nb fuel _ h
  have h3 := h2 hk
  unfold Tidy at h3
  rw [h1] at h3
  unfold deriveKey
  simp only [Z.run, Z.call_bind, h1, Z.upd_bind]
  have e : (keyFrom nb (fun s : Option Bytes => s.getD []) (fun b _ => some b)) (some d) = ⟨[], some (List.replicate nb 0), .ok d⟩ := by
    unfold keyFrom
    have : Cipher.slice d 0 nb = .ok d := by
      unfold Cipher.slice; rw [if_neg (by omega), List.drop_zero, List.take_of_length_le (by omega)]
    simp only [Z.get_bind, Z.lift_bind, Option.getD_some, this, Z.upd_bind, memzero_eq hd, Res.map_ok, Z.pure_run]
  rw [e]
  refine ⟨rfl, ?_⟩
  intro b hb
  simp only [List.append_nil, Option.toList_some, List.mem_append, List.mem_cons, List.not_mem_nil, or_false] at hb
  rcases hb with hb | rfl
  · exact h3 b hb
  · exact erased_replicate _

example : ∃ d, Mac.prf toyH (fun _ => 9) (some (List.replicate 32 1)) 100 1024 (some [5, 6]) = some (.ok d) ∧ d.length = 100 :=
  ⟨_, c17_prf toyH_length _ _ _ (by decide) 100 (by decide) 1024 (by decide), c17_length toyH_length _ _ _⟩

end Verif.Scrub
